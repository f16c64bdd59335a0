import Verif.Model.SolveArguments
import Verif.Props.AbsorbedGradient
import Verif.Props.Configurations
import Verif.Props.Evaluation
import Verif.Model.Estimation

set_option linter.unusedSectionVars false

/-!
# C123: arguments of `solve`, and that starting values and placeholders do not matter unless there are errors
-/

namespace Pyblp

open Classical

/-! ## Arguments -/

namespace Spec

/-- Bounds for shares or costs: none are infinite ones, and given ones are two numbers, where NaN or None is no bound, in the right order. -/
def BoundsAre (given : Option (List (List Fl))) (bounds : Fl × Fl) : Prop :=
  (given = none ∧ bounds = (some ⊥, some ⊤)) ∨
    ∃ l u : Fl, ∃ a b : EReal, given = some [[l], [u]] ∧ bounds = (some a, some b) ∧ a ≤ b ∧
      (l = some a ∨ l = none ∧ a = ⊥) ∧ (u = some b ∨ u = none ∧ b = ⊤)

/-- Warnings about a matrix: its condition number cannot be computed or is larger than the tolerance. -/
def SingularityWarnings (tolerance : EReal) (condition : Fl) (warnings : List SingularityWarning) : Prop :=
  if tolerance = ⊤ then warnings = []
  else (condition = none → warnings = [.failed]) ∧ ∀ c, condition = some c →
    warnings = if c ≤ tolerance then [] else if c = ⊤ then [.singular] else [.nearly]

/-- A given matrix that is accepted. -/
def MatrixAccepted (size : ℕ) (m : MatrixArgument) : Prop := m.rows = size ∧ m.columns = size ∧ m.psd = true

/-- What `solve` accepts, and how it begins. -/
structure SolveAccepts (x : SolveContext) (a : SolveArguments) (s : SolveSetup) : Prop where
  method : a.method = "1s" ∨ a.method = "2s"
  optimization : a.optimization ≠ .other
  checkOptimality : a.checkOptimality = "gradient" ∨ a.checkOptimality = "both"
  errorBehavior : a.errorBehavior = "revert" ∨ a.errorBehavior = "punish" ∨ a.errorBehavior = "raise"
  errorPunishment : ∃ y, IsNumber a.errorPunishment y ∧ ∀ r, y = some r → 0 ≤ r
  deltaBehavior : a.deltaBehavior = "last" ∨ a.deltaBehavior = "logit" ∨ a.deltaBehavior = "first"
  iteration : a.iteration ≠ .other
  fpType : a.fpType = "safe_linear" ∨ a.fpType = "linear" ∨ ((a.fpType = "safe_nonlinear" ∨ a.fpType = "nonlinear") ∧ x.epsilonScale = some 1)
  wType : a.wType = "robust" ∨ a.wType = "unadjusted" ∨ a.wType = "clustered" ∧ x.clustered = true
  seType : a.seType = "robust" ∨ a.seType = "unadjusted" ∨ a.seType = "clustered" ∧ x.clustered = true
  demand : SideAccepts x.MD x.MC x.absorbsDemand a.demandMomentTypes s.demandMomentTypes
  supply : SideAccepts x.MS x.MC x.absorbsSupply a.supplyMomentTypes s.supplyMomentTypes
  mean : ∃ y, IsNumber a.covarianceMomentsMean y
  sharesBounds : BoundsAre a.sharesBounds s.sharesBounds
  costsBounds : BoundsAre a.costsBounds s.costsBounds
  resample : a.resampleAgentData ≠ .other
  givenW : s.givenW = true ↔ ∃ m, a.W = some m
  givenDelta : s.givenDelta = true ↔ ∃ d, a.deltaShape = some d
  delta : ∀ d, a.deltaShape = some d → d = (x.N, 1)
  rest : ∃ MM unfixed eliminated, x.moments = .ok MM ∧ x.parameters = .ok (unfixed, eliminated) ∧
    (∀ m, 0 < MM → a.microSampleCovariances = some m → MatrixAccepted MM m) ∧
    (∀ m, a.W = some m → MatrixAccepted (x.MD + x.MS + x.MC + MM) m) ∧ (a.W = none → x.invertible = true) ∧
    (0 < MM → a.W = none → a.initialUpdate ≠ some false) ∧
    (s.initialUpdate = true ↔ a.initialUpdate = some true ∨ (a.initialUpdate = none ∧ 0 < MM ∧ a.W = none)) ∧
    (s.underidentified = true ↔ x.MD + x.MS + x.MC + MM < unfixed + eliminated) ∧
    ∃ w w', s.warnings = w ++ w' ∧
      (match a.microSampleCovariances with
        | some m => if 0 < MM then SingularityWarnings x.singularTolerance m.condition w else w = []
        | none => w = []) ∧
      SingularityWarnings x.singularTolerance (match a.W with | some m => m.condition | none => x.defaultCondition) w'

end Spec

theorem coerceBounds_iff (given : Option (List (List Fl))) (b : Fl × Fl) : coerceBounds given = .ok b ↔ Spec.BoundsAre given b := by
  unfold Spec.BoundsAre
  rcases given with _ | given
  · simp [coerceBounds, eq_comm]
  · rcases given with _ | ⟨lower, _ | ⟨upper, _ | ⟨c, l⟩⟩⟩
    · simp [coerceBounds]
    · simp [coerceBounds]
    · rcases lower with _ | ⟨l, _ | ⟨l', ls⟩⟩
      · simp [coerceBounds, boundOr]
      · rcases upper with _ | ⟨u, _ | ⟨u', us⟩⟩
        · simp [coerceBounds, boundOr]
        · simp only [coerceBounds, boundOr, List.map_cons, List.map_nil]
          rw [errorIf]
          unfold flGreater Fl.lt
          simp only [reduceCtorEq, false_and, false_or, Option.some.injEq, List.cons.injEq, and_true]
          constructor
          · rintro ⟨h1, h2⟩
            refine ⟨l, u, l.getD ⊥, u.getD ⊤, ⟨rfl, rfl⟩, (Except.ok.inj h2).symm, ?_, ?_, ?_⟩
            · by_contra h3
              exact h1 ⟨_, _, rfl, rfl, not_le.mp h3⟩
            · cases l <;> simp
            · cases u <;> simp
          · rintro ⟨l', u', a, b', ⟨rfl, rfl⟩, rfl, hab, hl, hu⟩
            have h1 : l.getD ⊥ = a := by rcases hl with rfl | ⟨rfl, rfl⟩ <;> rfl
            have h2 : u.getD ⊤ = b' := by rcases hu with rfl | ⟨rfl, rfl⟩ <;> rfl
            rw [h1, h2]
            refine ⟨?_, rfl⟩
            rintro ⟨p, q, hp, hq, hlt⟩
            rw [← hp, ← hq] at hlt
            exact absurd hab (not_le.mpr hlt)
        · simp [coerceBounds, boundOr]
      · rcases upper with _ | ⟨u, _ | ⟨u', us⟩⟩ <;> simp [coerceBounds, boundOr]
    · simp [coerceBounds]

theorem detectSingularity_iff (tolerance : EReal) (condition : Fl) (w : List SingularityWarning) :
    w = detectSingularity tolerance condition ↔ Spec.SingularityWarnings tolerance condition w := by
  unfold detectSingularity Spec.SingularityWarnings
  by_cases h : tolerance = ⊤
  · simp [h]
  · rw [if_neg h, if_pos (lt_top_iff_ne_top.mpr h)]
    cases condition with
    | none => simp
    | some c =>
      simp only [reduceCtorEq, false_imp_iff, true_and, Option.some.injEq, forall_eq']
      by_cases hc : c ≤ tolerance
      · simp [hc, not_lt.mpr hc]
      · rw [if_neg hc, if_pos (not_le.mp hc)]
        by_cases ht : c = ⊤
        · simp [ht]
        · simp [ht, lt_top_iff_ne_top]

theorem punishment_iff (v : PyValue) : ¬ badPunishment v ↔ ∃ y, Spec.IsNumber v y ∧ ∀ r, y = some r → 0 ≤ r := by
  unfold badPunishment
  cases h : v.number with
  | none =>
    simp only [not_true_eq_false, false_iff, not_exists, not_and]
    intro y hy
    rw [(number_iff v y).mpr hy] at h
    exact absurd h (by simp)
  | some y =>
    simp only
    unfold flNegative Fl.lt
    constructor
    · intro hn
      refine ⟨y, (number_iff v y).mp h, fun r hr => ?_⟩
      by_contra hlt
      exact hn ⟨r, 0, hr, rfl, not_le.mp hlt⟩
    · rintro ⟨y', hy', hr⟩ ⟨p, q, hp, hq, hlt⟩
      have : y' = y := by
        rw [(number_iff v y').mpr hy'] at h
        exact Option.some.inj h
      subst this
      have h0 := hr p hp
      rw [← Option.some.inj hq] at hlt
      exact absurd h0 (not_le.mpr hlt)

theorem checkMatrix_iff (tolerance : EReal) (size : ℕ) (m : MatrixArgument) (w : List SingularityWarning) :
    checkMatrix tolerance size m = .ok w ↔ Spec.MatrixAccepted size m ∧ Spec.SingularityWarnings tolerance m.condition w := by
  unfold checkMatrix Spec.MatrixAccepted
  rw [errorIf, errorIf, ← detectSingularity_iff, Except.ok.injEq, eq_comm (b := w)]
  simp only [not_not, Bool.not_eq_false]
  tauto

/-- **C123.** `solve` begins exactly if all of its arguments are valid, and it begins with what was asked for. Moment types are those of
C119 and fixed points those of C110. Positive numbers are asked for in the error message about `error_punishment`, but zero and NaN are
accepted. -/
theorem C123_accepts (x : SolveContext) (a : SolveArguments) (s : SolveSetup) : checkSolve x a = .ok s ↔ Spec.SolveAccepts x a s := by
  have hstr : checkStrings x a = .ok () ↔ (a.method = "1s" ∨ a.method = "2s") ∧ a.optimization ≠ .other ∧
      (a.checkOptimality = "gradient" ∨ a.checkOptimality = "both") ∧
      (a.errorBehavior = "revert" ∨ a.errorBehavior = "punish" ∨ a.errorBehavior = "raise") ∧
      (∃ y, Spec.IsNumber a.errorPunishment y ∧ ∀ r, y = some r → 0 ≤ r) ∧
      (a.deltaBehavior = "last" ∨ a.deltaBehavior = "logit" ∨ a.deltaBehavior = "first") ∧ a.iteration ≠ .other ∧
      (a.fpType = "safe_linear" ∨ a.fpType = "linear" ∨ ((a.fpType = "safe_nonlinear" ∨ a.fpType = "nonlinear") ∧ x.epsilonScale = some 1)) ∧
      (a.wType = "robust" ∨ a.wType = "unadjusted" ∨ a.wType = "clustered" ∧ x.clustered = true) ∧
      (a.seType = "robust" ∨ a.seType = "unadjusted" ∨ a.seType = "clustered" ∧ x.clustered = true) := by
    rw [← C110_fp_type, ← punishment_iff]
    unfold checkStrings
    simp only [errorIf, not_not, List.mem_cons, List.not_mem_nil, or_false, ne_eq]
    cases hf : validateFpType x.epsilonScale a.fpType with
    | error e => simp
    | ok u =>
      simp only [errorIf, not_not, and_true, true_and]
      have hw : (a.wType = "robust" ∨ a.wType = "unadjusted" ∨ a.wType = "clustered") ∧ (a.seType = "robust" ∨ a.seType = "unadjusted" ∨ a.seType = "clustered") ∧
          ¬((a.wType = "clustered" ∨ a.seType = "clustered") ∧ x.clustered = false) ↔
          (a.wType = "robust" ∨ a.wType = "unadjusted" ∨ a.wType = "clustered" ∧ x.clustered = true) ∧
            (a.seType = "robust" ∨ a.seType = "unadjusted" ∨ a.seType = "clustered" ∧ x.clustered = true) := by
        cases x.clustered
        · by_cases h1 : a.wType = "clustered" <;> by_cases h2 : a.seType = "clustered" <;> simp [h1, h2]
        · simp
      rw [hw]
  unfold checkSolve
  constructor
  · intro h
    cases h1 : checkStrings x a with
    | error e => simp [h1] at h
    | ok u =>
    cases h2 : validateSides x.MD x.MS x.MC x.absorbsDemand x.absorbsSupply a.demandMomentTypes a.supplyMomentTypes with
    | error e => simp [h1, h2] at h
    | ok t =>
    obtain ⟨demand, supply⟩ := t
    simp only [h1, h2, errorIf] at h
    obtain ⟨hmean, h⟩ := h
    cases h3 : coerceBounds a.sharesBounds with
    | error e => simp [h3] at h
    | ok sb =>
    cases h4 : coerceBounds a.costsBounds with
    | error e => simp [h3, h4] at h
    | ok cb =>
    cases h5 : x.moments with
    | error e => simp [h3, h4, h5] at h
    | ok MM =>
    cases h6 : checkMicroCovariances x.singularTolerance MM a.microSampleCovariances with
    | error e => simp [h3, h4, h5, h6] at h
    | ok w =>
    simp only [h3, h4, h5, h6, errorIf] at h
    obtain ⟨hres, h⟩ := h
    cases h7 : chooseInitialUpdate a.initialUpdate (decide (0 < MM)) a.W.isSome with
    | error e => simp [h7] at h
    | ok iu =>
    cases h8 : x.parameters with
    | error e => simp [h7, h8] at h
    | ok pe =>
    obtain ⟨unfixed, eliminated⟩ := pe
    cases h9 : checkWeights x (x.MD + x.MS + x.MC + MM) a.W with
    | error e => simp [h7, h8, h9] at h
    | ok w' =>
    simp only [h7, h8, h9, errorIf, Except.ok.injEq] at h
    obtain ⟨hd, rfl⟩ := h
    obtain ⟨a1, a2, a3, a4, a5, a6, a7, a8, a9, a10⟩ := hstr.mp h1
    obtain ⟨b1, b2⟩ := (C119_sides _ _ _ _ _ _ _ _ _).mp h2
    refine ⟨a1, a2, a3, a4, a5, a6, a7, a8, a9, a10, b1, b2, ?_, (coerceBounds_iff _ _).mp h3, (coerceBounds_iff _ _).mp h4, hres, ?_, ?_, ?_,
      MM, unfixed, eliminated, h5, h8, ?_, ?_, ?_, ?_, ?_, ?_, w, w', rfl, ?_, ?_⟩
    · cases hn : a.covarianceMomentsMean.number with
      | none => exact absurd hn hmean
      | some y => exact ⟨y, (number_iff _ _).mp hn⟩
    · simp [Option.isSome_iff_exists]
    · simp [Option.isSome_iff_exists]
    · intro d hds
      by_contra hne
      exact hd ⟨d, hds, hne⟩
    · intro m hMM hm
      rw [hm] at h6
      simp only [checkMicroCovariances, if_pos hMM] at h6
      exact ((checkMatrix_iff _ _ _ _).mp h6).1
    · intro m hm
      rw [hm] at h9
      simp only [checkWeights] at h9
      exact ((checkMatrix_iff _ _ _ _).mp h9).1
    · intro hW
      rw [hW] at h9
      simp only [checkWeights] at h9
      by_contra hi
      rw [if_neg hi] at h9
      exact absurd h9 (by simp)
    · intro hMM hW hf
      rw [hf, hW] at h7
      simp [chooseInitialUpdate, hMM] at h7
    · revert h7
      rcases a.initialUpdate with _ | _ | _ <;> cases a.W <;> by_cases hMM : 0 < MM <;> cases iu <;> simp [chooseInitialUpdate, hMM]
    · simp
    · revert h6
      cases a.microSampleCovariances with
      | none =>
        intro h6
        simp only [checkMicroCovariances, Except.ok.injEq] at h6
        exact h6.symm
      | some m =>
        intro h6
        simp only [checkMicroCovariances] at h6
        by_cases hMM : 0 < MM
        · simp only [if_pos hMM] at h6 ⊢
          exact ((checkMatrix_iff _ _ _ _).mp h6).2
        · simp only [if_neg hMM, Except.ok.injEq] at h6 ⊢
          exact h6.symm
    · revert h9
      cases a.W with
      | none =>
        intro h9
        simp only [checkWeights] at h9
        by_cases hi : x.invertible = true
        · rw [if_pos hi, Except.ok.injEq] at h9
          exact (detectSingularity_iff _ _ _).mp h9.symm
        · rw [if_neg hi] at h9
          exact absurd h9 (by simp)
      | some m =>
        intro h9
        simp only [checkWeights] at h9
        exact ((checkMatrix_iff _ _ _ _).mp h9).2
  · rintro ⟨a1, a2, a3, a4, a5, a6, a7, a8, a9, a10, b1, b2, hmean, hsb, hcb, hres, hgw, hgd, hd, MM, unfixed, eliminated, hmom, hpar, hmc, hmw, hinv,
      hinit, hiu, hunder, w, w', hwarn, hw, hw'⟩
    have h1 := hstr.mpr ⟨a1, a2, a3, a4, a5, a6, a7, a8, a9, a10⟩
    have h2 := (C119_sides x.MD x.MS x.MC x.absorbsDemand x.absorbsSupply a.demandMomentTypes a.supplyMomentTypes _ _).mpr ⟨b1, b2⟩
    have h3 := (coerceBounds_iff _ _).mpr hsb
    have h4 := (coerceBounds_iff _ _).mpr hcb
    have h6 : checkMicroCovariances x.singularTolerance MM a.microSampleCovariances = .ok w := by
      revert hw hmc
      cases a.microSampleCovariances with
      | none =>
        intro _ hw
        simp only at hw
        rw [hw]
        rfl
      | some m =>
        intro hmc hw
        simp only [checkMicroCovariances] at hw ⊢
        by_cases hMM : 0 < MM
        · rw [if_pos hMM] at hw ⊢
          exact (checkMatrix_iff _ _ _ _).mpr ⟨hmc m hMM rfl, hw⟩
        · rw [if_neg hMM] at hw ⊢
          rw [hw]
    have h7 : chooseInitialUpdate a.initialUpdate (decide (0 < MM)) a.W.isSome = .ok s.initialUpdate := by
      revert hiu hinit
      generalize s.initialUpdate = iu
      rcases a.initialUpdate with _ | _ | _ <;> cases a.W <;> by_cases hMM : 0 < MM <;> cases iu <;> simp [chooseInitialUpdate, hMM]
    have h9 : checkWeights x (x.MD + x.MS + x.MC + MM) a.W = .ok w' := by
      revert hw' hmw hinv
      cases a.W with
      | none =>
        intro _ hinv hw'
        simp only [checkWeights]
        rw [if_pos (hinv rfl), ← (detectSingularity_iff _ _ _).mpr hw']
      | some m =>
        intro hmw _ hw'
        simp only [checkWeights]
        exact (checkMatrix_iff _ _ _ _).mpr ⟨hmw m rfl, hw'⟩
    have hmean' : a.covarianceMomentsMean.number ≠ none := by
      obtain ⟨y, hy⟩ := hmean
      rw [(number_iff _ _).mpr hy]
      simp
    have hd' : ¬ ∃ d, a.deltaShape = some d ∧ d ≠ (x.N, 1) := by
      rintro ⟨d, hd1, hd2⟩
      exact hd2 (hd d hd1)
    simp only [h1, h2, h3, h4, hmom, hpar, h6, h7, h9, if_neg hmean', if_neg hres, if_neg hd', Except.ok.injEq]
    have e1 : a.W.isSome = s.givenW := by
      rw [Bool.eq_iff_iff, hgw, Option.isSome_iff_exists]
    have e2 : a.deltaShape.isSome = s.givenDelta := by
      rw [Bool.eq_iff_iff, hgd, Option.isSome_iff_exists]
    have e3 : decide (x.MD + x.MS + x.MC + MM < unfixed + eliminated) = s.underidentified := by
      rw [Bool.eq_iff_iff, hunder, decide_eq_true_eq]
    rw [e1, e2, e3, ← hwarn]

/-! ## Placeholders in the weighting matrix -/

section Weights

variable {N nd ns : ℕ} {m : Fin nd ⊕ Fin ns → Type} {q b g θ d ι D : Type} [∀ e, Fintype (m e)] [Fintype q] [Fintype b] [Fintype g]
  [Fintype θ] [Fintype d] [LinearOrder ι]

theorem gmmLoop_same {W T D : Type} (o : GmmOracle W T D) (method : GmmMethod) (P step : ℕ) (s : GmmState W T D)
    (l l' : StepResults W T D) (h1 : l.converged = l'.converged) (h2 : l.cumulativeIterations = l'.cumulativeIterations)
    (h3 : l.cumulativeEvaluations = l'.cumulativeEvaluations) (h4 : l.cumulativeFpIterations = l'.cumulativeFpIterations) :
    gmmLoop o method P step s (some l) = gmmLoop o method P step s (some l') := by
  have e : gmmStep o P step s (some l) = gmmStep o P step s (some l') := by
    unfold gmmStep
    simp only [h1, h2, h3, h4]
  by_cases hl : step ≥ 2 ∨ (method = .oneStep ∧ step = 1)
  · rw [gmmLoop_last _ _ _ _ _ _ hl, gmmLoop_last _ _ _ _ _ _ hl, e]
  · rw [gmmLoop_next _ _ _ _ _ _ hl, gmmLoop_next _ _ _ _ _ _ hl, e]

namespace Spec

/-- Two weighting matrices have the same weights on moments that are not micro moments. -/
def SameAggregate (m : Fin nd ⊕ Fin ns → Type) (q : Type) (W W' : Estimation.Weights m q d) : Prop :=
  ∀ a c : MomentIndex m ⊕ q, W (.inl a) (.inl c) = W' (.inl a) (.inl c)

end Spec

theorem updatedWeights_same (E : Estimation N nd ns m q b g θ d ι D) (W W' : Estimation.Weights m q d) (h : Spec.SameAggregate m q W W')
    (o : Evaluated N θ d) (samples : List (Evaluated N θ d)) : E.updatedWeights W o samples = E.updatedWeights W' o samples := by
  have e : ivWeights W = ivWeights W' := by
    ext a c
    exact h a c
  have hc : ∀ o : Evaluated N θ d, E.covariances W o.phi = E.covariances W' o.phi := fun o => by
    unfold Estimation.covariances
    rw [e]
  have hx : ∀ o, E.xi W o = E.xi W' o := fun o => by
    unfold Estimation.xi
    rw [hc, e]
  have ho : ∀ o, E.omega W o = E.omega W' o := fun o => by
    unfold Estimation.omega
    rw [hc, e]
  have hm : E.meanMoments W = E.meanMoments W' := by
    funext o
    unfold Estimation.meanMoments
    rw [hc, hx, ho, e]
  unfold Estimation.updatedWeights Estimation.momentCovariances Estimation.simulationCovariances
  rw [hx, ho, hm]

/-- **C123.** If there is an initial update, weights on micro moments in the initial weighting matrix do not matter: all results after
the initial update are the same. By default, there is an initial update if there are micro moments and no weighting matrix was given
(`C48_initial_update`), so that zeros in the default weighting matrix do not affect results. -/
theorem C123_micro_weights (E : Estimation N nd ns m q b g θ d ι D) (method : GmmMethod) (W W' : Estimation.Weights m q d)
    (theta : θ → ℝ) (delta : D) (h : Spec.SameAggregate m q W W') :
    (E.solve method true ⟨W, theta, delta⟩).tail = (E.solve method true ⟨W', theta, delta⟩).tail ∧
      (E.solve method true ⟨W, theta, delta⟩).getLast? = (E.solve method true ⟨W', theta, delta⟩).getLast? := by
  have hn : ¬ ((0 : ℕ) ≥ 2 ∨ (method = .oneStep ∧ (0 : ℕ) = 1)) := by omega
  have key : ∀ s : GmmState (Estimation.Weights m q d) (θ → ℝ) D, E.solve method true s =
      gmmStep E.oracle (Fintype.card θ) 0 s none ::
        gmmLoop E.oracle method (Fintype.card θ) 1 (nextState (gmmStep E.oracle (Fintype.card θ) 0 s none))
          (some (gmmStep E.oracle (Fintype.card θ) 0 s none)) := fun s => by
    unfold Estimation.solve gmmSolve
    rw [if_pos rfl, gmmLoop_next _ _ _ _ _ _ hn]
  have hl : ∀ s : GmmState (Estimation.Weights m q d) (θ → ℝ) D, E.lastDelta 0 s = s.delta := fun s => by
    unfold Estimation.lastDelta
    rw [if_neg (by omega)]
  have ht : gmmLoop E.oracle method (Fintype.card θ) 1 (nextState (gmmStep E.oracle (Fintype.card θ) 0 ⟨W, theta, delta⟩ none))
        (some (gmmStep E.oracle (Fintype.card θ) 0 ⟨W, theta, delta⟩ none)) =
      gmmLoop E.oracle method (Fintype.card θ) 1 (nextState (gmmStep E.oracle (Fintype.card θ) 0 ⟨W', theta, delta⟩ none))
        (some (gmmStep E.oracle (Fintype.card θ) 0 ⟨W', theta, delta⟩ none)) := by
    have hs : nextState (gmmStep E.oracle (Fintype.card θ) 0 ⟨W, theta, delta⟩ none) =
        nextState (gmmStep E.oracle (Fintype.card θ) 0 ⟨W', theta, delta⟩ none) := by
      simp only [nextState, gmmStep, Estimation.oracle, Estimation.final, hl, gt_iff_lt, lt_self_iff_false, and_false, decide_false,
        Bool.false_eq_true, if_false, updatedWeights_same E W W' h]
    rw [hs]
    apply gmmLoop_same <;> simp [gmmStep, Estimation.oracle]
  have hne : ∃ r rest, gmmLoop E.oracle method (Fintype.card θ) 1 (nextState (gmmStep E.oracle (Fintype.card θ) 0 ⟨W', theta, delta⟩ none))
        (some (gmmStep E.oracle (Fintype.card θ) 0 ⟨W', theta, delta⟩ none)) = r :: rest := by
    rw [gmmLoop]
    split
    · exact ⟨_, _, rfl⟩
    · exact ⟨_, _, rfl⟩
  rw [key, key, ht]
  obtain ⟨r, rest, hr⟩ := hne
  rw [hr]
  exact ⟨rfl, by rw [List.getLast?_cons_cons, List.getLast?_cons_cons]⟩

end Weights

/-! ## What the first evaluation starts from -/

section First

variable {N P M C : Type}

namespace Spec

/-- Two histories of evaluations report the same: the same errors are raised, or progress and objectives are the same. -/
def SameReports : Except (List EvalError) (Heap × List (ProgressInfo N P M C)) →
    Except (List EvalError) (Heap × List (ProgressInfo N P M C)) → Prop
  | .error e, .error e' => e = e'
  | .ok (h, qs), .ok (h', qs') => qs = qs' ∧ ∀ q ∈ qs, h.cells q.objective = h'.cells q.objective
  | _, _ => False

end Spec

/-- Memory that is the same from an address on. -/
def AgreeFrom (n : ℕ) (h h' : Heap) : Prop := n ≤ h.next ∧ h.next = h'.next ∧ ∀ r, n ≤ r → r < h.next → h.cells r = h'.cells r

theorem evaluateObjective_agree (n : ℕ) (c : EvalConfig) (g : Bool) (l : N → Option ℝ) (m : (N → Option ℝ) → RawEval N P M C)
    (h h' : Heap) (p : ProgressInfo N P M C) (hp : n ≤ p.objective) (hp' : p.objective < h.next) (ha : AgreeFrom n h h') :
    (∃ e, evaluateObjective c g l m h p = .error e ∧ evaluateObjective c g l m h' p = .error e) ∨
      ∃ k k' q, evaluateObjective c g l m h p = .ok (k, q) ∧ evaluateObjective c g l m h' p = .ok (k', q) ∧ n ≤ q.objective ∧
        q.objective < k.next ∧ h.next ≤ k.next ∧ AgreeFrom n k k' := by
  obtain ⟨ha1, ha2, ha3⟩ := ha
  have hplace : ∀ v, (placeObjective h p.objective v).2 = (placeObjective h' p.objective v).2 ∧
      n ≤ (placeObjective h p.objective v).2.1 ∧ (placeObjective h p.objective v).2.1 < (placeObjective h p.objective v).1.next ∧
      h.next ≤ (placeObjective h p.objective v).1.next ∧
      AgreeFrom n (placeObjective h p.objective v).1 (placeObjective h' p.objective v).1 := by
    intro v
    cases v with
    | none => exact ⟨rfl, hp, hp', le_refl _, ha1, ha2, ha3⟩
    | some x =>
      simp only [placeObjective, ← ha2]
      refine ⟨trivial, ha1, Nat.lt_succ_self _, Nat.le_succ _, ?_, rfl, fun r hr hr' => ?_⟩
      · simp only
        omega
      · simp only at hr' ⊢
        by_cases hn : r = h.next
        · rw [if_pos hn, if_pos hn]
        · rw [if_neg hn, if_neg hn, ha3 r hr (by omega)]
  have herr : allErrors g (rawOf c l m p) h p = allErrors g (rawOf c l m p) h' p := by
    unfold allErrors
    rw [(hplace _).1]
  rw [evaluateObjective_eq, evaluateObjective_eq, ← herr]
  obtain ⟨e1, e2, e3, e7, e8⟩ := hplace (computedObjective (rawOf c l m p) p)
  rw [← e1]
  generalize (placeObjective h p.objective (computedObjective (rawOf c l m p) p)).2.1 = o at *
  generalize (placeObjective h p.objective (computedObjective (rawOf c l m p) p)).1 = k at *
  generalize (placeObjective h' p.objective (computedObjective (rawOf c l m p) p)).1 = k' at *
  generalize allErrors g (rawOf c l m p) h p = errors
  obtain ⟨e4, e5, e6⟩ := e8
  by_cases he : errors = []
  · right
    simp only [handleErrors, if_pos he]
    exact ⟨k, k', _, rfl, rfl, e2, e3, e7, e4, e5, e6⟩
  · simp only [handleErrors, if_neg he]
    cases c.errorBehavior with
    | raise => exact .inl ⟨errors, rfl, rfl⟩
    | revert =>
      right
      refine ⟨_, _, _, rfl, rfl, e2, e3, e7, e4, e5, fun r hr hr' => ?_⟩
      simp only [e6 r hr hr']
    | punish =>
      right
      simp only [← e5]
      refine ⟨_, _, _, rfl, rfl, e4, Nat.lt_succ_self _, Nat.le_succ_of_le e7, ?_, rfl, fun r hr hr' => ?_⟩
      · simp only
        omega
      · simp only at hr' ⊢
        by_cases hn : r = k.next
        · rw [if_pos hn, if_pos hn]
        · rw [if_neg hn, if_neg hn, e6 r hr (by omega)]

theorem evaluateAll_agree (n : ℕ) (c : EvalConfig) (evals : List (Bool × (N → Option ℝ) × ((N → Option ℝ) → RawEval N P M C)))
    (h h' : Heap) (p : ProgressInfo N P M C) (hp : n ≤ p.objective) (hp' : p.objective < h.next) (ha : AgreeFrom n h h') :
    (∃ e, evaluateAll c evals h p = .error e ∧ evaluateAll c evals h' p = .error e) ∨
      ∃ k k' qs, evaluateAll c evals h p = .ok (k, qs) ∧ evaluateAll c evals h' p = .ok (k', qs) ∧
        (∀ q ∈ qs, n ≤ q.objective ∧ q.objective < k.next) ∧ h.next ≤ k.next ∧ AgreeFrom n k k' := by
  induction evals generalizing h h' p with
  | nil => exact .inr ⟨h, h', [], rfl, rfl, by simp, le_refl _, ha⟩
  | cons a rest ih =>
    obtain ⟨g, l, m⟩ := a
    simp only [evaluateAll]
    rcases evaluateObjective_agree n c g l m h h' p hp hp' ha with ⟨e, h1, h2⟩ | ⟨k, k', q, h1, h2, h3, h4, h5, h6⟩
    · rw [h1, h2]
      exact .inl ⟨e, rfl, rfl⟩
    · rw [h1, h2]
      dsimp only
      rcases ih k k' q h3 h4 h6 with ⟨e, h7, h8⟩ | ⟨j, j', qs, h7, h8, h9, h10, h11⟩
      · rw [h7, h8]
        exact .inl ⟨e, rfl, rfl⟩
      · rw [h7, h8]
        refine .inr ⟨j, j', q :: qs, rfl, rfl, ?_, le_trans h5 h10, h11⟩
        intro q' hq'
        rcases List.mem_cons.mp hq' with rfl | hq'
        · exact ⟨h3, lt_of_lt_of_le h4 h10⟩
        · exact h9 q' hq'

/-- **C123.** If the first evaluation has no errors, then nothing that evaluations report depends on what it would have reverted to
-- initial costs, micro moments, Jacobians, gradient and objective, the first of which are prices or their logarithms and the others
placeholders -- but for the `delta` at which the contraction starts. -/
theorem C123_first_evaluation (c : EvalConfig) (g : Bool) (l : N → Option ℝ) (m : (N → Option ℝ) → RawEval N P M C)
    (rest : List (Bool × (N → Option ℝ) × ((N → Option ℝ) → RawEval N P M C))) (h h' k : Heap) (p p' q : ProgressInfo N P M C)
    (hfirst : evaluateObjective c g l m h p = .ok (k, q)) (herrors : q.errors = []) (hdelta : p.nextDelta = p'.nextDelta)
    (hnext : h.next = h'.next) :
    Spec.SameReports (evaluateAll c ((g, l, m) :: rest) h p) (evaluateAll c ((g, l, m) :: rest) h' p') := by
  have hraw : rawOf c l m p = rawOf c l m p' := by
    unfold rawOf startDelta
    rw [hdelta]
  have hclean : Spec.Clean g (rawOf c l m p) := by
    rw [(evaluateObjective_ok c g l m h k p q hfirst).2.2.2.2.2.2.2.1] at herrors
    exact (allErrors_nil g _ h p).mp herrors
  have h1 : ∃ k', evaluateObjective c g l m h' p' = .ok (k', q) ∧ h.next ≤ q.objective ∧ q.objective < k.next ∧ AgreeFrom h.next k k' := by
    have e1 : allErrors g (rawOf c l m p) h p = [] := (allErrors_nil g _ h p).mpr hclean
    have e2 : allErrors g (rawOf c l m p) h' p' = [] := (allErrors_nil g _ h' p').mpr hclean
    rw [evaluateObjective_eq, e1, handleErrors, if_pos rfl] at hfirst
    rw [evaluateObjective_eq, ← hraw, e2, handleErrors, if_pos rfl]
    generalize rawOf c l m p = raw at *
    obtain ⟨c1, c2, c3, c4, ⟨x, c5⟩, c6⟩ := hclean
    have o1 : computedObjective raw p = some x := by
      unfold computedObjective
      rw [revertVec_finite _ _ c2, revertVec_finite _ _ c3, revertVec_finite _ _ c4, c5]
    have o2 : computedObjective raw p' = some x := by
      unfold computedObjective
      rw [revertVec_finite _ _ c2, revertVec_finite _ _ c3, revertVec_finite _ _ c4, c5]
    have j : revertAll g p raw = revertAll g p' raw := by
      unfold revertAll
      cases g with
      | false => rfl
      | true =>
        obtain ⟨d1, d2, d3, _⟩ := c6 rfl
        rw [if_pos rfl, if_pos rfl, revertVec_finite _ _ d1, revertVec_finite _ _ d2, revertVec_finite _ _ d3, revertVec_finite _ _ d1,
          revertVec_finite _ _ d2, revertVec_finite _ _ d3]
    have gr : computedGradient g raw p = computedGradient g raw p' := by
      unfold computedGradient
      rw [j, revertVec_finite _ _ c2, revertVec_finite _ _ c3, revertVec_finite _ _ c4, revertVec_finite _ _ c2, revertVec_finite _ _ c3,
        revertVec_finite _ _ c4]
    have gp : (placeGradient g p (computedGradient g raw p)).1 = (placeGradient g p' (computedGradient g raw p')).1 := by
      rw [← gr]
      have e3 : (placeGradient g p (computedGradient g raw p)).2 = [] := by
        unfold allErrors at e1
        exact (List.append_eq_nil_iff.mp e1).2
      unfold placeGradient at e3 ⊢
      cases g with
      | false => rfl
      | true =>
        rw [if_pos rfl, revertErrors_nil] at e3
        rw [if_pos rfl, if_pos rfl, revertVec_finite _ _ e3, revertVec_finite _ _ e3]
    rw [o1] at hfirst
    rw [o2, ← gp, ← j, revertVec_finite _ _ c2, revertVec_finite _ _ c3, revertVec_finite _ _ c4, ← hdelta]
    rw [revertVec_finite _ _ c2, revertVec_finite _ _ c3, revertVec_finite _ _ c4] at hfirst
    simp only [placeObjective] at hfirst ⊢
    rw [← hnext]
    obtain ⟨rfl, rfl⟩ := Prod.mk.inj (Except.ok.inj hfirst)
    refine ⟨_, rfl, le_refl _, Nat.lt_succ_self _, Nat.le_succ _, rfl, fun r hr hr' => ?_⟩
    simp only at hr' ⊢
    rw [if_pos (by omega), if_pos (by omega)]
  obtain ⟨k', h2, h3, h4, h5⟩ := h1
  simp only [evaluateAll, hfirst, h2]
  rcases evaluateAll_agree h.next c rest k k' q h3 h4 h5 with ⟨e, h7, h8⟩ | ⟨j, j', qs, h7, h8, h9, h10, h11⟩
  · rw [h7, h8]
    exact rfl
  · rw [h7, h8]
    refine ⟨rfl, fun q' hq' => ?_⟩
    rcases List.mem_cons.mp hq' with rfl | hq'
    · exact h11.2.2 _ h3 (lt_of_lt_of_le h4 h10)
    · exact h11.2.2 _ (h9 q' hq').1 (h9 q' hq').2

/-- **C123.** What the first evaluation reports if it fails with `'revert'`: where `delta`, micro moments, costs, Jacobians and gradient are not
finite, they are those given, zeros, prices or their logarithms, and zeros; if the objective is not finite, it is the
punishment times ten billion. -/
theorem C123_first_failure (c : EvalConfig) (hc : c.errorBehavior = .revert) (l : N → Option ℝ) (m : (N → Option ℝ) → RawEval N P M C)
    (logCosts : Bool) (prices : C → ℝ) (delta : N → Option ℝ) (hprices : logCosts = true → ∀ i, 0 < prices i) :
    ∃ k q, evaluateObjective c true l m (initialProgress (P := P) (M := M) logCosts prices delta).1
        (initialProgress logCosts prices delta).2 = .ok (k, q) ∧
      let raw := m (if c.deltaBehavior = .logit then l else delta)
      (∀ i, raw.delta i = none → q.delta i = delta i) ∧ (∀ i, raw.micro i = none → q.micro i = some 0) ∧
        (∀ i, raw.tildeCosts i = none → q.tildeCosts i = some (if logCosts then Real.log (prices i) else prices i)) ∧
        (∀ i, raw.xiJacobian i = none → q.xiJacobian i = some 0) ∧ (∀ i, raw.microJacobian i = none → q.microJacobian i = some 0) ∧
        (∀ i, raw.omegaJacobian i = none → q.omegaJacobian i = some 0) ∧
        (raw.objective q.delta q.micro q.tildeCosts = none → k.cells q.objective = some (10 ^ 10 * c.errorPunishment)) ∧
        (∀ i, raw.gradient q.delta q.micro q.tildeCosts q.xiJacobian q.microJacobian q.omegaJacobian i = none → q.gradient i = some 0) := by
  have hraw : rawOf c l m (initialProgress (P := P) (M := M) logCosts prices delta).2 = m (if c.deltaBehavior = .logit then l else delta) := rfl
  rw [evaluateObjective_eq, hraw]
  generalize m (if c.deltaBehavior = .logit then l else delta) = raw
  have hcosts : ∀ i, placeholderCosts logCosts prices i = some (if logCosts then Real.log (prices i) else prices i) := by
    intro i
    unfold placeholderCosts
    cases logCosts with
    | false => simp
    | true => simp [hprices rfl i]
  unfold handleErrors
  split
  · rename_i e heq
    split at heq
    · cases heq
    · rw [hc] at heq
      cases heq
  · rename_i h' o gr heq
    refine ⟨_, _, rfl, ?_⟩
    dsimp only
    refine ⟨fun i hi => ?_, fun i hi => ?_, fun i hi => ?_, fun i hi => ?_, fun i hi => ?_, fun i hi => ?_, fun hi => ?_, fun i hi => ?_⟩
    · simp only [revertVec, hi]
      rfl
    · simp only [revertVec, hi]
      rfl
    · simp only [revertVec, hi]
      exact hcosts i
    · simp only [revertAll, if_pos, revertVec, hi]
      rfl
    · simp only [revertAll, if_pos, revertVec, hi]
      rfl
    · simp only [revertAll, if_pos, revertVec, hi]
      rfl
    · have ho : computedObjective raw (initialProgress (P := P) (M := M) logCosts prices delta).2 = none := hi
      have he : allErrors true raw (initialProgress (P := P) (M := M) logCosts prices delta).1 (initialProgress logCosts prices delta).2 ≠ [] := by
        intro he
        unfold allErrors at he
        simp only [List.append_eq_nil_iff, ho, placeObjective] at he
        exact absurd he.1.2 (by simp)
      rw [if_neg he, hc] at heq
      obtain ⟨rfl, rfl, rfl⟩ : _ ∧ _ ∧ _ := by simpa [ho, placeObjective] using heq
      simp [initialProgress]
    · have hg : gr = (placeGradient true (initialProgress (P := P) (M := M) logCosts prices delta).2
          (computedGradient true raw (initialProgress logCosts prices delta).2)).1 := by
        split at heq
        · exact (Prod.mk.inj (Prod.mk.inj (Except.ok.inj heq)).2).2.symm
        · rw [hc] at heq
          exact (Prod.mk.inj (Prod.mk.inj (Except.ok.inj heq)).2).2.symm
      rw [hg]
      have hi' : computedGradient true raw (initialProgress (P := P) (M := M) logCosts prices delta).2 i = none := hi
      simp only [placeGradient, if_pos, revertVec, hi']
      rfl

/-- Markets for which costs cannot be computed but all else can. -/
def failedCosts : RawEval Unit Unit Empty Unit where
  delta := fun _ => some 1
  micro := fun _ => none
  tildeCosts := fun _ => none
  xiJacobian := fun _ => some 2
  microJacobian := fun _ => none
  omegaJacobian := fun _ => some 0
  errors := []
  objective := fun _ _ costs => costs ()
  gradient := fun _ _ _ _ _ _ _ => some 4

/-- **C123, finding.** Costs that the first evaluation reverts to are meant to be usable, but with log costs and a price that is not positive
they are logarithms that are not finite: if costs cannot be computed in the first evaluation, costs are still not finite after reversion,
and hence neither is the objective. -/
theorem C123_nonpositive_price_refuted :
    ∃ k q, evaluateObjective ⟨.revert, 1, .last⟩ true (fun _ => none) (fun _ => failedCosts)
        (initialProgress (P := Unit) (M := Empty) true (fun _ : Unit => (-1 : ℝ)) fun _ : Unit => some 0).1
        (initialProgress true (fun _ => -1) fun _ => some 0).2 = .ok (k, q) ∧
      q.tildeCosts () = none ∧ .costs ∈ q.errors ∧ .objective ∈ q.errors := by
  have hc : revertVec failedCosts.tildeCosts (initialProgress (N := Unit) (P := Unit) (M := Empty) true (fun _ : Unit => (-1 : ℝ)) fun _ => some 0).2.tildeCosts () = none := by
    simp [revertVec, failedCosts, initialProgress, placeholderCosts]
  have he : EvalError.costs ∈ allErrors true failedCosts
      (initialProgress (P := Unit) (M := Empty) true (fun _ : Unit => (-1 : ℝ)) fun _ : Unit => some 0).1
      (initialProgress true (fun _ => -1) fun _ => some 0).2 := by
    unfold allErrors
    simp only [List.mem_append]
    refine .inl (.inl (.inl (.inr ?_)))
    rw [mem_revertErrors]
    exact ⟨rfl, (), rfl⟩
  have ho : EvalError.objective ∈ allErrors true failedCosts
      (initialProgress (P := Unit) (M := Empty) true (fun _ : Unit => (-1 : ℝ)) fun _ : Unit => some 0).1
      (initialProgress true (fun _ => -1) fun _ => some 0).2 := by
    unfold allErrors
    simp only [List.mem_append]
    refine .inl (.inr ?_)
    have : computedObjective failedCosts (initialProgress (N := Unit) (P := Unit) (M := Empty) true (fun _ : Unit => (-1 : ℝ)) fun _ => some 0).2 = none := hc
    rw [this]
    simp [placeObjective]
  have hne : allErrors true failedCosts
      (initialProgress (P := Unit) (M := Empty) true (fun _ : Unit => (-1 : ℝ)) fun _ : Unit => some 0).1
      (initialProgress true (fun _ => -1) fun _ => some 0).2 ≠ [] := List.ne_nil_of_mem he
  rw [evaluateObjective_eq]
  have hraw : rawOf (⟨.revert, 1, .last⟩ : EvalConfig) (fun _ => none) (fun _ => failedCosts)
      (initialProgress (N := Unit) (P := Unit) (M := Empty) true (fun _ : Unit => (-1 : ℝ)) fun _ => some 0).2 = failedCosts := rfl
  rw [hraw]
  simp only [handleErrors, if_neg hne]
  exact ⟨_, _, rfl, hc, he, ho⟩

end First

/-! ## Examples -/

/-- A problem with twenty products, four demand-side and three supply-side instruments, and two micro moments. -/
noncomputable def microContext : SolveContext := ⟨20, 4, 3, 0, false, true, false, some 1, .ok 2, .ok (3, 2), true, some 5, some 100⟩

/-- Default arguments, but for micro covariances and the type of moments. -/
noncomputable def defaultArguments : SolveArguments where
  method := "2s"
  optimization := .none
  checkOptimality := "both"
  errorBehavior := "revert"
  errorPunishment := .float none
  deltaBehavior := "last"
  iteration := .none
  fpType := "safe_nonlinear"
  wType := "robust"
  seType := "robust"
  demandMomentTypes := .string "levels"
  supplyMomentTypes := .string "levels"
  covarianceMomentsMean := .float (some 0)
  sharesBounds := some [[some 0], [none]]
  costsBounds := none
  microSampleCovariances := some ⟨2, 2, true, some 1000⟩
  resampleAgentData := .none
  initialUpdate := none
  W := none
  deltaShape := none

/-- Default arguments are accepted for the problem above, with an initial update, a punishment that is NaN, and a warning about
micro covariances. -/
example : checkSolve microContext defaultArguments =
    .ok ⟨[(.levels, 4)], [(.levels, 3)], (some 0, some ⊤), (some ⊥, some ⊤), true, false, false, false, [.nearly]⟩ := by
  rw [C123_accepts]
  have h1000 : ((1000 : EReal) ≤ 100) ↔ False := by
    rw [iff_false, not_le]
    exact_mod_cast (by norm_num : (100 : ℝ) < 1000)
  have h5 : ((5 : EReal) ≤ 100) := by exact_mod_cast (by norm_num : (5 : ℝ) ≤ 100)
  have ht : (100 : EReal) ≠ ⊤ := EReal.coe_ne_top 100
  have ht' : (1000 : EReal) ≠ ⊤ := EReal.coe_ne_top 1000
  refine ⟨.inr rfl, by decide, .inr rfl, .inl rfl, ⟨none, (number_iff _ _).mp rfl, by simp⟩, .inl rfl, by decide, .inr (.inr ⟨.inl rfl, rfl⟩), .inl rfl, .inl rfl,
    ⟨⟨.levels, rfl, rfl⟩, by simp⟩, ⟨⟨.levels, rfl, rfl⟩, by simp⟩, ⟨some 0, (number_iff _ _).mp rfl⟩, ?_, .inl ⟨rfl, rfl⟩, by decide, ?_, ?_, ?_, 2, 3, 2, rfl, rfl, ?_⟩
  · exact .inr ⟨some 0, none, 0, ⊤, rfl, rfl, le_top, .inl rfl, .inr ⟨rfl, rfl⟩⟩
  · simp [defaultArguments]
  · simp [defaultArguments]
  · simp [defaultArguments]
  · refine ⟨?_, by simp [defaultArguments], fun _ => rfl, by simp [defaultArguments], ?_, ?_, [.nearly], [], rfl, ?_, ?_⟩
    · rintro m - hm
      rw [← Option.some.inj hm]
      exact ⟨rfl, rfl, rfl⟩
    · simp [defaultArguments]
    · simp [microContext]
    · show Spec.SingularityWarnings 100 (some 1000) [.nearly]
      simp [Spec.SingularityWarnings, ht, h1000, ht']
    · show Spec.SingularityWarnings 100 (some 5) []
      simp [Spec.SingularityWarnings, ht, h5]

/-- Without an initial update, the default weighting matrix is not accepted if there are micro moments. -/
example (s : SolveSetup) : checkSolve microContext { defaultArguments with initialUpdate := some false } ≠ .ok s := by
  rw [ne_eq, C123_accepts]
  rintro ⟨-, -, -, -, -, -, -, -, -, -, -, -, -, -, -, -, -, -, -, MM, u, e, h1, -, -, -, -, h, -⟩
  obtain rfl := Except.ok.inj h1
  exact h (by norm_num) rfl rfl

/-- Weights on micro moments that differ: those of the default weighting matrix, and an identity matrix. -/
example : Spec.SameAggregate (d := Fin 2) (fun _ : Fin 1 ⊕ Fin 1 => Unit) (Fin 1) (Matrix.fromBlocks 1 0 0 0) 1 ∧
    (Matrix.fromBlocks 1 0 0 0 : Estimation.Weights (fun _ : Fin 1 ⊕ Fin 1 => Unit) (Fin 1) (Fin 2)) ≠ 1 := by
  constructor
  · intro a c
    simp [Matrix.one_apply]
  · intro h
    have := congrFun (congrFun h (.inr 0)) (.inr 0)
    simp at this

/-- A first evaluation without errors, after which another one fails: reports do not depend on placeholders. -/
example (p' : ProgressInfo Unit Unit Empty Empty) (h' : Heap) (hn : 1 = h'.next) (hd : (fun _ => some 0) = p'.nextDelta) :
    Spec.SameReports
      (evaluateAll ⟨.revert, 2, .last⟩ [(true, fun _ => none, fun _ => goodRaw), (true, fun _ => none, fun _ => badRaw)] initialHeap initialInfo)
      (evaluateAll ⟨.revert, 2, .last⟩ [(true, fun _ => none, fun _ => goodRaw), (true, fun _ => none, fun _ => badRaw)] h' p') := by
  obtain ⟨k, q, hq, _⟩ := C49_clean ⟨.revert, 2, .last⟩ true (fun _ : Unit => none) (fun _ => goodRaw) initialHeap initialInfo
    (clean_goodRaw true)
  refine C123_first_evaluation _ _ _ _ _ _ _ k _ _ q hq ?_ hd hn
  rw [(evaluateObjective_ok _ _ _ _ _ _ _ _ hq).2.2.2.2.2.2.2.1]
  exact (allErrors_nil _ _ _ _).mpr (clean_goodRaw true)

/-- A failing first evaluation with linear costs, for which prices need not be positive. -/
example : ∃ k q, evaluateObjective ⟨.revert, 2, .last⟩ true (fun _ => none) (fun _ => failedCosts)
      (initialProgress (P := Unit) (M := Empty) false (fun _ : Unit => (-1 : ℝ)) fun _ : Unit => some 0).1
      (initialProgress false (fun _ => -1) fun _ => some 0).2 = .ok (k, q) ∧ q.tildeCosts () = some (-1) := by
  obtain ⟨k, q, h, _, _, h3, _⟩ := C123_first_failure (⟨.revert, 2, .last⟩ : EvalConfig) rfl (fun _ : Unit => none) (fun _ => failedCosts) false
    (fun _ : Unit => (-1 : ℝ)) (fun _ => some 0) (by simp)
  exact ⟨k, q, h, by simpa using h3 () rfl⟩

end Pyblp
