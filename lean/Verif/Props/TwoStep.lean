import Verif.Props.Units
import Verif.Props.PanelGradient
import Verif.Props.Progress

set_option linter.unusedSectionVars false

/-!
# What GMM computes from instruments to standard errors: C97
-/

namespace Pyblp

open Matrix

variable {N nd ns : ℕ} {m : Fin nd ⊕ Fin ns → Type} {q b g θ d ι D : Type} [∀ e, Fintype (m e)] [Fintype q] [Fintype b] [Fintype g]
  [Fintype θ] [Fintype d] [LinearOrder ι]

namespace Spec

/-- The error that belongs to an aggregate moment: a structural error, its innovation or the change in innovations, or for covariance
moments the product of structural errors less its mean. -/
noncomputable def aggregateError (M : MomentData N nd ns m q b g) (phi : Fin 2 → Fin 2 → ℝ) (xi omega : Fin N → ℝ) (mean : ℝ) :
    MomentIndex m ⊕ q → Fin N → ℝ
  | .inl ⟨.inl e, _⟩ => momentError M.lag (M.demand e) xi (phi 0 0) (if M.hasSupply then omega else 0) (phi 0 1)
  | .inl ⟨.inr e, _⟩ => momentError M.lag (M.supply e) omega (phi 1 1) xi (phi 1 0)
  | .inr _ => fun i => xi i * omega i - mean

/-- The instrument that belongs to an aggregate moment. -/
def aggregateInstrument (M : MomentData N nd ns m q b g) : MomentIndex m ⊕ q → Fin N → ℝ
  | .inl c => fun i => M.Z c.1 i c.2
  | .inr c => fun i => M.ZC i c

/-- The set of instruments to which that of an aggregate moment belongs. -/
def instrumentSet : MomentIndex m ⊕ q → Option (Fin nd ⊕ Fin ns)
  | .inl c => some c.1
  | .inr _ => none

/-- An average over observations. -/
noncomputable def overProducts (x : Fin N → ℝ) : ℝ := (∑ i, x i) / N

/-- Covariances of moments `z u` of the three types. -/
noncomputable def typedCovariances {c : Type} (type : CovarianceType) (ids : Fin N → ι) (center : Bool) (u z : c → Fin N → ℝ) :
    Matrix c c ℝ :=
  let h : Fin N → c → ℝ := fun i a => u a i * z a i - if center then overProducts (fun j => u a j * z a j) else 0
  match type with
  | .unadjusted => Matrix.of fun a b => (overProducts (fun i => u a i * u b i) - overProducts (u a) * overProducts (u b)) * overProducts fun i => z a i * z b i
  | .robust => Matrix.of fun a b => overProducts fun i => h i a * h i b
  | .clustered => Matrix.of fun a b =>
      (∑ k ∈ Finset.univ.image ids, (∑ i with ids i = k, h i a) * ∑ i with ids i = k, h i b) / N

/-- Sample covariances with the correction for degrees of freedom. -/
noncomputable def simulated {c : Type} (samples : List (c → ℝ)) : Matrix c c ℝ :=
  Matrix.of fun a b =>
    (samples.map fun x => (x a - (samples.map (· a)).sum / samples.length) * (x b - (samples.map (· b)).sum / samples.length)).sum /
      ((samples.length : ℝ) - 1)

end Spec

variable (E : Estimation N nd ns m q b g θ d ι D)

namespace Spec

/-- Structural errors given linear parameters. -/
def stepXi (o : Evaluated N θ d) (linear : b ⊕ g → ℝ) : Fin N → ℝ := unobserved E.data.X1 o.delta fun k => linear (.inl k)

/-- Structural errors of costs given linear parameters. -/
def stepOmega (o : Evaluated N θ d) (linear : b ⊕ g → ℝ) : Fin N → ℝ := unobserved E.data.X3 o.costs fun k => linear (.inr k)

/-- Averaged moments for the outcome of an evaluation. -/
noncomputable def stepMoments (o : Evaluated N θ d) (linear : b ⊕ g → ℝ) : (MomentIndex m ⊕ q) ⊕ d → ℝ :=
  averagedMoments E.data o.phi (stepXi E o linear) (stepOmega E o linear) E.mean o.micro

/-- Covariances of all moments: those of aggregate moments across observations, those of micro moments times the number of
observations, none between the two, and covariances from simulation. -/
noncomputable def stepCovariances (type : CovarianceType) (center : Bool) (W : Estimation.Weights m q d) (o : Evaluated N θ d)
    (samples : List (Evaluated N θ d)) : Estimation.Weights m q d :=
  let linear := fun o => E.linearParameters W o
  Matrix.of fun a c =>
    (match a, c with
      | .inl a, .inl c => typedCovariances type E.ids center
          (aggregateError E.data o.phi (stepXi E o (linear o)) (stepOmega E o (linear o)) E.mean) (aggregateInstrument E.data) a c
      | .inr a, .inr c => N * o.microCovariances a c
      | _, _ => 0) + simulated (samples.map fun o => stepMoments E o (linear o)) a c

end Spec

/-! ## Evaluations -/

theorem stepXi_eq (W : Estimation.Weights m q d) (o : Evaluated N θ d) : E.xi W o = Spec.stepXi E o (E.linearParameters W o) := by
  unfold Estimation.xi Spec.stepXi
  rw [xi_eq]
  rfl

theorem stepOmega_eq (W : Estimation.Weights m q d) (o : Evaluated N θ d) : E.omega W o = Spec.stepOmega E o (E.linearParameters W o) := by
  unfold Estimation.omega Spec.stepOmega
  rw [omega_eq]
  rfl

theorem stepMoments_eq (W : Estimation.Weights m q d) (o : Evaluated N θ d) :
    E.meanMoments W o = Spec.stepMoments E o (E.linearParameters W o) := by
  unfold Spec.stepMoments
  rw [← stepXi_eq, ← stepOmega_eq]
  exact meanMoments_eq E.data _ _ _ _ _ _ _

theorem sampleCovariances_eq {c : Type} (samples : List (c → ℝ)) : sampleCovariances samples = Spec.simulated samples := by
  have h : ∀ f : (c → ℝ) → ℝ, ∑ r : Fin samples.length, f samples[r] = (samples.map f).sum := by
    intro f
    rw [← List.sum_ofFn]
    congr 1
    exact List.ofFn_getElem_eq_map samples f
  unfold sampleCovariances Spec.simulated
  ext a k
  simp only [of_apply]
  rw [← h, ← h fun x => x a, ← h fun x => x k]

theorem allErrors_eq (M : MomentData N nd ns m q b g) (phi : Fin 2 → Fin 2 → ℝ) (xi omega : Fin N → ℝ) (mean : ℝ) (a : MomentIndex m ⊕ q) :
    M.allErrors phi xi omega mean (momentPosition a).1 = Spec.aggregateError M phi xi omega mean a := by
  funext i
  rcases a with ⟨e | e, c⟩ | c
  · exact equations_eq M phi xi omega (.inl e) i
  · exact equations_eq M phi xi omega (.inr e) i
  · rfl

theorem allInstruments_eq (M : MomentData N nd ns m q b g) (a : MomentIndex m ⊕ q) (i : Fin N) :
    M.allInstruments (momentPosition a).1 i (momentPosition a).2 = Spec.aggregateInstrument M a i := by
  rcases a with c | c <;> rfl

theorem aggregateCovariances_eq (hsort : IsArgsort E.ids E.sort) (type : CovarianceType) (center : Bool) (phi : Fin 2 → Fin 2 → ℝ)
    (xi omega : Fin N → ℝ) (a c : MomentIndex m ⊕ q) :
    gmmMomentCovariances (E.data.allErrors phi xi omega E.mean) E.data.allInstruments type E.ids E.sort center (momentPosition a)
      (momentPosition c) = Spec.typedCovariances type E.ids center (Spec.aggregateError E.data phi xi omega E.mean)
        (Spec.aggregateInstrument E.data) a c := by
  cases type with
  | unadjusted =>
    rw [C41_unadjusted]
    simp only [allErrors_eq, allInstruments_eq]
    simp only [Spec.typedCovariances, Spec.overProducts, of_apply]
    ring
  | robust =>
    rw [C41_robust]
    simp only [Spec.momentRow, allErrors_eq, allInstruments_eq]
    rfl
  | clustered =>
    rw [C41_clustered _ _ _ _ hsort]
    simp only [Spec.momentRow, allErrors_eq, allInstruments_eq]
    rfl

/-- **C97, covariances of moments.** They are those of aggregate moments of the given type at the estimates, with those of micro moments
and of simulation. -/
theorem C97_covariances (hsort : IsArgsort E.ids E.sort) (type : CovarianceType) (center : Bool) (W : Estimation.Weights m q d)
    (o : Evaluated N θ d) (samples : List (Evaluated N θ d)) :
    E.momentCovariances type center W o samples = Spec.stepCovariances E type center W o samples := by
  have hm : E.meanMoments W = fun o => Spec.stepMoments E o (E.linearParameters W o) := funext (stepMoments_eq E W)
  unfold Estimation.momentCovariances Estimation.simulationCovariances Spec.stepCovariances
  rw [sampleCovariances_eq, hm, stepXi_eq, stepOmega_eq]
  ext a c
  rw [Matrix.add_apply, of_apply]
  congr 1
  rcases a with a | a
  · rcases c with c | c
    · rw [fromBlocks_apply₁₁, of_apply]
      exact aggregateCovariances_eq E hsort type center _ _ _ a c
    · rfl
  · rcases c with c | c
    · rfl
    · rfl

/-! ## Weighting matrices -/

theorem typedCovariances_symm {c : Type} (type : CovarianceType) (ids : Fin N → ι) (center : Bool) (u z : c → Fin N → ℝ) (a k : c) :
    Spec.typedCovariances type ids center u z a k = Spec.typedCovariances type ids center u z k a := by
  cases type with
  | unadjusted =>
    simp only [Spec.typedCovariances, of_apply]
    rw [mul_comm (Spec.overProducts (u a)), funext fun i => mul_comm (u a i) (u k i), funext fun i => mul_comm (z a i) (z k i)]
  | robust =>
    simp only [Spec.typedCovariances, of_apply]
    exact congrArg Spec.overProducts (funext fun i => mul_comm _ _)
  | clustered =>
    simp only [Spec.typedCovariances, of_apply]
    exact congrArg (· / (N : ℝ)) (Finset.sum_congr rfl fun i _ => mul_comm _ _)

theorem stepCovariances_symm (type : CovarianceType) (center : Bool) (W : Estimation.Weights m q d) (o : Evaluated N θ d)
    (samples : List (Evaluated N θ d)) (hmicro : ∀ a c, o.microCovariances a c = o.microCovariances c a) :
    (Spec.stepCovariances E type center W o samples)ᵀ = Spec.stepCovariances E type center W o samples := by
  ext a c
  rw [transpose_apply]
  simp only [Spec.stepCovariances, of_apply]
  congr 1
  · rcases a with a | a <;> rcases c with c | c
    · exact typedCovariances_symm _ _ _ _ _ _ _
    · rfl
    · rfl
    · simp only [hmicro a c]
  · simp only [Spec.simulated, of_apply]
    congr 2
    exact List.map_congr_left fun x _ => mul_comm _ _

/-- **C97, default weighting matrices.** They weight aggregate moments by the inverse of averages of products of instruments within each
set, with zeros for pairs of moments from different sets, and give no weight to micro moments. -/
theorem C97_default [DecidableEq q] [∀ e, DecidableEq (m e)] (hinv : Spec.Inverts E.invertAggregate)
    (S : Matrix (MomentIndex m ⊕ q) (MomentIndex m ⊕ q) ℝ)
    (hS : ∀ a c, S a c = if Spec.instrumentSet a = Spec.instrumentSet c then
      Spec.overProducts fun i => Spec.aggregateInstrument E.data a i * Spec.aggregateInstrument E.data c i else 0)
    (hunit : IsUnit S) :
    S * Matrix.of (fun a c => E.defaultWeights (.inl a) (.inl c)) = 1 ∧
      (∀ a c, E.defaultWeights (.inl a) (.inr c) = 0) ∧ (∀ a c, E.defaultWeights (.inr a) (.inl c) = 0) ∧
        ∀ a c, E.defaultWeights (.inr a) (.inr c) = 0 := by
  have h : E.defaultCovariances = S := by
    ext a c
    rw [hS]
    unfold Estimation.defaultCovariances
    rcases a with ⟨e, i⟩ | a
    · rcases c with ⟨e', j⟩ | c
      · rw [fromBlocks_apply₁₁]
        by_cases he : e = e'
        · subst he
          rw [if_pos (show Spec.instrumentSet (.inl ⟨e, i⟩ : MomentIndex m ⊕ q) = Spec.instrumentSet (.inl ⟨e, j⟩) from rfl)]
          rw [blockDiagonal'_apply_eq, Matrix.smul_apply, Matrix.mul_apply, smul_eq_mul, inv_mul_eq_div]
          rfl
        · rw [blockDiagonal'_apply_ne _ _ _ he, if_neg]
          simpa [Spec.instrumentSet] using he
      · rw [if_neg (by simp [Spec.instrumentSet])]
        rfl
    · rcases c with ⟨e', j⟩ | c
      · rw [if_neg (by simp [Spec.instrumentSet])]
        rfl
      · rw [if_pos (show Spec.instrumentSet (.inr a : MomentIndex m ⊕ q) = Spec.instrumentSet (.inr c) from rfl)]
        rw [fromBlocks_apply₂₂, Matrix.smul_apply, Matrix.mul_apply, smul_eq_mul, inv_mul_eq_div]
        rfl
  obtain ⟨U, hU⟩ := hunit
  have hmul : S * (↑U⁻¹ : Matrix _ _ ℝ) = 1 := by rw [← hU]; exact U.mul_inv
  have hblock : (Matrix.of fun a c => E.defaultWeights (.inl a) (.inl c)) = E.invertAggregate S := by
    ext a c
    rw [of_apply]
    unfold Estimation.defaultWeights
    rw [fromBlocks_apply₁₁, h]
  refine ⟨?_, fun _ _ => rfl, fun _ _ => rfl, fun _ _ => rfl⟩
  rw [hblock, hinv S _ hmul]
  exact hmul

/-- **C97, weighting matrices of later steps.** The first step starts with the given weighting matrix and parameters. Each other step
starts with the estimates of the step before, and its weighting matrix is the inverse of covariances of moments at them. -/
theorem C97_update [DecidableEq q] [DecidableEq d] [∀ e, DecidableEq (m e)] (hsort : IsArgsort E.ids E.sort)
    (hinv : Spec.Inverts E.invertMoments) (method : GmmMethod) (initialUpdate : Bool)
    (s : GmmState (Estimation.Weights m q d) (θ → ℝ) D) :
    (∀ r, (E.solve method initialUpdate s)[0]? = some r → r.start = s) ∧
    ∀ k r r', (E.solve method initialUpdate s)[k]? = some r → (E.solve method initialUpdate s)[k + 1]? = some r' →
      r'.start.theta = r.theta ∧
      let S := Spec.stepCovariances E E.wType E.center r.start.W (E.outcome r) (E.resampled (E.lastDelta r.step r.start) r.theta)
      (∀ a c, (E.outcome r).microCovariances a c = (E.outcome r).microCovariances c a) → IsUnit S → S * r'.start.W = 1 := by
  obtain ⟨h1, h2⟩ := C48_chain E.oracle method (Fintype.card θ) initialUpdate s
  refine ⟨h1, fun k r r' hr hr' => ⟨(h2 k r r' hr hr').2.1, fun hmicro hunit => ?_⟩⟩
  have hW : r.updatedW = gmmWeights (E.invertMoments (Spec.stepCovariances E E.wType E.center r.start.W (E.outcome r)
      (E.resampled (E.lastDelta r.step r.start) r.theta))) := by
    have h3 := (C48_optimized E.oracle method (Fintype.card θ) initialUpdate s r (List.mem_of_getElem? hr)).2.2.2
    rw [← C97_covariances E hsort]
    have h4 := congrArg (fun t => t.2.1) h3
    exact h4
  rw [(h2 k r r' hr hr').1, hW]
  set S := Spec.stepCovariances E E.wType E.center r.start.W (E.outcome r) (E.resampled (E.lastDelta r.step r.start) r.theta) with hSdef
  have hsym : Sᵀ = S := stepCovariances_symm E _ _ _ _ _ hmicro
  obtain ⟨U, hU⟩ := hunit
  have hmul : S * (↑U⁻¹ : Matrix _ _ ℝ) = 1 := by rw [← hU]; exact U.mul_inv
  have hT : (↑U⁻¹ : Matrix ((MomentIndex m ⊕ q) ⊕ d) ((MomentIndex m ⊕ q) ⊕ d) ℝ)ᵀ = ↑U⁻¹ := by
    have h5 := congrArg Matrix.transpose hmul
    rw [Matrix.transpose_mul, hsym, Matrix.transpose_one] at h5
    calc (↑U⁻¹ : Matrix _ _ ℝ)ᵀ = (↑U⁻¹ : Matrix _ _ ℝ)ᵀ * (S * ↑U⁻¹) := by rw [hmul, Matrix.mul_one]
      _ = ((↑U⁻¹ : Matrix _ _ ℝ)ᵀ * S) * ↑U⁻¹ := (Matrix.mul_assoc _ _ _).symm
      _ = ↑U⁻¹ := by rw [h5, Matrix.one_mul]
  rw [hinv S _ hmul]
  unfold gmmWeights
  rw [symmetrized_of_symm _ hT]
  exact hmul

/-! ## The objective and optimization -/

namespace Spec

/-- The objective of a step at the outcome of an evaluation: a quadratic form of averaged moments at given linear parameters. -/
noncomputable def stepValue (W : Estimation.Weights m q d) (o : Evaluated N θ d) (linear : b ⊕ g → ℝ) : ℝ :=
  objectiveScale N E.scale * quadratic W (stepMoments E o linear)

/-- What an optimizer returns when it is given values of a function and a gradient. -/
def optimize {T V R : Type} (strategy : List (T × V) → T ⊕ R) (stopped : List (T × V) → R) (f : T → V) : ℕ → List (T × V) → R
  | 0, history => stopped history
  | n + 1, history => match strategy history with
    | .inr r => r
    | .inl x => optimize strategy stopped f n (history ++ [(x, f x)])

end Spec

/-- **C97, the objective.** It is the quadratic form, with the step's weighting matrix, of averaged moments at the linear parameters that
the evaluation reports. -/
theorem C97_objective (W : Estimation.Weights m q d) (o : Evaluated N θ d) :
    E.objective W o = Spec.stepValue E W o (E.linearParameters W o) := by
  unfold Spec.stepValue
  rw [← stepMoments_eq, quadratic_eq]
  rfl

theorem stepMoments_ivMoment (o : Evaluated N θ d) (linear : b ⊕ g → ℝ) (c : MomentIndex m) :
    Spec.stepMoments E o linear (.inl (.inl c)) =
      (N : ℝ)⁻¹ * Spec.ivMoment (E.data.regressors o.phi) E.data.Z (E.data.equations o.phi o.delta o.costs) linear c := by
  have h : ∀ e i, E.data.equations o.phi o.delta o.costs e i - ∑ l, E.data.regressors o.phi e i l * linear l =
      E.data.equations o.phi (Spec.stepXi E o linear) (Spec.stepOmega E o linear) e i := fun e i => equations_sub E.data o.phi o.delta o.costs linear e i
  unfold Spec.ivMoment
  simp only [h]
  simp only [equations_eq]
  rw [inv_mul_eq_div]
  rcases c with ⟨e | e, c⟩ <;>
    exact congrArg (· / (N : ℝ)) (Finset.sum_congr rfl fun i _ => mul_comm _ _)

/-- **C97, linear parameters.** Given `theta`, they minimise the weighted quadratic form of averaged moments other than covariance
moments and micro moments, and no other linear parameters do. -/
theorem C97_linear_parameters [DecidableEq b] [DecidableEq g] (hinv : Spec.Inverts E.invertLinear) (W : Estimation.Weights m q d)
    (W' : Matrix (MomentIndex m) (MomentIndex m) ℝ) (hW' : ∀ a c, W' a c = W (.inl (.inl a)) (.inl (.inl c))) (hW : Spec.PSD W')
    (o : Evaluated N θ d) (hunit : IsUnit (ivCovariancesInverse (E.data.regressors o.phi) E.data.Z W')) (linear : b ⊕ g → ℝ) :
    let value := fun linear => Spec.quadratic W' fun c => Spec.stepMoments E o linear (.inl (.inl c))
    value (E.linearParameters W o) ≤ value linear ∧
      (0 < N → value linear = value (E.linearParameters W o) → linear = E.linearParameters W o) := by
  have hWW : ivWeights (ivWeights W) = W' := by
    ext a c
    exact (hW' a c).symm
  obtain ⟨U, hU⟩ := hunit
  have hmul : ivCovariancesInverse (E.data.regressors o.phi) E.data.Z W' * (↑U⁻¹ : Matrix _ _ ℝ) = 1 := by
    rw [← hU]
    exact U.mul_inv
  have hp : E.linearParameters W o =
      ivParameters (↑U⁻¹ : Matrix _ _ ℝ) (E.data.regressors o.phi) E.data.Z W' (E.data.equations o.phi o.delta o.costs) := by
    unfold Estimation.linearParameters MomentData.linearParameters Estimation.covariances
    rw [hWW, hinv _ _ hmul]
  have hq : ∀ linear, (Spec.quadratic W' fun c => Spec.stepMoments E o linear (.inl (.inl c))) = (N : ℝ)⁻¹ * (N : ℝ)⁻¹ *
      Spec.quadratic W' (Spec.ivMoment (E.data.regressors o.phi) E.data.Z (E.data.equations o.phi o.delta o.costs) linear) := by
    intro linear
    unfold Spec.quadratic
    simp only [stepMoments_ivMoment, Finset.mul_sum]
    exact Finset.sum_congr rfl fun a _ => Finset.sum_congr rfl fun c _ => by ring
  obtain ⟨h1, h2⟩ := C40_minimises (↑U⁻¹ : Matrix _ _ ℝ) (E.data.regressors o.phi) E.data.Z W'
    (E.data.equations o.phi o.delta o.costs) hmul hW linear
  simp only [hq, hp]
  refine ⟨mul_le_mul_of_nonneg_left h1 (mul_self_nonneg _), fun hN he => h2 (mul_left_cancel₀ ?_ he)⟩
  have : (N : ℝ)⁻¹ ≠ 0 := inv_ne_zero (Nat.cast_ne_zero.2 hN.ne')
  exact mul_ne_zero this this

theorem search_eq (W : Estimation.Weights m q d) (step : ℕ) (start : θ → ℝ)
    (hmarkets : ∀ s s' theta, (E.markets s theta).1 = (E.markets s' theta).1) (s0 : D) (n : ℕ)
    (history : List ((θ → ℝ) × ℝ × (θ → ℝ))) (s : D) :
    (E.search W step start n history s).1 = Spec.optimize (E.strategy step start) (fun h => (start, ⟨false, 0, h.length⟩))
      (fun theta => (E.objective W (E.markets s0 theta).1, E.gradient W (E.markets s0 theta).1)) n history := by
  induction n generalizing history s with
  | zero => rfl
  | succ n ih =>
    unfold Estimation.search Spec.optimize
    cases E.strategy step start history with
    | inr r => rfl
    | inl theta =>
      simp only
      rw [ih, hmarkets s s0]

/-- **C97, optimization.** If results of evaluations do not depend on where contractions start, the estimates of a step that optimizes
are what the optimizer returns for the objective and the gradient with the step's weighting matrix when it starts from the estimates
of the step before. The outcome that results are made of is that at the estimates. -/
theorem C97_optimization (hmarkets : ∀ s s' theta, (E.markets s theta).1 = (E.markets s' theta).1) (s0 : D) (method : GmmMethod)
    (initialUpdate : Bool) (s : GmmState (Estimation.Weights m q d) (θ → ℝ) D) (r : StepResults (Estimation.Weights m q d) (θ → ℝ) D)
    (hr : r ∈ E.solve method initialUpdate s) :
    E.outcome r = (E.markets s0 r.theta).1 ∧
    (r.step > 0 → 0 < Fintype.card θ → r.theta = (Spec.optimize (E.strategy r.step r.start.theta)
      (fun h => (r.start.theta, ⟨false, 0, h.length⟩)) (fun theta =>
        (Spec.stepValue E r.start.W (E.markets s0 theta).1 (E.linearParameters r.start.W (E.markets s0 theta).1),
          E.gradient r.start.W (E.markets s0 theta).1)) E.budget []).1) ∧
    (r.step = 0 → r.theta = r.start.theta) := by
  obtain ⟨h1, h2, h3, -⟩ := C48_optimized E.oracle method (Fintype.card θ) initialUpdate s r hr
  refine ⟨hmarkets _ _ _, fun hstep hP => ?_, fun hstep => (h3 (by rw [h1]; simp [hstep])).1⟩
  have h4 := congrArg Prod.fst (h2 (by rw [h1]; simp [hstep, hP]))
  simp only [← C97_objective]
  rw [← search_eq E r.start.W r.step r.start.theta hmarkets s0 E.budget [] r.start.delta]
  exact h4

/-! ## Standard errors -/

/-- **C97, covariances for standard errors.** They are of the type asked for, and never centred. -/
theorem C97_reported (hsort : IsArgsort E.ids E.sort) (r : StepResults (Estimation.Weights m q d) (θ → ℝ) D) :
    E.reportedCovariances r =
      Spec.stepCovariances E E.seType false r.start.W (E.outcome r) (E.resampled (E.lastDelta r.step r.start) r.theta) := by
  unfold Estimation.reportedCovariances
  by_cases h : E.seType ≠ E.wType ∨ E.center = true
  · rw [if_pos h, C97_covariances E hsort]
  · rw [if_neg h]
    push Not at h
    unfold Estimation.weightsCovariances
    have hc : E.center = false := by simpa using h.2
    rw [C97_covariances E hsort, h.1, hc]

/-- **C97, standard errors without covariance moments.** With `G` the Jacobian of averaged moments with respect to all parameters at the
estimates, `W` the weighting matrix and `S` covariances of moments, squared standard errors are diagonal elements of
`(G'WG)⁻¹ G'WSWG (G'WG)⁻¹ / N`. Unadjusted ones are those of `(G'WG)⁻¹ / N`, where `W` is the inverse of `S` after the first step.
The reported sensitivity of estimates to moments is `-(G'WG)⁻¹ G'W`.
Missing: covariance moments (`C93_refuted`). -/
theorem C97_standard_errors_partial [IsEmpty q] [DecidableEq q] [DecidableEq d] [∀ e, DecidableEq (m e)] [DecidableEq θ] [DecidableEq b] [DecidableEq g]
    (hsort : IsArgsort E.ids E.sort) (hinv : Spec.Inverts E.invertMoments) (hpar : Spec.Inverts E.invertParameters)
    (r : StepResults (Estimation.Weights m q d) (θ → ℝ) D)
    (hmicroS : ∀ a c, (E.outcome r).microCovariances a c = (E.outcome r).microCovariances c a)
    (o : (θ → ℝ) → Evaluated N θ d) (ho : ∀ theta, o theta = (E.markets (E.lastDelta r.step r.start) theta).1)
    (hdelta : ∀ p i, HasDerivAt (fun s => (o (Function.update r.theta p s)).delta i) ((o r.theta).deltaJacobian i p) (r.theta p))
    (hcosts : ∀ p i, HasDerivAt (fun s => (o (Function.update r.theta p s)).costs i) ((o r.theta).costsJacobian i p) (r.theta p))
    (hmicro : ∀ p c, HasDerivAt (fun s => (o (Function.update r.theta p s)).micro c) ((o r.theta).microJacobian c p) (r.theta p))
    (hphi : Spec.IsPhi E.location fun theta => (o theta).phi)
    (hsupply : E.data.hasSupply = false → ∀ p l, E.location p = some l → l = (0, 0))
    (G : Matrix ((MomentIndex m ⊕ q) ⊕ d) (θ ⊕ b ⊕ g) ℝ)
    (hG : let x : θ ⊕ b ⊕ g → ℝ := Sum.elim r.theta (E.linearParameters r.start.W (o r.theta))
      ∀ a p, HasDerivAt (fun s => Spec.parametricMoments E.data (fun theta => (o theta).delta) (fun theta => (o theta).costs)
        (fun theta => (o theta).phi) E.mean (fun theta => (o theta).micro) (Function.update x p s) a) (G a p) (x p)) :
    let S := Spec.stepCovariances E E.seType false r.start.W (o r.theta) (E.resampled (E.lastDelta r.step r.start) r.theta)
    let W := r.start.W
    (E.seType ≠ .unadjusted → ∀ H, Gᵀ * W * G * H = 1 → ∀ p, E.standardErrors r p = Real.sqrt ((H * Gᵀ * W * S * W * G * H) p p / N)) ∧
    (E.seType = .unadjusted → r.step ≠ 1 → ∀ H, Gᵀ * W * G * H = 1 → ∀ p, E.standardErrors r p = Real.sqrt (H p p / N)) ∧
    (E.seType = .unadjusted → r.step = 1 → ∀ S', S * S' = 1 → ∀ H, Gᵀ * S' * G * H = 1 →
      ∀ p, E.standardErrors r p = Real.sqrt (H p p / N)) ∧
    ((E.seType ≠ .unadjusted ∨ r.step ≠ 1) → ∀ H, Gᵀ * W * G * H = 1 → E.parameterSensitivity r = -(H * Gᵀ * W)) := by
  have ho' : E.outcome r = o r.theta := (ho r.theta).symm
  have hGeq : E.jacobian r = G := by
    ext a p
    refine HasDerivAt.unique ?_ (hG a p)
    have := C93_jacobian_partial E.data (fun theta => (o theta).delta) (fun theta => (o theta).costs) (fun theta => (o theta).phi)
      E.mean (fun theta => (o theta).micro) E.location r.theta _ _ _ hdelta hcosts hmicro hphi hsupply
      (E.covariances r.start.W (o r.theta).phi) (ivWeights (ivWeights r.start.W)) a p
    unfold Estimation.jacobian
    rw [ho']
    exact this
  have hS := C97_reported E hsort r
  rw [ho'] at hS
  intro S W
  have hdiag : ∀ {c : Type} (A : Matrix c c ℝ) (p : c), symmetrized A p p = A p p := by
    intro c A p
    unfold symmetrized
    ring
  refine ⟨fun ht H hH p => ?_, fun ht hstep H hH p => ?_, fun ht hstep S' hS' H hH p => ?_, fun ht H hH => ?_⟩
  · have hun : E.seType.isUnadjusted = false := by
      revert ht
      cases E.seType <;> intro ht
      · exact absurd rfl ht
      · rfl
      · rfl
    unfold Estimation.standardErrors Estimation.parameterCovariances Estimation.weightsForCovariances gmmParameterCovariances
    simp only [hun, Bool.false_and, Bool.false_eq_true, if_false]
    rw [hdiag, hGeq, hS, hpar _ H hH]
  · have hun : E.seType.isUnadjusted = true := by rw [ht]; rfl
    unfold Estimation.standardErrors Estimation.parameterCovariances Estimation.weightsForCovariances gmmParameterCovariances
    simp only [hun, Bool.true_and, beq_iff_eq, hstep, if_false, if_true]
    rw [hdiag, hGeq, hpar _ H hH]
  · have hun : E.seType.isUnadjusted = true := by rw [ht]; rfl
    have hsym : Sᵀ = S := stepCovariances_symm E _ _ _ _ _ (by rw [← ho']; exact hmicroS)
    have hT : S'ᵀ = S' := by
      have h5 := congrArg Matrix.transpose hS'
      rw [Matrix.transpose_mul, hsym, Matrix.transpose_one] at h5
      calc S'ᵀ = S'ᵀ * (S * S') := by rw [hS', Matrix.mul_one]
        _ = (S'ᵀ * S) * S' := (Matrix.mul_assoc _ _ _).symm
        _ = S' := by rw [h5, Matrix.one_mul]
    unfold Estimation.standardErrors Estimation.parameterCovariances Estimation.weightsForCovariances gmmParameterCovariances
    simp only [hun, Bool.true_and, beq_iff_eq, hstep, if_true]
    rw [hdiag, hGeq, hS, hinv S S' hS']
    unfold gmmWeights
    rw [symmetrized_of_symm _ hT, hpar _ H hH]
  · have hun : ¬((E.seType.isUnadjusted && r.step == 1) = true) := by
      intro h
      rw [Bool.and_eq_true, beq_iff_eq] at h
      rcases ht with ht | ht
      · refine ht ?_
        revert h
        cases E.seType <;> intro h
        · rfl
        · exact absurd h.1 (by decide)
        · exact absurd h.1 (by decide)
      · exact ht h.2
    unfold Estimation.parameterSensitivity Estimation.weightsForCovariances gmmParameterSensitivity
    rw [if_neg hun, hGeq, hpar _ H hH, Matrix.neg_mul, Matrix.neg_mul]

/-! ## Cases that meet hypotheses -/

section Witness

open Classical

/-- Estimation after which the weighting matrix of the second step exists. -/
example (r : StepResults (Estimation.Weights (fun _ : Fin 1 ⊕ Fin 0 => Fin 2) Empty Empty) (Fin 1 → ℝ) Unit) :
    IsArgsort unitsWitness.ids unitsWitness.sort ∧ Spec.Inverts unitsWitness.invertMoments ∧
    IsUnit (Spec.stepCovariances unitsWitness unitsWitness.wType unitsWitness.center r.start.W (unitsWitness.outcome r)
      (unitsWitness.resampled (unitsWitness.lastDelta r.step r.start) r.theta)) ∧
    ∀ s s' theta, (unitsWitness.markets s theta).1 = (unitsWitness.markets s' theta).1 := by
  have hsort : IsArgsort unitsWitness.ids unitsWitness.sort := ⟨by decide, by simp [unitsWitness]⟩
  refine ⟨hsort, fun S T h => Matrix.inv_eq_right_inv h, ?_, fun _ _ _ => rfl⟩
  rw [← C97_covariances _ hsort]
  exact unitsWitness_steps r

/-- Two products with mean utilities `theta` and `0`, two instruments, and an estimated constant. -/
noncomputable def constantWitness : Estimation 2 1 0 (fun _ => Fin 2) Empty Unit Empty Unit Empty ℕ Unit where
  data := ⟨id, fun _ => .levels, fun _ => .levels, false, fun _ => 1, Matrix.of fun _ c => c.elim, Matrix.of fun _ _ => 1,
    Matrix.of fun _ c => c.elim⟩
  location _ := none
  mean := 0
  scale := true
  analytic := true
  wType := .robust
  seType := .robust
  center := false
  ids i := i
  sort := [0, 1]
  markets _ theta := (⟨fun _ _ => 0, ![theta (), 0], fun _ => 0, Matrix.of ![fun _ => 1, fun _ => 0], 0, fun c => c.elim, 0, 0⟩, ())
  resampled _ _ := []
  strategy _ start _ := .inr (start, ⟨true, 0, 0⟩)
  budget := 10
  invertLinear S := S⁻¹
  invertAggregate S := S⁻¹
  invertMoments S := S⁻¹
  invertParameters S := S⁻¹

/-- Linear parameters of the witness exist. -/
example (o : Evaluated 2 Unit Empty) : Spec.Inverts constantWitness.invertLinear ∧
    Spec.PSD (1 : Matrix (MomentIndex fun _ : Fin 1 ⊕ Fin 0 => Fin 2) (MomentIndex fun _ => Fin 2) ℝ) ∧
    IsUnit (ivCovariancesInverse (constantWitness.data.regressors o.phi) constantWitness.data.Z 1) := by
  refine ⟨fun S T h => Matrix.inv_eq_right_inv h, ⟨fun a c => ?_, fun x => ?_⟩, ?_⟩
  · simp only [Matrix.one_apply, eq_comm]
  · rw [quadratic_eq, Matrix.one_mulVec]
    exact Finset.sum_nonneg fun c _ => mul_self_nonneg _
  · have h : ivCovariancesInverse (constantWitness.data.regressors o.phi) constantWitness.data.Z 1 =
        Matrix.diagonal fun _ => (2 : ℝ) := by
      rw [ivCovariancesInverse_eq, Matrix.mul_one]
      ext a c
      rcases a with a | a
      · rcases c with c | c
        · simp only [Matrix.mul_apply, Matrix.transpose_apply, ivP_apply]
          simp [Fintype.sum_sigma, constantWitness, MomentData.regressors, MomentData.equations, MomentData.extendedX1]
          norm_num
        · exact c.elim
      · exact a.elim
    rw [h, Matrix.isUnit_iff_isUnit_det, Matrix.det_diagonal, isUnit_iff_ne_zero, Finset.prod_ne_zero_iff]
    intro c _
    norm_num

/-- The Jacobian of moments of the witness. -/
noncomputable def constantG : Matrix ((MomentIndex (fun _ : Fin 1 ⊕ Fin 0 => Fin 2) ⊕ Empty) ⊕ Empty) (Unit ⊕ Unit ⊕ Empty) ℝ :=
  Matrix.of fun a p => match a, p with
    | .inl (.inl c), .inl _ => if c.2 = 0 then 1 / 2 else 0
    | _, _ => -1 / 2

/-- The inverse of its square. -/
noncomputable def constantH : Matrix (Unit ⊕ Unit ⊕ Empty) (Unit ⊕ Unit ⊕ Empty) ℝ :=
  Matrix.of fun a p => match a, p with
    | .inl _, .inl _ => 8
    | _, _ => 4

/-- Hypotheses about standard errors of the witness, at any estimates. -/
example (r : StepResults (Estimation.Weights (fun _ : Fin 1 ⊕ Fin 0 => Fin 2) Empty Empty) (Unit → ℝ) Unit) :
    ∃ o : (Unit → ℝ) → Evaluated 2 Unit Empty, (∀ theta, o theta = (constantWitness.markets (constantWitness.lastDelta r.step r.start) theta).1) ∧
    (∀ p i, HasDerivAt (fun s => (o (Function.update r.theta p s)).delta i) ((o r.theta).deltaJacobian i p) (r.theta p)) ∧
    (∀ p i, HasDerivAt (fun s => (o (Function.update r.theta p s)).costs i) ((o r.theta).costsJacobian i p) (r.theta p)) ∧
    (Spec.IsPhi constantWitness.location fun theta => (o theta).phi) ∧
    ∃ G : Matrix ((MomentIndex (fun _ : Fin 1 ⊕ Fin 0 => Fin 2) ⊕ Empty) ⊕ Empty) (Unit ⊕ Unit ⊕ Empty) ℝ,
      (let x : Unit ⊕ Unit ⊕ Empty → ℝ := Sum.elim r.theta (constantWitness.linearParameters r.start.W (o r.theta))
      ∀ a p, HasDerivAt (fun s => Spec.parametricMoments constantWitness.data (fun theta => (o theta).delta) (fun theta => (o theta).costs)
        (fun theta => (o theta).phi) constantWitness.mean (fun theta => (o theta).micro) (Function.update x p s) a) (G a p) (x p)) ∧
      ∃ H, Gᵀ * (1 : Matrix ((MomentIndex (fun _ : Fin 1 ⊕ Fin 0 => Fin 2) ⊕ Empty) ⊕ Empty)
        ((MomentIndex (fun _ : Fin 1 ⊕ Fin 0 => Fin 2) ⊕ Empty) ⊕ Empty) ℝ) * G * H = 1 := by
  have hup : ∀ (x : Unit → ℝ) (p : Unit) (s : ℝ), Function.update x p s () = s := fun x p s => by
    rw [Subsingleton.elim p (), Function.update_self]
  refine ⟨fun theta => (constantWitness.markets () theta).1, fun _ => rfl, fun p i => ?_, fun p i => hasDerivAt_const _ _,
    ⟨fun p l h => absurd h (by simp [constantWitness]), fun _ _ _ _ => rfl⟩, constantG, ?_, constantH, ?_⟩
  · fin_cases i
    · have : (fun s => (constantWitness.markets () (Function.update r.theta p s)).1.delta 0) = fun s => s := funext fun s => hup r.theta p s
      exact this ▸ hasDerivAt_id' _
    · exact hasDerivAt_const _ _
  · intro x a p
    rcases a with (⟨e | e, c⟩ | c) | c
    · obtain rfl : e = 0 := Subsingleton.elim _ _
      have hm : ∀ y : Unit ⊕ Unit ⊕ Empty → ℝ, Spec.parametricMoments constantWitness.data
          (fun theta => (constantWitness.markets () theta).1.delta) (fun theta => (constantWitness.markets () theta).1.costs)
          (fun theta => (constantWitness.markets () theta).1.phi) constantWitness.mean
          (fun theta => (constantWitness.markets () theta).1.micro) y (.inl (.inl ⟨.inl 0, c⟩)) =
            (![y (.inl ()), 0] c - y (.inr (.inl ()))) / 2 := by
        intro y
        fin_cases c <;>
          simp [Spec.parametricMoments, Spec.averagedMoments, constantWitness, Spec.momentError, Spec.unobserved, Matrix.one_apply]
      simp only [hm]
      rcases p with p | p | p
      · obtain rfl : p = () := rfl
        fin_cases c
        · have h := ((hasDerivAt_id' (x (.inl ()))).sub_const (x (.inr (.inl ())))).div_const 2
          simpa [constantG] using h
        · simpa [constantG] using hasDerivAt_const (x (.inl ())) _
      · obtain rfl : p = () := rfl
        fin_cases c
        · have h := ((hasDerivAt_id' (x (.inr (.inl ())))).const_sub (x (.inl ()))).div_const 2
          simpa [constantG] using h
        · have h := ((hasDerivAt_id' (x (.inr (.inl ())))).const_sub 0).div_const 2
          simpa [constantG] using h
      · exact p.elim
    · exact e.elim0
    · exact c.elim
    · exact c.elim
  · ext a c
    rw [Matrix.mul_one]
    rcases a with a | a | a
    · rcases c with c | c | c
      · simp [Matrix.mul_apply, Fintype.sum_sum_type, Fintype.sum_sigma, constantG, constantH]
        norm_num
      · simp [Matrix.mul_apply, Fintype.sum_sum_type, Fintype.sum_sigma, constantG, constantH]
        norm_num
      · exact c.elim
    · rcases c with c | c | c
      · simp [Matrix.mul_apply, Fintype.sum_sum_type, Fintype.sum_sigma, constantG, constantH]
        norm_num
      · simp [Matrix.mul_apply, Fintype.sum_sum_type, Fintype.sum_sigma, constantG, constantH]
        norm_num
      · exact c.elim
    · exact a.elim

end Witness

end Pyblp
