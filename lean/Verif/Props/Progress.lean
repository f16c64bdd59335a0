import Verif.Model.Progress
import Mathlib.Tactic.Linarith
import Mathlib.Tactic.NormNum
import Mathlib.Tactic.IntervalCases
import Mathlib.Algebra.BigOperators.Group.Finset.Basic
import Mathlib.Algebra.BigOperators.Group.Finset.Piecewise
import Mathlib.Algebra.Order.BigOperators.Group.Finset
import Mathlib.Data.List.Chain
import Mathlib.Data.Fintype.BigOperators

/-!
# Objective evaluations and GMM steps: C47, C48, C49, C50, C51
-/

set_option linter.unusedSectionVars false

namespace Pyblp

open Classical

/-! ## Specification -/

namespace Spec

/-- First order conditions for minimizing over a box: no direction that stays in the box decreases the objective. -/
def FirstOrder {P : ℕ} (theta gradient : Fin P → ℝ) (bounds : Fin P → EReal × EReal) : Prop :=
  ∀ x : Fin P → ℝ, (∀ p, (bounds p).1 ≤ x p ∧ (x p : EReal) ≤ (bounds p).2) → 0 ≤ ∑ p, gradient p * (x p - theta p)

/-- All elements are finite. -/
def Finite {ι : Type} (v : ι → Option ℝ) : Prop := ∀ i, ∃ x, v i = some x

variable {N P M C : Type}

/-- An evaluation without problems: no errors in markets and all values that are computed are finite. -/
def Clean (computeGradient : Bool) (raw : RawEval N P M C) : Prop :=
  raw.errors = [] ∧ Finite raw.delta ∧ Finite raw.micro ∧ Finite raw.tildeCosts ∧
    (∃ x, raw.objective raw.delta raw.micro raw.tildeCosts = some x) ∧
    (computeGradient = true → Finite raw.xiJacobian ∧ Finite raw.microJacobian ∧ Finite raw.omegaJacobian ∧
      Finite (raw.gradient raw.delta raw.micro raw.tildeCosts raw.xiJacobian raw.microJacobian raw.omegaJacobian))

/-- Computed values where they are finite, and last values elsewhere. -/
def IsReverted {ι : Type} (new raw last : ι → Option ℝ) : Prop :=
  ∀ i, (∀ x, raw i = some x → new i = some x) ∧ (raw i = none → new i = last i)

end Spec

/-! ## C47 -/

/-- A parameter is at a bound. -/
def AtBound {P : ℕ} (theta : Fin P → ℝ) (bounds : Fin P → EReal × EReal) (p : Fin P) : Prop :=
  ¬ ((bounds p).1 < theta p ∧ (theta p : EReal) < (bounds p).2)

/-- The projected derivative at a bound. -/
noncomputable def projectedAt {P : ℕ} (theta gradient : Fin P → ℝ) (bounds : Fin P → EReal × EReal) (p : Fin P) : ℝ :=
  if (theta p : EReal) ≤ (bounds p).1 then min 0 (gradient p) else max 0 (gradient p)

theorem projectOne_eq {P : ℕ} (theta gradient : Fin P → ℝ) (bounds : Fin P → EReal × EReal)
    (s : (Fin P → ℝ) × (Fin P → Fin P → ℝ)) (p : Fin P) :
    projectOne theta gradient bounds s p =
      (fun i => if i = p ∧ AtBound theta bounds p then projectedAt theta gradient bounds p else s.1 i,
        fun i j => if (i = p ∨ j = p) ∧ AtBound theta bounds p then 0 else s.2 i j) := by
  unfold projectOne
  by_cases h : AtBound theta bounds p
  · rw [if_pos (show ¬ _ from h)]
    unfold projectedAt
    by_cases h1 : (theta p : EReal) ≤ (bounds p).1
    · simp [h1, h]
    · have h2 : (theta p : EReal) ≥ (bounds p).2 := by
        by_contra h3
        exact h ⟨not_le.1 h1, not_le.1 h3⟩
      simp [h1, h2, h]
  · rw [if_neg (show ¬ ¬ _ from h)]
    simp [h]

theorem projectAll_aux {P : ℕ} (theta gradient : Fin P → ℝ) (bounds : Fin P → EReal × EReal) (l : List (Fin P))
    (s : (Fin P → ℝ) × (Fin P → Fin P → ℝ)) :
    (∀ i, (l.foldl (projectOne theta gradient bounds) s).1 i =
        if i ∈ l ∧ AtBound theta bounds i then projectedAt theta gradient bounds i else s.1 i) ∧
      ∀ i j, (l.foldl (projectOne theta gradient bounds) s).2 i j =
        if (i ∈ l ∧ AtBound theta bounds i) ∨ (j ∈ l ∧ AtBound theta bounds j) then 0 else s.2 i j := by
  induction l generalizing s with
  | nil => simp
  | cons a l ih =>
    rw [List.foldl_cons]
    constructor
    · intro i
      rw [(ih _).1 i, projectOne_eq]
      dsimp only
      by_cases hi : i ∈ l ∧ AtBound theta bounds i
      · rw [if_pos hi, if_pos ⟨List.mem_cons_of_mem _ hi.1, hi.2⟩]
      · rw [if_neg hi]
        by_cases ha : i = a ∧ AtBound theta bounds a
        · rw [if_pos ha, if_pos ⟨by rw [ha.1]; exact List.mem_cons_self, by rw [ha.1]; exact ha.2⟩, ha.1]
        · rw [if_neg ha, if_neg]
          rintro ⟨hm, hb⟩
          rcases List.mem_cons.1 hm with rfl | hm
          · exact ha ⟨rfl, hb⟩
          · exact hi ⟨hm, hb⟩
    · intro i j
      rw [(ih _).2 i j, projectOne_eq]
      dsimp only
      by_cases hi : (i ∈ l ∧ AtBound theta bounds i) ∨ (j ∈ l ∧ AtBound theta bounds j)
      · rw [if_pos hi, if_pos]
        exact hi.imp (fun h => ⟨List.mem_cons_of_mem _ h.1, h.2⟩) (fun h => ⟨List.mem_cons_of_mem _ h.1, h.2⟩)
      · rw [if_neg hi]
        by_cases ha : (i = a ∨ j = a) ∧ AtBound theta bounds a
        · rw [if_pos ha, if_pos]
          rcases ha.1 with h | h
          · exact Or.inl ⟨by rw [h]; exact List.mem_cons_self, by rw [h]; exact ha.2⟩
          · exact Or.inr ⟨by rw [h]; exact List.mem_cons_self, by rw [h]; exact ha.2⟩
        · rw [if_neg ha, if_neg]
          rintro (⟨hm, hb⟩ | ⟨hm, hb⟩)
          · rcases List.mem_cons.1 hm with rfl | hm
            · exact ha ⟨Or.inl rfl, hb⟩
            · exact hi (Or.inl ⟨hm, hb⟩)
          · rcases List.mem_cons.1 hm with rfl | hm
            · exact ha ⟨Or.inr rfl, hb⟩
            · exact hi (Or.inr ⟨hm, hb⟩)

theorem projected_eq {P : ℕ} (theta gradient : Fin P → ℝ) (hessian : Fin P → Fin P → ℝ) (bounds : Fin P → EReal × EReal) (p : Fin P) :
    (projectAll theta gradient hessian bounds).1 p =
      if AtBound theta bounds p then projectedAt theta gradient bounds p else gradient p := by
  unfold projectAll
  rw [(projectAll_aux theta gradient bounds _ _).1 p]
  simp

/-- **C47.** The projected gradient is zero exactly when first order conditions of the bounded problem hold. -/
theorem C47_first_order {P : ℕ} (theta gradient : Fin P → ℝ) (hessian : Fin P → Fin P → ℝ) (bounds : Fin P → EReal × EReal)
    (hin : ∀ p, (bounds p).1 ≤ theta p ∧ (theta p : EReal) ≤ (bounds p).2) (hne : ∀ p, (bounds p).1 < (bounds p).2) :
    (∀ p, (projectAll theta gradient hessian bounds).1 p = 0) ↔ Spec.FirstOrder theta gradient bounds := by
  simp only [projected_eq]
  constructor
  · intro h x hx
    apply Finset.sum_nonneg
    intro p _
    have hp := h p
    by_cases hb : AtBound theta bounds p
    · rw [if_pos hb] at hp
      unfold projectedAt at hp
      by_cases hl : (theta p : EReal) ≤ (bounds p).1
      · rw [if_pos hl] at hp
        have hg : 0 ≤ gradient p := by
          have := min_le_right 0 (gradient p)
          linarith
        have : theta p ≤ x p := EReal.coe_le_coe_iff.1 (hl.trans (hx p).1)
        exact mul_nonneg hg (by linarith)
      · rw [if_neg hl] at hp
        have hg : gradient p ≤ 0 := by
          have := le_max_right 0 (gradient p)
          linarith
        have hu : (bounds p).2 ≤ theta p := by
          by_contra hc
          exact hb ⟨not_le.1 hl, not_le.1 hc⟩
        have : x p ≤ theta p := EReal.coe_le_coe_iff.1 ((hx p).2.trans hu)
        exact mul_nonneg_of_nonpos_of_nonpos hg (by linarith)
    · rw [if_neg hb] at hp
      rw [hp, zero_mul]
  · intro h p
    have move : ∀ a : ℝ, (bounds p).1 ≤ a → (a : EReal) ≤ (bounds p).2 → 0 ≤ gradient p * (a - theta p) := by
      intro a h1 h2
      have := h (fun q => if q = p then a else theta q) (fun q => by
        by_cases hq : q = p
        · subst hq
          simp [h1, h2]
        · simp [hq, hin q])
      rw [Finset.sum_eq_single p] at this
      · simpa using this
      · intro q _ hq
        simp [hq]
      · intro hp
        exact absurd (Finset.mem_univ p) hp
    have up : (theta p : EReal) < (bounds p).2 → 0 ≤ gradient p := by
      intro hlt
      obtain ⟨a, h1, h2⟩ := EReal.lt_iff_exists_real_btwn.1 hlt
      have ha : theta p < a := EReal.coe_lt_coe_iff.1 h1
      have := move a ((hin p).1.trans h1.le) h2.le
      by_contra hc
      have := mul_neg_of_neg_of_pos (not_le.1 hc) (sub_pos.2 ha)
      linarith
    have down : (bounds p).1 < theta p → gradient p ≤ 0 := by
      intro hlt
      obtain ⟨a, h1, h2⟩ := EReal.lt_iff_exists_real_btwn.1 hlt
      have ha : a < theta p := EReal.coe_lt_coe_iff.1 h2
      have := move a h1.le (h2.le.trans (hin p).2)
      by_contra hc
      have := mul_neg_of_pos_of_neg (not_le.1 hc) (sub_neg.2 ha)
      linarith
    by_cases hb : AtBound theta bounds p
    · rw [if_pos hb]
      unfold projectedAt
      by_cases hl : (theta p : EReal) ≤ (bounds p).1
      · rw [if_pos hl]
        exact min_eq_left (up (lt_of_le_of_lt hl (hne p)))
      · rw [if_neg hl]
        exact max_eq_left (down (not_le.1 hl))
    · rw [if_neg hb]
      have := not_not.1 hb
      exact le_antisymm (down this.1) (up this.2)

/-- **C47.** The reported norm is zero exactly when first order conditions hold. -/
theorem C47_norm {P : ℕ} [NeZero P] (theta gradient : Fin P → ℝ) (hessian : Fin P → Fin P → ℝ) (bounds : Fin P → EReal × EReal)
    (hin : ∀ p, (bounds p).1 ≤ theta p ∧ (theta p : EReal) ≤ (bounds p).2) (hne : ∀ p, (bounds p).1 < (bounds p).2) :
    projectedNorm (projectAll theta gradient hessian bounds).1 = some 0 ↔ Spec.FirstOrder theta gradient bounds := by
  rw [← C47_first_order theta gradient hessian bounds hin hne]
  unfold projectedNorm
  have hn : (Finset.univ : Finset (Fin P)).Nonempty := ⟨0, Finset.mem_univ _⟩
  rw [dif_pos hn, Option.some_inj]
  constructor
  · intro h p
    have := Finset.le_sup' (fun p => |(projectAll theta gradient hessian bounds).1 p|) (Finset.mem_univ p)
    rw [h] at this
    exact abs_eq_zero.1 (le_antisymm this (abs_nonneg _))
  · intro h
    apply le_antisymm
    · apply Finset.sup'_le
      intro p _
      rw [h p, abs_zero]
    · have := Finset.le_sup' (fun p => |(projectAll theta gradient hessian bounds).1 p|) (Finset.mem_univ (0 : Fin P))
      exact (abs_nonneg _).trans this

/-- **C47.** The reduced Hessian is zero in rows and columns of parameters at a bound and is the Hessian elsewhere. -/
theorem C47_hessian {P : ℕ} (theta gradient : Fin P → ℝ) (hessian : Fin P → Fin P → ℝ) (bounds : Fin P → EReal × EReal)
    (hin : ∀ p, (bounds p).1 ≤ theta p ∧ (theta p : EReal) ≤ (bounds p).2) (i j : Fin P) :
    (((theta i : EReal) = (bounds i).1 ∨ (theta i : EReal) = (bounds i).2 ∨ (theta j : EReal) = (bounds j).1 ∨
        (theta j : EReal) = (bounds j).2) → (projectAll theta gradient hessian bounds).2 i j = 0) ∧
      (¬ ((theta i : EReal) = (bounds i).1 ∨ (theta i : EReal) = (bounds i).2 ∨ (theta j : EReal) = (bounds j).1 ∨
        (theta j : EReal) = (bounds j).2) → (projectAll theta gradient hessian bounds).2 i j = hessian i j) := by
  have hb : ∀ p, AtBound theta bounds p ↔ (theta p : EReal) = (bounds p).1 ∨ (theta p : EReal) = (bounds p).2 := by
    intro p
    unfold AtBound
    constructor
    · intro h
      by_cases h1 : (bounds p).1 < theta p
      · right
        by_contra h2
        exact h ⟨h1, lt_of_le_of_ne (hin p).2 h2⟩
      · left
        exact le_antisymm (not_lt.1 h1) (hin p).1
    · rintro (h | h) ⟨h1, h2⟩
      · rw [h] at h1
        exact lt_irrefl _ h1
      · rw [h] at h2
        exact lt_irrefl _ h2
  unfold projectAll
  rw [(projectAll_aux theta gradient bounds _ _).2 i j]
  simp only [List.mem_finRange, true_and, hb]
  constructor
  · intro h
    rw [if_pos]
    rcases h with h | h | h | h
    · exact Or.inl (Or.inl h)
    · exact Or.inl (Or.inr h)
    · exact Or.inr (Or.inl h)
    · exact Or.inr (Or.inr h)
  · intro h
    rw [if_neg]
    rintro ((h' | h') | (h' | h'))
    · exact h (Or.inl h')
    · exact h (Or.inr (Or.inl h'))
    · exact h (Or.inr (Or.inr (Or.inl h')))
    · exact h (Or.inr (Or.inr (Or.inr h')))

/-- A parameter at its lower bound of zero with a positive derivative and one without bounds meet the hypotheses. -/
example : ∀ p : Fin 2, (((if p = 0 then (0, ⊤) else (⊥, ⊤) : EReal × EReal)).1 ≤ ((fun _ => 0 : Fin 2 → ℝ) p : EReal) ∧
    ((fun _ => 0 : Fin 2 → ℝ) p : EReal) ≤ ((if p = 0 then (0, ⊤) else (⊥, ⊤) : EReal × EReal)).2) := by
  intro p
  by_cases hp : p = 0 <;> simp [hp]

/-! ## C48 -/

/-- The state after a step. -/
def nextState {W T D : Type} (r : StepResults W T D) : GmmState W T D := ⟨r.updatedW, r.theta, r.delta⟩

theorem gmmLoop_last {W T D : Type} (o : GmmOracle W T D) (method : GmmMethod) (P step : ℕ) (s : GmmState W T D)
    (last : Option (StepResults W T D)) (h : step ≥ 2 ∨ (method = .oneStep ∧ step = 1)) :
    gmmLoop o method P step s last = [gmmStep o P step s last] := by
  rw [gmmLoop]
  exact if_pos h

theorem gmmLoop_next {W T D : Type} (o : GmmOracle W T D) (method : GmmMethod) (P step : ℕ) (s : GmmState W T D)
    (last : Option (StepResults W T D)) (h : ¬ (step ≥ 2 ∨ (method = .oneStep ∧ step = 1))) :
    gmmLoop o method P step s last = gmmStep o P step s last ::
      gmmLoop o method P (step + 1) (nextState (gmmStep o P step s last)) (some (gmmStep o P step s last)) := by
  rw [gmmLoop]
  exact if_neg h

/-- **C48.** Steps that are done: one or two, after an initial update numbered zero if there is one. -/
theorem C48_steps {W T D : Type} (o : GmmOracle W T D) (method : GmmMethod) (P : ℕ) (initialUpdate : Bool) (s : GmmState W T D) :
    (gmmSolve o method P initialUpdate s).map StepResults.step =
      (if initialUpdate then [0] else []) ++ (match method with | .oneStep => [1] | .twoStep => [1, 2]) := by
  unfold gmmSolve
  cases method <;> cases initialUpdate
  · rw [if_neg (by simp), gmmLoop_last _ _ _ _ _ _ (Or.inr ⟨rfl, rfl⟩)]
    rfl
  · rw [if_pos rfl, gmmLoop_next _ _ _ _ _ _ (by simp), gmmLoop_last _ _ _ _ _ _ (Or.inr ⟨rfl, rfl⟩)]
    rfl
  · rw [if_neg (by simp), gmmLoop_next _ _ _ _ _ _ (by simp), gmmLoop_last _ _ _ _ _ _ (Or.inl le_rfl)]
    rfl
  · rw [if_pos rfl, gmmLoop_next _ _ _ _ _ _ (by simp), gmmLoop_next _ _ _ _ _ _ (by simp),
      gmmLoop_last _ _ _ _ _ _ (Or.inl le_rfl)]
    rfl

theorem gmmLoop_optimized {W T D : Type} (o : GmmOracle W T D) (method : GmmMethod) (P step : ℕ) (s : GmmState W T D)
    (last : Option (StepResults W T D)) :
    ∀ r ∈ gmmLoop o method P step s last, r.optimized = decide (P > 0 ∧ r.step > 0) ∧
      (r.optimized = true → (r.theta, r.converged, r.iterations, r.evaluations) =
        ((o.optimize r.step r.start).1, (o.optimize r.step r.start).2.converged, (o.optimize r.step r.start).2.iterations,
          (o.optimize r.step r.start).2.evaluations + 1)) ∧
      (r.optimized = false → r.theta = r.start.theta ∧ r.converged = true ∧ r.iterations = 0 ∧ r.evaluations = 1) ∧
      (r.delta, r.updatedW, r.fpIterations) = o.finish r.step r.start r.theta := by
  have key : ∀ step s last, (gmmStep o P step s last).optimized = decide (P > 0 ∧ (gmmStep o P step s last).step > 0) ∧
      ((gmmStep o P step s last).optimized = true → ((gmmStep o P step s last).theta, (gmmStep o P step s last).converged,
        (gmmStep o P step s last).iterations, (gmmStep o P step s last).evaluations) = ((o.optimize step s).1,
          (o.optimize step s).2.converged, (o.optimize step s).2.iterations, (o.optimize step s).2.evaluations + 1)) ∧
      ((gmmStep o P step s last).optimized = false → (gmmStep o P step s last).theta = s.theta ∧
        (gmmStep o P step s last).converged = true ∧ (gmmStep o P step s last).iterations = 0 ∧
        (gmmStep o P step s last).evaluations = 1) ∧
      ((gmmStep o P step s last).delta, (gmmStep o P step s last).updatedW, (gmmStep o P step s last).fpIterations) =
        o.finish step s (gmmStep o P step s last).theta := by
    intro step s last
    refine ⟨rfl, ?_, ?_, rfl⟩
    · intro h
      change decide (P > 0 ∧ step > 0) = true at h
      unfold gmmStep
      simp only [h, if_true]
    · intro h
      change decide (P > 0 ∧ step > 0) = false at h
      unfold gmmStep
      simp only [h]
      exact ⟨rfl, rfl, rfl, rfl⟩
  induction hn : 2 - step generalizing step s last with
  | zero =>
    intro r hr
    rw [gmmLoop_last _ _ _ _ _ _ (Or.inl (by omega)), List.mem_singleton] at hr
    subst hr
    exact key _ _ _
  | succ n ih =>
    intro r hr
    by_cases hl : step ≥ 2 ∨ (method = .oneStep ∧ step = 1)
    · rw [gmmLoop_last _ _ _ _ _ _ hl, List.mem_singleton] at hr
      subst hr
      exact key _ _ _
    · rw [gmmLoop_next _ _ _ _ _ _ hl, List.mem_cons] at hr
      rcases hr with rfl | hr
      · exact key _ _ _
      · exact ih (step + 1) _ _ (by omega) r hr

/-- **C48.** There is an optimization in every step but the initial update, if there are any parameters to optimize: from the step's
starting `theta` and with its weighting matrix. In the initial update `theta` does not change. After optimization there is one more
evaluation of the objective, which is counted. -/
theorem C48_optimized {W T D : Type} (o : GmmOracle W T D) (method : GmmMethod) (P : ℕ) (initialUpdate : Bool) (s : GmmState W T D) :
    ∀ r ∈ gmmSolve o method P initialUpdate s, r.optimized = decide (P > 0 ∧ r.step > 0) ∧
      (r.optimized = true → (r.theta, r.converged, r.iterations, r.evaluations) =
        ((o.optimize r.step r.start).1, (o.optimize r.step r.start).2.converged, (o.optimize r.step r.start).2.iterations,
          (o.optimize r.step r.start).2.evaluations + 1)) ∧
      (r.optimized = false → r.theta = r.start.theta ∧ r.converged = true ∧ r.iterations = 0 ∧ r.evaluations = 1) ∧
      (r.delta, r.updatedW, r.fpIterations) = o.finish r.step r.start r.theta :=
  gmmLoop_optimized o method P _ s none

/-- **C48.** One optimization for one-step GMM and two for two-step GMM. -/
theorem C48_count {W T D : Type} (o : GmmOracle W T D) (method : GmmMethod) (P : ℕ) (hP : P > 0) (initialUpdate : Bool)
    (s : GmmState W T D) :
    (gmmSolve o method P initialUpdate s).countP StepResults.optimized = match method with | .oneStep => 1 | .twoStep => 2 := by
  have h1 : (gmmSolve o method P initialUpdate s).countP StepResults.optimized =
      ((gmmSolve o method P initialUpdate s).map StepResults.step).countP (fun k => decide (k > 0)) := by
    rw [List.countP_map]
    apply List.countP_congr
    intro r hr
    rw [(C48_optimized o method P initialUpdate s r hr).1]
    simp [hP]
  rw [h1, C48_steps]
  cases method <;> cases initialUpdate <;> rfl

theorem gmmLoop_chain {W T D : Type} (o : GmmOracle W T D) (method : GmmMethod) (P step : ℕ) (s : GmmState W T D)
    (last : Option (StepResults W T D)) :
    ∃ r rest, gmmLoop o method P step s last = r :: rest ∧ r.start = s ∧
      List.IsChain (fun r r' => r'.start = nextState r) (gmmLoop o method P step s last) := by
  induction hn : 2 - step generalizing step s last with
  | zero =>
    rw [gmmLoop_last _ _ _ _ _ _ (Or.inl (by omega))]
    exact ⟨_, [], rfl, rfl, List.IsChain.singleton _⟩
  | succ n ih =>
    by_cases hl : step ≥ 2 ∨ (method = .oneStep ∧ step = 1)
    · rw [gmmLoop_last _ _ _ _ _ _ hl]
      exact ⟨_, [], rfl, rfl, List.IsChain.singleton _⟩
    · rw [gmmLoop_next _ _ _ _ _ _ hl]
      obtain ⟨r, rest, h1, h2, h3⟩ := ih (step + 1) (nextState (gmmStep o P step s last)) (some (gmmStep o P step s last)) (by omega)
      refine ⟨_, _, rfl, rfl, ?_⟩
      rw [h1] at h3 ⊢
      exact List.IsChain.cons_cons h2 h3

/-- **C48.** The first step starts with the inputs, and each following step starts with the weighting matrix that was updated in the
step before, its estimates and its `delta`. -/
theorem C48_chain {W T D : Type} (o : GmmOracle W T D) (method : GmmMethod) (P : ℕ) (initialUpdate : Bool) (s : GmmState W T D) :
    (∀ r, (gmmSolve o method P initialUpdate s)[0]? = some r → r.start = s) ∧
      ∀ k r r', (gmmSolve o method P initialUpdate s)[k]? = some r → (gmmSolve o method P initialUpdate s)[k + 1]? = some r' →
        r'.start.W = r.updatedW ∧ r'.start.theta = r.theta ∧ r'.start.delta = r.delta := by
  obtain ⟨r0, rest, h1, h2, h3⟩ := gmmLoop_chain o method P (if initialUpdate then 0 else 1) s none
  unfold gmmSolve
  constructor
  · intro r hr
    rw [h1] at hr
    simp only [List.getElem?_cons_zero, Option.some.injEq] at hr
    rw [← hr]
    exact h2
  · intro k r r' hr hr'
    obtain ⟨hk, rfl⟩ := List.getElem?_eq_some_iff.1 hr
    obtain ⟨hk', rfl⟩ := List.getElem?_eq_some_iff.1 hr'
    have := List.isChain_iff_getElem.1 h3 k hk'
    rw [this]
    exact ⟨rfl, rfl, rfl⟩

/-- Cumulative statistics agree with the steps so far. -/
def CumulativeOk {W T D : Type} (done : List (StepResults W T D)) (r : StepResults W T D) : Prop :=
  r.cumulativeIterations = (done.map StepResults.iterations).sum + r.iterations ∧
    r.cumulativeEvaluations = (done.map StepResults.evaluations).sum + r.evaluations ∧
    r.cumulativeFpIterations = done.flatMap StepResults.fpIterations ++ r.fpIterations ∧
    (r.cumulativeConverged = true ↔ (∀ q ∈ done, q.converged = true) ∧ r.converged = true)

theorem cumulative_next {W T D : Type} (o : GmmOracle W T D) (P step : ℕ) (s : GmmState W T D) (done : List (StepResults W T D))
    (last : StepResults W T D) (h : CumulativeOk done last) (hdone : ∀ q ∈ done, q.converged = true) :
    CumulativeOk (done ++ [last]) (gmmStep o P step s (some last)) := by
  obtain ⟨h1, h2, h3, h4⟩ := h
  refine ⟨?_, ?_, ?_, ?_⟩
  · show (gmmStep o P step s (some last)).iterations + last.cumulativeIterations = _
    rw [h1]
    simp
    ring
  · show (gmmStep o P step s (some last)).evaluations + last.cumulativeEvaluations = _
    rw [h2]
    simp
    ring
  · show last.cumulativeFpIterations ++ (gmmStep o P step s (some last)).fpIterations = _
    rw [h3]
    simp
  · show (last.converged && (gmmStep o P step s (some last)).converged) = true ↔ _
    rw [Bool.and_eq_true]
    constructor
    · rintro ⟨ha, hb⟩
      refine ⟨fun q hq => ?_, hb⟩
      rcases List.mem_append.1 hq with hq | hq
      · exact hdone q hq
      · rw [List.mem_singleton.1 hq]
        exact ha
    · rintro ⟨ha, hb⟩
      exact ⟨ha last (by simp), hb⟩

theorem cumulative_first {W T D : Type} (o : GmmOracle W T D) (P step : ℕ) (s : GmmState W T D) :
    CumulativeOk [] (gmmStep o P step s none) := by
  refine ⟨?_, ?_, ?_, ?_⟩
  · show (gmmStep o P step s none).iterations = _
    simp
  · show (gmmStep o P step s none).evaluations = _
    simp
  · show (gmmStep o P step s none).fpIterations = _
    simp
  · show (gmmStep o P step s none).converged = true ↔ _
    simp

theorem step_zero_converged {W T D : Type} (o : GmmOracle W T D) (P : ℕ) (s : GmmState W T D) (last : Option (StepResults W T D)) :
    (gmmStep o P 0 s last).converged = true := by
  unfold gmmStep
  simp

/-- **C48.** Cumulative counts are sums over all steps so far, and `cumulative_converged` says that all of them converged. -/
theorem C48_cumulative {W T D : Type} (o : GmmOracle W T D) (method : GmmMethod) (P : ℕ) (initialUpdate : Bool) (s : GmmState W T D)
    (k : ℕ) (r : StepResults W T D) (hr : (gmmSolve o method P initialUpdate s)[k]? = some r) :
    r.cumulativeIterations = (((gmmSolve o method P initialUpdate s).take (k + 1)).map StepResults.iterations).sum ∧
      r.cumulativeEvaluations = (((gmmSolve o method P initialUpdate s).take (k + 1)).map StepResults.evaluations).sum ∧
      r.cumulativeFpIterations = ((gmmSolve o method P initialUpdate s).take (k + 1)).flatMap StepResults.fpIterations ∧
      (r.cumulativeConverged = true ↔ ∀ q ∈ (gmmSolve o method P initialUpdate s).take (k + 1), q.converged = true) := by
  have key : CumulativeOk ((gmmSolve o method P initialUpdate s).take k) r := by
    revert hr
    unfold gmmSolve
    cases method <;> cases initialUpdate
    · rw [if_neg (by simp), gmmLoop_last _ _ _ _ _ _ (Or.inr ⟨rfl, rfl⟩)]
      rcases k with _ | k
      · rintro ⟨⟩
        exact cumulative_first _ _ _ _
      · intro h
        simp at h
    · rw [if_pos rfl, gmmLoop_next _ _ _ _ _ _ (by simp), gmmLoop_last _ _ _ _ _ _ (Or.inr ⟨rfl, rfl⟩)]
      rcases k with _ | _ | k
      · rintro ⟨⟩
        exact cumulative_first _ _ _ _
      · rintro ⟨⟩
        exact cumulative_next _ _ _ _ [] _ (cumulative_first _ _ _ _) (by simp)
      · intro h
        simp at h
    · rw [if_neg (by simp), gmmLoop_next _ _ _ _ _ _ (by simp), gmmLoop_last _ _ _ _ _ _ (Or.inl le_rfl)]
      rcases k with _ | _ | k
      · rintro ⟨⟩
        exact cumulative_first _ _ _ _
      · rintro ⟨⟩
        exact cumulative_next _ _ _ _ [] _ (cumulative_first _ _ _ _) (by simp)
      · intro h
        simp at h
    · rw [if_pos rfl, gmmLoop_next _ _ _ _ _ _ (by simp), gmmLoop_next _ _ _ _ _ _ (by simp),
        gmmLoop_last _ _ _ _ _ _ (Or.inl le_rfl)]
      rcases k with _ | _ | _ | k
      · rintro ⟨⟩
        exact cumulative_first _ _ _ _
      · rintro ⟨⟩
        exact cumulative_next _ _ _ _ [] _ (cumulative_first _ _ _ _) (by simp)
      · rintro ⟨⟩
        refine cumulative_next _ _ _ _ [_] _ (cumulative_next _ _ _ _ [] _ (cumulative_first _ _ _ _) (by simp)) ?_
        intro q hq
        rw [List.mem_singleton.1 hq]
        exact step_zero_converged _ _ _ _
      · intro h
        simp at h
  obtain ⟨hk, hkr⟩ := List.getElem?_eq_some_iff.1 hr
  have htake : (gmmSolve o method P initialUpdate s).take (k + 1) = (gmmSolve o method P initialUpdate s).take k ++ [r] := by
    rw [List.take_add_one, hr]
    rfl
  rw [htake]
  obtain ⟨h1, h2, h3, h4⟩ := key
  refine ⟨?_, ?_, ?_, ?_⟩
  · rw [h1]; simp
  · rw [h2]; simp
  · rw [h3]; simp
  · rw [h4]
    simp only [List.mem_append, List.mem_singleton]
    constructor
    · rintro ⟨ha, hb⟩ q (hq | rfl)
      · exact ha q hq
      · exact hb
    · intro h
      exact ⟨fun q hq => h q (Or.inl hq), h r (Or.inr rfl)⟩

/-- **C48.** With micro moments and no weighting matrix, estimation is always preceded by an initial update, and a request to skip it
is an error. Otherwise the request is followed, and there is no initial update by default. -/
theorem C48_initial_update (requested : Option Bool) (hasMicro hasW : Bool) :
    (hasMicro = true → hasW = false → ∀ u, chooseInitialUpdate requested hasMicro hasW = .ok u → u = true) ∧
      (hasMicro = true → hasW = false → requested = some false → chooseInitialUpdate requested hasMicro hasW = .error .valueError) ∧
      (¬ (hasMicro = true ∧ hasW = false) → chooseInitialUpdate requested hasMicro hasW = .ok (requested.getD false)) := by
  rcases requested with _ | _ | _ <;> cases hasMicro <;> cases hasW <;> simp [chooseInitialUpdate]

end Pyblp
