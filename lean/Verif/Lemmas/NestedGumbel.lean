import Verif.Lemmas.Gumbel
import Mathlib.Analysis.SpecialFunctions.Pow.Deriv
import Mathlib.Analysis.Calculus.LocalExtr.Basic

/-! The Williams-Daly-Zachary theorem: probabilities with which alternatives are best are derivatives of the expected utility of the
best one. Applied to tastes of a nested logit model. -/

set_option linter.unusedSectionVars false

namespace Pyblp
open MeasureTheory ProbabilityTheory Set

variable {K : Type} [Fintype K] [DecidableEq K]

lemma measurable_sup_tastes (u : K → ℝ) (S : Finset K) (hS : S.Nonempty) :
    Measurable fun ε : K → ℝ => S.sup' hS fun k => u k + ε k := by
  have h := Finset.measurable_sup' hS (f := fun k (ε : K → ℝ) => u k + ε k) (fun k _ => by fun_prop)
  convert h using 2
  simp

/-- Expected utility of the best alternative when its distribution function is that of a Gumbel variable with a shifted location. -/
lemma integral_sup_of_cdf (Q : Measure (K → ℝ)) [IsProbabilityMeasure Q] (u : K → ℝ) (S : Finset K) (hS : S.Nonempty) (N : ℝ) (hN : 0 < N)
    (hQ : ∀ x, Q.real {ε | ∀ k ∈ S, ε k ≤ x - u k} = Real.exp (-(Real.exp (-x) * N))) :
    Integrable (fun ε => S.sup' hS fun k => u k + ε k) Q ∧
      ∫ ε, (S.sup' hS fun k => u k + ε k) ∂Q = Real.log N + Real.eulerMascheroniConstant := by
  have hm := measurable_sup_tastes u S hS
  have := Measure.isProbabilityMeasure_map (μ := Q) hm.aemeasurable
  have hm' : Measurable fun x : ℝ => x + Real.log N := by fun_prop
  have := Measure.isProbabilityMeasure_map (μ := Spec.gumbel) hm'.aemeasurable
  have hlaw : Q.map (fun ε => S.sup' hS fun k => u k + ε k) = Spec.gumbel.map (fun x => x + Real.log N) := by
    refine Measure.ext_of_Iic _ _ fun x => ?_
    rw [Measure.map_apply hm measurableSet_Iic, Measure.map_apply hm' measurableSet_Iic]
    have h1 : (fun ε : K → ℝ => S.sup' hS fun k => u k + ε k) ⁻¹' Iic x = {ε | ∀ k ∈ S, ε k ≤ x - u k} := by
      ext ε
      simp only [mem_preimage, mem_Iic, Finset.sup'_le_iff, mem_ofPred_eq, le_sub_iff_add_le']
    have h2 : (fun y : ℝ => y + Real.log N) ⁻¹' Iic x = Iic (x - Real.log N) := by
      ext y
      simp only [mem_preimage, mem_Iic, le_sub_iff_add_le]
    rw [h1, h2, gumbel_Iic, ← ofReal_measureReal, hQ, neg_sub, Real.exp_sub, Real.exp_log hN]
    congr 3
    rw [Real.exp_neg]
    field_simp
  constructor
  · have h : Integrable (fun x : ℝ => x) (Q.map (fun ε => S.sup' hS fun k => u k + ε k)) := by
      rw [hlaw, integrable_map_measure (by fun_prop) hm'.aemeasurable]
      exact integrable_gumbel.add (integrable_const _)
    rw [integrable_map_measure (by fun_prop) hm.aemeasurable] at h
    exact h
  · have h := integral_map (μ := Q) hm.aemeasurable (f := fun x : ℝ => x) (by fun_prop)
    rw [← h, hlaw, integral_map hm'.aemeasurable (by fun_prop),
      integral_add integrable_gumbel (integrable_const _), integral_gumbel]
    simp [add_comm]

lemma measurableSet_weakly_best (u : K → ℝ) (S : Finset K) (j : K) :
    MeasurableSet {ε : K → ℝ | ∀ k ∈ S, u k + ε k ≤ u j + ε j} := by
  have : {ε : K → ℝ | ∀ k ∈ S, u k + ε k ≤ u j + ε j} = ⋂ k ∈ S, {ε : K → ℝ | u k + ε k ≤ u j + ε j} := by
    ext ε; simp only [mem_ofPred_eq, mem_iInter]
  rw [this]
  exact Finset.measurableSet_biInter _ fun k _ => measurableSet_le (by fun_prop) (by fun_prop)

/-- Whether an alternative is best is a subgradient of the utility of the best one. -/
lemma sup_subgradient (v : K → ℝ) (S : Finset K) (hS : S.Nonempty) (j : K) (hj : j ∈ S) (ε : K → ℝ) (t : ℝ) :
    (S.sup' hS fun k => v k + ε k) + t * {ε : K → ℝ | ∀ k ∈ S, v k + ε k ≤ v j + ε j}.indicator (fun _ => (1 : ℝ)) ε ≤
      S.sup' hS fun k => (v k + if k = j then t else 0) + ε k := by
  by_cases hW : ∀ k ∈ S, v k + ε k ≤ v j + ε j
  · rw [indicator_of_mem (by exact hW), mul_one]
    have h1 : (S.sup' hS fun k => v k + ε k) ≤ v j + ε j := Finset.sup'_le _ _ hW
    have h2 := Finset.le_sup' (fun k => (v k + if k = j then t else 0) + ε k) hj
    simp only [if_true] at h2
    linarith
  · rw [indicator_of_notMem (by exact hW), mul_zero, add_zero]
    push Not at hW
    obtain ⟨k, hk, hlt⟩ := hW
    obtain ⟨k0, hk0, heq⟩ := Finset.exists_mem_eq_sup' hS fun k => v k + ε k
    have h1 := Finset.le_sup' (fun k => v k + ε k) hk
    have hne : k0 ≠ j := by
      rintro rfl
      rw [heq] at h1
      linarith
    have h2 := Finset.le_sup' (fun k => (v k + if k = j then t else 0) + ε k) hk0
    simp only [if_neg hne, add_zero] at h2
    rw [heq]
    exact h2

/-- The Williams-Daly-Zachary theorem. -/
lemma weakly_best_eq_deriv (Q : Measure (K → ℝ)) [IsProbabilityMeasure Q] (v : K → ℝ) (S : Finset K) (hS : S.Nonempty) (j : K) (hj : j ∈ S)
    (L : ℝ → ℝ) (hL : ∀ t, Integrable (fun ε => S.sup' hS fun k => (v k + if k = j then t else 0) + ε k) Q ∧
      ∫ ε, (S.sup' hS fun k => (v k + if k = j then t else 0) + ε k) ∂Q = L t) (D : ℝ) (hD : HasDerivAt L D 0) :
    Q.real {ε | ∀ k ∈ S, v k + ε k ≤ v j + ε j} = D := by
  set W : Set (K → ℝ) := {ε | ∀ k ∈ S, v k + ε k ≤ v j + ε j} with hWdef
  have hW : MeasurableSet W := measurableSet_weakly_best v S j
  have h0 := hL 0
  simp only [ite_self, add_zero] at h0
  have hind : Integrable (W.indicator fun _ => (1 : ℝ)) Q := (integrable_const 1).indicator hW
  have hineq : ∀ t, L 0 + t * Q.real W ≤ L t := by
    intro t
    rw [← (hL t).2, ← h0.2]
    have hi : ∫ ε, W.indicator (fun _ => (1 : ℝ)) ε ∂Q = Q.real W := by
      rw [integral_indicator hW]; simp
    rw [← hi, ← integral_const_mul, ← integral_add h0.1 (hind.const_mul t)]
    exact integral_mono (h0.1.add (hind.const_mul t)) (hL t).1 fun ε => sup_subgradient v S hS j hj ε t
  have hmin : IsLocalMin (fun t => L t - t * Q.real W) 0 := by
    refine Filter.Eventually.of_forall fun t => ?_
    have := hineq t
    simp only [zero_mul, sub_zero]
    linarith
  have hder : HasDerivAt (fun t => L t - t * Q.real W) (D - 1 * Q.real W) 0 :=
    hD.fun_sub ((hasDerivAt_id' (0 : ℝ)).mul_const _)
  have := hmin.hasDerivAt_eq_zero hder
  linarith

/-- If probabilities of being weakly best sum to one then ties have probability zero. -/
lemma strictly_best_eq (Q : Measure (K → ℝ)) [IsProbabilityMeasure Q] (v : K → ℝ) (S : Finset K) (P : K → ℝ)
    (hP : ∀ k ∈ S, Q.real {ε | ∀ l ∈ S, v l + ε l ≤ v k + ε k} = P k) (hsum : ∑ k ∈ S, P k = 1) (j : K) (hj : j ∈ S) :
    Q.real {ε | ∀ k ∈ S, k ≠ j → v k + ε k < v j + ε j} = P j := by
  refine le_antisymm ?_ ?_
  · rw [← hP j hj]
    refine measureReal_mono fun ε h k hk => ?_
    by_cases hkj : k = j
    · rw [hkj]
    · exact (h k hk hkj).le
  · have hsub : {ε : K → ℝ | ∀ k ∈ S, k ≠ j → v k + ε k < v j + ε j}ᶜ ⊆ ⋃ k ∈ S.erase j, {ε : K → ℝ | ∀ l ∈ S, v l + ε l ≤ v k + ε k} := by
      intro ε h
      simp only [mem_compl_iff, mem_ofPred_eq, not_forall, not_lt] at h
      obtain ⟨k, hk, hkj, hle⟩ := h
      obtain ⟨k0, hk0, heq⟩ := Finset.exists_mem_eq_sup' ⟨j, hj⟩ fun k => v k + ε k
      have hmax : ∀ l ∈ S, v l + ε l ≤ v k0 + ε k0 := fun l hl => heq ▸ Finset.le_sup' (fun k => v k + ε k) hl
      simp only [mem_iUnion, Finset.mem_erase]
      by_cases h0 : k0 = j
      · exact ⟨k, ⟨hkj, hk⟩, fun l hl => (hmax l hl).trans (h0 ▸ hle)⟩
      · exact ⟨k0, ⟨h0, hk0⟩, hmax⟩
    have h1 : Q.real {ε : K → ℝ | ∀ k ∈ S, k ≠ j → v k + ε k < v j + ε j}ᶜ ≤ ∑ k ∈ S.erase j, P k := by
      refine (measureReal_mono hsub (measure_ne_top Q _)).trans ((measureReal_biUnion_finset_le _ _).trans (le_of_eq ?_))
      exact Finset.sum_congr rfl fun k hk => hP k (Finset.mem_of_mem_erase hk)
    rw [probReal_compl_eq_one_sub (measurableSet_best v S j)] at h1
    rw [← Finset.add_sum_erase S P hj] at hsum
    linarith

/-! ## Nested logit -/

variable {J G : Type} [Fintype J] [DecidableEq J] [Fintype G] [DecidableEq G] (group : J → G) (rho : G → ℝ) (hrho : ∀ h, rho h < 1)

include hrho

lemma nestedGenerator_pos (S : Finset (Option J)) (hS : S.Nonempty) (v : Option J → ℝ) : 0 < Spec.nestedGenerator group rho S v := by
  unfold Spec.nestedGenerator
  have hin : ∀ h, 0 ≤ ∑ j with group j = h, if some j ∈ S then Real.exp (v (some j) / (1 - rho h)) else 0 := fun h =>
    Finset.sum_nonneg fun j _ => by split_ifs <;> positivity
  have hnn : ∀ h, 0 ≤ (∑ j with group j = h, if some j ∈ S then Real.exp (v (some j) / (1 - rho h)) else 0) ^ (1 - rho h) :=
    fun h => Real.rpow_nonneg (hin h) _
  obtain ⟨c, hc⟩ := hS
  cases c with
  | none =>
    rw [if_pos hc]
    exact add_pos_of_pos_of_nonneg (Real.exp_pos _) (Finset.sum_nonneg fun h _ => hnn h)
  | some j =>
    refine add_pos_of_nonneg_of_pos (by split_ifs <;> positivity)
      (Finset.sum_pos' (fun h _ => hnn h) ⟨group j, Finset.mem_univ _, Real.rpow_pos_of_pos ?_ _⟩)
    refine Finset.sum_pos' (fun k _ => by split_ifs <;> positivity) ⟨j, by simp, ?_⟩
    rw [if_pos hc]
    exact Real.exp_pos _

lemma nestedGenerator_shift (S : Finset (Option J)) (v : Option J → ℝ) (x : ℝ) :
    Spec.nestedGenerator group rho S (fun c => -(x - v c)) = Real.exp (-x) * Spec.nestedGenerator group rho S v := by
  unfold Spec.nestedGenerator
  rw [mul_add, Finset.mul_sum]
  congr 1
  · split_ifs
    · rw [← Real.exp_add]; congr 1; ring
    · rw [mul_zero]
  · refine Finset.sum_congr rfl fun h _ => ?_
    have hne : 1 - rho h ≠ 0 := by have := hrho h; linarith
    have hin : 0 ≤ ∑ j with group j = h, if some j ∈ S then Real.exp (v (some j) / (1 - rho h)) else 0 :=
      Finset.sum_nonneg fun j _ => by split_ifs <;> positivity
    have h1 : (∑ j with group j = h, if some j ∈ S then Real.exp (-(x - v (some j)) / (1 - rho h)) else 0) =
        Real.exp (-x / (1 - rho h)) * ∑ j with group j = h, if some j ∈ S then Real.exp (v (some j) / (1 - rho h)) else 0 := by
      rw [Finset.mul_sum]
      refine Finset.sum_congr rfl fun j _ => ?_
      split_ifs
      · rw [← Real.exp_add]; congr 1; ring
      · rw [mul_zero]
    rw [h1, Real.mul_rpow (Real.exp_pos _).le hin, ← Real.exp_mul]
    congr 2
    field_simp

/-- Derivative of the generating function with respect to the utility of the outside option. -/
lemma hasDerivAt_nestedGenerator_none (S : Finset (Option J)) (hc : none ∈ S) (v : Option J → ℝ) :
    HasDerivAt (fun t => Spec.nestedGenerator group rho S fun c => v c + if c = none then t else 0) (Real.exp (v none)) 0 := by
  unfold Spec.nestedGenerator
  simp only [if_pos hc, if_true, reduceCtorEq, if_false, add_zero]
  have h := ((hasDerivAt_id' (0 : ℝ)).const_add (v none)).exp
  simp only [add_zero, mul_one] at h
  exact h.add_const _

/-- Derivative of the generating function with respect to the utility of a product. -/
lemma hasDerivAt_nestedGenerator_some (S : Finset (Option J)) (j : J) (hc : some j ∈ S) (v : Option J → ℝ) :
    HasDerivAt (fun t => Spec.nestedGenerator group rho S fun c => v c + if c = some j then t else 0)
      (Real.exp (v (some j) / (1 - rho (group j))) /
          (∑ k with group k = group j, if some k ∈ S then Real.exp (v (some k) / (1 - rho (group j))) else 0) *
        (∑ k with group k = group j, if some k ∈ S then Real.exp (v (some k) / (1 - rho (group j))) else 0) ^ (1 - rho (group j))) 0 := by
  unfold Spec.nestedGenerator
  simp only [reduceCtorEq, if_false, add_zero, Option.some.injEq]
  have hne : 1 - rho (group j) ≠ 0 := by have := hrho (group j); linarith
  set I := ∑ k with group k = group j, if some k ∈ S then Real.exp (v (some k) / (1 - rho (group j))) else 0 with hI
  have hpos : 0 < I := by
    refine Finset.sum_pos' (fun k _ => by split_ifs <;> positivity) ⟨j, by simp, ?_⟩
    rw [if_pos hc]
    exact Real.exp_pos _
  have hinner : HasDerivAt (fun t => ∑ k with group k = group j, if some k ∈ S then
      Real.exp ((v (some k) + if k = j then t else 0) / (1 - rho (group j))) else 0)
      (∑ k with group k = group j, if k = j then Real.exp (v (some j) / (1 - rho (group j))) * (1 / (1 - rho (group j))) else 0) 0 := by
    refine HasDerivAt.fun_sum fun k _ => ?_
    by_cases hk : k = j
    · subst hk
      simp only [if_pos hc, if_true]
      have h := (((hasDerivAt_id' (0 : ℝ)).const_add (v (some k))).div_const (1 - rho (group k))).exp
      simpa only [add_zero] using h
    · simp only [if_neg hk]
      exact hasDerivAt_const _ _
  rw [Finset.sum_ite_eq' _ j, if_pos (by simp)] at hinner
  have hall : ∀ h ∈ Finset.univ, HasDerivAt (fun t => (∑ k with group k = h, if some k ∈ S then
      Real.exp ((v (some k) + if k = j then t else 0) / (1 - rho h)) else 0) ^ (1 - rho h))
      (if h = group j then Real.exp (v (some j) / (1 - rho (group j))) / I * I ^ (1 - rho (group j)) else 0) 0 := by
    intro h _
    by_cases hh : h = group j
    · subst hh
      rw [if_pos rfl]
      have h1 := hinner.rpow_const (p := 1 - rho (group j)) (Or.inl (by simpa [← hI] using hpos.ne'))
      simp only [add_zero, ite_self] at h1
      refine h1.congr_deriv ?_
      rw [← hI, Real.rpow_sub_one hpos.ne']
      field_simp
    · rw [if_neg hh]
      have : (fun t : ℝ => (∑ k with group k = h, if some k ∈ S then
          Real.exp ((v (some k) + if k = j then t else 0) / (1 - rho h)) else 0) ^ (1 - rho h)) =
          fun _ => (∑ k with group k = h, if some k ∈ S then Real.exp (v (some k) / (1 - rho h)) else 0) ^ (1 - rho h) := by
        funext t
        congr 1
        refine Finset.sum_congr rfl fun k hk => ?_
        have hkj : k ≠ j := by
          rintro rfl
          exact hh (Finset.mem_filter.1 hk).2.symm
        rw [if_neg hkj, add_zero]
      rw [this]
      exact hasDerivAt_const _ _
  have h := (HasDerivAt.fun_sum hall).const_add (if none ∈ S then Real.exp (v none) else 0)
  rw [Finset.sum_ite_eq' _ (group j), if_pos (Finset.mem_univ _)] at h
  exact h

/-- The expected utility of the best alternative with tastes of a nested logit model. -/
lemma integral_sup_nested {Q : Measure (Option J → ℝ)} (hQ : Spec.NestedTastes group rho Q) (S : Finset (Option J)) (hS : S.Nonempty)
    (v : Option J → ℝ) : Integrable (fun ε => S.sup' hS fun k => v k + ε k) Q ∧
      ∫ ε, (S.sup' hS fun k => v k + ε k) ∂Q = Real.log (Spec.nestedGenerator group rho S v) + Real.eulerMascheroniConstant := by
  have := hQ.probability
  refine integral_sup_of_cdf Q v S hS _ (nestedGenerator_pos group rho hrho S hS v) fun x => ?_
  rw [hQ.cdf S fun c => x - v c, nestedGenerator_shift group rho hrho]

/-- The probability with which an alternative is at least as good as the others. -/
lemma weakly_best_nested {Q : Measure (Option J → ℝ)} (hQ : Spec.NestedTastes group rho Q) (S : Finset (Option J)) (v : Option J → ℝ)
    (c : Option J) (hc : c ∈ S) (D : ℝ)
    (hD : HasDerivAt (fun t => Spec.nestedGenerator group rho S fun d => v d + if d = c then t else 0) D 0) :
    Q.real {ε | ∀ d ∈ S, v d + ε d ≤ v c + ε c} = D / Spec.nestedGenerator group rho S v := by
  have := hQ.probability
  have hv : (fun d => v d + if d = c then (0 : ℝ) else 0) = v := by funext d; simp
  have hpos := nestedGenerator_pos group rho hrho S ⟨c, hc⟩ v
  have h := (hD.log (by rw [hv]; exact hpos.ne')).add_const Real.eulerMascheroniConstant
  rw [hv] at h
  exact weakly_best_eq_deriv Q v S ⟨c, hc⟩ c hc _
    (fun t => integral_sup_nested group rho hrho hQ S ⟨c, hc⟩ fun d => v d + if d = c then t else 0) _ h

end Pyblp
