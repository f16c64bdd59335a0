import Verif.Lemmas.RandomDelta
import Mathlib.Analysis.Calculus.LineDeriv.Basic
import Mathlib.Analysis.Calculus.MeanValue
import Mathlib.MeasureTheory.Constructions.BorelSpace.Metrizable

/-!
# Random coefficients satisfy conditions for large-sample theory

Mean utilities that explain shares exist, are measurable functions of data, continuously differentiable functions of parameters, and bounded together with their
derivatives.
-/

set_option linter.unusedSectionVars false

open MeasureTheory ProbabilityTheory Filter Topology

namespace Pyblp

variable {C A K2 N D θ b z : Type} [Fintype A] [Fintype K2] [Fintype N] [Fintype D] [Fintype θ] [DecidableEq θ] [MeasurableSpace C] {law : Measure C}
  {R : Spec.Markets C A K2 N D b z} {L : Spec.Coefficients K2 N D θ}

/-! ## Mean utilities -/

lemma share_sum (h : R.Regular L law) (x : C) : ∑ j : R.Product x, R.share x j < 1 := by
  have := h.outside x
  unfold Spec.Markets.outside at this
  linarith

lemma meanUtilities_explain (h : R.Regular L law) (theta : θ → ℝ) (x : C) : R.Explains L theta x (R.meanUtilities L theta x) := by
  have hex : ∃ delta, R.Explains L theta x delta := by
    obtain ⟨d, hd⟩ := (C117_exists (plainMarket (R.weights x) : Market (R.Product x) A Unit) (plain_regular _) true (R.mu L theta x) (plain_available _)
      (h.nonneg x) (plain_some _ (h.one x)) (fun i _ j => plain_offered _ i j) fun j : R.Product x => R.share x j).mpr
      ⟨fun j => h.share x j j.2, by
        change _ < ∑ i, R.weights x i
        rw [h.one x]
        exact share_sum h x⟩
    exact ⟨d, funext hd⟩
  unfold Spec.Markets.meanUtilities
  rw [dif_pos hex]
  exact hex.choose_spec

lemma meanUtilities_unique (h : R.Regular L law) {theta : θ → ℝ} {x : C} {delta : R.Product x → ℝ} (hd : R.Explains L theta x delta) :
    delta = R.meanUtilities L theta x := by
  obtain ⟨i, hi⟩ := plain_some _ (h.one x)
  refine C23_unique (plainMarket (R.weights x) : Market (R.Product x) A Unit) (plain_regular _) true (R.mu L theta x) (plain_available _) (h.nonneg x)
    (fun j => ⟨i, hi, plain_offered _ i j⟩) _ _ fun j => ?_
  have h1 : computeShares (plainMarket (R.weights x) : Market (R.Product x) A Unit) {} delta (R.mu L theta x) = _ := hd
  have h2 : computeShares (plainMarket (R.weights x) : Market (R.Product x) A Unit) {} (R.meanUtilities L theta x) (R.mu L theta x) = _ :=
    meanUtilities_explain h theta x
  exact (congrFun h1 j).trans (congrFun h2 j).symm

/-! ## Tastes -/

/-- Utility from random coefficients as a function of parameters, characteristics, nodes and demographics. -/
noncomputable def tasteFunction (rc : K2 → RcType) (L : Spec.Coefficients K2 N D θ) (y : (θ → ℝ) × (K2 → ℝ) × (N → ℝ) × (D → ℝ)) : ℝ :=
  ∑ k, y.2.1 k * transformCoefficient (rc k) (∑ c, L.sigmaAt y.1 k c * y.2.2.1 c + ∑ c, L.piAt y.1 k c * y.2.2.2 c)

lemma mu_eq (theta : θ → ℝ) (x : C) (j : R.Product x) (i : A) :
    R.mu L theta x j i = tasteFunction R.rcType L (theta, R.X2 x j, R.nodes x i, fun c => R.demographics x i c j) := rfl

lemma contDiff_sigmaAt (L : Spec.Coefficients K2 N D θ) (k : K2) (c : N) : ContDiff ℝ 1 fun theta : θ → ℝ => L.sigmaAt theta k c := by
  unfold Spec.Coefficients.sigmaAt
  split_ifs
  · refine ContDiff.sum fun p _ => ?_
    split_ifs
    · exact contDiff_apply ℝ ℝ p
    · exact contDiff_const
  · exact contDiff_const

lemma contDiff_piAt (L : Spec.Coefficients K2 N D θ) (k : K2) (c : D) : ContDiff ℝ 1 fun theta : θ → ℝ => L.piAt theta k c := by
  unfold Spec.Coefficients.piAt
  split_ifs
  · refine ContDiff.sum fun p _ => ?_
    split_ifs
    · exact contDiff_apply ℝ ℝ p
    · exact contDiff_const
  · exact contDiff_const

lemma contDiff_taste (rc : K2 → RcType) (L : Spec.Coefficients K2 N D θ) : ContDiff ℝ 1 (tasteFunction rc L) := by
  unfold tasteFunction
  refine ContDiff.sum fun k _ => ContDiff.mul ((contDiff_apply ℝ ℝ k).comp (contDiff_fst.comp contDiff_snd)) ((contDiff_transform (rc k)).comp ?_)
  refine ContDiff.add (ContDiff.sum fun c _ => ?_) (ContDiff.sum fun c _ => ?_)
  · exact ((contDiff_sigmaAt L k c).comp contDiff_fst).mul ((contDiff_apply ℝ ℝ c).comp (contDiff_fst.comp (contDiff_snd.comp contDiff_snd)))
  · exact ((contDiff_piAt L k c).comp contDiff_fst).mul ((contDiff_apply ℝ ℝ c).comp (contDiff_snd.comp (contDiff_snd.comp contDiff_snd)))

lemma contDiff_mu (x : C) (j : R.Product x) (i : A) : ContDiff ℝ 1 fun theta : θ → ℝ => R.mu L theta x j i := by
  simp only [mu_eq]
  exact (contDiff_taste _ _).comp (contDiff_id.prodMk contDiff_const)

/-- Tastes are bounded and Lipschitz continuous in bounded parameters. -/
lemma mu_bounds (h : R.Regular L law) (r : ℝ) : ∃ B, 0 ≤ B ∧ (∀ theta ∈ Metric.closedBall (0 : θ → ℝ) r, ∀ x (j : R.Product x) i, |R.mu L theta x j i| ≤ B) ∧
    ∀ theta ∈ Metric.closedBall (0 : θ → ℝ) r, ∀ theta' ∈ Metric.closedBall (0 : θ → ℝ) r, ∀ x (j : R.Product x) i,
      |R.mu L theta x j i - R.mu L theta' x j i| ≤ B * ‖theta - theta'‖ := by
  obtain ⟨K, hK⟩ := h.tastes
  set S : Set ((θ → ℝ) × (K2 → ℝ) × (N → ℝ) × (D → ℝ)) :=
    Metric.closedBall 0 r ×ˢ Metric.closedBall 0 (|K|) ×ˢ Metric.closedBall 0 (|K|) ×ˢ Metric.closedBall 0 (|K|) with hS
  have hc : IsCompact S := (isCompact_closedBall _ _).prod ((isCompact_closedBall _ _).prod ((isCompact_closedBall _ _).prod (isCompact_closedBall _ _)))
  have hv : Convex ℝ S := (convex_closedBall _ _).prod ((convex_closedBall _ _).prod ((convex_closedBall _ _).prod (convex_closedBall _ _)))
  have hg := contDiff_taste R.rcType L
  obtain ⟨B1, hB1⟩ := hc.exists_bound_of_continuousOn hg.continuous.continuousOn
  obtain ⟨B2, hB2⟩ := hc.exists_bound_of_continuousOn (hg.continuous_fderiv (by norm_num)).continuousOn
  have hmem : ∀ theta ∈ Metric.closedBall (0 : θ → ℝ) r, ∀ x (j : R.Product x) i,
      (theta, R.X2 x j, R.nodes x i, fun c => R.demographics x i c j) ∈ S := by
    intro theta ht x j i
    obtain ⟨h1, h2, h3⟩ := hK x j i
    refine ⟨ht, ?_, ?_, ?_⟩ <;> rw [mem_closedBall_zero_iff, pi_norm_le_iff_of_nonneg (abs_nonneg _)] <;> intro c
    · exact (h1 c).trans (le_abs_self _)
    · exact (h2 c).trans (le_abs_self _)
    · exact (h3 c).trans (le_abs_self _)
  refine ⟨max |B1| |B2|, (abs_nonneg _).trans (le_max_left _ _), fun theta ht x j i => ?_, fun theta ht theta' ht' x j i => ?_⟩
  · have := hB1 _ (hmem theta ht x j i)
    rw [mu_eq, ← Real.norm_eq_abs]
    exact this.trans ((le_abs_self _).trans (le_max_left _ _))
  · have h1 := hv.norm_image_sub_le_of_norm_fderiv_le (𝕜 := ℝ) (f := tasteFunction R.rcType L) (C := max |B1| |B2|)
      (fun y _ => hg.differentiable (by norm_num) y) (fun y hy => (hB2 y hy).trans ((le_abs_self _).trans (le_max_right _ _)))
      (hmem theta' ht' x j i) (hmem theta ht x j i)
    rw [mu_eq, mu_eq, ← Real.norm_eq_abs]
    refine h1.trans (le_of_eq ?_)
    congr 1
    simp [Prod.norm_def]

/-! ## Bounds -/

lemma outcome_lt {theta : θ → ℝ} {x : C} {e : Fin 1 ⊕ Fin 0} {j : ℕ} (hj : j < R.more x + 1) :
    (R.models L).outcome theta x e j = R.meanUtilities L theta x ⟨j, hj⟩ := by
  simp only [Spec.Markets.models, dif_pos hj]

lemma outcome_ge {theta : θ → ℝ} {x : C} {e : Fin 1 ⊕ Fin 0} {j : ℕ} (hj : ¬ j < R.more x + 1) : (R.models L).outcome theta x e j = 0 := by
  simp only [Spec.Markets.models, dif_neg hj]

lemma outcome_bounds (h : R.Regular L law) (r : ℝ) : ∃ B, 0 ≤ B ∧
    (∀ theta ∈ Metric.closedBall (0 : θ → ℝ) r, ∀ x e j, |(R.models L).outcome theta x e j| ≤ |R.logit x j| + B) ∧
    ∀ theta ∈ Metric.closedBall (0 : θ → ℝ) r, ∀ theta' ∈ Metric.closedBall (0 : θ → ℝ) r, ∀ x e j,
      |(R.models L).outcome theta x e j - (R.models L).outcome theta' x e j| ≤ B / R.outside x * ‖theta - theta'‖ := by
  obtain ⟨B, hB0, hB, hlip⟩ := mu_bounds (θ := θ) h r
  have hout := h.outside
  refine ⟨max B (2 * Real.exp (2 * B) * B), hB0.trans (le_max_left _ _), fun theta ht x e j => ?_, fun theta ht theta' ht' x e j => ?_⟩
  · by_cases hj : j < R.more x + 1
    · rw [outcome_lt hj]
      have h1 := plain_delta_le (G := Unit) (R.weights x) (h.nonneg x) (h.one x) (fun j : R.Product x => h.share x j j.2) (share_sum h x)
        (meanUtilities_explain h theta x) (hB theta ht x) ⟨j, hj⟩
      have h2 : |R.meanUtilities L theta x ⟨j, hj⟩ - R.logit x j| ≤ B := h1
      have h3 := abs_add_le (R.meanUtilities L theta x ⟨j, hj⟩ - R.logit x j) (R.logit x j)
      rw [sub_add_cancel] at h3
      have := le_max_left B (2 * Real.exp (2 * B) * B)
      linarith
    · rw [outcome_ge hj, abs_zero]
      have := hB0.trans (le_max_left B (2 * Real.exp (2 * B) * B))
      positivity
  · by_cases hj : j < R.more x + 1
    · rw [outcome_lt hj, outcome_lt hj]
      have h1 := plain_lipschitz Unit (R.weights x) (h.nonneg x) (h.one x) (fun j : R.Product x => h.share x j j.2) (share_sum h x)
        (meanUtilities_explain h theta x) (meanUtilities_explain h theta' x) hB0 (hB theta ht x) (hB theta' ht' x) (hlip theta ht theta' ht' x) ⟨j, hj⟩
      refine h1.trans ?_
      have h2 : 2 * Real.exp (2 * B) / (1 - ∑ j : R.Product x, R.share x j) * (B * ‖theta - theta'‖) =
          (2 * Real.exp (2 * B) * B) / R.outside x * ‖theta - theta'‖ := by
        unfold Spec.Markets.outside
        ring
      rw [h2]
      exact mul_le_mul_of_nonneg_right (div_le_div_of_nonneg_right (le_max_right _ _) (hout x).le) (norm_nonneg _)
    · rw [outcome_ge hj, outcome_ge hj, sub_zero, abs_zero]
      exact mul_nonneg (div_nonneg (hB0.trans (le_max_left _ _)) (hout x).le) (norm_nonneg _)

/-! ## Derivatives -/

lemma contDiff_outcome (h : R.Regular L law) (x : C) (e : Fin 1 ⊕ Fin 0) (j : ℕ) : ContDiff ℝ 1 fun theta : θ → ℝ => (R.models L).outcome theta x e j := by
  by_cases hj : j < R.more x + 1
  · simp only [outcome_lt hj]
    have h1 := plain_contDiff Unit (R.weights x) (h.nonneg x) (h.one x) (mu := fun theta : θ → ℝ => R.mu L theta x) (contDiff_mu x)
      (delta := fun theta => R.meanUtilities L theta x) fun theta => meanUtilities_explain h theta x
    exact contDiff_pi.mp h1 _
  · simp only [outcome_ge hj]
    exact contDiff_const

lemma markets_slope_eq (h : R.Regular L law) (theta : θ → ℝ) (x : C) (e : Fin 1 ⊕ Fin 0) (j : ℕ) (p : θ) :
    R.slope L theta x e j p = fderiv ℝ (fun theta : θ → ℝ => (R.models L).outcome theta x e j) theta (Pi.single p 1) := by
  have h1 := ((contDiff_outcome h x e j).differentiable (by norm_num) theta).hasFDerivAt
  have h2 := HasFDerivAt.comp_hasDerivAt (theta p) (f := fun s => Function.update theta p s) (l := fun theta : θ → ℝ => (R.models L).outcome theta x e j)
    (l' := fderiv ℝ (fun theta : θ → ℝ => (R.models L).outcome theta x e j) theta) (by rw [Function.update_eq_self]; exact h1) (hasDerivAt_update theta p (theta p))
  exact h2.deriv

lemma hasFDerivAt_outcome (h : R.Regular L law) (theta : θ → ℝ) (x : C) (e : Fin 1 ⊕ Fin 0) (j : ℕ) :
    HasFDerivAt (fun theta : θ → ℝ => (R.models L).outcome theta x e j) (Spec.linearFunction (R.slope L theta x e j)) theta := by
  have h1 := ((contDiff_outcome h x e j).differentiable (by norm_num) theta).hasFDerivAt
  refine h1.congr_fderiv ?_
  ext v
  have hv : v = ∑ p, v p • (Pi.single p (1 : ℝ) : θ → ℝ) := by
    funext l
    simp [Finset.sum_apply, Pi.single_apply]
  conv_lhs => rw [hv]
  rw [map_sum]
  simp only [Spec.linearFunction, sum_apply, smul_apply, ContinuousLinearMap.proj_apply, markets_slope_eq h, map_smul,
    smul_eq_mul]
  exact Finset.sum_congr rfl fun p _ => mul_comm _ _

lemma continuous_slope (h : R.Regular L law) (x : C) (e : Fin 1 ⊕ Fin 0) (j : ℕ) (p : θ) : Continuous fun theta : θ → ℝ => R.slope L theta x e j p := by
  simp only [markets_slope_eq h]
  exact ((contDiff_outcome h x e j).continuous_fderiv (by norm_num)).clm_apply continuous_const

lemma slope_bound (h : R.Regular L law) (r : ℝ) : ∃ B, ∀ theta ∈ Metric.ball (0 : θ → ℝ) r, ∀ x e j p, |R.slope L theta x e j p| ≤ B / R.outside x := by
  obtain ⟨B, hB0, -, hB⟩ := outcome_bounds (θ := θ) h r
  refine ⟨B, fun theta ht x e j p => ?_⟩
  have h1 := ((contDiff_outcome (θ := θ) h x e j).differentiable (by norm_num) theta).hasFDerivAt
  have h2 := h1.le_of_lip' (C := B / R.outside x) (div_nonneg hB0 (h.outside x).le) (by
    filter_upwards [Metric.isOpen_ball.mem_nhds ht] with theta' ht'
    exact hB theta' (Metric.ball_subset_closedBall ht') theta (Metric.ball_subset_closedBall ht) x e j)
  rw [markets_slope_eq h, ← Real.norm_eq_abs]
  refine (ContinuousLinearMap.le_opNorm _ _).trans ((mul_le_mul_of_nonneg_right h2 (norm_nonneg _)).trans ?_)
  rw [Pi.norm_single, norm_one, mul_one]

/-! ## Measurability -/

/-- An iteration over the contraction, for given numbers of products. -/
noncomputable def iterates (R : Spec.Markets C A K2 N D b z) (L : Spec.Coefficients K2 N D θ) (theta : θ → ℝ) (n : ℕ) (x : C) : ℕ → Fin (n + 1) → ℝ
  | 0 => 0
  | k + 1 => fun j => iterates R L theta n x k j + (Real.log (R.share x j) - Real.log (∑ i,
      Real.exp (iterates R L theta n x k j + tasteFunction R.rcType L (theta, R.X2 x j, R.nodes x i, fun c => R.demographics x i c j)) /
        (1 + ∑ l : Fin (n + 1), Real.exp (iterates R L theta n x k l + tasteFunction R.rcType L (theta, R.X2 x l, R.nodes x i, fun c => R.demographics x i c l))) *
      R.weights x i))

lemma iterates_eq (theta : θ → ℝ) (x : C) (k : ℕ) : iterates R L theta (R.more x) x k =
    (linearContraction (plainMarket (R.weights x) : Market (R.Product x) A Unit) true ⟨none, none⟩ (R.mu L theta x) fun j => R.share x j)^[k] 0 := by
  induction k with
  | zero => rfl
  | succ k ih =>
    rw [Function.iterate_succ_apply', ← ih]
    funext j
    have e : computeShares (plainMarket (R.weights x) : Market (R.Product x) A Unit) { safe := true } (iterates R L theta (R.more x) x k) (R.mu L theta x) j = _ :=
      plainMarket_shares (R.weights x) _ _ j
    have e2 : linearContraction (plainMarket (R.weights x) : Market (R.Product x) A Unit) true ⟨none, none⟩ (R.mu L theta x) (fun j => R.share x j)
        (iterates R L theta (R.more x) x k) j = iterates R L theta (R.more x) x k j + (Real.log (R.share x j) - Real.log (computeShares
          (plainMarket (R.weights x) : Market (R.Product x) A Unit) { safe := true } (iterates R L theta (R.more x) x k) (R.mu L theta x) j)) * 1 := rfl
    rw [e2, e, mul_one]
    rfl

lemma measurable_iterates (h : R.Regular L law) (theta : θ → ℝ) (n k : ℕ) (j : Fin (n + 1)) : Measurable fun x => iterates R L theta n x k j := by
  induction k generalizing j with
  | zero => exact measurable_const
  | succ k ih =>
    have hmu : ∀ (j : Fin (n + 1)) i, Measurable fun x => tasteFunction R.rcType L (theta, R.X2 x j, R.nodes x i, fun c => R.demographics x i c j) := by
      intro j i
      refine (contDiff_taste R.rcType L).continuous.measurable.comp (measurable_const.prodMk (Measurable.prodMk ?_ (Measurable.prodMk ?_ ?_)))
      · exact measurable_pi_lambda _ fun k => h.measurable_X2 j k
      · exact measurable_pi_lambda _ fun c => h.measurable_nodes i c
      · exact measurable_pi_lambda _ fun c => h.measurable_demographics i c j
    have hexp : ∀ (j : Fin (n + 1)) i, Measurable fun x => Real.exp (iterates R L theta n x k j +
        tasteFunction R.rcType L (theta, R.X2 x j, R.nodes x i, fun c => R.demographics x i c j)) := fun j i =>
      Real.measurable_exp.comp ((ih j).add (hmu j i))
    simp only [iterates]
    refine (ih j).add ((Real.measurable_log.comp (h.measurable_share j)).sub (Real.measurable_log.comp (Finset.measurable_sum _ fun i _ => ?_)))
    exact ((hexp j i).div (measurable_const.add (Finset.measurable_sum _ fun l _ => hexp l i))).mul (h.measurable_weights i)

lemma measurable_outcome (h : R.Regular L law) (theta : θ → ℝ) (e : Fin 1 ⊕ Fin 0) (j : ℕ) : Measurable fun x => (R.models L).outcome theta x e j := by
  set f : ℕ → C × ℕ → ℝ := fun k y => if hj : j < y.2 + 1 then iterates R L theta y.2 y.1 k ⟨j, hj⟩ else 0 with hf
  have hm : ∀ k, Measurable fun x => f k (x, R.more x) := by
    intro k
    refine Measurable.comp (g := f k) (measurable_from_prod_countable_left fun n => ?_) (measurable_id.prodMk h.measurable_more)
    simp only [hf]
    split_ifs with hj
    · exact measurable_iterates h theta n k ⟨j, hj⟩
    · exact measurable_const
  refine measurable_of_tendsto_metrizable hm ?_
  rw [tendsto_pi_nhds]
  intro x
  by_cases hj : j < R.more x + 1
  · rw [outcome_lt hj]
    simp only [hf, dif_pos hj, iterates_eq]
    obtain ⟨i, hi⟩ := plain_some _ (h.one x)
    have h1 := C117_converges (plainMarket (R.weights x) : Market (R.Product x) A Unit) (plain_regular _) (fun _ => le_refl (1 : ℝ)) true ⟨none, none⟩ (by constructor <;> simp)
      (R.mu L theta x) (plain_available _) (h.nonneg x) (fun j => ⟨i, hi, plain_offered _ i j⟩) (fun j => R.share x j) (by constructor <;> simp)
      (R.meanUtilities L theta x) (fun j => congrFun (meanUtilities_explain h theta x) j) 0
    exact tendsto_pi_nhds.mp h1 _
  · rw [outcome_ge hj]
    simp only [hf, dif_neg hj]
    exact tendsto_const_nhds

lemma measurable_slope (h : R.Regular L law) (theta : θ → ℝ) (e : Fin 1 ⊕ Fin 0) (j : ℕ) (p : θ) : Measurable fun x => R.slope L theta x e j p := by
  set t : ℕ → ℝ := fun n => 1 / ((n : ℝ) + 1) with ht
  have hm : ∀ n, Measurable fun x => (t n)⁻¹ * ((R.models L).outcome (theta + t n • Pi.single p 1) x e j - (R.models L).outcome theta x e j) := fun n =>
    measurable_const.mul ((measurable_outcome h (theta + t n • Pi.single p 1) e j).sub (measurable_outcome h theta e j))
  refine measurable_of_tendsto_metrizable hm ?_
  rw [tendsto_pi_nhds]
  intro x
  rw [markets_slope_eq h]
  have h1 := ((contDiff_outcome h x e j).differentiable (by norm_num) theta).hasFDerivAt.hasLineDerivAt (Pi.single p 1)
  have h2 := h1.tendsto_slope_zero
  refine h2.comp ?_
  rw [tendsto_nhdsWithin_iff]
  refine ⟨tendsto_one_div_add_atTop_nhds_zero_nat, Eventually.of_forall fun n => ?_⟩
  simp only [Set.mem_compl_iff, Set.mem_singleton_iff, ht]
  positivity

end Pyblp
