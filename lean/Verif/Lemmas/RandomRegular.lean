import Verif.Lemmas.RandomSample
import Verif.Lemmas.ClusterSampling

/-!
# Random coefficients satisfy conditions for large-sample theory

Moments that have to be finite are.
-/

set_option linter.unusedSectionVars false

open MeasureTheory ProbabilityTheory Filter Topology

namespace Pyblp

variable {C A K2 N D θ b z : Type} [Fintype A] [Fintype K2] [Fintype N] [Fintype D] [Fintype θ] [DecidableEq θ] [Fintype b] [MeasurableSpace C] {law : Measure C}
  {R : Spec.Markets C A K2 N D b z} {L : Spec.Coefficients K2 N D θ}

lemma random_error_le {theta : θ → ℝ} {beta : b ⊕ Empty → ℝ} {B : ℝ} (hB : ∀ x e j, |(R.models L).outcome theta x e j| ≤ |R.logit x j| + B) (x : C)
    (e : Fin 1 ⊕ Fin 0) (j : ℕ) : |((R.models L).at theta beta).error x e j| ≤ |R.logit x j| + B + ∑ l, |beta (.inl l)| * |R.X1 x j l| := by
  have h1 : ((R.models L).at theta beta).error x e j = (R.models L).outcome theta x e j - ∑ l, R.X1 x j l * beta (.inl l) := by
    simp [Spec.Models.at, Spec.Markets.models, Fintype.sum_sum_type]
  rw [h1]
  refine (abs_sub _ _).trans (add_le_add (hB x e j) ((Finset.abs_sum_le_sum_abs _ _).trans (le_of_eq ?_)))
  exact Finset.sum_congr rfl fun l _ => by rw [abs_mul, mul_comm]

/-- Moments at given parameters are finite. -/
lemma random_bounded [IsProbabilityMeasure law] (h : R.Regular L law) (theta : θ → ℝ) (beta : b ⊕ Empty → ℝ) : ((R.models L).at theta beta).Bounded law := by
  obtain ⟨B, hB0, hB', -⟩ := outcome_bounds (θ := θ) h ‖theta‖
  have hB := fun x e j => hB' theta (by simp) x e j
  set P := (R.models L).at theta beta with hP
  have hs : Measurable P.size := h.measurable_more.add_const 1
  have hr : ∀ e j l, Measurable fun x => P.regressor x e j l := by
    rintro e j (l | l)
    · exact h.measurable_X1 j l
    · exact l.elim
  have hz : ∀ e j a, Measurable fun x => P.instrument x e j a := fun e j a => h.measurable_instrument j a
  have he : ∀ e j, Measurable fun x => P.error x e j := fun e j =>
    (measurable_outcome h theta e j).sub (Finset.measurable_sum _ fun l _ => (hr e j l).mul_const _)
  have hsize : MemLp (fun x => (P.size x : ℝ)) 2 law := by
    refine h.size.congr_norm ?_ ?_
    · exact (measurable_from_top.comp hs).aestronglyMeasurable
    · exact Eventually.of_forall fun x => by simp [hP, Spec.Models.at, Spec.Markets.models]
  refine ⟨hs, hr, hz, he, hsize, ?_, fun e a => h.instrument a, fun e => ?_, fun e a => ?_, ?_, ?_⟩
  · rintro e (l | l)
    · exact h.X1 l
    · exact l.elim
  · have hdom : MemLp (fun x => (∑ j ∈ Finset.range (R.more x + 1), |R.logit x j|) + B * (R.more x + 1 : ℝ) +
        ∑ l, |beta (.inl l)| * ∑ j ∈ Finset.range (R.more x + 1), |R.X1 x j l|) 2 law :=
      (h.logit.add (h.size.const_mul B)).add (memLp_finsetSum _ fun l _ => (h.X1 l).const_mul _)
    refine hdom.of_le (Asymptotic.measurable_total (P := P) hs fun j => (he e j).abs).aestronglyMeasurable (Eventually.of_forall fun x => ?_)
    have h0 : 0 ≤ P.total x fun j => |P.error x e j| := Finset.sum_nonneg fun _ _ => abs_nonneg _
    rw [Real.norm_of_nonneg h0]
    refine le_trans ?_ (le_abs_self _)
    have h1 : (P.total x fun j => |P.error x e j|) ≤ ∑ j ∈ Finset.range (R.more x + 1), (|R.logit x j| + B + ∑ l, |beta (.inl l)| * |R.X1 x j l|) :=
      Finset.sum_le_sum fun j _ => random_error_le hB x e j
    refine h1.trans (le_of_eq ?_)
    simp only [Finset.sum_add_distrib, Finset.sum_const, Finset.card_range, nsmul_eq_mul, Finset.mul_sum]
    rw [Finset.sum_comm]
    push_cast
    ring
  · have hdom : MemLp (fun x => (∑ j ∈ Finset.range (R.more x + 1), |R.logit x j * R.instrument x j a|) +
        B * (∑ j ∈ Finset.range (R.more x + 1), |R.instrument x j a|) +
        ∑ l, |beta (.inl l)| * ∑ j ∈ Finset.range (R.more x + 1), |R.X1 x j l * R.instrument x j a|) 2 law :=
      ((h.moment a).add ((h.instrument a).const_mul B)).add (memLp_finsetSum _ fun l _ => (h.product a l).const_mul _)
    refine hdom.of_le (Asymptotic.measurable_total (P := P) hs fun j => ((he e j).mul (hz e j a)).abs).aestronglyMeasurable (Eventually.of_forall fun x => ?_)
    have h0 : 0 ≤ P.total x fun j => |P.error x e j * P.instrument x e j a| := Finset.sum_nonneg fun _ _ => abs_nonneg _
    rw [Real.norm_of_nonneg h0]
    refine le_trans ?_ (le_abs_self _)
    have h1 : (P.total x fun j => |P.error x e j * P.instrument x e j a|) ≤ ∑ j ∈ Finset.range (R.more x + 1),
        (|R.logit x j * R.instrument x j a| + B * |R.instrument x j a| + ∑ l, |beta (.inl l)| * |R.X1 x j l * R.instrument x j a|) := by
      refine Finset.sum_le_sum fun j _ => ?_
      rw [abs_mul]
      refine (mul_le_mul_of_nonneg_right (random_error_le hB x e j) (abs_nonneg _)).trans (le_of_eq ?_)
      rw [add_mul, add_mul, Finset.sum_mul, abs_mul]
      exact congrArg _ (Finset.sum_congr rfl fun l _ => by rw [abs_mul, mul_assoc]; rfl)
    refine h1.trans (le_of_eq ?_)
    simp only [Finset.sum_add_distrib, Finset.mul_sum]
    rw [Finset.sum_comm (s := Finset.range _)]
  · rintro e a (l | l)
    · exact h.product a l
    · exact l.elim
  · have h1 : (1 : ℝ) ≤ ∫ x, (P.size x : ℝ) ∂law := by
      have h2 := integral_mono (μ := law) (integrable_const (1 : ℝ)) (hsize.integrable (by norm_num)) fun x => by
        simp [hP, Spec.Models.at, Spec.Markets.models]
      simpa using h2
    linarith

lemma subset_ball {Θ : Set (θ → ℝ)} (hc : IsCompact Θ) : ∃ r, Θ ⊆ Metric.ball (0 : θ → ℝ) r := hc.isBounded.subset_ball 0

/-- Random coefficients are regular models if instruments are valid. -/
lemma random_regular [IsProbabilityMeasure law] (h : R.Regular L law) {Θ : Set (θ → ℝ)} (hc : IsCompact Θ) {theta0 : θ → ℝ} {beta0 : b ⊕ Empty → ℝ} (h0 : theta0 ∈ Θ)
    (hx : ∀ e a, ((R.models L).at theta0 beta0).average law (fun x j => ((R.models L).at theta0 beta0).error x e j * R.instrument x j a) = 0) :
    (R.models L).Regular law Θ theta0 beta0 := by
  obtain ⟨r, hr⟩ := subset_ball hc
  obtain ⟨B, hB0, hB, -⟩ := outcome_bounds (θ := θ) h r
  have hlogit : ∀ j, Measurable fun x => R.logit x j := by
    intro j
    have h1 : Measurable fun x => R.outside x := by
      unfold Spec.Markets.outside
      refine measurable_const.sub ?_
      have h2 : (fun x => ∑ j : R.Product x, R.share x j) = fun x => ∑ j ∈ Finset.range (R.more x + 1), R.share x j :=
        funext fun x => Fin.sum_univ_eq_sum_range (fun j => R.share x j) _
      rw [h2]
      exact Asymptotic.measurable_total (P := (R.models L).at theta0 beta0) (h.measurable_more.add_const 1) h.measurable_share
    exact (Real.measurable_log.comp (h.measurable_share j)).sub (Real.measurable_log.comp h1)
  refine ⟨{ random_bounded h theta0 beta0 with exogenous := hx }, h0, fun x e j => (contDiff_outcome h x e j).continuous.continuousOn,
    fun theta _ e j => measurable_outcome h theta e j, fun x e j => |R.logit x j| + B, fun e j => (hlogit j).abs.add_const B,
    fun theta ht x e j => hB theta (Metric.ball_subset_closedBall (hr ht)) x e j, fun e => ?_, fun e a => ?_⟩
  · refine (h.logit.add (h.size.const_mul B)).congr_norm ?_ ?_
    · exact (Asymptotic.measurable_total (P := (R.models L).at theta0 beta0) (h.measurable_more.add_const 1) fun j => (hlogit j).abs.add_const B).aestronglyMeasurable
    · refine Eventually.of_forall fun x => congrArg _ ?_
      simp only [Pi.add_apply, Finset.sum_add_distrib, Spec.Markets.models, Finset.sum_const, Finset.card_range, nsmul_eq_mul]
      push_cast
      ring
  · refine ((h.moment a).add ((h.instrument a).const_mul B)).congr_norm ?_ ?_
    · exact (Asymptotic.measurable_total (P := (R.models L).at theta0 beta0) (h.measurable_more.add_const 1) fun j =>
        ((hlogit j).abs.add_const B).mul (h.measurable_instrument j a).abs).aestronglyMeasurable
    · refine Eventually.of_forall fun x => congrArg _ ?_
      simp only [Pi.add_apply, add_mul, Finset.sum_add_distrib, Spec.Markets.models, abs_mul, Finset.mul_sum]

/-- They are differentiable. -/
lemma random_differentiable (h : R.Regular L law) {Θ : Set (θ → ℝ)} (hc : IsCompact Θ) (hv : Convex ℝ Θ) {theta0 : θ → ℝ} (h0 : Θ ∈ 𝓝 theta0) :
    (R.models L).Differentiable law Θ theta0 (R.slope L) := by
  obtain ⟨r, hr⟩ := subset_ball hc
  obtain ⟨B, hB⟩ := slope_bound (θ := θ) h r
  refine ⟨h0, hv, fun theta _ x e j => (hasFDerivAt_outcome h theta x e j).hasFDerivWithinAt, fun x e j p => (continuous_slope h x e j p).continuousOn,
    fun theta _ e j p => measurable_slope h theta e j p, fun x _ _ => B / R.outside x, fun theta ht x e j p => hB theta (hr ht) x e j p, fun e a => ?_⟩
  refine ((h.derivative a).const_mul B).congr (Eventually.of_forall fun x => ?_)
  change B * ((∑ j ∈ Finset.range (R.more x + 1), |R.instrument x j a|) / R.outside x) = ∑ j ∈ Finset.range (R.more x + 1), B / R.outside x * |R.instrument x j a|
  rw [← Finset.mul_sum]
  ring

end Pyblp
