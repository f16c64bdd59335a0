import Verif.Lemmas.Sampling
import Verif.Lemmas.InProbability
import Mathlib.Topology.ContinuousMap.SecondCountableSpace
import Mathlib.Topology.ContinuousMap.Compact
import Mathlib.MeasureTheory.Integral.Bochner.ContinuousLinearMap

/-!
# Averages of functions of parameters

Averages over draws of functions of parameters in a compact set converge for all parameters at once.
-/

set_option linter.unusedSectionVars false

open MeasureTheory ProbabilityTheory Filter Topology

namespace Pyblp.Sampling

variable {Ω E K : Type} [MeasurableSpace Ω] [MeasurableSpace E] [TopologicalSpace K] [CompactSpace K] [SecondCountableTopology K]
  [T2Space K] {μ : Measure Ω} {law : Measure E} {w : ℕ → Ω → E}

/-- Norms of differences from a function are measurable if values are. -/
lemma measurable_norm_sub {f : E → C(K, ℝ)} (hf : ∀ k, Measurable fun x => f x k) (g : C(K, ℝ)) : Measurable fun x => ‖f x - g‖ := by
  refine measurable_of_Iic fun r => ?_
  rcases lt_or_ge r 0 with hr | hr
  · have : (fun x => ‖f x - g‖) ⁻¹' Set.Iic r = ∅ := by
      ext x
      simp only [Set.mem_preimage, Set.mem_Iic, Set.mem_empty_iff_false, iff_false, not_le]
      exact lt_of_lt_of_le hr (norm_nonneg _)
    rw [this]
    exact MeasurableSet.empty
  obtain ⟨S, hS, hSd⟩ := TopologicalSpace.exists_countable_dense K
  have : (fun x => ‖f x - g‖) ⁻¹' Set.Iic r = ⋂ k ∈ S, {x | ‖f x k - g k‖ ≤ r} := by
    ext x
    simp only [Set.mem_preimage, Set.mem_Iic, Set.mem_iInter, Set.mem_ofPred_eq]
    rw [ContinuousMap.norm_le _ hr]
    refine ⟨fun h k _ => h k, fun h k => ?_⟩
    have hc : IsClosed {k | ‖(f x - g) k‖ ≤ r} := isClosed_le (f x - g).continuous.norm continuous_const
    exact hc.closure_subset_iff.mpr (fun k hk => h k hk) (hSd k)
  rw [this]
  refine MeasurableSet.biInter hS fun k _ => ?_
  exact measurableSet_le ((hf k).sub_const _).norm measurable_const

local instance : MeasurableSpace C(K, ℝ) := borel _

local instance : BorelSpace C(K, ℝ) := ⟨rfl⟩

/-- Functions of parameters are measurable if values are. -/
lemma measurable_functions {f : E → C(K, ℝ)} (hf : ∀ k, Measurable fun x => f x k) : Measurable f := by
  have hb : TopologicalSpace.IsTopologicalBasis {U : Set C(K, ℝ) | ∃ g r, U = Metric.ball g r} := by
    refine TopologicalSpace.isTopologicalBasis_of_isOpen_of_nhds ?_ ?_
    · rintro U ⟨g, r, rfl⟩
      exact Metric.isOpen_ball
    · intro g U hg hU
      obtain ⟨r, hr, hrU⟩ := Metric.isOpen_iff.mp hU g hg
      exact ⟨_, ⟨g, r, rfl⟩, Metric.mem_ball_self hr, hrU⟩
  have hgen : borel C(K, ℝ) = MeasurableSpace.generateFrom {U : Set C(K, ℝ) | ∃ g r, U = Metric.ball g r} := hb.borel_eq_generateFrom
  change @Measurable _ _ _ (borel _) f
  rw [hgen]
  refine measurable_generateFrom ?_
  rintro U ⟨g, r, rfl⟩
  have : f ⁻¹' Metric.ball g r = {x | ‖f x - g‖ < r} := by
    ext x
    simp [dist_eq_norm]
  rw [this]
  exact measurableSet_lt (measurable_norm_sub hf g) measurable_const

lemma integrable_functions {f : E → C(K, ℝ)} (hf : ∀ k, Measurable fun x => f x k) {B : E → ℝ} (hB : Integrable B law) (h : ∀ x k, |f x k| ≤ B x) :
    Integrable f law := by
  refine hB.mono (measurable_functions hf).aestronglyMeasurable (Eventually.of_forall fun x => ?_)
  by_cases hK : Nonempty K
  · refine (ContinuousMap.norm_le _ (norm_nonneg _)).mpr fun k => ?_
    exact (h x k).trans (le_abs_self _)
  · rw [not_nonempty_iff] at hK
    have : f x = 0 := ContinuousMap.ext fun k => isEmptyElim k
    rw [this, norm_zero]
    exact norm_nonneg _

/-- The expectation, a function of parameters. -/
noncomputable def expectation (law : Measure E) (f : E → C(K, ℝ)) : C(K, ℝ) := ∫ x, f x ∂law

lemma expectation_apply {f : E → C(K, ℝ)} (hf : ∀ k, Measurable fun x => f x k) {B : E → ℝ} (hB : Integrable B law) (h : ∀ x k, |f x k| ≤ B x) (k : K) :
    expectation law f k = ∫ x, f x k ∂law := ContinuousMap.integral_apply (integrable_functions hf hB h) k

/-- The average over draws, a function of parameters. -/
noncomputable def functionAverage (f : E → C(K, ℝ)) (w : ℕ → Ω → E) (T : ℕ) (ω : Ω) : C(K, ℝ) := (T : ℝ)⁻¹ • ∑ t ∈ Finset.range T, f (w t ω)

lemma functionAverage_apply (f : E → C(K, ℝ)) (T : ℕ) (ω : Ω) (k : K) :
    functionAverage f w T ω k = (∑ t ∈ Finset.range T, f (w t ω) k) / T := by
  unfold functionAverage
  rw [ContinuousMap.smul_apply, ContinuousMap.sum_apply, smul_eq_mul, inv_mul_eq_div]

lemma uniform_law (hw : Draws μ law w) {f : E → C(K, ℝ)} (hf : ∀ k, Measurable fun x => f x k) {B : E → ℝ} (hB : Integrable B law)
    (h : ∀ x k, |f x k| ≤ B x) : ∀ᵐ ω ∂μ, Tendsto (fun T => functionAverage f w T ω) atTop (𝓝 (expectation law f)) := by
  have hm := measurable_functions hf
  have hi := integrable_functions hf hB h
  have h0 : Integrable (fun ω => f (w 0 ω)) μ := by
    rw [← hw.law 0] at hi
    exact (integrable_map_measure hm.aestronglyMeasurable (hw.measurable 0).aemeasurable).mp hi
  have := strong_law_ae (μ := μ) (fun i ω => f (w i ω)) h0 (fun i k hik => (hw.indep hik).comp hm hm)
    (fun i => (IdentDistrib.mk (hw.measurable i).aemeasurable (hw.measurable 0).aemeasurable (by rw [hw.law, hw.law])).comp hm)
  have he : ∫ ω, f (w 0 ω) ∂μ = expectation law f := by
    unfold expectation
    rw [← hw.law 0, integral_map (hw.measurable 0).aemeasurable hm.aestronglyMeasurable]
  rw [he] at this
  exact this

/-- Averages converge at all parameters at once, including those that depend on draws. -/
structure Uniformly (law : Measure E) (f : E → C(K, ℝ)) (w : ℕ → Ω → E) (F : Filter (ℕ × Ω)) : Prop where
  tendsto : Tendsto (fun i : ℕ × Ω => functionAverage f w i.1 i.2) F (𝓝 (expectation law f))

lemma uniformly_ae (hw : Draws μ law w) {f : E → C(K, ℝ)} (hf : ∀ k, Measurable fun x => f x k) {B : E → ℝ} (hB : Integrable B law)
    (h : ∀ x k, |f x k| ≤ B x) : ∀ᵐ ω ∂μ, Uniformly law f w (map (fun T => (T, ω)) atTop) := by
  filter_upwards [uniform_law hw hf hB h] with ω hω
  exact ⟨tendsto_map'_iff.mpr hω⟩

lemma uniformly_probably [IsProbabilityMeasure μ] (hw : Draws μ law w) {f : E → C(K, ℝ)} (hf : ∀ k, Measurable fun x => f x k) {B : E → ℝ}
    (hB : Integrable B law) (h : ∀ x k, |f x k| ≤ B x) : Uniformly law f w (probably μ) := by
  refine ⟨tendsto_probably_of_ae (f := fun T ω => functionAverage f w T ω) (fun T => ?_) (uniform_law hw hf hB h)⟩
  refine Measurable.aestronglyMeasurable (measurable_functions fun k => ?_)
  simp only [functionAverage_apply]
  exact (Finset.measurable_sum _ fun t _ => (hf k).comp (hw.measurable t)).div_const _

lemma Uniformly.mono {f : E → C(K, ℝ)} {F G : Filter (ℕ × Ω)} (h : Uniformly law f w F) (hG : G ≤ F) : Uniformly law f w G := ⟨h.tendsto.mono_left hG⟩

/-- Averages at parameters that converge have the expectation at their limit as a limit. -/
lemma Uniformly.at {f : E → C(K, ℝ)} (hf : ∀ k, Measurable fun x => f x k) {B : E → ℝ} (hB : Integrable B law) (hb : ∀ x k, |f x k| ≤ B x) {F : Filter (ℕ × Ω)}
    (h : Uniformly law f w F) {k : ℕ × Ω → K} {k0 : K} (hk : Tendsto k F (𝓝 k0)) :
    Tendsto (fun i : ℕ × Ω => (∑ t ∈ Finset.range i.1, f (w t i.2) (k i)) / i.1) F (𝓝 (∫ x, f x k0 ∂law)) := by
  rw [← expectation_apply hf hB hb]
  simp only [← functionAverage_apply]
  exact (continuous_eval.tendsto (expectation law f, k0)).comp (h.tendsto.prodMk_nhds hk)

end Pyblp.Sampling
