import Mathlib.Probability.CentralLimitTheorem
import Mathlib.MeasureTheory.Function.ConvergenceInDistribution
import Mathlib.MeasureTheory.Measure.Portmanteau
import Mathlib.Probability.Moments.Variance

/-!
# Convergence in probability as convergence along a filter

Estimates need not be measurable functions of data, because nothing is known about what is computed when matrices are singular. Convergence in
probability is convergence along a filter, which does not need measurability, and so is what is concluded about limiting distributions.
-/

set_option linter.unusedSectionVars false

open MeasureTheory ProbabilityTheory Filter Topology

namespace Pyblp.Sampling

variable {Ω Ω' E : Type} [MeasurableSpace Ω] [MeasurableSpace Ω'] (μ : Measure Ω)

/-- Sets of sample sizes and outcomes that have a probability that converges to one. -/
def probably : Filter (ℕ × Ω) where
  sets := {S | Tendsto (fun n => μ {ω | (n, ω) ∉ S}) atTop (𝓝 0)}
  univ_sets := by simp
  sets_of_superset := fun {S R} hS hSR => by
    refine tendsto_of_tendsto_of_tendsto_of_le_of_le tendsto_const_nhds hS (fun _ => zero_le) fun n => ?_
    exact measure_mono fun ω hω h => hω (hSR h)
  inter_sets := fun {S R} hS hR => by
    have h := Tendsto.add hS hR
    rw [add_zero] at h
    refine tendsto_of_tendsto_of_tendsto_of_le_of_le tendsto_const_nhds h (fun _ => zero_le) fun n => ?_
    refine (measure_mono fun ω hω => ?_).trans (measure_union_le _ _)
    by_contra hc
    simp only [Set.mem_union, Set.mem_ofPred_eq, not_or, not_not] at hc
    exact hω hc

variable {μ}

lemma eventually_probably {p : ℕ × Ω → Prop} : (∀ᶠ i in probably μ, p i) ↔ Tendsto (fun n => μ {ω | ¬p (n, ω)}) atTop (𝓝 0) := Iff.rfl

/-- What holds for all large samples holds with a probability that converges to one. -/
lemma eventually_fst {p : ℕ → Prop} (h : ∀ᶠ n in atTop, p n) : ∀ᶠ i in probably μ, p i.1 := by
  rw [eventually_probably]
  refine tendsto_const_nhds.congr' ?_
  filter_upwards [h] with n hn
  simp [hn]

/-- Almost sure convergence implies convergence in probability. -/
lemma tendsto_probably_of_ae [IsFiniteMeasure μ] [PseudoEMetricSpace E] {f : ℕ → Ω → E} {a : E} (hf : ∀ n, AEStronglyMeasurable (f n) μ)
    (h : ∀ᵐ ω ∂μ, Tendsto (fun n => f n ω) atTop (𝓝 a)) : Tendsto (fun i : ℕ × Ω => f i.1 i.2) (probably μ) (𝓝 a) := by
  have := tendstoInMeasure_of_tendsto_ae hf (g := fun _ => a) h
  rw [EMetric.tendsto_nhds]
  intro ε hε
  rw [eventually_probably]
  refine (this ε hε).congr fun n => ?_
  simp only [not_lt]

/-- The product of what converges to zero and what is bounded in probability converges to zero. -/
lemma tendsto_mul_bounded {f g : ℕ × Ω → ℝ} (hf : Tendsto f (probably μ) (𝓝 0)) (v : ℝ)
    (hg : ∀ n, ∀ K : ℝ, 0 < K → μ {ω | K ≤ |g (n, ω)|} ≤ ENNReal.ofReal (v / K ^ 2)) :
    Tendsto (fun i => f i * g i) (probably μ) (𝓝 0) := by
  rw [Metric.tendsto_nhds]
  intro ε hε
  rw [eventually_probably, ENNReal.tendsto_atTop_zero]
  intro η hη
  obtain ⟨K, hK, hKη⟩ : ∃ K : ℝ, 0 < K ∧ ENNReal.ofReal (v / K ^ 2) ≤ η / 2 := by
    have ht : Tendsto (fun K : ℝ => ENNReal.ofReal (v / K ^ 2)) atTop (𝓝 (ENNReal.ofReal 0)) :=
      (ENNReal.continuous_ofReal.tendsto 0).comp (tendsto_const_nhds.div_atTop (tendsto_pow_atTop two_ne_zero))
    rw [ENNReal.ofReal_zero] at ht
    have h2 : ∀ᶠ K : ℝ in atTop, ENNReal.ofReal (v / K ^ 2) ≤ η / 2 := by
      have := ht.eventually (gt_mem_nhds (ENNReal.half_pos hη.ne'))
      exact this.mono fun K hK => hK.le
    obtain ⟨K, h1, h2⟩ := (h2.and (eventually_gt_atTop (0 : ℝ))).exists
    exact ⟨K, h2, h1⟩
  have hsmall : ∀ᶠ i in probably μ, |f i| < ε / K := by
    have := (Metric.tendsto_nhds.mp hf) (ε / K) (div_pos hε hK)
    simpa [Real.dist_eq] using this
  rw [eventually_probably, ENNReal.tendsto_atTop_zero] at hsmall
  obtain ⟨n0, hn0⟩ := hsmall (η / 2) (ENNReal.half_pos hη.ne')
  refine ⟨n0, fun n hn => ?_⟩
  calc μ {ω | ¬dist (f (n, ω) * g (n, ω)) 0 < ε} ≤ μ ({ω | ¬|f (n, ω)| < ε / K} ∪ {ω | K ≤ |g (n, ω)|}) := by
        refine measure_mono fun ω hω => ?_
        by_contra hc
        simp only [Set.mem_union, Set.mem_ofPred_eq, not_or, not_not, not_le] at hc
        refine hω ?_
        rw [Real.dist_eq, sub_zero, abs_mul]
        calc |f (n, ω)| * |g (n, ω)| ≤ |f (n, ω)| * K := mul_le_mul_of_nonneg_left hc.2.le (abs_nonneg _)
          _ < ε / K * K := mul_lt_mul_of_pos_right hc.1 hK
          _ = ε := by field_simp
    _ ≤ η / 2 + η / 2 := (measure_union_le _ _).trans (add_le_add (hn0 n hn) ((hg n K hK).trans hKη))
    _ = η := ENNReal.add_halves η

lemma limsup_add_null {u v : ℕ → ENNReal} (hv : Tendsto v atTop (𝓝 0)) : limsup (fun n => u n + v n) atTop ≤ limsup u atTop := by
  refine ENNReal.le_of_forall_pos_le_add fun η hη _ => ?_
  have h1 : limsup (fun n => u n + v n) atTop ≤ limsup (fun n => u n + (η : ENNReal)) atTop := by
    refine limsup_le_limsup ?_
    have := hv.eventually (gt_mem_nhds (ENNReal.coe_pos.mpr hη))
    filter_upwards [this] with n hn
    exact add_le_add le_rfl hn.le
  refine h1.trans ?_
  rw [limsup_add_const atTop u (η : ENNReal) (by isBoundedDefault) (by isBoundedDefault)]

/-- What is close in probability to a sequence that converges in distribution has the same limiting probabilities. -/
lemma tendsto_measure_of_close [PseudoMetricSpace E] [MeasurableSpace E] [BorelSpace E] [IsProbabilityMeasure μ] {μ' : Measure Ω'}
    [IsProbabilityMeasure μ'] {X : ℕ → Ω → E} {Z : Ω' → E} (h : TendstoInDistribution X atTop Z (fun _ => μ) μ') {Y : ℕ × Ω → E}
    (hY : Tendsto (fun i : ℕ × Ω => dist (Y i) (X i.1 i.2)) (probably μ) (𝓝 0)) {B : Set E} (hB : μ'.map Z (frontier B) = 0) :
    Tendsto (fun n => μ {ω | Y (n, ω) ∈ B}) atTop (𝓝 (μ'.map Z B)) := by
  have hZ := Measure.isProbabilityMeasure_map h.aemeasurable_limit
  have upper : ∀ B' : Set E, limsup (fun n => μ {ω | Y (n, ω) ∈ B'}) atTop ≤ μ'.map Z (closure B') := by
    intro B'
    have hlim := tendsto_measure_cthickening (μ := μ'.map Z) (s := B') ⟨1, one_pos, measure_ne_top _ _⟩
    refine ge_of_tendsto (hlim.mono_left (nhdsWithin_le_nhds (s := Set.Ioi 0))) ?_
    filter_upwards [self_mem_nhdsWithin] with δ hδ
    have hclose : ∀ᶠ i in probably μ, dist (Y i) (X i.1 i.2) < δ := by
      have := (Metric.tendsto_nhds.mp hY) δ hδ
      refine this.mono fun i hi => ?_
      rwa [Real.dist_eq, sub_zero, abs_of_nonneg dist_nonneg] at hi
    rw [eventually_probably] at hclose
    have hle : ∀ n, μ {ω | Y (n, ω) ∈ B'} ≤ μ.map (X n) (Metric.cthickening δ B') + μ {ω | ¬dist (Y (n, ω)) (X n ω) < δ} := by
      intro n
      rw [Measure.map_apply_of_aemeasurable (h.forall_aemeasurable n) Metric.isClosed_cthickening.measurableSet]
      refine (measure_mono fun ω hω => ?_).trans (measure_union_le _ _)
      by_cases hd : dist (Y (n, ω)) (X n ω) < δ
      · refine Or.inl ?_
        refine Metric.mem_cthickening_of_dist_le _ _ _ _ hω ?_
        rw [dist_comm]
        exact hd.le
      · exact Or.inr hd
    have hclosed := ProbabilityMeasure.limsup_measure_closed_le_of_tendsto h.tendsto (F := Metric.cthickening δ B') Metric.isClosed_cthickening
    simp only [ProbabilityMeasure.coe_mk] at hclosed
    calc limsup (fun n => μ {ω | Y (n, ω) ∈ B'}) atTop
        ≤ limsup (fun n => μ.map (X n) (Metric.cthickening δ B') + μ {ω | ¬dist (Y (n, ω)) (X n ω) < δ}) atTop :=
          limsup_le_limsup (Eventually.of_forall hle)
      _ ≤ limsup (fun n => μ.map (X n) (Metric.cthickening δ B')) atTop := limsup_add_null hclose
      _ ≤ μ'.map Z (Metric.cthickening δ B') := hclosed
  have hcl : μ'.map Z (closure B) = μ'.map Z B := by
    refine le_antisymm ?_ (measure_mono subset_closure)
    calc μ'.map Z (closure B) ≤ μ'.map Z (B ∪ frontier B) := by
          rw [← closure_eq_self_union_frontier]
      _ ≤ _ := measure_union_le _ _
      _ = _ := by rw [hB, add_zero]
  have hin : μ'.map Z B ≤ μ'.map Z (interior B) := by
    calc μ'.map Z B ≤ μ'.map Z (interior B ∪ frontier B) := by
          refine measure_mono ?_
          rw [← closure_eq_interior_union_frontier]
          exact subset_closure
      _ ≤ _ := measure_union_le _ _
      _ = _ := by rw [hB, add_zero]
  refine tendsto_of_le_liminf_of_limsup_le ?_ ((upper B).trans hcl.le)
  have hcompl := upper Bᶜ
  rw [closure_compl] at hcompl
  have hsum : ∀ n, 1 - μ {ω | Y (n, ω) ∈ Bᶜ} ≤ μ {ω | Y (n, ω) ∈ B} := by
    intro n
    rw [tsub_le_iff_right, ← measure_univ (μ := μ)]
    refine (measure_mono fun ω _ => ?_).trans (measure_union_le _ _)
    exact Classical.em _
  calc μ'.map Z B ≤ μ'.map Z (interior B) := hin
    _ = 1 - μ'.map Z (interior B)ᶜ := by
        rw [prob_compl_eq_one_sub isOpen_interior.measurableSet]
        exact (ENNReal.sub_sub_cancel ENNReal.one_ne_top prob_le_one).symm
    _ ≤ 1 - limsup (fun n => μ {ω | Y (n, ω) ∈ Bᶜ}) atTop := tsub_le_tsub_left hcompl _
    _ = liminf (fun n => 1 - μ {ω | Y (n, ω) ∈ Bᶜ}) atTop := (ENNReal.liminf_const_sub _ _ ENNReal.one_ne_top).symm
    _ ≤ _ := liminf_le_liminf (Eventually.of_forall hsum)

end Pyblp.Sampling
