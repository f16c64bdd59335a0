import Verif.Lemmas.InProbability
import Verif.Lemmas.Sampling
import Mathlib.Probability.CentralLimitTheorem

/-!
# Ratios of estimates to standard errors in large samples
-/

set_option linter.unusedSectionVars false

open MeasureTheory ProbabilityTheory Filter Topology

namespace Pyblp.Sampling

variable {Ω C : Type} [MeasurableSpace Ω] [MeasurableSpace C] {μ : Measure Ω} {law : Measure C} {w : ℕ → Ω → C}

/-- Sums divided by the square root of the number of draws. -/
noncomputable def scaled (w : ℕ → Ω → C) (f : C → ℝ) (i : ℕ × Ω) : ℝ := (√(i.1 : ℝ))⁻¹ * ∑ t ∈ Finset.range i.1, f (w t i.2)

lemma Draws.memLp (h : Draws μ law w) {f : C → ℝ} (hf : Measurable f) (hint : MemLp f 2 law) (t : ℕ) : MemLp (fun ω => f (w t ω)) 2 μ := by
  rw [← h.law t] at hint
  exact (memLp_map_measure_iff hf.aestronglyMeasurable (h.measurable t).aemeasurable).mp hint

/-- They are bounded in probability. -/
lemma scaled_bounded [IsProbabilityMeasure μ] (hw : Draws μ law w) {f : C → ℝ} (hf : Measurable f) (hint : MemLp f 2 law) (h0 : ∫ x, f x ∂law = 0) (T : ℕ)
    {K : ℝ} (hK : 0 < K) : μ {ω | K ≤ |scaled w f (T, ω)|} ≤ ENNReal.ofReal ((∫ x, f x ^ 2 ∂law) / K ^ 2) := by
  have hmem : ∀ t, MemLp (fun ω => f (w t ω)) 2 μ := hw.memLp hf hint
  have hone : ∀ t, ∫ ω, f (w t ω) ∂μ = 0 := fun t => by rw [hw.integral f hf t, h0]
  have e : (fun ω => scaled w f (T, ω)) = fun ω => (√(T : ℝ))⁻¹ * (∑ t ∈ Finset.range T, fun ω => f (w t ω)) ω := by
    funext ω
    simp [scaled, Finset.sum_apply]
  have hm : MemLp (fun ω => scaled w f (T, ω)) 2 μ := by
    rw [e]
    have hsum : MemLp (∑ t ∈ Finset.range T, fun ω => f (w t ω)) 2 μ := memLp_finsetSum' (Finset.range T) fun t _ => hmem t
    exact hsum.const_mul (√(T : ℝ))⁻¹
  have hmean : ∫ ω, scaled w f (T, ω) ∂μ = 0 := by
    change ∫ ω, (√(T : ℝ))⁻¹ * ∑ t ∈ Finset.range T, f (w t ω) ∂μ = 0
    rw [integral_const_mul, integral_finsetSum _ fun t _ => (hmem t).integrable (by norm_num)]
    simp [hone]
  have hvar : variance (fun ω => scaled w f (T, ω)) μ ≤ ∫ x, f x ^ 2 ∂law := by
    rw [e, variance_const_mul, IndepFun.variance_sum (fun t _ => hmem t)]
    · have hv : ∀ t, variance (fun ω => f (w t ω)) μ = ∫ x, f x ^ 2 ∂law := fun t => by
        rw [variance_of_integral_eq_zero (X := fun ω => f (w t ω)) (hf.comp (hw.measurable t)).aemeasurable (hone t)]
        exact hw.integral (fun x => f x ^ 2) (hf.pow_const 2) t
      simp only [hv, Finset.sum_const, Finset.card_range, nsmul_eq_mul]
      rw [inv_pow, Real.sq_sqrt (Nat.cast_nonneg T)]
      rcases Nat.eq_zero_or_pos T with rfl | hT
      · simp only [Nat.cast_zero, inv_zero, zero_mul]
        exact integral_nonneg fun x => sq_nonneg _
      · have : (T : ℝ) ≠ 0 := by exact_mod_cast hT.ne'
        rw [← mul_assoc, inv_mul_cancel₀ this, one_mul]
    · intro t _ t' _ htt
      exact (hw.indep htt).comp hf hf
  have h := meas_ge_le_variance_div_sq hm hK
  rw [hmean] at h
  simp only [sub_zero] at h
  exact h.trans (ENNReal.ofReal_le_ofReal (div_le_div_of_nonneg_right hvar (by positivity)))

/-- They converge to the normal distribution. -/
lemma scaled_normal [IsProbabilityMeasure μ] (hw : Draws μ law w) (hind : iIndepFun w μ) {f : C → ℝ} (hf : Measurable f) (h0 : ∫ x, f x ∂law = 0)
    (h1 : ∫ x, f x ^ 2 ∂law = 1) : TendstoInDistribution (fun T ω => scaled w f (T, ω)) atTop id (fun _ => μ) (gaussianReal 0 1) := by
  refine tendstoInDistribution_inv_sqrt_mul_sum (X := fun t ω => f (w t ω)) ⟨aemeasurable_id, Measure.map_id⟩ ?_ ?_ ?_ ?_
  · exact (hw.integral f hf 0).trans h0
  · exact (hw.integral (fun x => f x ^ 2) (hf.pow_const 2) 0).trans h1
  · exact hind.comp (fun _ => f) fun _ => hf
  · exact fun t => (IdentDistrib.mk (hw.measurable t).aemeasurable (hw.measurable 0).aemeasurable (by rw [hw.law, hw.law])).comp hf

variable {a : Type} [Fintype a]

/-- Estimates that are combinations of averages of `s`, relative to standard errors, are close to scaled sums. -/
lemma studentized_close [IsProbabilityMeasure μ] (hw : Draws μ law w) {s : a → C → ℝ} (hs : ∀ k, Measurable (s k)) (hint : ∀ k, MemLp (s k) 2 law)
    (h0 : ∀ k, ∫ x, s k x ∂law = 0) {N : ℕ × Ω → ℕ} {n0 V : ℝ} (hn0 : 0 < n0) (hN : Tendsto (fun i => (N i : ℝ) / i.1) (probably μ) (𝓝 n0))
    {A : ℕ × Ω → a → ℝ} {A0 : a → ℝ} (hA : ∀ k, Tendsto (fun i => A i k) (probably μ) (𝓝 (A0 k))) {v : ℕ × Ω → ℝ} (hV : 0 < V)
    (hv : Tendsto v (probably μ) (𝓝 V)) {estimate : ℕ × Ω → ℝ}
    (he : ∀ᶠ i in probably μ, estimate i = ∑ k, A i k * ((∑ t ∈ Finset.range i.1, s k (w t i.2)) / N i)) :
    Tendsto (fun i : ℕ × Ω => dist (estimate i / √(v i / N i)) (scaled w (fun x => ∑ k, A0 k / √(V * n0) * s k x) i)) (probably μ) (𝓝 0) := by
  have hα : ∀ k, Tendsto (fun i => A i k / √(v i * ((N i : ℝ) / i.1)) - A0 k / √(V * n0)) (probably μ) (𝓝 0) := fun k => by
    have hd : √(V * n0) ≠ 0 := (Real.sqrt_pos.mpr (mul_pos hV hn0)).ne'
    have := ((hA k).div (hv.mul hN).sqrt hd).sub_const (A0 k / √(V * n0))
    rw [sub_self] at this
    exact this
  have hprod : ∀ k, Tendsto (fun i => (A i k / √(v i * ((N i : ℝ) / i.1)) - A0 k / √(V * n0)) * scaled w (s k) i) (probably μ) (𝓝 0) := fun k =>
    tendsto_mul_bounded (hα k) (∫ x, s k x ^ 2 ∂law) fun T K hK => scaled_bounded hw (hs k) (hint k) (h0 k) T hK
  have hsum := tendsto_finsetSum (Finset.univ : Finset a) fun k _ => hprod k
  rw [Finset.sum_const_zero] at hsum
  have habs := hsum.abs
  rw [abs_zero] at habs
  refine habs.congr' ?_
  filter_upwards [he, hN.eventually (lt_mem_nhds hn0), hv.eventually (lt_mem_nhds hV)] with i hi hNi hvi
  rw [Real.dist_eq]
  congr 1
  have hT : (0 : ℝ) < i.1 := by
    rcases Nat.eq_zero_or_pos i.1 with h | h
    · rw [h] at hNi
      simp at hNi
    · exact_mod_cast h
  have hNp : (0 : ℝ) < N i := by
    rcases Nat.eq_zero_or_pos (N i) with h | h
    · rw [h] at hNi
      simp at hNi
    · exact_mod_cast h
  have e1 : scaled w (fun x => ∑ k, A0 k / √(V * n0) * s k x) i = ∑ k, A0 k / √(V * n0) * scaled w (s k) i := by
    unfold scaled
    rw [Finset.sum_comm, Finset.mul_sum]
    refine Finset.sum_congr rfl fun k _ => ?_
    rw [← Finset.mul_sum]
    ring
  have e2 : estimate i / √(v i / N i) = ∑ k, A i k / √(v i * ((N i : ℝ) / i.1)) * scaled w (s k) i := by
    rw [hi, Finset.sum_div]
    refine Finset.sum_congr rfl fun k _ => ?_
    unfold scaled
    have r1 : √(v i * ((N i : ℝ) / i.1)) = √(v i) * (√(N i : ℝ) / √(i.1 : ℝ)) := by
      rw [Real.sqrt_mul hvi.le, Real.sqrt_div hNp.le]
    have r2 : √(v i / N i) = √(v i) / √(N i : ℝ) := Real.sqrt_div hvi.le _
    have r3 : √(N i : ℝ) * √(N i : ℝ) = N i := Real.mul_self_sqrt hNp.le
    have p1 := (Real.sqrt_pos.mpr hvi).ne'
    have p2 := (Real.sqrt_pos.mpr hNp).ne'
    have p3 := (Real.sqrt_pos.mpr hT).ne'
    rw [r1, r2]
    nth_rewrite 1 [← r3]
    field_simp
  rw [e1, e2, ← Finset.sum_sub_distrib]
  exact Finset.sum_congr rfl fun k _ => by ring

/-- Estimates relative to standard errors are asymptotically normal. -/
lemma studentized_normal [IsProbabilityMeasure μ] (hw : Draws μ law w) (hind : iIndepFun w μ) {s : a → C → ℝ} (hs : ∀ k, Measurable (s k))
    (hint : ∀ k, MemLp (s k) 2 law)
    (h0 : ∀ k, ∫ x, s k x ∂law = 0) {N : ℕ × Ω → ℕ} {n0 V : ℝ} (hn0 : 0 < n0) (hN : Tendsto (fun i => (N i : ℝ) / i.1) (probably μ) (𝓝 n0))
    {A : ℕ × Ω → a → ℝ} {A0 : a → ℝ} (hA : ∀ k, Tendsto (fun i => A i k) (probably μ) (𝓝 (A0 k))) {v : ℕ × Ω → ℝ} (hV : 0 < V)
    (hv : Tendsto v (probably μ) (𝓝 V)) {estimate : ℕ × Ω → ℝ}
    (he : ∀ᶠ i in probably μ, estimate i = ∑ k, A i k * ((∑ t ∈ Finset.range i.1, s k (w t i.2)) / N i))
    (hVs : V = ∑ k, ∑ k', A0 k * ((∫ x, s k x * s k' x ∂law) / n0) * A0 k') {B : Set ℝ} (hB : gaussianReal 0 1 (frontier B) = 0) {Y : ℕ × Ω → ℝ}
    (hY : ∀ᶠ i in probably μ, Y i = estimate i / √(v i / N i)) :
    Tendsto (fun T => μ {ω | Y (T, ω) ∈ B}) atTop (𝓝 (gaussianReal 0 1 B)) := by
  set y : C → ℝ := fun x => ∑ k, A0 k / √(V * n0) * s k x with hy
  have hym : Measurable y := Finset.measurable_sum _ fun k _ => (hs k).const_mul _
  have h1 : ∫ x, y x ^ 2 ∂law = 1 := by
    have e : ∀ x, y x ^ 2 = ∑ k, ∑ k', (A0 k / √(V * n0)) * (A0 k' / √(V * n0)) * (s k x * s k' x) := fun x => by
      rw [hy, sq]
      simp only
      rw [Finset.sum_mul_sum]
      exact Finset.sum_congr rfl fun k _ => Finset.sum_congr rfl fun k' _ => by ring
    have hi : ∀ k k', Integrable (fun x => s k x * s k' x) law := fun k k' => (hint k).integrable_mul (hint k')
    simp only [e]
    rw [integral_finsetSum _ fun k _ => integrable_finsetSum _ fun k' _ => (hi k k').const_mul _]
    simp only [fun k : a => integral_finsetSum (μ := law) Finset.univ (f := fun k' x => (A0 k / √(V * n0)) * (A0 k' / √(V * n0)) * (s k x * s k' x))
      fun k' _ => (hi k k').const_mul _, integral_const_mul]
    have hVn : V * n0 ≠ 0 := (mul_pos hV hn0).ne'
    have hsq : √(V * n0) * √(V * n0) = V * n0 := Real.mul_self_sqrt (mul_pos hV hn0).le
    have hsum : ∑ k, ∑ k', A0 k / √(V * n0) * (A0 k' / √(V * n0)) * ∫ x, s k x * s k' x ∂law =
        (∑ k, ∑ k', A0 k * ((∫ x, s k x * s k' x ∂law) / n0) * A0 k') / V := by
      rw [Finset.sum_div]
      refine Finset.sum_congr rfl fun k _ => ?_
      rw [Finset.sum_div]
      refine Finset.sum_congr rfl fun k' _ => ?_
      rw [div_mul_div_comm, hsq]
      field_simp
    rw [hsum, ← hVs, div_self hV.ne']
  have hy0 : ∫ x, y x ∂law = 0 := by
    have hp : IsProbabilityMeasure law := by
      rw [← hw.law 0]
      exact Measure.isProbabilityMeasure_map (hw.measurable 0).aemeasurable
    have hi : ∀ k, Integrable (fun x => A0 k / √(V * n0) * s k x) law := fun k => ((hint k).integrable (by norm_num)).const_mul _
    rw [hy, integral_finsetSum _ fun k _ => hi k]
    simp [integral_const_mul, h0]
  have hZ := scaled_normal hw hind hym hy0 h1
  have hclose := studentized_close hw hs hint h0 hn0 hN hA hV hv he
  have := tendsto_measure_of_close hZ (Y := Y) (B := B) (hclose.congr' (by
    filter_upwards [hY] with i hi
    rw [hi])) (by rw [Measure.map_id]; exact hB)
  rwa [Measure.map_id] at this

end Pyblp.Sampling
