import Verif.Spec.ChiSquared
import Verif.Lemmas.Studentized
import Mathlib.Probability.Distributions.Gaussian.Multivariate
import Mathlib.MeasureTheory.Measure.LevyConvergence

/-!
# Quadratic forms of scaled sums in large samples
-/

set_option linter.unusedSectionVars false

open MeasureTheory ProbabilityTheory Filter Topology

namespace Pyblp.Sampling

variable {Ω C : Type} [MeasurableSpace Ω] [MeasurableSpace C] {μ : Measure Ω} {law : Measure C} {w : ℕ → Ω → C}

lemma measurable_squares (k : ℕ) : Measurable fun z : Fin k → ℝ => ∑ j, z j ^ 2 := by fun_prop

/-- Only zero may have a positive probability. -/
lemma chiSquared_singleton (k : ℕ) {c : ℝ} (hc : c ≠ 0) : Spec.chiSquared k {c} = 0 := by
  unfold Spec.chiSquared
  rw [Measure.map_apply (measurable_squares k) (measurableSet_singleton c)]
  cases k with
  | zero =>
    have : (fun z : Fin 0 → ℝ => ∑ j, z j ^ 2) ⁻¹' {c} = ∅ := by
      ext z
      simp [hc.symm]
    rw [this, measure_empty]
  | succ k =>
    have h := measurePreserving_piFinSuccAbove (fun _ : Fin (k + 1) => gaussianReal 0 1) 0
    set S : Set (ℝ × (Fin k → ℝ)) := {p | p.1 ^ 2 + ∑ j, p.2 j ^ 2 = c} with hS
    have hSm : MeasurableSet S := measurableSet_eq_fun (by fun_prop) measurable_const
    have e : (fun z : Fin (k + 1) → ℝ => ∑ j, z j ^ 2) ⁻¹' {c} = (MeasurableEquiv.piFinSuccAbove (fun _ => ℝ) 0) ⁻¹' S := by
      ext z
      simp [hS, Fin.sum_univ_succ, MeasurableEquiv.piFinSuccAbove, Fin.tail]
    rw [e, h.measure_preimage hSm.nullMeasurableSet]
    have hswap : ((gaussianReal 0 1).prod (Measure.pi fun _ : Fin k => gaussianReal 0 1)) S =
        ((Measure.pi fun _ : Fin k => gaussianReal 0 1).prod (gaussianReal 0 1)) (Prod.swap ⁻¹' S) := by
      rw [← Measure.prod_swap, Measure.map_apply measurable_swap hSm]
    refine hswap.trans ?_
    rw [Measure.measure_prod_null (measurable_swap hSm)]
    refine Filter.Eventually.of_forall fun z => ?_
    have := nullSingletonClass_gaussianReal (μ := 0) (v := 1) one_ne_zero
    set v := c - ∑ j, z j ^ 2
    refine (Set.Finite.subset (Set.toFinite {√v, -√v}) fun x hx => ?_).measure_zero _
    have hx2 : x ^ 2 = v := by
      have : x ^ 2 + ∑ j, z j ^ 2 = c := hx
      simp only [v]
      linarith
    have hv : 0 ≤ v := hx2 ▸ sq_nonneg x
    have : x ^ 2 = √v ^ 2 := by rw [Real.sq_sqrt hv, hx2]
    rcases sq_eq_sq_iff_eq_or_eq_neg.mp this with h | h
    · exact .inl h
    · exact .inr h

/-- Norms of standard normal vectors. -/
lemma chiSquared_eq (k : ℕ) : (stdGaussian (EuclideanSpace ℝ (Fin k))).map (fun z => ∑ j, z j ^ 2) = Spec.chiSquared k := by
  rw [← map_pi_eq_stdGaussian, Measure.map_map (by fun_prop) (by fun_prop)]
  rfl

/-- Vectors of scaled sums. -/
noncomputable def scaledVector {k : ℕ} (w : ℕ → Ω → C) (y : Fin k → C → ℝ) (i : ℕ × Ω) : EuclideanSpace ℝ (Fin k) := WithLp.toLp 2 fun j => scaled w (y j) i

lemma measurable_scaled (hw : Draws μ law w) {f : C → ℝ} (hf : Measurable f) (T : ℕ) : Measurable fun ω => scaled w f (T, ω) := by
  change Measurable fun ω => (√(T : ℝ))⁻¹ * ∑ t ∈ Finset.range T, f (w t ω)
  exact (Finset.measurable_sum _ fun t _ => hf.comp (hw.measurable t)).const_mul _

lemma measurable_scaledVector (hw : Draws μ law w) {k : ℕ} {y : Fin k → C → ℝ} (hy : ∀ j, Measurable (y j)) (T : ℕ) :
    Measurable fun ω => scaledVector w y (T, ω) := by
  unfold scaledVector
  exact (WithLp.measurable_toLp 2 _).comp (measurable_pi_lambda _ fun j => measurable_scaled hw (hy j) T)

lemma scaled_combination {k : Type} [Fintype k] (t : k → ℝ) (y : k → C → ℝ) (i : ℕ × Ω) : scaled w (fun x => ∑ j, t j * y j x) i = ∑ j, t j * scaled w (y j) i := by
  unfold scaled
  rw [Finset.sum_comm, Finset.mul_sum]
  refine Finset.sum_congr rfl fun j _ => ?_
  rw [← Finset.mul_sum]
  ring

/-- They converge to the standard normal distribution. -/
lemma vector_normal [IsProbabilityMeasure μ] (hw : Draws μ law w) (hind : iIndepFun w μ) {k : ℕ} {y : Fin k → C → ℝ} (hy : ∀ j, Measurable (y j))
    (hint : ∀ j, MemLp (y j) 2 law) (h0 : ∀ j, ∫ x, y j x ∂law = 0) (h1 : ∀ j j', ∫ x, y j x * y j' x ∂law = if j = j' then 1 else 0) :
    TendstoInDistribution (fun T ω => scaledVector w y (T, ω)) atTop id (fun _ => μ) (stdGaussian (EuclideanSpace ℝ (Fin k))) where
  forall_aemeasurable T := (measurable_scaledVector hw hy T).aemeasurable
  aemeasurable_limit := aemeasurable_id
  tendsto := by
    have hp : IsProbabilityMeasure law := by
      rw [← hw.law 0]
      exact Measure.isProbabilityMeasure_map (hw.measurable 0).aemeasurable
    refine ProbabilityMeasure.tendsto_iff_tendsto_charFun.2 fun t => ?_
    simp only [ProbabilityMeasure.coe_mk, Measure.map_id]
    rw [charFun_stdGaussian]
    by_cases ht : t = 0
    · subst ht
      have : ∀ T, IsProbabilityMeasure (μ.map fun ω => scaledVector w y (T, ω)) := fun T =>
        Measure.isProbabilityMeasure_map (measurable_scaledVector hw hy T).aemeasurable
      simp
    have hn : ‖t‖ ≠ 0 := norm_ne_zero_iff.mpr ht
    set f : C → ℝ := fun x => ∑ j, t j / ‖t‖ * y j x with hf
    have hfm : Measurable f := Finset.measurable_sum _ fun j _ => (hy j).const_mul _
    have hf0 : ∫ x, f x ∂law = 0 := by
      rw [hf, integral_finsetSum _ fun j _ => ((hint j).integrable (by norm_num)).const_mul _]
      simp [integral_const_mul, h0]
    have hf1 : ∫ x, f x ^ 2 ∂law = 1 := by
      have e : ∀ x, f x ^ 2 = ∑ j, ∑ j', (t j / ‖t‖) * (t j' / ‖t‖) * (y j x * y j' x) := fun x => by
        rw [hf, sq]
        simp only
        rw [Finset.sum_mul_sum]
        exact Finset.sum_congr rfl fun j _ => Finset.sum_congr rfl fun j' _ => by ring
      have hi : ∀ j j', Integrable (fun x => y j x * y j' x) law := fun j j' => (hint j).integrable_mul (hint j')
      simp only [e]
      rw [integral_finsetSum _ fun j _ => integrable_finsetSum _ fun j' _ => (hi j j').const_mul _]
      simp only [fun j : Fin k => integral_finsetSum (μ := law) Finset.univ (f := fun j' x => (t j / ‖t‖) * (t j' / ‖t‖) * (y j x * y j' x))
        fun j' _ => (hi j j').const_mul _, integral_const_mul, h1, mul_ite, mul_one, mul_zero, Finset.sum_ite_eq, Finset.mem_univ, if_true]
      have e2 : ∑ j, t j ^ 2 = ‖t‖ ^ 2 := (EuclideanSpace.real_norm_sq_eq t).symm
      have e3 : ∀ j, t j / ‖t‖ * (t j / ‖t‖) = t j ^ 2 / ‖t‖ ^ 2 := fun j => by
        rw [div_mul_div_comm, ← sq, ← sq]
      simp only [e3]
      rw [← Finset.sum_div, e2, div_self (pow_ne_zero 2 hn)]
    have hZ := ProbabilityMeasure.tendsto_iff_tendsto_charFun.1 (scaled_normal hw hind hfm hf0 hf1).tendsto ‖t‖
    simp only [ProbabilityMeasure.coe_mk, Measure.map_id] at hZ
    rw [charFun_gaussianReal] at hZ
    have hlim : Complex.exp (-(‖t‖ : ℂ) ^ 2 / 2) = Complex.exp (‖t‖ * ((0 : ℝ) : ℂ) * Complex.I - ((1 : NNReal) : ℝ) * (‖t‖ : ℂ) ^ 2 / 2) := by
      congr 1
      simp
      ring
    refine (hlim ▸ hZ).congr fun T => ?_
    rw [charFun_apply_real, charFun_apply, integral_map (measurable_scaled hw hfm T).aemeasurable (by fun_prop),
      integral_map (measurable_scaledVector hw hy T).aemeasurable (by fun_prop)]
    refine integral_congr_ae (Eventually.of_forall fun ω => ?_)
    simp only
    congr 2
    rw [← Complex.ofReal_mul]
    congr 1
    rw [hf, scaled_combination, Finset.mul_sum, PiLp.inner_apply]
    refine Finset.sum_congr rfl fun j _ => ?_
    simp only [scaledVector, RCLike.inner_apply, conj_trivial]
    field_simp

variable {a : Type} [Fintype a]

/-- Quadratic forms of averages of `s` have limiting chi-squared distributions. -/
lemma quadratic_chiSquared [IsProbabilityMeasure μ] (hw : Draws μ law w) (hind : iIndepFun w μ) {s : a → C → ℝ} (hs : ∀ c, Measurable (s c))
    (hint : ∀ c, MemLp (s c) 2 law) (h0 : ∀ c, ∫ x, s c x ∂law = 0) {M : ℕ × Ω → a → a → ℝ} {k : ℕ} {B : Fin k → a → ℝ}
    (hM : ∀ c c', Tendsto (fun i => M i c c') (probably μ) (𝓝 (∑ j, B j c * B j c')))
    (hB : ∀ j j', ∑ c, ∑ c', B j c * (∫ x, s c x * s c' x ∂law) * B j' c' = if j = j' then 1 else 0) {Y : ℕ × Ω → ℝ}
    (hY : ∀ᶠ i in probably μ, Y i = ∑ c, ∑ c', M i c c' * (scaled w (s c) i * scaled w (s c') i)) {R : Set ℝ}
    (hR : Spec.chiSquared k (frontier R) = 0) : Tendsto (fun T => μ {ω | Y (T, ω) ∈ R}) atTop (𝓝 (Spec.chiSquared k R)) := by
  have hp : IsProbabilityMeasure law := by
    rw [← hw.law 0]
    exact Measure.isProbabilityMeasure_map (hw.measurable 0).aemeasurable
  set y : Fin k → C → ℝ := fun j x => ∑ c, B j c * s c x with hy
  have hym : ∀ j, Measurable (y j) := fun j => Finset.measurable_sum _ fun c _ => (hs c).const_mul _
  have hyint : ∀ j, MemLp (y j) 2 law := fun j => by
    have : MemLp (∑ c, fun x => B j c * s c x) 2 law := memLp_finsetSum' Finset.univ fun c _ => (hint c).const_mul (B j c)
    convert this using 1
    funext x
    simp [hy, Finset.sum_apply]
  have hy0 : ∀ j, ∫ x, y j x ∂law = 0 := fun j => by
    rw [hy, integral_finsetSum _ fun c _ => ((hint c).integrable (by norm_num)).const_mul _]
    simp [integral_const_mul, h0]
  have hy1 : ∀ j j', ∫ x, y j x * y j' x ∂law = if j = j' then 1 else 0 := fun j j' => by
    have e : ∀ x, y j x * y j' x = ∑ c, ∑ c', B j c * B j' c' * (s c x * s c' x) := fun x => by
      rw [hy]
      simp only
      rw [Finset.sum_mul_sum]
      exact Finset.sum_congr rfl fun c _ => Finset.sum_congr rfl fun c' _ => by ring
    have hi : ∀ c c', Integrable (fun x => s c x * s c' x) law := fun c c' => (hint c).integrable_mul (hint c')
    simp only [e]
    rw [integral_finsetSum _ fun c _ => integrable_finsetSum _ fun c' _ => (hi c c').const_mul _]
    simp only [fun c : a => integral_finsetSum (μ := law) Finset.univ (f := fun c' x => B j c * B j' c' * (s c x * s c' x))
      fun c' _ => (hi c c').const_mul _, integral_const_mul]
    rw [← hB j j']
    exact Finset.sum_congr rfl fun c _ => Finset.sum_congr rfl fun c' _ => by ring
  have hZ := (vector_normal hw hind hym hyint hy0 hy1).continuous_comp (g := fun z : EuclideanSpace ℝ (Fin k) => ∑ j, z j ^ 2) (by fun_prop)
  have hlaw : (stdGaussian (EuclideanSpace ℝ (Fin k))).map ((fun z : EuclideanSpace ℝ (Fin k) => ∑ j, z j ^ 2) ∘ id) = Spec.chiSquared k := chiSquared_eq k
  have hclose : Tendsto (fun i => dist (Y i) (∑ j, scaled w (y j) i ^ 2)) (probably μ) (𝓝 0) := by
    have hprod : ∀ c c', Tendsto (fun i => (M i c c' - ∑ j, B j c * B j c') * scaled w (s c) i * scaled w (s c') i) (probably μ) (𝓝 0) := fun c c' => by
      have h1 : Tendsto (fun i => M i c c' - ∑ j, B j c * B j c') (probably μ) (𝓝 0) := by
        have := (hM c c').sub_const (∑ j, B j c * B j c')
        rwa [sub_self] at this
      have h2 := tendsto_mul_bounded h1 (∫ x, s c x ^ 2 ∂law) fun T K hK => scaled_bounded hw (hs c) (hint c) (h0 c) T hK
      exact tendsto_mul_bounded h2 (∫ x, s c' x ^ 2 ∂law) fun T K hK => scaled_bounded hw (hs c') (hint c') (h0 c') T hK
    have hsum := tendsto_finsetSum (Finset.univ : Finset a) fun c _ => tendsto_finsetSum (Finset.univ : Finset a) fun c' _ => hprod c c'
    simp only [Finset.sum_const_zero] at hsum
    have habs := hsum.abs
    rw [abs_zero] at habs
    refine habs.congr' ?_
    filter_upwards [hY] with i hi
    rw [Real.dist_eq, hi]
    congr 1
    have e : ∑ j, scaled w (y j) i ^ 2 = ∑ c, ∑ c', (∑ j, B j c * B j c') * (scaled w (s c) i * scaled w (s c') i) := by
      simp only [hy, scaled_combination, sq, Finset.sum_mul]
      rw [Finset.sum_comm]
      refine Finset.sum_congr rfl fun c _ => ?_
      simp only [Finset.mul_sum]
      rw [Finset.sum_comm]
      exact Finset.sum_congr rfl fun c' _ => Finset.sum_congr rfl fun j _ => by ring
    rw [e, ← Finset.sum_sub_distrib]
    refine Finset.sum_congr rfl fun c _ => ?_
    rw [← Finset.sum_sub_distrib]
    exact Finset.sum_congr rfl fun c' _ => by ring
  have := tendsto_measure_of_close hZ (Y := Y) (B := R) hclose (by rw [hlaw]; exact hR)
  rwa [hlaw] at this

end Pyblp.Sampling
