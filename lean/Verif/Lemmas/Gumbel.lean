import Mathlib.Probability.Distributions.Exponential
import Mathlib.MeasureTheory.Constructions.Pi
import Mathlib.NumberTheory.Harmonic.GammaDeriv
import Verif.Spec.RandomUtility

/-! Facts about independent Gumbel tastes: their distribution function, the law of the best of
finitely many alternatives, and the law of the utility it gives. -/

set_option linter.unusedSectionVars false

namespace Pyblp
open MeasureTheory ProbabilityTheory Set

lemma expTail (t : ℝ) (ht : 0 ≤ t) :
    expMeasure 1 (Ioi t) = ENNReal.ofReal (Real.exp (-t)) := by
  have := isProbabilityMeasure_expMeasure (r := 1) one_pos
  have h1 : (expMeasure 1).real (Iic t) = 1 - Real.exp (-t) := by
    rw [← cdf_eq_real, cdf_expMeasure_eq one_pos, if_pos ht, one_mul]
  have h2 : (expMeasure 1).real (Ioi t) = Real.exp (-t) := by
    rw [← compl_Iic, probReal_compl_eq_one_sub measurableSet_Iic, h1]; ring
  rw [← h2, ofReal_measureReal]

lemma expMeasure_pos : ∀ᵐ x ∂(expMeasure 1), 0 < x := by
  have := isProbabilityMeasure_expMeasure (r := 1) one_pos
  have h := expTail 0 le_rfl
  rw [neg_zero, Real.exp_zero, ENNReal.ofReal_one] at h
  exact (prob_compl_eq_zero_iff measurableSet_Ioi).2 h

lemma measurable_negLog : Measurable fun x : ℝ => -Real.log x := Real.measurable_log.neg

instance : IsProbabilityMeasure Spec.gumbel := by
  have := isProbabilityMeasure_expMeasure (r := 1) one_pos
  exact Measure.isProbabilityMeasure_map measurable_negLog.aemeasurable

lemma gumbel_Iio (y : ℝ) :
    Spec.gumbel (Iio y) = ENNReal.ofReal (Real.exp (-Real.exp (-y))) := by
  rw [← expTail _ (Real.exp_pos _).le, Spec.gumbel,
    Measure.map_apply measurable_negLog measurableSet_Iio]
  refine measure_congr ?_
  filter_upwards [expMeasure_pos] with x hx
  refine propext ?_
  change -Real.log x < y ↔ Real.exp (-y) < x
  rw [neg_lt, Real.lt_log_iff_exp_lt hx]

lemma gumbel_Iic (y : ℝ) :
    Spec.gumbel (Iic y) = ENNReal.ofReal (Real.exp (-Real.exp (-y))) := by
  have := isProbabilityMeasure_expMeasure (r := 1) one_pos
  have hc : expMeasure 1 {Real.exp (-y)} = 0 := by
    have : expMeasure 1 ≪ volume := withDensity_absolutelyContinuous _ _
    exact this (by simp)
  rw [← expTail _ (Real.exp_pos _).le, Spec.gumbel,
    Measure.map_apply measurable_negLog measurableSet_Iic]
  refine measure_congr ?_
  have hne : ∀ᵐ x ∂(expMeasure 1), x ≠ Real.exp (-y) := by
    rw [ae_iff]; simpa using hc
  filter_upwards [expMeasure_pos, hne] with x hx hxy
  refine propext ?_
  change -Real.log x ≤ y ↔ Real.exp (-y) < x
  rw [neg_le, Real.le_log_iff_exp_le hx]
  exact ⟨fun h => lt_of_le_of_ne h hxy.symm, le_of_lt⟩

/-- The Laplace transform of the exponential law. -/
lemma lintegral_expMeasure_exp (c : ℝ) (hc : 0 ≤ c) :
    ∫⁻ x, ENNReal.ofReal (Real.exp (-(c * x))) ∂(expMeasure 1)
      = ENNReal.ofReal (1 / (1 + c)) := by
  have hd : expMeasure 1 = volume.withDensity (exponentialPDF 1) := rfl
  have hm : Measurable (exponentialPDF 1) :=
    (measurable_exponentialPDFReal 1).ennreal_ofReal
  have hm' : Measurable (exponentialPDF (1 + c)) :=
    (measurable_exponentialPDFReal _).ennreal_ofReal
  rw [hd, lintegral_withDensity_eq_lintegral_mul _ hm (by fun_prop)]
  have hpos : 0 < 1 + c := by linarith
  calc _ = ∫⁻ x, ENNReal.ofReal (1 / (1 + c)) * exponentialPDF (1 + c) x := by
        refine lintegral_congr fun x => ?_
        rw [Pi.mul_apply]
        rcases lt_or_ge x 0 with hx | hx
        · rw [exponentialPDF_of_neg hx, exponentialPDF_of_neg hx]; simp
        · rw [exponentialPDF_of_nonneg hx, exponentialPDF_of_nonneg hx,
            ← ENNReal.ofReal_mul (by positivity), ← ENNReal.ofReal_mul (by positivity),
            one_mul, one_mul, ← Real.exp_add, ← mul_assoc, one_div, inv_mul_cancel₀ hpos.ne',
            one_mul]
          congr 2; ring
    _ = _ := by
        rw [lintegral_const_mul _ hm', lintegral_exponentialPDF_eq_one hpos, mul_one]

variable {K : Type} [Fintype K] [DecidableEq K]

/-- Conditional on the taste for one alternative, the others are worse with independent
probabilities. -/
lemma measure_best_eq_lintegral (u : K → ℝ) (S : Finset K) (j : K) :
    Measure.pi (fun _ : K => Spec.gumbel) {ε | ∀ k ∈ S, k ≠ j → u k + ε k < u j + ε j}
      = ∫⁻ x, ∏ k ∈ S.erase j, Spec.gumbel (Iio (u j + x - u k)) ∂Spec.gumbel := by
  have hB : MeasurableSet {ε : K → ℝ | ∀ k ∈ S, k ≠ j → u k + ε k < u j + ε j} := by
    have : {ε : K → ℝ | ∀ k ∈ S, k ≠ j → u k + ε k < u j + ε j}
        = ⋂ k ∈ S.erase j, {ε : K → ℝ | u k + ε k < u j + ε j} := by
      ext ε; simp only [mem_ofPred_eq, mem_iInter, Finset.mem_erase]; tauto
    rw [this]
    exact Finset.measurableSet_biInter _ fun k _ =>
      measurableSet_lt (by fun_prop) (by fun_prop)
  have hp := measurePreserving_piEquivPiSubtypeProd (fun _ : K => Spec.gumbel) (fun k => k = j)
  have hq := measurePreserving_piUnique (fun _ : {k // k = j} => Spec.gumbel)
  set e := MeasurableEquiv.piEquivPiSubtypeProd (fun _ : K => ℝ) (fun k => k = j)
  have h1 := (hp.symm e).measure_preimage hB.nullMeasurableSet
  rw [← h1, Measure.prod_apply (e.symm.measurable hB)]
  have h2 : ∀ x : {k // k = j} → ℝ,
      (Measure.pi fun _ : {k // ¬ k = j} => Spec.gumbel)
        (Prod.mk x ⁻¹' (e.symm ⁻¹' {ε | ∀ k ∈ S, k ≠ j → u k + ε k < u j + ε j}))
      = ∏ k ∈ S.erase j, Spec.gumbel (Iio (u j + x ⟨j, rfl⟩ - u k)) := by
    intro x
    have : (Prod.mk x ⁻¹' (e.symm ⁻¹' {ε | ∀ k ∈ S, k ≠ j → u k + ε k < u j + ε j}))
        = ((S.subtype fun k => ¬ k = j : Finset _) : Set {k // ¬ k = j}).pi
          fun k => Iio (u j + x ⟨j, rfl⟩ - u k) := by
      ext y
      simp only [mem_preimage, mem_ofPred_eq, mem_pi, Finset.mem_coe, Finset.mem_subtype,
        mem_Iio]
      have hj : e.symm (x, y) j = x ⟨j, rfl⟩ := by
        simp [e, MeasurableEquiv.piEquivPiSubtypeProd, Equiv.piEquivPiSubtypeProd]
      have hk : ∀ k (h : ¬ k = j), e.symm (x, y) k = y ⟨k, h⟩ := by
        intro k h
        simp [e, MeasurableEquiv.piEquivPiSubtypeProd, Equiv.piEquivPiSubtypeProd, h]
      constructor
      · rintro h ⟨k, hkj⟩ hkS
        have := h k hkS hkj
        rw [hj, hk k hkj] at this
        change y ⟨k, hkj⟩ < _
        linarith
      · intro h k hkS hkj
        have := h ⟨k, hkj⟩ hkS
        rw [hj, hk k hkj]
        linarith
    rw [this, Measure.pi_pi_finset]
    refine (Finset.prod_subtype_eq_prod_filter
      (fun k => Spec.gumbel (Iio (u j + x ⟨j, rfl⟩ - u k)))).trans ?_
    rw [Finset.filter_ne']
  simp_rw [h2]
  have h3 := hq.lintegral_comp (f := fun x : ℝ =>
    ∏ k ∈ S.erase j, Spec.gumbel (Iio (u j + x - u k))) (by
      refine Finset.measurable_prod _ fun k _ => ?_
      simp_rw [gumbel_Iio]
      fun_prop)
  convert h3
  rfl

/-- The best of finitely many alternatives under independent Gumbel tastes is one of them with
logit probability. -/
lemma measure_best (u : K → ℝ) (S : Finset K) (j : K) (hj : j ∈ S) :
    Measure.pi (fun _ : K => Spec.gumbel) {ε | ∀ k ∈ S, k ≠ j → u k + ε k < u j + ε j}
      = ENNReal.ofReal (Real.exp (u j) / ∑ k ∈ S, Real.exp (u k)) := by
  rw [measure_best_eq_lintegral]
  simp_rw [gumbel_Iio]
  rw [Spec.gumbel, lintegral_map (by fun_prop) measurable_negLog]
  have hc : 0 ≤ ∑ k ∈ S.erase j, Real.exp (u k - u j) :=
    Finset.sum_nonneg fun _ _ => (Real.exp_pos _).le
  rw [lintegral_congr_ae (g := fun x => ENNReal.ofReal
    (Real.exp (-((∑ k ∈ S.erase j, Real.exp (u k - u j)) * x)))), lintegral_expMeasure_exp _ hc]
  · congr 1
    rw [← Finset.add_sum_erase S _ hj, div_eq_div_iff (by positivity) (by positivity),
      one_mul, mul_add, mul_one, Finset.mul_sum]
    congr 1
    refine Finset.sum_congr rfl fun k _ => ?_
    rw [← Real.exp_add]; congr 1; ring
  · filter_upwards [expMeasure_pos] with x hx
    rw [← ENNReal.ofReal_prod_of_nonneg fun _ _ => (Real.exp_pos _).le, ← Real.exp_sum]
    congr 2
    rw [Finset.sum_neg_distrib, Finset.sum_mul]
    congr 1
    refine Finset.sum_congr rfl fun k _ => ?_
    rw [show -(u j + -Real.log x - u k) = (u k - u j) + Real.log x by ring, Real.exp_add,
      Real.exp_log hx]

lemma measurableSet_best (u : K → ℝ) (S : Finset K) (j : K) :
    MeasurableSet {ε : K → ℝ | ∀ k ∈ S, k ≠ j → u k + ε k < u j + ε j} := by
  have : {ε : K → ℝ | ∀ k ∈ S, k ≠ j → u k + ε k < u j + ε j}
      = ⋂ k ∈ S.erase j, {ε : K → ℝ | u k + ε k < u j + ε j} := by
    ext ε; simp only [mem_ofPred_eq, mem_iInter, Finset.mem_erase]; tauto
  rw [this]
  exact Finset.measurableSet_biInter _ fun k _ =>
    measurableSet_lt (by fun_prop) (by fun_prop)

/-- Ties have probability zero: there is a best alternative. -/
lemma ae_best (u : K → ℝ) (S : Finset K) (hS : S.Nonempty) :
    ∀ᵐ ε ∂(Measure.pi fun _ : K => Spec.gumbel), ∃ j ∈ S, ∀ k ∈ S, k ≠ j → u k + ε k < u j + ε j := by
  have hU : MeasurableSet (⋃ j ∈ S, {ε : K → ℝ | ∀ k ∈ S, k ≠ j → u k + ε k < u j + ε j}) :=
    Finset.measurableSet_biUnion _ fun j _ => measurableSet_best u S j
  have h1 : Measure.pi (fun _ : K => Spec.gumbel)
      (⋃ j ∈ S, {ε : K → ℝ | ∀ k ∈ S, k ≠ j → u k + ε k < u j + ε j}) = 1 := by
    rw [measure_biUnion_finset]
    · rw [Finset.sum_congr rfl fun j hj => measure_best u S j hj,
        ← ENNReal.ofReal_sum_of_nonneg fun j _ => by positivity, ← Finset.sum_div, div_self,
        ENNReal.ofReal_one]
      obtain ⟨j, hj⟩ := hS
      exact (Finset.sum_pos (fun _ _ => Real.exp_pos _) ⟨j, hj⟩).ne'
    · intro j hj k hk hjk
      rw [Function.onFun, Set.disjoint_left]
      intro ε h1 h2
      have := h1 k hk (Ne.symm hjk)
      have := h2 j hj hjk
      linarith
    · exact fun j _ => measurableSet_best u S j
  have h2 := (prob_compl_eq_zero_iff hU).2 h1
  rw [ae_iff]
  convert h2 using 2
  ext ε
  simp

/-- The utility of the best alternative has a Gumbel distribution that is shifted by the log-sum. -/
lemma map_sup_gumbel (u : K → ℝ) (S : Finset K) (hS : S.Nonempty) :
    (Measure.pi fun _ : K => Spec.gumbel).map (fun ε => S.sup' hS fun k => u k + ε k)
      = Spec.gumbel.map (fun x => x + Real.log (∑ k ∈ S, Real.exp (u k))) := by
  have hm : Measurable fun ε : K → ℝ => S.sup' hS fun k => u k + ε k := by
    have h := Finset.measurable_sup' hS (f := fun k (ε : K → ℝ) => u k + ε k) (fun k _ => by fun_prop)
    convert h using 2
    simp
  have := Measure.isProbabilityMeasure_map (μ := Measure.pi fun _ : K => Spec.gumbel) hm.aemeasurable
  have hm' : Measurable fun x : ℝ => x + Real.log (∑ k ∈ S, Real.exp (u k)) := by fun_prop
  have := Measure.isProbabilityMeasure_map (μ := Spec.gumbel) hm'.aemeasurable
  have hpos : 0 < ∑ k ∈ S, Real.exp (u k) := Finset.sum_pos (fun _ _ => Real.exp_pos _) hS
  refine Measure.ext_of_Iic _ _ fun x => ?_
  rw [Measure.map_apply hm measurableSet_Iic, Measure.map_apply hm' measurableSet_Iic]
  have h1 : (fun ε : K → ℝ => S.sup' hS fun k => u k + ε k) ⁻¹' Iic x
      = (S : Set K).pi fun k => Iic (x - u k) := by
    ext ε
    simp only [mem_preimage, mem_Iic, Finset.sup'_le_iff, mem_pi, Finset.mem_coe, le_sub_iff_add_le']
  have h2 : (fun y : ℝ => y + Real.log (∑ k ∈ S, Real.exp (u k))) ⁻¹' Iic x
      = Iic (x - Real.log (∑ k ∈ S, Real.exp (u k))) := by
    ext y
    simp only [mem_preimage, mem_Iic, le_sub_iff_add_le]
  rw [h1, h2, Measure.pi_pi_finset, gumbel_Iic]
  simp_rw [gumbel_Iic]
  rw [← ENNReal.ofReal_prod_of_nonneg fun _ _ => (Real.exp_pos _).le, ← Real.exp_sum,
    Finset.sum_neg_distrib]
  congr 3
  rw [neg_sub, Real.exp_sub, Real.exp_log hpos, Finset.sum_div]
  refine Finset.sum_congr rfl fun k _ => ?_
  rw [neg_sub, Real.exp_sub]

/-- The exponential law as a density on positive numbers. -/
lemma expMeasure_eq : expMeasure 1 = (volume.restrict (Ioi 0)).withDensity fun x => ENNReal.ofReal (Real.exp (-x)) := by
  rw [← withDensity_indicator measurableSet_Ioi]
  refine withDensity_congr_ae ?_
  have h0 : ∀ᵐ x : ℝ, x ≠ 0 := by rw [ae_iff]; simp
  filter_upwards [h0] with x hx
  rcases lt_or_gt_of_ne hx with h | h
  · rw [indicator_of_notMem (by simp [h.le])]
    exact exponentialPDF_of_neg h
  · rw [indicator_of_mem (by exact h)]
    refine (exponentialPDF_of_nonneg h.le).trans ?_
    simp

lemma integrableOn_exp_log : IntegrableOn (fun x : ℝ => Real.exp (-x) * -Real.log x) (Ioi 0) := by
  have h1 : IntegrableOn (fun x : ℝ => Real.exp (-x) * x ^ ((2 : ℝ) - 1)) (Ioi 0) :=
    Real.GammaIntegral_convergent (by norm_num)
  have h2 : IntegrableOn (fun x : ℝ => Real.exp (-x) * x ^ ((1 / 2 : ℝ) - 1)) (Ioi 0) :=
    Real.GammaIntegral_convergent (by norm_num)
  refine (h1.add (h2.const_mul 2)).mono' (by fun_prop) ?_
  filter_upwards [ae_restrict_mem measurableSet_Ioi] with x hx
  have hx : 0 < x := hx
  have ha : Real.log x ≤ x := (Real.log_le_sub_one_of_pos hx).trans (by linarith)
  have hr : 0 < x ^ (-(1 / 2) : ℝ) := Real.rpow_pos_of_pos hx _
  have hb : -Real.log x ≤ 2 * x ^ (-(1 / 2) : ℝ) := by
    have := Real.log_le_sub_one_of_pos hr
    rw [Real.log_rpow hx] at this
    linarith
  rw [norm_mul, Real.norm_of_nonneg (Real.exp_pos _).le, Real.norm_eq_abs, abs_neg]
  have : |Real.log x| ≤ x + 2 * x ^ (-(1 / 2) : ℝ) := abs_le.2 ⟨by linarith, by linarith⟩
  refine (mul_le_mul_of_nonneg_left this (Real.exp_pos _).le).trans (le_of_eq ?_)
  simp only [Pi.add_apply]
  norm_num
  ring

/-- Gumbel tastes have a mean. -/
lemma integrable_gumbel : Integrable (fun x => x) Spec.gumbel := by
  rw [Spec.gumbel, integrable_map_measure (by fun_prop) measurable_negLog.aemeasurable, expMeasure_eq,
    integrable_withDensity_iff_integrable_smul₀' (by fun_prop) (by simp)]
  refine integrableOn_exp_log.congr (Filter.Eventually.of_forall fun x => ?_)
  simp [ENNReal.toReal_ofReal (Real.exp_pos _).le]

/-- The mean of Gumbel tastes is Euler's constant. -/
lemma integral_gumbel : ∫ x, x ∂Spec.gumbel = Real.eulerMascheroniConstant := by
  rw [Spec.gumbel, integral_map measurable_negLog.aemeasurable (by fun_prop), expMeasure_eq,
    integral_withDensity_eq_integral_toReal_smul₀ (by fun_prop) (by simp)]
  have h1 := Complex.hasDerivAt_GammaIntegral (s := 1) (by simp)
  have h2 : HasDerivAt Complex.GammaIntegral (-(Real.eulerMascheroniConstant : ℂ)) 1 := by
    refine Complex.hasDerivAt_Gamma_one.congr_of_eventuallyEq ?_
    have : IsOpen {z : ℂ | 0 < z.re} := isOpen_lt continuous_const Complex.continuous_re
    filter_upwards [this.mem_nhds (by simp : (1 : ℂ) ∈ {z : ℂ | 0 < z.re})] with z hz
    exact (Complex.Gamma_eq_integral hz).symm
  have h3 := h1.unique h2
  have h4 : ∫ t : ℝ in Ioi 0, (t : ℂ) ^ ((1 : ℂ) - 1) * ((Real.log t : ℂ) * (Real.exp (-t) : ℂ))
      = ((∫ t : ℝ in Ioi 0, Real.log t * Real.exp (-t) : ℝ) : ℂ) := by
    rw [← integral_complex_ofReal]
    refine integral_congr_ae (Filter.Eventually.of_forall fun t => ?_)
    simp
  rw [h4] at h3
  have h5 : ∫ t : ℝ in Ioi 0, Real.log t * Real.exp (-t) = -Real.eulerMascheroniConstant := by
    exact_mod_cast h3
  rw [← neg_neg Real.eulerMascheroniConstant, ← h5, ← integral_neg]
  refine integral_congr_ae (Filter.Eventually.of_forall fun t => ?_)
  simp [ENNReal.toReal_ofReal (Real.exp_pos _).le, mul_comm]

/-- The expected utility of the best alternative is the log-sum plus Euler's constant. -/
lemma integral_sup_gumbel (u : K → ℝ) (S : Finset K) (hS : S.Nonempty) :
    Integrable (fun ε => S.sup' hS fun k => u k + ε k) (Measure.pi fun _ : K => Spec.gumbel) ∧
      ∫ ε, (S.sup' hS fun k => u k + ε k) ∂(Measure.pi fun _ : K => Spec.gumbel)
        = Real.log (∑ k ∈ S, Real.exp (u k)) + Real.eulerMascheroniConstant := by
  have hm : Measurable fun ε : K → ℝ => S.sup' hS fun k => u k + ε k := by
    have h := Finset.measurable_sup' hS (f := fun k (ε : K → ℝ) => u k + ε k) (fun k _ => by fun_prop)
    convert h using 2
    simp
  have hm' : Measurable fun x : ℝ => x + Real.log (∑ k ∈ S, Real.exp (u k)) := by fun_prop
  have hlaw := map_sup_gumbel u S hS
  constructor
  · have h : Integrable (fun x : ℝ => x) ((Measure.pi fun _ : K => Spec.gumbel).map
        (fun ε => S.sup' hS fun k => u k + ε k)) := by
      rw [hlaw, integrable_map_measure (by fun_prop) hm'.aemeasurable]
      exact integrable_gumbel.add (integrable_const _)
    rw [integrable_map_measure (by fun_prop) hm.aemeasurable] at h
    exact h
  · have h := integral_map (μ := Measure.pi fun _ : K => Spec.gumbel) hm.aemeasurable
      (f := fun x : ℝ => x) (by fun_prop)
    rw [← h, hlaw, integral_map hm'.aemeasurable (by fun_prop),
      integral_add integrable_gumbel (integrable_const _), integral_gumbel]
    simp [add_comm]

end Pyblp
