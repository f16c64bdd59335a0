import Verif.Lemmas.Gumbel
import Mathlib.MeasureTheory.Function.JacobianOneDim
import Mathlib.Analysis.SpecialFunctions.Gaussian.GaussianIntegral
import Mathlib.Probability.Independence.Integration
import Mathlib.Probability.Independence.Basic

/-! Tastes of nested logit models exist: with nesting parameters of one half, they are Gumbel tastes whose scale is mixed over a
half-normal variable for each group. -/

set_option linter.unusedSectionVars false

namespace Pyblp
open MeasureTheory ProbabilityTheory Set

/-- A change of variables that maps the real line to positive numbers: `y` is `z - t / z`. -/
lemma schlomilch (t : ℝ) (ht : 0 < t) :
    ∫ z in Ioi (0 : ℝ), Real.exp (-(z ^ 2 / 2) - t ^ 2 / (2 * z ^ 2)) = Real.exp (-t) * (Real.sqrt (2 * Real.pi) / 2) := by
  set f : ℝ → ℝ := fun y => (y + Real.sqrt (y ^ 2 + 4 * t)) / 2 with hf
  have hpos : ∀ y : ℝ, 0 < y ^ 2 + 4 * t := fun y => by positivity
  have hsq : ∀ y : ℝ, Real.sqrt (y ^ 2 + 4 * t) ^ 2 = y ^ 2 + 4 * t := fun y => Real.sq_sqrt (hpos y).le
  have hsp : ∀ y : ℝ, 0 < Real.sqrt (y ^ 2 + 4 * t) := fun y => Real.sqrt_pos.2 (hpos y)
  have hfpos : ∀ y, 0 < f y := by
    intro y
    have : |y| < Real.sqrt (y ^ 2 + 4 * t) := Real.lt_sqrt_of_sq_lt (by rw [sq_abs]; linarith)
    have := neg_abs_le y
    simp only [hf]
    linarith
  have hquad : ∀ y, f y ^ 2 - y * f y - t = 0 := by
    intro y
    simp only [hf]
    nlinarith [hsq y]
  have hy : ∀ y, y = f y - t / f y := by
    intro y
    have := hfpos y
    field_simp
    linarith [hquad y]
  have himage : f '' univ = Ioi 0 := by
    ext z
    simp only [image_univ, mem_range, mem_Ioi]
    refine ⟨fun ⟨y, h⟩ => h ▸ hfpos y, fun hz => ⟨z - t / z, ?_⟩⟩
    simp only [hf]
    have h1 : (z - t / z) ^ 2 + 4 * t = (z + t / z) ^ 2 := by field_simp; ring
    rw [h1, Real.sqrt_sq (by positivity)]
    ring
  have hinj : InjOn f univ := by
    intro a _ b _ hab
    rw [hy a, hy b, hab]
  have hder : ∀ y ∈ (univ : Set ℝ), HasDerivWithinAt f ((1 + y / Real.sqrt (y ^ 2 + 4 * t)) / 2) univ y := by
    intro y _
    have h1 : HasDerivAt (fun y : ℝ => y ^ 2 + 4 * t) (2 * y) y := by
      simpa using (hasDerivAt_pow 2 y).add_const (4 * t)
    have h2 := ((hasDerivAt_id' y).add (h1.sqrt (hpos y).ne')).div_const 2
    refine (h2.congr_deriv ?_).hasDerivWithinAt
    field_simp
  rw [← himage, integral_image_eq_integral_abs_deriv_smul MeasurableSet.univ hder hinj, Measure.restrict_univ]
  have habs : ∀ y : ℝ, |y / Real.sqrt (y ^ 2 + 4 * t)| ≤ 1 := by
    intro y
    rw [abs_div, abs_of_pos (hsp y), div_le_one (hsp y)]
    exact Real.le_sqrt_of_sq_le (by rw [sq_abs]; linarith)
  have hint : ∀ y : ℝ, |(1 + y / Real.sqrt (y ^ 2 + 4 * t)) / 2| • Real.exp (-(f y ^ 2 / 2) - t ^ 2 / (2 * f y ^ 2)) =
      Real.exp (-t) / 2 * Real.exp (-(1 / 2) * y ^ 2) +
        Real.exp (-t) / 2 * (y / Real.sqrt (y ^ 2 + 4 * t) * Real.exp (-(1 / 2) * y ^ 2)) := by
    intro y
    have h0 : 0 ≤ (1 + y / Real.sqrt (y ^ 2 + 4 * t)) / 2 := by linarith [(abs_le.1 (habs y)).1]
    have h1 : -(f y ^ 2 / 2) - t ^ 2 / (2 * f y ^ 2) = -t + -(1 / 2) * y ^ 2 := by
      have hfy := hfpos y
      conv_rhs => rw [hy y]
      field_simp
      ring
    rw [abs_of_nonneg h0, h1, Real.exp_add, smul_eq_mul]
    ring
  have hg : Integrable fun y : ℝ => Real.exp (-(1 / 2) * y ^ 2) := integrable_exp_neg_mul_sq (by norm_num)
  have hodd : Integrable fun y : ℝ => y / Real.sqrt (y ^ 2 + 4 * t) * Real.exp (-(1 / 2) * y ^ 2) := by
    refine hg.mono' ?_ (Filter.Eventually.of_forall fun y => ?_)
    · refine Continuous.aestronglyMeasurable ?_
      refine Continuous.mul (Continuous.div₀ continuous_id (by fun_prop) fun y => (hsp y).ne') (by fun_prop)
    · rw [norm_mul, Real.norm_eq_abs, Real.norm_of_nonneg (Real.exp_pos _).le]
      exact mul_le_of_le_one_left (Real.exp_pos _).le (habs y)
  have hzero : ∫ y : ℝ, y / Real.sqrt (y ^ 2 + 4 * t) * Real.exp (-(1 / 2) * y ^ 2) = 0 := by
    have h := integral_neg_eq_self (fun y : ℝ => y / Real.sqrt (y ^ 2 + 4 * t) * Real.exp (-(1 / 2) * y ^ 2)) volume
    simp only [neg_sq, neg_div, neg_mul] at h
    rw [integral_neg] at h
    simp only [neg_mul]
    linarith
  simp only [hint]
  rw [integral_add (hg.const_mul _) (hodd.const_mul _), integral_const_mul, integral_const_mul, hzero, integral_gaussian]
  rw [show Real.pi / (1 / 2) = 2 * Real.pi by ring]
  ring

/-- The half-normal distribution. -/
noncomputable def halfNormal : Measure ℝ :=
  (volume.restrict (Ioi 0)).withDensity fun z => ENNReal.ofReal (2 / Real.sqrt (2 * Real.pi) * Real.exp (-(z ^ 2 / 2)))

lemma lintegral_halfNormal (t : ℝ) (ht : 0 ≤ t) :
    ∫⁻ z, ENNReal.ofReal (Real.exp (-(t ^ 2 / (2 * z ^ 2)))) ∂halfNormal = ENNReal.ofReal (Real.exp (-t)) := by
  have hs : 0 < Real.sqrt (2 * Real.pi) := Real.sqrt_pos.2 (by positivity)
  unfold halfNormal
  rw [lintegral_withDensity_eq_lintegral_mul _ (by fun_prop) (by fun_prop)]
  have h1 : ∀ z : ℝ, ((fun z => ENNReal.ofReal (2 / Real.sqrt (2 * Real.pi) * Real.exp (-(z ^ 2 / 2)))) *
      fun z => ENNReal.ofReal (Real.exp (-(t ^ 2 / (2 * z ^ 2))))) z =
      ENNReal.ofReal (2 / Real.sqrt (2 * Real.pi) * Real.exp (-(z ^ 2 / 2) - t ^ 2 / (2 * z ^ 2))) := by
    intro z
    rw [Pi.mul_apply, ← ENNReal.ofReal_mul (by positivity), mul_assoc, ← Real.exp_add]
    rfl
  simp only [h1]
  have hg : IntegrableOn (fun z : ℝ => Real.exp (-(z ^ 2 / 2))) (Ioi 0) := by
    have := (integrable_exp_neg_mul_sq (b := 1 / 2) (by norm_num)).integrableOn (s := Ioi 0)
    refine this.congr_fun (fun z _ => ?_) measurableSet_Ioi
    simp only []
    congr 1; ring
  have hi : Integrable (fun z : ℝ => 2 / Real.sqrt (2 * Real.pi) * Real.exp (-(z ^ 2 / 2) - t ^ 2 / (2 * z ^ 2)))
      (volume.restrict (Ioi 0)) := by
    refine Integrable.const_mul (hg.mono' (by fun_prop) (Filter.Eventually.of_forall fun z => ?_)) _
    rw [Real.norm_of_nonneg (Real.exp_pos _).le]
    refine Real.exp_le_exp.2 ?_
    have : 0 ≤ t ^ 2 / (2 * z ^ 2) := by positivity
    linarith
  rw [← ofReal_integral_eq_lintegral_ofReal hi (Filter.Eventually.of_forall fun z => by positivity), integral_const_mul]
  congr 1
  rcases ht.eq_or_lt with h0 | h0
  · subst h0
    have h2 := integral_gaussian_Ioi (1 / 2)
    have h3 : ∫ z in Ioi (0 : ℝ), Real.exp (-(z ^ 2 / 2) - 0 ^ 2 / (2 * z ^ 2)) = Real.sqrt (2 * Real.pi) / 2 := by
      rw [show 2 * Real.pi = Real.pi / (1 / 2) by ring, ← h2]
      refine integral_congr_ae (Filter.Eventually.of_forall fun z => ?_)
      simp only []
      congr 1
      ring
    rw [h3, neg_zero, Real.exp_zero]
    field_simp
  · rw [schlomilch t h0]
    field_simp

instance : IsProbabilityMeasure halfNormal := by
  constructor
  have h := lintegral_halfNormal 0 le_rfl
  simpa using h

lemma halfNormal_pos : ∀ᵐ z ∂halfNormal, 0 < z := by
  refine (withDensity_absolutelyContinuous _ _).ae_le ?_
  exact ae_restrict_mem measurableSet_Ioi

lemma expMeasure_Ici (t : ℝ) (ht : 0 ≤ t) : expMeasure 1 (Ici t) = ENNReal.ofReal (Real.exp (-t)) := by
  rw [← expTail t ht]
  refine (measure_congr ?_).symm
  have hc : expMeasure 1 {t} = 0 := by
    have : expMeasure 1 ≪ volume := withDensity_absolutelyContinuous _ _
    exact this (by simp)
  have hne : ∀ᵐ x ∂(expMeasure 1), x ≠ t := by
    rw [ae_iff]; simpa using hc
  filter_upwards [hne] with x hx
  exact propext ⟨le_of_lt, fun h => lt_of_le_of_ne h hx.symm⟩

instance : IsProbabilityMeasure (expMeasure 1) := isProbabilityMeasure_expMeasure one_pos

variable {J G : Type} [Fintype J] [DecidableEq J] [Fintype G] [DecidableEq G]

/-- Tastes as a function of half-normal variables for groups and exponential ones for alternatives. -/
noncomputable def mixedTaste (group : J → G) (w : (G → ℝ) × (Option J → ℝ)) : Option J → ℝ
  | none => -Real.log (w.2 none)
  | some j => -(Real.log (2 * w.1 (group j) ^ 2 * w.2 (some j)) / 2)

/-- A law of tastes for nesting parameters of one half. -/
noncomputable def halfNestedTastes (group : J → G) : Measure (Option J → ℝ) :=
  ((Measure.pi fun _ : G => halfNormal).prod (Measure.pi fun _ : Option J => expMeasure 1)).map (mixedTaste group)

lemma measurable_mixedTaste (group : J → G) : Measurable (mixedTaste group) := by
  refine measurable_pi_lambda _ fun c => ?_
  cases c with
  | none => exact (Real.measurable_log.comp (by fun_prop)).neg
  | some j => exact ((Real.measurable_log.comp (by fun_prop)).div_const 2).neg

/-- How large the exponential variable of an alternative has to be for its taste not to exceed `x`. -/
noncomputable def threshold (group : J → G) (x : Option J → ℝ) (z : G → ℝ) : Option J → ℝ
  | none => Real.exp (-x none)
  | some j => Real.exp (-(2 * x (some j))) / (2 * z (group j) ^ 2)

lemma threshold_nonneg (group : J → G) (x : Option J → ℝ) (z : G → ℝ) (c : Option J) : 0 ≤ threshold group x z c := by
  cases c <;> simp only [threshold] <;> positivity

lemma mixedTaste_le (group : J → G) (x : Option J → ℝ) (z : G → ℝ) (hz : ∀ h, 0 < z h) (e : Option J → ℝ) (c : Option J) (he : 0 < e c) :
    mixedTaste group (z, e) c ≤ x c ↔ threshold group x z c ≤ e c := by
  cases c with
  | none =>
    simp only [mixedTaste, threshold]
    rw [neg_le, Real.le_log_iff_exp_le he]
  | some j =>
    have hzj := hz (group j)
    simp only [mixedTaste, threshold]
    rw [div_le_iff₀ (by positivity), ← Real.le_log_iff_exp_le (by positivity)]
    rw [show 2 * z (group j) ^ 2 * e (some j) = e (some j) * (2 * z (group j) ^ 2) by ring]
    constructor <;> intro h <;> linarith

/-- The total of thresholds, by group. -/
lemma sum_threshold (group : J → G) (x : Option J → ℝ) (z : G → ℝ) (S : Finset (Option J)) :
    ∑ c ∈ S, threshold group x z c = (if none ∈ S then Real.exp (-x none) else 0) +
      ∑ h, Real.sqrt (∑ j with group j = h, if some j ∈ S then Real.exp (-x (some j) / (1 - 1 / 2)) else 0) ^ 2 / (2 * z h ^ 2) := by
  have h1 : ∑ c ∈ S, threshold group x z c = ∑ c, if c ∈ S then threshold group x z c else 0 := by
    rw [Finset.sum_ite_mem, Finset.univ_inter]
  rw [h1, Fintype.sum_option]
  congr 1
  rw [← Finset.sum_fiberwise Finset.univ group]
  refine Finset.sum_congr rfl fun h _ => ?_
  rw [Real.sq_sqrt (Finset.sum_nonneg fun j _ => by split_ifs <;> positivity), Finset.sum_div]
  refine Finset.sum_congr rfl fun j hj => ?_
  rw [(Finset.mem_filter.1 hj).2.symm]
  split_ifs
  · simp only [threshold]
    congr 2
    ring
  · simp

/-- Tastes of nested logit models with nesting parameters of one half exist. -/
lemma halfNestedTastes_nested (group : J → G) : Spec.NestedTastes group (fun _ => 1 / 2) (halfNestedTastes group) := by
  have hmeas := measurable_mixedTaste group
  have hprob : IsProbabilityMeasure (halfNestedTastes group) := Measure.isProbabilityMeasure_map hmeas.aemeasurable
  refine ⟨hprob, fun S x => ?_⟩
  have hset : MeasurableSet {taste : Option J → ℝ | ∀ c ∈ S, taste c ≤ x c} := by
    have : {taste : Option J → ℝ | ∀ c ∈ S, taste c ≤ x c} = ⋂ c ∈ S, {taste | taste c ≤ x c} := by
      ext; simp only [mem_ofPred_eq, mem_iInter]
    rw [this]
    exact Finset.measurableSet_biInter _ fun c _ => measurableSet_le (by fun_prop) (by fun_prop)
  rw [Measure.real, halfNestedTastes, Measure.map_apply hmeas hset, Measure.prod_apply (hmeas hset)]
  have hz : ∀ᵐ z ∂(Measure.pi fun _ : G => halfNormal), ∀ h, 0 < z h := by
    rw [ae_all_iff]
    exact fun h => (measurePreserving_eval (fun _ : G => halfNormal) h).quasiMeasurePreserving.ae halfNormal_pos
  have he : ∀ᵐ e ∂(Measure.pi fun _ : Option J => expMeasure 1), ∀ c, 0 < e c := by
    rw [ae_all_iff]
    exact fun c => (measurePreserving_eval (fun _ : Option J => expMeasure 1) c).quasiMeasurePreserving.ae expMeasure_pos
  set I : G → ℝ := fun h => Real.sqrt (∑ j with group j = h, if some j ∈ S then Real.exp (-x (some j) / (1 - 1 / 2)) else 0) with hI
  have hsection : ∀ᵐ z ∂(Measure.pi fun _ : G => halfNormal), (Measure.pi fun _ : Option J => expMeasure 1)
      (Prod.mk z ⁻¹' (mixedTaste group ⁻¹' {taste | ∀ c ∈ S, taste c ≤ x c})) =
      ENNReal.ofReal (Real.exp (-if none ∈ S then Real.exp (-x none) else 0)) *
        ∏ h, ENNReal.ofReal (Real.exp (-(I h ^ 2 / (2 * z h ^ 2)))) := by
    filter_upwards [hz] with z hz
    have h1 : (Measure.pi fun _ : Option J => expMeasure 1)
        (Prod.mk z ⁻¹' (mixedTaste group ⁻¹' {taste | ∀ c ∈ S, taste c ≤ x c})) =
        (Measure.pi fun _ : Option J => expMeasure 1) ((S : Set (Option J)).pi fun c => Ici (threshold group x z c)) := by
      refine measure_congr ?_
      filter_upwards [he] with e he
      refine propext ?_
      change (∀ c ∈ S, mixedTaste group (z, e) c ≤ x c) ↔ ∀ c ∈ (S : Set (Option J)), threshold group x z c ≤ e c
      exact forall_congr' fun c => imp_congr_right fun _ => mixedTaste_le group x z hz e c (he c)
    rw [h1, Measure.pi_pi_finset]
    simp only [expMeasure_Ici _ (threshold_nonneg group x z _)]
    rw [← ENNReal.ofReal_prod_of_nonneg fun _ _ => (Real.exp_pos _).le, ← Real.exp_sum, Finset.sum_neg_distrib, sum_threshold,
      ← ENNReal.ofReal_prod_of_nonneg fun _ _ => (Real.exp_pos _).le, ← ENNReal.ofReal_mul (Real.exp_pos _).le, ← Real.exp_sum,
      ← Real.exp_add, neg_add, Finset.sum_neg_distrib]
  rw [lintegral_congr_ae hsection, lintegral_const_mul _ (by fun_prop)]
  have hprod : ∫⁻ z, ∏ h, ENNReal.ofReal (Real.exp (-(I h ^ 2 / (2 * z h ^ 2)))) ∂(Measure.pi fun _ : G => halfNormal) =
      ∏ h, ENNReal.ofReal (Real.exp (-I h)) := by
    have hind := iIndepFun_pi (μ := fun _ : G => halfNormal)
      (X := fun h (z : ℝ) => ENNReal.ofReal (Real.exp (-(I h ^ 2 / (2 * z ^ 2))))) (fun h => by fun_prop)
    rw [lintegral_prod_eq_prod_lintegral_of_indepFun Finset.univ _ hind (fun h => by fun_prop)]
    refine Finset.prod_congr rfl fun h _ => ?_
    rw [← lintegral_halfNormal (I h) (Real.sqrt_nonneg _)]
    exact (measurePreserving_eval (fun _ : G => halfNormal) h).lintegral_comp
      (f := fun z => ENNReal.ofReal (Real.exp (-(I h ^ 2 / (2 * z ^ 2))))) (by fun_prop)
  rw [hprod, ← ENNReal.ofReal_prod_of_nonneg fun _ _ => (Real.exp_pos _).le, ← ENNReal.ofReal_mul (Real.exp_pos _).le,
    ENNReal.toReal_ofReal (by positivity), ← Real.exp_sum, ← Real.exp_add]
  congr 1
  unfold Spec.nestedGenerator
  rw [neg_add, Finset.sum_neg_distrib]
  congr 2
  refine Finset.sum_congr rfl fun h _ => ?_
  simp only [hI]
  rw [Real.sqrt_eq_rpow]
  norm_num

end Pyblp
