import Verif.Tactics
import Mathlib.Analysis.Calculus.Deriv.MeanValue
import Mathlib.Analysis.Calculus.Deriv.Pow
import Mathlib.Analysis.Calculus.LocalExtr.Basic
import Mathlib.Analysis.Normed.Module.FiniteDimension

/-! Second order conditions for maxima on a subspace. -/

namespace Pyblp

variable {E : Type} [NormedAddCommGroup E] [NormedSpace ℝ E] {f : E → ℝ} {f' : E → E →L[ℝ] ℝ} {f'' : E →L[ℝ] E →L[ℝ] ℝ} {x : E}

lemma hasDerivAt_line (hf : ∀ y, HasFDerivAt f (f' y) y) (v : E) (t : ℝ) : HasDerivAt (fun t : ℝ => f (x + t • v)) (f' (x + t • v) v) t := by
  have h1 : HasDerivAt (fun t : ℝ => x + t • v) v t := by
    simpa using ((hasDerivAt_id t).smul_const v).const_add x
  exact (hf (x + t • v)).comp_hasDerivAt t h1

/-- Sufficient: where the derivative is zero and the second derivative negative, small moves lower the value. -/
lemma second_order_sufficient [FiniteDimensional ℝ E] (V : Submodule ℝ E) (hf : ∀ y, HasFDerivAt f (f' y) y) (hf' : HasFDerivAt f' f'' x)
    (h1 : ∀ v ∈ V, f' x v = 0) (h2 : ∀ v ∈ V, v ≠ 0 → f'' v v < 0) : ∃ ε > 0, ∀ v ∈ V, ‖v‖ < ε → v ≠ 0 → f (x + v) < f x := by
  by_cases hne : ∃ v ∈ V, v ≠ 0
  swap
  · push Not at hne
    exact ⟨1, one_pos, fun v hv _ h0 => absurd (hne v hv) h0⟩
  obtain ⟨w, hwV, hw⟩ := hne
  have := FiniteDimensional.proper ℝ E
  -- the second derivative is bounded away from zero on the unit sphere
  obtain ⟨l, hl, hbound⟩ : ∃ l > 0, ∀ v ∈ V, f'' v v ≤ -(l * ‖v‖ ^ 2) := by
    have hc : IsCompact (Metric.sphere (0 : E) 1 ∩ (V : Set E)) := (isCompact_sphere 0 1).inter_right V.closed_of_finiteDimensional
    have hn : (Metric.sphere (0 : E) 1 ∩ (V : Set E)).Nonempty :=
      ⟨(‖w‖⁻¹ : ℝ) • w, by simp [norm_smul, inv_mul_cancel₀ (norm_ne_zero_iff.mpr hw)], V.smul_mem _ hwV⟩
    have hcont : Continuous fun v => f'' v v := f''.continuous.clm_apply continuous_id
    obtain ⟨u, hu, hmax⟩ := hc.exists_isMaxOn hn hcont.continuousOn
    have hu0 : u ≠ 0 := by
      rintro rfl
      simpa using hu.1
    refine ⟨-(f'' u u), by linarith [h2 u hu.2 hu0], fun v hv => ?_⟩
    by_cases hv0 : v = 0
    · simp [hv0]
    have hnv := norm_pos_iff.mpr hv0
    have hm := hmax (⟨by simp [norm_smul, inv_mul_cancel₀ hnv.ne'], V.smul_mem (‖v‖⁻¹ : ℝ) hv⟩ : (‖v‖⁻¹ : ℝ) • v ∈ Metric.sphere (0 : E) 1 ∩ (V : Set E))
    simp only [Set.mem_ofPred_eq, map_smul, smul_apply, smul_eq_mul] at hm
    have h3 := mul_le_mul_of_nonneg_left hm (sq_nonneg ‖v‖)
    have h4 : ‖v‖ ^ 2 * (‖v‖⁻¹ * (‖v‖⁻¹ * f'' v v)) = f'' v v := by field_simp
    rw [h4] at h3
    linarith
  -- the derivative is close to linear
  obtain ⟨ε, hε, hclose⟩ := Metric.eventually_nhds_iff.mp (hf'.isLittleO.def (half_pos hl))
  refine ⟨ε, hε, fun v hv hvε hv0 => ?_⟩
  have hnv := norm_pos_iff.mpr hv0
  have hneg : ∀ t ∈ Set.Ioo (0 : ℝ) 1, f' (x + t • v) v < 0 := by
    intro t ht
    have htv : ‖t • v‖ = t * ‖v‖ := by rw [norm_smul, Real.norm_of_nonneg ht.1.le]
    have h3 := hclose (y := x + t • v) (by
      rw [dist_eq_norm, add_sub_cancel_left, htv]
      exact lt_of_le_of_lt (mul_le_of_le_one_left hnv.le ht.2.le) hvε)
    rw [add_sub_cancel_left, htv] at h3
    have h4 := (f' (x + t • v) - f' x - f'' (t • v)).le_of_opNorm_le h3 v
    simp only [sub_apply, h1 v hv, map_smul, smul_apply, smul_eq_mul, sub_zero] at h4
    have h5 := (abs_le.mp h4).2
    have h6 := mul_le_mul_of_nonneg_left (hbound v hv) ht.1.le
    have h7 : 0 < t * (l * ‖v‖ ^ 2) := mul_pos ht.1 (mul_pos hl (pow_pos hnv 2))
    nlinarith
  have hanti : StrictAntiOn (fun t : ℝ => f (x + t • v)) (Set.Icc 0 1) := by
    refine strictAntiOn_of_deriv_neg (convex_Icc 0 1) (fun t _ => (hasDerivAt_line hf v t).continuousAt.continuousWithinAt) fun t ht => ?_
    rw [interior_Icc] at ht
    rw [(hasDerivAt_line hf v t).deriv]
    exact hneg t ht
  have := hanti (Set.left_mem_Icc.mpr zero_le_one) (Set.right_mem_Icc.mpr zero_le_one) zero_lt_one
  simpa using this

/-- Necessary: at a maximum in a direction the derivative is zero and the second derivative is not positive. -/
lemma second_order_necessary (v : E) (hf : ∀ y, HasFDerivAt f (f' y) y) (hf' : HasFDerivAt f' f'' x) (hmax : ∀ t : ℝ, f (x + t • v) ≤ f x) :
    f' x v = 0 ∧ f'' v v ≤ 0 := by
  have hd := hasDerivAt_line (x := x) hf v
  have h0 : f' x v = 0 := by
    have h := hd 0
    rw [zero_smul, add_zero] at h
    refine IsLocalMax.hasDerivAt_eq_zero (Filter.Eventually.of_forall fun t => ?_) h
    simpa using hmax t
  refine ⟨h0, ?_⟩
  by_contra hpos
  push Not at hpos
  have hd2 : HasDerivAt (fun t : ℝ => f' (x + t • v) v) (f'' v v) 0 := by
    have h1 : HasDerivAt (fun t : ℝ => x + t • v) v 0 := by
      simpa using ((hasDerivAt_id (0 : ℝ)).smul_const v).const_add x
    have h2 : HasFDerivAt f' f'' (x + (0 : ℝ) • v) := by simpa using hf'
    have h3 := h2.comp_hasDerivAt 0 h1
    have h4 := ((ContinuousLinearMap.apply ℝ ℝ v).hasFDerivAt (x := f' (x + (0 : ℝ) • v))).comp_hasDerivAt 0 h3
    refine (h4.congr_deriv (by simp)).congr_of_eventuallyEq (Filter.Eventually.of_forall fun t => by simp)
  have hev : ∀ᶠ t in nhdsWithin (0 : ℝ) (Set.Ioi 0), 0 < f' (x + t • v) v := by
    have hs := hd2.tendsto_slope
    have := (hs.mono_left (nhdsWithin_mono _ (fun t (ht : t ∈ Set.Ioi (0 : ℝ)) => (ne_of_gt ht : t ≠ 0)))).eventually (lt_mem_nhds hpos)
    filter_upwards [this, self_mem_nhdsWithin] with t ht htx
    rw [slope_def_field, zero_smul, add_zero, h0, sub_zero, sub_zero] at ht
    exact (div_pos_iff_of_pos_right htx).mp ht
  obtain ⟨u, hu, hpu⟩ := mem_nhdsGT_iff_exists_Ioo_subset.mp hev
  have hu0 : 0 < u := hu
  have hmono : StrictMonoOn (fun t : ℝ => f (x + t • v)) (Set.Icc 0 (u / 2)) := by
    refine strictMonoOn_of_deriv_pos (convex_Icc _ _) (fun t _ => (hd t).continuousAt.continuousWithinAt) fun t ht => ?_
    rw [interior_Icc] at ht
    rw [(hd t).deriv]
    exact hpu ⟨ht.1, by linarith [ht.2]⟩
  have hlt := hmono (Set.left_mem_Icc.mpr (by linarith)) (Set.right_mem_Icc.mpr (by linarith)) (by linarith : (0 : ℝ) < u / 2)
  simp only [zero_smul, add_zero] at hlt
  linarith [hmax (u / 2)]

end Pyblp
