import Verif.Props.BootstrapSample
import Verif.Spec.QuasiRandom

/-!
# Uniform variables that are transformed by the normal quantile function
-/

set_option linter.unusedSectionVars false

open MeasureTheory ProbabilityTheory Pyblp.Bootstrapping

namespace Pyblp

lemma phi_pos (c : ℝ) : 0 < phi c := lt_of_le_of_lt measureReal_nonneg (strictMono_phi (sub_one_lt c))

lemma phi_lt_one (c : ℝ) : phi c < 1 := lt_of_lt_of_le (strictMono_phi (lt_add_one c)) measureReal_le_one

lemma quantile_le_iff {ppf : ℝ → ℝ} (h : Spec.NormalQuantile ppf) {u : ℝ} (h0 : 0 < u) (h1 : u < 1) (c : ℝ) : ppf u ≤ c ↔ u ≤ phi c := by
  have e : phi (ppf u) = u := h u h0 h1
  conv_rhs => rw [← e]
  exact strictMono_phi.le_iff_le.symm

lemma quantile_monotoneOn {ppf : ℝ → ℝ} (h : Spec.NormalQuantile ppf) : MonotoneOn ppf (Set.Ioo 0 1) := by
  intro u hu v hv huv
  rw [quantile_le_iff h hu.1 hu.2]
  exact huv.trans (le_of_eq (h v hv.1 hv.2).symm)

lemma restrict_Ico : volume.restrict (Set.Ico (0 : ℝ) 1) = volume.restrict (Set.Ioo (0 : ℝ) 1) := Measure.restrict_congr_set Ioo_ae_eq_Ico.symm

lemma quantile_aemeasurable {ppf : ℝ → ℝ} (h : Spec.NormalQuantile ppf) : AEMeasurable ppf (volume.restrict (Set.Ico (0 : ℝ) 1)) := by
  rw [restrict_Ico]
  exact aemeasurable_restrict_of_monotoneOn measurableSet_Ioo (quantile_monotoneOn h)

/-- Quantiles of a uniform variable are standard normal. -/
lemma map_quantile {ppf : ℝ → ℝ} (h : Spec.NormalQuantile ppf) : (volume.restrict (Set.Ico (0 : ℝ) 1)).map ppf = gaussianReal 0 1 := by
  have hm := quantile_aemeasurable h
  have : IsProbabilityMeasure (volume.restrict (Set.Ico (0 : ℝ) 1)) := ⟨by simp⟩
  have := Measure.isProbabilityMeasure_map hm
  refine Measure.ext_of_Iic _ _ fun c => ?_
  rw [Measure.map_apply_of_aemeasurable hm measurableSet_Iic, restrict_Ico, Measure.restrict_apply₀']
  · have e : ppf ⁻¹' Set.Iic c ∩ Set.Ioo 0 1 = Set.Ioc 0 (phi c) := by
      ext u
      constructor
      · rintro ⟨hu, h0, h1⟩
        exact ⟨h0, (quantile_le_iff h h0 h1 c).mp hu⟩
      · rintro ⟨h0, hu⟩
        have h1 := lt_of_le_of_lt hu (phi_lt_one c)
        exact ⟨(quantile_le_iff h h0 h1 c).mpr hu, h0, h1⟩
    rw [e, Real.volume_Ioc, sub_zero, phi, ofReal_measureReal]
  · exact measurableSet_Ioo.nullMeasurableSet

lemma map_quantiles {d : ℕ} {ppf : ℝ → ℝ} (h : Spec.NormalQuantile ppf) :
    AEMeasurable (fun (y : Fin d → ℝ) j => ppf (y j)) (Spec.uniformCube d) ∧
      (Spec.uniformCube d).map (fun (y : Fin d → ℝ) j => ppf (y j)) = Spec.normalNodes d := by
  have : IsProbabilityMeasure (volume.restrict (Set.Ico (0 : ℝ) 1)) := ⟨by simp⟩
  have : ∀ i : Fin d, SigmaFinite ((volume.restrict (Set.Ico (0 : ℝ) 1)).map ppf) := fun i => by
    rw [map_quantile h]; infer_instance
  constructor
  · refine aemeasurable_pi_lambda _ fun j => ?_
    exact (quantile_aemeasurable h).comp_quasiMeasurePreserving (Measure.quasiMeasurePreserving_eval (fun _ : Fin d => volume.restrict (Set.Ico (0 : ℝ) 1)) j)
  · rw [Spec.uniformCube, Spec.normalNodes, Measure.pi_map_pi (fun _ => quantile_aemeasurable h)]
    simp only [map_quantile h]

lemma exists_quantile : ∃ ppf, Spec.NormalQuantile ppf := by
  classical
  refine ⟨fun u => if h : 0 < u ∧ u < 1 then (exists_phi h.1 h.2).choose else 0, fun u h0 h1 => ?_⟩
  simp only [h0, h1, and_self, dif_pos]
  exact (exists_phi h0 h1).choose_spec

end Pyblp
