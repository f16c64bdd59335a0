import Mathlib.MeasureTheory.Integral.Bochner.Set
import Verif.Spec.QuasiRandom

/-!
# Averages over points that are spread evenly
-/

open MeasureTheory

namespace Pyblp

variable {d : ℕ} {m : Fin d → ℕ}

lemma box_eq (a : Fin d → ℕ) : Spec.box m a = Set.univ.pi fun j => Set.Ico ((a j : ℝ) / m j) (((a j : ℝ) + 1) / m j) := by
  ext x
  simp [Spec.box, Set.mem_pi]

lemma measurableSet_box (a : Fin d → ℕ) : MeasurableSet (Spec.box m a) := by
  rw [box_eq]
  exact MeasurableSet.univ_pi fun j => measurableSet_Ico

instance : IsProbabilityMeasure (volume.restrict (Set.Ico (0 : ℝ) 1)) := ⟨by simp⟩

lemma box_volume (hm : ∀ j, 0 < m j) (a : ∀ j, Fin (m j)) : (Spec.uniformCube d).real (Spec.box m fun j => a j) = 1 / ∏ j, (m j : ℝ) := by
  rw [box_eq, measureReal_def, Measure.pi_pi, ENNReal.toReal_prod, one_div, ← Finset.prod_inv_distrib]
  refine Finset.prod_congr rfl fun j _ => ?_
  have hm' : (0 : ℝ) < m j := by exact_mod_cast hm j
  have ha : ((a j : ℕ) : ℝ) + 1 ≤ m j := by exact_mod_cast (a j).2
  rw [Measure.restrict_apply measurableSet_Ico, Set.inter_eq_left.mpr (Set.Ico_subset_Ico (by positivity) ((div_le_one hm').mpr ha)), Real.volume_Ico,
    ENNReal.toReal_ofReal (by rw [← sub_div]; apply div_nonneg <;> linarith)]
  field_simp
  ring

lemma box_unique {x : Fin d → ℝ} {a b : Fin d → ℕ} (hm : ∀ j, 0 < m j) (ha : x ∈ Spec.box m a) (hb : x ∈ Spec.box m b) : a = b := by
  funext j
  have hm' : (0 : ℝ) < m j := by exact_mod_cast hm j
  obtain ⟨h1, h2⟩ := ha j
  obtain ⟨h3, h4⟩ := hb j
  have h5 := lt_of_le_of_lt h1 h4
  have h6 := lt_of_le_of_lt h3 h2
  rw [div_lt_div_iff_of_pos_right hm'] at h5 h6
  have h7 : a j < b j + 1 := by exact_mod_cast h5
  have h8 : b j < a j + 1 := by exact_mod_cast h6
  omega

lemma box_exists {x : Fin d → ℝ} (hm : ∀ j, 0 < m j) (hx : ∀ j, 0 ≤ x j ∧ x j < 1) : ∃ a : ∀ j, Fin (m j), x ∈ Spec.box m fun j => a j := by
  have hm' : ∀ j, (0 : ℝ) < m j := fun j => by exact_mod_cast hm j
  refine ⟨fun j => ⟨⌊x j * m j⌋₊, ?_⟩, fun j => ⟨?_, ?_⟩⟩
  · rw [Nat.floor_lt (mul_nonneg (hx j).1 (hm' j).le)]
    nlinarith [(hx j).2, hm' j]
  · rw [div_le_iff₀ (hm' j)]
    exact Nat.floor_le (mul_nonneg (hx j).1 (hm' j).le)
  · rw [lt_div_iff₀ (hm' j)]
    exact Nat.lt_floor_add_one _

lemma cube_ae : ∀ᵐ x ∂(Spec.uniformCube d), ∀ j, 0 ≤ x j ∧ x j < 1 := by
  rw [ae_all_iff]
  intro j
  have h := (measurePreserving_eval (fun _ : Fin d => volume.restrict (Set.Ico (0 : ℝ) 1)) j).quasiMeasurePreserving.ae
    (ae_restrict_mem (μ := volume) (measurableSet_Ico (a := (0 : ℝ)) (b := 1)))
  exact h.mono fun x hx => hx

lemma integral_boxes (hm : ∀ j, 0 < m j) {f : (Fin d → ℝ) → ℝ} (hf : Integrable f (Spec.uniformCube d)) :
    ∫ x, f x ∂(Spec.uniformCube d) = ∑ a : ∀ j, Fin (m j), ∫ x in Spec.box m (fun j => a j), f x ∂(Spec.uniformCube d) := by
  rw [← integral_iUnion_fintype (fun a => measurableSet_box _) (fun a b hab => Set.disjoint_left.mpr fun x hx hx' => hab (funext fun j =>
    Fin.ext (congrFun (box_unique hm hx hx') j))) fun a => hf.integrableOn]
  rw [setIntegral_eq_integral_of_ae_compl_eq_zero]
  filter_upwards [cube_ae (d := d)] with x hx hnot
  obtain ⟨a, ha⟩ := box_exists hm hx
  exact absurd (Set.mem_iUnion.mpr ⟨a, ha⟩) hnot

/-- Averages of points of which each box has its share, up to one point. -/
lemma box_average (hm : ∀ j, 0 < m j) {S : Finset ℕ} (hS : 0 < S.card) {x : ℕ → Fin d → ℝ} (hx : ∀ i ∈ S, ∀ j, 0 ≤ x i j ∧ x i j < 1)
    [∀ i (a : ∀ j, Fin (m j)), Decidable (x i ∈ Spec.box m fun j => a j)]
    (hcount : ∀ a : ∀ j, Fin (m j), |((S.filter fun i => x i ∈ Spec.box m fun j => a j).card : ℝ) - S.card / ∏ j, (m j : ℝ)| < 1) {f : (Fin d → ℝ) → ℝ}
    (hf : AEStronglyMeasurable f (Spec.uniformCube d)) {B : ℝ} (hB : ∀ y, (∀ j, 0 ≤ y j ∧ y j < 1) → |f y| ≤ B) {osc : (∀ j, Fin (m j)) → ℝ}
    (hosc : ∀ a, ∀ y ∈ Spec.box m (fun j => (a j : ℕ)), ∀ z ∈ Spec.box m (fun j => (a j : ℕ)), |f y - f z| ≤ osc a) :
    |∑ i ∈ S, 1 / (S.card : ℝ) * f (x i) - ∫ y, f y ∂(Spec.uniformCube d)| ≤
      (1 / ∏ j, (m j : ℝ) + 1 / S.card) * ∑ a, osc a + B * (∏ j, (m j : ℝ)) / S.card := by
  set n : ℝ := (S.card : ℝ) with hn
  set M : ℝ := ∏ j, (m j : ℝ) with hM
  have hn0 : 0 < n := by rw [hn]; exact_mod_cast hS
  have hM0 : 0 < M := Finset.prod_pos fun j _ => by exact_mod_cast hm j
  have hcube : ∀ (a : ∀ j, Fin (m j)) y, y ∈ Spec.box m (fun j => (a j : ℕ)) → ∀ j, 0 ≤ y j ∧ y j < 1 := by
    intro a y hy j
    have hm' : (0 : ℝ) < m j := by exact_mod_cast hm j
    have ha : ((a j : ℕ) : ℝ) + 1 ≤ m j := by exact_mod_cast (a j).2
    exact ⟨le_trans (by positivity) (hy j).1, lt_of_lt_of_le (hy j).2 ((div_le_one hm').mpr ha)⟩
  have hint : Integrable f (Spec.uniformCube d) := Integrable.of_bound hf B (by
    filter_upwards [cube_ae (d := d)] with y hy
    exact hB y hy)
  have hosc0 : ∀ a, 0 ≤ osc a := by
    intro a
    have hc : (fun j => ((a j : ℕ) : ℝ) / m j) ∈ Spec.box m (fun j => (a j : ℕ)) := fun j =>
      ⟨le_rfl, (div_lt_div_iff_of_pos_right (by exact_mod_cast hm j)).mpr (lt_add_one _)⟩
    exact (abs_nonneg _).trans (hosc a _ hc _ hc)
  set I : (∀ j, Fin (m j)) → ℝ := fun a => ∫ y in Spec.box m (fun j => (a j : ℕ)), f y ∂(Spec.uniformCube d) with hI
  have hvol : ∀ a : ∀ j, Fin (m j), (Spec.uniformCube d).real (Spec.box m fun j => (a j : ℕ)) = 1 / M := fun a => box_volume hm a
  have hIB : ∀ a, |M * I a| ≤ B := by
    intro a
    have h1 := norm_setIntegral_le_of_norm_le_const (μ := Spec.uniformCube d) (s := Spec.box m fun j => (a j : ℕ)) (f := f) (C := B) (measure_lt_top _ _)
      (fun y hy => hB y (hcube a y hy))
    rw [hvol, Real.norm_eq_abs] at h1
    rw [abs_mul, abs_of_pos hM0]
    calc M * |I a| ≤ M * (B * (1 / M)) := mul_le_mul_of_nonneg_left h1 hM0.le
      _ = B := by field_simp
  have hIosc : ∀ a, ∀ y ∈ Spec.box m (fun j => (a j : ℕ)), |f y - M * I a| ≤ osc a := by
    intro a y hy
    have h1 := norm_setIntegral_le_of_norm_le_const (μ := Spec.uniformCube d) (s := Spec.box m fun j => (a j : ℕ)) (f := fun z => f y - f z) (C := osc a)
      (measure_lt_top _ _) (fun z hz => hosc a y hy z hz)
    rw [integral_sub (integrable_const _) hint.integrableOn, setIntegral_const, hvol, smul_eq_mul, Real.norm_eq_abs] at h1
    have h2 : f y - M * I a = M * (1 / M * f y - I a) := by field_simp
    rw [h2, abs_mul, abs_of_pos hM0]
    calc M * |1 / M * f y - I a| ≤ M * (osc a * (1 / M)) := mul_le_mul_of_nonneg_left h1 hM0.le
      _ = osc a := by field_simp
  have hsum : ∑ i ∈ S, 1 / n * f (x i) = ∑ a : ∀ j, Fin (m j), ∑ i ∈ S.filter (fun i => x i ∈ Spec.box m fun j => (a j : ℕ)), 1 / n * f (x i) := by
    simp only [Finset.sum_filter]
    rw [Finset.sum_comm]
    refine Finset.sum_congr rfl fun i hi => ?_
    obtain ⟨a, ha⟩ := box_exists hm (hx i hi)
    rw [Finset.sum_eq_single a, if_pos ha]
    · intro b _ hb
      rw [if_neg fun hb' => hb (funext fun j => Fin.ext (congrFun (box_unique hm hb' ha) j))]
    · simp
  rw [hsum, integral_boxes hm hint, ← Finset.sum_sub_distrib]
  have hterm : ∀ a : ∀ j, Fin (m j), |∑ i ∈ S.filter (fun i => x i ∈ Spec.box m fun j => (a j : ℕ)), 1 / n * f (x i) - I a| ≤
      (1 / M + 1 / n) * osc a + B / n := by
    intro a
    set k : ℝ := ((S.filter fun i => x i ∈ Spec.box m fun j => (a j : ℕ)).card : ℝ) with hk
    have hka : |k - n / M| < 1 := hcount a
    have h1 : ∑ i ∈ S.filter (fun i => x i ∈ Spec.box m fun j => (a j : ℕ)), 1 / n * f (x i) - I a =
        ∑ i ∈ S.filter (fun i => x i ∈ Spec.box m fun j => (a j : ℕ)), 1 / n * (f (x i) - M * I a) + (k - n / M) / n * (M * I a) := by
      simp only [mul_sub, Finset.sum_sub_distrib, Finset.sum_const, nsmul_eq_mul, ← hk]
      field_simp
      ring
    have h2 : |∑ i ∈ S.filter (fun i => x i ∈ Spec.box m fun j => (a j : ℕ)), 1 / n * (f (x i) - M * I a)| ≤ k * (1 / n * osc a) := by
      refine (Finset.abs_sum_le_sum_abs _ _).trans ((Finset.sum_le_card_nsmul _ _ (1 / n * osc a) fun i hi => ?_).trans (by rw [nsmul_eq_mul]))
      rw [abs_mul, abs_of_pos (by positivity)]
      exact mul_le_mul_of_nonneg_left (hIosc a _ (Finset.mem_filter.mp hi).2) (by positivity)
    have h3 : |(k - n / M) / n * (M * I a)| ≤ 1 / n * B := by
      rw [abs_mul, abs_div, abs_of_pos hn0]
      exact mul_le_mul ((div_le_div_iff_of_pos_right hn0).mpr hka.le) (hIB a) (abs_nonneg _) (by positivity)
    have h4 : k * (1 / n * osc a) ≤ (1 / M + 1 / n) * osc a := by
      have h5 : k ≤ n / M + 1 := by linarith [(abs_lt.mp hka).2]
      have h6 : k * (1 / n) ≤ 1 / M + 1 / n := by
        calc k * (1 / n) ≤ (n / M + 1) * (1 / n) := mul_le_mul_of_nonneg_right h5 (by positivity)
          _ = 1 / M + 1 / n := by field_simp
      calc k * (1 / n * osc a) = k * (1 / n) * osc a := by ring
        _ ≤ _ := mul_le_mul_of_nonneg_right h6 (hosc0 a)
    rw [h1]
    refine (abs_add_le _ _).trans ?_
    have e : B / n = 1 / n * B := by ring
    rw [e]
    exact add_le_add (h2.trans h4) h3
  refine (Finset.abs_sum_le_sum_abs _ _).trans ((Finset.sum_le_sum fun a _ => hterm a).trans ?_)
  rw [Finset.sum_add_distrib, ← Finset.mul_sum, Finset.sum_const, Finset.card_univ, Fintype.card_pi, nsmul_eq_mul]
  simp only [Fintype.card_fin]
  push_cast
  rw [← hM]
  refine le_of_eq ?_
  ring

end Pyblp
