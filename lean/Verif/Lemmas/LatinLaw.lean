import Verif.Lemmas.NormalQuantile
import Verif.Model.QuasiRandom
import Mathlib.MeasureTheory.Measure.Lebesgue.Basic
import Mathlib.GroupTheory.Perm.Basic

/-!
# Distributions of samples from Latin Hypercube Sampling
-/

set_option linter.unusedSectionVars false

open MeasureTheory ProbabilityTheory

namespace Pyblp

/-- Strata, each of which has the same weight, make up the unit interval. -/
lemma strata_sum {n : ℕ} (hn : 0 < n) :
    ∑ k : Fin n, (n : ENNReal)⁻¹ • (volume.restrict (Set.Ico (0 : ℝ) 1)).map (fun u => (((k : ℕ) : ℝ) + u) / n) = volume.restrict (Set.Ico (0 : ℝ) 1) := by
  have hn' : (0 : ℝ) < n := by exact_mod_cast hn
  have hmeas : ∀ k : Fin n, Measurable fun u : ℝ => (((k : ℕ) : ℝ) + u) / n := fun k => (measurable_const.add measurable_id).div_const _
  refine Measure.ext fun A hA => ?_
  rw [Measure.finsetSum_apply, Measure.restrict_apply hA]
  have hterm : ∀ k : Fin n, ((n : ENNReal)⁻¹ • (volume.restrict (Set.Ico (0 : ℝ) 1)).map (fun u => (((k : ℕ) : ℝ) + u) / n)) A =
      volume (A ∩ Set.Ico (((k : ℕ) : ℝ) / n) ((((k : ℕ) : ℝ) + 1) / n)) := by
    intro k
    rw [Measure.smul_apply, Measure.map_apply (hmeas k) hA, Measure.restrict_apply (hmeas k hA), smul_eq_mul]
    have e : (fun u : ℝ => (((k : ℕ) : ℝ) + u) / n) ⁻¹' A ∩ Set.Ico 0 1 =
        (fun u => ((k : ℕ) : ℝ) + u) ⁻¹' ((fun u => u * (n : ℝ)⁻¹) ⁻¹' (A ∩ Set.Ico (((k : ℕ) : ℝ) / n) ((((k : ℕ) : ℝ) + 1) / n))) := by
      ext u
      simp only [Set.mem_inter_iff, Set.mem_preimage, Set.mem_Ico, ← div_eq_mul_inv, div_le_div_iff_of_pos_right hn', div_lt_div_iff_of_pos_right hn',
        le_add_iff_nonneg_right, add_lt_add_iff_left]
    rw [e, measure_preimage_add, Real.volume_preimage_mul_right (inv_ne_zero hn'.ne'), inv_inv, abs_of_pos hn', ← mul_assoc, ENNReal.ofReal_natCast,
      ENNReal.inv_mul_cancel (by exact_mod_cast hn.ne') (ENNReal.natCast_ne_top n), one_mul]
  rw [Finset.sum_congr rfl fun k _ => hterm k, ← tsum_fintype (L := .unconditional _), ← measure_iUnion]
  · congr 1
    ext u
    simp only [Set.mem_iUnion, Set.mem_inter_iff, exists_and_left, and_congr_right_iff]
    intro _
    constructor
    · rintro ⟨k, h1, h2⟩
      have h3 : ((k : ℕ) : ℝ) + 1 ≤ n := by exact_mod_cast k.2
      exact ⟨le_trans (by positivity) h1, lt_of_lt_of_le h2 ((div_le_one hn').mpr h3)⟩
    · rintro ⟨h0, h1⟩
      have h2 : ⌊u * n⌋₊ < n := by
        rw [Nat.floor_lt (by positivity)]
        nlinarith
      refine ⟨⟨⌊u * n⌋₊, h2⟩, ?_, ?_⟩
      · rw [div_le_iff₀ hn']
        exact Nat.floor_le (by positivity)
      · rw [lt_div_iff₀ hn']
        exact Nat.lt_floor_add_one _
  · intro k k' hk
    refine Set.disjoint_left.mpr fun u hu hu' => hk ?_
    obtain ⟨-, h1, h2⟩ := hu
    obtain ⟨-, h3, h4⟩ := hu'
    rw [div_le_iff₀ hn'] at h1 h3
    rw [lt_div_iff₀ hn'] at h2 h4
    have h5 : ((k : ℕ) : ℝ) < (k' : ℕ) + 1 := lt_of_le_of_lt h1 h4
    have h6 : ((k' : ℕ) : ℝ) < (k : ℕ) + 1 := lt_of_le_of_lt h3 h2
    have h7 : (k : ℕ) < k' + 1 := by exact_mod_cast h5
    have h8 : (k' : ℕ) < k + 1 := by exact_mod_cast h6
    exact Fin.ext (by omega)
  · exact fun k => hA.inter measurableSet_Ico

lemma row_preimage {Ω : Type} {n : ℕ} (p : Ω → Fin n) (U : Ω → Fin n → ℝ) (A : Set ℝ) : (fun ω => (((p ω : ℕ) : ℝ) + U ω (p ω)) / n) ⁻¹' A =
    ⋃ k, p ⁻¹' {k} ∩ (fun ω => U ω k) ⁻¹' ((fun u => (((k : ℕ) : ℝ) + u) / n) ⁻¹' A) := by
  ext ω
  simp

lemma row_measurable {Ω : Type} [MeasurableSpace Ω] {n : ℕ} {p : Ω → Fin n} (hp : Measurable p) {U : Ω → Fin n → ℝ} (hU : Measurable U) :
    Measurable fun ω => (((p ω : ℕ) : ℝ) + U ω (p ω)) / n := by
  intro A hA
  rw [row_preimage]
  exact MeasurableSet.iUnion fun k => (hp (measurableSet_singleton k)).inter
    (((measurable_pi_apply k).comp hU) (((measurable_const.add measurable_id).div_const _) hA))

/-- A row that is equally likely to be in any stratum. -/
lemma row_law {Ω : Type} [MeasurableSpace Ω] {P : Measure Ω} [IsProbabilityMeasure P] {n : ℕ} (hn : 0 < n) {p : Ω → Fin n} (hp : Measurable p)
    (hlikely : ∀ k, P (p ⁻¹' {k}) = (n : ENNReal)⁻¹) {U : Ω → Fin n → ℝ} (hU : Measurable U)
    (hlaw : ∀ k, P.map (fun ω => U ω k) = volume.restrict (Set.Ico (0 : ℝ) 1)) (hind : IndepFun p U P) :
    P.map (fun ω => (((p ω : ℕ) : ℝ) + U ω (p ω)) / n) = volume.restrict (Set.Ico (0 : ℝ) 1) := by
  have hUk : ∀ k, Measurable fun ω => U ω k := fun k => (measurable_pi_apply k).comp hU
  have hk : ∀ k : Fin n, Measurable fun u : ℝ => (((k : ℕ) : ℝ) + u) / n := fun k => (measurable_const.add measurable_id).div_const _
  have hm := row_measurable hp hU
  rw [← strata_sum hn]
  refine Measure.ext fun A hA => ?_
  rw [Measure.map_apply hm hA, row_preimage, measure_iUnion, tsum_fintype, Measure.finsetSum_apply]
  · refine Finset.sum_congr rfl fun k _ => ?_
    have hi : IndepFun p (fun ω => U ω k) P := hind.comp measurable_id (measurable_pi_apply k)
    rw [hi.measure_inter_preimage_eq_mul _ _ (measurableSet_singleton k) (hk k hA), hlikely, Measure.smul_apply, smul_eq_mul, Measure.map_apply (hk k) hA,
      ← hlaw k, Measure.map_apply (hUk k) (hk k hA)]
  · intro k k' hkk
    refine Set.disjoint_left.mpr fun ω h1 h2 => hkk ?_
    exact (Set.mem_singleton_iff.mp h1.1).symm.trans (Set.mem_singleton_iff.mp h2.1)
  · exact fun k => (hp (measurableSet_singleton k)).inter (hUk k (hk k hA))

lemma perm_count {n : ℕ} (i k : Fin n) : n * (Finset.univ.filter fun σ : Equiv.Perm (Fin n) => σ i = k).card = n.factorial := by
  classical
  have hsame : ∀ k', (Finset.univ.filter fun σ : Equiv.Perm (Fin n) => σ i = k').card = (Finset.univ.filter fun σ : Equiv.Perm (Fin n) => σ i = k).card := by
    intro k'
    refine Finset.card_bij (fun σ _ => Equiv.swap k k' * σ) ?_ ?_ ?_
    · intro σ hσ
      simp only [Finset.mem_filter, Finset.mem_univ, true_and] at hσ ⊢
      rw [Equiv.Perm.mul_apply, hσ, Equiv.swap_apply_right]
    · intro σ _ τ _ h
      exact mul_left_cancel h
    · intro τ hτ
      simp only [Finset.mem_filter, Finset.mem_univ, true_and] at hτ
      refine ⟨Equiv.swap k k' * τ, ?_, ?_⟩
      · simp only [Finset.mem_filter, Finset.mem_univ, true_and]
        rw [Equiv.Perm.mul_apply, hτ, Equiv.swap_apply_left]
      · rw [← mul_assoc, Equiv.swap_mul_self, one_mul]
  have h := Finset.card_eq_sum_card_fiberwise (s := (Finset.univ : Finset (Equiv.Perm (Fin n)))) (t := Finset.univ) (f := fun σ => σ i) (fun _ _ => Finset.mem_coe.mpr (Finset.mem_univ _))
  rw [Finset.card_univ, Fintype.card_perm, Fintype.card_fin, Finset.sum_congr rfl fun k' _ => hsame k', Finset.sum_const, Finset.card_univ, Fintype.card_fin,
    smul_eq_mul] at h
  exact h.symm

section
variable {Ω : Type} [MeasurableSpace Ω] {P : Measure Ω} [IsProbabilityMeasure P] {d n : ℕ} {permutations : Ω → Fin d → Fin n → Fin n}
  {uniform : Ω → Fin d → Fin n → ℝ}

/-- Permutations that are equally likely are all that can be drawn. -/
lemma permutation_ae (h : Spec.LatinDraws P permutations uniform) (j : Fin d) : ∀ᵐ ω ∂P, ∃ σ : Equiv.Perm (Fin n), permutations ω j = σ := by
  classical
  have hset : {ω | ∃ σ : Equiv.Perm (Fin n), permutations ω j = σ} = ⋃ σ : Equiv.Perm (Fin n), {ω | permutations ω j = σ} := by
    ext ω
    simp
  have hmeas : ∀ σ : Equiv.Perm (Fin n), MeasurableSet {ω | permutations ω j = σ} := fun σ => h.permutations_measurable j (measurableSet_singleton _)
  have hreal : P.real {ω | ∃ σ : Equiv.Perm (Fin n), permutations ω j = σ} = 1 := by
    rw [hset, measureReal_iUnion_fintype]
    · rw [Finset.sum_congr rfl fun σ _ => h.equally_likely j σ, Finset.sum_const, Finset.card_univ, Fintype.card_perm, Fintype.card_fin, nsmul_eq_mul]
      field_simp
    · intro σ τ hστ
      refine Set.disjoint_left.mpr fun ω h1 h2 => hστ ?_
      exact DFunLike.coe_injective (h1.symm.trans h2)
    · exact hmeas
  refine (mem_ae_iff_prob_eq_one (by rw [hset]; exact MeasurableSet.iUnion hmeas)).mpr ?_
  rw [← ofReal_measureReal, hreal, ENNReal.ofReal_one]

/-- Each row of a permutation that is equally likely to be any is equally likely to be any row. -/
lemma likely_row (h : Spec.LatinDraws P permutations uniform) (j : Fin d) (i k : Fin n) : P ((fun ω => permutations ω j i) ⁻¹' {k}) = (n : ENNReal)⁻¹ := by
  classical
  have hmeas : ∀ σ : Equiv.Perm (Fin n), MeasurableSet {ω | permutations ω j = σ} := fun σ => h.permutations_measurable j (measurableSet_singleton _)
  have hn : (0 : ℝ) < n := by exact_mod_cast (Nat.zero_le _).trans_lt k.2
  have hae : ((fun ω => permutations ω j i) ⁻¹' {k} : Set Ω) =ᵐ[P]
      ⋃ σ ∈ Finset.univ.filter (fun σ : Equiv.Perm (Fin n) => σ i = k), {ω | permutations ω j = σ} := by
    filter_upwards [permutation_ae h j] with ω hω
    obtain ⟨σ, hσ⟩ := hω
    refine propext ?_
    change permutations ω j i = k ↔ ω ∈ ⋃ σ ∈ Finset.univ.filter (fun σ : Equiv.Perm (Fin n) => σ i = k), {ω | permutations ω j = σ}
    simp only [Finset.mem_filter, Finset.mem_univ, true_and, Set.mem_iUnion, Set.mem_ofPred_eq, exists_prop]
    constructor
    · intro hk
      exact ⟨σ, by rw [← hk, hσ], hσ⟩
    · rintro ⟨τ, hτ, hτ'⟩
      rw [hτ', hτ]
  have hreal : P.real ((fun ω => permutations ω j i) ⁻¹' {k}) = 1 / n := by
    rw [measureReal_congr hae, measureReal_biUnion_finset]
    · rw [Finset.sum_congr rfl fun σ _ => h.equally_likely j σ, Finset.sum_const, nsmul_eq_mul]
      have hc : (n : ℝ) * ((Finset.univ.filter fun σ : Equiv.Perm (Fin n) => σ i = k).card : ℝ) = (n.factorial : ℝ) := by exact_mod_cast perm_count i k
      have hf : (0 : ℝ) < n.factorial := by exact_mod_cast n.factorial_pos
      field_simp
      linarith
    · intro σ _ τ _ hστ
      refine Set.disjoint_left.mpr fun ω h1 h2 => hστ ?_
      exact DFunLike.coe_injective (h1.symm.trans h2)
    · exact fun σ _ => hmeas σ
  rw [← ofReal_measureReal, hreal, one_div, ENNReal.ofReal_inv_of_pos hn, ENNReal.ofReal_natCast]

/-- Samples of a dimension are uniform. -/
lemma sample_law (hn : 0 < n) (h : Spec.LatinDraws P permutations uniform) (j : Fin d) (i : Fin n) :
    P.map (fun ω => lhsSamples (permutations ω j) (uniform ω j) i) = volume.restrict (Set.Ico (0 : ℝ) 1) :=
  row_law hn ((measurable_pi_apply i).comp (h.permutations_measurable j)) (likely_row h j i) (h.uniform_measurable j) (h.uniform_law j)
    ((h.independent j).comp (measurable_pi_apply i) measurable_id)

lemma sample_measurable (h : Spec.LatinDraws P permutations uniform) (j : Fin d) (i : Fin n) :
    Measurable fun ω => lhsSamples (permutations ω j) (uniform ω j) i :=
  row_measurable ((measurable_pi_apply i).comp (h.permutations_measurable j)) (h.uniform_measurable j)

/-- Samples are uniform on the cube. -/
lemma samples_law (hn : 0 < n) (h : Spec.LatinDraws P permutations uniform) (i : Fin n) :
    P.map (fun ω j => lhsSamples (permutations ω j) (uniform ω j) i) = Spec.uniformCube d := by
  have hind : iIndepFun (fun j ω => lhsSamples (permutations ω j) (uniform ω j) i) P :=
    h.dimensions.comp (fun _ x => lhsSamples x.1 x.2 i) fun _ => row_measurable ((measurable_pi_apply i).comp measurable_fst) measurable_snd
  rw [hind.map_fun_eq_pi_map fun j => (sample_measurable h j i).aemeasurable]
  simp only [sample_law hn h]

end

end Pyblp
