import Verif.Lemmas.LatinLaw
import Mathlib.Probability.Moments.Variance
import Mathlib.Algebra.Order.Chebyshev

/-!
# C140: averages over nodes from Latin Hypercube Sampling are unbiased and as precise as Monte Carlo ones for additive functions
-/

set_option linter.unusedSectionVars false

open MeasureTheory ProbabilityTheory

namespace Pyblp

section
variable {Ω : Type} [MeasurableSpace Ω] {P : Measure Ω} [IsProbabilityMeasure P] {d size : ℕ} {permutations : Ω → Fin d → Fin size → Fin size}
  {uniform : Ω → Fin d → Fin size → ℝ} {ppf : ℝ → ℝ}

/-- **C140.** Each row of nodes is distributed as independent standard normal variables, for Latin Hypercube Sampling and for its modified version. -/
theorem C140_nodes (hppf : Spec.NormalQuantile ppf) (hsize : 0 < size) (h : Spec.LatinDraws P permutations uniform) (i : Fin size) :
    AEMeasurable (fun ω => lhsNode ppf (permutations ω) (uniform ω) i) P ∧
      P.map (fun ω => lhsNode ppf (permutations ω) (uniform ω) i) = Spec.normalNodes d := by
  have hm := map_quantiles (d := d) hppf
  have hs : Measurable fun ω j => lhsSamples (permutations ω j) (uniform ω j) i := measurable_pi_lambda _ fun j => sample_measurable h j i
  rw [← samples_law hsize h i] at hm
  refine ⟨hm.1.comp_measurable hs, ?_⟩
  rw [← hm.2, AEMeasurable.map_map_of_aemeasurable hm.1 hs.aemeasurable]
  rfl

/-- **C140.** The expected value of an average over nodes with integration weights is the expected value over independent standard normal variables. -/
theorem C140_unbiased (hppf : Spec.NormalQuantile ppf) (hsize : 0 < size) (h : Spec.LatinDraws P permutations uniform) {g : (Fin d → ℝ) → ℝ}
    (hg : Integrable g (Spec.normalNodes d)) :
    ∫ ω, ∑ i, equalWeight size * g (lhsNode ppf (permutations ω) (uniform ω) i) ∂P = ∫ ν, g ν ∂(Spec.normalNodes d) := by
  have hi : ∀ i, Integrable (fun ω => g (lhsNode ppf (permutations ω) (uniform ω) i)) P := by
    intro i
    obtain ⟨hm, he⟩ := C140_nodes hppf hsize h i
    rw [← he] at hg
    exact hg.comp_aemeasurable hm
  have he : ∀ i, ∫ ω, g (lhsNode ppf (permutations ω) (uniform ω) i) ∂P = ∫ ν, g ν ∂(Spec.normalNodes d) := by
    intro i
    obtain ⟨hm, he⟩ := C140_nodes hppf hsize h i
    have hg' := hg.aestronglyMeasurable
    rw [← he] at hg'
    rw [← integral_map hm hg', he]
  rw [integral_finsetSum _ fun i _ => (hi i).const_mul _]
  simp only [integral_const_mul, he, Finset.sum_const, Finset.card_univ, Fintype.card_fin, nsmul_eq_mul, equalWeight]
  have : (size : ℝ) ≠ 0 := by exact_mod_cast hsize.ne'
  field_simp

/-- Averages over strata vary at most as much as averages over independent draws. -/
lemma strata_variance (hsize : 0 < size) {U : Ω → Fin size → ℝ} (hU : Measurable U)
    (hlaw : ∀ k, P.map (fun ω => U ω k) = volume.restrict (Set.Ico (0 : ℝ) 1)) (hind : iIndepFun (fun k ω => U ω k) P) {Q : ℝ → ℝ}
    (hQ : MemLp Q 2 (volume.restrict (Set.Ico (0 : ℝ) 1))) :
    (∀ k : Fin size, MemLp (fun ω => Q ((((k : ℕ) : ℝ) + U ω k) / size)) 2 P) ∧
    Var[fun ω => ∑ k : Fin size, equalWeight size * Q ((((k : ℕ) : ℝ) + U ω k) / size); P] ≤ Var[Q; volume.restrict (Set.Ico (0 : ℝ) 1)] / size := by
  have : IsProbabilityMeasure (volume.restrict (Set.Ico (0 : ℝ) 1)) := ⟨by simp⟩
  have hn : (0 : ℝ) < size := by exact_mod_cast hsize
  have hUk : ∀ k, Measurable fun ω => U ω k := fun k => (measurable_pi_apply k).comp hU
  have hk : ∀ k : Fin size, Measurable fun u : ℝ => (((k : ℕ) : ℝ) + u) / size := fun k => (measurable_const.add measurable_id).div_const _
  set μ : Fin size → Measure ℝ := fun k => (volume.restrict (Set.Ico (0 : ℝ) 1)).map (fun u => (((k : ℕ) : ℝ) + u) / size) with hμ
  have hsum := strata_sum hsize
  have hle : ∀ k, μ k ≤ (size : ENNReal) • volume.restrict (Set.Ico (0 : ℝ) 1) := by
    intro k
    have h1 : (size : ENNReal)⁻¹ • μ k ≤ volume.restrict (Set.Ico (0 : ℝ) 1) := by
      rw [← hsum]
      exact Finset.single_le_sum (f := fun k => (size : ENNReal)⁻¹ • μ k) (fun _ _ => Measure.zero_le _) (Finset.mem_univ k)
    intro A
    have h2 := h1 A
    rw [Measure.smul_apply, smul_eq_mul] at h2 ⊢
    calc μ k A = (size : ENNReal) * ((size : ENNReal)⁻¹ * μ k A) := by
          rw [← mul_assoc, ENNReal.mul_inv_cancel (by exact_mod_cast hsize.ne') (ENNReal.natCast_ne_top _), one_mul]
      _ ≤ _ := by gcongr
  have hQk : ∀ k, MemLp Q 2 (μ k) := fun k => hQ.of_measure_le_smul (ENNReal.natCast_ne_top _) (hle k)
  have hV : ∀ k : Fin size, P.map (fun ω => (((k : ℕ) : ℝ) + U ω k) / size) = μ k := by
    intro k
    rw [hμ]
    simp only
    rw [← hlaw k, Measure.map_map (hk k) (hUk k)]
    rfl
  have hVm : ∀ k : Fin size, Measurable fun ω => (((k : ℕ) : ℝ) + U ω k) / size := fun k => (hk k).comp (hUk k)
  have hX : ∀ k : Fin size, MemLp (fun ω => Q ((((k : ℕ) : ℝ) + U ω k) / size)) 2 P := by
    intro k
    have h1 := hQk k
    rw [← hV k] at h1
    exact h1.comp_of_map (hVm k).aemeasurable
  have hpm : ∀ k, IsProbabilityMeasure (μ k) := fun k => Measure.isProbabilityMeasure_map (hk k).aemeasurable
  refine ⟨hX, ?_⟩
  have hvar : Var[fun ω => ∑ k : Fin size, equalWeight size * Q ((((k : ℕ) : ℝ) + U ω k) / size); P] =
      ∑ k, equalWeight size ^ 2 * Var[Q; μ k] := by
    have e : (fun ω => ∑ k : Fin size, equalWeight size * Q ((((k : ℕ) : ℝ) + U ω k) / size)) =
        ∑ k : Fin size, fun ω => equalWeight size * Q ((((k : ℕ) : ℝ) + U ω k) / size) := by
      funext ω
      simp
    rw [e, IndepFun.variance_sum]
    · refine Finset.sum_congr rfl fun k _ => ?_
      rw [variance_const_mul, ← hV k, variance_map (by rw [hV k]; exact (hQk k).aestronglyMeasurable.aemeasurable) (hVm k).aemeasurable]
      rfl
    · exact fun k _ => (hX k).const_mul _
    · intro k _ k' _ hkk
      have h1 : IndepFun (fun ω => (((k : ℕ) : ℝ) + U ω k) / size) (fun ω => (((k' : ℕ) : ℝ) + U ω k') / size) P :=
        (hind.indepFun hkk).comp (hk k) (hk k')
      have h2 : ∀ k : Fin size, AEMeasurable (fun v => equalWeight size * Q v) (P.map fun ω => (((k : ℕ) : ℝ) + U ω k) / size) := by
        intro k
        rw [hV k]
        exact (hQk k).aestronglyMeasurable.aemeasurable.const_mul _
      exact h1.comp₀ (hVm k).aemeasurable (hVm k').aemeasurable (h2 k) (h2 k')
  have hmean : ∀ F : ℝ → ℝ, (∀ k, Integrable F (μ k)) → ∑ k, ∫ v, F v ∂(μ k) = size * ∫ v in Set.Ico (0 : ℝ) 1, F v := by
    intro F hF
    rw [← hsum, integral_finsetSum_measure fun k _ => (hF k).smul_measure (by simp [hsize.ne'])]
    simp only [integral_smul_measure, ENNReal.toReal_inv, ENNReal.toReal_natCast, smul_eq_mul, ← Finset.mul_sum]
    rw [← mul_assoc, mul_inv_cancel₀ hn.ne', one_mul]
  rw [hvar, variance_eq_sub hQ, equalWeight, ← Finset.mul_sum, Finset.sum_congr rfl fun k _ => variance_eq_sub (hQk k), Finset.sum_sub_distrib]
  have h1 : ∑ k, ∫ v, (Q ^ 2) v ∂(μ k) = size * ∫ v in Set.Ico (0 : ℝ) 1, (Q ^ 2) v := hmean _ fun k => (hQk k).integrable_sq
  have h2 : ∑ k, ∫ v, Q v ∂(μ k) = size * ∫ v in Set.Ico (0 : ℝ) 1, Q v := hmean _ fun k => (hQk k).integrable one_le_two
  have h3 := sq_sum_le_card_mul_sum_sq (s := Finset.univ) (f := fun k : Fin size => ∫ v, Q v ∂(μ k))
  rw [h2, Finset.card_univ, Fintype.card_fin] at h3
  rw [h1]
  have h4 : (size : ℝ) * (∫ v in Set.Ico (0 : ℝ) 1, Q v) ^ 2 ≤ ∑ k, (∫ v, Q v ∂(μ k)) ^ 2 := by
    have : (size : ℝ) * (size * (∫ v in Set.Ico (0 : ℝ) 1, Q v) ^ 2) ≤ size * ∑ k, (∫ v, Q v ∂(μ k)) ^ 2 := by
      calc _ = (size * ∫ v in Set.Ico (0 : ℝ) 1, Q v) ^ 2 := by ring
        _ ≤ _ := h3
    exact le_of_mul_le_mul_left this hn
  calc (1 / (size : ℝ)) ^ 2 * (size * (∫ v in Set.Ico (0 : ℝ) 1, (Q ^ 2) v) - ∑ k, (∫ v, Q v ∂(μ k)) ^ 2)
      ≤ (1 / (size : ℝ)) ^ 2 * (size * (∫ v in Set.Ico (0 : ℝ) 1, (Q ^ 2) v) - size * (∫ v in Set.Ico (0 : ℝ) 1, Q v) ^ 2) := by
        gcongr
    _ = _ := by field_simp

/-- **C140.** If uniform numbers are also independent, as in the version that is not modified, the variance of an average of an additive function over nodes with
integration weights is at most the variance of an average over as many independent draws from the standard normal distribution. -/
theorem C140_variance (hppf : Spec.NormalQuantile ppf) (hsize : 0 < size) (h : Spec.LatinDraws P permutations uniform)
    (hind : ∀ j, iIndepFun (fun k ω => uniform ω j k) P) {G : Fin d → ℝ → ℝ} (hG : ∀ j, MemLp (G j) 2 (gaussianReal 0 1)) :
    Var[fun ω => ∑ i, equalWeight size * ∑ j, G j (lhsNode ppf (permutations ω) (uniform ω) i j); P] ≤
      Var[fun ν => ∑ j, G j (ν j); Spec.normalNodes d] / size := by
  have hq := quantile_aemeasurable hppf
  have hQ : ∀ j, MemLp (fun u => G j (ppf u)) 2 (volume.restrict (Set.Ico (0 : ℝ) 1)) := by
    intro j
    have h1 := hG j
    rw [← map_quantile hppf] at h1
    exact h1.comp_of_map hq
  have hae : ∀ j, (fun ω => ∑ i, equalWeight size * G j (lhsNode ppf (permutations ω) (uniform ω) i j)) =ᵐ[P]
      fun ω => ∑ k : Fin size, equalWeight size * G j (ppf ((((k : ℕ) : ℝ) + uniform ω j k) / size)) := by
    intro j
    filter_upwards [permutation_ae h j] with ω hω
    obtain ⟨σ, hσ⟩ := hω
    simp only [lhsNode, lhsSamples, hσ]
    exact Equiv.sum_comp σ fun k => equalWeight size * G j (ppf ((((k : ℕ) : ℝ) + uniform ω j k) / size))
  have hs := fun j => strata_variance hsize (h.uniform_measurable j) (h.uniform_law j) (hind j) (hQ j)
  have hmem : ∀ j, MemLp (fun ω => ∑ i, equalWeight size * G j (lhsNode ppf (permutations ω) (uniform ω) i j)) 2 P := by
    intro j
    refine MemLp.ae_eq (hae j).symm (memLp_finsetSum _ fun k _ => ((hs j).1 k).const_mul _)
  have hvar : ∀ j, Var[fun ω => ∑ i, equalWeight size * G j (lhsNode ppf (permutations ω) (uniform ω) i j); P] ≤ Var[G j; gaussianReal 0 1] / size := by
    intro j
    rw [variance_congr (hae j)]
    refine (hs j).2.trans (le_of_eq ?_)
    rw [← map_quantile hppf, variance_map (by rw [map_quantile hppf]; exact (hG j).aestronglyMeasurable.aemeasurable) hq]
    rfl
  have hdims : iIndepFun (fun j ω => ∑ i, equalWeight size * G j (lhsNode ppf (permutations ω) (uniform ω) i j)) P := by
    refine h.dimensions.comp₀ (fun j x => ∑ i, equalWeight size * G j (ppf (lhsSamples x.1 x.2 i)))
      (fun j => ((h.permutations_measurable j).prodMk (h.uniform_measurable j)).aemeasurable) fun j => ?_
    refine Finset.aemeasurable_fun_sum _ fun i _ => AEMeasurable.const_mul ?_ _
    have hrow : Measurable fun x : (Fin size → Fin size) × (Fin size → ℝ) => lhsSamples x.1 x.2 i :=
      row_measurable ((measurable_pi_apply i).comp measurable_fst) measurable_snd
    refine AEMeasurable.comp_measurable (g := fun u => G j (ppf u)) ?_ hrow
    rw [Measure.map_map hrow ((h.permutations_measurable j).prodMk (h.uniform_measurable j))]
    have := sample_law hsize h j i
    change AEMeasurable _ (P.map fun ω => lhsSamples (permutations ω j) (uniform ω j) i)
    rw [this]
    exact (hQ j).aestronglyMeasurable.aemeasurable
  have e1 : (fun ω => ∑ i, equalWeight size * ∑ j, G j (lhsNode ppf (permutations ω) (uniform ω) i j)) =
      ∑ j, fun ω => ∑ i, equalWeight size * G j (lhsNode ppf (permutations ω) (uniform ω) i j) := by
    funext ω
    simp only [Finset.mul_sum, Finset.sum_apply]
    exact Finset.sum_comm
  have e2 : (fun ν : Fin d → ℝ => ∑ j, G j (ν j)) = ∑ j, fun ν : Fin d → ℝ => G j (ν j) := by
    funext ν
    simp
  have hmp : ∀ j : Fin d, MeasurePreserving (fun ν : Fin d → ℝ => ν j) (Spec.normalNodes d) (gaussianReal 0 1) := fun j =>
    measurePreserving_eval (fun _ : Fin d => gaussianReal 0 1) j
  rw [e1, e2, IndepFun.variance_sum (fun j _ => hmem j) fun j _ j' _ hjj => hdims.indepFun hjj,
    IndepFun.variance_sum (X := fun j (ν : Fin d → ℝ) => G j (ν j)) (fun j _ => (hG j).comp_measurePreserving (hmp j))
      fun j _ j' _ hjj => (iIndepFun_pi fun j => (hG j).aestronglyMeasurable.aemeasurable).indepFun hjj, Finset.sum_div]
  refine Finset.sum_le_sum fun j _ => (hvar j).trans (le_of_eq ?_)
  have hv := variance_map (X := G j) (Y := fun ν : Fin d → ℝ => ν j) (μ := Spec.normalNodes d)
    (by rw [(hmp j).map_eq]; exact (hG j).aestronglyMeasurable.aemeasurable) (hmp j).measurable.aemeasurable
  rw [(hmp j).map_eq] at hv
  rw [hv]
  rfl

end

/-- A permutation that is equally likely to be any. -/
noncomputable def anyPermutation (size : ℕ) : Measure (Fin size → Fin size) := ∑ σ : Equiv.Perm (Fin size), (size.factorial : ENNReal)⁻¹ • Measure.dirac (σ : Fin size → Fin size)

lemma anyPermutation_apply (size : ℕ) (σ : Equiv.Perm (Fin size)) : anyPermutation size {(σ : Fin size → Fin size)} = (size.factorial : ENNReal)⁻¹ := by
  classical
  rw [anyPermutation, Measure.finsetSum_apply, Finset.sum_eq_single σ]
  · rw [Measure.smul_apply, Measure.dirac_apply_of_mem (Set.mem_singleton _), smul_eq_mul, mul_one]
  · intro τ _ hτ
    rw [Measure.smul_apply, Measure.dirac_apply' _ (measurableSet_singleton _), Set.indicator_of_notMem, smul_zero]
    exact fun h => hτ (DFunLike.coe_injective h)
  · simp

instance (size : ℕ) : IsProbabilityMeasure (anyPermutation size) := ⟨by
  rw [anyPermutation, Measure.finsetSum_apply]
  simp only [Measure.smul_apply, measure_univ, smul_eq_mul, mul_one, Finset.sum_const, Finset.card_univ, Fintype.card_perm, Fintype.card_fin, nsmul_eq_mul]
  exact ENNReal.mul_inv_cancel (by exact_mod_cast size.factorial_ne_zero) (ENNReal.natCast_ne_top _)⟩

/-- There are random numbers with the distributions that the theorems are about, for each number of dimensions and each size. -/
lemma exists_latin (d size : ℕ) : ∃ (Ω : Type) (_ : MeasurableSpace Ω) (P : Measure Ω) (_ : IsProbabilityMeasure P) (permutations : Ω → Fin d → Fin size → Fin size)
    (uniform : Ω → Fin d → Fin size → ℝ), Spec.LatinDraws P permutations uniform ∧ ∀ j, iIndepFun (fun k ω => uniform ω j k) P := by
  have : IsProbabilityMeasure (volume.restrict (Set.Ico (0 : ℝ) 1)) := ⟨by simp⟩
  let M : Measure ((Fin size → Fin size) × (Fin size → ℝ)) := (anyPermutation size).prod (Measure.pi fun _ => volume.restrict (Set.Ico (0 : ℝ) 1))
  have hM : IsProbabilityMeasure M := inferInstanceAs (IsProbabilityMeasure ((anyPermutation size).prod _))
  have heval : ∀ j, MeasurePreserving (fun ω : Fin d → (Fin size → Fin size) × (Fin size → ℝ) => ω j) (Measure.pi fun _ => M) M := fun j =>
    measurePreserving_eval (fun _ => M) j
  have hfst : MeasurePreserving Prod.fst M (anyPermutation size) := measurePreserving_fst
  have hsnd : MeasurePreserving Prod.snd M (Measure.pi fun _ => volume.restrict (Set.Ico (0 : ℝ) 1)) := measurePreserving_snd
  refine ⟨Fin d → (Fin size → Fin size) × (Fin size → ℝ), inferInstance, Measure.pi fun _ => M, inferInstance, fun ω j => (ω j).1, fun ω j => (ω j).2, ?_, ?_⟩
  · refine ⟨fun j => measurable_fst.comp (measurable_pi_apply j), fun j => measurable_snd.comp (measurable_pi_apply j), fun j σ => ?_, fun j i => ?_, fun j => ?_, ?_⟩
    · have h1 := (hfst.comp (heval j)).measure_preimage (measurableSet_singleton (σ : Fin size → Fin size)).nullMeasurableSet
      rw [anyPermutation_apply] at h1
      rw [measureReal_def]
      refine (congrArg ENNReal.toReal h1).trans ?_
      simp
    · exact ((measurePreserving_eval (fun _ : Fin size => volume.restrict (Set.Ico (0 : ℝ) 1)) i).comp (hsnd.comp (heval j))).map_eq
    · have e1 : (Measure.pi fun _ : Fin d => M).map (fun ω => (ω j).1) = anyPermutation size := (hfst.comp (heval j)).map_eq
      have e2 : (Measure.pi fun _ : Fin d => M).map (fun ω => (ω j).2) = Measure.pi fun _ => volume.restrict (Set.Ico (0 : ℝ) 1) := (hsnd.comp (heval j)).map_eq
      have e3 : (Measure.pi fun _ : Fin d => M).map (fun ω => ((ω j).1, (ω j).2)) = M := (heval j).map_eq
      have m1 : Measurable fun ω : Fin d → (Fin size → Fin size) × (Fin size → ℝ) => (ω j).1 := measurable_fst.comp (measurable_pi_apply j)
      have m2 : Measurable fun ω : Fin d → (Fin size → Fin size) × (Fin size → ℝ) => (ω j).2 := measurable_snd.comp (measurable_pi_apply j)
      refine (indepFun_iff_map_prod_eq_prod_map_map m1.aemeasurable m2.aemeasurable).mpr ?_
      rw [e1, e2, e3]
    · exact iIndepFun_pi fun j => aemeasurable_id
  · intro j
    have e1 : (Measure.pi fun _ : Fin d => M).map (fun ω k => (ω j).2 k) = Measure.pi fun _ => volume.restrict (Set.Ico (0 : ℝ) 1) := (hsnd.comp (heval j)).map_eq
    have e2 : ∀ i, (Measure.pi fun _ : Fin d => M).map (fun ω => (ω j).2 i) = volume.restrict (Set.Ico (0 : ℝ) 1) := fun i =>
      ((measurePreserving_eval (fun _ : Fin size => volume.restrict (Set.Ico (0 : ℝ) 1)) i).comp (hsnd.comp (heval j))).map_eq
    have m2 : ∀ k, Measurable fun ω : Fin d → (Fin size → Fin size) × (Fin size → ℝ) => (ω j).2 k := fun k =>
      (measurable_pi_apply k).comp (measurable_snd.comp (measurable_pi_apply j))
    refine (iIndepFun_iff_map_fun_eq_pi_map fun k => (m2 k).aemeasurable).mpr ?_
    rw [e1]
    simp only [e2]

/-- Modified sampling, for which uniform numbers of a dimension are all the same. -/
lemma exists_modified_latin (d size : ℕ) (hsize : 0 < size) : ∃ (Ω : Type) (_ : MeasurableSpace Ω) (P : Measure Ω) (_ : IsProbabilityMeasure P)
    (permutations : Ω → Fin d → Fin size → Fin size) (uniform : Ω → Fin d → Fin size → ℝ), Spec.LatinDraws P permutations uniform ∧
      ∀ ω j k k', uniform ω j k = uniform ω j k' := by
  obtain ⟨Ω, m, P, hP, permutations, uniform, h, -⟩ := exists_latin d size
  refine ⟨Ω, m, P, hP, permutations, fun ω j _ => uniform ω j ⟨0, hsize⟩, ⟨h.permutations_measurable, fun j => ?_, h.equally_likely, fun j i => ?_, fun j => ?_, ?_⟩,
    fun _ _ _ _ => rfl⟩
  · exact measurable_pi_lambda _ fun _ => (measurable_pi_apply _).comp (h.uniform_measurable j)
  · exact h.uniform_law j _
  · exact (h.independent j).comp measurable_id (measurable_pi_lambda _ fun _ => measurable_pi_apply (⟨0, hsize⟩ : Fin size))
  · exact h.dimensions.comp (fun _ x => (x.1, fun _ => x.2 ⟨0, hsize⟩)) fun _ =>
      measurable_fst.prodMk (measurable_pi_lambda _ fun _ => (measurable_pi_apply _).comp measurable_snd)

/-- A case that meets the hypotheses: with two dimensions and ten nodes, an average of sums of squares has the right expected value, which is not zero, and is as
precise as one of independent draws. -/
example : ∃ (Ω : Type) (_ : MeasurableSpace Ω) (P : Measure Ω) (permutations : Ω → Fin 2 → Fin 10 → Fin 10) (uniform : Ω → Fin 2 → Fin 10 → ℝ) (ppf : ℝ → ℝ),
    Spec.NormalQuantile ppf ∧
    ∫ ω, ∑ i, equalWeight 10 * ∑ j, lhsNode ppf (permutations ω) (uniform ω) i j ^ 2 ∂P = 2 ∧
    Var[fun ω => ∑ i, equalWeight 10 * ∑ j, lhsNode ppf (permutations ω) (uniform ω) i j; P] ≤ 2 / 10 := by
  obtain ⟨Ω, m, P, hP, permutations, uniform, h, hi⟩ := exists_latin 2 10
  obtain ⟨ppf, hppf⟩ := exists_quantile
  have hmp : ∀ j : Fin 2, MeasurePreserving (fun ν : Fin 2 → ℝ => ν j) (Spec.normalNodes 2) (gaussianReal 0 1) := fun j =>
    measurePreserving_eval (fun _ : Fin 2 => gaussianReal 0 1) j
  have hid : MemLp (fun x : ℝ => x) 2 (gaussianReal 0 1) := memLp_id_gaussianReal 2
  have hsq : ∀ j : Fin 2, Integrable (fun ν : Fin 2 → ℝ => ν j ^ 2) (Spec.normalNodes 2) := fun j => (hid.comp_measurePreserving (hmp j)).integrable_sq
  refine ⟨Ω, m, P, permutations, uniform, ppf, hppf, ?_, ?_⟩
  · rw [C140_unbiased hppf (by norm_num) h (g := fun ν => ∑ j, ν j ^ 2) (integrable_finsetSum _ fun j _ => hsq j), integral_finsetSum _ fun j _ => hsq j]
    have e : ∀ j : Fin 2, ∫ ν, ν j ^ 2 ∂(Spec.normalNodes 2) = 1 := by
      intro j
      have h1 := integral_map (μ := Spec.normalNodes 2) (φ := fun ν : Fin 2 → ℝ => ν j) (f := fun x : ℝ => x ^ 2) (hmp j).measurable.aemeasurable (by fun_prop)
      rw [(hmp j).map_eq] at h1
      rw [← h1]
      have h2 := variance_eq_sub hid
      have h3 : Var[fun x : ℝ => x; gaussianReal 0 1] = 1 := by simp [variance_fun_id_gaussianReal]
      have h4 : ∫ x, x ∂(gaussianReal 0 1) = 0 := integral_id_gaussianReal
      rw [h3, h4] at h2
      simpa using h2.symm
    simp [e]
  · refine (C140_variance hppf (by norm_num) h hi (G := fun _ x => x) fun _ => hid).trans (le_of_eq ?_)
    have e2 : (fun ν : Fin 2 → ℝ => ∑ j, ν j) = ∑ j, fun ν : Fin 2 → ℝ => ν j := by
      funext ν
      simp
    rw [e2, IndepFun.variance_sum (X := fun j (ν : Fin 2 → ℝ) => ν j) (fun j _ => hid.comp_measurePreserving (hmp j))
      fun j _ j' _ hjj => (iIndepFun_pi (μ := fun _ : Fin 2 => gaussianReal 0 1) (X := fun _ x => x) fun _ => aemeasurable_id).indepFun hjj]
    have e : ∀ j : Fin 2, Var[fun ν : Fin 2 → ℝ => ν j; Spec.normalNodes 2] = 1 := by
      intro j
      have hv := variance_map (X := fun x : ℝ => x) (Y := fun ν : Fin 2 → ℝ => ν j) (μ := Spec.normalNodes 2) aemeasurable_id (hmp j).measurable.aemeasurable
      rw [(hmp j).map_eq] at hv
      refine Eq.trans hv.symm ?_
      simp [variance_fun_id_gaussianReal]
    simp only [e]
    norm_num

end Pyblp
