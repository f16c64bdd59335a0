import Verif.Spec.Candidates
import Mathlib.Probability.Independence.Integration
import Mathlib.MeasureTheory.Integral.Pi
import Mathlib.MeasureTheory.Integral.Prod

/-!
# Moments of draws that are accepted and then chosen
-/

set_option linter.unusedSectionVars false

open MeasureTheory ProbabilityTheory

namespace Pyblp

section
variable {E : Type} [MeasurableSpace E] {Q : Measure E} [IsProbabilityMeasure Q] {r : E → ℝ}

/-- Whether a candidate with a cutoff is accepted. -/
noncomputable def accepts (r : E → ℝ) (y : E × ℝ) : ℝ := if y.2 < r y.1 then 1 else 0

lemma accepts_measurable (hr : Measurable r) : Measurable (accepts r) :=
  Measurable.ite (measurableSet_lt measurable_snd (hr.comp measurable_fst)) measurable_const measurable_const

lemma accepts_section (h0 : ∀ x, 0 ≤ r x) (h1 : ∀ x, r x ≤ 1) (x : E) (c : ℝ) :
    Integrable (fun u => c * accepts r (x, u)) (volume.restrict (Set.Ico (0 : ℝ) 1)) ∧
      ∫ u in Set.Ico (0 : ℝ) 1, c * accepts r (x, u) = c * r x := by
  have he : (fun u => accepts r (x, u)) = (Set.Iio (r x)).indicator fun _ => (1 : ℝ) := by
    funext u
    by_cases h : u < r x <;> simp [accepts, Set.indicator, h]
  have hi : Integrable (fun u => accepts r (x, u)) (volume.restrict (Set.Ico (0 : ℝ) 1)) := by
    rw [he]
    exact (integrable_const _).indicator measurableSet_Iio
  refine ⟨hi.const_mul c, ?_⟩
  rw [integral_const_mul, he, integral_indicator_const _ measurableSet_Iio, smul_eq_mul, mul_one, measureReal_restrict_apply measurableSet_Iio]
  have : Set.Iio (r x) ∩ Set.Ico 0 1 = Set.Ico 0 (r x) := by
    ext u
    simp only [Set.mem_inter_iff, Set.mem_Iio, Set.mem_Ico]
    constructor
    · rintro ⟨a, b, c⟩
      exact ⟨b, a⟩
    · rintro ⟨a, b⟩
      exact ⟨b, a, b.trans_le (h1 x)⟩
  rw [this, Real.volume_real_Ico_of_le (h0 x), sub_zero]

lemma accepts_integral (hr : Measurable r) (h0 : ∀ x, 0 ≤ r x) (h1 : ∀ x, r x ≤ 1) {φ : E → ℝ} (hφ : Measurable φ)
    (hi : Integrable (fun x => φ x * r x) Q) :
    Integrable (fun y => φ y.1 * accepts r y) (Q.prod (volume.restrict (Set.Ico (0 : ℝ) 1))) ∧
      ∫ y, φ y.1 * accepts r y ∂(Q.prod (volume.restrict (Set.Ico (0 : ℝ) 1))) = ∫ x, φ x * r x ∂Q := by
  have hm : Measurable fun y : E × ℝ => φ y.1 * accepts r y := (hφ.comp measurable_fst).mul (accepts_measurable hr)
  have h : Integrable (fun y => φ y.1 * accepts r y) (Q.prod (volume.restrict (Set.Ico (0 : ℝ) 1))) := by
    rw [integrable_prod_iff hm.aestronglyMeasurable]
    refine ⟨Filter.Eventually.of_forall fun x => (accepts_section h0 h1 x (φ x)).1, ?_⟩
    have he : (fun x => ∫ u in Set.Ico (0 : ℝ) 1, ‖φ x * accepts r (x, u)‖) = fun x => ‖φ x * r x‖ := by
      funext x
      rw [norm_mul, Real.norm_of_nonneg (h0 x), ← (accepts_section h0 h1 x ‖φ x‖).2]
      refine integral_congr_ae (Filter.Eventually.of_forall fun u => ?_)
      have : 0 ≤ accepts r (x, u) := by unfold accepts; split_ifs <;> norm_num
      simp only [norm_mul, Real.norm_of_nonneg this]
    simp only
    rw [he]
    exact hi.norm
  refine ⟨h, ?_⟩
  rw [integral_prod _ h]
  exact integral_congr_ae (Filter.Eventually.of_forall fun x => (accepts_section h0 h1 x (φ x)).2)

end

section
variable {Ω E : Type} [MeasurableSpace Ω] [MeasurableSpace E] {P : Measure Ω} [IsProbabilityMeasure P] {Q : Measure E} [IsProbabilityMeasure Q] {n : ℕ}
  {r : E → ℝ} {agents : Ω → Fin n → E} {cutoffs : Ω → Fin n → ℝ} {choice : Ω → List ℕ → List ℕ}

/-- Candidates that are accepted. -/
noncomputable def acceptedSet (r : E → ℝ) (agents : Fin n → E) (cutoffs : Fin n → ℝ) : Finset (Fin n) :=
  Finset.univ.filter fun i => cutoffs i < r (agents i)

lemma accepted_product (S : Finset (Fin n)) (h : Fin n → E → ℝ) (x : Fin n → E) (u : Fin n → ℝ) :
    (if acceptedSet r x u = S then (1 : ℝ) else 0) * ∏ i ∈ S, h i (x i) =
      ∏ i, if i ∈ S then h i (x i) * accepts r (x i, u i) else 1 - accepts r (x i, u i) := by
  classical
  by_cases hS : acceptedSet r x u = S
  · rw [if_pos hS, one_mul, ← Finset.prod_subset (Finset.subset_univ S)]
    · refine Finset.prod_congr rfl fun i hi => ?_
      have : u i < r (x i) := by
        rw [← hS] at hi
        exact (Finset.mem_filter.mp hi).2
      rw [if_pos hi, accepts, if_pos this, mul_one]
    · intro i _ hi
      have : ¬ u i < r (x i) := by
        intro hlt
        exact hi (by rw [← hS]; exact Finset.mem_filter.mpr ⟨Finset.mem_univ _, hlt⟩)
      rw [if_neg hi, accepts, if_neg this, sub_zero]
  · rw [if_neg hS, zero_mul, eq_comm, Finset.prod_eq_zero_iff]
    by_contra hcon
    push Not at hcon
    refine hS ?_
    ext i
    have := hcon i (Finset.mem_univ i)
    simp only [acceptedSet, Finset.mem_filter, Finset.mem_univ, true_and]
    constructor
    · intro hlt
      by_contra hi
      rw [if_neg hi, accepts, if_pos hlt] at this
      simp at this
    · intro hi
      by_contra hlt
      rw [if_pos hi, accepts, if_neg hlt] at this
      simp at this

/-- The probability that candidates are accepted. -/
noncomputable def acceptRate (Q : Measure E) (r : E → ℝ) : ℝ := ∫ x, r x ∂Q

lemma rate_integrable (hr : Measurable r) (h0 : ∀ x, 0 ≤ r x) (h1 : ∀ x, r x ≤ 1) : Integrable r Q :=
  Integrable.of_bound hr.aestronglyMeasurable 1 (Filter.Eventually.of_forall fun x => by rw [Real.norm_of_nonneg (h0 x)]; exact h1 x)

/-- Expected values of products over accepted candidates. -/
lemma accepted_expectation (hc : Spec.Candidates P Q agents cutoffs choice) (hr : Measurable r) (h0 : ∀ x, 0 ≤ r x) (h1 : ∀ x, r x ≤ 1) (S : Finset (Fin n))
    {h : Fin n → E → ℝ} (hm : ∀ i, Measurable (h i)) (hi : ∀ i, Integrable (fun x => h i x * r x) Q) :
    Integrable (fun ω => (if acceptedSet r (agents ω) (cutoffs ω) = S then (1 : ℝ) else 0) * ∏ i ∈ S, h i (agents ω i)) P ∧
      ∫ ω, (if acceptedSet r (agents ω) (cutoffs ω) = S then (1 : ℝ) else 0) * ∏ i ∈ S, h i (agents ω i) ∂P =
        (∏ i ∈ S, ∫ x, h i x * r x ∂Q) * (1 - acceptRate Q r) ^ (n - S.card) := by
  classical
  set φ : Fin n → E × ℝ → ℝ := fun i y => if i ∈ S then h i y.1 * accepts r y else 1 - accepts r y with hφ
  have hφm : ∀ i, Measurable (φ i) := by
    intro i
    by_cases hiS : i ∈ S
    · simp only [hφ, if_pos hiS]
      exact ((hm i).comp measurable_fst).mul (accepts_measurable hr)
    · simp only [hφ, if_neg hiS]
      exact measurable_const.sub (accepts_measurable hr)
  have hone : Integrable (fun x => (1 : ℝ) * r x) Q := by simpa using rate_integrable hr h0 h1
  have hrate := accepts_integral (Q := Q) (φ := fun _ => 1) hr h0 h1 measurable_const hone
  simp only [one_mul] at hrate
  have hφi : ∀ i, Integrable (φ i) (Q.prod (volume.restrict (Set.Ico (0 : ℝ) 1))) := by
    intro i
    have : IsProbabilityMeasure (volume.restrict (Set.Ico (0 : ℝ) 1)) := ⟨by simp⟩
    by_cases hiS : i ∈ S
    · simp only [hφ, if_pos hiS]
      exact (accepts_integral hr h0 h1 (hm i) (hi i)).1
    · simp only [hφ, if_neg hiS]
      exact (integrable_const _).sub hrate.1
  have he : (fun ω => (if acceptedSet r (agents ω) (cutoffs ω) = S then (1 : ℝ) else 0) * ∏ i ∈ S, h i (agents ω i)) =
      fun ω => ∏ i, φ i (agents ω i, cutoffs ω i) := by
    funext ω
    exact accepted_product S h (agents ω) (cutoffs ω)
  have hint : Integrable (fun ω => ∏ i, φ i (agents ω i, cutoffs ω i)) P := by
    have hpi := Integrable.fintype_prod (𝕜 := ℝ) (f := φ) (μ := fun _ : Fin n => Q.prod (volume.restrict (Set.Ico (0 : ℝ) 1))) hφi
    have hmap := hc.independent.map_fun_eq_pi_map fun i => (hc.measurable i).aemeasurable
    simp only [hc.law] at hmap
    rw [← hmap] at hpi
    exact hpi.comp_measurable (measurable_pi_lambda _ hc.measurable)
  rw [he]
  refine ⟨hint, ?_⟩
  rw [hc.independent.integral_fun_prod_comp (fun i => (hc.measurable i).aemeasurable) fun i => (hφm i).aestronglyMeasurable]
  have hval : ∀ i, ∫ ω, φ i (agents ω i, cutoffs ω i) ∂P = if i ∈ S then ∫ x, h i x * r x ∂Q else 1 - acceptRate Q r := by
    intro i
    have : IsProbabilityMeasure (volume.restrict (Set.Ico (0 : ℝ) 1)) := ⟨by simp⟩
    rw [← integral_map (f := φ i) (hc.measurable i).aemeasurable (hφm i).aestronglyMeasurable, hc.law]
    by_cases hiS : i ∈ S
    · simp only [hφ, if_pos hiS]
      exact (accepts_integral hr h0 h1 (hm i) (hi i)).2
    · simp only [hφ, if_neg hiS]
      rw [integral_sub (integrable_const _) hrate.1, hrate.2]
      simp [acceptRate]
  rw [Finset.prod_congr rfl fun i _ => hval i, Finset.prod_ite, Finset.prod_const]
  have e1 : Finset.univ.filter (fun i => i ∈ S) = S := by ext; simp
  have e2 : (Finset.univ.filter fun i => i ∉ S).card = n - S.card := by
    have : (Finset.univ.filter fun i => i ∉ S) = Sᶜ := by ext; simp
    rw [this, Finset.card_compl, Fintype.card_fin]
  rw [e1, e2]

lemma accepted_measurable (hc : Spec.Candidates P Q agents cutoffs choice) (hr : Measurable r) (S : Finset (Fin n)) :
    MeasurableSet {ω | acceptedSet r (agents ω) (cutoffs ω) = S} := by
  have he : {ω | acceptedSet r (agents ω) (cutoffs ω) = S} =
      ⋂ i, if i ∈ S then {ω | cutoffs ω i < r (agents ω i)} else {ω | cutoffs ω i < r (agents ω i)}ᶜ := by
    ext ω
    simp only [Set.mem_ofPred_eq, Set.mem_iInter, acceptedSet, Finset.ext_iff, Finset.mem_filter, Finset.mem_univ, true_and]
    refine forall_congr' fun i => ?_
    by_cases hi : i ∈ S <;> simp [hi]
  rw [he]
  have hset : ∀ i, MeasurableSet {ω | cutoffs ω i < r (agents ω i)} := fun i =>
    measurableSet_lt (measurable_snd.comp (hc.measurable i)) (hr.comp (measurable_fst.comp (hc.measurable i)))
  refine MeasurableSet.iInter fun i => ?_
  by_cases hi : i ∈ S
  · rw [if_pos hi]
    exact hset i
  · rw [if_neg hi]
    exact (hset i).compl

/-- The probability that exactly some candidates are accepted. -/
lemma accepted_probability (hc : Spec.Candidates P Q agents cutoffs choice) (hr : Measurable r) (h0 : ∀ x, 0 ≤ r x) (h1 : ∀ x, r x ≤ 1)
    (S : Finset (Fin n)) :
    P.real {ω | acceptedSet r (agents ω) (cutoffs ω) = S} = acceptRate Q r ^ S.card * (1 - acceptRate Q r) ^ (n - S.card) := by
  have h := (accepted_expectation hc hr h0 h1 S (h := fun _ _ => 1) (fun _ => measurable_const) fun _ => by simpa using rate_integrable hr h0 h1).2
  simp only [Finset.prod_const_one, mul_one, one_mul, Finset.prod_const] at h
  rw [show (∫ x, r x ∂Q) = acceptRate Q r from rfl] at h
  rw [← h, ← integral_indicator_one (accepted_measurable hc hr S)]
  refine integral_congr_ae (Filter.Eventually.of_forall fun ω => ?_)
  by_cases hS : acceptedSet r (agents ω) (cutoffs ω) = S <;> simp [Set.indicator, hS]

/-- Among accepted candidates, agents are independent draws from the population with probabilities in proportion to those of being accepted. -/
lemma accepted_mean (hc : Spec.Candidates P Q agents cutoffs choice) (hr : Measurable r) (h0 : ∀ x, 0 ≤ r x) (h1 : ∀ x, r x ≤ 1)
    (ha : acceptRate Q r ≠ 0) {S T : Finset (Fin n)} (hT : T ⊆ S) {v : Fin n → E → ℝ} (hm : ∀ i, Measurable (v i))
    (hi : ∀ i, Integrable (fun x => v i x * r x) Q) :
    Integrable (fun ω => (if acceptedSet r (agents ω) (cutoffs ω) = S then (1 : ℝ) else 0) * ∏ i ∈ T, v i (agents ω i)) P ∧
      ∫ ω, (if acceptedSet r (agents ω) (cutoffs ω) = S then (1 : ℝ) else 0) * ∏ i ∈ T, v i (agents ω i) ∂P =
        P.real {ω | acceptedSet r (agents ω) (cutoffs ω) = S} * ∏ i ∈ T, (∫ x, v i x * r x ∂Q) / acceptRate Q r := by
  classical
  have h := accepted_expectation hc hr h0 h1 S (h := fun i x => if i ∈ T then v i x else 1) (fun i => by
    by_cases hiT : i ∈ T
    · simpa only [if_pos hiT] using hm i
    · simp only [if_neg hiT]
      exact measurable_const) fun i => by
    by_cases hiT : i ∈ T
    · simpa only [if_pos hiT] using hi i
    · simpa only [if_neg hiT, one_mul] using rate_integrable hr h0 h1
  have he : ∀ ω, ∏ i ∈ S, (if i ∈ T then v i (agents ω i) else 1) = ∏ i ∈ T, v i (agents ω i) := by
    intro ω
    rw [Finset.prod_ite, Finset.prod_const_one, mul_one, Finset.filter_mem_eq_inter, Finset.inter_eq_right.mpr hT]
  simp only [he] at h
  refine ⟨h.1, ?_⟩
  rw [h.2, accepted_probability hc hr h0 h1 S]
  have hp : ∏ i ∈ S, ∫ x, (if i ∈ T then v i x else 1) * r x ∂Q = (∏ i ∈ T, ∫ x, v i x * r x ∂Q) * acceptRate Q r ^ (S.card - T.card) := by
    have hval : ∀ i, ∫ x, (if i ∈ T then v i x else 1) * r x ∂Q = if i ∈ T then ∫ x, v i x * r x ∂Q else acceptRate Q r := by
      intro i
      by_cases hiT : i ∈ T <;> simp [hiT, acceptRate]
    rw [Finset.prod_congr rfl fun i _ => hval i, Finset.prod_ite, Finset.prod_const, Finset.filter_mem_eq_inter, Finset.inter_eq_right.mpr hT,
      Finset.filter_notMem_eq_sdiff, Finset.card_sdiff_of_subset hT]
  rw [hp, Finset.prod_div_distrib, Finset.prod_const]
  have hcard := Finset.card_le_card hT
  have : acceptRate Q r ^ S.card = acceptRate Q r ^ (S.card - T.card) * acceptRate Q r ^ T.card := by rw [← pow_add, Nat.sub_add_cancel hcard]
  rw [this]
  field_simp

open Classical in
/-- Positions of some candidates in order. -/
noncomputable def candidatePositions (S : Finset (Fin n)) : List ℕ := (List.range n).filter fun i => decide (∃ h : i < n, (⟨i, h⟩ : Fin n) ∈ S)

/-- Candidates that are chosen from some of them. -/
noncomputable def chosenSet (choice : List ℕ → List ℕ) (S : Finset (Fin n)) : Finset (Fin n) := Finset.univ.filter fun i => (i : ℕ) ∈ choice (candidatePositions S)

lemma mem_candidatePositions {S : Finset (Fin n)} {i : ℕ} : i ∈ candidatePositions S ↔ ∃ h : i < n, (⟨i, h⟩ : Fin n) ∈ S := by
  classical
  unfold candidatePositions
  rw [List.mem_filter, List.mem_range, decide_eq_true_eq]
  exact ⟨fun h => h.2, fun h => ⟨h.1, h⟩⟩

lemma candidatePositions_nodup (S : Finset (Fin n)) : (candidatePositions S).Nodup := by
  classical
  exact List.nodup_range.filter _

lemma card_of_list {l : List ℕ} (hl : l.Nodup) (hb : ∀ i ∈ l, i < n) : (Finset.univ.filter fun i : Fin n => (i : ℕ) ∈ l).card = l.length := by
  classical
  rw [← List.toFinset_card_of_nodup hl, ← Finset.card_map Fin.valEmbedding]
  congr 1
  ext i
  simp only [Finset.mem_map, Finset.mem_filter, Finset.mem_univ, true_and, Fin.valEmbedding_apply, List.mem_toFinset]
  constructor
  · rintro ⟨j, hj, rfl⟩
    exact hj
  · intro hi
    exact ⟨⟨i, hb i hi⟩, hi, rfl⟩

lemma candidatePositions_length (S : Finset (Fin n)) : (candidatePositions S).length = S.card := by
  classical
  rw [← card_of_list (n := n) (candidatePositions_nodup S) fun i hi => (mem_candidatePositions.mp hi).1]
  congr 1
  ext i
  simp [mem_candidatePositions]

/-- What `choice` promises for lists with at least so many elements. -/
def ChoosesFrom (d : ℕ) (choice : List ℕ → List ℕ) : Prop := ∀ l : List ℕ, l.Nodup → d ≤ l.length → (choice l).Nodup ∧ (choice l).length = d ∧ choice l ⊆ l

lemma chosen_subset {d : ℕ} {choice : List ℕ → List ℕ} (hv : ChoosesFrom d choice) {S : Finset (Fin n)} (hS : d ≤ S.card) :
    chosenSet choice S ⊆ S ∧ (chosenSet choice S).card = d := by
  obtain ⟨h1, h2, h3⟩ := hv (candidatePositions S) (candidatePositions_nodup S) (by rw [candidatePositions_length]; exact hS)
  refine ⟨?_, ?_⟩
  · intro i hi
    obtain ⟨h, hm⟩ := mem_candidatePositions.mp (h3 (Finset.mem_filter.mp hi).2)
    exact hm
  · unfold chosenSet
    rw [card_of_list h1 fun i hi => (mem_candidatePositions.mp (h3 hi)).1, h2]

lemma chosen_independent (hc : Spec.Candidates P Q agents cutoffs choice) (S T : Finset (Fin n)) :
    MeasurableSet {ω | chosenSet (choice ω) S = T} ∧
    IndepFun ({ω | chosenSet (choice ω) S = T}.indicator fun _ => (1 : ℝ)) (fun ω i => (agents ω i, cutoffs ω i)) P := by
  set φ : List ℕ → ℝ := fun l => if (Finset.univ.filter fun i : Fin n => (i : ℕ) ∈ l) = T then 1 else 0
  have hφ : @Measurable _ _ ⊤ _ φ := fun _ _ => trivial
  have he : ({ω | chosenSet (choice ω) S = T}.indicator fun _ => (1 : ℝ)) = φ ∘ fun ω => choice ω (candidatePositions S) := by
    funext ω
    by_cases h : chosenSet (choice ω) S = T
    · rw [Set.indicator_of_mem (by exact h)]
      exact (if_pos h).symm
    · rw [Set.indicator_of_notMem (by exact h)]
      exact (if_neg h).symm
  refine ⟨?_, ?_⟩
  · have := hc.choice_measurable (candidatePositions S)
    exact @this {l | (Finset.univ.filter fun i : Fin n => (i : ℕ) ∈ l) = T} trivial
  · rw [he]
    exact @IndepFun.comp Ω (List ℕ) (Fin n → E × ℝ) ℝ (Fin n → E × ℝ) _ P _ _ ⊤ _ _ _ φ id (hc.choice_independent (candidatePositions S)) hφ measurable_id

/-- Expected values over candidates that are accepted and then chosen, if all ways of accepting and choosing give the same. -/
lemma chosen_expectation (hc : Spec.Candidates P Q agents cutoffs choice) (hr : Measurable r) {d : ℕ} (hv : ∀ ω, ChoosesFrom d (choice ω))
    {G : Finset (Fin n) → (Fin n → E) → ℝ} (hG : ∀ T, Measurable (G T)) {c : ℝ}
    (hcommon : ∀ S T, T ⊆ S → T.card = d →
      Integrable (fun ω => (if acceptedSet r (agents ω) (cutoffs ω) = S then (1 : ℝ) else 0) * G T (agents ω)) P ∧
      ∫ ω, (if acceptedSet r (agents ω) (cutoffs ω) = S then (1 : ℝ) else 0) * G T (agents ω) ∂P =
        P.real {ω | acceptedSet r (agents ω) (cutoffs ω) = S} * c) :
    Integrable (fun ω => if d ≤ (acceptedSet r (agents ω) (cutoffs ω)).card then
        G (chosenSet (choice ω) (acceptedSet r (agents ω) (cutoffs ω))) (agents ω) else 0) P ∧
      ∫ ω, (if d ≤ (acceptedSet r (agents ω) (cutoffs ω)).card then
        G (chosenSet (choice ω) (acceptedSet r (agents ω) (cutoffs ω))) (agents ω) else 0) ∂P =
        P.real {ω | d ≤ (acceptedSet r (agents ω) (cutoffs ω)).card} * c := by
  classical
  set B : Finset (Finset (Fin n)) := Finset.univ.filter fun S => d ≤ S.card
  set χ : Finset (Fin n) → Finset (Fin n) → Ω → ℝ := fun S T => {ω | chosenSet (choice ω) S = T}.indicator fun _ => (1 : ℝ) with hχ
  set g : Finset (Fin n) → Finset (Fin n) → Ω → ℝ := fun S T ω =>
    (if acceptedSet r (agents ω) (cutoffs ω) = S then (1 : ℝ) else 0) * G T (agents ω) with hg
  have hsplit : (fun ω => if d ≤ (acceptedSet r (agents ω) (cutoffs ω)).card then
        G (chosenSet (choice ω) (acceptedSet r (agents ω) (cutoffs ω))) (agents ω) else 0) =
      fun ω => ∑ S ∈ B, ∑ T ∈ S.powersetCard d, (χ S T * g S T) ω := by
    funext ω
    by_cases hd : d ≤ (acceptedSet r (agents ω) (cutoffs ω)).card
    · rw [if_pos hd, Finset.sum_eq_single (acceptedSet r (agents ω) (cutoffs ω))]
      · obtain ⟨h1, h2⟩ := chosen_subset (hv ω) hd
        rw [Finset.sum_eq_single (chosenSet (choice ω) (acceptedSet r (agents ω) (cutoffs ω)))]
        · simp [hχ, hg]
        · intro T _ hT
          simp [hχ, Ne.symm hT]
        · intro hT
          exact absurd (Finset.mem_powersetCard.mpr ⟨h1, h2⟩) hT
      · intro S _ hS
        refine Finset.sum_eq_zero fun T _ => ?_
        simp [hg, Ne.symm hS]
      · intro hS
        exact absurd (show acceptedSet r (agents ω) (cutoffs ω) ∈ B from Finset.mem_filter.mpr ⟨Finset.mem_univ _, hd⟩) hS
    · rw [if_neg hd, eq_comm]
      refine Finset.sum_eq_zero fun S hS => Finset.sum_eq_zero fun T _ => ?_
      have : acceptedSet r (agents ω) (cutoffs ω) ≠ S := by
        rintro rfl
        exact hd (Finset.mem_filter.mp hS).2
      simp [hg, this]
  have hχi : ∀ S T, Integrable (χ S T) P := fun S T => (integrable_const _).indicator (chosen_independent hc S T).1
  have hind : ∀ S T, IndepFun (χ S T) (g S T) P := by
    intro S T
    have hacc : Measurable fun y : Fin n → E × ℝ => (if acceptedSet r (fun i => (y i).1) (fun i => (y i).2) = S then (1 : ℝ) else 0) := by
      have he : (fun y : Fin n → E × ℝ => (if acceptedSet r (fun i => (y i).1) (fun i => (y i).2) = S then (1 : ℝ) else 0)) =
          fun y => ∏ i, if i ∈ S then (1 : ℝ) * accepts r (y i) else 1 - accepts r (y i) := by
        funext y
        rw [← accepted_product S (fun _ _ => (1 : ℝ)) (fun i => (y i).1) fun i => (y i).2]
        simp
      rw [he]
      refine Finset.measurable_prod _ fun i _ => ?_
      have hm := (accepts_measurable hr).comp (measurable_pi_apply (X := fun _ : Fin n => E × ℝ) i)
      by_cases hi : i ∈ S
      · simp only [if_pos hi]
        exact measurable_const.mul hm
      · simp only [if_neg hi]
        exact measurable_const.sub hm
    have hGm : Measurable fun y : Fin n → E × ℝ => G T fun i => (y i).1 :=
      (hG T).comp (measurable_pi_lambda _ fun i => measurable_fst.comp (measurable_pi_apply i))
    exact (chosen_independent hc S T).2.comp measurable_id (hacc.mul hGm)
  have hterm : ∀ S ∈ B, ∀ T ∈ S.powersetCard d, Integrable (χ S T * g S T) P ∧
      ∫ ω, (χ S T * g S T) ω ∂P = P.real {ω | chosenSet (choice ω) S = T} * (P.real {ω | acceptedSet r (agents ω) (cutoffs ω) = S} * c) := by
    intro S _ T hT
    obtain ⟨h1, h2⟩ := Finset.mem_powersetCard.mp hT
    obtain ⟨h3, h4⟩ := hcommon S T h1 h2
    refine ⟨(hind S T).integrable_mul (hχi S T) h3, ?_⟩
    rw [(hind S T).integral_mul_eq_mul_integral (hχi S T).aestronglyMeasurable h3.aestronglyMeasurable]
    simp only [hg]
    rw [h4]
    simp only [hχ]
    rw [integral_indicator_const _ (chosen_independent hc S T).1, smul_eq_mul, mul_one]
  rw [hsplit]
  refine ⟨integrable_finsetSum _ fun S hS => integrable_finsetSum _ fun T hT => (hterm S hS T hT).1, ?_⟩
  rw [integral_finsetSum _ fun S hS => integrable_finsetSum _ fun T hT => (hterm S hS T hT).1]
  have hS : ∀ S ∈ B, ∫ ω, ∑ T ∈ S.powersetCard d, (χ S T * g S T) ω ∂P = P.real {ω | acceptedSet r (agents ω) (cutoffs ω) = S} * c := by
    intro S hS
    rw [integral_finsetSum _ fun T hT => (hterm S hS T hT).1, Finset.sum_congr rfl fun T hT => (hterm S hS T hT).2, ← Finset.sum_mul]
    have hone : ∑ T ∈ S.powersetCard d, P.real {ω | chosenSet (choice ω) S = T} = 1 := by
      rw [← measureReal_biUnion_finset]
      · have : (⋃ T ∈ S.powersetCard d, {ω | chosenSet (choice ω) S = T}) = Set.univ := by
          ext ω
          simp only [Set.mem_iUnion, Set.mem_univ, iff_true]
          exact ⟨_, Finset.mem_powersetCard.mpr (chosen_subset (hv ω) (Finset.mem_filter.mp hS).2), rfl⟩
        rw [this, probReal_univ]
      · intro T _ T' _ hTT
        refine Set.disjoint_left.mpr fun ω h1 h2 => hTT ?_
        exact h1.symm.trans h2
      · exact fun T _ => (chosen_independent hc S T).1
    rw [hone, one_mul]
  rw [Finset.sum_congr rfl hS, ← Finset.sum_mul]
  congr 1
  rw [← measureReal_biUnion_finset]
  · congr 1
    ext ω
    simp [B]
  · intro S _ S' _ hSS
    refine Set.disjoint_left.mpr fun ω h1 h2 => hSS ?_
    exact h1.symm.trans h2
  · exact fun S _ => accepted_measurable hc hr S

end

end Pyblp
