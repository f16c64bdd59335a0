import Verif.Lemmas.AcceptReject
import Verif.Props.Sampling
import Mathlib.Probability.Moments.Variance
import Mathlib.Probability.ConditionalProbability
import Mathlib.MeasureTheory.Function.Floor
import Mathlib.Probability.Distributions.Gaussian.Real

/-!
# C142: weighted sums over agents from importance sampling are unbiased, and how precise they are
-/

set_option linter.unusedSectionVars false

open MeasureTheory ProbabilityTheory

namespace Pyblp

/-- A sum over candidates with weights that were computed, or zero if an exception was raised. -/
noncomputable def sampledSum {σ E : Type} {n : ℕ} (f : E → ℝ) (agents : Fin n → E) : Except PyErr (List ℝ × σ) → ℝ
  | .ok r => ∑ i : Fin n, r.1.getD i 0 * f (agents i)
  | .error _ => 0

section
variable {Ω E σ : Type} [MeasurableSpace Ω] [MeasurableSpace E] {P : Measure Ω} [IsProbabilityMeasure P] {population : Measure E}
  [IsProbabilityMeasure population] {n draws : ℕ} {g : Generator σ} {M share : ℝ} {inside f : E → ℝ} {state : Ω → σ} {agents : Ω → Fin n → E}

/-- Weights of candidates who are importance-sampled given their probabilities of choosing an inside good, or an exception. -/
noncomputable def sampledWeights (g : Generator σ) (draws : ℕ) (M share : ℝ) (inside : E → ℝ) (agents : Fin n → E) (s : σ) : Except PyErr (List ℝ × σ) :=
  importanceMarket g draws M share (List.ofFn fun i => inside (agents i)) s

/-- Randomness of the candidates and of what the random number generator gives when importance sampling asks it for cutoffs and then for a choice. -/
def RandomCandidates (P : Measure Ω) (population : Measure E) (g : Generator σ) (draws : ℕ) (agents : Ω → Fin n → E) (state : Ω → σ) : Prop :=
  Spec.Candidates P population agents (fun ω i => (g.uniform (state ω) n).1.getD i 0) fun ω l => (g.choice (g.uniform (state ω) n).2 l draws).1

lemma sampled_eq (x : Fin n → E) (s : σ) :
    let A := acceptedSet (fun x => inside x / M) x fun i => (g.uniform s n).1.getD i 0
    let T := chosenSet (fun l => (g.choice (g.uniform s n).2 l draws).1) A
    ((∃ r, sampledWeights g draws M share inside x s = .ok r) ↔ draws ≤ A.card) ∧
      sampledSum f x (sampledWeights g draws M share inside x s) = if draws ≤ A.card then ∑ i ∈ T, share / inside (x i) / draws * f (x i) else 0 := by
  classical
  intro A T
  have hlen : (List.ofFn fun i => inside (x i)).length = n := List.length_ofFn
  have hget : ∀ i : Fin n, (List.ofFn fun i => inside (x i)).getD i 0 = inside (x i) := by
    intro i
    rw [getD_getElem _ _ (by rw [hlen]; exact i.2)]
    simp
  have hpos : (List.range n).filter (fun i => decide ((g.uniform s n).1.getD i 0 < (List.ofFn fun i => inside (x i)).getD i 0 / M)) = candidatePositions A := by
    unfold candidatePositions
    refine List.filter_congr fun i hi => ?_
    rw [List.mem_range] at hi
    rw [decide_eq_decide, hget ⟨i, hi⟩]
    constructor
    · intro h
      exact ⟨hi, Finset.mem_filter.mpr ⟨Finset.mem_univ _, h⟩⟩
    · rintro ⟨_, h⟩
      exact (Finset.mem_filter.mp h).2
  have hlenA : (candidatePositions A).length = A.card := candidatePositions_length A
  unfold sampledWeights importanceMarket
  simp only [hlen]
  rw [hpos, hlenA]
  by_cases hd : draws ≤ A.card
  · rw [if_neg (by omega), if_pos hd]
    refine ⟨⟨fun _ => hd, fun _ => ⟨_, rfl⟩⟩, ?_⟩
    simp only [sampledSum]
    have hT : ∀ i : Fin n, i ∈ T ↔ (i : ℕ) ∈ (g.choice (g.uniform s n).2 (candidatePositions A) draws).1 := by
      intro i
      simp only [T, chosenSet, Finset.mem_filter, Finset.mem_univ, true_and]
    rw [← Finset.sum_subset (Finset.subset_univ T)]
    · refine Finset.sum_congr rfl fun i hi => ?_
      rw [getD_getElem _ _ (by simp), List.getElem_map, List.getElem_range, if_pos ((hT i).mp hi), hget]
    · intro i _ hi
      rw [getD_getElem _ _ (by simp), List.getElem_map, List.getElem_range, if_neg (fun h => hi ((hT i).mpr h)), zero_mul]
  · rw [if_pos (by omega), if_neg hd]
    refine ⟨⟨fun ⟨r, hr⟩ => by simp at hr, fun h => absurd h hd⟩, rfl⟩

lemma chooses_from (hg : g.Valid) (s : σ) : ChoosesFrom draws fun l => (g.choice s l draws).1 :=
  fun l hl hd => ⟨hg.choice_nodup s l draws hl, hg.choice_length s l draws hd, hg.choice_subset s l draws⟩

/-- Importance sampling does not raise an exception. -/
def succeeds (g : Generator σ) (draws : ℕ) (M share : ℝ) (inside : E → ℝ) (agents : Ω → Fin n → E) (state : Ω → σ) : Set Ω :=
  {ω | ∃ r, sampledWeights g draws M share inside (agents ω) (state ω) = .ok r}

lemma succeeds_eq : succeeds g draws M share inside agents state =
    {ω | draws ≤ (acceptedSet (fun x => inside x / M) (agents ω) fun i => (g.uniform (state ω) n).1.getD i 0).card} := by
  ext ω
  exact (sampled_eq (f := fun _ => 0) (agents ω) (state ω)).1

lemma succeeds_measurable (hc : RandomCandidates P population g draws agents state) (hm : Measurable inside) :
    MeasurableSet (succeeds g draws M share inside agents state) := by
  classical
  rw [succeeds_eq]
  have : {ω | draws ≤ (acceptedSet (fun x => inside x / M) (agents ω) fun i => (g.uniform (state ω) n).1.getD i 0).card} =
      ⋃ S ∈ Finset.univ.filter (fun S : Finset (Fin n) => draws ≤ S.card),
        {ω | acceptedSet (fun x => inside x / M) (agents ω) (fun i => (g.uniform (state ω) n).1.getD i 0) = S} := by
    ext ω
    simp
  rw [this]
  exact Finset.measurableSet_biUnion _ fun S _ => accepted_measurable hc (hm.div_const M) S

/-- Expected values conditional on an event outside of which a variable is zero. -/
lemma conditional_integral {B : Set Ω} {X : Ω → ℝ} (hX : ∀ ω, ω ∉ B → X ω = 0) :
    ∫ ω, X ω ∂(P[|B]) = (P.real B)⁻¹ * ∫ ω, X ω ∂P := by
  rw [ProbabilityTheory.cond, integral_smul_measure, setIntegral_eq_integral_of_forall_compl_eq_zero hX, ENNReal.toReal_inv, smul_eq_mul]
  rfl

lemma conditional_integrable {B : Set Ω} (hB : P B ≠ 0) {X : Ω → ℝ} (hX : Integrable X P) : Integrable X (P[|B]) :=
  (hX.restrict).smul_measure (ENNReal.inv_ne_top.mpr hB)

variable (hg : g.Valid) (hc : RandomCandidates P population g draws agents state) (hd : 1 ≤ draws) (hn : draws ≤ n) (hM : 1 ≤ M) (hm : Measurable inside)
  (hpos : ∀ x, 0 < inside x) (hle : ∀ x, inside x ≤ 1)

include hm hpos hle in
lemma inside_positive : 0 < ∫ x, inside x ∂population := by
  rw [integral_pos_iff_support_of_nonneg (fun x => (hpos x).le) (rate_integrable hm (fun x => (hpos x).le) hle)]
  have : Function.support inside = Set.univ := Set.eq_univ_of_forall fun x => (hpos x).ne'
  rw [this]
  simp

include hM hpos hle in
lemma rate_bounds : (∀ x, 0 ≤ inside x / M) ∧ ∀ x, inside x / M ≤ 1 :=
  ⟨fun x => div_nonneg (hpos x).le (by linarith), fun x => (div_le_one (by linarith)).mpr ((hle x).trans hM)⟩

include hc hn hM hm hpos hle in
/-- With as many candidates as agents are asked for, importance sampling can succeed. -/
lemma succeeds_possible : P (succeeds g draws M share inside agents state) ≠ 0 := by
  classical
  obtain ⟨h0, h1⟩ := rate_bounds hM hpos hle
  have ha : 0 < acceptRate population fun x => inside x / M := by
    rw [acceptRate, integral_div]
    exact div_pos (inside_positive hm hpos hle) (by linarith)
  have hp := accepted_probability hc (hm.div_const M) h0 h1 Finset.univ
  rw [Finset.card_univ, Fintype.card_fin, Nat.sub_self, pow_zero, mul_one] at hp
  have hsub : {ω | acceptedSet (fun x => inside x / M) (agents ω) (fun i => (g.uniform (state ω) n).1.getD i 0) = Finset.univ} ⊆
      succeeds g draws M share inside agents state := by
    intro ω hω
    rw [succeeds_eq]
    change draws ≤ _
    rw [show acceptedSet (fun x => inside x / M) (agents ω) (fun i => (g.uniform (state ω) n).1.getD i 0) = Finset.univ from hω, Finset.card_univ, Fintype.card_fin]
    exact hn
  intro hzero
  have := measure_mono_null hsub hzero
  rw [measureReal_def, this, ENNReal.toReal_zero] at hp
  have := pow_pos ha n
  linarith

include hc hM hm hpos hle in
lemma accepted_sum {v : E → ℝ} (hv : Measurable v) (hvi : Integrable (fun x => v x * (inside x / M)) population) {S T : Finset (Fin n)} (hT : T ⊆ S)
    (hTd : T.card = draws) :
    Integrable (fun ω => (if acceptedSet (fun x => inside x / M) (agents ω) (fun i => (g.uniform (state ω) n).1.getD i 0) = S then (1 : ℝ) else 0) *
      ∑ i ∈ T, v (agents ω i)) P ∧
    ∫ ω, (if acceptedSet (fun x => inside x / M) (agents ω) (fun i => (g.uniform (state ω) n).1.getD i 0) = S then (1 : ℝ) else 0) *
      ∑ i ∈ T, v (agents ω i) ∂P =
      P.real {ω | acceptedSet (fun x => inside x / M) (agents ω) (fun i => (g.uniform (state ω) n).1.getD i 0) = S} *
        (draws * ((∫ x, v x * (inside x / M) ∂population) / acceptRate population fun x => inside x / M)) := by
  obtain ⟨h0, h1⟩ := rate_bounds hM hpos hle
  have ha : 0 < acceptRate population fun x => inside x / M := by
    rw [acceptRate, integral_div]
    exact div_pos (inside_positive hm hpos hle) (by linarith)
  have hone : ∀ i ∈ T, _ := fun i hi => accepted_mean hc (hm.div_const M) h0 h1 ha.ne' (S := S) (T := {i}) (Finset.singleton_subset_iff.mpr (hT hi))
    (v := fun _ => v) (fun _ => hv) fun _ => hvi
  simp only [Finset.prod_singleton] at hone
  simp only [Finset.mul_sum]
  refine ⟨integrable_finsetSum _ fun i hi => (hone i hi).1, ?_⟩
  rw [integral_finsetSum _ fun i hi => (hone i hi).1, Finset.sum_congr rfl fun i hi => (hone i hi).2, Finset.sum_const, hTd, nsmul_eq_mul]
  ring

include hc hM hm hpos hle in
lemma accepted_square {v : E → ℝ} (hv : Measurable v) (hvi : Integrable (fun x => v x * (inside x / M)) population)
    (hvs : Integrable (fun x => v x ^ 2 * (inside x / M)) population) {S T : Finset (Fin n)} (hT : T ⊆ S) (hTd : T.card = draws) :
    Integrable (fun ω => (if acceptedSet (fun x => inside x / M) (agents ω) (fun i => (g.uniform (state ω) n).1.getD i 0) = S then (1 : ℝ) else 0) *
      (∑ i ∈ T, v (agents ω i)) ^ 2) P ∧
    ∫ ω, (if acceptedSet (fun x => inside x / M) (agents ω) (fun i => (g.uniform (state ω) n).1.getD i 0) = S then (1 : ℝ) else 0) *
      (∑ i ∈ T, v (agents ω i)) ^ 2 ∂P =
      P.real {ω | acceptedSet (fun x => inside x / M) (agents ω) (fun i => (g.uniform (state ω) n).1.getD i 0) = S} *
        (draws * ((∫ x, v x ^ 2 * (inside x / M) ∂population) / acceptRate population fun x => inside x / M) +
          draws * (draws - 1) * ((∫ x, v x * (inside x / M) ∂population) / acceptRate population fun x => inside x / M) ^ 2) := by
  classical
  obtain ⟨h0, h1⟩ := rate_bounds hM hpos hle
  have ha : 0 < acceptRate population fun x => inside x / M := by
    rw [acceptRate, integral_div]
    exact div_pos (inside_positive hm hpos hle) (by linarith)
  set m1 := (∫ x, v x * (inside x / M) ∂population) / acceptRate population fun x => inside x / M
  set m2 := (∫ x, v x ^ 2 * (inside x / M) ∂population) / acceptRate population fun x => inside x / M
  have hpair : ∀ i ∈ T, ∀ j ∈ T,
      Integrable (fun ω => (if acceptedSet (fun x => inside x / M) (agents ω) (fun i => (g.uniform (state ω) n).1.getD i 0) = S then (1 : ℝ) else 0) *
        (v (agents ω i) * v (agents ω j))) P ∧
      ∫ ω, (if acceptedSet (fun x => inside x / M) (agents ω) (fun i => (g.uniform (state ω) n).1.getD i 0) = S then (1 : ℝ) else 0) *
        (v (agents ω i) * v (agents ω j)) ∂P =
        P.real {ω | acceptedSet (fun x => inside x / M) (agents ω) (fun i => (g.uniform (state ω) n).1.getD i 0) = S} * if i = j then m2 else m1 ^ 2 := by
    intro i hi j hj
    by_cases hij : i = j
    · subst hij
      have h := accepted_mean hc (hm.div_const M) h0 h1 ha.ne' (S := S) (T := {i}) (Finset.singleton_subset_iff.mpr (hT hi))
        (v := fun _ x => v x ^ 2) (fun _ => hv.pow_const 2) fun _ => hvs
      simp only [Finset.prod_singleton] at h
      simp only [← sq, if_true]
      exact h
    · have h := accepted_mean hc (hm.div_const M) h0 h1 ha.ne' (S := S) (T := {i, j})
        (by
          intro k hk
          rcases Finset.mem_insert.mp hk with rfl | hk
          · exact hT hi
          · rw [Finset.mem_singleton.mp hk]
            exact hT hj)
        (v := fun _ => v) (fun _ => hv) fun _ => hvi
      simp only [Finset.prod_pair hij] at h
      rw [if_neg hij, sq]
      exact h
  have hexp : ∀ ω, (if acceptedSet (fun x => inside x / M) (agents ω) (fun i => (g.uniform (state ω) n).1.getD i 0) = S then (1 : ℝ) else 0) *
      (∑ i ∈ T, v (agents ω i)) ^ 2 = ∑ i ∈ T, ∑ j ∈ T,
        (if acceptedSet (fun x => inside x / M) (agents ω) (fun i => (g.uniform (state ω) n).1.getD i 0) = S then (1 : ℝ) else 0) *
        (v (agents ω i) * v (agents ω j)) := by
    intro ω
    rw [sq, Finset.sum_mul_sum, Finset.mul_sum]
    exact Finset.sum_congr rfl fun i _ => by rw [Finset.mul_sum]
  simp only [hexp]
  refine ⟨integrable_finsetSum _ fun i hi => integrable_finsetSum _ fun j hj => (hpair i hi j hj).1, ?_⟩
  rw [integral_finsetSum _ fun i hi => integrable_finsetSum _ fun j hj => (hpair i hi j hj).1]
  have hrow : ∀ i ∈ T, ∫ ω, ∑ j ∈ T, (if acceptedSet (fun x => inside x / M) (agents ω) (fun i => (g.uniform (state ω) n).1.getD i 0) = S then (1 : ℝ) else 0) *
        (v (agents ω i) * v (agents ω j)) ∂P =
      P.real {ω | acceptedSet (fun x => inside x / M) (agents ω) (fun i => (g.uniform (state ω) n).1.getD i 0) = S} * (m2 + (draws - 1) * m1 ^ 2) := by
    intro i hi
    rw [integral_finsetSum _ fun j hj => (hpair i hi j hj).1, Finset.sum_congr rfl fun j hj => (hpair i hi j hj).2, ← Finset.mul_sum]
    congr 1
    rw [← Finset.add_sum_erase _ _ hi, if_pos rfl]
    congr 1
    rw [Finset.sum_congr rfl fun j hj => if_neg (Finset.ne_of_mem_erase hj).symm, Finset.sum_const, Finset.card_erase_of_mem hi, hTd, nsmul_eq_mul]
    have : 1 ≤ draws := by
      rw [← hTd]
      exact Finset.card_pos.mpr ⟨i, hi⟩
    rw [Nat.cast_sub this, Nat.cast_one]
  rw [Finset.sum_congr rfl hrow, Finset.sum_const, hTd, nsmul_eq_mul]
  ring

include hg hc hd hn hM hm hpos hle in
/-- Conditional on success, expected values of a sum over chosen candidates and of its square. -/
lemma sampled_moments (hf : Measurable f) (hfi : Integrable f population) :
    (Integrable (fun ω => sampledSum f (agents ω) (sampledWeights g draws M share inside (agents ω) (state ω))) (P[|succeeds g draws M share inside agents state]) ∧
      ∫ ω, sampledSum f (agents ω) (sampledWeights g draws M share inside (agents ω) (state ω)) ∂(P[|succeeds g draws M share inside agents state]) =
        share / (∫ x, inside x ∂population) * ∫ x, f x ∂population) ∧
    (Integrable (fun x => f x ^ 2 / inside x) population →
      Integrable (fun ω => sampledSum f (agents ω) (sampledWeights g draws M share inside (agents ω) (state ω)) ^ 2)
        (P[|succeeds g draws M share inside agents state]) ∧
      ∫ ω, sampledSum f (agents ω) (sampledWeights g draws M share inside (agents ω) (state ω)) ^ 2 ∂(P[|succeeds g draws M share inside agents state]) =
        share ^ 2 / (∫ x, inside x ∂population) * (∫ x, f x ^ 2 / inside x ∂population) / draws +
          (1 - 1 / draws) * (share / (∫ x, inside x ∂population) * ∫ x, f x ∂population) ^ 2) := by
  have hM0 : 0 < M := by linarith
  have hd0 : (draws : ℝ) ≠ 0 := by exact_mod_cast (show draws ≠ 0 by omega)
  obtain ⟨h0, h1⟩ := rate_bounds hM hpos hle
  have hI := inside_positive (population := population) hm hpos hle
  have hB := succeeds_possible (share := share) hc hn hM hm hpos hle
  have hBr : P.real (succeeds g draws M share inside agents state) ≠ 0 := by
    rw [measureReal_def, ENNReal.toReal_ne_zero]
    exact ⟨hB, measure_ne_top _ _⟩
  set v : E → ℝ := fun x => share / inside x / draws * f x with hv
  have hvm : Measurable v := ((measurable_const.div hm).div_const _).mul hf
  have hv1 : (fun x => v x * (inside x / M)) = fun x => share / (draws * M) * f x := by
    funext x
    have := (hpos x).ne'
    simp only [hv]
    field_simp
  have hv2 : (fun x => v x ^ 2 * (inside x / M)) = fun x => share ^ 2 / (draws ^ 2 * M) * (f x ^ 2 / inside x) := by
    funext x
    have := (hpos x).ne'
    simp only [hv]
    field_simp
  have hrate : (acceptRate population fun x => inside x / M) = (∫ x, inside x ∂population) / M := by rw [acceptRate, integral_div]
  have hsum : ∀ ω, sampledSum f (agents ω) (sampledWeights g draws M share inside (agents ω) (state ω)) =
      if draws ≤ (acceptedSet (fun x => inside x / M) (agents ω) fun i => (g.uniform (state ω) n).1.getD i 0).card then
        ∑ i ∈ chosenSet (fun l => (g.choice (g.uniform (state ω) n).2 l draws).1)
          (acceptedSet (fun x => inside x / M) (agents ω) fun i => (g.uniform (state ω) n).1.getD i 0), v (agents ω i) else 0 :=
    fun ω => (sampled_eq (agents ω) (state ω)).2
  have hzero : ∀ ω, ω ∉ succeeds g draws M share inside agents state →
      sampledSum f (agents ω) (sampledWeights g draws M share inside (agents ω) (state ω)) = 0 := by
    intro ω hω
    rw [succeeds_eq, Set.mem_ofPred_eq] at hω
    rw [hsum, if_neg hω]
  have hvi : Integrable (fun x => v x * (inside x / M)) population := by
    rw [hv1]
    exact hfi.const_mul _
  have hfun : (fun ω => sampledSum f (agents ω) (sampledWeights g draws M share inside (agents ω) (state ω))) = _ := funext hsum
  constructor
  · have h := chosen_expectation hc (hm.div_const M) (fun ω => chooses_from hg _) (G := fun T x => ∑ i ∈ T, v (x i))
      (fun T => Finset.measurable_sum _ fun i _ => hvm.comp (measurable_pi_apply i)) fun S T hT hTd => accepted_sum hc hM hm hpos hle hvm hvi hT hTd
    beta_reduce at h
    rw [← hfun] at h
    refine ⟨conditional_integrable hB h.1, ?_⟩
    rw [conditional_integral hzero]
    refine (congrArg _ h.2).trans ?_
    rw [← succeeds_eq (share := share), hv1, integral_const_mul, hrate]
    field_simp
  · intro hfs
    have hvs : Integrable (fun x => v x ^ 2 * (inside x / M)) population := by
      rw [hv2]
      exact hfs.const_mul _
    have h := chosen_expectation hc (hm.div_const M) (fun ω => chooses_from hg _) (G := fun T x => (∑ i ∈ T, v (x i)) ^ 2)
      (fun T => (Finset.measurable_sum _ fun i _ => hvm.comp (measurable_pi_apply i)).pow_const 2)
      fun S T hT hTd => accepted_square hc hM hm hpos hle hvm hvi hvs hT hTd
    beta_reduce at h
    have hsq : (fun ω => sampledSum f (agents ω) (sampledWeights g draws M share inside (agents ω) (state ω)) ^ 2) = fun ω =>
        if draws ≤ (acceptedSet (fun x => inside x / M) (agents ω) fun i => (g.uniform (state ω) n).1.getD i 0).card then
        (∑ i ∈ chosenSet (fun l => (g.choice (g.uniform (state ω) n).2 l draws).1)
          (acceptedSet (fun x => inside x / M) (agents ω) fun i => (g.uniform (state ω) n).1.getD i 0), v (agents ω i)) ^ 2 else 0 := by
      funext ω
      rw [hsum]
      split_ifs
      · rfl
      · norm_num
    rw [← hsq] at h
    refine ⟨conditional_integrable hB h.1, ?_⟩
    rw [conditional_integral fun ω hω => by rw [hzero ω hω]; norm_num]
    refine (congrArg _ h.2).trans ?_
    rw [← succeeds_eq (share := share), hv1, hv2, integral_const_mul, integral_const_mul, hrate]
    field_simp

/-! ## C142 -/

include hg hc hd hn hM hm hpos hle in
/-- **C142.** Candidates are independent draws from a population, `inside` is the probability that an agent chooses an inside good, and `share` is the inside share.
If importance sampling does not raise an exception, then the expected value of a sum over agents with the weights that it gives them is the expected value in the
population, up to the ratio of the inside share to the one that is implied by `inside`. -/
theorem C142_mean (hf : Measurable f) (hfi : Integrable f population) :
    ∫ ω, sampledSum f (agents ω) (sampledWeights g draws M share inside (agents ω) (state ω)) ∂(P[|succeeds g draws M share inside agents state]) =
      share / (∫ x, inside x ∂population) * ∫ x, f x ∂population :=
  (sampled_moments hg hc hd hn hM hm hpos hle hf hfi).1.2

include hg hc hd hn hM hm hpos hle in
/-- **C142.** If probabilities are evaluated at mean utilities that explain the inside share in the population, sums are unbiased. -/
theorem C142_unbiased (hshare : ∫ x, inside x ∂population = share) (hf : Measurable f) (hfi : Integrable f population) :
    ∫ ω, sampledSum f (agents ω) (sampledWeights g draws M share inside (agents ω) (state ω)) ∂(P[|succeeds g draws M share inside agents state]) =
      ∫ x, f x ∂population := by
  have hI := inside_positive (population := population) hm hpos hle
  rw [C142_mean hg hc hd hn hM hm hpos hle hf hfi, hshare, div_self (by rw [← hshare]; exact hI.ne'), one_mul]

include hg hc hd hn hM hm hpos hle in
/-- **C142.** How precise sums are. The accept-reject constant does not matter. -/
theorem C142_variance (hshare : ∫ x, inside x ∂population = share) (hf : Measurable f) (hfi : Integrable f population)
    (hfs : Integrable (fun x => f x ^ 2 / inside x) population) :
    Var[fun ω => sampledSum f (agents ω) (sampledWeights g draws M share inside (agents ω) (state ω)); P[|succeeds g draws M share inside agents state]] =
      (share * (∫ x, f x ^ 2 / inside x ∂population) - (∫ x, f x ∂population) ^ 2) / draws := by
  have hI := inside_positive (population := population) hm hpos hle
  rw [hshare] at hI
  have hd0 : (draws : ℝ) ≠ 0 := by exact_mod_cast (show draws ≠ 0 by omega)
  have h := sampled_moments (share := share) hg hc hd hn hM hm hpos hle hf hfi
  have : IsProbabilityMeasure (P[|succeeds g draws M share inside agents state]) :=
    cond_isProbabilityMeasure (succeeds_possible hc hn hM hm hpos hle)
  have hl : MemLp (fun ω => sampledSum f (agents ω) (sampledWeights g draws M share inside (agents ω) (state ω))) 2
      (P[|succeeds g draws M share inside agents state]) := (memLp_two_iff_integrable_sq h.1.1.aestronglyMeasurable).mpr (h.2 hfs).1
  rw [variance_eq_sub hl]
  simp only [Pi.pow_apply]
  rw [(h.2 hfs).2, h.1.2, hshare]
  field_simp
  ring

include hg hc hd hn hM hm hpos hle in
/-- **C142.** Sums of what is at most the probability of choosing an inside good, such as market shares of products, are precise: the larger the part of the inside
share, the less they vary, and the inside share itself does not vary. -/
theorem C142_shares (hshare : ∫ x, inside x ∂population = share) (hf : Measurable f) (hf0 : ∀ x, 0 ≤ f x) (hfle : ∀ x, f x ≤ inside x) :
    Var[fun ω => sampledSum f (agents ω) (sampledWeights g draws M share inside (agents ω) (state ω)); P[|succeeds g draws M share inside agents state]] ≤
      (∫ x, f x ∂population) * (share - ∫ x, f x ∂population) / draws := by
  have hI := inside_positive (population := population) hm hpos hle
  rw [hshare] at hI
  have hfi : Integrable f population := Integrable.of_bound hf.aestronglyMeasurable 1
    (Filter.Eventually.of_forall fun x => by rw [Real.norm_of_nonneg (hf0 x)]; exact (hfle x).trans (hle x))
  have hq : ∀ x, 0 ≤ f x ^ 2 / inside x ∧ f x ^ 2 / inside x ≤ f x := by
    intro x
    refine ⟨div_nonneg (sq_nonneg _) (hpos x).le, ?_⟩
    rw [div_le_iff₀ (hpos x), sq]
    exact mul_le_mul_of_nonneg_left (hfle x) (hf0 x)
  have hfs : Integrable (fun x => f x ^ 2 / inside x) population := Integrable.mono' hfi ((hf.pow_const 2).div hm).aestronglyMeasurable
    (Filter.Eventually.of_forall fun x => by rw [Real.norm_of_nonneg (hq x).1]; exact (hq x).2)
  rw [C142_variance hg hc hd hn hM hm hpos hle hshare hf hfi hfs]
  have hle2 : ∫ x, f x ^ 2 / inside x ∂population ≤ ∫ x, f x ∂population := integral_mono hfs hfi fun x => (hq x).2
  have hd0 : (0 : ℝ) < draws := by exact_mod_cast (show 0 < draws by omega)
  rw [div_le_div_iff_of_pos_right hd0]
  nlinarith [mul_le_mul_of_nonneg_left hle2 hI.le]

include hg hc hd hn hM hm hpos hle in
/-- **C142.** Sums are close to what they are in the population, except with a probability that is inversely proportional to the number of draws. -/
theorem C142_accuracy (hshare : ∫ x, inside x ∂population = share) (hf : Measurable f) (hf0 : ∀ x, 0 ≤ f x) (hfle : ∀ x, f x ≤ inside x) {ε : ℝ} (hε : 0 < ε) :
    (P[|succeeds g draws M share inside agents state])
        {ω | ε ≤ |sampledSum f (agents ω) (sampledWeights g draws M share inside (agents ω) (state ω)) - ∫ x, f x ∂population|} ≤
      ENNReal.ofReal ((∫ x, f x ∂population) * (share - ∫ x, f x ∂population) / draws / ε ^ 2) := by
  have hfi : Integrable f population := Integrable.of_bound hf.aestronglyMeasurable 1
    (Filter.Eventually.of_forall fun x => by rw [Real.norm_of_nonneg (hf0 x)]; exact (hfle x).trans (hle x))
  have hq : ∀ x, 0 ≤ f x ^ 2 / inside x ∧ f x ^ 2 / inside x ≤ f x := by
    intro x
    refine ⟨div_nonneg (sq_nonneg _) (hpos x).le, ?_⟩
    rw [div_le_iff₀ (hpos x), sq]
    exact mul_le_mul_of_nonneg_left (hfle x) (hf0 x)
  have hfs : Integrable (fun x => f x ^ 2 / inside x) population := Integrable.mono' hfi ((hf.pow_const 2).div hm).aestronglyMeasurable
    (Filter.Eventually.of_forall fun x => by rw [Real.norm_of_nonneg (hq x).1]; exact (hq x).2)
  have h := sampled_moments (share := share) hg hc hd hn hM hm hpos hle hf hfi
  have : IsProbabilityMeasure (P[|succeeds g draws M share inside agents state]) :=
    cond_isProbabilityMeasure (succeeds_possible hc hn hM hm hpos hle)
  have hl : MemLp (fun ω => sampledSum f (agents ω) (sampledWeights g draws M share inside (agents ω) (state ω))) 2
      (P[|succeeds g draws M share inside agents state]) := (memLp_two_iff_integrable_sq h.1.1.aestronglyMeasurable).mpr (h.2 hfs).1
  have hcheb := meas_ge_le_variance_div_sq hl hε
  rw [C142_unbiased hg hc hd hn hM hm hpos hle hshare hf hfi] at hcheb
  refine hcheb.trans (ENNReal.ofReal_le_ofReal ?_)
  exact div_le_div_of_nonneg_right (C142_shares hg hc hd hn hM hm hpos hle hshare hf hf0 hfle) (sq_nonneg ε)

include hc hd hM hm hpos hle in
/-- **C142.** The rule of thumb for the number of candidates: if there are more than `M * draws / share` of them by some fraction `η`, an exception is unlikely when
many draws are asked for. -/
theorem C142_enough (hshare : ∫ x, inside x ∂population = share) {η : ℝ} (hη : 0 < η) (hmany : (1 + η) * (M * draws / share) ≤ n) :
    P (succeeds g draws M share inside agents state)ᶜ ≤ ENNReal.ofReal ((1 + η) / (η ^ 2 * draws)) := by
  have hM0 : 0 < M := by linarith
  have hd0 : (0 : ℝ) < draws := by exact_mod_cast (show 0 < draws by omega)
  obtain ⟨h0, h1⟩ := rate_bounds hM hpos hle
  have hI := inside_positive (population := population) hm hpos hle
  rw [hshare] at hI
  set r : E → ℝ := fun x => inside x / M with hr
  have hrm : Measurable r := hm.div_const M
  have hrate : acceptRate population r = share / M := by rw [acceptRate, hr, integral_div, hshare]
  set a := acceptRate population r with ha
  have ha0 : 0 < a := by rw [hrate]; positivity
  set Y : Fin n → Ω → E × ℝ := fun i ω => (agents ω i, (g.uniform (state ω) n).1.getD i 0) with hY
  set Z : Fin n → Ω → ℝ := fun i ω => accepts r (Y i ω) with hZ
  have hone : Integrable (fun x => (1 : ℝ) * r x) population := by simpa using rate_integrable hrm h0 h1
  have hmean := (accepts_integral (Q := population) (φ := fun _ => 1) hrm h0 h1 measurable_const hone)
  simp only [one_mul] at hmean
  have h01 : ∀ y, accepts r y = 0 ∨ accepts r y = 1 := by
    intro y
    unfold accepts
    split_ifs
    · exact Or.inr rfl
    · exact Or.inl rfl
  have hZm : ∀ i, Measurable (Z i) := fun i => (accepts_measurable hrm).comp (hc.measurable i)
  have hZl : ∀ i, MemLp (Z i) 2 P := fun i => MemLp.of_bound (hZm i).aestronglyMeasurable 1 (Filter.Eventually.of_forall fun ω => by
    rcases h01 (Y i ω) with h | h <;> simp [hZ, h])
  have hZe : ∀ i, ∫ ω, Z i ω ∂P = a := by
    intro i
    have := integral_map (μ := P) (f := accepts r) (hc.measurable i).aemeasurable (accepts_measurable hrm).aestronglyMeasurable
    rw [hc.law] at this
    exact this.symm.trans hmean.2
  have hZv : ∀ i, Var[Z i; P] = a - a ^ 2 := by
    intro i
    rw [variance_eq_sub (hZl i), hZe i]
    congr 1
    rw [← hZe i]
    refine integral_congr_ae (Filter.Eventually.of_forall fun ω => ?_)
    rcases h01 (Y i ω) with h | h <;> simp [hZ, h]
  have hZi : iIndepFun Z P := hc.independent.comp (fun _ => accepts r) fun _ => accepts_measurable hrm
  have hcount : ∀ ω, ((acceptedSet r (agents ω) fun i => (g.uniform (state ω) n).1.getD i 0).card : ℝ) = ∑ i, Z i ω := by
    intro ω
    simp only [acceptedSet, hZ, accepts, hY, Finset.card_filter]
    push_cast
    rfl
  have hsl : MemLp (fun ω => ∑ i, Z i ω) 2 P := memLp_finsetSum _ fun i _ => hZl i
  have hse : ∫ ω, ∑ i, Z i ω ∂P = n * a := by
    rw [integral_finsetSum _ fun i _ => (hZl i).integrable (by norm_num), Finset.sum_congr rfl fun i _ => hZe i]
    simp
  have hsv : Var[fun ω => ∑ i, Z i ω; P] = n * (a - a ^ 2) := by
    have := IndepFun.variance_sum (X := Z) (s := Finset.univ) (fun i _ => hZl i) fun i _ j _ hij => hZi.indepFun hij
    have he : (∑ i, Z i) = fun ω => ∑ i, Z i ω := by
      funext ω
      simp
    rw [he] at this
    rw [this, Finset.sum_congr rfl fun i _ => hZv i, Finset.sum_const, Finset.card_univ, Fintype.card_fin, nsmul_eq_mul]
  have hna : (1 + η) * draws ≤ n * a := by
    rw [hrate]
    have := mul_le_mul_of_nonneg_right hmany (div_pos hI hM0).le
    calc (1 + η) * (draws : ℝ) = (1 + η) * (M * draws / share) * (share / M) := by field_simp
      _ ≤ _ := this
  have hgap : η * draws ≤ n * a - draws := by linarith
  have hgap0 : 0 < (n : ℝ) * a - draws := lt_of_lt_of_le (by positivity) hgap
  have hcheb := meas_ge_le_variance_div_sq hsl hgap0
  rw [hse, hsv] at hcheb
  refine (measure_mono ?_).trans (hcheb.trans (ENNReal.ofReal_le_ofReal ?_))
  · intro ω hω
    rw [succeeds_eq, Set.mem_compl_iff, Set.mem_ofPred_eq, not_le] at hω
    have hlt : ((acceptedSet r (agents ω) fun i => (g.uniform (state ω) n).1.getD i 0).card : ℝ) < draws := by exact_mod_cast hω
    rw [hcount] at hlt
    change n * a - draws ≤ |∑ i, Z i ω - n * a|
    rw [abs_sub_comm]
    exact le_trans (by linarith) (le_abs_self _)
  · have hnum : (n : ℝ) * (a - a ^ 2) ≤ n * a := by nlinarith [sq_nonneg a, Nat.cast_nonneg (α := ℝ) n]
    rw [div_le_div_iff₀ (by positivity) (by positivity)]
    have hkey : n * a * (η ^ 2 * draws) ≤ (1 + η) * (n * a - draws) ^ 2 := by
      nlinarith [mul_nonneg (sub_nonneg.mpr hna) (sub_nonneg.mpr hna), mul_nonneg (mul_nonneg hη.le hη.le) hd0.le, mul_nonneg hη.le (sub_nonneg.mpr hna),
        mul_nonneg hd0.le (sub_nonneg.mpr hna), mul_nonneg (mul_nonneg hη.le hd0.le) (sub_nonneg.mpr hna)]
    refine le_trans ?_ hkey
    exact mul_le_mul_of_nonneg_right hnum (by positivity)

end

/-! ## A concrete case -/

/-- A generator that gives numbers of its state and chooses what comes first. -/
noncomputable def replayed (n : ℕ) : Generator (Fin n → ℝ) where
  uniform := fun s k => (List.ofFn fun i : Fin k => if h : (i : ℕ) < n then Int.fract (s ⟨i, h⟩) else 0, s)
  choice := fun s l k => (l.take k, s)

lemma replayed_valid (n : ℕ) : (replayed n).Valid where
  uniform_length := fun s k => List.length_ofFn
  uniform_range := by
    intro s k u hu
    obtain ⟨i, rfl⟩ := List.mem_ofFn.mp hu
    split_ifs
    · exact ⟨Int.fract_nonneg _, Int.fract_lt_one _⟩
    · norm_num
  choice_length := fun s l k hk => by simp [replayed, hk]
  choice_nodup := fun s l k hl => hl.sublist (List.take_sublist k l)
  choice_subset := fun s l k => List.take_subset k l

/-- Candidates with independent standard normal tastes. -/
noncomputable def normalCandidates (n : ℕ) : Measure (Fin n → ℝ × ℝ) := Measure.pi fun _ => (gaussianReal 0 1).prod (volume.restrict (Set.Ico (0 : ℝ) 1))

lemma replayed_cutoffs {n : ℕ} (s : Fin n → ℝ) (i : Fin n) : ((replayed n).uniform s n).1.getD i 0 = Int.fract (s i) := by
  rw [getD_getElem _ _ (by simp [replayed])]
  simp [replayed]

lemma normal_candidates (n draws : ℕ) :
    RandomCandidates (normalCandidates n) (gaussianReal 0 1) (replayed n) draws (fun ω i => (ω i).1) fun ω i => (ω i).2 := by
  have : IsProbabilityMeasure (volume.restrict (Set.Ico (0 : ℝ) 1)) := ⟨by simp⟩
  set φ : ℝ × ℝ → ℝ × ℝ := fun y => (y.1, Int.fract y.2)
  have hφ : Measurable φ := measurable_fst.prodMk (measurable_fract.comp measurable_snd)
  have he : ∀ i, (fun ω : Fin n → ℝ × ℝ => ((ω i).1, ((replayed n).uniform (fun i => (ω i).2) n).1.getD i 0)) = fun ω => φ (ω i) := by
    intro i
    funext ω
    rw [replayed_cutoffs]
  have hlaw : ((gaussianReal 0 1).prod (volume.restrict (Set.Ico (0 : ℝ) 1))).map φ = (gaussianReal 0 1).prod (volume.restrict (Set.Ico (0 : ℝ) 1)) := by
    have hfr : (volume.restrict (Set.Ico (0 : ℝ) 1)).map Int.fract = volume.restrict (Set.Ico (0 : ℝ) 1) := by
      have h : (Int.fract : ℝ → ℝ) =ᵐ[volume.restrict (Set.Ico (0 : ℝ) 1)] id := by
        filter_upwards [ae_restrict_mem measurableSet_Ico] with u hu
        exact Int.fract_eq_self.mpr hu
      rw [Measure.map_congr h, Measure.map_id]
    have := Measure.map_prod_map (gaussianReal 0 1) (volume.restrict (Set.Ico (0 : ℝ) 1)) measurable_id measurable_fract
    rw [Measure.map_id, hfr] at this
    exact this.symm
  refine ⟨fun i => ?_, fun i => ?_, ?_, fun l => ?_, fun l => ?_⟩
  · rw [he]
    exact hφ.comp (measurable_pi_apply i)
  · rw [he]
    have := Measure.map_map (μ := normalCandidates n) hφ (measurable_pi_apply (X := fun _ : Fin n => ℝ × ℝ) i)
    refine this.symm.trans ?_
    rw [normalCandidates, Measure.pi_map_eval]
    simp [hlaw]
  · rw [show (fun (i : Fin n) (ω : Fin n → ℝ × ℝ) => ((ω i).1, ((replayed n).uniform (fun i => (ω i).2) n).1.getD i 0)) = fun i ω => φ (ω i) from funext he]
    exact iIndepFun_pi (μ := fun _ : Fin n => (gaussianReal 0 1).prod (volume.restrict (Set.Ico (0 : ℝ) 1))) (X := fun _ => φ) fun _ => hφ.aemeasurable
  · exact @measurable_const (List ℕ) (Fin n → ℝ × ℝ) ⊤ _ (l.take draws)
  · have : IsProbabilityMeasure (normalCandidates n) := by
      unfold normalCandidates
      infer_instance
    exact indepFun_const_left (mβ := ⊤) (l.take draws) _

/-- A market with one product: the share is estimated without error from 50 draws out of 200 candidates, whatever the constant, and consumer surplus without bias. -/
example : let inside : ℝ → ℝ := fun ν => 1 / (1 + Real.exp (-(1 + 2 * ν)))
    let share := ∫ ν, inside ν ∂(gaussianReal 0 1)
    let weights := fun ω : Fin 200 → ℝ × ℝ => sampledWeights (replayed 200) 50 2 share inside (fun i => (ω i).1) fun i => (ω i).2
    let success := succeeds (replayed 200) 50 2 share inside (fun (ω : Fin 200 → ℝ × ℝ) i => (ω i).1) fun ω i => (ω i).2
    Var[fun ω => sampledSum inside (fun i => (ω i).1) (weights ω); (normalCandidates 200)[|success]] ≤ 0 ∧
      ∫ ω, sampledSum (fun ν => ν) (fun i => (ω i).1) (weights ω) ∂((normalCandidates 200)[|success]) = 0 := by
  intro inside share weights success
  have hP : IsProbabilityMeasure (normalCandidates 200) := by
    have : IsProbabilityMeasure (volume.restrict (Set.Ico (0 : ℝ) 1)) := ⟨by simp⟩
    unfold normalCandidates
    infer_instance
  have hpos : ∀ ν, 0 < inside ν := fun ν => by positivity
  have hle : ∀ ν, inside ν ≤ 1 := fun ν => (div_le_one (by positivity)).mpr (by linarith [Real.exp_pos (-(1 + 2 * ν))])
  have hm : Measurable inside := by fun_prop
  constructor
  · refine (C142_shares (f := inside) (share := share) (replayed_valid 200) (normal_candidates 200 50) (by norm_num) (by norm_num) (by norm_num) hm hpos hle rfl hm
      (fun x => (hpos x).le) fun x => le_rfl).trans ?_
    simp [share]
  · refine (C142_unbiased (f := fun ν => ν) (share := share) (replayed_valid 200) (normal_candidates 200 50) (by norm_num) (by norm_num) (by norm_num) hm hpos hle rfl
      measurable_id ?_).trans ?_
    · exact (memLp_id_gaussianReal 1).integrable le_rfl
    · exact integral_id_gaussianReal

end Pyblp
