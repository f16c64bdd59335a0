import Verif.Lemmas.NestedIteration
import Verif.Lemmas.NestedCosts

/-! Iteration for markups that starts where no first step lowers one. -/

set_option linter.unusedSectionVars false

namespace Pyblp

namespace NestedOligopoly

open Finset

variable {J G F : Type} [Fintype J] [Fintype G] [DecidableEq G] [DecidableEq F] {group : J → G} {rho : G → ℝ} {a : ℝ} {A : J → ℝ} {firm : J → F}

/-- If a step from one markup is no lower, then a step from another markup between the two is not either. -/
lemma nextMarkup_between {r E0 R K t s : ℝ} (ha : 0 < a) (hr0 : 0 ≤ r) (hr1 : r < 1) (hE0 : 0 < E0) (hR : 0 ≤ R) (hK : 1 ≤ K) (ht0 : 0 ≤ t) (hts : t ≤ s)
    (hs : s ≤ nextMarkup a r E0 R K t) : s ≤ nextMarkup a r E0 R K s := by
  set h := nextMarkup a r E0 R K with hh
  by_contra hlt
  push Not at hlt
  have hcont : ContinuousOn (fun s => h s - s) (Set.Icc t s) := ((nextMarkup_continuous ha hr0 hr1 hE0 hR hK).sub continuous_id).continuousOn
  obtain ⟨u, hu, hu0⟩ := intermediate_value_Icc' hts hcont (show (0 : ℝ) ∈ Set.Icc (h s - s) (h t - t) from ⟨by linarith, by linarith⟩)
  have hfix : h u = u := by simp only at hu0; linarith
  have h1 := nextMarkup_monotoneOn ha hr0 hr1 hE0 hR hK hfix.ge ⟨ht0, hu.1⟩ ⟨ht0.trans hu.1, le_rfl⟩ hu.1
  rw [← hh, hfix] at h1
  have heq : u = s := le_antisymm hu.2 (hs.trans h1)
  rw [heq] at hfix
  linarith

/-- Markups weighted by demand are at most the common markup with the same total demand. -/
lemma weighted_le {S : Finset J} {b t : ℝ} (hb : 0 < b) (hA : ∀ j, 0 < A j) (z : J → ℝ)
    (ht : (∑ j ∈ S, A j) * Real.exp (-(b * t)) = ∑ j ∈ S, A j * Real.exp (-(b * z j))) :
    ∑ j ∈ S, z j * (A j * Real.exp (-(b * z j))) ≤ t * ∑ j ∈ S, A j * Real.exp (-(b * z j)) := by
  have hterm : ∀ j ∈ S, A j * Real.exp (-(b * z j)) - A j * Real.exp (-(b * t)) ≤ b * (t * (A j * Real.exp (-(b * z j))) - z j * (A j * Real.exp (-(b * z j)))) := by
    intro j _
    have h1 := Real.add_one_le_exp (-(b * (t - z j)))
    have h2 : Real.exp (-(b * t)) = Real.exp (-(b * z j)) * Real.exp (-(b * (t - z j))) := by rw [← Real.exp_add]; congr 1; ring
    have h3 : 0 < A j * Real.exp (-(b * z j)) := mul_pos (hA j) (Real.exp_pos _)
    rw [h2]
    nlinarith [mul_le_mul_of_nonneg_left h1 h3.le]
  have h := Finset.sum_le_sum hterm
  rw [Finset.sum_sub_distrib, ← Finset.sum_mul, ht, sub_self, ← Finset.mul_sum, Finset.sum_sub_distrib, ← Finset.mul_sum] at h
  have := nonneg_of_mul_nonneg_right h hb
  linarith

variable (ha : 0 < a) (hr0 : ∀ g, 0 ≤ rho g) (hr1 : ∀ g, rho g < 1) (hA : ∀ j, 0 < A j) (hone : ∀ j k, firm j = firm k → group j = group k)

/-- The common markup at which products of a firm have the same total demand. -/
noncomputable def even (group : J → G) (rho : G → ℝ) (a : ℝ) (A : J → ℝ) (firm : J → F) (z : J → ℝ) (k : J) : ℝ :=
  -(Real.log ((∑ j with firm j = firm k, mass group rho a A z j) / ∑ j with firm j = firm k, A j) / (a / (1 - rho (group k))))

include hr0 hr1 hA in
/-- With more products, a firm's step is no lower. -/
lemma step_coarser {F' : Type} [DecidableEq F'] {firm' : J → F'} (hm : ∀ j k, firm j = firm k → firm' j = firm' k) (z : J → ℝ) (hz : ∀ k, 0 ≤ z k) (k : J) :
    step group rho a A firm z k ≤ step group rho a A firm' z k := by
  have h1 : 0 ≤ 1 - rho (group k) := by linarith [hr1 (group k)]
  have hs : ∀ j, 0 ≤ share group rho a A z j := fun j =>
    div_nonneg (mul_nonneg (mass_pos hA z j).le (Real.rpow_nonneg (nestMass_nonneg hA z _) _)) (denom_pos hA z).le
  refine add_le_add (add_le_add le_rfl (mul_le_mul_of_nonneg_left (div_le_div_of_nonneg_right ?_ (nestMass_nonneg hA z _)) (hr0 _))) (mul_le_mul_of_nonneg_left ?_ h1)
  · refine Finset.sum_le_sum_of_subset_of_nonneg (fun j hj => ?_) fun j _ _ => mul_nonneg (hz j) (mass_pos hA z j).le
    simp only [Finset.mem_filter, Finset.mem_univ, true_and] at hj ⊢
    exact ⟨hj.1, hm j k hj.2⟩
  · refine Finset.sum_le_sum_of_subset_of_nonneg (fun j hj => ?_) fun j _ _ => mul_nonneg (hz j) (hs j)
    simp only [Finset.mem_filter, Finset.mem_univ, true_and] at hj ⊢
    exact hm j k hj

include hr0 hr1 hA in
/-- If costs of a firm rise by the same amount, a step from the same prices raises its markups by at least what they fall by. -/
lemma step_changed (t z : J → ℝ) (ht : ∀ j k, firm j = firm k → t j = t k) (ht0 : ∀ k, 0 ≤ t k) (k : J) :
    step group rho a A firm z k ≤ step group rho a (atChangedCost group rho a A t) firm (fun j => z j - t j) k + t k := by
  have hback : (fun j => z j - t j + t j) = z := funext fun j => by ring
  have hmass : mass group rho a (atChangedCost group rho a A t) (fun j => z j - t j) = mass group rho a A z := by rw [mass_changed, hback]
  have hshare : share group rho a (atChangedCost group rho a A t) (fun j => z j - t j) = share group rho a A z := by rw [share_changed, hback]
  have h1 : 0 ≤ 1 - rho (group k) := by linarith [hr1 (group k)]
  have hS := (total_share_lt (group := group) (a := a) hr1 hA (fun j => firm j = firm k) z).le
  have hN : 0 < nestMass group rho a A z (group k) := Finset.sum_pos (fun i _ => mass_pos hA z i) ⟨k, by simp⟩
  have hC : (∑ j with group j = group k ∧ firm j = firm k, mass group rho a A z j) / nestMass group rho a A z (group k) ≤ 1 := by
    refine (div_le_one hN).mpr (Finset.sum_le_sum_of_subset_of_nonneg (fun j hj => ?_) fun j _ _ => (mass_pos hA z j).le)
    simp only [Finset.mem_filter, Finset.mem_univ, true_and] at hj ⊢
    exact hj.1
  have e1 : ∑ j with group j = group k ∧ firm j = firm k, (z j - t j) * mass group rho a A z j =
      ∑ j with group j = group k ∧ firm j = firm k, z j * mass group rho a A z j - t k * ∑ j with group j = group k ∧ firm j = firm k, mass group rho a A z j := by
    rw [Finset.mul_sum, ← Finset.sum_sub_distrib]
    refine Finset.sum_congr rfl fun j hj => ?_
    rw [ht j k (Finset.mem_filter.mp hj).2.2]
    ring
  have e2 : ∑ j with firm j = firm k, (z j - t j) * share group rho a A z j =
      ∑ j with firm j = firm k, z j * share group rho a A z j - t k * ∑ j with firm j = firm k, share group rho a A z j := by
    rw [Finset.mul_sum, ← Finset.sum_sub_distrib]
    refine Finset.sum_congr rfl fun j hj => ?_
    rw [ht j k (Finset.mem_filter.mp hj).2]
    ring
  have e3 : nestMass group rho a (atChangedCost group rho a A t) (fun j => z j - t j) (group k) = nestMass group rho a A z (group k) := by rw [nestMass, nestMass, hmass]
  rw [step, step, profit, profit, hmass, hshare, e3, e1, e2, sub_div (∑ j with group j = group k ∧ firm j = firm k, z j * mass group rho a A z j), mul_div_assoc]
  set C := (∑ j with group j = group k ∧ firm j = firm k, mass group rho a A z j) / nestMass group rho a A z (group k)
  set S := ∑ j with firm j = firm k, share group rho a A z j
  have h2 := mul_le_mul_of_nonneg_left hC (mul_nonneg (ht0 k) (hr0 (group k)))
  have h3 := mul_le_mul_of_nonneg_left hS (mul_nonneg (ht0 k) h1)
  linarith

include ha hr0 hr1 hA hone

lemma even_common (z : J → ℝ) (j k : J) (h : firm j = firm k) : even group rho a A firm z j = even group rho a A firm z k := by
  simp only [even, h, hone j k h]

lemma even_sum (z : J → ℝ) (k : J) : (∑ j with firm j = firm k, A j) * Real.exp (-(a / (1 - rho (group k)) * even group rho a A firm z k)) =
    ∑ j with firm j = firm k, mass group rho a A z j := by
  have hE := base_pos ha hr0 hr1 hA hone k
  have hM : 0 < ∑ j with firm j = firm k, mass group rho a A z j := Finset.sum_pos (fun j _ => mass_pos hA z j) ⟨k, by simp⟩
  have hb : 0 < a / (1 - rho (group k)) := div_pos ha (by linarith [hr1 (group k)])
  rw [even, mul_neg, neg_neg, mul_div_cancel₀ _ hb.ne', Real.exp_log (div_pos hM hE), mul_div_cancel₀ _ hE.ne']

lemma even_mass (z : J → ℝ) (k : J) : ∑ j with firm j = firm k, mass group rho a A (even group rho a A firm z) j =
    ∑ j with firm j = firm k, mass group rho a A z j := by
  rw [← even_sum ha hr0 hr1 hA hone z k, Finset.sum_mul]
  refine Finset.sum_congr rfl fun j hj => ?_
  have hj' := (Finset.mem_filter.mp hj).2
  rw [mass, even_common ha hr0 hr1 hA hone z j k hj', hone j k hj']

lemma even_nest (z : J → ℝ) (g : G) : nestMass group rho a A (even group rho a A firm z) g = nestMass group rho a A z g := by
  unfold nestMass
  rw [← Finset.sum_fiberwise_of_maps_to (s := Finset.univ.filter fun j => group j = g) (t := Finset.univ.image firm) (g := firm) (fun j _ => by simp),
    ← Finset.sum_fiberwise_of_maps_to (s := Finset.univ.filter fun j => group j = g) (t := Finset.univ.image firm) (g := firm) (fun j _ => by simp)]
  refine Finset.sum_congr rfl fun f hf => ?_
  obtain ⟨k, _, rfl⟩ := Finset.mem_image.mp hf
  rw [Finset.filter_filter]
  by_cases hk : group k = g
  · have hset : (Finset.univ.filter fun j => group j = g ∧ firm j = firm k) = Finset.univ.filter fun j => firm j = firm k := by
      ext j
      simp only [Finset.mem_filter, Finset.mem_univ, true_and, and_iff_right_iff_imp]
      exact fun h => (hone j k h).trans hk
    rw [hset, even_mass ha hr0 hr1 hA hone z k]
  · have hset : (Finset.univ.filter fun j => group j = g ∧ firm j = firm k) = ∅ := by
      ext j
      simp only [Finset.mem_filter, Finset.mem_univ, true_and, Finset.notMem_empty, iff_false, not_and]
      exact fun h1 h2 => hk ((hone j k h2).symm.trans h1)
    rw [hset, Finset.sum_empty, Finset.sum_empty]

lemma even_denom (z : J → ℝ) : denom group rho a A (even group rho a A firm z) = denom group rho a A z := by
  simp only [denom, even_nest ha hr0 hr1 hA hone z]

/-- A step is a constant plus a multiple of what a firm earns with its demand in the nest. -/
lemma step_weighted (z : J → ℝ) (k : J) : step group rho a A firm z k = (1 - rho (group k)) / a +
    (∑ j with firm j = firm k, z j * mass group rho a A z j) *
      (rho (group k) / nestMass group rho a A z (group k) + (1 - rho (group k)) * (nestMass group rho a A z (group k) ^ (-rho (group k)) / denom group rho a A z)) := by
  have hset : (Finset.univ.filter fun j => group j = group k ∧ firm j = firm k) = Finset.univ.filter fun j => firm j = firm k := by
    ext j
    simp only [Finset.mem_filter, Finset.mem_univ, true_and, and_iff_right_iff_imp]
    exact fun h => hone j k h
  have hprofit : profit group rho a A (fun j => firm j = firm k) z =
      (∑ j with firm j = firm k, z j * mass group rho a A z j) * (nestMass group rho a A z (group k) ^ (-rho (group k)) / denom group rho a A z) := by
    rw [Finset.sum_mul]
    refine Finset.sum_congr rfl fun j hj => ?_
    rw [share, hone j k (Finset.mem_filter.mp hj).2]
    ring
  rw [step, hset, hprofit]
  ring

/-- A step is no higher than one from the common markup with the same demand. -/
lemma step_le_even (z : J → ℝ) (k : J) : step group rho a A firm z k ≤ step group rho a A firm (even group rho a A firm z) k := by
  rw [step_weighted ha hr0 hr1 hA hone, step_weighted ha hr0 hr1 hA hone (even group rho a A firm z), even_nest ha hr0 hr1 hA hone, even_denom ha hr0 hr1 hA hone]
  refine add_le_add le_rfl (mul_le_mul_of_nonneg_right ?_ ?_)
  · have hb : 0 < a / (1 - rho (group k)) := div_pos ha (by linarith [hr1 (group k)])
    have hm : ∀ j ∈ Finset.univ.filter fun j => firm j = firm k, mass group rho a A z j = A j * Real.exp (-(a / (1 - rho (group k)) * z j)) := fun j hj => by
      rw [mass, hone j k (Finset.mem_filter.mp hj).2]
    have h1 := weighted_le (S := Finset.univ.filter fun j => firm j = firm k) (t := even group rho a A firm z k) hb hA z
      ((even_sum ha hr0 hr1 hA hone z k).trans (Finset.sum_congr rfl hm))
    rw [Finset.sum_congr rfl fun j hj => congrArg (z j * ·) (hm j hj)]
    refine h1.trans (le_of_eq ?_)
    rw [← Finset.sum_congr rfl hm, ← even_mass ha hr0 hr1 hA hone z k, Finset.mul_sum]
    refine Finset.sum_congr rfl fun j hj => ?_
    rw [even_common ha hr0 hr1 hA hone z j k (Finset.mem_filter.mp hj).2]
  · have hN := nestMass_nonneg (group := group) (rho := rho) (a := a) hA z (group k)
    have := hr0 (group k)
    have h1 : 0 ≤ 1 - rho (group k) := by linarith [hr1 (group k)]
    exact add_nonneg (div_nonneg this hN) (mul_nonneg h1 (div_nonneg (Real.rpow_nonneg hN _) (denom_pos hA z).le))

/-- The common markup is between others. -/
lemma even_bounds (z : J → ℝ) (k : J) {lo hi : ℝ} (hlo : ∀ j, firm j = firm k → lo ≤ z j) (hhi : ∀ j, firm j = firm k → z j ≤ hi) :
    lo ≤ even group rho a A firm z k ∧ even group rho a A firm z k ≤ hi := by
  have hb : 0 < a / (1 - rho (group k)) := div_pos ha (by linarith [hr1 (group k)])
  have hE := base_pos ha hr0 hr1 hA hone k
  have hs := even_sum ha hr0 hr1 hA hone z k
  have hm : ∀ j ∈ Finset.univ.filter fun j => firm j = firm k, mass group rho a A z j = A j * Real.exp (-(a / (1 - rho (group k)) * z j)) := fun j hj => by
    rw [mass, hone j k (Finset.mem_filter.mp hj).2]
  rw [Finset.sum_congr rfl hm] at hs
  constructor
  · have : (∑ j with firm j = firm k, A j * Real.exp (-(a / (1 - rho (group k)) * z j))) ≤ (∑ j with firm j = firm k, A j) * Real.exp (-(a / (1 - rho (group k)) * lo)) := by
      rw [Finset.sum_mul]
      refine Finset.sum_le_sum fun j hj => mul_le_mul_of_nonneg_left (Real.exp_le_exp.mpr ?_) (hA j).le
      nlinarith [hlo j (Finset.mem_filter.mp hj).2]
    rw [← hs] at this
    have := Real.exp_le_exp.mp (le_of_mul_le_mul_left this hE)
    nlinarith
  · have : (∑ j with firm j = firm k, A j) * Real.exp (-(a / (1 - rho (group k)) * hi)) ≤ (∑ j with firm j = firm k, A j * Real.exp (-(a / (1 - rho (group k)) * z j))) := by
      rw [Finset.sum_mul]
      refine Finset.sum_le_sum fun j hj => mul_le_mul_of_nonneg_left (Real.exp_le_exp.mpr ?_) (hA j).le
      nlinarith [hhi j (Finset.mem_filter.mp hj).2]
    rw [← hs] at this
    have := Real.exp_le_exp.mp (le_of_mul_le_mul_left this hE)
    nlinarith

/-- If a first step lowers no markup, then a second one does not either. -/
lemma step_again (z : J → ℝ) (hz0 : ∀ k, 0 ≤ z k) (hup : ∀ k, z k ≤ step group rho a A firm z k) (k : J) :
    step group rho a A firm z k ≤ step group rho a A firm (step group rho a A firm z) k := by
  have hcommon : ∀ j k, firm j = firm k → step group rho a A firm z j = step group rho a A firm z k := fun j k hjk => by
    simp only [step, hone j k hjk, hjk]
  set e := even group rho a A firm z with he
  set w := step group rho a A firm z with hw
  have hb := even_bounds ha hr0 hr1 hA hone z k (lo := 0) (hi := w k) (fun j _ => hz0 j) fun j hj => (hup j).trans (hcommon j k hj).le
  have hw0 : 0 ≤ w k := (hz0 k).trans (hup k)
  have hle := step_le_even ha hr0 hr1 hA hone z k
  rw [step_common hA hone _ (even_common ha hr0 hr1 hA hone z) k] at hle
  have hEp := base_pos ha hr0 hr1 hA hone k
  have h1 := nextMarkup_between ha (hr0 (group k)) (hr1 (group k)) hEp (rivalMass_nonneg hA _ _ _) (elsewhere_ge hA _ _) hb.1 hb.2 hle
  rw [step_common hA hone w hcommon k]
  refine h1.trans ?_
  have hmass : ∀ j, mass group rho a A w j ≤ mass group rho a A z j := fun j => by
    refine mul_le_mul_of_nonneg_left (Real.exp_le_exp.mpr (neg_le_neg (mul_le_mul_of_nonneg_left (hup j) ?_))) (hA j).le
    exact div_nonneg ha.le (by linarith [hr1 (group j)])
  have hset : (Finset.univ.filter fun j => group j = group k ∧ firm j = firm k) = Finset.univ.filter fun j => firm j = firm k := by
    ext j
    simp only [Finset.mem_filter, Finset.mem_univ, true_and, and_iff_right_iff_imp]
    exact fun h => hone j k h
  have hriv : rivalMass group rho a A (fun j => firm j = firm k) e (group k) = rivalMass group rho a A (fun j => firm j = firm k) z (group k) := by
    have h1 := nestMass_split (group := group) (rho := rho) (a := a) (A := A) (fun j => firm j = firm k) e (group k)
    have h2 := nestMass_split (group := group) (rho := rho) (a := a) (A := A) (fun j => firm j = firm k) z (group k)
    have h3 : ownMass group rho a A (fun j => firm j = firm k) e (group k) = ownMass group rho a A (fun j => firm j = firm k) z (group k) := by
      rw [ownMass, ownMass, hset, he, even_mass ha hr0 hr1 hA hone z k]
    have h4 := even_nest ha hr0 hr1 hA hone z (group k)
    linarith
  have hR : rivalMass group rho a A (fun j => firm j = firm k) w (group k) ≤ rivalMass group rho a A (fun j => firm j = firm k) e (group k) := by
    rw [hriv]
    exact Finset.sum_le_sum fun j _ => hmass j
  have hK : elsewhere group rho a A w (group k) ≤ elsewhere group rho a A e (group k) := by
    unfold elsewhere
    simp only [he, even_nest ha hr0 hr1 hA hone z]
    gcongr with h _
    · exact nestMass_nonneg hA _ _
    · linarith [hr1 h]
    · exact Finset.sum_le_sum fun j _ => hmass j
  have h2 := slopeW_mono (R' := rivalMass group rho a A (fun j => firm j = firm k) w (group k)) (R := rivalMass group rho a A (fun j => firm j = firm k) e (group k))
    (K' := elsewhere group rho a A w (group k)) (K := elsewhere group rho a A e (group k)) ha (hr0 (group k)) (hr1 (group k)) hEp (rivalMass_nonneg hA _ _ _) hR
    (elsewhere_ge hA _ _) hK (w k)
  exact add_le_add le_rfl (mul_le_mul_of_nonneg_left h2 hw0)

/-- From markups that are not negative and that a first step does not lower, iteration increases to an equilibrium. -/
theorem converges_from (y : J → ℝ) (hy0 : ∀ k, 0 ≤ y k) (hy : ∀ k, y k ≤ step group rho a A firm y k) :
    ∃ z, step group rho a A firm z = z ∧ (∀ n k, (step group rho a A firm)^[n] y k ≤ (step group rho a A firm)^[n + 1] y k) ∧
      (∀ n k, (step group rho a A firm)^[n] y k ≤ z k) ∧ Filter.Tendsto (fun n => (step group rho a A firm)^[n] y) Filter.atTop (nhds z) := by
  set T := step group rho a A firm with hT
  set B := 1 / a + ∑ k, (∑ j with firm j = firm k, A j) ^ (1 - rho (group k)) / a + ∑ k, T y k with hBdef
  have hnn : ∀ k, 0 ≤ (∑ j with firm j = firm k, A j) ^ (1 - rho (group k)) / a := fun k =>
    div_nonneg (Real.rpow_nonneg (base_pos ha hr0 hr1 hA hone k).le _) ha.le
  have hT0 : ∀ k, 0 ≤ T y k := fun k => (hy0 k).trans (hy k)
  have hB : ∀ k, 1 / a + (∑ j with firm j = firm k, A j) ^ (1 - rho (group k)) / a ≤ B := fun k => by
    have := Finset.single_le_sum (f := fun k => (∑ j with firm j = firm k, A j) ^ (1 - rho (group k)) / a) (fun k _ => hnn k) (Finset.mem_univ k)
    have := Finset.sum_nonneg fun k (_ : k ∈ Finset.univ) => hT0 k
    linarith
  have hBT : ∀ k, T y k ≤ B := fun k => by
    have := Finset.single_le_sum (f := fun k => T y k) (fun k _ => hT0 k) (Finset.mem_univ k)
    have := Finset.sum_nonneg fun k (_ : k ∈ Finset.univ) => hnn k
    have := div_pos one_pos ha
    linarith
  set w : ℕ → J → ℝ := fun n => T^[n] y with hw
  have hsucc : ∀ n, w (n + 1) = T (w n) := fun n => Function.iterate_succ_apply' T n _
  have hinv : ∀ n, (∀ j k, firm j = firm k → w (n + 1) j = w (n + 1) k) ∧ (∀ k, 0 ≤ w (n + 1) k) ∧ (∀ k, w (n + 1) k ≤ B) ∧ ∀ k, w (n + 1) k ≤ T (w (n + 1)) k := by
    intro n
    induction n with
    | zero =>
      refine ⟨fun j k hjk => ?_, hT0, hBT, step_again ha hr0 hr1 hA hone y hy0 hy⟩
      change step group rho a A firm y j = step group rho a A firm y k
      simp only [step, hone j k hjk, hjk]
    | succ n ih =>
      rw [hsucc (n + 1)]
      exact step_invariant ha hr0 hr1 hA hone B hB (w (n + 1)) ih.1 ih.2.1 ih.2.2.1 ih.2.2.2
  have hmono : Monotone w := monotone_nat_of_le_succ fun n k => by
    rw [hsucc]
    cases n with
    | zero => exact hy k
    | succ n => exact (hinv n).2.2.2 k
  have hbdd : ∀ k, BddAbove (Set.range fun n => w n k) := fun k => ⟨B, by
    rintro _ ⟨n, rfl⟩
    exact (hmono (Nat.le_succ n) k).trans ((hinv n).2.2.1 k)⟩
  set z : J → ℝ := fun k => ⨆ n, w n k with hzdef
  have hlim : Filter.Tendsto w Filter.atTop (nhds z) :=
    tendsto_pi_nhds.mpr fun k => tendsto_atTop_ciSup (fun m n hmn => hmono hmn k) (hbdd k)
  have hfix : T z = z := isFixedPt_of_tendsto_iterate hlim (step_continuous hr1 hA).continuousAt
  exact ⟨z, hfix, fun n k => hmono (Nat.le_succ n) k, fun n k => le_ciSup (hbdd k) n, hlim⟩

end NestedOligopoly

end Pyblp
