import Verif.Lemmas.NestedOligopoly

/-! # Changes of costs with nested logit demand

Markups are relative to costs, so if the cost of a product changes by `t j`, what consumers would choose at cost changes by the factor
`exp (-(a / (1 - rho) * t j))`, and prices at markups `z` are those at markups `z + t` before. -/

set_option linter.unusedSectionVars false

namespace Pyblp

namespace NestedOligopoly

variable {J G : Type} [Fintype J] [Fintype G] [DecidableEq G] {group : J → G} {rho : G → ℝ} {a : ℝ} {A : J → ℝ}

/-- Exponentials of utilities at cost after changes of costs. -/
noncomputable def atChangedCost (group : J → G) (rho : G → ℝ) (a : ℝ) (A t : J → ℝ) (j : J) : ℝ := A j * Real.exp (-(a / (1 - rho (group j)) * t j))

lemma mass_changed (t z : J → ℝ) : mass group rho a (atChangedCost group rho a A t) z = mass group rho a A (fun j => z j + t j) := by
  funext j
  rw [mass, mass, atChangedCost, mul_assoc, ← Real.exp_add]
  congr 2
  ring

lemma share_changed (t z : J → ℝ) : share group rho a (atChangedCost group rho a A t) z = share group rho a A (fun j => z j + t j) := by
  funext j
  simp only [share, denom, nestMass, mass_changed]

variable (ha : 0 < a) (hr0 : ∀ g, 0 ≤ rho g) (hr1 : ∀ g, rho g < 1) (hA : ∀ j, 0 < A j)

include ha hr0 hr1 hA

lemma no_fall_cost (own own' : J → Prop) [DecidablePred own] [DecidablePred own'] (hown : ∀ j, own j → own' j) (t : J → ℝ) (t₀ : ℝ)
    (ht : ∀ j, own' j → t j = t₀) (q z : J → ℝ) (hq : Foc group rho a (atChangedCost group rho a A t) own q) (hz : Foc group rho a A own' z)
    (hqpos : ∀ j, own' j → 0 ≤ q j) (k : J) (hk : own k) (D : ℝ) (hD : q k + t k = z k + D) (hDp : 0 ≤ D) (hDt : t₀ < D)
    (hle : ∀ j, q j + t j ≤ z j + D) : False := by
  have hA' : ∀ j, 0 < atChangedCost group rho a A t j := fun j => mul_pos (hA j) (Real.exp_pos _)
  set A' := atChangedCost group rho a A t with hA'def
  have hEp : 0 < D - t₀ := by linarith
  have hP0z := (foc_markups ha hr0 hr1 hA own' z hz).choose_spec.2.1
  have hgap : profit group rho a A' own' q < profit group rho a A own' z + (D - t₀) := by
    obtain ⟨c, hc, hshare⟩ := share_shift (group := group) (rho := rho) (a := a) hr1 hA (fun j => q j + t j) D
    have hc1 := hc (mul_nonneg ha.le hDp)
    have hopt := optimal ha hr0 hr1 hA own' z hz (fun k => q k + t k - D) fun k _ => by linarith [hle k]
    have htot := total_share_lt (group := group) (a := a) hr1 hA' own' q
    have heq : profit group rho a A own' (fun k => q k + t k - D) = c * (profit group rho a A' own' q - (D - t₀) * ∑ j with own' j, share group rho a A' q j) := by
      rw [profit, profit, Finset.mul_sum, ← Finset.sum_sub_distrib, Finset.mul_sum]
      refine Finset.sum_congr rfl fun j hj => ?_
      rw [hshare, hA'def, share_changed, ht j (Finset.mem_filter.mp hj).2]
      ring
    rw [heq] at hopt
    set S := ∑ j with own' j, share group rho a A' q j
    have hDS : (D - t₀) * S < D - t₀ := by nlinarith
    rcases le_total ((D - t₀) * S) (profit group rho a A' own' q) with h | h
    · nlinarith
    · linarith
  have hmore : profit group rho a A' own q ≤ profit group rho a A' own' q := by
    refine Finset.sum_le_sum_of_subset_of_nonneg (fun j hj => ?_) fun j hj _ => mul_nonneg (hqpos j (Finset.mem_filter.mp hj).2) (share_nonneg hA' q j)
    simp only [Finset.mem_filter, Finset.mem_univ, true_and] at hj ⊢
    exact hown j hj
  obtain ⟨M, hM, hP0, hMc⟩ := foc_markups ha hr0 hr1 hA _ z hz
  obtain ⟨M', hM', hP0', hMc'⟩ := foc_markups ha hr0 hr1 hA' _ q hq
  obtain ⟨hMp, hNp, hc⟩ := hMc (group k) ⟨k, rfl, hown k hk⟩
  obtain ⟨hMp', hNp', hc'⟩ := hMc' (group k) ⟨k, rfl, hk⟩
  set g := group k
  have hMD : M' g = M g + (D - t₀) := by rw [← hM k (hown k hk), ← hM' k hk]; linarith [ht k (hown k hk)]
  set b := a / (1 - rho g) with hb
  have hbp : 0 < b := div_pos ha (by linarith [hr1 g])
  have hE : ownMass group rho a A' own q g = Real.exp (-(b * D)) * ownMass group rho a A own z g := by
    rw [ownMass, ownMass, Finset.mul_sum, hA'def, mass_changed]
    refine Finset.sum_congr rfl fun j hj => ?_
    have hj' := (Finset.mem_filter.mp hj).2
    rw [mass, mass, hM' j hj'.2, hM j (hown j hj'.2), hj'.1, hMD, ht j (hown j hj'.2), mul_left_comm, ← Real.exp_add]
    congr 2
    ring
  have hN : Real.exp (-(b * D)) * nestMass group rho a A z g ≤ nestMass group rho a A' q g := by
    rw [nestMass, nestMass, Finset.mul_sum, hA'def, mass_changed]
    refine Finset.sum_le_sum fun j hj => ?_
    rw [mass, mass, (Finset.mem_filter.mp hj).2, mul_left_comm, ← Real.exp_add]
    refine mul_le_mul_of_nonneg_left (Real.exp_le_exp.mpr ?_) (hA j).le
    have := mul_le_mul_of_nonneg_left (hle j) hbp.le
    linarith
  set C := ownMass group rho a A own' z g / nestMass group rho a A z g with hC
  set C' := ownMass group rho a A' own q g / nestMass group rho a A' q g with hC'
  have hCC : C' ≤ C := by
    refine le_trans ?_ (div_le_div_of_nonneg_right (show ownMass group rho a A own z g ≤ ownMass group rho a A own' z g from
      Finset.sum_le_sum_of_subset_of_nonneg (fun j hj => by
        simp only [Finset.mem_filter, Finset.mem_univ, true_and] at hj ⊢
        exact ⟨hj.1, hown j hj.2⟩) fun j _ _ => (mass_pos hA z j).le) hNp.le)
    rw [hC', hE, div_le_div_iff₀ hNp' hNp]
    have := mul_le_mul_of_nonneg_left hN (ownMass_nonneg (group := group) (rho := rho) (a := a) hA own z g)
    nlinarith
  have hC1 : C ≤ 1 := (div_le_one hNp).mpr (by rw [nestMass_split own']; linarith [rivalMass_nonneg (group := group) (rho := rho) (a := a) hA own' z g])
  have hr := hr1 g
  have hrr := hr0 g
  have hr' : (1 : ℝ) - rho g ≠ 0 := by linarith
  have e1 : a * M g * (1 - rho g * C) = (1 - rho g) * (1 + a * profit group rho a A own' z) := by
    rw [← hc, hb]; field_simp
  have e2 : a * M' g * (1 - rho g * C') = (1 - rho g) * (1 + a * profit group rho a A' own q) := by
    rw [← hc', hb]; field_simp
  have h1 : a * M' g * (1 - rho g * C) ≤ a * M' g * (1 - rho g * C') :=
    mul_le_mul_of_nonneg_left (by nlinarith) (mul_pos ha hMp').le
  rw [hMD] at h1 e2
  set E := D - t₀
  have h2 : a * E * (1 - rho g * C) ≤ (1 - rho g) * a * (profit group rho a A' own q - profit group rho a A own' z) := by nlinarith
  have h3 : (1 - rho g) * a * (profit group rho a A' own q - profit group rho a A own' z) < (1 - rho g) * a * E :=
    mul_lt_mul_of_pos_left (by linarith) (mul_pos (by linarith) ha)
  have h4 : (1 - rho g) * (a * E) ≤ (1 - rho g * C) * (a * E) := mul_le_mul_of_nonneg_right (by nlinarith) (mul_pos ha hEp).le
  linarith

/-- Prices after a change of costs are at most those before plus the largest increase of costs, if no cost falls, and firms did not split up. -/
theorem change_at_most {F F' : Type} [DecidableEq F] [DecidableEq F'] (firm : J → F) (firm' : J → F') (hmerge : ∀ j k, firm j = firm k → firm' j = firm' k)
    (t : J → ℝ) (ht : ∀ j k, firm' j = firm' k → t j = t k) (T : ℝ) (hT : 0 ≤ T) (htT : ∀ j, t j ≤ T) (q z : J → ℝ)
    (hq : ∀ f, Foc group rho a (atChangedCost group rho a A t) (fun k => firm k = f) q) (hz : ∀ f, Foc group rho a A (fun k => firm' k = f) z) :
    ∀ k, q k + t k ≤ z k + T := by
  by_contra hne
  push Not at hne
  obtain ⟨k₀, hk₀⟩ := hne
  obtain ⟨k, -, hk⟩ := Finset.exists_max_image Finset.univ (fun k => q k + t k - z k) ⟨k₀, Finset.mem_univ _⟩
  have hA' : ∀ j, 0 < atChangedCost group rho a A t j := fun j => mul_pos (hA j) (Real.exp_pos _)
  set D := q k + t k - z k with hD
  have hDp : T < D := lt_of_lt_of_le (by linarith) (hk k₀ (Finset.mem_univ _))
  have hqpos : ∀ j, 0 < q j := fun j => by
    obtain ⟨M, hM, -, hMc⟩ := foc_markups ha hr0 hr1 hA' _ q (hq (firm j))
    rw [hM j rfl]
    exact (hMc (group j) ⟨j, rfl, rfl⟩).1
  exact no_fall_cost ha hr0 hr1 hA (fun j => firm j = firm k) (fun j => firm' j = firm' k) (fun j hj => hmerge j k hj) t (t k) (fun j hj => ht j k hj) q z (hq _) (hz _)
    (fun j _ => (hqpos j).le) k rfl D (by rw [hD]; ring) (by linarith) (by linarith [htT k]) fun j => by linarith [hk j (Finset.mem_univ _)]

/-- If the costs of a firm rise and no other costs fall, and firms do not split up, prices of the firm rise. -/
theorem change_up {F F' : Type} [DecidableEq F] [DecidableEq F'] (firm : J → F) (firm' : J → F') (hmerge : ∀ j k, firm j = firm k → firm' j = firm' k)
    (t : J → ℝ) (ht : ∀ j k, firm' j = firm' k → t j = t k) (htT : ∀ j, t j ≤ 0) (q z : J → ℝ)
    (hq : ∀ f, Foc group rho a (atChangedCost group rho a A t) (fun k => firm k = f) q) (hz : ∀ f, Foc group rho a A (fun k => firm' k = f) z)
    (k : J) (hk : t k < 0) : q k + t k < z k := by
  have hle := change_at_most ha hr0 hr1 hA firm firm' hmerge t ht 0 le_rfl htT q z hq hz
  have hA' : ∀ j, 0 < atChangedCost group rho a A t j := fun j => mul_pos (hA j) (Real.exp_pos _)
  by_contra hne
  push Not at hne
  have hqpos : ∀ j, 0 < q j := fun j => by
    obtain ⟨M, hM, -, hMc⟩ := foc_markups ha hr0 hr1 hA' _ q (hq (firm j))
    rw [hM j rfl]
    exact (hMc (group j) ⟨j, rfl, rfl⟩).1
  exact no_fall_cost ha hr0 hr1 hA (fun j => firm j = firm k) (fun j => firm' j = firm' k) (fun j hj => hmerge j k hj) t (t k) (fun j hj => ht j k hj) q z (hq _) (hz _)
    (fun j _ => (hqpos j).le) k rfl 0 (by linarith [hle k]) le_rfl hk hle

end NestedOligopoly

end Pyblp
