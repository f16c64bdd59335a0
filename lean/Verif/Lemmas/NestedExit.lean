import Verif.Lemmas.NestedIteration

/-!
# Nested logit oligopoly without some products
-/

set_option linter.unusedSectionVars false

namespace Pyblp

namespace NestedOligopoly

variable {J J' G : Type} [Fintype J] [Fintype J'] [Fintype G] [DecidableEq G] {group : J → G} {rho : G → ℝ} {a : ℝ} {A : J → ℝ}
  (ha : 0 < a) (hr0 : ∀ g, 0 ≤ rho g) (hr1 : ∀ g, rho g < 1) (hA : ∀ j, 0 < A j) (keep : J' → J) (hkeep : Function.Injective keep)

include hkeep

lemma sum_keep_map (P : J → Prop) [DecidablePred P] (f : J → ℝ) :
    ∑ j with P (keep j), f (keep j) = ∑ j ∈ (Finset.univ.filter fun j => P (keep j)).map ⟨keep, hkeep⟩, f j := by simp

lemma sum_keep_le (P : J → Prop) [DecidablePred P] (f : J → ℝ) (hf : ∀ j, 0 ≤ f j) : ∑ j with P (keep j), f (keep j) ≤ ∑ j with P j, f j := by
  rw [sum_keep_map keep hkeep]
  refine Finset.sum_le_sum_of_subset_of_nonneg (fun j hj => ?_) fun j _ _ => hf j
  obtain ⟨i, hi, rfl⟩ := Finset.mem_map.mp hj
  simpa using hi

lemma sum_keep_lt (P : J → Prop) [DecidablePred P] (f : J → ℝ) (hf : ∀ j, 0 < f j) (j : J) (hP : P j) (hj : ∀ i, keep i ≠ j) :
    ∑ j with P (keep j), f (keep j) < ∑ j with P j, f j := by
  rw [sum_keep_map keep hkeep]
  refine Finset.sum_lt_sum_of_subset (i := j) (fun j hj => ?_) (by simpa using hP) (by simpa using fun i _ => hj i) (hf j) fun j _ _ => (hf j).le
  obtain ⟨i, hi, rfl⟩ := Finset.mem_map.mp hj
  simpa using hi

lemma sum_keep_eq (P : J → Prop) [DecidablePred P] (f : J → ℝ) (hP : ∀ j, P j → ∃ i, keep i = j) : ∑ j with P (keep j), f (keep j) = ∑ j with P j, f j := by
  rw [sum_keep_map keep hkeep]
  congr 1
  ext j
  simp only [Finset.mem_map, Finset.mem_filter, Finset.mem_univ, true_and, Function.Embedding.coeFn_mk]
  constructor
  · rintro ⟨i, hi, rfl⟩
    exact hi
  · intro hj
    obtain ⟨i, rfl⟩ := hP j hj
    exact ⟨i, hj, rfl⟩

include hA

lemma nestMass_keep (q : J → ℝ) (g : G) :
    nestMass (fun k => group (keep k)) rho a (fun k => A (keep k)) (fun k => q (keep k)) g ≤ nestMass group rho a A q g :=
  sum_keep_le keep hkeep (fun j => group j = g) (mass group rho a A q) fun j => (mass_pos hA q j).le

include hr1

lemma denom_keep (hleave : ∃ j, ∀ i, keep i ≠ j) (q : J → ℝ) :
    denom (fun k => group (keep k)) rho a (fun k => A (keep k)) (fun k => q (keep k)) < denom group rho a A q := by
  obtain ⟨j, hj⟩ := hleave
  have hA' := fun k => hA (keep k)
  rw [denom, denom]
  refine add_lt_add_right (Finset.sum_lt_sum (fun g _ => ?_) ⟨group j, Finset.mem_univ _, ?_⟩) 1
  · exact Real.rpow_le_rpow (nestMass_nonneg hA' _ g) (nestMass_keep hA keep hkeep q g) (by linarith [hr1 g])
  · exact Real.rpow_lt_rpow (nestMass_nonneg hA' _ _) (sum_keep_lt keep hkeep (fun k => group k = group j) (mass group rho a A q) (mass_pos hA q) j rfl hj)
      (by linarith [hr1 (group j)])

include hr0

lemma share_keep (hleave : ∃ j, ∀ i, keep i ≠ j) (q : J → ℝ) (j : J') :
    share group rho a A q (keep j) < share (fun k => group (keep k)) rho a (fun k => A (keep k)) (fun k => q (keep k)) j := by
  have hA' := fun k => hA (keep k)
  have hm := mass_pos (group := group) (rho := rho) (a := a) hA q (keep j)
  have hN' : 0 < nestMass (fun k => group (keep k)) rho a (fun k => A (keep k)) (fun k => q (keep k)) (group (keep j)) :=
    Finset.sum_pos (fun i _ => mass_pos hA' _ i) ⟨j, by simp⟩
  have hN := hN'.trans_le (nestMass_keep hA keep hkeep q (group (keep j)))
  have hd' := denom_pos (group := fun k => group (keep k)) (rho := rho) (a := a) hA' (fun k => q (keep k))
  calc share group rho a A q (keep j) < mass group rho a A q (keep j) * nestMass group rho a A q (group (keep j)) ^ (-rho (group (keep j))) /
        denom (fun k => group (keep k)) rho a (fun k => A (keep k)) (fun k => q (keep k)) :=
      div_lt_div_of_pos_left (mul_pos hm (Real.rpow_pos_of_pos hN _)) hd' (denom_keep hr1 hA keep hkeep hleave q)
    _ ≤ _ := div_le_div_of_nonneg_right (mul_le_mul_of_nonneg_left
        (Real.rpow_le_rpow_of_nonpos hN' (nestMass_keep hA keep hkeep q _) (by linarith [hr0 (group (keep j))])) hm.le) hd'.le

lemma profit_keep (hleave : ∃ j, ∀ i, keep i ≠ j) (own : J → Prop) [DecidablePred own] (hown : ∀ j, own j → ∃ i, keep i = j) (q : J → ℝ)
    (hq : ∀ j, own j → 0 < q j) (k : J') (hk : own (keep k)) :
    profit group rho a A own q < profit (fun k => group (keep k)) rho a (fun k => A (keep k)) (fun k => own (keep k)) (fun k => q (keep k)) := by
  rw [profit, ← sum_keep_eq keep hkeep own (fun j => q j * share group rho a A q j) hown, profit]
  refine Finset.sum_lt_sum_of_nonempty ⟨k, by simpa using hk⟩ fun j hj => ?_
  exact mul_lt_mul_of_pos_left (share_keep hr0 hr1 hA keep hkeep hleave q j) (hq _ (Finset.mem_filter.mp hj).2)

/-- The first step from markups before raises all markups. -/
lemma step_keep {F : Type} [DecidableEq F] (firm : J → F) (hwhole : ∀ i j, firm (keep i) = firm j → ∃ k, keep k = j) (hleave : ∃ j, ∀ i, keep i ≠ j)
    (q : J → ℝ) (hq : ∀ j, 0 < q j) (k : J') : step group rho a A firm q (keep k) <
      step (fun k => group (keep k)) rho a (fun k => A (keep k)) (fun k => firm (keep k)) (fun k => q (keep k)) k := by
  have hA' := fun k => hA (keep k)
  have h1 := profit_keep (rho := rho) (a := a) (group := group) hr0 hr1 hA keep hkeep hleave (fun j => firm j = firm (keep k)) (fun j hj => hwhole k j hj.symm) q
    (fun j _ => hq j) k rfl
  have hN' : 0 < nestMass (fun k => group (keep k)) rho a (fun k => A (keep k)) (fun k => q (keep k)) (group (keep k)) :=
    Finset.sum_pos (fun i _ => mass_pos hA' _ i) ⟨k, by simp⟩
  have h2 := sum_keep_eq keep hkeep (fun j => group j = group (keep k) ∧ firm j = firm (keep k)) (fun j => q j * mass group rho a A q j)
    fun j hj => hwhole k j hj.2.symm
  have h3 : (∑ j with group j = group (keep k) ∧ firm j = firm (keep k), q j * mass group rho a A q j) / nestMass group rho a A q (group (keep k)) ≤
      (∑ j with group (keep j) = group (keep k) ∧ firm (keep j) = firm (keep k),
        q (keep j) * mass (fun k => group (keep k)) rho a (fun k => A (keep k)) (fun k => q (keep k)) j) /
        nestMass (fun k => group (keep k)) rho a (fun k => A (keep k)) (fun k => q (keep k)) (group (keep k)) := by
    rw [← h2]
    exact div_le_div_of_nonneg_left (Finset.sum_nonneg fun j _ => mul_nonneg (hq _).le (mass_pos hA q _).le) hN' (nestMass_keep hA keep hkeep q _)
  have h4 := mul_le_mul_of_nonneg_left h3 (hr0 (group (keep k)))
  have h5 := mul_lt_mul_of_pos_left h1 (show (0 : ℝ) < 1 - rho (group (keep k)) by linarith [hr1 (group (keep k))])
  simp only [step]
  linarith

include ha

/-- Markups of those who remain rise. -/
lemma exit_no_fall (hleave : ∃ j, ∀ i, keep i ≠ j) (own : J → Prop) [DecidablePred own] (hown : ∀ j, own j → ∃ i, keep i = j) (q : J → ℝ) (z : J' → ℝ)
    (hq : Foc group rho a A own q) (hz : Foc (fun k => group (keep k)) rho a (fun k => A (keep k)) (fun k => own (keep k)) z) (k : J') (hk : own (keep k)) (D : ℝ)
    (hD : q (keep k) = z k + D) (hDp : 0 ≤ D) (hle : ∀ j, q (keep j) ≤ z j + D) : False := by
  have hA' := fun k => hA (keep k)
  have hgap : profit (fun k => group (keep k)) rho a (fun k => A (keep k)) (fun k => own (keep k)) (fun k => q (keep k)) ≤
      profit (fun k => group (keep k)) rho a (fun k => A (keep k)) (fun k => own (keep k)) z + D := by
    rcases hDp.eq_or_lt with h0 | h0
    · have := optimal ha hr0 hr1 hA' _ z hz (fun k => q (keep k)) fun j _ => by linarith [hle j]
      linarith
    · exact (profit_gap ha hr0 hr1 hA' _ z (fun k => q (keep k)) hz D h0 hle).le
  obtain ⟨M, hM, hP0, hMc⟩ := foc_markups ha hr0 hr1 hA' _ z hz
  obtain ⟨M', hM', hP0', hMc'⟩ := foc_markups ha hr0 hr1 hA _ q hq
  have hqpos : ∀ j, own j → 0 < q j := fun j hj => by
    rw [hM' j hj]
    exact (hMc' (group j) ⟨j, rfl, hj⟩).1
  have hmore := profit_keep (rho := rho) (a := a) (group := group) hr0 hr1 hA keep hkeep hleave own hown q hqpos k hk
  obtain ⟨hMp, hNp, hc⟩ := hMc (group (keep k)) ⟨k, rfl, hk⟩
  obtain ⟨hMp', hNp', hc'⟩ := hMc' (group (keep k)) ⟨keep k, rfl, hk⟩
  have hMD : M' (group (keep k)) = M (group (keep k)) + D := by rw [← hM k hk, ← hM' (keep k) hk, hD]
  set g := group (keep k)
  set b := a / (1 - rho g) with hb
  have hbp : 0 < b := div_pos ha (by linarith [hr1 g])
  have hE : ownMass group rho a A own q g =
      Real.exp (-(b * D)) * ownMass (fun k => group (keep k)) rho a (fun k => A (keep k)) (fun k => own (keep k)) z g := by
    rw [ownMass, ← sum_keep_eq keep hkeep (fun j => group j = g ∧ own j) (mass group rho a A q) fun j hj => hown j hj.2, ownMass, Finset.mul_sum]
    refine Finset.sum_congr rfl fun j hj => ?_
    have hj' := (Finset.mem_filter.mp hj).2
    rw [mass, mass, hM' (keep j) hj'.2, hM j hj'.2, hj'.1, hMD, mul_left_comm, ← Real.exp_add]
    congr 2
    ring
  have hN : Real.exp (-(b * D)) * nestMass (fun k => group (keep k)) rho a (fun k => A (keep k)) z g ≤ nestMass group rho a A q g := by
    refine le_trans ?_ (nestMass_keep hA keep hkeep q g)
    rw [nestMass, nestMass, Finset.mul_sum]
    refine Finset.sum_le_sum fun j hj => ?_
    rw [mass, mass, (Finset.mem_filter.mp hj).2, mul_left_comm, ← Real.exp_add]
    refine mul_le_mul_of_nonneg_left (Real.exp_le_exp.mpr ?_) (hA' j).le
    have := mul_le_mul_of_nonneg_left (hle j) hbp.le
    linarith
  set C := ownMass (fun k => group (keep k)) rho a (fun k => A (keep k)) (fun k => own (keep k)) z g /
    nestMass (fun k => group (keep k)) rho a (fun k => A (keep k)) z g with hC
  set C' := ownMass group rho a A own q g / nestMass group rho a A q g with hC'
  have hCC : C' ≤ C := by
    rw [hC', hC, hE, div_le_div_iff₀ hNp' hNp]
    have := mul_le_mul_of_nonneg_left hN
      (ownMass_nonneg (group := fun k => group (keep k)) (rho := rho) (a := a) hA' (fun k => own (keep k)) z g)
    nlinarith
  have hC1 : C ≤ 1 := (div_le_one hNp).mpr (by
    rw [nestMass_split fun k => own (keep k)]
    linarith [rivalMass_nonneg (group := fun k => group (keep k)) (rho := rho) (a := a) hA' (fun k => own (keep k)) z g])
  have hr := hr1 g
  have hrr := hr0 g
  have hr' : (1 : ℝ) - rho g ≠ 0 := by linarith
  set Pz := profit (fun k => group (keep k)) rho a (fun k => A (keep k)) (fun k => own (keep k)) z
  set Pq := profit group rho a A own q
  have e1 : a * M g * (1 - rho g * C) = (1 - rho g) * (1 + a * Pz) := by
    rw [← hc, hb]; field_simp
  have e2 : a * M' g * (1 - rho g * C') = (1 - rho g) * (1 + a * Pq) := by
    rw [← hc', hb]; field_simp
  have h1 : a * M' g * (1 - rho g * C) ≤ a * M' g * (1 - rho g * C') :=
    mul_le_mul_of_nonneg_left (by nlinarith) (mul_pos ha hMp').le
  rw [hMD] at h1 e2
  have h2 : a * D * (1 - rho g * C) ≤ (1 - rho g) * a * (Pq - Pz) := by nlinarith
  have h3 : (1 - rho g) * a * (Pq - Pz) < (1 - rho g) * a * D :=
    mul_lt_mul_of_pos_left (by linarith) (mul_pos (by linarith) ha)
  have h4 : (1 - rho g) * (a * D) ≤ (1 - rho g * C) * (a * D) := mul_le_mul_of_nonneg_right (by nlinarith) (mul_nonneg ha.le hDp)
  linarith

/-- If firms leave, all markups of those who remain rise. -/
theorem exit_up {F : Type} [DecidableEq F] (firm : J → F) (hwhole : ∀ i j, firm (keep i) = firm j → ∃ k, keep k = j) (hleave : ∃ j, ∀ i, keep i ≠ j)
    (q : J → ℝ) (z : J' → ℝ) (hq : ∀ f, Foc group rho a A (fun k => firm k = f) q)
    (hz : ∀ f, Foc (fun k => group (keep k)) rho a (fun k => A (keep k)) (fun k => firm (keep k) = f) z) : ∀ k, q (keep k) < z k := by
  by_contra hne
  push Not at hne
  obtain ⟨k₀, hk₀⟩ := hne
  obtain ⟨k, -, hk⟩ := Finset.exists_max_image Finset.univ (fun k => q (keep k) - z k) ⟨k₀, Finset.mem_univ _⟩
  exact exit_no_fall ha hr0 hr1 hA keep hkeep hleave (fun j => firm j = firm (keep k)) (fun j hj => hwhole k j hj.symm) q z (hq _) (hz _) k rfl
    (q (keep k) - z k) (by ring) (by linarith [hk k₀ (Finset.mem_univ _)]) fun j => by linarith [hk j (Finset.mem_univ _)]

end NestedOligopoly

end Pyblp
