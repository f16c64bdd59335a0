import Verif.Lemmas.NestedIteration
import Mathlib.Analysis.Calculus.LocalExtr.Basic
import Mathlib.Order.CompleteLatticeIntervals
import Mathlib.Order.FixedPoints
import Mathlib.Topology.Order.Compact

/-! # Existence of equilibria with nested logit demand

Firms have best responses, best responses increase with prices of others, and so there is an equilibrium by Tarski's fixed point theorem. -/

set_option linter.unusedSectionVars false

namespace Pyblp

namespace NestedOligopoly

variable {J G F : Type} [Fintype J] [DecidableEq J] [Fintype G] [DecidableEq G] [DecidableEq F] {group : J → G} {rho : G → ℝ} {a : ℝ} {A : J → ℝ}

/-- The left hand side of the first order condition of a product. -/
noncomputable def focTerm (group : J → G) (rho : G → ℝ) (a : ℝ) (A : J → ℝ) (own : J → Prop) [DecidablePred own] (z : J → ℝ) (k : J) : ℝ :=
  1 - a / (1 - rho (group k)) * z k +
    a / (1 - rho (group k)) * rho (group k) * ((∑ j with group j = group k ∧ own j, z j * mass group rho a A z j) / nestMass group rho a A z (group k)) +
    a * profit group rho a A own z

variable (ha : 0 < a) (hr0 : ∀ g, 0 ≤ rho g) (hr1 : ∀ g, rho g < 1) (hA : ∀ j, 0 < A j)

include hA

include hr1 in
lemma profit_continuous (own : J → Prop) [DecidablePred own] : Continuous (profit group rho a A own) := by
  have hmass : ∀ j, Continuous fun z => mass group rho a A z j := fun j => by unfold mass; fun_prop
  have hN : ∀ g, Continuous fun z => nestMass group rho a A z g := fun g => continuous_finsetSum _ fun j _ => hmass j
  have hpos : ∀ (z : J → ℝ) j, nestMass group rho a A z (group j) ≠ 0 := fun z j => (Finset.sum_pos (fun i _ => mass_pos hA z i) ⟨j, by simp⟩).ne'
  have hden : Continuous fun z => denom group rho a A z :=
    continuous_const.add (continuous_finsetSum _ fun g _ => (hN g).rpow_const fun _ => Or.inr (by linarith [hr1 g]))
  have hshare : ∀ j, Continuous fun z => share group rho a A z j := fun j =>
    ((hmass j).mul ((hN _).rpow_const fun z => Or.inl (hpos z j))).div hden fun z => (denom_pos hA z).ne'
  exact continuous_finsetSum _ fun j _ => (continuous_apply j).mul (hshare j)

lemma share_pos (z : J → ℝ) (j : J) : 0 < share group rho a A z j :=
  div_pos (mul_pos (mass_pos hA z j) (Real.rpow_pos_of_pos (Finset.sum_pos (fun i _ => mass_pos hA z i) ⟨j, by simp⟩) _)) (denom_pos hA z)

include ha hr1

lemma denom_le (y z : J → ℝ) (h : ∀ k, y k ≤ z k) : denom group rho a A z ≤ denom group rho a A y := by
  refine add_le_add_right (Finset.sum_le_sum fun g _ => Real.rpow_le_rpow (nestMass_nonneg hA z g) (Finset.sum_le_sum fun j _ => ?_) (by linarith [hr1 g])) _
  refine mul_le_mul_of_nonneg_left (Real.exp_le_exp.mpr (neg_le_neg (mul_le_mul_of_nonneg_left (h j) ?_))) (hA j).le
  exact div_nonneg ha.le (by linarith [hr1 (group j)])

include hr0

/-- Markups of a firm do not fall if those of others do not. -/
lemma response_mono (own : J → Prop) [DecidablePred own] (q z : J → ℝ) (hq : Foc group rho a A own q) (hz : Foc group rho a A own z)
    (hqz : ∀ k, ¬ own k → q k ≤ z k) (k : J) : q k ≤ z k := by
  by_contra hne
  push Not at hne
  obtain ⟨l, -, hl⟩ := Finset.exists_max_image Finset.univ (fun k => q k - z k) ⟨k, Finset.mem_univ _⟩
  have hDp : 0 < q l - z l := lt_of_lt_of_le (by linarith) (hl k (Finset.mem_univ _))
  have hown : own l := by
    by_contra h
    linarith [hqz l h]
  refine no_fall ha hr0 hr1 hA own own (fun _ h => h) q z hq hz (fun j hj => ?_) l hown (q l - z l) (by ring) hDp fun j => by linarith [hl j (Finset.mem_univ _)]
  obtain ⟨M, hM, -, hMc⟩ := foc_markups ha hr0 hr1 hA own q hq
  rw [hM j hj]
  exact (hMc (group j) ⟨j, rfl, hj⟩).1.le

/-- At markups that are at most the bound, a product with a markup of the bound has a negative derivative. -/
lemma focTerm_bound (own : J → Prop) [DecidablePred own] (B : ℝ) (hB : denom group rho a A (fun _ => 0) < a * B) (y : J → ℝ)
    (hy : ∀ k, 0 ≤ y k ∧ y k ≤ B) (k : J) (hk : y k = B) : focTerm group rho a A own y k < 0 := by
  have hm := mass_pos (group := group) (rho := rho) (a := a) hA y
  have hNp : 0 < nestMass group rho a A y (group k) := Finset.sum_pos (fun i _ => hm i) ⟨k, by simp⟩
  have hB0 : 0 ≤ B := hk ▸ (hy k).1
  have h1 : (∑ j with group j = group k ∧ own j, y j * mass group rho a A y j) / nestMass group rho a A y (group k) ≤ B := by
    rw [div_le_iff₀ hNp, nestMass, Finset.mul_sum]
    refine le_trans (Finset.sum_le_sum fun j _ => mul_le_mul_of_nonneg_right (hy j).2 (hm j).le) ?_
    exact Finset.sum_le_sum_of_subset_of_nonneg (fun j hj => by
      simp only [Finset.mem_filter, Finset.mem_univ, true_and] at hj ⊢
      exact hj.1) fun j _ _ => mul_nonneg hB0 (hm j).le
  have h2 : profit group rho a A own y ≤ B * (1 - 1 / denom group rho a A y) := by
    rw [← total_share hr1 hA, Finset.mul_sum]
    refine le_trans (Finset.sum_le_sum fun j _ => mul_le_mul_of_nonneg_right (hy j).2 (share_nonneg hA y j)) ?_
    exact Finset.sum_le_sum_of_subset_of_nonneg (Finset.filter_subset _ _) fun j _ _ => mul_nonneg hB0 (share_nonneg hA y j)
  have hd := denom_pos (group := group) (rho := rho) (a := a) hA y
  have hdle := denom_le (group := group) ha hr1 hA (fun _ => 0) y fun k => (hy k).1
  have h3 : 1 < a * B * (1 / denom group rho a A y) := by
    rw [mul_one_div, lt_div_iff₀ hd]
    linarith
  have hr := hr1 (group k)
  have hr' : (1 : ℝ) - rho (group k) ≠ 0 := by linarith
  have hbp : 0 ≤ a / (1 - rho (group k)) * rho (group k) := mul_nonneg (div_nonneg ha.le (by linarith)) (hr0 _)
  have h4 := mul_le_mul_of_nonneg_left h1 hbp
  have h5 := mul_le_mul_of_nonneg_left h2 ha.le
  have h6 : a / (1 - rho (group k)) * B - a / (1 - rho (group k)) * rho (group k) * B = a * B := by field_simp
  rw [focTerm, hk]
  nlinarith

/-- Firms have best responses. -/
lemma exists_response (own : J → Prop) [DecidablePred own] (B : ℝ) (hB : denom group rho a A (fun _ => 0) < a * B)
    (hder : ∀ z k, own k → HasDerivAt (fun t => profit group rho a A own (Function.update z k t)) (share group rho a A z k * focTerm group rho a A own z k) (z k))
    (x : J → ℝ) (hx : ∀ k, 0 ≤ x k ∧ x k ≤ B) :
    ∃ y : J → ℝ, (∀ k, ¬ own k → y k = x k) ∧ (∀ k, 0 ≤ y k ∧ y k ≤ B) ∧ Foc group rho a A own y := by
  have hB0 : 0 < B := by
    have := denom_pos (group := group) (rho := rho) (a := a) hA fun _ => 0
    by_contra h
    nlinarith
  set S : Set (J → ℝ) := Set.pi Set.univ fun k => if own k then Set.Icc 0 B else {x k} with hS
  have hmem : ∀ y, y ∈ S ↔ ∀ k, if own k then 0 ≤ y k ∧ y k ≤ B else y k = x k := fun y => by
    simp only [hS, Set.mem_pi, Set.mem_univ, true_implies]
    refine forall_congr' fun k => ?_
    split_ifs <;> simp
  have hcompact : IsCompact S := isCompact_univ_pi fun k => by
    split_ifs
    · exact isCompact_Icc
    · exact isCompact_singleton
  obtain ⟨y, hy, hmax⟩ := hcompact.exists_isMaxOn ⟨x, (hmem x).2 fun k => by split_ifs; exacts [hx k, rfl]⟩ (profit_continuous (group := group) (a := a) hr1 hA own).continuousOn
  have hy' := (hmem y).1 hy
  have hrange : ∀ k, 0 ≤ y k ∧ y k ≤ B := fun k => by
    by_cases hk : own k
    · simpa [hk] using hy' k
    · have := hy' k
      rw [if_neg hk] at this
      rw [this]
      exact hx k
  refine ⟨y, fun k hk => by simpa [hk] using hy' k, hrange, fun k hk => ?_⟩
  change focTerm group rho a A own y k = 0
  have hs := share_pos (group := group) (rho := rho) (a := a) hA y k
  have hdir : ∀ t, 0 ≤ t → t ≤ B → share group rho a A y k * focTerm group rho a A own y k * (t - y k) ≤ 0 := fun t h0 hB' => by
    have hloc : IsLocalMaxOn (fun t => profit group rho a A own (Function.update y k t)) (Set.Icc 0 B) (y k) := by
      refine Filter.eventually_of_mem self_mem_nhdsWithin fun s hsB => ?_
      simp only [Function.update_eq_self]
      refine hmax ((hmem _).2 fun j => ?_)
      by_cases hj : j = k
      · subst hj
        rw [if_pos hk, Function.update_self]
        exact hsB
      · rw [Function.update_of_ne hj]
        exact hy' j
    have hseg : t - y k ∈ posTangentConeAt (Set.Icc (0 : ℝ) B) (y k) :=
      sub_mem_posTangentConeAt_of_segment_subset ((convex_Icc 0 B).segment_subset (hrange k) ⟨h0, hB'⟩)
    have := hloc.hasFDerivWithinAt_nonpos (hder y k hk).hasDerivWithinAt.hasFDerivWithinAt hseg
    simpa [mul_comm] using this
  have hup := hdir B hB0.le le_rfl
  have hdown := hdir 0 le_rfl hB0.le
  rcases lt_trichotomy (focTerm group rho a A own y k) 0 with hneg | hz | hpos
  · exfalso
    have hneg' := mul_neg_of_pos_of_neg hs hneg
    have hyk : y k = 0 := le_antisymm (by nlinarith) (hrange k).1
    have hNp : 0 < nestMass group rho a A y (group k) := Finset.sum_pos (fun i _ => mass_pos hA y i) ⟨k, by simp⟩
    have h1 : 0 ≤ (∑ j with group j = group k ∧ own j, y j * mass group rho a A y j) / nestMass group rho a A y (group k) :=
      div_nonneg (Finset.sum_nonneg fun j _ => mul_nonneg (hrange j).1 (mass_pos hA y j).le) hNp.le
    have h2 : 0 ≤ profit group rho a A own y := Finset.sum_nonneg fun j _ => mul_nonneg (hrange j).1 (share_nonneg hA y j)
    have h3 : 0 ≤ a / (1 - rho (group k)) * rho (group k) := mul_nonneg (div_nonneg ha.le (by linarith [hr1 (group k)])) (hr0 _)
    have h4 := mul_nonneg h3 h1
    have h5 := mul_nonneg ha.le h2
    rw [focTerm, hyk, mul_zero] at hneg
    linarith
  · exact hz
  · exfalso
    have hpos' := mul_pos hs hpos
    have hyk : y k = B := le_antisymm (hrange k).2 (by nlinarith)
    linarith [focTerm_bound ha hr0 hr1 hA own B hB y hrange k hyk]

/-- There is an equilibrium. -/
theorem exists_equilibrium (firm : J → F)
    (hder : ∀ z k, HasDerivAt (fun t => profit group rho a A (fun j => firm j = firm k) (Function.update z k t))
      (share group rho a A z k * focTerm group rho a A (fun j => firm j = firm k) z k) (z k)) :
    ∃ z : J → ℝ, ∀ f, Foc group rho a A (fun k => firm k = f) z := by
  set D := denom group rho a A (fun _ => 0) with hD
  have hDp : 0 < D := denom_pos hA _
  set B := (D + 1) / a with hBdef
  have hB : D < a * B := by rw [hBdef, mul_div_cancel₀ _ ha.ne']; linarith
  have hB0 : 0 ≤ B := div_nonneg (by linarith) ha.le
  have : Fact ((0 : ℝ) ≤ B) := ⟨hB0⟩
  have hex : ∀ (f : F) (x : J → Set.Icc (0 : ℝ) B), ∃ y : J → Set.Icc (0 : ℝ) B, (∀ k, firm k ≠ f → y k = x k) ∧
      Foc group rho a A (fun k => firm k = f) fun k => (y k : ℝ) := fun f x => by
    obtain ⟨y, h1, h2, h3⟩ := exists_response ha hr0 hr1 hA (fun k => firm k = f) B hB (fun z k hk => by subst hk; exact hder z k) (fun k => (x k : ℝ)) fun k => (x k).2
    exact ⟨fun k => ⟨y k, h2 k⟩, fun k hk => Subtype.ext (h1 k hk), h3⟩
  choose br hrest hfoc using hex
  have hmono : Monotone fun (x : J → Set.Icc (0 : ℝ) B) k => br (firm k) x k := fun x x' hxx k => by
    refine response_mono ha hr0 hr1 hA (fun j => firm j = firm k) _ _ (hfoc (firm k) x) (hfoc (firm k) x') (fun j hj => ?_) k
    rw [hrest _ _ j hj, hrest _ _ j hj]
    exact hxx j
  set T : (J → Set.Icc (0 : ℝ) B) →o (J → Set.Icc (0 : ℝ) B) := ⟨_, hmono⟩ with hT
  have hfix : T T.lfp = T.lfp := T.map_lfp
  refine ⟨fun k => (T.lfp k : ℝ), fun f => ?_⟩
  have heq : br f T.lfp = T.lfp := by
    funext k
    by_cases hk : firm k = f
    · rw [← hk]
      exact congrFun hfix k
    · exact hrest f _ k hk
  have := hfoc f T.lfp
  rwa [heq] at this

end NestedOligopoly

end Pyblp
