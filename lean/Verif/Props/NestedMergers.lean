import Verif.Props.CostPassThrough
import Verif.Props.NestedRecovery

/-!
# C150: mergers with nested logit demand raise all prices

Prices are fixed points of `priceContraction` (pyblp/markets/market.py:813-848), and ownership comes from firm IDs.
-/

set_option linter.unusedSectionVars false

namespace Pyblp

open Finset

variable {J A G K1 K2 F F' : Type} [Fintype J] [DecidableEq J] [Nonempty J] [Fintype G] [DecidableEq G] [Fintype A]
  [Fintype K1] [Fintype K2] [IsEmpty K2] [DecidableEq F] [DecidableEq F']

section

variable {m : Market J A G} {c : Characteristic J A K1 K2} {n : Nesting J G} (h : Spec.NestedLogit m n c) (hr : ∀ g, 0 ≤ n.rho.groupRho g) (costs : J → ℝ)
  (firm : J → F) (firm' : J → F') (hm : Spec.Merger firm firm') (x x' : J → ℝ)
  (hx : priceContraction m c (ownershipFromIds firm) (fun k _ => costs k) x = x)
  (hx' : priceContraction m c (ownershipFromIds firm') (fun k _ => costs k) x' = x')

include h hr hm hx hx'

/-- If the firm that has a product after a merger earns more than the one that has it before, its price rises. -/
lemma merger_price_rises (k : J) (hgain : Spec.jointProfit (sharesAt m c) costs firm (firm k) x < Spec.jointProfit (sharesAt m c) costs firm' (firm' k) x') :
    x k < x' k := by
  have hle := (C150_merger_prices h hr costs firm firm' hm x x' hx hx').1
  have ha := nested_sensitivity h
  have hA : ∀ j, 0 < nestedAtCost c n (fun _ => 0) j := fun j => Real.exp_pos _
  by_contra hno
  have hxk : x' k = x k := le_antisymm (not_lt.mp hno) (hle k)
  have h1 := C150_markups h hr firm costs x hx
  have h2 := C150_markups h hr firm' costs x' hx'
  have hrho : ∀ j, n.group j = n.group k → n.productRho j = n.productRho k := fun j hj => by simp only [Nesting.productRho, hj]
  have hown : ∀ j, n.group j = n.group k ∧ firm j = firm k → x' j = x j := fun j hj => by
    have e1 := (h1 j).2
    have e2 := (h2 j).2
    rw [hrho j hj.1, hj.1, hj.2, ← (h1 k).2] at e1
    rw [hrho j hj.1, hj.1, hm.1 j k hj.2, ← (h2 k).2] at e2
    linarith
  set M := fun x : J → ℝ => NestedOligopoly.mass n.group n.rho.groupRho (Spec.sensitivity m c) (nestedAtCost c n fun _ => 0) (fun k => x k - 0) with hM
  set N := fun x : J → ℝ => NestedOligopoly.nestMass n.group n.rho.groupRho (Spec.sensitivity m c) (nestedAtCost c n fun _ => 0) (fun k => x k - 0) (n.group k) with hNdef
  have hMp : ∀ x j, 0 < M x j := fun x j => NestedOligopoly.mass_pos hA _ j
  have hNp : ∀ x, 0 < N x := fun x => Finset.sum_pos (fun j _ => NestedOligopoly.mass_pos hA _ j) ⟨k, by simp⟩
  have hN : N x' ≤ N x := Finset.sum_le_sum fun j _ => by
    rw [NestedOligopoly.mass, NestedOligopoly.mass]
    refine mul_le_mul_of_nonneg_left (Real.exp_le_exp.mpr (neg_le_neg (mul_le_mul_of_nonneg_left (by linarith [hle j]) ?_))) (hA j).le
    exact (div_pos ha (by linarith [h.below (n.group j)])).le
  have hshare : ∀ x j, n.group j = n.group k → Spec.nestShare n (sharesAt m c x) j = M x j / N x := fun x j hj => by
    rw [nested_oligopoly_nestShare h (fun _ => 0), hj]
  have hSx : ∑ j with n.group j = n.group k ∧ firm j = firm k, Spec.nestShare n (sharesAt m c x) j =
      (∑ j with n.group j = n.group k ∧ firm j = firm k, M x j) / N x := by
    rw [Finset.sum_div]
    exact Finset.sum_congr rfl fun j hj => hshare x j (Finset.mem_filter.mp hj).2.1
  have hSx' : ∑ j with n.group j = n.group k ∧ firm' j = firm' k, Spec.nestShare n (sharesAt m c x') j =
      (∑ j with n.group j = n.group k ∧ firm' j = firm' k, M x' j) / N x' := by
    rw [Finset.sum_div]
    exact Finset.sum_congr rfl fun j hj => hshare x' j (Finset.mem_filter.mp hj).2.1
  set S := ∑ j with n.group j = n.group k ∧ firm j = firm k, Spec.nestShare n (sharesAt m c x) j with hS
  set S' := ∑ j with n.group j = n.group k ∧ firm' j = firm' k, Spec.nestShare n (sharesAt m c x') j with hS'
  have hnum : ∑ j with n.group j = n.group k ∧ firm j = firm k, M x j ≤ ∑ j with n.group j = n.group k ∧ firm' j = firm' k, M x' j := by
    calc ∑ j with n.group j = n.group k ∧ firm j = firm k, M x j = ∑ j with n.group j = n.group k ∧ firm j = firm k, M x' j :=
          Finset.sum_congr rfl fun j hj => by simp only [hM, NestedOligopoly.mass, hown j (Finset.mem_filter.mp hj).2]
      _ ≤ _ := Finset.sum_le_sum_of_subset_of_nonneg (fun j hj => by
          have hj' := (Finset.mem_filter.mp hj).2
          simpa using ⟨hj'.1, hm.1 j k hj'.2⟩) fun j _ _ => (hMp x' j).le
  have hSS : S ≤ S' := by
    rw [hSx, hSx']
    exact div_le_div₀ (Finset.sum_nonneg fun j _ => (hMp x' j).le) hnum (hNp x') hN
  have hS1 : S' ≤ 1 := by
    rw [hSx', div_le_one (hNp x')]
    refine Finset.sum_le_sum_of_subset_of_nonneg (fun j hj => ?_) fun j _ _ => (hMp x' j).le
    simpa using (Finset.mem_filter.mp hj).2.1
  have hb : n.productRho k < 1 := h.below (n.group k)
  have hb0 : 0 ≤ n.productRho k := hr (n.group k)
  have hpos' : 0 < 1 - n.productRho k * S' := by nlinarith
  have hmul := mul_le_mul_of_nonneg_left hSS hb0
  have e1 := (h1 k).2
  have e2 := (h2 k).2
  have hq : 0 < x k - costs k := by linarith [(h1 k).1]
  rw [← hS, div_mul_eq_mul_div, eq_div_iff (by linarith)] at e1
  rw [← hS', div_mul_eq_mul_div, eq_div_iff hpos'.ne', hxk] at e2
  have h3 := mul_le_mul_of_nonneg_left (show 1 - n.productRho k * S' ≤ 1 - n.productRho k * S by linarith) hq.le
  have h4 := mul_lt_mul_of_pos_left hgain (show (0 : ℝ) < 1 - n.productRho k by linarith)
  linarith

/-- A firm that is part of a larger one after a merger earned less than the latter does. -/
lemma merger_part_gains (j k : J) (hjk : firm' j = firm' k) (hne : firm j ≠ firm k) :
    Spec.jointProfit (sharesAt m c) costs firm (firm k) x < Spec.jointProfit (sharesAt m c) costs firm' (firm' k) x' := by
  refine lt_of_lt_of_le ?_ (C150_merger_profits h hr costs firm firm' hm x x' hx hx' (firm' k))
  have hpos : ∀ l, 0 < sharesAt m c x l * (x l - costs l) := fun l =>
    mul_pos (nested_share_pos h x l) (by linarith [(C150_markups h hr firm costs x hx l).1])
  refine Finset.sum_lt_sum_of_subset (i := j) (fun l hl => ?_) (by simpa using hjk) (by simpa using hne) (by simpa [mul_comm] using hpos j) fun l _ _ => by
    simpa [mul_comm] using (hpos l).le
  simpa using hm.1 l k (Finset.mem_filter.mp hl).2

/-- **C150, mergers.** Firms that do not merge earn more if others do. -/
theorem C150_merger_outsiders (k : J) (hout : ∀ j, firm' j = firm' k → firm j = firm k) :
    Spec.jointProfit (sharesAt m c) costs firm (firm k) x < Spec.jointProfit (sharesAt m c) costs firm' (firm' k) x' := by
  have hle := (C150_merger_prices h hr costs firm firm' hm x x' hx hx').1
  obtain ⟨j, l, hjl, hne⟩ := hm.2
  have hlt := merger_price_rises h hr costs firm firm' hm x x' hx hx' l (merger_part_gains h hr costs firm firm' hm x x' hx hx' j l hjl hne)
  have hpos := fun k => (C150_markups h hr firm costs x hx k).1
  rw [nested_fixed_foc h] at hx'
  have heq : Spec.jointProfit (sharesAt m c) costs firm (firm k) x = Spec.jointProfit (sharesAt m c) costs firm' (firm' k) x := by
    refine Finset.sum_congr ?_ fun _ _ => rfl
    ext i
    simp only [Finset.mem_filter, Finset.mem_univ, true_and]
    exact ⟨hm.1 i k, hout i⟩
  rw [heq, nested_profit h, nested_profit h]
  refine NestedOligopoly.optimal_strict (A := nestedAtCost c n costs) (nested_sensitivity h) hr h.below (fun j => Real.exp_pos _) (fun j => firm' j = firm' k) _ _
    (hx' (firm' k)) (fun j _ => by linarith [hle j]) l (fun hlk => hne ?_) (by linarith) (fun j _ => by linarith [hpos j]) k rfl
  rw [hout l hlk, hout j (hjl.trans hlk)]

/-- **C150, mergers.** Whatever nests products of firms that merge are in, all prices rise, also those of firms that do not merge. -/
theorem C150_merger_all_prices (k : J) : x k < x' k := by
  refine merger_price_rises h hr costs firm firm' hm x x' hx hx' k ?_
  by_cases hout : ∀ j, firm' j = firm' k → firm j = firm k
  · exact C150_merger_outsiders h hr costs firm firm' hm x x' hx hx' k hout
  · push Not at hout
    obtain ⟨j, hj, hne⟩ := hout
    exact merger_part_gains h hr costs firm firm' hm x x' hx hx' j k hj hne

/-- **C150, mergers.** If some products are not theirs, firms that merge earn more than they did together before. -/
theorem C150_merger_gain (k l : J) (hl : firm' l ≠ firm' k) :
    Spec.jointProfit (sharesAt m c) costs firm' (firm' k) x < Spec.jointProfit (sharesAt m c) costs firm' (firm' k) x' := by
  have hlt := C150_merger_all_prices h hr costs firm firm' hm x x' hx hx'
  have hpos := fun k => (C150_markups h hr firm costs x hx k).1
  rw [nested_fixed_foc h] at hx'
  rw [nested_profit h, nested_profit h]
  exact NestedOligopoly.optimal_strict (A := nestedAtCost c n costs) (nested_sensitivity h) hr h.below (fun j => Real.exp_pos _) (fun j => firm' j = firm' k) _ _
    (hx' (firm' k)) (fun j _ => by linarith [hlt j]) l hl (by linarith [hlt l]) (fun j _ => by linarith [hpos j]) k rfl

omit hx hx' in
/-- **C152, mergers.** With recovered costs, all simulated prices after a merger are above observed ones. Approximate prices of products whose owner does not change are
observed ones, so they are too low. -/
theorem C152_all_prices (x' : J → ℝ)
    (hx' : priceContraction m c (ownershipFromIds firm') (fun k _ => computeCosts m c (ownershipFromIds firm) (sharesAt m c c.x0) k) x' = x') (k : J) :
    c.x0 k < x' k ∧ (¬Spec.Joined firm firm' k →
      approximatePrices m c (ownershipFromIds firm') (sharesAt m c c.x0) (computeCosts m c (ownershipFromIds firm) (sharesAt m c c.x0)) k < x' k) := by
  have hlt := C150_merger_all_prices h hr _ firm firm' hm c.x0 x' ((costs_fixed h hr firm _).mp rfl) hx' k
  exact ⟨hlt, fun hj => by rwa [((C152_approximate h hr firm firm' hm.1 k).2 hj).1]⟩

end

/-! ## Non-vacuity -/

/-- Of four firms with one product each, in two nests, two in different nests merge. All four prices rise. -/
example : ∃ x x' : Fin 2 × Fin 2 → ℝ,
    priceContraction twoNestMarket twoNestPrices (ownershipFromIds (id : Fin 2 × Fin 2 → Fin 2 × Fin 2)) (fun _ _ => 1) x = x ∧
    priceContraction twoNestMarket twoNestPrices (ownershipFromIds fun k : Fin 2 × Fin 2 => if k.2 = 0 then none else some k) (fun _ _ => 1) x' = x' ∧
    ∀ k, x k < x' k := by
  have hr : ∀ g, 0 ≤ (⟨Prod.fst, .single (1 / 2)⟩ : Nesting (Fin 2 × Fin 2) (Fin 2)).rho.groupRho g := fun g => by
    simp only [RhoParam.groupRho]; norm_num
  obtain ⟨x, hx, -⟩ := C150_exists_unique twoNests_nested hr (id : Fin 2 × Fin 2 → Fin 2 × Fin 2) fun _ => 1
  obtain ⟨x', hx', -⟩ := C150_exists_unique twoNests_nested hr (fun k : Fin 2 × Fin 2 => if k.2 = 0 then none else some k) fun _ => 1
  refine ⟨x, x', hx, hx', C150_merger_all_prices twoNests_nested hr _ _ _ ⟨fun j k e => ?_, (0, 0), (1, 0), ?_, ?_⟩ x x' hx hx'⟩
  · rw [show j = k from e]
  · simp
  · simp

/-- If the two firms of one nest merge, simulated prices in the other nest rise above 3, and approximate ones do not. -/
example (x' : Fin 2 × Fin 2 → ℝ)
    (hx' : priceContraction twoNestMarket twoNestPrices (ownershipFromIds fun k : Fin 2 × Fin 2 => if k.1 = 0 then none else some k)
      (fun k _ => computeCosts twoNestMarket twoNestPrices (ownershipFromIds (id : Fin 2 × Fin 2 → Fin 2 × Fin 2)) (sharesAt twoNestMarket twoNestPrices twoNestPrices.x0) k)
        x' = x') : 3 < x' (1, 0) := by
  have hr : ∀ g, 0 ≤ (⟨Prod.fst, .single (1 / 2)⟩ : Nesting (Fin 2 × Fin 2) (Fin 2)).rho.groupRho g := fun g => by
    simp only [RhoParam.groupRho]; norm_num
  refine (C152_all_prices twoNests_nested hr (id : Fin 2 × Fin 2 → Fin 2 × Fin 2) _ ⟨fun j k e => ?_, (0, 0), (0, 1), ?_, ?_⟩ x' hx' (1, 0)).1
  · rw [show j = k from e]
  · simp
  · simp

end Pyblp
