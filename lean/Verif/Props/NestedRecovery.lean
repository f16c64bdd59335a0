import Verif.Props.NestedPricing

/-!
# C152: costs recovered from prices with nested logit demand

Costs are those of `compute_costs` (pyblp/results/economy_results.py:501-542), prices minus `compute_eta` (pyblp/markets/market.py:694-734), and
approximate prices are those of `compute_approximate_prices` (pyblp/results/economy_results.py:658-715). Shares are those that demand explains.
-/

set_option linter.unusedSectionVars false

namespace Pyblp

open Finset

namespace Spec

/-- Two products of different firms that one firm has after a merger. -/
def Joined {J F F' : Type} (firm : J → F) (firm' : J → F') (k : J) : Prop := ∃ j, firm' j = firm' k ∧ firm j ≠ firm k

end Spec

variable {J A G K1 K2 F F' : Type} [Fintype J] [DecidableEq J] [Nonempty J] [Fintype G] [DecidableEq G] [Fintype A]
  [Fintype K1] [Fintype K2] [IsEmpty K2] [DecidableEq F] [DecidableEq F']

variable {m : Market J A G} {c : Characteristic J A K1 K2} {n : Nesting J G} (h : Spec.NestedLogit m n c)

/-- What a firm recovers of an increase in the markup of a product from its other products, in terms of markups. -/
noncomputable def recovered (n : Nesting J G) (s : J → ℝ) (firm : J → F) (v : J → ℝ) (k : J) : ℝ :=
  n.productRho k * ∑ j with n.group j = n.group k ∧ firm j = firm k, v j * Spec.nestShare n s j + (1 - n.productRho k) * ∑ j with firm j = firm k, v j * s j

include h

lemma step_recovered (firm : J → F) (v x : J → ℝ) (k : J) :
    NestedOligopoly.step n.group n.rho.groupRho (Spec.sensitivity m c) (nestedAtCost c n fun k => x k - v k) firm v k =
      (1 - n.productRho k) / Spec.sensitivity m c + recovered n (sharesAt m c x) firm v k := by
  have hv : (fun k => x k - (x k - v k)) = v := funext fun k => by ring
  have hs := fun j => nested_oligopoly_share h (fun k => x k - v k) x j
  have hn := fun j => nested_oligopoly_nestShare h (fun k => x k - v k) x j
  simp only [hv] at hs hn
  rw [NestedOligopoly.step, recovered, NestedOligopoly.profit, Finset.sum_div]
  simp only [hs, Nesting.productRho, add_assoc]
  congr 3
  refine Finset.sum_congr rfl fun j hj => ?_
  rw [← (Finset.mem_filter.mp hj).2.1]
  simp only [hn, mul_div_assoc]

/-- The matrix with which markups are computed. -/
lemma nested_delta (firm : J → F) (v : J → ℝ) (k : J) :
    (capitalDelta m c (ownershipFromIds firm)).mulVec v k =
      Spec.sensitivity m c / (1 - n.productRho k) * sharesAt m c c.x0 k * (v k - recovered n (sharesAt m c c.x0) firm v k) := by
  have hl := nested_lamda h c.x0 k
  have hlam := nested_lamda_eq h c.x0 k
  set L := capitalLamda m (probabilitiesAt m c c.x0) (utilityDerivatives m c c.x0) k with hL
  have h1 := contraction_gradient m c firm (fun k => c.x0 k - v k) c.x0 k hl
  have hv : (fun k => c.x0 k - (c.x0 k - v k)) = v := funext fun k => by ring
  rw [nested_contraction h, hv, step_recovered h] at h1
  have hgrad : firmProfitGradient m c (ownershipFromIds firm) (fun k => c.x0 k - v k) c.x0 k =
      sharesAt m c c.x0 k - (capitalDelta m c (ownershipFromIds firm)).mulVec v k := by
    have : ∀ j, ownershipFromIds firm j k * profitJacobian m c (fun k => c.x0 k - v k) c.x0 j k =
        (if j = k then sharesAt m c c.x0 k else 0) - capitalDelta m c (ownershipFromIds firm) k j * v j := fun j => by
      simp only [profitJacobian, sharesJacobian, capitalDelta, Matrix.of_apply, sub_sub_cancel, ownershipFromIds]
      by_cases hjk : j = k
      · subst hjk
        simp only [if_true]
        ring
      · by_cases hf : firm j = firm k
        · rw [if_pos hf, if_pos hf.symm, if_neg hjk, if_neg hjk, if_neg hjk]
          ring
        · have hf' : ¬firm k = firm j := fun e => hf e.symm
          simp only [if_neg hf, if_neg hf', if_neg hjk]
          ring
    simp only [firmProfitGradient, this, Finset.sum_sub_distrib, Finset.sum_ite_eq', Finset.mem_univ, if_true]
    rfl
  rw [hgrad] at h1
  have hs := (nested_share_pos h c.x0 k).ne'
  have ha := (nested_sensitivity h).ne'
  have hr : (1 : ℝ) - n.productRho k ≠ 0 := by have := h.below (n.group k); simp only [Nesting.productRho]; linarith
  have h2 : sharesAt m c c.x0 k - (capitalDelta m c (ownershipFromIds firm)).mulVec v k =
      L * (v k - (1 - n.productRho k) / Spec.sensitivity m c - recovered n (sharesAt m c c.x0) firm v k) := by
    rw [← hL] at h1
    have h4 : (sharesAt m c c.x0 k - (capitalDelta m c (ownershipFromIds firm)).mulVec v k) / L =
        v k - (1 - n.productRho k) / Spec.sensitivity m c - recovered n (sharesAt m c c.x0) firm v k := by linarith
    rw [← h4, mul_div_cancel₀ _ hl]
  have hlam' : L = -(Spec.sensitivity m c / (1 - n.productRho k) * sharesAt m c c.x0 k) := hlam
  rw [hlam'] at h2
  have h3 : Spec.sensitivity m c / (1 - n.productRho k) * sharesAt m c c.x0 k * ((1 - n.productRho k) / Spec.sensitivity m c) = sharesAt m c c.x0 k := by
    field_simp
  linarith

omit h in
lemma recovered_sub (s : J → ℝ) (firm : J → F) (v w : J → ℝ) (k : J) : recovered n s firm (fun j => v j - w j) k = recovered n s firm v k - recovered n s firm w k := by
  simp only [recovered, sub_mul, Finset.sum_sub_distrib]
  ring

lemma nestShare_pos (x : J → ℝ) (j : J) : 0 < Spec.nestShare n (sharesAt m c x) j :=
  div_pos (nested_share_pos h x j) (Finset.sum_pos (fun i _ => nested_share_pos h x i) ⟨j, by simp⟩)

/-- Markups that exceed what is recovered of them are not negative. -/
lemma recovered_min (hr : ∀ g, 0 ≤ n.rho.groupRho g) (x : J → ℝ) (firm : J → F) (v : J → ℝ) (hv : ∀ k, recovered n (sharesAt m c x) firm v k ≤ v k) (k : J) : 0 ≤ v k := by
  obtain ⟨i, -, hi⟩ := Finset.exists_min_image Finset.univ v Finset.univ_nonempty
  refine le_trans ?_ (hi k (Finset.mem_univ k))
  have hmin := fun j => hi j (Finset.mem_univ j)
  have h0 : 0 ≤ n.productRho i := hr _
  have h1 : n.productRho i < 1 := h.below _
  set s := sharesAt m c x with hsdef
  have hs := fun j => nested_share_pos h x j
  have hns := fun j => nestShare_pos h x j
  set C := ∑ j with n.group j = n.group i ∧ firm j = firm i, Spec.nestShare n s j with hC
  set S := ∑ j with firm j = firm i, s j with hS
  have hC1 : C ≤ 1 := by
    have hle : C ≤ ∑ j with n.group j = n.group i, Spec.nestShare n s j := by
      refine Finset.sum_le_sum_of_subset_of_nonneg (fun j hj => ?_) fun j _ _ => (hns j).le
      simp only [Finset.mem_filter, Finset.mem_univ, true_and] at hj ⊢
      exact hj.1
    refine hle.trans (le_of_eq ?_)
    have : ∀ j ∈ Finset.univ.filter fun j => n.group j = n.group i, Spec.nestShare n s j = s j / ∑ k with n.group k = n.group i, s k := fun j hj => by
      rw [Spec.nestShare, (Finset.mem_filter.mp hj).2]
    rw [Finset.sum_congr rfl this, ← Finset.sum_div]
    exact div_self (Finset.sum_pos (fun j _ => hs j) ⟨i, by simp⟩).ne'
  have hS1 : S < 1 := by
    have := NestedOligopoly.total_share_lt (group := n.group) (a := Spec.sensitivity m c) (A := nestedAtCost c n x) h.below (fun j => Real.exp_pos _) (fun j => firm j = firm i) (fun k => x k - x k)
    rw [hS]
    refine lt_of_eq_of_lt (Finset.sum_congr rfl fun j _ => ?_) this
    exact nested_oligopoly_share h x x j
  have e1 : v i * C ≤ ∑ j with n.group j = n.group i ∧ firm j = firm i, v j * Spec.nestShare n s j := by
    rw [hC, Finset.mul_sum]
    exact Finset.sum_le_sum fun j _ => mul_le_mul_of_nonneg_right (hmin j) (hns j).le
  have e2 : v i * S ≤ ∑ j with firm j = firm i, v j * s j := by
    rw [hS, Finset.mul_sum]
    exact Finset.sum_le_sum fun j _ => mul_le_mul_of_nonneg_right (hmin j) (hs j).le
  have e3 := hv i
  rw [recovered] at e3
  have e4 : n.productRho i * (v i * C) + (1 - n.productRho i) * (v i * S) ≤ v i :=
    (add_le_add (mul_le_mul_of_nonneg_left e1 h0) (mul_le_mul_of_nonneg_left e2 (by linarith))).trans e3
  by_contra hneg
  push Not at hneg
  have e5 : n.productRho i * C ≤ n.productRho i := mul_le_of_le_one_right h0 hC1
  have e6 : (1 - n.productRho i) * S < 1 - n.productRho i := mul_lt_of_lt_one_right (by linarith) hS1
  nlinarith

/-- **C152.** Markups can always be computed: first order conditions have exactly one solution. -/
theorem C152_invertible (hr : ∀ g, 0 ≤ n.rho.groupRho g) (firm : J → F) : IsUnit (capitalDelta m c (ownershipFromIds firm)) := by
  refine Matrix.mulVec_injective_iff_isUnit.mp ?_
  rw [← Matrix.coe_mulVecLin, ← LinearMap.ker_eq_bot, LinearMap.ker_eq_bot']
  intro v hv
  rw [Matrix.coe_mulVecLin] at hv
  have heq : ∀ k, recovered n (sharesAt m c c.x0) firm v k = v k := fun k => by
    have h1 := congrFun hv k
    have h2 : 0 < 1 - n.productRho k := by have := h.below (n.group k); simp only [Nesting.productRho]; linarith
    rw [nested_delta h, Pi.zero_apply] at h1
    have := (mul_eq_zero.mp h1).resolve_left (mul_pos (div_pos (nested_sensitivity h) h2) (nested_share_pos h c.x0 k)).ne'
    linarith
  have h0 : ∀ k, recovered n (sharesAt m c c.x0) firm (fun j => 0 - v j) k = 0 - v k := fun k => by
    rw [recovered_sub, heq]
    simp [recovered]
  funext k
  have h1 := recovered_min h hr c.x0 firm v (fun k => (heq k).le) k
  have h2 := recovered_min h hr c.x0 firm _ (fun k => (h0 k).le) k
  simp only [Pi.zero_apply]
  linarith

lemma eta_recovered (hr : ∀ g, 0 ≤ n.rho.groupRho g) (firm : J → F) (v : J → ℝ) :
    computeEta m c (ownershipFromIds firm) (sharesAt m c c.x0) = v ↔
      ∀ k, v k = (1 - n.productRho k) / Spec.sensitivity m c + recovered n (sharesAt m c c.x0) firm v k := by
  have hunit := C152_invertible h hr firm
  have hdet := (Matrix.isUnit_iff_isUnit_det _).mp hunit
  have h1 : computeEta m c (ownershipFromIds firm) (sharesAt m c c.x0) = v ↔ (capitalDelta m c (ownershipFromIds firm)).mulVec v = sharesAt m c c.x0 := by
    rw [computeEta]
    constructor
    · rintro rfl
      rw [Matrix.mulVec_mulVec, Matrix.mul_nonsing_inv _ hdet, Matrix.one_mulVec]
    · intro h'
      rw [← h', Matrix.mulVec_mulVec, Matrix.nonsing_inv_mul _ hdet, Matrix.one_mulVec]
  rw [h1, funext_iff]
  refine forall_congr' fun k => ?_
  have hs := (nested_share_pos h c.x0 k)
  have ha := (nested_sensitivity h)
  have hr : 0 < (1 : ℝ) - n.productRho k := by have := h.below (n.group k); simp only [Nesting.productRho]; linarith
  rw [nested_delta h]
  constructor
  · intro h'
    field_simp at h' ⊢
    linarith
  · intro h'
    have : v k - recovered n (sharesAt m c c.x0) firm v k = (1 - n.productRho k) / Spec.sensitivity m c := by linarith
    rw [this]
    field_simp

/-- Observed prices are an equilibrium for recovered costs, and for no others. -/
lemma costs_fixed (hr : ∀ g, 0 ≤ n.rho.groupRho g) (firm : J → F) (costs : J → ℝ) :
    computeCosts m c (ownershipFromIds firm) (sharesAt m c c.x0) = costs ↔ priceContraction m c (ownershipFromIds firm) (fun k _ => costs k) c.x0 = c.x0 := by
  have h1 : computeCosts m c (ownershipFromIds firm) (sharesAt m c c.x0) = costs ↔
      computeEta m c (ownershipFromIds firm) (sharesAt m c c.x0) = fun k => c.x0 k - costs k := by
    rw [funext_iff, funext_iff]
    refine forall_congr' fun k => ?_
    rw [computeCosts]
    constructor <;> intro h' <;> linarith
  rw [h1, eta_recovered h hr, nested_fixed_iff h, funext_iff]
  refine forall_congr' fun k => ?_
  have h2 := step_recovered h firm (fun k => c.x0 k - costs k) c.x0 k
  simp only [sub_sub_cancel] at h2
  rw [h2]
  exact eq_comm

/-- **C152, costs.** Recovered costs are the only ones for which observed prices are such that no firm can gain by changing its prices. -/
theorem C152_costs (hr : ∀ g, 0 ≤ n.rho.groupRho g) (firm : J → F) (costs : J → ℝ) :
    computeCosts m c (ownershipFromIds firm) (sharesAt m c c.x0) = costs ↔ Spec.NashEquilibrium (sharesAt m c) costs firm c.x0 := by
  rw [costs_fixed h hr, C149_nested_partial h hr]

/-- **C152, costs.** Recovered costs are below prices. -/
theorem C152_markups (hr : ∀ g, 0 ≤ n.rho.groupRho g) (firm : J → F) (j : J) : computeCosts m c (ownershipFromIds firm) (sharesAt m c c.x0) j < c.x0 j :=
  (C150_markups h hr firm _ c.x0 ((costs_fixed h hr firm _).mp rfl) j).1

/-- **C152, simulation.** With recovered costs and the same firms, observed prices are the only ones at which iteration stops. -/
theorem C152_unchanged (hr : ∀ g, 0 ≤ n.rho.groupRho g) (firm : J → F) (x : J → ℝ) :
    priceContraction m c (ownershipFromIds firm) (fun k _ => computeCosts m c (ownershipFromIds firm) (sharesAt m c c.x0) k) x = x ↔ x = c.x0 := by
  have hx := (costs_fixed h hr firm _).mp rfl
  constructor
  · exact fun h' => C150_unique h hr firm _ x c.x0 h' hx
  · rintro rfl
    exact hx

section Ownership

variable (hr : ∀ g, 0 ≤ n.rho.groupRho g) (firm : J → F) (firm' : J → F') (hm : ∀ j k, firm j = firm k → firm' j = firm' k)

include hr hm

/-- **C152, ownership.** If firms are believed to have more products, recovered costs are no higher, and they are lower for products of firms that have more. -/
theorem C152_ownership (k : J) :
    computeCosts m c (ownershipFromIds firm') (sharesAt m c c.x0) k ≤ computeCosts m c (ownershipFromIds firm) (sharesAt m c c.x0) k ∧
      (Spec.Joined firm firm' k → computeCosts m c (ownershipFromIds firm') (sharesAt m c c.x0) k < computeCosts m c (ownershipFromIds firm) (sharesAt m c c.x0) k) := by
  set s := sharesAt m c c.x0 with hsdef
  set v := computeEta m c (ownershipFromIds firm) s with hv
  set w := computeEta m c (ownershipFromIds firm') s with hw
  have ev := (eta_recovered h hr firm v).mp rfl
  have ew := (eta_recovered h hr firm' w).mp rfl
  have hs := fun j => nested_share_pos h c.x0 j
  have hns := fun j => nestShare_pos h c.x0 j
  have hvpos : ∀ j, 0 < v j := fun j => by
    have := C152_markups h hr firm j
    rw [computeCosts] at this
    linarith
  have h1 : ∀ k, 0 < 1 - n.productRho k := fun k => by have := h.below (n.group k); simp only [Nesting.productRho]; linarith
  have hmore : ∀ k, recovered n s firm v k ≤ recovered n s firm' v k := fun k => by
    refine add_le_add (mul_le_mul_of_nonneg_left ?_ (hr _)) (mul_le_mul_of_nonneg_left ?_ (h1 k).le)
    · refine Finset.sum_le_sum_of_subset_of_nonneg (fun j hj => ?_) fun j _ _ => mul_nonneg (hvpos j).le (hns j).le
      simp only [Finset.mem_filter, Finset.mem_univ, true_and] at hj ⊢
      exact ⟨hj.1, hm j k hj.2⟩
    · refine Finset.sum_le_sum_of_subset_of_nonneg (fun j hj => ?_) fun j _ _ => mul_nonneg (hvpos j).le (hs j).le
      simp only [Finset.mem_filter, Finset.mem_univ, true_and] at hj ⊢
      exact hm j k hj
  have hd := recovered_min h hr c.x0 firm' (fun j => w j - v j) fun k => by
    rw [recovered_sub]
    linarith [ev k, ew k, hmore k]
  refine ⟨by simp only [computeCosts]; linarith [hd k], ?_⟩
  rintro ⟨i, hi, hne⟩
  have hrec : recovered n s firm' v k ≤ recovered n s firm' w k := by
    refine add_le_add (mul_le_mul_of_nonneg_left ?_ (hr _)) (mul_le_mul_of_nonneg_left ?_ (h1 k).le)
    · exact Finset.sum_le_sum fun j _ => mul_le_mul_of_nonneg_right (by linarith [hd j]) (hns j).le
    · exact Finset.sum_le_sum fun j _ => mul_le_mul_of_nonneg_right (by linarith [hd j]) (hs j).le
  have hstrict : recovered n s firm v k < recovered n s firm' v k := by
    refine add_lt_add_of_le_of_lt (mul_le_mul_of_nonneg_left ?_ (hr _)) (mul_lt_mul_of_pos_left ?_ (h1 k))
    · refine Finset.sum_le_sum_of_subset_of_nonneg (fun j hj => ?_) fun j _ _ => mul_nonneg (hvpos j).le (hns j).le
      simp only [Finset.mem_filter, Finset.mem_univ, true_and] at hj ⊢
      exact ⟨hj.1, hm j k hj.2⟩
    · refine Finset.sum_lt_sum_of_subset (i := i) (fun j hj => ?_) (by simpa using hi) (by simpa using hne) (mul_pos (hvpos i) (hs i)) fun j _ _ => mul_nonneg (hvpos j).le (hs j).le
      simp only [Finset.mem_filter, Finset.mem_univ, true_and] at hj ⊢
      exact hm j k hj
  simp only [computeCosts]
  linarith [ev k, ew k]

/-- **C152, approximate prices.** After a merger, approximate prices of products of firms that merge are above old prices, and those of firms that do not are
old prices, which are no higher than new equilibrium prices. -/
theorem C152_approximate (k : J) :
    (Spec.Joined firm firm' k →
      c.x0 k < approximatePrices m c (ownershipFromIds firm') (sharesAt m c c.x0) (computeCosts m c (ownershipFromIds firm) (sharesAt m c c.x0)) k) ∧
    (¬Spec.Joined firm firm' k →
      approximatePrices m c (ownershipFromIds firm') (sharesAt m c c.x0) (computeCosts m c (ownershipFromIds firm) (sharesAt m c c.x0)) k = c.x0 k ∧
      ∀ x', priceContraction m c (ownershipFromIds firm') (fun k _ => computeCosts m c (ownershipFromIds firm) (sharesAt m c c.x0) k) x' = x' → c.x0 k ≤ x' k) := by
  constructor
  · intro hj
    have := (C152_ownership h hr firm firm' hm k).2 hj
    simp only [computeCosts] at this
    simp only [approximatePrices, computeCosts]
    linarith
  · intro hj
    have hsame : ∀ i j, firm' i = firm' k → (firm j = firm i ↔ firm' j = firm' i) := fun i j hi =>
      ⟨hm j i, fun hji => by
        by_contra hne
        by_cases hik : firm i = firm k
        · exact hj ⟨j, hji.trans hi, fun e => hne (e.trans hik.symm)⟩
        · exact hj ⟨i, hi, hik⟩⟩
    have hle := (C152_ownership h hr firm firm' hm k).1
    set s := sharesAt m c c.x0 with hsdef
    set v := computeEta m c (ownershipFromIds firm) s with hv
    set w := computeEta m c (ownershipFromIds firm') s with hw
    have ev := (eta_recovered h hr firm v).mp rfl
    have ew := (eta_recovered h hr firm' w).mp rfl
    have hu := recovered_min h hr c.x0 firm' (fun j => if firm' j = firm' k then v j - w j else 0) (fun i => ?_) k
    · simp only [if_true] at hu
      refine ⟨?_, fun x' hx' => ?_⟩
      · simp only [computeCosts] at hle
        simp only [approximatePrices, computeCosts]
        linarith
      · have hx := (costs_fixed h hr firm _).mp rfl
        rw [nested_fixed_foc h] at hx hx'
        have := NestedOligopoly.merger_up (A := nestedAtCost c n (computeCosts m c (ownershipFromIds firm) s)) (nested_sensitivity h) hr h.below (fun j => Real.exp_pos _) firm firm' hm _ _ hx hx' k
        linarith
    · by_cases hi : firm' i = firm' k
      · rw [if_pos hi]
        have e1 : recovered n s firm' (fun j => if firm' j = firm' k then v j - w j else 0) i = recovered n s firm v i - recovered n s firm' w i := by
          have e2 : recovered n s firm v i = recovered n s firm' v i := by simp only [recovered, hsame i _ hi]
          rw [e2, ← recovered_sub]
          simp only [recovered]
          congr 2
          · refine Finset.sum_congr rfl fun j hj => ?_
            rw [if_pos ((Finset.mem_filter.mp hj).2.2.trans hi)]
          · refine Finset.sum_congr rfl fun j hj => ?_
            rw [if_pos ((Finset.mem_filter.mp hj).2.trans hi)]
        rw [← hsdef, e1]
        linarith [ev i, ew i]
      · rw [if_neg hi]
        refine le_of_eq ?_
        rw [recovered, Finset.sum_eq_zero, Finset.sum_eq_zero, mul_zero, mul_zero, add_zero]
        · intro j hj
          rw [if_neg fun e => hi ((Finset.mem_filter.mp hj).2.symm.trans e), zero_mul]
        · intro j hj
          rw [if_neg fun e => hi ((Finset.mem_filter.mp hj).2.2.symm.trans e), zero_mul]

/-- **C152, efficiencies.** After a merger, old prices are those at which no firm can gain by changing its own if and only if costs are those recovered with
ownership after the merger: lower than before for all products of firms that merge, and unchanged for other products. -/
theorem C152_efficiencies (costs' : J → ℝ) :
    Spec.NashEquilibrium (sharesAt m c) costs' firm' c.x0 ↔ ∀ k, costs' k = computeCosts m c (ownershipFromIds firm') (sharesAt m c c.x0) k ∧
      (Spec.Joined firm firm' k → costs' k < computeCosts m c (ownershipFromIds firm) (sharesAt m c c.x0) k) ∧
      (¬Spec.Joined firm firm' k → costs' k = computeCosts m c (ownershipFromIds firm) (sharesAt m c c.x0) k) := by
  rw [← C152_costs h hr]
  constructor
  · rintro rfl k
    refine ⟨rfl, (C152_ownership h hr firm firm' hm k).2, fun hj => ?_⟩
    have := ((C152_approximate h hr firm firm' hm k).2 hj).1
    simp only [approximatePrices, computeCosts] at this ⊢
    linarith
  · intro h'
    exact funext fun k => (h' k).1.symm

/-- **C152, merger simulation.** If products of each firm after a merger are in one nest, iteration with recovered costs that starts at observed prices raises prices
in each step and converges to the prices at which no firm can gain by changing its prices. -/
theorem C152_merger (hone : ∀ j k, firm' j = firm' k → n.group j = n.group k) :
    ∃ x', Spec.NashEquilibrium (sharesAt m c) (computeCosts m c (ownershipFromIds firm) (sharesAt m c c.x0)) firm' x' ∧
      (∀ i k, (priceContraction m c (ownershipFromIds firm') (fun k _ => computeCosts m c (ownershipFromIds firm) (sharesAt m c c.x0) k))^[i] c.x0 k ≤
        (priceContraction m c (ownershipFromIds firm') (fun k _ => computeCosts m c (ownershipFromIds firm) (sharesAt m c c.x0) k))^[i + 1] c.x0 k) ∧
      Filter.Tendsto (fun i => (priceContraction m c (ownershipFromIds firm') (fun k _ => computeCosts m c (ownershipFromIds firm) (sharesAt m c c.x0) k))^[i] c.x0)
        Filter.atTop (nhds x') := by
  obtain ⟨x', hx', -⟩ := C150_exists_unique h hr firm' (computeCosts m c (ownershipFromIds firm) (sharesAt m c c.x0))
  have h1 := C150_merger_rises h hr firm' hone firm hm _ c.x0 x' ((costs_fixed h hr firm _).mp rfl) hx'
  exact ⟨x', (C149_nested_partial h hr firm' _ x').mp hx', h1.1, h1.2.2⟩

end Ownership

/-! ## Non-vacuity -/

/-- Both firms have products in both nests; if one firm were believed to have all, recovered costs would be lower. -/
example (k : Fin 2 × Fin 2) :
    computeCosts twoNestMarket twoNestPrices (ownershipFromIds fun _ : Fin 2 × Fin 2 => ()) (sharesAt twoNestMarket twoNestPrices twoNestPrices.x0) k <
      computeCosts twoNestMarket twoNestPrices (ownershipFromIds (Prod.snd : Fin 2 × Fin 2 → Fin 2)) (sharesAt twoNestMarket twoNestPrices twoNestPrices.x0) k ∧
    computeCosts twoNestMarket twoNestPrices (ownershipFromIds (Prod.snd : Fin 2 × Fin 2 → Fin 2)) (sharesAt twoNestMarket twoNestPrices twoNestPrices.x0) k < 3 := by
  have hr : ∀ g, 0 ≤ (⟨Prod.fst, .single (1 / 2)⟩ : Nesting (Fin 2 × Fin 2) (Fin 2)).rho.groupRho g := fun g => by
    simp only [RhoParam.groupRho]; norm_num
  refine ⟨(C152_ownership twoNests_nested hr Prod.snd (fun _ => ()) (fun _ _ _ => rfl) k).2 ⟨(k.1, k.2 + 1), rfl, ?_⟩, C152_markups twoNests_nested hr Prod.snd k⟩
  simp

/-- Firms with one product each merge if their products are in the same nest. -/
example : ∃ x' : Fin 2 × Fin 2 → ℝ, Filter.Tendsto (fun i => (priceContraction twoNestMarket twoNestPrices (ownershipFromIds (Prod.fst : Fin 2 × Fin 2 → Fin 2))
    (fun k _ => computeCosts twoNestMarket twoNestPrices (ownershipFromIds (id : Fin 2 × Fin 2 → Fin 2 × Fin 2)) (sharesAt twoNestMarket twoNestPrices twoNestPrices.x0) k))^[i]
      twoNestPrices.x0) Filter.atTop (nhds x') := by
  have hr : ∀ g, 0 ≤ (⟨Prod.fst, .single (1 / 2)⟩ : Nesting (Fin 2 × Fin 2) (Fin 2)).rho.groupRho g := fun g => by
    simp only [RhoParam.groupRho]; norm_num
  obtain ⟨x', -, -, hlim⟩ := C152_merger twoNests_nested hr (id : Fin 2 × Fin 2 → Fin 2 × Fin 2) (Prod.fst : Fin 2 × Fin 2 → Fin 2) (fun _ _ e => congrArg Prod.fst e) fun _ _ e => e
  exact ⟨x', hlim⟩

/-- After a merger of firms of one nest, approximate prices rise in this nest. -/
example : (3 : ℝ) < approximatePrices twoNestMarket twoNestPrices (ownershipFromIds fun k : Fin 2 × Fin 2 => if k.1 = 0 then none else some k)
    (sharesAt twoNestMarket twoNestPrices twoNestPrices.x0)
    (computeCosts twoNestMarket twoNestPrices (ownershipFromIds (id : Fin 2 × Fin 2 → Fin 2 × Fin 2)) (sharesAt twoNestMarket twoNestPrices twoNestPrices.x0)) (0, 0) ∧
    approximatePrices twoNestMarket twoNestPrices (ownershipFromIds fun k : Fin 2 × Fin 2 => if k.1 = 0 then none else some k)
    (sharesAt twoNestMarket twoNestPrices twoNestPrices.x0)
    (computeCosts twoNestMarket twoNestPrices (ownershipFromIds (id : Fin 2 × Fin 2 → Fin 2 × Fin 2)) (sharesAt twoNestMarket twoNestPrices twoNestPrices.x0)) (1, 0) = 3 := by
  have hr : ∀ g, 0 ≤ (⟨Prod.fst, .single (1 / 2)⟩ : Nesting (Fin 2 × Fin 2) (Fin 2)).rho.groupRho g := fun g => by
    simp only [RhoParam.groupRho]; norm_num
  have h1 := C152_approximate twoNests_nested hr (id : Fin 2 × Fin 2 → Fin 2 × Fin 2) (fun k : Fin 2 × Fin 2 => if k.1 = 0 then none else some k) fun j k e => by
    rw [show j = k from e]
  refine ⟨(h1 (0, 0)).1 ⟨(0, 1), rfl, by decide⟩, ((h1 (1, 0)).2 ?_).1⟩
  rintro ⟨j, hj, hne⟩
  revert hj hne
  revert j
  decide

end Pyblp
