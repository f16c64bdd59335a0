import Verif.Props.CostPassThrough

/-!
# C156: changes of mean utilities with logit and nested logit demand

Mean utilities change because of characteristics or unobserved quality, for example if `Simulation.replace_endogenous` is called for other `xi`
(pyblp/economies/simulation.py:661-856) or demand is evaluated for other product data. Prices are fixed points of `priceContraction`
(pyblp/markets/market.py:813-848).
-/

set_option linter.unusedSectionVars false

namespace Pyblp

open Finset

variable {J A G K1 K2 F : Type} [Fintype J] [DecidableEq J] [Nonempty J] [Fintype G] [DecidableEq G] [Fintype A]
  [Fintype K1] [Fintype K2] [IsEmpty K2] [DecidableEq F]

namespace Spec

/-- What a change of mean utilities is worth in units of prices. -/
noncomputable def worth (c : Characteristic J A K1 K2) (delta' : J → ℝ) (j : J) : ℝ := (delta' j - c.delta j) / -∑ k with c.has1 k = true, c.beta k

end Spec

section

variable {m : Market J A G} {c : Characteristic J A K1 K2} {n : Nesting J G} (h : Spec.NestedLogit m n c) (delta' : J → ℝ)

include h

lemma quality_nested : Spec.NestedLogit m n { c with delta := delta' } :=
  ⟨h.nesting, h.availability, h.scale, h.weights, h.below, h.linear, h.decreasing⟩

lemma quality_atCost (costs : J → ℝ) :
    nestedAtCost { c with delta := delta' } n costs = nestedAtCost c n fun j => costs j - Spec.worth c delta' j := by
  funext j
  have hw : (∑ k with c.has1 k = true, c.beta k) * Spec.worth c delta' j = -(delta' j - c.delta j) := by
    have := h.decreasing.ne
    rw [Spec.worth]
    field_simp
  unfold nestedAtCost
  congr 2
  linear_combination hw

/-- **C156, shares.** Demand for better products at some prices is demand at prices that are lower by what improvements are worth. -/
theorem C156_shares (x : J → ℝ) : sharesAt m { c with delta := delta' } x = sharesAt m c fun j => x j - Spec.worth c delta' j := by
  funext j
  rw [nested_oligopoly_share (quality_nested h delta') (fun _ => 0), nested_oligopoly_share h (fun j => 0 - Spec.worth c delta' j), quality_atCost h]
  congr 1
  funext k
  ring

/-- **C156, equilibria.** Equilibrium prices with better products are those with costs that are lower by what improvements are worth, plus these. -/
theorem C156_equilibria (firm : J → F) (costs x : J → ℝ) :
    priceContraction m { c with delta := delta' } (ownershipFromIds firm) (fun k _ => costs k) x = x ↔
      priceContraction m c (ownershipFromIds firm) (fun k _ => costs k - Spec.worth c delta' k) (fun k => x k - Spec.worth c delta' k) =
        fun k => x k - Spec.worth c delta' k := by
  rw [nested_fixed_foc (quality_nested h delta'), nested_fixed_foc h, quality_atCost h]
  have : (fun k => x k - costs k) = fun k => x k - Spec.worth c delta' k - (costs k - Spec.worth c delta' k) := funext fun k => by ring
  rw [← this]
  rfl

lemma worth_nonneg (j : J) (hj : c.delta j ≤ delta' j) : 0 ≤ Spec.worth c delta' j :=
  div_nonneg (by linarith) (neg_pos.mpr h.decreasing).le

variable (hr : ∀ g, 0 ≤ n.rho.groupRho g) (firm : J → F) (hwide : Spec.FirmWide firm c.delta delta') (hup : ∀ j, c.delta j ≤ delta' j)
  (costs x x' : J → ℝ) (hx : priceContraction m c (ownershipFromIds firm) (fun k _ => costs k) x = x)
  (hx' : priceContraction m { c with delta := delta' } (ownershipFromIds firm) (fun k _ => costs k) x' = x')

include hwide in
omit h in
lemma worth_wide : Spec.FirmWide firm (fun k => costs k - Spec.worth c delta' k) costs := fun j k hjk => by
  have := hwide j k hjk
  simp only [Spec.worth, this]
  ring

include hr hwide hup hx hx'

/-- **C156, prices.** If products of some firms become better, each firm's by the same amount, no price of another firm rises; prices of better products rise by less
than improvements are worth; and prices of products that improve most do not fall. -/
theorem C156_prices (k : J) : (delta' k = c.delta k → x' k ≤ x k) ∧ (c.delta k < delta' k → x' k < x k + Spec.worth c delta' k) ∧
    ((∀ j, delta' j - c.delta j ≤ delta' k - c.delta k) → x k ≤ x' k) := by
  have ha := neg_pos.mpr h.decreasing
  have hy := (C156_equilibria h delta' firm costs x').mp hx'
  have hlow : ∀ j, costs j - Spec.worth c delta' j ≤ costs j := fun j => by linarith [worth_nonneg h delta' j (hup j)]
  have hw := worth_wide delta' firm hwide costs
  obtain ⟨hle, hlt⟩ := C151_prices h hr _ _ firm firm (fun _ _ e => e) hw _ _ hy hx hlow
  refine ⟨fun hk => ?_, fun hk => ?_, fun hk => ?_⟩
  · have := hle k
    simp only [Spec.worth, hk, sub_self, zero_div, sub_zero] at this
    exact this
  · have hp : 0 < Spec.worth c delta' k := div_pos (by linarith) ha
    linarith [hlt k (by linarith)]
  · have := C151_pass_through h hr _ _ firm hw (Spec.worth c delta' k) (worth_nonneg h delta' k (hup k)) (fun j => by
      have := div_le_div_of_nonneg_right (hk j) ha.le
      simp only [Spec.worth]
      linarith) _ _ hy hx k
    linarith

/-- **C156, consumers.** If moreover some products become better, fewer consumers choose the outside good, and consumer surplus rises. -/
theorem C156_surplus (k : J) (hk : c.delta k < delta' k) (first : J) :
    Spec.outsideShare (sharesAt m { c with delta := delta' } x') < Spec.outsideShare (sharesAt m c x) ∧
      consumerSurplus m c first x (fun _ => false) < consumerSurplus m { c with delta := delta' } first x' (fun _ => false) := by
  have ha := neg_pos.mpr h.decreasing
  have hy := (C156_equilibria h delta' firm costs x').mp hx'
  have hp : 0 < Spec.worth c delta' k := div_pos (by linarith) ha
  have hs := C151_surplus h hr _ _ firm firm (fun _ _ e => e) (worth_wide delta' firm hwide costs) _ _ hy hx
    (fun j => by linarith [worth_nonneg h delta' j (hup j)]) k (by linarith) first
  rw [C126_nested_surplus h, C126_nested_surplus h] at hs
  rw [C126_nested_surplus h, C126_nested_surplus (quality_nested h delta'), C156_shares h]
  exact hs

/-- **C156, rivals.** Firms with products that do not become better do not earn more. -/
theorem C156_rivals (f : F) (hf : ∀ j, firm j = f → delta' j = c.delta j) :
    Spec.jointProfit (sharesAt m { c with delta := delta' }) costs firm f x' ≤ Spec.jointProfit (sharesAt m c) costs firm f x := by
  have hy := (C156_equilibria h delta' firm costs x').mp hx'
  have hw0 : ∀ j, firm j = f → Spec.worth c delta' j = 0 := fun j hj => by simp [Spec.worth, hf j hj]
  refine le_trans (le_of_eq ?_) (C151_rivals h hr _ _ firm firm (fun _ _ e => e) (worth_wide delta' firm hwide costs) _ _ hy hx
    (fun j => by linarith [worth_nonneg h delta' j (hup j)]) f fun j hj => by rw [hw0 j hj, sub_zero])
  refine Finset.sum_congr rfl fun j hj => ?_
  have hj' := hw0 j (Finset.mem_filter.mp hj).2
  rw [C156_shares h]
  simp only [hj', sub_zero]

/-- **C156, rivals.** If moreover some products become better, all firms with products that do not become better lower all their prices, and earn less. -/
theorem C156_rivals_lose (i : J) (hi : c.delta i < delta' i) (k : J) (hk : delta' k = c.delta k) : x' k < x k ∧
    Spec.jointProfit (sharesAt m { c with delta := delta' }) costs firm (firm k) x' < Spec.jointProfit (sharesAt m c) costs firm (firm k) x := by
  have hy := (C156_equilibria h delta' firm costs x').mp hx'
  have hp : 0 < Spec.worth c delta' i := div_pos (by linarith) (neg_pos.mpr h.decreasing)
  have hw := worth_wide delta' firm hwide costs
  have hlow : ∀ j, costs j - Spec.worth c delta' j ≤ costs j := fun j => by linarith [worth_nonneg h delta' j (hup j)]
  have hw0 : ∀ j, firm j = firm k → Spec.worth c delta' j = 0 := fun j hj => by
    have := hwide j k hj
    rw [hk, sub_self] at this
    rw [Spec.worth, this, zero_div]
  constructor
  · have := C151_all_prices h hr _ _ firm hw _ _ hy hx hlow i (by linarith) k
    rwa [hw0 k rfl, sub_zero] at this
  · refine lt_of_eq_of_lt ?_ (C151_rivals_gain h hr _ _ firm firm (fun _ _ e => e) hw _ _ hy hx hlow i (by linarith) k fun j hj => by rw [hw0 j hj, sub_zero])
    refine Finset.sum_congr rfl fun j hj => ?_
    have hj' := hw0 j (Finset.mem_filter.mp hj).2
    rw [C156_shares h]
    simp only [hj', sub_zero]

end

section Plain

variable {m : Market J A G} {c : Characteristic J A K1 K2} (h : Spec.PlainLogit m c) (delta' : J → ℝ)

include h

lemma quality_plain : Spec.PlainLogit m { c with delta := delta' } := ⟨h.nesting, h.availability, h.scale, h.weights, h.linear, h.decreasing⟩

lemma quality_atCost_plain (costs : J → ℝ) : atCost m { c with delta := delta' } costs = atCost m c fun j => costs j - Spec.worth c delta' j := by
  funext j
  have hb := h.decreasing.ne
  have he := h.scale.ne'
  unfold atCost Spec.sensitivity Spec.worth
  congr 1
  field_simp
  ring

/-- **C156, equilibria with plain logit demand.** Again better products are the same as lower costs. -/
theorem C156_plain_equilibria (firm : J → F) (costs x : J → ℝ) :
    priceContraction m { c with delta := delta' } (ownershipFromIds firm) (fun k _ => costs k) x = x ↔
      priceContraction m c (ownershipFromIds firm) (fun k _ => costs k - Spec.worth c delta' k) (fun k => x k - Spec.worth c delta' k) =
        fun k => x k - Spec.worth c delta' k := by
  rw [fixed_iff (quality_plain h delta') costs, fixed_iff h fun k => costs k - Spec.worth c delta' k, quality_atCost_plain h]
  have : relativeMarkup m { c with delta := delta' } costs x =
      relativeMarkup m c (fun k => costs k - Spec.worth c delta' k) fun k => x k - Spec.worth c delta' k := funext fun k => by
    simp only [relativeMarkup, Spec.sensitivity]
    ring
  rw [this]

variable (firm : J → F) (hwide : Spec.FirmWide firm c.delta delta') (hup : ∀ j, c.delta j ≤ delta' j)
  (costs x x' : J → ℝ) (hx : priceContraction m c (ownershipFromIds firm) (fun k _ => costs k) x = x)
  (hx' : priceContraction m { c with delta := delta' } (ownershipFromIds firm) (fun k _ => costs k) x' = x')

include hwide hup hx hx'

/-- **C156, prices with plain logit demand.** -/
theorem C156_plain_prices (k : J) : (delta' k = c.delta k → x' k ≤ x k) ∧ (c.delta k < delta' k → x' k < x k + Spec.worth c delta' k) ∧
    ((∀ j, delta' j - c.delta j ≤ delta' k - c.delta k) → x k ≤ x' k) := by
  have ha := neg_pos.mpr h.decreasing
  have hy := (C156_plain_equilibria h delta' firm costs x').mp hx'
  have hpos : ∀ j, 0 ≤ Spec.worth c delta' j := fun j => div_nonneg (by linarith [hup j]) ha.le
  have hlow : ∀ j, costs j - Spec.worth c delta' j ≤ costs j := fun j => by linarith [hpos j]
  have hw := worth_wide delta' firm hwide costs
  obtain ⟨hle, hlt⟩ := C151_plain_prices h _ _ firm firm (fun _ _ e => e) hw _ _ hy hx hlow
  refine ⟨fun hk => ?_, fun hk => ?_, fun hk => ?_⟩
  · have := hle k
    simp only [Spec.worth, hk, sub_self, zero_div, sub_zero] at this
    exact this
  · have hp : 0 < Spec.worth c delta' k := div_pos (by linarith) ha
    linarith [hlt k (by linarith)]
  · have := C151_plain_pass_through h _ _ firm hw (Spec.worth c delta' k) (hpos k) (fun j => by
      have := div_le_div_of_nonneg_right (hk j) ha.le
      simp only [Spec.worth]
      linarith) _ _ hy hx k
    linarith

/-- **C156, profits with plain logit demand.** Firms with products that do not become better do not earn more, and those with products that improve most do not
earn less. -/
theorem C156_plain_profits (k : J) :
    (delta' k = c.delta k →
      Spec.jointProfit (sharesAt m { c with delta := delta' }) costs firm (firm k) x' ≤ Spec.jointProfit (sharesAt m c) costs firm (firm k) x) ∧
    ((∀ j, delta' j - c.delta j ≤ delta' k - c.delta k) →
      Spec.jointProfit (sharesAt m c) costs firm (firm k) x ≤ Spec.jointProfit (sharesAt m { c with delta := delta' }) costs firm (firm k) x') := by
  have ha := sensitivity_pos h
  obtain ⟨hsame, -, hmost⟩ := C156_plain_prices h delta' firm hwide hup costs x x' hx hx' k
  have h1 := (Oligopoly.fixed_eq firm _ (atCost_pos m c costs) _ ((fixed_iff h costs firm x).mp hx) k).2.1
  have h2 := (Oligopoly.fixed_eq firm _ (atCost_pos m { c with delta := delta' } costs) _
    ((fixed_iff (quality_plain h delta') costs firm x').mp hx') k).2.1
  rw [← jointProfit_eq h] at h1
  rw [← jointProfit_eq (quality_plain h delta')] at h2
  have hs : Spec.sensitivity m { c with delta := delta' } = Spec.sensitivity m c := rfl
  simp only [relativeMarkup, hs] at h1 h2
  constructor
  · intro hk
    have := mul_le_mul_of_nonneg_left (hsame hk) ha.le
    exact le_of_mul_le_mul_left (by linarith) ha
  · intro hk
    have := mul_le_mul_of_nonneg_left (hmost hk) ha.le
    exact le_of_mul_le_mul_left (by linarith) ha

/-- **C156, rivals with plain logit demand.** If moreover some products become better, all firms with products that do not become better lower all their prices, and
earn less. -/
theorem C156_plain_rivals_lose (i : J) (hi : c.delta i < delta' i) (k : J) (hk : delta' k = c.delta k) : x' k < x k ∧
    Spec.jointProfit (sharesAt m { c with delta := delta' }) costs firm (firm k) x' < Spec.jointProfit (sharesAt m c) costs firm (firm k) x := by
  have ha := sensitivity_pos h
  have hb := neg_pos.mpr h.decreasing
  have hy := (C156_plain_equilibria h delta' firm costs x').mp hx'
  have hp : 0 < Spec.worth c delta' i := div_pos (by linarith) hb
  have hlow : ∀ j, costs j - Spec.worth c delta' j ≤ costs j := fun j => by
    linarith [show 0 ≤ Spec.worth c delta' j from div_nonneg (by linarith [hup j]) hb.le]
  have h0 := (C151_plain_all_prices h _ _ firm (worth_wide delta' firm hwide costs) _ _ hy hx hlow i (by linarith) k).1
  have hlt : x' k < x k := by
    have hw0 : Spec.worth c delta' k = 0 := by rw [Spec.worth, hk, sub_self, zero_div]
    rwa [hw0, sub_zero] at h0
  have h1 := (Oligopoly.fixed_eq firm _ (atCost_pos m c costs) _ ((fixed_iff h costs firm x).mp hx) k).2.1
  have h2 := (Oligopoly.fixed_eq firm _ (atCost_pos m { c with delta := delta' } costs) _
    ((fixed_iff (quality_plain h delta') costs firm x').mp hx') k).2.1
  rw [← jointProfit_eq h] at h1
  rw [← jointProfit_eq (quality_plain h delta')] at h2
  have hs : Spec.sensitivity m { c with delta := delta' } = Spec.sensitivity m c := rfl
  simp only [relativeMarkup, hs] at h1 h2
  have := mul_lt_mul_of_pos_left hlt ha
  exact ⟨hlt, lt_of_mul_lt_mul_left (by linarith) ha.le⟩

/-- **C156, consumers with plain logit demand.** -/
theorem C156_plain_surplus (k : J) (hk : c.delta k < delta' k) (first : J) :
    consumerSurplus m c first x (fun _ => false) < consumerSurplus m { c with delta := delta' } first x' (fun _ => false) := by
  have ha := neg_pos.mpr h.decreasing
  have hy := (C156_plain_equilibria h delta' firm costs x').mp hx'
  have hp : 0 < Spec.worth c delta' k := div_pos (by linarith) ha
  have hs := C151_plain_surplus h _ _ firm firm (fun _ _ e => e) (worth_wide delta' firm hwide costs) _ _ hy hx
    (fun j => by linarith [show 0 ≤ Spec.worth c delta' j from div_nonneg (by linarith [hup j]) ha.le]) k (by linarith) first
  refine hs.trans_eq ?_
  rw [plain_surplus h, plain_surplus (quality_plain h delta')]
  have he : ∀ j, c.delta j + (∑ k with c.has1 k = true, c.beta k) * (x' j - Spec.worth c delta' j - c.x0 j) =
      delta' j + (∑ k with c.has1 k = true, c.beta k) * (x' j - c.x0 j) := fun j => by
    have := h.decreasing.ne
    unfold Spec.worth
    field_simp
    ring
  simp only [he]
  rfl

end Plain

/-! ## Non-vacuity -/

/-- If the product of one duopolist becomes better, the other charges less and the first one no less. -/
example (x : Fin 2 → ℝ) (hx : priceContraction nestedDuopoly duopolyPrices (ownershipFromIds (id : Fin 2 → Fin 2)) (fun _ _ => 1) x = x) :
    ∃ x', priceContraction nestedDuopoly { duopolyPrices with delta := fun j => duopolyPrices.delta j + if j = 0 then 1 else 0 } (ownershipFromIds (id : Fin 2 → Fin 2))
      (fun _ _ => 1) x' = x' ∧ x 0 ≤ x' 0 ∧ x' 1 < x 1 := by
  have hr : ∀ g, 0 ≤ (RhoParam.single (1 / 2) : RhoParam Unit).groupRho g := fun g => by simp only [RhoParam.groupRho]; norm_num
  obtain ⟨x', hx', -⟩ := C150_exists_unique (quality_nested nestedDuopoly_nested fun j => duopolyPrices.delta j + if j = 0 then 1 else 0) hr (id : Fin 2 → Fin 2) fun _ => 1
  have hp := C156_prices nestedDuopoly_nested _ hr (id : Fin 2 → Fin 2) (fun j k e => by cases e; rfl)
    (fun j => by split_ifs <;> linarith) (fun _ => 1) x x' hx hx'
  refine ⟨x', hx', (hp 0).2.2 fun j => ?_, (C156_rivals_lose nestedDuopoly_nested _ hr (id : Fin 2 → Fin 2) (fun j k e => by cases e; rfl)
    (fun j => by split_ifs <;> linarith) (fun _ => 1) x x' hx hx' 0 (by simp) 1 (by simp)).1⟩
  by_cases hj : j = 0 <;> simp [hj]

/-- If the product of one duopolist becomes better, it does not earn less than before, and the other one earns less. -/
example : ∃ x', priceContraction duopoly { duopolyPrices with delta := fun j => duopolyPrices.delta j + if j = 0 then 1 else 0 } (ownershipFromIds (id : Fin 2 → Fin 2))
      (fun _ _ => 3 / 2) x' = x' ∧
    Spec.jointProfit (sharesAt duopoly duopolyPrices) (fun _ => 3 / 2) (id : Fin 2 → Fin 2) 0 (fun _ => 3) ≤
      Spec.jointProfit (sharesAt duopoly { duopolyPrices with delta := fun j => duopolyPrices.delta j + if j = 0 then 1 else 0 }) (fun _ => 3 / 2) (id : Fin 2 → Fin 2) 0 x' ∧
    Spec.jointProfit (sharesAt duopoly { duopolyPrices with delta := fun j => duopolyPrices.delta j + if j = 0 then 1 else 0 }) (fun _ => 3 / 2) (id : Fin 2 → Fin 2) 1 x' <
      Spec.jointProfit (sharesAt duopoly duopolyPrices) (fun _ => 3 / 2) (id : Fin 2 → Fin 2) 1 (fun _ => 3) := by
  obtain ⟨x', hx', -⟩ := C125_exists_unique (quality_plain duopoly_plain fun j => duopolyPrices.delta j + if j = 0 then 1 else 0) (fun _ => 3 / 2) (id : Fin 2 → Fin 2)
  have hp := C156_plain_profits duopoly_plain _ (id : Fin 2 → Fin 2) (fun j k e => by cases e; rfl)
    (fun j => by split_ifs <;> linarith) (fun _ => 3 / 2) (fun _ => 3) x' duopoly_equilibrium hx'
  refine ⟨x', hx', (hp 0).2 fun j => ?_, (C156_plain_rivals_lose duopoly_plain _ (id : Fin 2 → Fin 2) (fun j k e => by cases e; rfl)
    (fun j => by split_ifs <;> linarith) (fun _ => 3 / 2) (fun _ => 3) x' duopoly_equilibrium hx' 0 (by simp) 1 (by simp)).2⟩
  by_cases hj : j = 0 <;> simp [hj]

end Pyblp
