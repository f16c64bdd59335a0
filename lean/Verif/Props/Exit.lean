import Verif.Props.LogitPricing

/-!
# C155: simulations in which firms enter or leave, with plain logit demand

A simulation without some products is one of another market, which has the same consumers and the remaining products.
-/

set_option linter.unusedSectionVars false

namespace Pyblp

open Finset

variable {J J' A G K1 K2 F : Type} [Fintype J] [DecidableEq J] [Nonempty J] [Fintype J'] [DecidableEq J'] [Nonempty J'] [Fintype G] [DecidableEq G]
  [Fintype A] [Fintype K1] [Fintype K2] [IsEmpty K2] [DecidableEq F]

namespace Spec

/-- A market with the same consumers and only the products that are kept, which have the same mean utilities at the same prices. -/
structure OnlyProducts (keep : J' → J) (m : Market J A G) (c : Characteristic J A K1 K2) (m' : Market J' A G) (c' : Characteristic J' A K1 K2) : Prop where
  once : Function.Injective keep
  scale : m'.epsilonScale = m.epsilonScale
  beta : c'.beta = c.beta
  has : c'.has1 = c.has1
  delta : ∀ j, c'.delta j = c.delta (keep j)
  prices : ∀ j, c'.x0 j = c.x0 (keep j)

/-- Firms that remain keep all their products. -/
def WholeFirms (keep : J' → J) (firm : J → F) : Prop := ∀ j' j, firm (keep j') = firm j → ∃ k', keep k' = j

/-- Some product does not remain. -/
def SomeLeave (keep : J' → J) : Prop := ∃ j, ∀ j', keep j' ≠ j

end Spec

namespace Oligopoly

variable (keep : J' → J) (hkeep : Function.Injective keep) (firm : J → F) (E : J → ℝ) (hE : ∀ k, 0 < E k)

include hkeep in
theorem sum_keep (g : J → ℝ) (s : Finset J) (hs : ∀ j ∈ s, ∃ j', keep j' = j) : ∑ j' with keep j' ∈ s, g (keep j') = ∑ j ∈ s, g j := by
  refine Finset.sum_bij (fun j' _ => keep j') (fun j' h => by simpa using h) (fun a _ b _ h => hkeep h) (fun j hj => ?_) fun _ _ => rfl
  obtain ⟨j', rfl⟩ := hs j hj
  exact ⟨j', by simpa using hj, rfl⟩

include hkeep hE in
theorem denom_keep_lt (hleave : Spec.SomeLeave keep) (mu : J → ℝ) (nu : J' → ℝ) (h : ∀ j', mu (keep j') ≤ nu j') : denom (fun j' => E (keep j')) nu < denom E mu := by
  obtain ⟨j, hj⟩ := hleave
  unfold denom
  refine add_lt_add_right ?_ 1
  calc ∑ j', E (keep j') * Real.exp (-nu j') ≤ ∑ j', E (keep j') * Real.exp (-mu (keep j')) :=
        Finset.sum_le_sum fun j' _ => mul_le_mul_of_nonneg_left (Real.exp_le_exp.mpr (neg_le_neg (h j'))) (hE _).le
    _ = ∑ k ∈ univ.map ⟨keep, hkeep⟩, E k * Real.exp (-mu k) := by simp
    _ < ∑ k, E k * Real.exp (-mu k) :=
        Finset.sum_lt_sum_of_subset (Finset.subset_univ _) (Finset.mem_univ j) (by simpa using hj) (mul_pos (hE j) (Real.exp_pos _))
          fun k _ _ => (mul_pos (hE k) (Real.exp_pos _)).le

include hkeep hE in
theorem exit_step (hwhole : Spec.WholeFirms keep firm) (hleave : Spec.SomeLeave keep) (z : J → ℝ) (hz : step firm E z = z) (j' : J') :
    z (keep j') < step (fun k => firm (keep k)) (fun k => E (keep k)) (fun k => z (keep k)) j' := by
  have h1 : z (keep j') = step firm E z (keep j') := by rw [hz]
  rw [h1]
  unfold step profit
  refine add_lt_add_right ?_ 1
  have hnum : ∑ k with firm (keep k) = firm (keep j'), E (keep k) * Real.exp (-z (keep k)) * z (keep k) =
      ∑ k with firm k = firm (keep j'), E k * Real.exp (-z k) * z k := by
    rw [← sum_keep keep hkeep (fun k => E k * Real.exp (-z k) * z k) (univ.filter fun k => firm k = firm (keep j'))]
    · simp
    · intro j hj
      exact hwhole j' j (by simpa using (Finset.mem_filter.mp hj).2.symm)
  rw [hnum]
  have hpos : 0 < ∑ k with firm k = firm (keep j'), E k * Real.exp (-z k) * z k :=
    Finset.sum_pos (fun k _ => mul_pos (mul_pos (hE k) (Real.exp_pos _)) (by linarith [fixed_gt firm E hE z hz k])) ⟨keep j', by simp⟩
  have hd : 0 < denom (fun k => E (keep k)) (fun k => z (keep k)) := by
    linarith [denom_ge (fun k => E (keep k)) (fun k => hE (keep k)) fun k => z (keep k)]
  exact div_lt_div_of_pos_left hpos hd (denom_keep_lt keep hkeep E hE hleave z _ fun _ => le_rfl)

include hkeep hE in
theorem exit_lt (hwhole : Spec.WholeFirms keep firm) (hleave : Spec.SomeLeave keep) (z : J → ℝ) (hz : step firm E z = z) (y : J' → ℝ)
    (hy : step (fun k => firm (keep k)) (fun k => E (keep k)) y = y) (j' : J') : z (keep j') < y j' := by
  have hs := exit_step keep hkeep firm E hE hwhole hleave z hz
  obtain ⟨nu, hnu, -, hle, -⟩ := exists_fixed_above (fun k => firm (keep k)) (fun k => E (keep k)) (fun k => hE _) (fun k => z (keep k)) fun k => (hs k).le
  rw [fixed_unique _ _ (fun k => hE (keep k)) nu y hnu hy]
  exact (hs j').trans_le (hle j')

end Oligopoly

section

variable {m : Market J A G} {c : Characteristic J A K1 K2} {m' : Market J' A G} {c' : Characteristic J' A K1 K2} (h : Spec.PlainLogit m c)
  (h' : Spec.PlainLogit m' c') (keep : J' → J) (ho : Spec.OnlyProducts keep m c m' c') (firm : J → F) (hwhole : Spec.WholeFirms keep firm)
  (hleave : Spec.SomeLeave keep) (costs x : J → ℝ) (x' : J' → ℝ) (hx : priceContraction m c (ownershipFromIds firm) (fun k _ => costs k) x = x)
  (hx' : priceContraction m' c' (ownershipFromIds fun k => firm (keep k)) (fun k _ => costs (keep k)) x' = x')

include ho in
theorem sensitivity_keep : Spec.sensitivity m' c' = Spec.sensitivity m c := by
  unfold Spec.sensitivity
  rw [ho.scale, ho.beta, ho.has]

include ho in
theorem atCost_keep : atCost m' c' (fun k => costs (keep k)) = fun k => atCost m c costs (keep k) := by
  funext k
  unfold atCost
  rw [sensitivity_keep keep ho, ho.scale, ho.beta, ho.has, ho.delta, ho.prices]

include h h' ho hwhole hleave hx hx'

theorem exit_markups (j : J') : relativeMarkup m c costs x (keep j) < relativeMarkup m' c' (fun k => costs (keep k)) x' j := by
  have hy := (fixed_iff h' (fun k => costs (keep k)) (fun k => firm (keep k)) x').mp hx'
  rw [atCost_keep keep ho costs] at hy
  exact Oligopoly.exit_lt keep ho.once firm _ (atCost_pos m c costs) hwhole hleave _ ((fixed_iff h costs firm x).mp hx) _ hy j

/-- **C155, prices.** If some firms leave, all prices of those who remain rise. -/
theorem C155_prices (j : J') : x (keep j) < x' j := by
  have := exit_markups h h' keep ho firm hwhole hleave costs x x' hx hx' j
  simp only [relativeMarkup, sensitivity_keep keep ho] at this
  linarith [lt_of_mul_lt_mul_left this (sensitivity_pos h).le]

/-- **C155, profits.** If some firms leave, all firms who remain earn more. -/
theorem C155_profits (j : J') : Spec.jointProfit (sharesAt m c) costs firm (firm (keep j)) x <
    Spec.jointProfit (sharesAt m' c') (fun k => costs (keep k)) (fun k => firm (keep k)) (firm (keep j)) x' := by
  have h1 := exit_markups h h' keep ho firm hwhole hleave costs x x' hx hx' j
  have h2 := (Oligopoly.fixed_eq firm _ (atCost_pos m c costs) _ ((fixed_iff h costs firm x).mp hx) (keep j)).2.1
  have h3 := (Oligopoly.fixed_eq (fun k => firm (keep k)) _ (atCost_pos m' c' fun k => costs (keep k)) _
    ((fixed_iff h' (fun k => costs (keep k)) (fun k => firm (keep k)) x').mp hx') j).2.1
  rw [← jointProfit_eq h] at h2
  rw [← jointProfit_eq h', sensitivity_keep keep ho] at h3
  have : Spec.sensitivity m c * Spec.jointProfit (sharesAt m c) costs firm (firm (keep j)) x <
      Spec.sensitivity m c * Spec.jointProfit (sharesAt m' c') (fun k => costs (keep k)) (fun k => firm (keep k)) (firm (keep j)) x' := by
    rw [← h2, ← h3]
    linarith
  exact lt_of_mul_lt_mul_left this (sensitivity_pos h).le

/-- **C155, shares.** If some firms leave, more consumers choose the outside good, and all firms who remain sell more. -/
theorem C155_shares : 1 - ∑ j, sharesAt m c x j < 1 - ∑ j, sharesAt m' c' x' j ∧
    ∀ j, Spec.firmShare (sharesAt m c x) firm (firm (keep j)) < Spec.firmShare (sharesAt m' c' x') (fun k => firm (keep k)) (firm (keep j)) := by
  have ha := sensitivity_pos h
  refine ⟨?_, fun j => ?_⟩
  · rw [inside_eq h costs, inside_eq h' fun k => costs (keep k), atCost_keep keep ho costs]
    refine one_div_lt_one_div_of_lt ?_ ?_
    · linarith [Oligopoly.denom_ge (fun k => atCost m c costs (keep k)) (fun k => atCost_pos m c costs (keep k))
        (relativeMarkup m' c' (fun k => costs (keep k)) x')]
    · exact Oligopoly.denom_keep_lt keep ho.once _ (atCost_pos m c costs) hleave _ _ fun k =>
        (exit_markups h h' keep ho firm hwhole hleave costs x x' hx hx' k).le
  · have h1 := (C125_markups h costs firm x).mp hx (keep j)
    have h2 := (C125_markups h' (fun k => costs (keep k)) (fun k => firm (keep k)) x').mp hx' j
    rw [sensitivity_keep keep ho] at h2
    have hlt := C155_prices h h' keep ho firm hwhole hleave costs x x' hx hx' j
    have hp1 : 0 < Spec.sensitivity m c * (1 - Spec.firmShare (sharesAt m c x) firm (firm (keep j))) :=
      mul_pos ha (by linarith [firmShare_lt h firm x (firm (keep j))])
    have hp2 : 0 < Spec.sensitivity m c * (1 - Spec.firmShare (sharesAt m' c' x') (fun k => firm (keep k)) (firm (keep j))) :=
      mul_pos ha (by linarith [firmShare_lt h' (fun k => firm (keep k)) x' (firm (keep j))])
    have h3 : 1 / (Spec.sensitivity m c * (1 - Spec.firmShare (sharesAt m c x) firm (firm (keep j)))) <
        1 / (Spec.sensitivity m c * (1 - Spec.firmShare (sharesAt m' c' x') (fun k => firm (keep k)) (firm (keep j)))) := by
      rw [← h1, ← h2]
      linarith
    have h4 := (one_div_lt_one_div hp1 hp2).mp h3
    linarith [lt_of_mul_lt_mul_left h4 ha.le]

/-- **C155, consumers.** If some firms leave, consumer surplus falls, and by more than it does at constant prices. -/
theorem C155_surplus (first : J) (first' : J') :
    consumerSurplus m' c' first' x' (fun _ => false) < consumerSurplus m' c' first' (fun k => x (keep k)) (fun _ => false) ∧
      consumerSurplus m' c' first' (fun k => x (keep k)) (fun _ => false) < consumerSurplus m c first x (fun _ => false) := by
  have hpos : ∀ p : J' → ℝ, 0 < 1 + ∑ j, Real.exp (c'.delta j + (∑ k with c'.has1 k = true, c'.beta k) * (p j - c'.x0 j)) := fun p => by
    have : 0 ≤ ∑ j, Real.exp (c'.delta j + (∑ k with c'.has1 k = true, c'.beta k) * (p j - c'.x0 j)) := Finset.sum_nonneg fun j _ => (Real.exp_pos _).le
    linarith
  rw [plain_surplus h, plain_surplus h', plain_surplus h']
  constructor
  · refine div_lt_div_of_pos_right (Real.log_lt_log (hpos _) ?_) (sensitivity_pos h')
    refine add_lt_add_right (Finset.sum_lt_sum_of_nonempty Finset.univ_nonempty fun j _ => Real.exp_lt_exp.mpr ?_) 1
    have := mul_lt_mul_of_neg_left (C155_prices h h' keep ho firm hwhole hleave costs x x' hx hx' j) h'.decreasing
    linarith
  · rw [sensitivity_keep keep ho]
    refine div_lt_div_of_pos_right (Real.log_lt_log (hpos _) ?_) (sensitivity_pos h)
    refine add_lt_add_right ?_ 1
    obtain ⟨j, hj⟩ := hleave
    rw [ho.beta, ho.has]
    simp only [ho.delta, ho.prices]
    calc ∑ k', Real.exp (c.delta (keep k') + (∑ k with c.has1 k = true, c.beta k) * (x (keep k') - c.x0 (keep k'))) =
          ∑ k' ∈ univ.map ⟨keep, ho.once⟩, Real.exp (c.delta k' + (∑ k with c.has1 k = true, c.beta k) * (x k' - c.x0 k')) := by simp
      _ < _ := Finset.sum_lt_sum_of_subset (Finset.subset_univ _) (Finset.mem_univ j) (by simpa using hj) (Real.exp_pos _) fun k _ _ => (Real.exp_pos _).le

/-- **C155, iteration.** Started at prices before, iteration for prices of firms who remain raises prices in each step, never above new equilibrium prices, and
converges to them. -/
theorem C155_iterates :
    (∀ n j, (priceContraction m' c' (ownershipFromIds fun k => firm (keep k)) fun k _ => costs (keep k))^[n] (fun k => x (keep k)) j ≤
        (priceContraction m' c' (ownershipFromIds fun k => firm (keep k)) fun k _ => costs (keep k))^[n + 1] (fun k => x (keep k)) j) ∧
      (∀ n j, (priceContraction m' c' (ownershipFromIds fun k => firm (keep k)) fun k _ => costs (keep k))^[n] (fun k => x (keep k)) j ≤ x' j) ∧
      Filter.Tendsto (fun n => (priceContraction m' c' (ownershipFromIds fun k => firm (keep k)) fun k _ => costs (keep k))^[n] fun k => x (keep k))
        Filter.atTop (nhds x') := by
  have ha := sensitivity_pos h'
  have hlim := C125_converges h' (fun k => costs (keep k)) (fun k => firm (keep k)) x' hx' fun k => x (keep k)
  have hsub : ∀ n j, relativeMarkup m' c' (fun k => costs (keep k))
        ((priceContraction m' c' (ownershipFromIds fun k => firm (keep k)) fun k _ => costs (keep k))^[n] fun k => x (keep k)) j ≤
      Oligopoly.step (fun k => firm (keep k)) (atCost m' c' fun k => costs (keep k)) (relativeMarkup m' c' (fun k => costs (keep k))
        ((priceContraction m' c' (ownershipFromIds fun k => firm (keep k)) fun k _ => costs (keep k))^[n] fun k => x (keep k))) j := by
    intro n
    induction n with
    | zero =>
      intro j
      have := Oligopoly.exit_step keep ho.once firm _ (atCost_pos m c costs) hwhole hleave _ ((fixed_iff h costs firm x).mp hx) j
      rw [atCost_keep keep ho costs]
      have he : relativeMarkup m' c' (fun k => costs (keep k)) (fun k => x (keep k)) = fun k => relativeMarkup m c costs x (keep k) := by
        funext k
        simp only [relativeMarkup, sensitivity_keep keep ho]
      simp only [Function.iterate_zero, id_eq]
      rw [he]
      exact this.le
    | succ n ih =>
      intro j
      rw [Function.iterate_succ_apply', relativeMarkup_contraction h']
      exact Oligopoly.step_mono _ _ (atCost_pos m' c' fun k => costs (keep k)) _ ih j
  have hmono : ∀ n j, (priceContraction m' c' (ownershipFromIds fun k => firm (keep k)) fun k _ => costs (keep k))^[n] (fun k => x (keep k)) j ≤
      (priceContraction m' c' (ownershipFromIds fun k => firm (keep k)) fun k _ => costs (keep k))^[n + 1] (fun k => x (keep k)) j := by
    intro n j
    have := hsub n j
    rw [← relativeMarkup_contraction h', ← Function.iterate_succ_apply' (priceContraction m' c' (ownershipFromIds fun k => firm (keep k)) fun k _ => costs (keep k))] at this
    simp only [relativeMarkup] at this
    linarith [le_of_mul_le_mul_left this ha]
  exact ⟨hmono, fun n j => (monotone_nat_of_le_succ fun n => hmono n j).ge_of_tendsto (tendsto_pi_nhds.mp hlim j) n, hlim⟩

end

section

variable {m : Market J A G} {c : Characteristic J A K1 K2} {m' : Market J' A G} {c' : Characteristic J' A K1 K2} (h : Spec.PlainLogit m c)
  (h' : Spec.PlainLogit m' c') (keep : J' → J) (ho : Spec.OnlyProducts keep m c m' c') (firm : J → F) (costs x : J → ℝ) (x' : J' → ℝ)
  (hx : priceContraction m c (ownershipFromIds firm) (fun k _ => costs k) x = x)
  (hx' : priceContraction m' c' (ownershipFromIds fun k => firm (keep k)) (fun k _ => costs (keep k)) x' = x')

include h h' ho hx hx'

/-- **C155, products.** That firms leave as a whole is needed: if a firm that has all products gives up some of them, prices of all its other products fall. -/
theorem C155_monopoly (hone : ∀ j k, firm j = firm k) (hleave : Spec.SomeLeave keep) (j : J') : x' j < x (keep j) := by
  have ha := sensitivity_pos h
  have hE := atCost_pos m c costs
  have hE' := fun k => hE (keep k)
  have hz := (fixed_iff h costs firm x).mp hx
  have hy := (fixed_iff h' (fun k => costs (keep k)) (fun k => firm (keep k)) x').mp hx'
  rw [atCost_keep keep ho costs] at hy
  have h1 := (Oligopoly.fixed_eq firm _ hE _ hz (keep j)).1
  have h2 := (Oligopoly.fixed_eq (fun k => firm (keep k)) _ hE' _ hy j).1
  have hr : Oligopoly.rival firm (atCost m c costs) (relativeMarkup m c costs x) (firm (keep j)) = 1 := by
    simp [Oligopoly.rival, hone _ (keep j)]
  have hr' : Oligopoly.rival (fun k => firm (keep k)) (fun k => atCost m c costs (keep k)) (relativeMarkup m' c' (fun k => costs (keep k)) x') (firm (keep j)) = 1 := by
    simp [Oligopoly.rival, hone _ (keep j)]
  have hsize : Oligopoly.size (fun k => firm (keep k)) (fun k => atCost m c costs (keep k)) (firm (keep j)) < Oligopoly.size firm (atCost m c costs) (firm (keep j)) := by
    obtain ⟨i, hi⟩ := hleave
    simp only [Oligopoly.size, hone _ (keep j), Finset.filter_true]
    calc ∑ k, atCost m c costs (keep k) = ∑ k ∈ univ.map ⟨keep, ho.once⟩, atCost m c costs k := by simp
      _ < _ := Finset.sum_lt_sum_of_subset (Finset.subset_univ _) (Finset.mem_univ i) (by simpa using hi) (hE i) fun k _ _ => (hE k).le
  rw [hr, mul_one] at h1
  rw [hr', mul_one] at h2
  have hlt : relativeMarkup m' c' (fun k => costs (keep k)) x' j < relativeMarkup m c costs x (keep j) := by
    by_contra hge
    push Not at hge
    have he : Real.exp (-relativeMarkup m' c' (fun k => costs (keep k)) x' j) ≤ Real.exp (-relativeMarkup m c costs x (keep j)) :=
      Real.exp_le_exp.mpr (by linarith)
    have hs' := Oligopoly.size_pos (fun k => firm (keep k)) _ hE' j
    have : Oligopoly.size (fun k => firm (keep k)) (fun k => atCost m c costs (keep k)) (firm (keep j)) *
        Real.exp (-relativeMarkup m' c' (fun k => costs (keep k)) x' j) <
        Oligopoly.size firm (atCost m c costs) (firm (keep j)) * Real.exp (-relativeMarkup m c costs x (keep j)) :=
      mul_lt_mul hsize he (Real.exp_pos _) (hs'.trans hsize).le
    rw [← h1, ← h2] at this
    linarith
  simp only [relativeMarkup, sensitivity_keep keep ho] at hlt
  linarith [lt_of_mul_lt_mul_left hlt ha.le]

end

/-! ## Non-vacuity -/

/-- The market with some products only. -/
def Market.remaining (m : Market J A G) (keep : J' → J) : Market J' A G where
  nesting := m.nesting.map fun n => ⟨n.group ∘ keep, n.rho⟩
  epsilonScale := m.epsilonScale
  weights := m.weights
  availability := m.availability.map fun a i j => a i (keep j)

/-- Its characteristics. -/
def Characteristic.remaining (c : Characteristic J A K1 K2) (keep : J' → J) : Characteristic J' A K1 K2 where
  delta j := c.delta (keep j)
  x0 j := c.x0 (keep j)
  beta := c.beta
  has1 := c.has1
  x1 k j := c.x1 k (keep j)
  d1 k j := c.d1 k (keep j)
  dd1 k j := c.dd1 k (keep j)
  coef k i j := c.coef k i (keep j)
  has2 := c.has2
  x2 k j := c.x2 k (keep j)
  d2 k j := c.d2 k (keep j)
  dd2 k j := c.dd2 k (keep j)

/-- In any market with plain logit demand, any products may leave. -/
theorem only_products {m : Market J A G} {c : Characteristic J A K1 K2} (h : Spec.PlainLogit m c) (keep : J' → J) (hkeep : Function.Injective keep) :
    Spec.PlainLogit (m.remaining keep) (c.remaining keep) ∧ Spec.OnlyProducts keep m c (m.remaining keep) (c.remaining keep) where
  left := ⟨by simp [Market.remaining, h.nesting], by simp [Market.remaining, h.availability], h.scale, h.weights, fun k hk j t => h.linear k hk (keep j) t, h.decreasing⟩
  right := ⟨hkeep, rfl, rfl, rfl, fun _ => rfl, fun _ => rfl⟩

/-- Non-vacuity: if one of the duopolists leaves, the other raises its price above 3. -/
example : ∃ x', priceContraction (duopoly.remaining fun _ : Unit => 0) (duopolyPrices.remaining fun _ : Unit => 0) (ownershipFromIds fun _ => (0 : Fin 2))
    (fun _ _ => 3 / 2) x' = x' ∧ 3 < x' () := by
  obtain ⟨h', ho⟩ := only_products duopoly_plain (fun _ : Unit => 0) fun _ _ _ => rfl
  obtain ⟨x', hx', -⟩ := C125_exists_unique h' (fun _ => 3 / 2) (fun _ => (0 : Fin 2))
  refine ⟨x', hx', C155_prices duopoly_plain h' (fun _ : Unit => 0) ho (id : Fin 2 → Fin 2) ?_ ⟨1, fun _ => by simp⟩ (fun _ => 3 / 2) (fun _ => 3) x'
    duopoly_equilibrium hx' ()⟩
  exact fun _ j hj => ⟨(), hj⟩

end Pyblp
