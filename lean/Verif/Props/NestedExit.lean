import Verif.Props.Exit
import Verif.Props.NestedPricing
import Verif.Lemmas.NestedExit

/-!
# C155: simulations in which firms enter or leave, with nested logit demand

Firms may have products in any number of nests, and nests may lose some or all of their products.
-/

set_option linter.unusedSectionVars false

namespace Pyblp

open Finset

variable {J J' A G K1 K2 F : Type} [Fintype J] [DecidableEq J] [Nonempty J] [Fintype J'] [DecidableEq J'] [Nonempty J'] [Fintype G] [DecidableEq G]
  [Fintype A] [Fintype K1] [Fintype K2] [IsEmpty K2] [DecidableEq F]

section

variable {m : Market J A G} {c : Characteristic J A K1 K2} {m' : Market J' A G} {c' : Characteristic J' A K1 K2} {n : Nesting J G} (keep : J' → J)
  (h : Spec.NestedLogit m n c) (h' : Spec.NestedLogit m' ⟨fun k => n.group (keep k), n.rho⟩ c') (hr : ∀ g, 0 ≤ n.rho.groupRho g)
  (ho : Spec.OnlyProducts keep m c m' c') (firm : J → F) (hwhole : Spec.WholeFirms keep firm) (hleave : Spec.SomeLeave keep) (costs x : J → ℝ) (x' : J' → ℝ)
  (hx : priceContraction m c (ownershipFromIds firm) (fun k _ => costs k) x = x)
  (hx' : priceContraction m' c' (ownershipFromIds fun k => firm (keep k)) (fun k _ => costs (keep k)) x' = x')

include ho in
theorem nestedAtCost_keep : nestedAtCost c' ⟨fun k => n.group (keep k), n.rho⟩ (fun k => costs (keep k)) = fun k => nestedAtCost c n costs (keep k) := by
  funext k
  unfold nestedAtCost
  simp only [ho.beta, ho.has, ho.delta, ho.prices]

include h in
theorem nested_outside (y : J → ℝ) : Spec.outsideShare (sharesAt m c y) =
    1 / NestedOligopoly.denom n.group n.rho.groupRho (Spec.sensitivity m c) (nestedAtCost c n costs) (fun k => y k - costs k) := by
  have hA : ∀ j, 0 < nestedAtCost c n costs j := fun j => Real.exp_pos _
  rw [Spec.outsideShare, Finset.sum_congr rfl fun j _ => nested_oligopoly_share h costs y j, NestedOligopoly.total_share h.below hA]
  ring

include h' ho in
theorem nested_outside_keep (y : J' → ℝ) : Spec.outsideShare (sharesAt m' c' y) =
    1 / NestedOligopoly.denom (fun k => n.group (keep k)) n.rho.groupRho (Spec.sensitivity m c) (fun k => nestedAtCost c n costs (keep k))
      (fun k => y k - costs (keep k)) := by
  rw [nested_outside h' (fun k => costs (keep k)), sensitivity_keep keep ho, nestedAtCost_keep keep ho]

include h h' ho hleave in
/-- **C155, nested logit demand.** At constant prices of products that remain, fewer products mean that more consumers choose the outside good and that consumer
surplus is lower, but also that each product that remains sells more. -/
theorem C155_nested_constant (hr : ∀ g, 0 ≤ n.rho.groupRho g) (first : J) (first' : J') (y : J → ℝ) :
    Spec.outsideShare (sharesAt m c y) < Spec.outsideShare (sharesAt m' c' fun k => y (keep k)) ∧
      consumerSurplus m' c' first' (fun k => y (keep k)) (fun _ => false) < consumerSurplus m c first y (fun _ => false) ∧
      ∀ j, sharesAt m c y (keep j) < sharesAt m' c' (fun k => y (keep k)) j := by
  have hA : ∀ j, 0 < nestedAtCost c n (fun _ => 0) j := fun j => Real.exp_pos _
  have hout : Spec.outsideShare (sharesAt m c y) < Spec.outsideShare (sharesAt m' c' fun k => y (keep k)) := by
    rw [nested_outside h fun _ => 0, nested_outside_keep keep h' ho fun _ => 0]
    exact one_div_lt_one_div_of_lt (NestedOligopoly.denom_pos (fun k => hA (keep k)) _)
      (NestedOligopoly.denom_keep h.below hA keep ho.once hleave fun k => y k - 0)
  refine ⟨hout, ?_, fun j => ?_⟩
  · rw [C126_nested_surplus h, C126_nested_surplus h', sensitivity_keep keep ho]
    refine div_lt_div_of_pos_right (neg_lt_neg (Real.log_lt_log ?_ hout)) (nested_sensitivity h)
    rw [nested_outside h fun _ => 0]
    exact one_div_pos.mpr (NestedOligopoly.denom_pos hA _)
  · rw [nested_oligopoly_share h (fun _ => 0), nested_oligopoly_share h' (fun _ => 0), sensitivity_keep keep ho,
      nestedAtCost_keep keep ho fun _ => 0]
    exact NestedOligopoly.share_keep hr h.below hA keep ho.once hleave (fun k => y k - 0) j

include h h' hr ho hwhole hleave hx hx'

/-- **C155, nested logit demand.** If some firms leave, all prices of those who remain rise, in all nests. -/
theorem C155_nested_prices (j : J') : x (keep j) < x' j := by
  rw [nested_fixed_foc h] at hx
  rw [nested_fixed_foc h', sensitivity_keep keep ho, nestedAtCost_keep keep ho] at hx'
  have := NestedOligopoly.exit_up (A := nestedAtCost c n costs) (nested_sensitivity h) hr h.below (fun j => Real.exp_pos _) keep ho.once firm hwhole hleave _ _ hx hx' j
  linarith

/-- **C155, nested logit demand.** If some firms leave, all firms who remain earn more. -/
theorem C155_nested_profits (j : J') : Spec.jointProfit (sharesAt m c) costs firm (firm (keep j)) x <
    Spec.jointProfit (sharesAt m' c') (fun k => costs (keep k)) (fun k => firm (keep k)) (firm (keep j)) x' := by
  have hlt := C155_nested_prices keep h h' hr ho firm hwhole hleave costs x x' hx hx'
  have hpos := fun k => (C150_markups h hr firm costs x hx k).1
  rw [nested_fixed_foc h', sensitivity_keep keep ho, nestedAtCost_keep keep ho] at hx'
  rw [nested_profit h, nested_profit h', sensitivity_keep keep ho, nestedAtCost_keep keep ho]
  refine (NestedOligopoly.profit_keep (A := nestedAtCost c n costs) hr h.below (fun j => Real.exp_pos _) keep ho.once hleave (fun k => firm k = firm (keep j))
    (fun k hk => hwhole j k hk.symm) (fun k => x k - costs k) (fun k _ => by linarith [hpos k]) j rfl).trans_le ?_
  exact NestedOligopoly.optimal (nested_sensitivity h) hr h.below (fun j => Real.exp_pos _) _ _ (hx' (firm (keep j))) _ fun k _ => by linarith [hlt k]

/-- **C155, nested logit demand.** If some firms leave, more consumers choose the outside good, more so than at constant prices. -/
theorem C155_nested_outside : Spec.outsideShare (sharesAt m c x) < Spec.outsideShare (sharesAt m' c' fun k => x (keep k)) ∧
    Spec.outsideShare (sharesAt m' c' fun k => x (keep k)) < Spec.outsideShare (sharesAt m' c' x') := by
  have hlt := C155_nested_prices keep h h' hr ho firm hwhole hleave costs x x' hx hx'
  refine ⟨(C155_nested_constant keep h h' ho hleave hr (Classical.arbitrary J) (Classical.arbitrary J') x).1, ?_⟩
  have hA : ∀ j, 0 < nestedAtCost c n costs (keep j) := fun j => Real.exp_pos _
  rw [nested_outside_keep keep h' ho costs, nested_outside_keep keep h' ho costs]
  exact one_div_lt_one_div_of_lt (NestedOligopoly.denom_pos hA _) (NestedOligopoly.denom_lt (nested_sensitivity h) h.below hA _ _
    (fun j => by linarith [hlt j]) (Classical.arbitrary J') (by linarith [hlt (Classical.arbitrary J')]))

/-- **C155, nested logit demand.** If some firms leave, consumer surplus falls, and by more than it does at constant prices. -/
theorem C155_nested_surplus (first : J) (first' : J') :
    consumerSurplus m' c' first' x' (fun _ => false) < consumerSurplus m' c' first' (fun k => x (keep k)) (fun _ => false) ∧
      consumerSurplus m' c' first' (fun k => x (keep k)) (fun _ => false) < consumerSurplus m c first x (fun _ => false) := by
  refine ⟨?_, (C155_nested_constant keep h h' ho hleave hr first first' x).2.1⟩
  rw [C126_nested_surplus h', C126_nested_surplus h']
  refine div_lt_div_of_pos_right (neg_lt_neg (Real.log_lt_log ?_
    (C155_nested_outside keep h h' hr ho firm hwhole hleave costs x x' hx hx').2)) (nested_sensitivity h')
  rw [nested_outside h' fun k => costs (keep k)]
  exact one_div_pos.mpr (NestedOligopoly.denom_pos (fun j => Real.exp_pos _) _)

omit hx' in
theorem exit_first_step (j : J') : costs (keep j) ≤ x (keep j) ∧
    x (keep j) < priceContraction m' c' (ownershipFromIds fun k => firm (keep k)) (fun k _ => costs (keep k)) (fun k => x (keep k)) j := by
  have hpos := fun k => (C150_markups h hr firm costs x hx k).1
  refine ⟨(hpos _).le, ?_⟩
  have h1 := congrFun hx (keep j)
  rw [nested_contraction h] at h1
  rw [nested_contraction h', sensitivity_keep keep ho, nestedAtCost_keep keep ho]
  have h2 := NestedOligopoly.step_keep (group := n.group) (a := Spec.sensitivity m c) (A := nestedAtCost c n costs) hr h.below (fun j => Real.exp_pos _) keep ho.once
    firm hwhole hleave (fun k => x k - costs k) (fun k => by linarith [hpos k]) j
  linarith

/-- **C155, nested logit demand.** If products of each firm that remains are in one nest, iteration for prices of firms who remain that starts at prices before
raises prices in each step, never above new equilibrium prices, and converges to them. -/
theorem C155_nested_iterates (hone : ∀ j k, firm (keep j) = firm (keep k) → n.group (keep j) = n.group (keep k)) :
    (∀ i j, (priceContraction m' c' (ownershipFromIds fun k => firm (keep k)) fun k _ => costs (keep k))^[i] (fun k => x (keep k)) j ≤
        (priceContraction m' c' (ownershipFromIds fun k => firm (keep k)) fun k _ => costs (keep k))^[i + 1] (fun k => x (keep k)) j) ∧
      (∀ i j, (priceContraction m' c' (ownershipFromIds fun k => firm (keep k)) fun k _ => costs (keep k))^[i] (fun k => x (keep k)) j ≤ x' j) ∧
      Filter.Tendsto (fun i => (priceContraction m' c' (ownershipFromIds fun k => firm (keep k)) fun k _ => costs (keep k))^[i] fun k => x (keep k))
        Filter.atTop (nhds x') := by
  have hfirst := exit_first_step keep h h' hr ho firm hwhole hleave costs x hx
  obtain ⟨y, hy, hup, hle, hlim⟩ := C150_rises_from h' hr (fun k => firm (keep k)) hone (fun k => costs (keep k)) (fun k => x (keep k)) (fun k => (hfirst k).1)
    fun k => (hfirst k).2.le
  have : y = x' := C150_unique h' hr (fun k => firm (keep k)) (fun k => costs (keep k)) y x' hy hx'
  subst this
  exact ⟨hup, hle, hlim⟩

omit hx' in
/-- **C155, nested logit demand.** So with a positive absolute tolerance and enough evaluations, simple iteration from prices before reports convergence. -/
theorem C155_nested_simple (hone : ∀ j k, firm (keep j) = firm (keep k) → n.group (keep j) = n.group (keep k)) (atol : ℝ) (hatol : 0 < atol) :
    ∃ budget, ∀ maxEvaluations, budget ≤ maxEvaluations →
      (simpleIterator ⟨maxEvaluations, atol, 0, infinityNorm⟩ (priceStep m' c' (ownershipFromIds fun k => firm (keep k)) fun k _ => costs (keep k))
        (lift fun k => x (keep k))).converged = true := by
  have hfirst := exit_first_step keep h h' hr ho firm hwhole hleave costs x hx
  exact C150_simple_from h' hr (fun k => firm (keep k)) hone (fun k => costs (keep k)) (fun k => x (keep k)) (fun k => (hfirst k).1) (fun k => (hfirst k).2.le) atol hatol

end

/-! ## Non-vacuity -/

/-- In any market with nested logit demand, any products may leave. -/
theorem nested_only_products {m : Market J A G} {c : Characteristic J A K1 K2} {n : Nesting J G} (h : Spec.NestedLogit m n c) (keep : J' → J)
    (hkeep : Function.Injective keep) : Spec.NestedLogit (m.remaining keep) ⟨fun k => n.group (keep k), n.rho⟩ (c.remaining keep) ∧
      Spec.OnlyProducts keep m c (m.remaining keep) (c.remaining keep) where
  left := ⟨by simp [Market.remaining, h.nesting, Function.comp_def], by simp [Market.remaining, h.availability], h.scale, h.weights, h.below,
    fun k hk j t => h.linear k hk (keep j) t, h.decreasing⟩
  right := ⟨hkeep, rfl, rfl, rfl, fun _ => rfl, fun _ => rfl⟩

/-- If one of two firms that have a product in each of two nests leaves, the other raises both prices. -/
example (costs x : Fin 2 × Fin 2 → ℝ)
    (hx : priceContraction twoNestMarket twoNestPrices (ownershipFromIds (Prod.snd : Fin 2 × Fin 2 → Fin 2)) (fun k _ => costs k) x = x) :
    ∃ x', priceContraction (twoNestMarket.remaining fun g : Fin 2 => (g, (0 : Fin 2))) (twoNestPrices.remaining fun g : Fin 2 => (g, (0 : Fin 2)))
      (ownershipFromIds fun _ => (0 : Fin 2)) (fun g _ => costs (g, 0)) x' = x' ∧ ∀ g, x (g, 0) < x' g := by
  obtain ⟨h', ho⟩ := nested_only_products twoNests_nested (fun g : Fin 2 => (g, (0 : Fin 2))) fun _ _ e => (Prod.mk.inj e).1
  have hr : ∀ g, 0 ≤ (RhoParam.single (1 / 2) : RhoParam (Fin 2)).groupRho g := fun g => by simp only [RhoParam.groupRho]; norm_num
  obtain ⟨x', hx', -⟩ := C150_exists_unique h' hr (fun _ => (0 : Fin 2)) fun g => costs (g, 0)
  refine ⟨x', hx', C155_nested_prices _ twoNests_nested h' hr ho Prod.snd ?_ ⟨(0, 1), fun _ => by simp⟩ costs x x' hx hx'⟩
  rintro i ⟨g, k⟩ hj
  exact ⟨g, by simpa using hj⟩

/-- If all products of one nest leave, iteration for prices of the firm that has all of the other nest converges. -/
example (costs x : Fin 2 × Fin 2 → ℝ)
    (hx : priceContraction twoNestMarket twoNestPrices (ownershipFromIds (Prod.fst : Fin 2 × Fin 2 → Fin 2)) (fun k _ => costs k) x = x) :
    ∃ x', Filter.Tendsto (fun i => (priceContraction (twoNestMarket.remaining fun k : Fin 2 => ((0 : Fin 2), k)) (twoNestPrices.remaining fun k : Fin 2 => ((0 : Fin 2), k))
      (ownershipFromIds fun _ => (0 : Fin 2)) (fun k _ => costs (0, k)))^[i] fun k => x (0, k)) Filter.atTop (nhds x') := by
  obtain ⟨h', ho⟩ := nested_only_products twoNests_nested (fun k : Fin 2 => ((0 : Fin 2), k)) fun _ _ e => (Prod.mk.inj e).2
  have hr : ∀ g, 0 ≤ (RhoParam.single (1 / 2) : RhoParam (Fin 2)).groupRho g := fun g => by simp only [RhoParam.groupRho]; norm_num
  obtain ⟨x', hx', -⟩ := C150_exists_unique h' hr (fun _ => (0 : Fin 2)) fun k => costs (0, k)
  refine ⟨x', (C155_nested_iterates _ twoNests_nested h' hr ho Prod.fst ?_ ⟨(1, 0), fun _ => by simp⟩ costs x x' hx hx' fun _ _ _ => rfl).2.2⟩
  rintro i ⟨g, k⟩ hj
  exact ⟨k, by simpa using hj⟩

/-- There are such prices before. -/
example : ∃ x, priceContraction twoNestMarket twoNestPrices (ownershipFromIds (Prod.snd : Fin 2 × Fin 2 → Fin 2)) (fun _ _ => 1) x = x := by
  obtain ⟨x, hx, -⟩ := C150_exists_unique twoNests_nested (fun g => by simp only [RhoParam.groupRho]; norm_num) (Prod.snd : Fin 2 × Fin 2 → Fin 2) fun _ => 1
  exact ⟨x, hx⟩

end Pyblp
