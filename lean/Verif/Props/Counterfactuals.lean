import Verif.Model.Counterfactuals
import Verif.Props.Supply
import Verif.Props.PostEstimation

/-!
# C108: counterfactuals start from the data and change only what is asked for
-/

set_option linter.unusedSectionVars false

namespace Pyblp

variable {J A G K1 K2 K3 F : Type} [Fintype J] [DecidableEq J] [Nonempty J] [Fintype G] [DecidableEq G] [Fintype A] [Fintype K1] [Fintype K2] [Fintype K3]
  [DecidableEq F]

namespace Spec

/-- Formulas without prices (or shares) do not depend on them. -/
structure ResultsFormulasValid (r : ResultsMarket J A G K1 K2 K3 F) : Prop where
  x1 : ∀ k, r.characteristic.has1 k = false → ∀ j t t', r.characteristic.x1 k j t = r.characteristic.x1 k j t'
  x2 : ∀ k, r.characteristic.has2 k = false → ∀ j t t', r.characteristic.x2 k j t = r.characteristic.x2 k j t'
  x3 : ∀ k, r.costSide.has3 k = false → ∀ j t t', r.costSide.x3 k j t = r.costSide.x3 k j t'

/-- What mean utility has beyond its linear index in the data. -/
def unobservedUtility (r : ResultsMarket J A G K1 K2 K3 F) (j : J) : ℝ :=
  r.characteristic.delta j - ∑ k, r.characteristic.beta k * r.characteristic.x1 k j (r.characteristic.x0 j)

/-- Mean utility at a price. -/
def meanUtilityAt (r : ResultsMarket J A G K1 K2 K3 F) (j : J) (price : ℝ) : ℝ :=
  ∑ k, r.characteristic.beta k * r.characteristic.x1 k j price + unobservedUtility r j

/-- Deviations of agents from mean utility at a price. -/
def deviationAt (r : ResultsMarket J A G K1 K2 K3 F) (j : J) (i : A) (price : ℝ) : ℝ :=
  ∑ k, r.characteristic.x2 k j price * r.characteristic.coef k i j

/-- The profit of firm `f` at prices `p`. -/
def firmProfit (shares : (J → ℝ) → J → ℝ) (firm : J → F) (costs p : J → ℝ) (f : F) : ℝ :=
  ∑ k with firm k = f, (p k - costs k) * shares p k

/-- The price of `j` satisfies the first order condition of the firm that owns `j`. -/
def FirmOptimal (shares : (J → ℝ) → J → ℝ) (firm : J → F) (costs p : J → ℝ) (j : J) : Prop :=
  HasDerivAt (fun price => firmProfit shares firm costs (Function.update p j price) (firm j)) 0 (p j)

/-- Marginal cost of `j` at a share, if it was `cost` in the data. -/
noncomputable def costAt (r : ResultsMarket J A G K1 K2 K3 F) (cost : J → ℝ) (j : J) (share : ℝ) : ℝ :=
  let change := ∑ k, r.costSide.gamma k * r.costSide.x3 k j share - ∑ k, r.costSide.gamma k * r.costSide.x3 k j (r.costSide.s0 j)
  if r.costSide.log then cost j * Real.exp change else cost j + change

end Spec

variable (r : ResultsMarket J A G K1 K2 K3 F)

/-! ## Demand -/

lemma updateDelta_eq (hv : Spec.ResultsFormulasValid r) (p : J → ℝ) : updateDelta r.characteristic p = fun j => Spec.meanUtilityAt r j (p j) := by
  funext j
  unfold updateDelta Spec.meanUtilityAt Spec.unobservedUtility
  have : ∑ k with r.characteristic.has1 k = true,
      r.characteristic.beta k * (r.characteristic.x1 k j (p j) - r.characteristic.x1 k j (r.characteristic.x0 j)) =
      ∑ k, r.characteristic.beta k * (r.characteristic.x1 k j (p j) - r.characteristic.x1 k j (r.characteristic.x0 j)) := by
    apply Finset.sum_subset (Finset.filter_subset _ _)
    intro k _ hk
    rw [Finset.mem_filter, not_and] at hk
    rw [hv.x1 k (by simpa using hk (Finset.mem_univ k)) j (p j) (r.characteristic.x0 j)]
    ring
  rw [this]
  simp only [mul_sub, Finset.sum_sub_distrib]
  ring

lemma updateMu_eq (hv : Spec.ResultsFormulasValid r) (p : J → ℝ) : updateMu r.characteristic p = fun j i => Spec.deviationAt r j i (p j) := by
  funext j i
  unfold updateMu Spec.deviationAt
  refine Finset.sum_congr rfl fun k _ => ?_
  by_cases h : r.characteristic.has2 k = true
  · rw [if_pos h]
  · rw [if_neg h, hv.x2 k (by simpa using h) j (p j) (r.characteristic.x0 j)]

lemma updateDelta_same (c : Characteristic J A K1 K2) : updateDelta c c.x0 = c.delta := by
  funext j
  unfold updateDelta
  simp

/-- **C108.** Without nesting, probabilities at given prices are logit probabilities of utilities in which the prices have replaced those of the data and
nothing else has changed. -/
theorem C108_probabilities (hv : Spec.ResultsFormulasValid r) (p : J → ℝ) (hn : r.market.nesting = none) (j : J) (i : A) :
    methodProbabilities r (some p) none j i =
      Spec.logit (fun k => (Spec.meanUtilityAt r k (p k) + Spec.deviationAt r k i (p k)) / r.market.epsilonScale)
        (fun k => (r.market.availability.elim 1 fun a => a i k)) 1 j := by
  unfold methodProbabilities
  simp only
  rw [updateDelta_eq r hv, updateMu_eq r hv, computeProbabilities_plain _ _ _ _ hn]
  congr 1
  funext k
  unfold multiplier
  cases r.market.availability <;> simp

/-- **C108.** The same with nesting. -/
theorem C108_nested_probabilities (hv : Spec.ResultsFormulasValid r) (hm : WellFormed r.market) (p : J → ℝ) {n : Nesting J G}
    (hn : r.market.nesting = some n) (j : J) (i : A) :
    methodProbabilities r (some p) none j i =
      Spec.nested n.group n.rho.groupRho (fun k => Spec.meanUtilityAt r k (p k) + Spec.deviationAt r k i (p k))
        (fun k => (r.market.availability.elim 1 fun a => a i k)) 1 j := by
  unfold methodProbabilities
  simp only
  rw [updateDelta_eq r hv, updateMu_eq r hv, computeProbabilities_nested _ _ _ _ n hn i (hm.availNonneg _ rfl i)
    (fun g => (hm.regular.1 n hn g).2.ne)]
  congr 1
  funext k
  unfold multiplier
  cases r.market.availability <;> simp

/-- **C108.** Mean utilities that are given are used as they are, and prices then only change deviations from them. -/
theorem C108_given_delta (hv : Spec.ResultsFormulasValid r) (p : Option (J → ℝ)) (delta : J → ℝ) :
    methodProbabilities r p (some delta) =
      computeProbabilities r.market {} delta fun j i => Spec.deviationAt r j i ((p.getD r.characteristic.x0) j) := by
  unfold methodProbabilities
  cases p with
  | none => simp only [Option.getD_some, Option.getD_none, updateMu_eq r hv]
  | some p => simp only [Option.getD_some, updateMu_eq r hv]

/-- **C108.** Prices, mean utilities, shares, marginal costs, firm IDs, and ownership that are those of the data change nothing. -/
theorem C108_defaults (solve : ((J → ℝ) → J → ℝ) → (J → ℝ) → J → ℝ) (constantCosts : Bool) (first : J) (out : J → Bool)
    (delta prices costs : Option (J → ℝ)) :
    methodShares r (some r.characteristic.x0) delta = methodShares r none delta ∧
    methodShares r none (some r.characteristic.delta) = methodShares r none none ∧
    methodSurplus r first out (some r.characteristic.x0) = methodSurplus r first out none ∧
    methodMarkups r (some r.characteristic.x0) costs = methodMarkups r none costs ∧
    methodProfits r (some r.characteristic.x0) (some r.shares) costs = methodProfits r none none costs ∧
    (∀ f o, methodPrices r solve constantCosts f o costs (some r.characteristic.x0) = methodPrices r solve constantCosts f o costs none) ∧
    (∀ c, methodCosts r none none = .ok c → methodMarkups r prices (some c) = methodMarkups r prices none ∧
      ∀ f o, methodApproximatePrices r f o (some c) = methodApproximatePrices r f o none ∧
        methodPrices r solve constantCosts f o (some c) prices = methodPrices r solve constantCosts f o none prices) ∧
    (∀ f, r.ownership = none → r.firms = some f → methodCosts r (some f) none = methodCosts r none none) ∧
    ∀ f, methodCosts r none (some (ownershipFromIds f)) = methodCosts r (some f) none := by
  refine ⟨?_, rfl, ?_, rfl, rfl, fun _ _ => rfl, fun c hc => ⟨?_, fun f o => ⟨?_, ?_⟩⟩, ?_, fun _ => rfl⟩
  · unfold methodShares methodProbabilities
    cases delta with
    | none => simp only [updateDelta_same]; rfl
    | some d => rfl
  · unfold methodSurplus consumerSurplus
    simp only [updateDelta_same]
  · unfold methodMarkups givenCosts
    simp only [hc]
  · unfold methodApproximatePrices givenCosts
    simp only [hc]
  · unfold methodPrices givenCosts
    simp only [hc]
  · intro f ho hf
    unfold methodCosts ownershipMatrix
    simp only [ho, hf]

/-- The market after its prices have been replaced, with the implied mean utilities. -/
noncomputable def ResultsMarket.moveTo (p : J → ℝ) : ResultsMarket J A G K1 K2 K3 F := { r with characteristic := r.characteristic.moveTo p }

/-- **C108.** Counterfactuals of counterfactuals: what shares are at `q` does not depend on whether prices were first replaced by `p`. -/
theorem C108_path (hv : Spec.ResultsFormulasValid r) (p q : J → ℝ) : methodShares (r.moveTo p) (some q) none = methodShares r (some q) none := by
  have hv' : Spec.ResultsFormulasValid (r.moveTo p) := ⟨hv.x1, hv.x2, hv.x3⟩
  have hd : updateDelta (r.moveTo p).characteristic q = updateDelta r.characteristic q := by
    rw [updateDelta_eq _ hv', updateDelta_eq r hv]
    funext j
    have h := congrFun (updateDelta_eq r hv p) j
    unfold Spec.meanUtilityAt Spec.unobservedUtility at h ⊢
    change ∑ k, r.characteristic.beta k * r.characteristic.x1 k j (q j) + (updateDelta r.characteristic p j -
      ∑ k, r.characteristic.beta k * r.characteristic.x1 k j (p j)) = _
    rw [h]
    ring
  have hm : updateMu (r.moveTo p).characteristic q = updateMu r.characteristic q := by
    rw [updateMu_eq _ hv', updateMu_eq r hv]
    rfl
  funext j
  unfold methodShares methodProbabilities
  simp only [hd, hm]
  rfl

/-! ## Supply -/

lemma methodShares_at (p : J → ℝ) : methodShares r (some p) none = sharesAt r.market r.characteristic p := rfl

lemma firmOptimal_iff (shares : (J → ℝ) → J → ℝ) (firm : J → F) (costs p : J → ℝ) (j : J) :
    Spec.FirmOptimal shares firm costs p j ↔ Spec.FirstOrderCondition shares (ownershipFromIds firm j) costs p j := by
  unfold Spec.FirmOptimal Spec.FirstOrderCondition
  have : (fun price => Spec.firmProfit shares firm costs (Function.update p j price) (firm j)) =
      Spec.pricingProfit shares (ownershipFromIds firm j) costs p j := by
    funext price
    unfold Spec.firmProfit Spec.pricingProfit ownershipFromIds
    rw [Finset.sum_filter]
    refine Finset.sum_congr rfl fun k _ => ?_
    by_cases h : firm k = firm j
    · rw [if_pos h, if_pos h.symm, one_mul]
    · rw [if_neg h, if_neg (Ne.symm h), zero_mul]
  rw [this]

lemma ownershipFromIds_symm (firm : J → F) (j k : J) : ownershipFromIds firm j k = ownershipFromIds firm k j := by
  unfold ownershipFromIds
  by_cases h : firm j = firm k
  · rw [if_pos h, if_pos h.symm]
  · rw [if_neg h, if_neg (Ne.symm h)]

lemma updateCosts_at (hv : Spec.ResultsFormulasValid r) (costs : J → ℝ) (j : J) (s : ℝ) :
    updateCosts r.costSide costs (fun _ => s) j = Spec.costAt r costs j s := by
  have key : ∑ k with r.costSide.has3 k = true, r.costSide.gamma k * (r.costSide.x3 k j s - r.costSide.x3 k j (r.costSide.s0 j)) =
      ∑ k, r.costSide.gamma k * r.costSide.x3 k j s - ∑ k, r.costSide.gamma k * r.costSide.x3 k j (r.costSide.s0 j) := by
    rw [← Finset.sum_sub_distrib]
    simp only [← mul_sub]
    apply Finset.sum_subset (Finset.filter_subset _ _)
    intro k _ hk
    rw [Finset.mem_filter, not_and] at hk
    rw [hv.x3 k (by simpa using hk (Finset.mem_univ k)) j s (r.costSide.s0 j)]
    ring
  unfold updateCosts Spec.costAt
  rw [← Real.exp_sum, key]

/-- Marginal costs at new prices: those in the data if they are held constant, and otherwise those at new shares. -/
noncomputable def Spec.costsAt (constantCosts : Bool) (costs p : J → ℝ) (j : J) : ℝ :=
  if constantCosts then costs j else Spec.costAt r costs j (sharesAt r.market r.characteristic p j)

lemma methodContraction_eq (hv : Spec.ResultsFormulasValid r) (constantCosts : Bool) (o : J → J → ℝ) (costs : J → ℝ) :
    ∃ costOf : J → ℝ → ℝ, methodContraction r constantCosts o costs = priceContraction r.market r.characteristic o costOf ∧
      ∀ p j, costOf j (sharesAt r.market r.characteristic p j) = Spec.costsAt r constantCosts costs p j := by
  refine ⟨_, rfl, fun p j => ?_⟩
  unfold Spec.costsAt
  cases constantCosts with
  | true => rfl
  | false =>
    simp only [Bool.false_or, Bool.false_eq_true, if_false]
    by_cases h : ∃ k, r.costSide.has3 k = true
    · simp only [h, decide_true, Bool.not_true, Bool.false_eq_true, if_false]
      exact updateCosts_at r hv costs j _
    · simp only [h, decide_false, Bool.not_false, if_true]
      push Not at h
      have hs : ∀ k s, r.costSide.x3 k j s = r.costSide.x3 k j (r.costSide.s0 j) := fun k s => hv.x3 k (by simpa using h k) j _ _
      unfold Spec.costAt
      simp [hs]

/-- **C108.** Mergers. With firm IDs in the data, marginal costs that are not given are the only ones for which prices in the data are optimal for firms
before the merger. With firm IDs after the merger, prices are a fixed point of the iteration if and only if they are optimal for firms after the merger, at
these costs (or at those implied by new shares, if they are not held constant). -/
theorem C108_merger (hv : Spec.ResultsFormulasValid r) (hm : WellFormed r.market) (hc : r.characteristic.Smooth) {firm : J → F} (ho : r.ownership = none)
    (hf : r.firms = some firm) (hs : r.shares = methodShares r none none)
    (hdet : IsUnit (capitalDelta r.market r.characteristic (ownershipFromIds firm)).det) (constantCosts : Bool) :
    ∃ costs, methodCosts r none none = .ok costs ∧
      (∀ costs', (∀ j, Spec.FirmOptimal (fun p => methodShares r (some p) none) firm costs' r.characteristic.x0 j) ↔ costs' = costs) ∧
      ∀ merged : J → F,
        (∀ solve start, methodPrices r solve constantCosts (some merged) none none start =
          .ok (solve (methodContraction r constantCosts (ownershipFromIds merged) costs) (start.getD r.characteristic.x0))) ∧
        ∀ p : J → ℝ, (∀ j, capitalLamda r.market (probabilitiesAt r.market r.characteristic p) (utilityDerivatives r.market r.characteristic p) j ≠ 0) →
          (methodContraction r constantCosts (ownershipFromIds merged) costs p = p ↔
            ∀ j, Spec.FirmOptimal (fun p => methodShares r (some p) none) merged (Spec.costsAt r constantCosts costs p) p j) := by
  have hcosts : methodCosts r none none = .ok (computeCosts r.market r.characteristic (ownershipFromIds firm) r.shares) := by
    unfold methodCosts ownershipMatrix
    simp only [ho, hf]
    rfl
  have hs' : ∀ j, r.shares j = sharesAt r.market r.characteristic r.characteristic.x0 j := by
    intro j
    rw [hs]
    exact congrFun (C108_defaults r (fun _ x => x) true j (fun _ => false) none none none).1.symm j
  refine ⟨_, hcosts, fun costs' => ?_, fun merged => ⟨fun solve start => ?_, fun p hl => ?_⟩⟩
  · rw [← C30_costs r.market hm r.characteristic hc (ownershipFromIds firm) (fun j => if_pos rfl) r.shares hs' hdet]
    exact forall_congr' fun j => firmOptimal_iff _ firm costs' _ j
  · unfold methodPrices givenCosts
    simp only [hcosts]
    rfl
  · obtain ⟨costOf, h1, h2⟩ := methodContraction_eq r hv constantCosts (ownershipFromIds merged)
      (computeCosts r.market r.characteristic (ownershipFromIds firm) r.shares)
    rw [h1, C31_fixed_point_iff_foc r.market hm r.characteristic hc (ownershipFromIds merged) (fun j => if_pos rfl) costOf p hl]
    refine forall_congr' fun j => ?_
    rw [firmOptimal_iff]
    have e1 : (fun k => ownershipFromIds merged k j) = ownershipFromIds merged j := funext fun k => ownershipFromIds_symm merged k j
    have e2 : (fun k => costOf k (sharesAt r.market r.characteristic p k)) = Spec.costsAt r constantCosts
        (computeCosts r.market r.characteristic (ownershipFromIds firm) r.shares) p := funext fun k => h2 p k
    rw [e1, e2]
    rfl

/-- **C108.** If firms own after a merger what they owned before (firm IDs may be others), prices in the data are a fixed point and also what is returned
as an approximation, if marginal costs are held constant or if stored shares are those of formulas for costs. -/
theorem C108_no_merger (hv : Spec.ResultsFormulasValid r) (hm : WellFormed r.market) (hc : r.characteristic.Smooth) {firm : J → F} (ho : r.ownership = none)
    (hf : r.firms = some firm) (hs : r.shares = methodShares r none none) (hs0 : r.costSide.s0 = r.shares)
    (hdet : IsUnit (capitalDelta r.market r.characteristic (ownershipFromIds firm)).det) (constantCosts : Bool)
    (hl : ∀ j, capitalLamda r.market (probabilitiesAt r.market r.characteristic r.characteristic.x0)
      (utilityDerivatives r.market r.characteristic r.characteristic.x0) j ≠ 0) {merged : J → F} (hmerged : ∀ j k, merged j = merged k ↔ firm j = firm k) :
    methodApproximatePrices r (some merged) none none = .ok r.characteristic.x0 ∧
    ∀ solve, (∀ T x, T x = x → solve T x = x) → methodPrices r solve constantCosts (some merged) none none none = .ok r.characteristic.x0 := by
  have heq : ownershipFromIds merged = ownershipFromIds firm := by
    funext j k
    unfold ownershipFromIds
    simp only [hmerged]
  obtain ⟨costs, hcosts, huniq, hmerge⟩ := C108_merger r hv hm hc ho hf hs hdet constantCosts
  have hcosts' : costs = computeCosts r.market r.characteristic (ownershipFromIds firm) r.shares := by
    have : methodCosts r none none = .ok (computeCosts r.market r.characteristic (ownershipFromIds firm) r.shares) := by
      unfold methodCosts ownershipMatrix
      simp only [ho, hf]
      rfl
    rw [this] at hcosts
    exact (Except.ok.inj hcosts).symm
  refine ⟨?_, fun solve hsolve => ?_⟩
  · unfold methodApproximatePrices givenCosts
    simp only [hcosts]
    have : ownershipMatrix r (some merged) none = .ok (ownershipFromIds firm) := congrArg Except.ok heq
    rw [this, hcosts']
    exact congrArg Except.ok (C30_approximate_prices _ _ _ _)
  · rw [(hmerge merged).1]
    congr 1
    apply hsolve
    change methodContraction r constantCosts (ownershipFromIds merged) costs r.characteristic.x0 = r.characteristic.x0
    rw [(hmerge merged).2 _ hl]
    have hcs : Spec.costsAt r constantCosts costs r.characteristic.x0 = costs := by
      funext j
      unfold Spec.costsAt
      cases constantCosts with
      | true => rfl
      | false =>
        have hsj : sharesAt r.market r.characteristic r.characteristic.x0 j = r.costSide.s0 j := by
          rw [hs0, hs]
          exact congrFun (C108_defaults r (fun _ x => x) true j (fun _ => false) none none none).1 j
        unfold Spec.costAt
        simp [hsj]
    intro j
    rw [hcs, firmOptimal_iff, heq, ← firmOptimal_iff]
    exact (huniq costs).2 rfl j

/-- **C108.** Profits of a firm's products, at given prices, shares at these prices, and costs, sum to the firm's profit. Profits are markups times
prices times shares. -/
theorem C108_profits (p costs : J → ℝ) (firm : J → F) :
    ∃ profits, methodProfits r (some p) (some (methodShares r (some p) none)) (some costs) = .ok profits ∧
      (∀ f, ∑ k with firm k = f, profits k = Spec.firmProfit (fun p => methodShares r (some p) none) firm costs p f) ∧
      ∃ markups, methodMarkups r (some p) (some costs) = .ok markups ∧
        ∀ j, p j ≠ 0 → profits j = markups j * p j * methodShares r (some p) none j := by
  refine ⟨_, rfl, fun f => rfl, _, rfl, fun j hj => ?_⟩
  simp only [Option.getD_some]
  rw [div_mul_cancel₀ _ hj]

/-- **C108.** Without firm IDs and ownership in the data, costs cannot be computed by default, but can be if either is given. Prices need costs, too. -/
theorem C108_unknown_firms (ho : r.ownership = none) (hf : r.firms = none) (solve : ((J → ℝ) → J → ℝ) → (J → ℝ) → J → ℝ) (constantCosts : Bool)
    (firmIds : Option (J → F)) (ownership : Option (J → J → ℝ)) (prices : Option (J → ℝ)) :
    (methodCosts r firmIds ownership = .error .valueError ↔ firmIds = none ∧ ownership = none) ∧
    methodMarkups r prices none = .error .valueError ∧
    methodPrices r solve constantCosts firmIds ownership none prices = .error .valueError ∧
    ∀ costs, methodPrices r solve constantCosts firmIds ownership (some costs) prices = .error .valueError ↔ firmIds = none ∧ ownership = none := by
  unfold methodPrices methodMarkups givenCosts methodCosts ownershipMatrix
  rw [ho, hf]
  cases firmIds <;> cases ownership <;> refine ⟨by simp [Except.map], rfl, rfl, fun costs => ?_⟩ <;>
    simp [bind, Except.bind, pure, Except.pure]

/-! ## A case that meets hypotheses -/

/-- Results for the duopoly of C30 and C31, with marginal costs that increase with shares. -/
noncomputable def duopolyResults : ResultsMarket (Fin 2) Unit Unit Unit (Fin 0) Unit (Fin 2) where
  market := duopoly
  characteristic := duopolyPrices
  costSide := { log := false, gamma := fun _ => 1, has3 := fun _ => true, x3 := fun _ _ s => s, d3 := fun _ _ _ => 1, s0 := fun _ => 1 / 3 }
  shares := fun _ => 1 / 3
  ownership := none
  firms := some id

lemma duopolyResults_valid : Spec.ResultsFormulasValid duopolyResults where
  x1 := fun _ h => by simp [duopolyResults, duopolyPrices] at h
  x2 := fun k => k.elim0
  x3 := fun _ h => by simp [duopolyResults] at h

lemma duopolyResults_shares : duopolyResults.shares = methodShares duopolyResults none none := by
  rw [← (C108_defaults duopolyResults (fun _ x => x) true 0 (fun _ => false) none none none).1]
  funext j
  exact (duopoly_shares j).symm

lemma duopolyResults_det : IsUnit (capitalDelta duopolyResults.market duopolyResults.characteristic (ownershipFromIds (id : Fin 2 → Fin 2))).det := by
  change IsUnit (capitalDelta duopoly duopolyPrices (ownershipFromIds (id : Fin 2 → Fin 2))).det
  rw [Matrix.det_fin_two]
  simp only [duopoly_capitalDelta, ownershipFromIds]
  norm_num

lemma duopolyResults_lamda (j : Fin 2) : capitalLamda duopolyResults.market
    (probabilitiesAt duopolyResults.market duopolyResults.characteristic duopolyResults.characteristic.x0)
    (utilityDerivatives duopolyResults.market duopolyResults.characteristic duopolyResults.characteristic.x0) j ≠ 0 := by
  change capitalLamda duopoly (probabilitiesAt duopoly duopolyPrices fun _ => 3) (utilityDerivatives duopoly duopolyPrices fun _ => 3) j ≠ 0
  rw [duopoly_lamda]
  norm_num

/-- Hypotheses of `C108_no_merger` hold: with other names of firms, prices stay. -/
example (constantCosts : Bool) : methodPrices duopolyResults (fun _ x => x) constantCosts (some ![1, 0]) none none none = .ok fun _ => 3 := by
  refine (C108_no_merger duopolyResults duopolyResults_valid duopoly_wellFormed duopolyPrices_smooth rfl rfl duopolyResults_shares rfl duopolyResults_det
    constantCosts duopolyResults_lamda ?_).2 (fun _ x => x) fun _ _ _ => rfl
  intro j k
  fin_cases j <;> fin_cases k <;> simp

/-- Hypotheses of `C108_merger` hold: after a merger to monopoly, prices in the data are not optimal any more, and the first iteration raises them. -/
example (constantCosts : Bool) : ∃ costs, methodCosts duopolyResults none none = .ok costs ∧
    methodContraction duopolyResults constantCosts (ownershipFromIds (fun _ => (0 : Fin 2))) costs (fun _ => 3) = (fun _ => 7 / 2) ∧
    ¬ ∀ j, Spec.FirmOptimal (fun p => methodShares duopolyResults (some p) none) (fun _ => (0 : Fin 2))
      (Spec.costsAt duopolyResults constantCosts costs fun _ => 3) (fun _ => 3) j := by
  obtain ⟨costs, h1, h2, h3⟩ := C108_merger duopolyResults duopolyResults_valid duopoly_wellFormed duopolyPrices_smooth rfl rfl duopolyResults_shares
    duopolyResults_det constantCosts
  have hcosts : costs = fun _ => 3 / 2 := by
    refine ((h2 fun _ => 3 / 2).1 fun j => ?_).symm
    rw [firmOptimal_iff]
    have hfp : priceContraction duopoly duopolyPrices (ownershipFromIds (id : Fin 2 → Fin 2)) (fun _ _ => 3/2)
        duopolyPrices.x0 = duopolyPrices.x0 := by
      funext j
      have : duopolyPrices.x0 = fun _ => 3 := rfl
      simp only [priceContraction, zeta, this, capitalLamdaInverse, duopoly_lamda, duopoly_gamma, duopoly_shares,
        Fin.sum_univ_two, ownershipFromIds]
      fin_cases j <;> norm_num
    have := (C31_fixed_point_iff_foc duopoly duopoly_wellFormed duopolyPrices duopolyPrices_smooth _ (fun j => if_pos rfl)
      (fun _ _ => 3/2) duopolyPrices.x0 duopolyResults_lamda).mp hfp j
    rw [show (fun k => ownershipFromIds (id : Fin 2 → Fin 2) k j) = ownershipFromIds id j from funext fun k => ownershipFromIds_symm id k j] at this
    exact this
  have hcontraction : methodContraction duopolyResults constantCosts (ownershipFromIds (fun _ => (0 : Fin 2))) costs (fun _ => 3) = fun _ => 7 / 2 := by
    obtain ⟨costOf, e1, e2⟩ := methodContraction_eq duopolyResults duopolyResults_valid constantCosts (ownershipFromIds (fun _ => (0 : Fin 2))) costs
    have e3 : ∀ k, costOf k (sharesAt duopoly duopolyPrices (fun _ => 3) k) = 3 / 2 := by
      intro k
      refine (e2 (fun _ => 3) k).trans ?_
      unfold Spec.costsAt
      have hsh : sharesAt duopolyResults.market duopolyResults.characteristic (fun _ => 3) k = 1 / 3 := duopoly_shares k
      rw [hsh, hcosts]
      cases constantCosts with
      | true => rfl
      | false => simp [Spec.costAt, duopolyResults]
    simp only [duopoly_shares] at e3
    rw [e1]
    funext j
    change priceContraction duopoly duopolyPrices _ costOf (fun _ => 3) j = _
    simp only [priceContraction, zeta, e3, capitalLamdaInverse, duopoly_lamda, duopoly_gamma, duopoly_shares, Fin.sum_univ_two, ownershipFromIds]
    norm_num
  refine ⟨costs, h1, hcontraction, fun h => ?_⟩
  have := ((h3 fun _ => 0).2 (fun _ => 3) duopolyResults_lamda).2 h
  rw [hcontraction] at this
  have := congrFun this 0
  norm_num at this

/-- Probabilities at other prices. -/
example : methodProbabilities duopolyResults (some ![3, 3 + Real.log 2]) none 1 () = 1 / 5 := by
  rw [C108_probabilities duopolyResults duopolyResults_valid _ rfl]
  simp only [Spec.logit, Spec.meanUtilityAt, Spec.unobservedUtility, Spec.deviationAt, duopolyResults, duopolyPrices, duopoly, Fin.sum_univ_two]
  simp [Real.exp_neg, Real.exp_log]
  norm_num

end Pyblp
