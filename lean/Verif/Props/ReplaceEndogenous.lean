import Verif.Model.ReplaceEndogenous
import Verif.Props.Parallel
import Verif.Props.Delta
import Verif.Props.Supply

/-!
# C90: simulated prices and shares can be inverted

Data from `Simulation.replace_endogenous` are those of the model at the parameters of the simulation: from them, a problem recovers
unobserved characteristics and marginal costs.
-/

set_option linter.unusedSectionVars false

namespace Pyblp

open Spec

variable {ι : Type} [LinearOrder ι] {N : ℕ} {G K1 K2 : Type} {K3 : ℕ} [Fintype G] [DecidableEq G] [Fintype K1] [Fintype K2]

namespace Spec

/-- The mean utility of a product with price `p`. -/
def meanUtility (e : SimulatedEconomy ι N G K1 K2 K3) (i : Fin N) (p : ℝ) : ℝ := (∑ k, e.beta k * e.x1 k i p) + e.xi i

/-- Deviations from mean utilities when prices are `p`. -/
def deviation (e : SimulatedEconomy ι N G K1 K2 K3) (t : ι) (p : Fin N → ℝ) (j : MarketRows e.ids t) (a : Fin (e.agents t)) : ℝ :=
  ∑ k, e.x2 k j (p j) * e.coef t k a j

/-- The marginal cost of a product with share `s`. -/
noncomputable def marginalCost (e : SimulatedEconomy ι N G K1 K2 K3) (i : Fin N) (s : ℝ) : ℝ :=
  if e.logCosts then Real.exp ((∑ k, e.gamma k * e.x3 k i s) + e.omega i) else (∑ k, e.gamma k * e.x3 k i s) + e.omega i

/-- Formulas that do not mention a variable do not depend on it. -/
structure FormulasValid (e : SimulatedEconomy ι N G K1 K2 K3) : Prop where
  x1 : ∀ k, e.has1 k = false → ∀ i p p', e.x1 k i p = e.x1 k i p'
  x2 : ∀ k, e.has2 k = false → ∀ i p p', e.x2 k i p = e.x2 k i p'
  x3 : ∀ k, e.has3 k = false → ∀ i s s', e.x3 k i s = e.x3 k i s'

end Spec

/-! ## Rows of the results -/

section rows

variable {pool : Option ℕ} {e : SimulatedEconomy ι N G K1 K2 K3} {constantCosts : Bool}
  {solve : (t : ι) → ((MarketRows e.ids t → ℝ) → MarketRows e.ids t → ℝ) → (MarketRows e.ids t → ℝ) → MarketRows e.ids t → ℝ}
  {givenCosts givenPrices : Option (Fin N → ℝ)} {results : Fin N → EndogenousRow}

lemma getElem_position (ids : Fin N → ι) (i : Fin N) : (indicesOf ids (ids i))[position ids i]? = some i := by
  rw [← idxOf_indices]
  have h : i ∈ indicesOf ids (ids i) := (mem_indicesOf _ _ _).2 rfl
  rw [List.getElem?_eq_getElem (List.idxOf_lt_length_iff.mpr h), List.getElem_idxOf]

/-- Each row of the results is the row of its own market. -/
lemma results_row (h : ReplaceEndogenous pool e constantCosts solve givenCosts givenPrices results) :
    ∃ costs, initialCosts e givenCosts = .ok costs ∧ ∀ (t : ι) [Nonempty (MarketRows e.ids t)] (j : MarketRows e.ids t),
      results j =
        let m := computeEndogenous e t constantCosts (solve t) (fun j => costs j) (fun j => (givenPrices.getD costs) j)
        ⟨m.prices j, m.shares j, m.delta j, m.costs j, m.gradient j⟩ := by
  obtain ⟨costs, hcosts, items, hitems, rfl⟩ := h
  refine ⟨costs, hcosts, fun t _ j => ?_⟩
  rw [C08_assembled pool e.ids _ _ items hitems]
  obtain ⟨i, rfl⟩ := j
  unfold endogenousRows
  simp only [getElem_position]
  rw [dif_pos trivial]

end rows

/-! ## C90 -/

section

variable {pool : Option ℕ} {e : SimulatedEconomy ι N G K1 K2 K3} {constantCosts : Bool}
  {solve : (t : ι) → ((MarketRows e.ids t → ℝ) → MarketRows e.ids t → ℝ) → (MarketRows e.ids t → ℝ) → MarketRows e.ids t → ℝ}
  {givenCosts givenPrices : Option (Fin N → ℝ)} {results : Fin N → EndogenousRow}

lemma updateDelta_characteristicOf (hv : Spec.FormulasValid e) (t : ι) (p : MarketRows e.ids t → ℝ) (j : MarketRows e.ids t) :
    updateDelta (characteristicOf e t) p j = Spec.meanUtility e j (p j) := by
  unfold updateDelta Spec.meanUtility characteristicOf baselineDelta
  simp only
  rw [Finset.sum_filter]
  have : (∑ k, e.x1 k j (e.prices j) * e.beta k) +
      ∑ k, (if e.has1 k = true then e.beta k * (e.x1 k j (p j) - e.x1 k j (e.prices j)) else 0) = ∑ k, e.beta k * e.x1 k j (p j) := by
    rw [← Finset.sum_add_distrib]
    refine Finset.sum_congr rfl fun k _ => ?_
    by_cases hk : e.has1 k = true
    · rw [if_pos hk]; ring
    · rw [if_neg hk, hv.x1 k (by simpa using hk) j (e.prices j) (p j)]; ring
  linarith

lemma updateMu_characteristicOf (hv : Spec.FormulasValid e) (t : ι) (p : Fin N → ℝ) :
    updateMu (characteristicOf e t) (fun j => p j) = Spec.deviation e t p := by
  funext j a
  unfold updateMu Spec.deviation characteristicOf
  refine Finset.sum_congr rfl fun k _ => ?_
  by_cases hk : e.has2 k = true
  · simp only [hk, if_true]
  · simp only [hk]
    rw [hv.x2 k (by simpa using hk) j (p j) (e.prices j)]
    rfl

/-- **C90.** In each row, the mean utility in the results is the one of the model at the new price, and the share is the market share of the model
at new prices of all products of the market. -/
theorem C90_demand (hv : Spec.FormulasValid e) (h : ReplaceEndogenous pool e constantCosts solve givenCosts givenPrices results) (t : ι)
    [Nonempty (MarketRows e.ids t)] (j : MarketRows e.ids t) :
    (results j).delta = Spec.meanUtility e j (results j).price ∧
      (results j).share = computeShares (e.market t) {} (fun k => Spec.meanUtility e k (results k).price)
        (Spec.deviation e t fun i => (results i).price) j := by
  obtain ⟨costs, -, hr⟩ := results_row h
  refine ⟨?_, ?_⟩
  · rw [hr t j]
    exact updateDelta_characteristicOf hv t _ j
  · have hp : (fun k : MarketRows e.ids t => (results k).price) = _ := funext fun k => by rw [hr t k]
    rw [hr t j]
    change sharesAt (e.market t) (characteristicOf e t) _ j = _
    unfold sharesAt computeShares probabilitiesAt
    have hd : (fun k : MarketRows e.ids t => Spec.meanUtility e k (results k).price) = updateDelta (characteristicOf e t)
        (solve t (equilibriumContraction e t constantCosts fun j => costs j) fun j => (givenPrices.getD costs) j) := by
      funext k
      rw [updateDelta_characteristicOf hv, hr t k]
      rfl
    rw [hd, ← updateMu_characteristicOf hv, hp]
    rfl

/-- **C90.** In a problem with these data and the nonlinear parameters of the simulation, the only mean utilities that match shares are those of
the results, so that subtracting the linear index leaves the unobserved characteristics of the simulation. -/
theorem C90_xi_recovered (hv : Spec.FormulasValid e) (h : ReplaceEndogenous pool e constantCosts solve givenCosts givenPrices results) (t : ι)
    [Nonempty (MarketRows e.ids t)] (hm : Regular (e.market t)) (hav : ∀ i, AvailabilityNonneg (e.market t) { safe := true } i)
    (hw : ∀ i, 0 ≤ (e.market t).weights i) (hoff : ∀ j, ∃ i, 0 < (e.market t).weights i ∧ Offered (e.market t) { safe := true } i j)
    (delta : MarketRows e.ids t → ℝ) :
    (∀ j, computeShares (e.market t) {} delta (Spec.deviation e t fun i => (results i).price) j = (results j).share) ↔
      ∀ j : MarketRows e.ids t, delta j - ∑ k, e.beta k * e.x1 k j (results j).price = e.xi j := by
  have hd := fun j => (C90_demand hv h t j).2
  constructor
  · intro hs j
    have := C23_unique (e.market t) hm true (Spec.deviation e t fun i => (results i).price) hav hw hoff delta
      (fun k => Spec.meanUtility e k (results k).price) fun j => by rw [hs j, hd j]
    rw [this]
    simp [Spec.meanUtility]
  · intro hx j
    rw [hd j]
    congr 1
    funext k
    have := hx k
    unfold Spec.meanUtility
    linarith

/-- **C90.** If marginal costs are not given and may change with shares, or if they do not depend on shares, then in each row the marginal cost in
the results is the one of the model at the new share. -/
theorem C90_costs (hv : Spec.FormulasValid e) (h : ReplaceEndogenous pool e constantCosts solve none givenPrices results)
    (hc : constantCosts = false ∨ ∀ k, e.has3 k = false) (i : Fin N) :
    (results i).cost = Spec.marginalCost e i (results i).share := by
  obtain ⟨costs, hcosts, hr⟩ := results_row h
  have : Nonempty (MarketRows e.ids (e.ids i)) := ⟨⟨i, rfl⟩⟩
  rw [show results i = _ from hr (e.ids i) ⟨i, rfl⟩]
  have hinit : costs = if e.logCosts then fun i => Real.exp ((∑ k, e.x3 k i (e.shares i) * e.gamma k) + e.omega i)
      else fun i => (∑ k, e.x3 k i (e.shares i) * e.gamma k) + e.omega i := by
    unfold initialCosts at hcosts
    simp only at hcosts
    rw [if_neg (fun h3 => by rw [if_pos h3] at hcosts; cases hcosts)] at hcosts
    exact (Except.ok.inj hcosts).symm
  have hup : ∀ s : MarketRows e.ids (e.ids i) → ℝ, updateCosts (costSideOf e (e.ids i)) (fun j => costs j) s ⟨i, rfl⟩ =
      Spec.marginalCost e i (s ⟨i, rfl⟩) := fun s => by
    have hsum : (∑ k, e.x3 k i (e.shares i) * e.gamma k) +
        ∑ k with e.has3 k = true, e.gamma k * (e.x3 k i (s ⟨i, rfl⟩) - e.x3 k i (e.shares i)) =
        ∑ k, e.gamma k * e.x3 k i (s ⟨i, rfl⟩) := by
      rw [Finset.sum_filter, ← Finset.sum_add_distrib]
      refine Finset.sum_congr rfl fun k _ => ?_
      by_cases hk : e.has3 k = true
      · rw [if_pos hk]; ring
      · rw [if_neg hk, hv.x3 k (by simpa using hk) i (e.shares i) (s ⟨i, rfl⟩)]; ring
    unfold updateCosts Spec.marginalCost costSideOf
    simp only
    rw [hinit]
    by_cases hl : e.logCosts = true
    · simp only [hl, if_true]
      rw [← Real.exp_sum, ← Real.exp_add, ← hsum]
      congr 1
      ring
    · simp only [hl, Bool.false_eq_true, if_false]
      rw [← hsum]
      ring
  unfold computeEndogenous
  simp only
  by_cases hcc : constantCosts = true
  · rw [if_pos hcc]
    have hall := hc.resolve_left (by rw [hcc]; simp)
    rw [← hup]
    unfold updateCosts costSideOf
    simp [hall]
  · rw [if_neg hcc]
    exact hup _

/-- In a problem with the data of the results, prices and mean utilities are those of the results. -/
def problemCharacteristic (e : SimulatedEconomy ι N G K1 K2 K3) (results : Fin N → EndogenousRow) (t : ι) :
    Characteristic (MarketRows e.ids t) (Fin (e.agents t)) K1 K2 :=
  { characteristicOf e t with delta := fun j => (results j).delta, x0 := fun j => (results j).price }

lemma problemCharacteristic_eq (h : ReplaceEndogenous pool e constantCosts solve givenCosts givenPrices results) (t : ι)
    [Nonempty (MarketRows e.ids t)] :
    problemCharacteristic e results t = (characteristicOf e t).moveTo fun j => (results j).price := by
  obtain ⟨costs, -, hr⟩ := results_row h
  have hp : (fun k : MarketRows e.ids t => (results k).price) = _ := funext fun k => by rw [hr t k]
  have hd : (fun k : MarketRows e.ids t => (results k).delta) =
      updateDelta (characteristicOf e t) fun k : MarketRows e.ids t => (results k).price := by
    funext k
    rw [hp, hr t k]
    rfl
  unfold problemCharacteristic Characteristic.moveTo
  rw [hd]

lemma results_share (h : ReplaceEndogenous pool e constantCosts solve givenCosts givenPrices results) (t : ι)
    [Nonempty (MarketRows e.ids t)] :
    (fun k : MarketRows e.ids t => (results k).share) = sharesAt (e.market t) (characteristicOf e t) fun j => (results j).price := by
  obtain ⟨costs, -, hr⟩ := results_row h
  have hp : (fun k : MarketRows e.ids t => (results k).price) = _ := funext fun k => by rw [hr t k]
  funext k
  rw [hp, hr t k]
  rfl

/-- The costs at which prices are a fixed point are those of the results. -/
lemma contraction_results (h : ReplaceEndogenous pool e constantCosts solve givenCosts givenPrices results) (t : ι)
    [Nonempty (MarketRows e.ids t)] {costs : Fin N → ℝ} (hcosts : initialCosts e givenCosts = .ok costs) :
    equilibriumContraction e t constantCosts (fun j => costs j) (fun j => (results j).price) =
      priceContraction (e.market t) (characteristicOf e t) (e.ownership t) (fun j _ => (results j).cost) fun j => (results j).price := by
  obtain ⟨costs', hcosts', hr⟩ := results_row h
  have := Except.ok.inj (hcosts.symm.trans hcosts')
  subst this
  have hshare := results_share h t
  have hcost : (fun k : MarketRows e.ids t => (results k).cost) = if constantCosts then fun j : MarketRows e.ids t => costs j else
      updateCosts (costSideOf e t) (fun j : MarketRows e.ids t => costs j)
        (sharesAt (e.market t) (characteristicOf e t) fun j : MarketRows e.ids t => (results j).price) := by
    rw [← hshare]
    have hp : (fun k : MarketRows e.ids t => (results k).share) = _ := funext fun k => by rw [hr t k]
    rw [hp]
    funext k
    rw [hr t k]
    rfl
  unfold equilibriumContraction priceContraction
  have key : ∀ k : MarketRows e.ids t, (if (constantCosts || !decide (∃ k, e.has3 k = true)) = true then fun (j : MarketRows e.ids t) (_ : ℝ) => costs j else
      fun j s => updateCosts (costSideOf e t) (fun j : MarketRows e.ids t => costs j) (fun _ => s) j : MarketRows e.ids t → ℝ → ℝ) k
        (sharesAt (e.market t) (characteristicOf e t) (fun j => (results j).price) k) = (results k).cost := fun k => by
    have hk := congrFun hcost k
    rw [hk]
    by_cases hcc : constantCosts = true
    · simp [hcc]
    · by_cases hany : ∃ k, e.has3 k = true
      · simp only [hcc, hany]
        rfl
      · push Not at hany
        have : ∀ k, e.has3 k = false := fun k => by simpa using hany k
        simp only [hcc, this]
        simp [updateCosts, costSideOf, this]
  funext j
  simp only [key]

/-- **C90.** If the iteration over prices has arrived at a fixed point, then the marginal costs that a problem computes from the data, at the
parameters of the simulation and with the mean utilities of `C90_xi_recovered`, are those of the results, and the reported gradients of
profits are zero. (Missing: ownership that is not symmetric, see `C31_asymmetric_refuted`.) -/
theorem C90_costs_recovered_partial (hv : Spec.FormulasValid e)
    (h : ReplaceEndogenous pool e constantCosts solve givenCosts givenPrices results) (t : ι) [Nonempty (MarketRows e.ids t)]
    (hm : WellFormed (e.market t)) (hs : (characteristicOf e t).Smooth) (hO : ∀ j, e.ownership t j j = 1)
    (hsymm : ∀ j k, e.ownership t j k = e.ownership t k j)
    (hl : ∀ j, capitalLamda (e.market t) (probabilitiesAt (e.market t) (characteristicOf e t) fun j => (results j).price)
      (utilityDerivatives (e.market t) (characteristicOf e t) fun j => (results j).price) j ≠ 0)
    (hdet : IsUnit (capitalDelta (e.market t) (problemCharacteristic e results t) (e.ownership t)).det)
    (costs : Fin N → ℝ) (hcosts : initialCosts e givenCosts = .ok costs)
    (hfixed : equilibriumContraction e t constantCosts (fun j => costs j) (fun j => (results j).price) =
      fun j : MarketRows e.ids t => (results j).price)
    (j : MarketRows e.ids t) :
    computeCosts (e.market t) (problemCharacteristic e results t) (e.ownership t) (fun k => (results k).share) j = (results j).cost ∧
      (results j).gradient = 0 := by
  rw [contraction_results h t hcosts] at hfixed
  rw [problemCharacteristic_eq h t] at hdet ⊢
  have hconst : ∀ k, (characteristicOf e t).has2 k = false → ∀ j x x', (characteristicOf e t).x2 k j x = (characteristicOf e t).x2 k j x' :=
    fun k hk j x x' => hv.x2 k hk j x x'
  refine ⟨?_, ?_⟩
  · rw [results_share h t]
    exact congrFun ((C31_fixed_point_iff_costs_partial (e.market t) hm (characteristicOf e t) hs hconst (e.ownership t) hO hsymm
      (fun k => (results k).cost) _ hl hdet).mp hfixed) j
  · have hfoc := (C31_fixed_point_iff_foc (e.market t) hm (characteristicOf e t) hs (e.ownership t) hO _ _ hl).mp hfixed j
    rw [firstOrderCondition_iff (e.market t) hm _ hs] at hfoc
    have hgrad : (results j).gradient = firmProfitGradient (e.market t) (characteristicOf e t) (e.ownership t)
        (fun k => (results k).cost) (fun k => (results k).price) j := by
      obtain ⟨costs', -, hr⟩ := results_row h
      have hp : (fun k : MarketRows e.ids t => (results k).price) = _ := funext fun k => by rw [hr t k]
      have hc : (fun k : MarketRows e.ids t => (results k).cost) = _ := funext fun k => by rw [hr t k]
      rw [hp, hc, hr t j]
      rfl
    rw [hgrad, ← hfoc]
    unfold firmProfitGradient profitJacobian
    simp only [mul_add, Finset.sum_add_distrib, mul_ite, mul_zero, Finset.sum_ite_eq', Finset.mem_univ, if_true]
    rfl

/-- **C90.** If, moreover, marginal costs are not given and may change with shares (or do not depend on them), subtracting the linear index from
what a problem computes, in logarithms if costs are formulated so, leaves the supply-side unobserved characteristics of the simulation. -/
theorem C90_omega_recovered_partial (hv : Spec.FormulasValid e)
    (h : ReplaceEndogenous pool e constantCosts solve none givenPrices results) (hc : constantCosts = false ∨ ∀ k, e.has3 k = false)
    (t : ι) [Nonempty (MarketRows e.ids t)] (hm : WellFormed (e.market t)) (hs : (characteristicOf e t).Smooth)
    (hO : ∀ j, e.ownership t j j = 1) (hsymm : ∀ j k, e.ownership t j k = e.ownership t k j)
    (hl : ∀ j, capitalLamda (e.market t) (probabilitiesAt (e.market t) (characteristicOf e t) fun j => (results j).price)
      (utilityDerivatives (e.market t) (characteristicOf e t) fun j => (results j).price) j ≠ 0)
    (hdet : IsUnit (capitalDelta (e.market t) (problemCharacteristic e results t) (e.ownership t)).det)
    (costs : Fin N → ℝ) (hcosts : initialCosts e none = .ok costs)
    (hfixed : equilibriumContraction e t constantCosts (fun j => costs j) (fun j => (results j).price) =
      fun j : MarketRows e.ids t => (results j).price)
    (j : MarketRows e.ids t) :
    let cost := computeCosts (e.market t) (problemCharacteristic e results t) (e.ownership t) (fun k => (results k).share) j
    (if e.logCosts then Real.log cost else cost) - ∑ k, e.gamma k * e.x3 k j (results j).share = e.omega j := by
  intro cost
  have h1 : cost = (results j).cost := (C90_costs_recovered_partial hv h t hm hs hO hsymm hl hdet costs hcosts hfixed j).1
  rw [h1, C90_costs hv h hc j]
  unfold Spec.marginalCost
  by_cases hlog : e.logCosts = true
  · rw [if_pos hlog, if_pos hlog, Real.log_exp]; ring
  · rw [if_neg hlog, if_neg hlog]; ring

end

/-! ## A monopolist -/

/-- A monopolist whose marginal cost is its share. With price `x`, the share is one half. -/
noncomputable def monopolist (x : ℝ) : SimulatedEconomy Unit 1 Unit Unit (Fin 0) 1 where
  ids := fun _ => ()
  agents := fun _ => 1
  market := fun _ => { nesting := none, epsilonScale := 1, weights := fun _ => 1, availability := none }
  ownership := fun _ _ _ => 1
  coef := fun _ _ _ _ => 0
  prices := fun _ => 0
  shares := fun _ => 1 / 4
  xi := fun _ => x
  omega := fun _ => 0
  beta := fun _ => -1
  has1 := fun _ => true
  x1 := fun _ _ p => p
  d1 := fun _ _ _ => 1
  dd1 := fun _ _ _ => 0
  has2 := fun _ => false
  x2 := fun _ _ _ => 0
  d2 := fun _ _ _ => 0
  dd2 := fun _ _ _ => 0
  logCosts := false
  gamma := fun _ => 1
  has3 := fun _ => true
  x3 := fun _ _ s => s
  d3 := fun _ _ _ => 1

instance (x : ℝ) : Nonempty (MarketRows (monopolist x).ids ()) := ⟨⟨0, rfl⟩⟩

instance (x : ℝ) : Subsingleton (MarketRows (monopolist x).ids ()) := inferInstance

/-- The only agent. -/
def soleAgent (x : ℝ) : Fin ((monopolist x).agents ()) := (0 : Fin 1)

lemma sum_monopolist (x : ℝ) (f : Fin ((monopolist x).agents ()) → ℝ) : ∑ i, f i = f (soleAgent x) := Fin.sum_univ_one f

lemma monopolist_valid (x : ℝ) : Spec.FormulasValid (monopolist x) where
  x1 := fun k h => by cases h
  x2 := fun k => k.elim0
  x3 := fun k h => by cases h

lemma monopolist_probability (x : ℝ) (j : MarketRows (monopolist x).ids ()) (i : Fin ((monopolist x).agents ())) :
    probabilitiesAt ((monopolist x).market ()) (characteristicOf (monopolist x) ()) (fun _ => x) j i = 1 / 2 := by
  unfold probabilitiesAt
  rw [computeProbabilities_plain _ _ _ _ rfl, multiplier_one _ _ rfl rfl rfl (fun _ => rfl)]
  have h1 : updateDelta (characteristicOf (monopolist x) ()) (fun _ => x) = fun _ => 0 := by
    funext k
    rw [updateDelta_characteristicOf (monopolist_valid x)]
    simp [Spec.meanUtility, monopolist]
  have h2 : updateMu (characteristicOf (monopolist x) ()) (fun _ => x) = fun _ _ => 0 := by
    funext k a
    rw [updateMu_characteristicOf (monopolist_valid x) () fun _ => x]
    simp [Spec.deviation]
  rw [h1, h2]
  unfold Spec.logit
  rw [Fintype.sum_subsingleton _ j]
  simp [monopolist]
  norm_num

lemma monopolist_derivative (x : ℝ) (p : MarketRows (monopolist x).ids () → ℝ) (j : MarketRows (monopolist x).ids ()) (i : Fin ((monopolist x).agents ())) :
    utilityDerivatives ((monopolist x).market ()) (characteristicOf (monopolist x) ()) p j i = -1 := by
  simp [utilityDerivatives, monopolist, characteristicOf]

lemma monopolist_lamda (x : ℝ) (j : MarketRows (monopolist x).ids ()) :
    capitalLamda ((monopolist x).market ()) (probabilitiesAt ((monopolist x).market ()) (characteristicOf (monopolist x) ()) fun _ => x)
      (utilityDerivatives ((monopolist x).market ()) (characteristicOf (monopolist x) ()) fun _ => x) j = -(1 / 2) := by
  unfold capitalLamda
  change ∑ i, _ = _
  rw [sum_monopolist, monopolist_probability, monopolist_derivative]
  simp [monopolist]

lemma monopolist_gamma (x : ℝ) (j k : MarketRows (monopolist x).ids ()) :
    capitalGamma ((monopolist x).market ()) (probabilitiesAt ((monopolist x).market ()) (characteristicOf (monopolist x) ()) fun _ => x)
      (conditionalsAt ((monopolist x).market ()) (characteristicOf (monopolist x) ()) fun _ => x)
      (utilityDerivatives ((monopolist x).market ()) (characteristicOf (monopolist x) ()) fun _ => x) j k = -(1 / 4) := by
  unfold capitalGamma
  change ∑ i, _ = _
  rw [sum_monopolist, monopolist_probability, monopolist_probability, monopolist_derivative]
  simp [monopolist]
  norm_num

lemma monopolist_share (x : ℝ) (j : MarketRows (monopolist x).ids ()) :
    sharesAt ((monopolist x).market ()) (characteristicOf (monopolist x) ()) (fun _ => x) j = 1 / 2 := by
  unfold sharesAt
  rw [sum_monopolist, monopolist_probability]
  simp [monopolist]

/-- Prices of `2` plus marginal cost are a fixed point. -/
lemma monopolist_fixed (x : ℝ) (costOf : MarketRows (monopolist x).ids () → ℝ → ℝ) (h : ∀ j, costOf j (1 / 2) = x - 2) :
    priceContraction ((monopolist x).market ()) (characteristicOf (monopolist x) ()) ((monopolist x).ownership ()) costOf (fun _ => x) =
      fun _ => x := by
  funext j
  unfold priceContraction zeta
  simp only [monopolist_share, h, capitalLamdaInverse, monopolist_lamda, monopolist_gamma]
  rw [Fintype.sum_subsingleton _ j]
  simp [monopolist]
  norm_num

/-- Results of a simulation in which the iteration returns `x`. -/
noncomputable def monopolistResults (x cost : ℝ) : Fin 1 → EndogenousRow := fun _ => ⟨x, 1 / 2, 0, cost, 1 / 2 + (x - cost) * (-(1 / 4))⟩

lemma monopolist_results (x : ℝ) (constantCosts : Bool) :
    ReplaceEndogenous none (monopolist x) constantCosts (fun _ _ _ _ => x) none none
      (monopolistResults x (if constantCosts then 1 / 4 else 1 / 2)) := by
  refine ⟨fun _ => 1 / 4, ?_, _, rfl, ?_⟩
  · simp [initialCosts, monopolist]
  · funext i
    rw [C08_assembled none (monopolist x).ids _ (endogenousRows (monopolist x) constantCosts (fun _ _ _ _ => x) (fun _ => 1 / 4) _) _ rfl]
    unfold endogenousRows
    simp only [getElem_position]
    rw [dif_pos trivial]
    have hcost : (if constantCosts = true then fun _ => 1 / 4 else updateCosts (costSideOf (monopolist x) ()) (fun _ => 1 / 4)
        (sharesAt ((monopolist x).market ()) (characteristicOf (monopolist x) ()) fun _ => x)) =
        fun _ : MarketRows (monopolist x).ids () => if constantCosts = true then (1 / 4 : ℝ) else 1 / 2 := by
      cases constantCosts with
      | true => rfl
      | false =>
        funext j
        simp only [Bool.false_eq_true, if_false, updateCosts, monopolist_share]
        simp [costSideOf, monopolist]
    have hd : updateDelta (characteristicOf (monopolist x) ()) (fun _ => x) = fun _ => 0 := by
      funext k
      rw [updateDelta_characteristicOf (monopolist_valid x)]
      simp [Spec.meanUtility, monopolist]
    have hg : ∀ c : ℝ, ∀ j, firmProfitGradient ((monopolist x).market ()) (characteristicOf (monopolist x) ()) ((monopolist x).ownership ())
        (fun _ => c) (fun _ => x) j = 1 / 2 + (x - c) * (-(1 / 4)) := fun c j => by
      unfold firmProfitGradient profitJacobian sharesJacobian
      rw [Fintype.sum_subsingleton _ j]
      simp only [if_true, monopolist_share, monopolist_lamda, monopolist_gamma]
      simp [monopolist]
      norm_num
    have key : computeEndogenous (monopolist x) () constantCosts (fun _ _ _ => x) (fun _ => 1 / 4) (fun _ => 1 / 4) =
        ⟨fun _ => x, fun _ => 1 / 2, fun _ => 0, fun _ => if constantCosts = true then 1 / 4 else 1 / 2,
          fun _ => 1 / 2 + (x - if constantCosts = true then 1 / 4 else 1 / 2) * (-(1 / 4))⟩ := by
      unfold computeEndogenous
      simp only
      congr 1
      · funext j
        exact monopolist_share x j
      · exact (congrArg (fun c => firmProfitGradient ((monopolist x).market ()) (characteristicOf (monopolist x) ())
          ((monopolist x).ownership ()) c fun _ => x) hcost).trans (funext (hg _))
    erw [key]
    rfl

lemma monopolist_wellFormed (x : ℝ) : WellFormed ((monopolist x).market ()) where
  regular := ⟨fun _ h => (nomatch h), one_pos⟩
  scale := fun h => absurd rfl h
  avail := fun _ h => nomatch h

lemma monopolist_smooth (x : ℝ) : (characteristicOf (monopolist x) ()).Smooth where
  x1 := fun _ _ _ t => hasDerivAt_id t
  d1 := fun _ _ _ t => hasDerivAt_const t 1
  x2 := fun k => k.elim0
  d2 := fun k => k.elim0

lemma monopolist_det (x cost : ℝ) :
    IsUnit (capitalDelta ((monopolist x).market ()) (problemCharacteristic (monopolist x) (monopolistResults x cost) ())
      ((monopolist x).ownership ())).det := by
  have hmove : problemCharacteristic (monopolist x) (monopolistResults x cost) () = (characteristicOf (monopolist x) ()).moveTo fun _ => x := by
    unfold problemCharacteristic Characteristic.moveTo
    have hd : updateDelta (characteristicOf (monopolist x) ()) (fun _ => x) = fun _ => 0 := by
      funext k
      rw [updateDelta_characteristicOf (monopolist_valid x)]
      simp [Spec.meanUtility, monopolist]
    rw [hd]
    rfl
  rw [hmove, Matrix.det_eq_elem_of_subsingleton _ (⟨0, rfl⟩ : MarketRows (monopolist x).ids ())]
  have hx0 : ((characteristicOf (monopolist x) ()).moveTo fun _ => x).x0 = fun _ => x := rfl
  have hP : probabilitiesAt ((monopolist x).market ()) ((characteristicOf (monopolist x) ()).moveTo fun _ => x) (fun _ => x) =
      probabilitiesAt ((monopolist x).market ()) (characteristicOf (monopolist x) ()) fun _ => x := by
    simp only [probabilitiesAt, updateDelta_moveTo, updateMu_moveTo (characteristicOf (monopolist x) ()) fun k => k.elim0]
  have hC : conditionalsAt ((monopolist x).market ()) ((characteristicOf (monopolist x) ()).moveTo fun _ => x) (fun _ => x) =
      conditionalsAt ((monopolist x).market ()) (characteristicOf (monopolist x) ()) fun _ => x := by
    simp only [conditionalsAt, updateDelta_moveTo, updateMu_moveTo (characteristicOf (monopolist x) ()) fun k => k.elim0]
  have hU : utilityDerivatives ((monopolist x).market ()) ((characteristicOf (monopolist x) ()).moveTo fun _ => x) (fun _ => x) =
      utilityDerivatives ((monopolist x).market ()) (characteristicOf (monopolist x) ()) fun _ => x := rfl
  unfold capitalDelta
  rw [Matrix.of_apply, hx0, hP, hC, hU]
  simp only [if_true, monopolist_lamda, monopolist_gamma]
  simp [monopolist]
  norm_num

/-- Non-vacuity of C90: with costs that change with shares, prices of 5/2 are an equilibrium, from which the problem recovers that
`omega` is zero. -/
example : (monopolistResults (5 / 2) (1 / 2) 0).gradient = 0 ∧
    computeCosts ((monopolist (5 / 2)).market ()) (problemCharacteristic (monopolist (5 / 2)) (monopolistResults (5 / 2) (1 / 2)) ())
      ((monopolist (5 / 2)).ownership ()) (fun _ => 1 / 2) ⟨0, rfl⟩ - 1 / 2 = 0 := by
  have hr : ReplaceEndogenous none (monopolist (5 / 2)) false (fun _ _ _ _ => 5 / 2) none none (monopolistResults (5 / 2) (1 / 2)) := by
    have := monopolist_results (5 / 2) false
    simpa using this
  have hcosts : initialCosts (monopolist (5 / 2)) none = .ok fun _ => 1 / 4 := by simp [initialCosts, monopolist]
  have hl : ∀ j, capitalLamda ((monopolist (5 / 2)).market ()) (probabilitiesAt ((monopolist (5 / 2)).market ())
      (characteristicOf (monopolist (5 / 2)) ()) fun j => (monopolistResults (5 / 2) (1 / 2) j).price)
      (utilityDerivatives ((monopolist (5 / 2)).market ()) (characteristicOf (monopolist (5 / 2)) ())
        fun j => (monopolistResults (5 / 2) (1 / 2) j).price) j ≠ 0 := fun j => by
    have := monopolist_lamda (5 / 2) j
    simp only [monopolistResults]
    rw [this]
    norm_num
  have hfixed : equilibriumContraction (monopolist (5 / 2)) () false (fun _ => 1 / 4)
      (fun j => (monopolistResults (5 / 2) (1 / 2) j).price) =
      fun j : MarketRows (monopolist (5 / 2)).ids () => (monopolistResults (5 / 2) (1 / 2) j).price := by
    unfold equilibriumContraction
    refine monopolist_fixed (5 / 2) _ fun j => ?_
    simp [monopolist, updateCosts, costSideOf]
    norm_num
  have h1 := C90_costs_recovered_partial (monopolist_valid (5 / 2)) hr () (monopolist_wellFormed _) (monopolist_smooth _) (fun _ => rfl)
    (fun _ _ => rfl) hl (monopolist_det _ _) _ hcosts hfixed ⟨0, rfl⟩
  have h2 := C90_omega_recovered_partial (monopolist_valid (5 / 2)) hr (.inl rfl) () (monopolist_wellFormed _) (monopolist_smooth _)
    (fun _ => rfl) (fun _ _ => rfl) hl (monopolist_det _ _) _ hcosts hfixed ⟨0, rfl⟩
  refine ⟨h1.2, ?_⟩
  have h3 : ∑ k, (monopolist (5 / 2)).gamma k * (monopolist (5 / 2)).x3 k 0 (1 / 2) = 1 / 2 := by simp [monopolist]
  exact (congrArg (_ - ·) h3.symm).trans h2

/-- Non-vacuity of `C90_xi_recovered`. -/
example : ∀ delta : MarketRows (monopolist (5 / 2)).ids () → ℝ,
    (∀ j, computeShares ((monopolist (5 / 2)).market ()) {} delta
      (Spec.deviation (monopolist (5 / 2)) () fun i => (monopolistResults (5 / 2) (1 / 2) i).price) j = 1 / 2) ↔ ∀ j, delta j = 0 := by
  intro delta
  have hr : ReplaceEndogenous none (monopolist (5 / 2)) false (fun _ _ _ _ => 5 / 2) none none (monopolistResults (5 / 2) (1 / 2)) := by
    have := monopolist_results (5 / 2) false
    simpa using this
  have h := C90_xi_recovered (monopolist_valid (5 / 2)) hr () (monopolist_wellFormed _).regular (fun _ _ h => nomatch h)
    (fun _ => zero_le_one) (fun j => ⟨soleAgent _, zero_lt_one, ⟨by simp, rfl, fun _ h => nomatch h⟩⟩) delta
  refine h.trans (forall_congr' fun j => ?_)
  simp only [monopolist, monopolistResults, Finset.univ_unique, Finset.sum_const, Finset.card_singleton, one_smul]
  constructor <;> intro h <;> linarith

/-- **C90** needs costs that change with shares if shares are in the formulation for costs: by default (`constant_costs=True`), costs of the
results are not those of the model at the new shares. The prices are an equilibrium at these costs, but what a problem
recovers for `omega` is not what was simulated. -/
theorem C90_constant_refuted : ∃ (e : SimulatedEconomy Unit 1 Unit Unit (Fin 0) 1)
    (solve : (t : Unit) → ((MarketRows e.ids t → ℝ) → MarketRows e.ids t → ℝ) → (MarketRows e.ids t → ℝ) → MarketRows e.ids t → ℝ)
    (costs : Fin 1 → ℝ) (results : Fin 1 → EndogenousRow) (_ : Nonempty (MarketRows e.ids ())),
    Spec.FormulasValid e ∧ ReplaceEndogenous none e true solve none none results ∧ initialCosts e none = .ok costs ∧
      equilibriumContraction e () true (fun j => costs j) (fun j => (results j).price) =
        (fun j : MarketRows e.ids () => (results j).price) ∧
      (results 0).gradient = 0 ∧
      ∀ j : MarketRows e.ids (),
        computeCosts (e.market ()) (problemCharacteristic e results ()) (e.ownership ()) (fun k => (results k).share) j -
          ∑ k, e.gamma k * e.x3 k j (results j).share ≠ e.omega j := by
  have hr : ReplaceEndogenous none (monopolist (9 / 4)) true (fun _ _ _ _ => 9 / 4) none none (monopolistResults (9 / 4) (1 / 4)) := by
    have := monopolist_results (9 / 4) true
    simpa using this
  have hcosts : initialCosts (monopolist (9 / 4)) none = .ok fun _ => 1 / 4 := by simp [initialCosts, monopolist]
  have hl : ∀ j, capitalLamda ((monopolist (9 / 4)).market ()) (probabilitiesAt ((monopolist (9 / 4)).market ())
      (characteristicOf (monopolist (9 / 4)) ()) fun j => (monopolistResults (9 / 4) (1 / 4) j).price)
      (utilityDerivatives ((monopolist (9 / 4)).market ()) (characteristicOf (monopolist (9 / 4)) ())
        fun j => (monopolistResults (9 / 4) (1 / 4) j).price) j ≠ 0 := fun j => by
    have := monopolist_lamda (9 / 4) j
    simp only [monopolistResults]
    rw [this]
    norm_num
  have hfixed : equilibriumContraction (monopolist (9 / 4)) () true (fun _ => 1 / 4)
      (fun j => (monopolistResults (9 / 4) (1 / 4) j).price) =
      fun j : MarketRows (monopolist (9 / 4)).ids () => (monopolistResults (9 / 4) (1 / 4) j).price := by
    unfold equilibriumContraction
    refine monopolist_fixed (9 / 4) _ fun j => ?_
    simp
    norm_num
  have h1 := fun j => C90_costs_recovered_partial (monopolist_valid (9 / 4)) hr () (monopolist_wellFormed _) (monopolist_smooth _) (fun _ => rfl)
    (fun _ _ => rfl) hl (monopolist_det _ _) _ hcosts hfixed j
  refine ⟨monopolist (9 / 4), fun _ _ _ _ => 9 / 4, fun _ => 1 / 4, monopolistResults (9 / 4) (1 / 4), inferInstance, monopolist_valid _, hr,
    hcosts, hfixed, (h1 ⟨0, rfl⟩).2, fun j => ?_⟩
  intro hne
  have h2 := (congrArg (· - ∑ k, (monopolist (9 / 4)).gamma k * (monopolist (9 / 4)).x3 k j (1 / 2)) (h1 j).1).symm.trans hne
  simp [monopolist, monopolistResults] at h2
  norm_num at h2

end Pyblp
