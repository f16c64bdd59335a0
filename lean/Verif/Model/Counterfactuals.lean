import Verif.Model.PostEstimation
import Verif.Model.PyErr

/-!
# Model of counterfactuals: methods of results with optional arguments (pyblp/markets/economy_results_market.py:194-460)

Each is a method of one market. Errors that are collected because of numerical problems are not modelled here.
-/

namespace Pyblp

variable {J A G K1 K2 K3 F : Type} [Fintype J] [DecidableEq J] [Nonempty J] [Fintype G] [DecidableEq G] [Fintype A] [Fintype K1] [Fintype K2] [Fintype K3]
  [DecidableEq F]

/-- A market of results, with what it was initialized with: pyblp/markets/market.py:50-163. `characteristic.x0` are prices, `characteristic.delta` mean
utilities; `ownership` is the ownership matrix in product data, and `firms` are firm IDs, if there are any. -/
structure ResultsMarket (J A G K1 K2 K3 F : Type) where
  market : Market J A G
  characteristic : Characteristic J A K1 K2
  costSide : CostSide J K3
  shares : J → ℝ
  ownership : Option (J → J → ℝ)
  firms : Option (J → F)

/-- `get_ownership_matrix`, pyblp/markets/market.py:171-181. An ownership matrix has already lost columns beyond those of the market. -/
def ownershipMatrix (r : ResultsMarket J A G K1 K2 K3 F) (firmIds : Option (J → F)) (ownership : Option (J → J → ℝ)) : Except PyErr (J → J → ℝ) :=
  match ownership, firmIds with
  | some o, _ => .ok o
  | none, some f => .ok (ownershipFromIds f)
  | none, none =>
    match r.ownership, r.firms with
    | some o, _ => .ok o
    | none, some f => .ok (ownershipFromIds f)
    | none, none => .error .valueError

/-- `safely_compute_probabilities`, pyblp/markets/economy_results_market.py:194-209. By default, mean utilities and `mu` are those of the market. -/
noncomputable def methodProbabilities (r : ResultsMarket J A G K1 K2 K3 F) (prices delta : Option (J → ℝ)) : J → A → ℝ :=
  match prices with
  | none => computeProbabilities r.market {} (delta.getD r.characteristic.delta) (updateMu r.characteristic r.characteristic.x0)
  | some p =>
    let mu := updateMu r.characteristic p
    let delta := match delta with
      | none => updateDelta r.characteristic p
      | some d => d
    computeProbabilities r.market {} delta mu

/-- `safely_compute_shares`, pyblp/markets/economy_results_market.py:346-353. -/
noncomputable def methodShares (r : ResultsMarket J A G K1 K2 K3 F) (prices delta : Option (J → ℝ)) (j : J) : ℝ :=
  ∑ i, methodProbabilities r prices delta j i * r.market.weights i

/-- `safely_compute_costs`, pyblp/markets/economy_results_market.py:225-237. -/
noncomputable def methodCosts (r : ResultsMarket J A G K1 K2 K3 F) (firmIds : Option (J → F)) (ownership : Option (J → J → ℝ)) : Except PyErr (J → ℝ) :=
  (ownershipMatrix r firmIds ownership).map fun o => computeCosts r.market r.characteristic o r.shares

/-- Marginal costs that are given, or computed with unchanged firm IDs. Used for pyblp/markets/economy_results_market.py:248-251, 314-317, 337-340, 374-376
and 392-394. -/
noncomputable def givenCosts (r : ResultsMarket J A G K1 K2 K3 F) : Option (J → ℝ) → Except PyErr (J → ℝ)
  | some costs => .ok costs
  | none => methodCosts r none none

/-- `safely_compute_approximate_equilibrium_prices`, pyblp/markets/economy_results_market.py:302-321. -/
noncomputable def methodApproximatePrices (r : ResultsMarket J A G K1 K2 K3 F) (firmIds : Option (J → F)) (ownership : Option (J → J → ℝ))
    (costs : Option (J → ℝ)) : Except PyErr (J → ℝ) := do
  let o ← ownershipMatrix r firmIds ownership
  let costs ← givenCosts r costs
  return approximatePrices r.market r.characteristic o r.shares costs

/-- The contraction of `compute_equilibrium_prices`, pyblp/markets/market.py:752-753 and 813-848. -/
noncomputable def methodContraction (r : ResultsMarket J A G K1 K2 K3 F) (constantCosts : Bool) (o : J → J → ℝ) (costs : J → ℝ) : (J → ℝ) → J → ℝ :=
  let constant := constantCosts || !decide (∃ k, r.costSide.has3 k = true)
  priceContraction r.market r.characteristic o
    (if constant then fun j _ => costs j else fun j s => updateCosts r.costSide costs (fun _ => s) j)

/-- `safely_compute_prices`, pyblp/markets/economy_results_market.py:323-344, and `compute_equilibrium_prices`, pyblp/markets/market.py:747-750. `solve` is
the iteration: it is given a contraction and starting values and returns prices. -/
noncomputable def methodPrices (r : ResultsMarket J A G K1 K2 K3 F) (solve : ((J → ℝ) → J → ℝ) → (J → ℝ) → J → ℝ) (constantCosts : Bool)
    (firmIds : Option (J → F)) (ownership : Option (J → J → ℝ)) (costs prices : Option (J → ℝ)) : Except PyErr (J → ℝ) := do
  let o ← ownershipMatrix r firmIds ownership
  let costs ← givenCosts r costs
  return solve (methodContraction r constantCosts o costs) (prices.getD r.characteristic.x0)

/-- `safely_compute_markups`, pyblp/markets/economy_results_market.py:366-378. -/
noncomputable def methodMarkups (r : ResultsMarket J A G K1 K2 K3 F) (prices costs : Option (J → ℝ)) : Except PyErr (J → ℝ) := do
  let costs ← givenCosts r costs
  let prices := prices.getD r.characteristic.x0
  return fun j => (prices j - costs j) / prices j

/-- `safely_compute_profits`, pyblp/markets/economy_results_market.py:380-396. -/
noncomputable def methodProfits (r : ResultsMarket J A G K1 K2 K3 F) (prices shares costs : Option (J → ℝ)) : Except PyErr (J → ℝ) := do
  let costs ← givenCosts r costs
  let prices := prices.getD r.characteristic.x0
  let shares := shares.getD r.shares
  return fun j => (prices j - costs j) * shares j

/-- `safely_compute_consumer_surplus`, pyblp/markets/economy_results_market.py:398-461, with the default for prices on lines 410-415. -/
noncomputable def methodSurplus (r : ResultsMarket J A G K1 K2 K3 F) (first : J) (out : J → Bool) (prices : Option (J → ℝ)) : ℝ :=
  match prices with
  | none =>
    ∑ i, surplusNumerator r.market.nesting (fun j => r.characteristic.delta j + updateMu r.characteristic r.characteristic.x0 j i)
      (r.market.availability.map fun a => a i) out / (-(utilityDerivatives r.market r.characteristic r.characteristic.x0 first i)) * r.market.weights i
  | some p => consumerSurplus r.market r.characteristic first p out

end Pyblp
