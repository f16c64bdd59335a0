import Verif.Model.Tangents
import Verif.Model.Supply

/-!
# Monte Carlo integration

How nodes and weights are built with pseudo-random draws (pyblp/configurations/integration.py:162-203) and how markets use them
(pyblp/primitives.py:370-376 and pyblp/markets/market.py:66-240). The random number generator is the stream of numbers that calls of
`state.normal` return one after the other.
-/

namespace Pyblp

variable {J G K2 ι : Type}

/-- Nodes and weights of a market. Used for pyblp/configurations/integration.py:199-203. -/
structure NodesWeights (dimensions size : ℕ) where
  nodes : Fin size → Fin dimensions → ℝ
  weights : Fin size → ℝ

/-- `monte_carlo`, pyblp/configurations/integration.py:199-203. `state.normal(size=(size, dimensions))` fills rows one after the other. -/
noncomputable def monteCarlo (dimensions size : ℕ) (stream : ℕ → ℝ) : NodesWeights dimensions size where
  nodes i d := stream (i * dimensions + d)
  weights _ := 1 / size

/-- `_build_many` with `monte_carlo`, pyblp/configurations/integration.py:162-186: one call for each ID, all with the same `state`, which
has returned `size * dimensions` more numbers after each. -/
noncomputable def monteCarloMany (dimensions size : ℕ) (stream : ℕ → ℝ) : List ι → List (ι × NodesWeights dimensions size)
  | [] => []
  | t :: rest => (t, monteCarlo dimensions size stream) :: monteCarloMany dimensions size (fun n => stream (size * dimensions + n)) rest

/-- The part of a market that probabilities depend on, with built weights and without availability, pyblp/markets/market.py:66-163. -/
def integratedMarket {dimensions size : ℕ} (nesting : Option (Nesting J G)) (epsilonScale : ℝ) (b : NodesWeights dimensions size) :
    Market J (Fin size) G where
  nesting := nesting
  epsilonScale := epsilonScale
  weights := b.weights
  availability := none

/-- Data that random coefficients depend on, with built nodes and without demographics, pyblp/markets/market.py:183-240. -/
def integratedTastes {dimensions size : ℕ} (X2 : J → K2 → ℝ) (rcType : K2 → RcType) (b : NodesWeights dimensions size) :
    Tastes J (Fin size) K2 (Fin dimensions) Empty where
  X2 := X2
  nodes := b.nodes
  demographics := fun _ d => d.elim
  rcType := rcType

variable [Fintype J] [DecidableEq J] [Nonempty J] [Fintype G] [DecidableEq G] [Fintype K2]

/-- Shares of a market whose nodes and weights were built: `compute_mu`, `compute_probabilities` and `@ self.agents.weights`,
pyblp/markets/market.py:229-240, 360-456 and 580. -/
noncomputable def integratedShares {dimensions size : ℕ} (nesting : Option (Nesting J G)) (epsilonScale : ℝ) (X2 : J → K2 → ℝ)
    (rcType : K2 → RcType) (sigma : K2 → Fin dimensions → ℝ) (b : NodesWeights dimensions size) (delta : J → ℝ) : J → ℝ :=
  computeShares (integratedMarket nesting epsilonScale b) {} delta (computeMu (integratedTastes X2 rcType b) sigma fun _ d => d.elim)

/-- Formulas for `X1` and `X2` that depend on prices, as in `Characteristic`, prices in the data and parameters. Used for
pyblp/markets/market.py:242-347. -/
structure PriceFormulas (J K1 K2 : Type) where
  prices : J → ℝ
  beta : K1 → ℝ
  has1 : K1 → Bool
  x1 : K1 → J → ℝ → ℝ
  d1 : K1 → J → ℝ → ℝ
  dd1 : K1 → J → ℝ → ℝ
  has2 : K2 → Bool
  x2 : K2 → J → ℝ → ℝ
  d2 : K2 → J → ℝ → ℝ
  dd2 : K2 → J → ℝ → ℝ

variable {K1 : Type} [Fintype K1]

/-- Prices as a variable of a market whose nodes were built, pyblp/markets/market.py:183-210 and 242-347. -/
noncomputable def PriceFormulas.characteristic {dimensions size : ℕ} (f : PriceFormulas J K1 K2) (rcType : K2 → RcType) (sigma : K2 → Fin dimensions → ℝ)
    (b : NodesWeights dimensions size) (delta : J → ℝ) : Characteristic J (Fin size) K1 K2 where
  delta := delta
  x0 := f.prices
  beta := f.beta
  has1 := f.has1
  x1 := f.x1
  d1 := f.d1
  dd1 := f.dd1
  coef := fun k i j => randomCoefficient (integratedTastes (fun j k => f.x2 k j (f.prices j)) rcType b) sigma (fun _ d => d.elim) k i j
  has2 := f.has2
  x2 := f.x2
  d2 := f.d2
  dd2 := f.dd2

/-- `safely_compute_demand_jacobian` for prices in a market whose nodes were built, pyblp/markets/economy_results_market.py:153-160. -/
noncomputable def integratedJacobian {dimensions size : ℕ} (nesting : Option (Nesting J G)) (epsilonScale : ℝ) (f : PriceFormulas J K1 K2)
    (rcType : K2 → RcType) (sigma : K2 → Fin dimensions → ℝ) (b : NodesWeights dimensions size) (delta : J → ℝ) : J → J → ℝ :=
  let m := integratedMarket nesting epsilonScale b
  let c := f.characteristic rcType sigma b delta
  sharesJacobian m (probabilitiesAt m c f.prices) (conditionalsAt m c f.prices) (utilityDerivatives m c f.prices)

/-- `safely_compute_costs` in a market whose nodes were built, pyblp/markets/economy_results_market.py:225-237. -/
noncomputable def integratedCosts {dimensions size : ℕ} (nesting : Option (Nesting J G)) (epsilonScale : ℝ) (f : PriceFormulas J K1 K2)
    (rcType : K2 → RcType) (sigma : K2 → Fin dimensions → ℝ) (b : NodesWeights dimensions size) (O : J → J → ℝ) (s delta : J → ℝ) : J → ℝ :=
  computeCosts (integratedMarket nesting epsilonScale b) (f.characteristic rcType sigma b delta) O s

end Pyblp
