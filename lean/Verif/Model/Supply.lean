import Verif.Model.Demand
import Mathlib.LinearAlgebra.Matrix.NonsingularInverse

/-!
# Model of markups, costs and equilibrium prices (pyblp/markets/market.py: 694-892, economy_results_market.py: 18-45,
225-237, 303-344)
-/

namespace Pyblp

variable {J A G K1 K2 : Type} [Fintype J] [DecidableEq J] [Nonempty J] [Fintype G] [DecidableEq G] [Fintype A]
  [Fintype K1] [Fintype K2]

/-- `get_ownership_matrix` built from firm IDs, pyblp/markets/market.py:171-181. -/
def ownershipFromIds {F : Type} [DecidableEq F] (firm : J → F) (j k : J) : ℝ := if firm j = firm k then 1 else 0

/-- Capital delta, pyblp/markets/market.py:713-720: `capital_gamma` with `capital_lamda` subtracted from its diagonal,
transposed, and multiplied elementwise by ownership. Evaluated at the stored prices `c.x0`. -/
noncomputable def capitalDelta (m : Market J A G) (c : Characteristic J A K1 K2) (O : J → J → ℝ) : Matrix J J ℝ :=
  Matrix.of fun j k =>
    (capitalGamma m (probabilitiesAt m c c.x0) (conditionalsAt m c c.x0) (utilityDerivatives m c c.x0) k j -
      (if k = j then capitalLamda m (probabilitiesAt m c c.x0) (utilityDerivatives m c c.x0) k else 0)) * O j k

/-- `compute_eta`, pyblp/markets/market.py:694-734, for an invertible capital delta (what happens otherwise is the subject of
`approximately_solve`): the solution of `capital_delta @ eta = self.products.shares`. -/
noncomputable def computeEta (m : Market J A G) (c : Characteristic J A K1 K2) (O : J → J → ℝ) (s : J → ℝ) : J → ℝ :=
  (capitalDelta m c O)⁻¹.mulVec s

/-- `safely_compute_costs`, pyblp/markets/economy_results_market.py:225-237: observed prices minus eta. -/
noncomputable def computeCosts (m : Market J A G) (c : Characteristic J A K1 K2) (O : J → J → ℝ) (s : J → ℝ) (j : J) : ℝ :=
  c.x0 j - computeEta m c O s j

/-- `safely_compute_approximate_equilibrium_prices`, pyblp/markets/economy_results_market.py:302-321. -/
noncomputable def approximatePrices (m : Market J A G) (c : Characteristic J A K1 K2) (O : J → J → ℝ) (s costs : J → ℝ)
    (j : J) : ℝ :=
  costs j + computeEta m c O s j

/-- `capital_lamda_inv_diagonal`, pyblp/markets/market.py:833-834: `1 / 0` is not finite and is replaced. -/
noncomputable def capitalLamdaInverse (m : Market J A G) (c : Characteristic J A K1 K2) (x : J → ℝ) (j : J) : ℝ :=
  let l := capitalLamda m (probabilitiesAt m c x) (utilityDerivatives m c x) j
  if l = 0 then 10 ^ 300 else 1 / l

/-- pyblp/markets/market.py:836-839: zeta. `costs` are the (possibly updated) marginal costs at `x`. -/
noncomputable def zeta (m : Market J A G) (c : Characteristic J A K1 K2) (O : J → J → ℝ) (costs x : J → ℝ) (j : J) : ℝ :=
  let tilde := fun a b =>
    O a b * capitalGamma m (probabilitiesAt m c x) (conditionalsAt m c x) (utilityDerivatives m c x) a b
  capitalLamdaInverse m c x j * (∑ k, tilde k j * (x k - costs k)) - capitalLamdaInverse m c x j * sharesAt m c x j

/-- The price contraction, pyblp/markets/market.py:813-848: the next prices. `costOf j s` is the marginal cost of `j` when
its share is `s`: a constant function if `constant_costs` (or if no formulation contains shares), otherwise
`update_costs_with_variable(costs, 'shares', shares)` (lines 822-825), which works row by row. The shortcut that
evaluates price derivatives only once when they do not depend on prices (lines 755-764) is left out: it does not change
values. -/
noncomputable def priceContraction (m : Market J A G) (c : Characteristic J A K1 K2) (O : J → J → ℝ) (costOf : J → ℝ → ℝ)
    (x : J → ℝ) (j : J) : ℝ :=
  let costs := fun k => costOf k (sharesAt m c x k)
  costs j + zeta m c O costs x j

/-- The weights of the contraction, pyblp/markets/market.py:843. -/
noncomputable def priceWeights (m : Market J A G) (c : Characteristic J A K1 K2) (x : J → ℝ) (j : J) : ℝ :=
  |capitalLamda m (probabilitiesAt m c x) (utilityDerivatives m c x) j|

/-- The Jacobian of the price contraction, pyblp/markets/market.py:850-881: derivative of updated price `j` with respect to price `l`.
`dcostOf j s` is `compute_costs_derivatives(updated_costs, 'shares', shares)`. With constant costs `costs_jacobian` is
zero, which is the case `dcostOf = 0`. -/
noncomputable def priceContractionJacobian (m : Market J A G) (c : Characteristic J A K1 K2) (O : J → J → ℝ)
    (costOf dcostOf : J → ℝ → ℝ) (x : J → ℝ) (j l : J) : ℝ :=
  let P := probabilitiesAt m c x
  let C := conditionalsAt m c x
  let U := utilityDerivatives m c x
  let U2 := utilitySecondDerivatives m c x
  let shares := sharesAt m c x
  let margin := fun k => x k - costOf k (shares k)
  let sharesJac := sharesJacobian m P C U
  let costsJac := fun k q => dcostOf k (shares k) * sharesJac k q
  let marginJac := fun k q => (if k = q then 1 else 0) - costsJac k q
  let inv := capitalLamdaInverse m c x
  let tilde := fun a b => O a b * capitalGamma m P C U a b
  let tildeMargin := fun q => ∑ k, tilde k q * margin k
  let invTensor := -(inv j) * capitalLamdaTensor m P C U U2 j l * inv j
  let tildeMarginTensor := (∑ k, O k j * capitalGammaTensor m P C U U2 k j l * margin k) + ∑ k, tilde k j * marginJac k l
  (invTensor * tildeMargin j - invTensor * shares j + inv j * tildeMarginTensor - inv j * sharesJac j l) + costsJac j l

/-- `SolverStats`, pyblp/utilities/basics.py:468-479. It defines neither `__bool__` nor `__len__`. -/
structure SolverStats where
  converged : Bool
  iterations : ℕ
  evaluations : ℕ

/-- Python's truth value of an object whose class defines neither `__bool__` nor `__len__`.
Used for pyblp/markets/economy_results_market.py:323-344. -/
def SolverStats.truth (_ : SolverStats) : Bool := true

/-- Errors collected by the functions below. Used for pyblp/markets/economy_results_market.py:323-344 and 30-45. -/
inductive MarketError where
  | equilibriumPricesConvergence | costs
  deriving DecidableEq

/-- `safely_compute_prices`, pyblp/markets/economy_results_market.py:323-344, when the iteration returned `stats`. The name
`converged` on line 341 is bound to the second return value of `compute_equilibrium_prices`, a `SolverStats`. -/
def safelyComputePrices {P : Type} (costsErrors : List MarketError) (result : P × SolverStats) : P × List MarketError :=
  let converged := result.2
  (result.1, costsErrors ++ if !converged.truth then [.equilibriumPricesConvergence] else [])

/-- `safely_solve_equilibrium_realization`, pyblp/markets/economy_results_market.py:30-45, with an iteration configuration. -/
def safelySolveRealization {P : Type} (result : P × SolverStats) : P × List MarketError :=
  (result.1, if !result.2.converged then [.equilibriumPricesConvergence] else [])

/-- The cost side: how shares enter `X3`. `x3 k j t` is column `k` of `X3` for product `j` with share `t` and other data
unchanged, `has3 k` is `'shares' in formulation.names`, `d3` is `formulation.evaluate_derivative('shares', ...)`, `s0` are
the stored shares. Used for pyblp/markets/market.py:276-298 and 319-328 and 349-358. -/
structure CostSide (J K3 : Type) where
  log : Bool
  gamma : K3 → ℝ
  has3 : K3 → Bool
  x3 : K3 → J → ℝ → ℝ
  d3 : K3 → J → ℝ → ℝ
  s0 : J → ℝ

variable {K3 : Type} [Fintype K3]

/-- `update_costs_with_variable(costs, 'shares', shares)`, pyblp/markets/market.py:276-298. The loop over formulations adds
to (multiplies) a copy of the costs; the early return is the case of an empty sum (product). -/
noncomputable def updateCosts (q : CostSide J K3) (costs shares : J → ℝ) (j : J) : ℝ :=
  if q.log then costs j * ∏ k with q.has3 k = true, Real.exp (q.gamma k * (q.x3 k j (shares j) - q.x3 k j (q.s0 j)))
  else costs j + ∑ k with q.has3 k = true, q.gamma k * (q.x3 k j (shares j) - q.x3 k j (q.s0 j))

/-- `compute_costs_derivatives(costs, 'shares', shares)`, pyblp/markets/market.py:319-328 and 349-358. -/
noncomputable def costsDerivatives (q : CostSide J K3) (costs shares : J → ℝ) (j : J) : ℝ :=
  let d := ∑ k, (if q.has3 k then q.d3 k j (shares j) else 0) * q.gamma k
  if q.log then d * costs j else d

/-- Profit gradients of a simulation, pyblp/markets/simulation_market.py:49-58: the entry for product `k` (reported under
the firm that owns `k`). -/
noncomputable def firmProfitGradient (m : Market J A G) (c : Characteristic J A K1 K2) (O : J → J → ℝ) (costs p : J → ℝ)
    (k : J) : ℝ :=
  ∑ j, O j k * profitJacobian m c costs p j k

/-- Profit Hessians of a simulation, pyblp/markets/simulation_market.py:60-69: the entry for products `k` and `l` (reported
when both belong to the firm). -/
noncomputable def firmProfitHessian (m : Market J A G) (c : Characteristic J A K1 K2) (O : J → J → ℝ) (costs p : J → ℝ)
    (k l : J) : ℝ :=
  ∑ j, O j k * profitHessian m c costs p j k l

end Pyblp
