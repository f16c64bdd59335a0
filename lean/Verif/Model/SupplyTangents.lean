import Verif.Model.Supply
import Verif.Model.Tangents
import Mathlib.Data.EReal.Basic
import Mathlib.Analysis.SpecialFunctions.Log.Basic

/-!
# Derivatives of marginal costs with respect to parameters

`Market.compute_omega_by_theta_jacobian` and what it uses (pyblp/markets/market.py:904-931, 1364-1463 and 1482-1516), and the part of
`ProblemMarket.solve` that computes marginal costs and these derivatives (pyblp/markets/problem_market.py:142-183 and 275-309).
-/

namespace Pyblp

variable {J A G K1 K2 K3 N D : Type} [Fintype J] [DecidableEq J] [Nonempty J] [Fintype G] [DecidableEq G] [Fintype A]
  [Fintype K1] [Fintype K2] [Fintype K3] [Fintype N] [Fintype D]

/-- An unfixed parameter by its location, pyblp/parameters.py:22-139. -/
inductive ThetaParam (G K1 K2 K3 N D : Type) where
  | beta (k : K1)
  | sigma (k : K2) (c : N)
  | pi (k : K2) (d : D)
  | rhoAll
  | rhoOne (g : Option G)
  | gamma (k : K3)
  | phi

/-- The parameter with its product characteristic (`get_product_characteristic`, pyblp/parameters.py:45-52, 118-128), a column of `X1` or
`X3`. -/
def ThetaParam.tangent (X1 : J → K1 → ℝ) (X3 : J → K3 → ℝ) : ThetaParam G K1 K2 K3 N D → TangentParam J G K2 N D
  | .beta k => .beta fun j => X1 j k
  | .sigma k c => .sigma k c
  | .pi k d => .pi k d
  | .rhoAll => .rhoAll
  | .rhoOne g => .rhoOne g
  | .gamma k => .gamma fun j => X3 j k
  | .phi => .phi

/-- Prices as a variable that utility depends on, for some parameters: `c` has how prices enter `X1` and `X2`, the prices in the data and
their derivatives. Used for pyblp/markets/problem_market.py:86-127. -/
noncomputable def priceVariable (c : Characteristic J A K1 K2) (T : Tastes J A K2 N D) (sigma : K2 → N → ℝ) (pi : K2 → D → ℝ) (beta : K1 → ℝ)
    (delta : J → ℝ) : Characteristic J A K1 K2 :=
  { c with delta := delta, beta := beta, coef := fun k i j => randomCoefficient T sigma pi k i j }

/-- `v` after it is transformed, pyblp/markets/market.py:915-923. -/
noncomputable def transformedTangent (T : Tastes J A K2 N D) (sigma : K2 → N → ℝ) (pi : K2 → D → ℝ) (k : K2) (v : A → J → ℝ) (j : J) (i : A) :
    ℝ :=
  let rc := randomCoefficient T sigma pi k i j
  match T.rcType k with
  | .linear => v i j
  | .log => v i j * rc
  | .logit => v i j * rc * (1 - rc)

/-- `compute_utility_derivatives_by_parameter_tangent` for prices, pyblp/markets/market.py:904-931. -/
noncomputable def utilityDerivativesTangent (m : Market J A G) (c : Characteristic J A K1 K2) (T : Tastes J A K2 N D) (sigma : K2 → N → ℝ)
    (pi : K2 → D → ℝ) (p : ThetaParam G K1 K2 K3 N D) (j : J) (i : A) : ℝ :=
  let X1Derivatives := fun k => if c.has1 k then c.d1 k j (c.x0 j) else 0
  let X2Derivatives := fun k => if c.has2 k then c.d2 k j (c.x0 j) else 0
  let tangent := match p with
    | .beta k => X1Derivatives k
    | .sigma k v => X2Derivatives k * transformedTangent T sigma pi k (fun i _ => T.nodes i v) j i
    | .pi k d => X2Derivatives k * transformedTangent T sigma pi k (fun i j => T.demographics i d j) j i
    | _ => 0
  if m.epsilonScale ≠ 1 then tangent / m.epsilonScale else tangent

/-- Associations of groups with a parameter if it is a nesting parameter, pyblp/parameters.py:91-106. -/
def ThetaParam.associations : ThetaParam G K1 K2 K3 N D → G → ℝ
  | .rhoAll, _ => 1
  | .rhoOne (some g), h => if h = g then 1 else 0
  | _, _ => 0

/-- `isinstance(parameter, RhoParameter)`. Used for pyblp/markets/market.py:1378-1386 and 1389-1408. -/
def ThetaParam.isRho : ThetaParam G K1 K2 K3 N D → Bool
  | .rhoAll => true
  | .rhoOne _ => true
  | _ => false

/-- `capital_lamda_diagonal_tangent`, pyblp/markets/market.py:1378-1386. `PU` are probabilities times utility derivatives and `dPU` their
tangents. -/
noncomputable def capitalLamdaTangent (m : Market J A G) (p : ThetaParam G K1 K2 K3 N D) (PU dPU : J → A → ℝ) (j : J) : ℝ :=
  let tangent := ∑ i, dPU j i * m.weights i
  match m.nesting with
  | none => tangent
  | some n =>
    let tangent := tangent / (1 - n.productRho j)
    if p.isRho then tangent + p.associations (n.group j) / (1 - n.productRho j) ^ 2 * ∑ i, PU j i * m.weights i else tangent

/-- `capital_gamma_tangent`, pyblp/markets/market.py:1389-1408. -/
noncomputable def capitalGammaTangent (m : Market J A G) (p : ThetaParam G K1 K2 K3 N D) (PU dPU P dP C dC : J → A → ℝ) (j k : J) : ℝ :=
  let tangent := ∑ i, dP j i * (m.weights i * PU k i) + ∑ i, P j i * (m.weights i * dPU k i)
  match m.nesting with
  | none => tangent
  | some n =>
    let tangent := tangent + membership n j k * n.productRho j / (1 - n.productRho j) *
      (∑ i, dC j i * (m.weights i * PU k i) + ∑ i, C j i * (m.weights i * dPU k i))
    if p.isRho then
      tangent + p.associations (n.group j) * membership n j k / (1 - n.productRho j) ^ 2 * ∑ i, C j i * (m.weights i * PU k i)
    else tangent

/-- `capital_delta_tangent`, pyblp/markets/market.py:1437-1458. `dP` and `dC` are the tangents of probabilities in
`probabilities_tangent_mapping` and `conditionals_tangent_mapping`. -/
noncomputable def capitalDeltaTangent (m : Market J A G) (c : Characteristic J A K1 K2) (T : Tastes J A K2 N D) (sigma : K2 → N → ℝ)
    (pi : K2 → D → ℝ) (O : J → J → ℝ) (p : ThetaParam G K1 K2 K3 N D) (P dP C dC : J → A → ℝ) (j k : J) : ℝ :=
  let U := utilityDerivatives m c c.x0
  let dU := utilityDerivativesTangent m c T sigma pi p
  let PU := fun j i => P j i * U j i
  let dPU := fun j i => dP j i * U j i + P j i * dU j i
  (capitalGammaTangent m p PU dPU P dP C dC k j - (if k = j then capitalLamdaTangent m p PU dPU k else 0)) * O j k

/-- `compute_eta_by_theta_jacobian`, pyblp/markets/market.py:1412-1463: one column. -/
noncomputable def etaByTheta (inverse : J → J → ℝ) (eta : J → ℝ) (deltaTangent : J → J → ℝ) (j : J) : ℝ :=
  -∑ l, (∑ k, inverse j k * deltaTangent k l) * eta l

/-- `compute_omega_by_theta_jacobian`, pyblp/markets/market.py:1482-1516: one column. -/
noncomputable def omegaByTheta (log : Bool) (tilde : J → ℝ) (X3 : J → K3 → ℝ) (p : ThetaParam G K1 K2 K3 N D) (etaJacobian : J → ℝ) (j : J) : ℝ :=
  match p with
  | .gamma k => -X3 j k
  | _ => if log then -etaJacobian j / Real.exp (tilde j) else -etaJacobian j

/-- `clipped_costs`, pyblp/markets/problem_market.py:295. -/
noncomputable def clippedCosts (bounds : EReal × EReal) (costs : J → ℝ) (j : J) : Bool :=
  open Classical in decide ((costs j : EReal) < bounds.1 ∨ bounds.2 < (costs j : EReal))

/-- `np.clip(costs, *costs_bounds)`, pyblp/markets/problem_market.py:296-297. Bounds are numbers or infinite, and the lower one is not
larger than the upper one, so that the result is a number. -/
noncomputable def clipCosts (bounds : EReal × EReal) (costs : J → ℝ) (j : J) : ℝ :=
  (min (max (costs j : EReal) bounds.1) bounds.2).toReal

/-- `tilde_costs`, pyblp/markets/problem_market.py:299-307. The logarithm of a cost that is not positive is not a number. -/
noncomputable def tildeCosts (log : Bool) (bounds : EReal × EReal) (costs : J → ℝ) (j : J) : Option ℝ :=
  let clipped := clipCosts bounds costs j
  if log then (if clipped ≤ 0 then none else some (Real.log clipped)) else some clipped

/-- Rows of the Jacobian for clipped marginal costs are set to zero, pyblp/markets/problem_market.py:183. -/
noncomputable def clippedJacobian (bounds : EReal × EReal) (costs jacobian : J → ℝ) (j : J) : ℝ :=
  if clippedCosts bounds costs j then 0 else jacobian j

/-- How `ProblemMarket.solve` gets one column of the Jacobian of the unobserved characteristic on the supply side, pyblp/markets/problem_market.py:86-127
and 142-183. Data: prices and how they enter utility are in `c`, shares are `s`. `xiInverse` inverts the Jacobian of shares with respect to the unobserved
characteristic on the demand side, and `deltaInverse` is `capital_delta_inverse`. Without numerical errors except that transformed
marginal costs which are not finite are replaced with their last values `last`. -/
noncomputable def omegaJacobian (m : Market J A G) (c : Characteristic J A K1 K2) (T : Tastes J A K2 N D) (sigma : K2 → N → ℝ) (pi : K2 → D → ℝ)
    (beta : K1 → ℝ) (delta : J → ℝ) (X1 : J → K1 → ℝ) (X3 : J → K3 → ℝ) (O : J → J → ℝ) (s : J → ℝ) (log : Bool) (bounds : EReal × EReal)
    (xiInverse deltaInverse : J → J → ℝ) (last : J → ℝ) (p : ThetaParam G K1 K2 K3 N D) : J → ℝ :=
  let q : TangentParam J G K2 N D := p.tangent X1 X3
  let P := computeProbabilities m {} delta (computeMu T sigma pi)
  let C := computeConditionals m {} delta (computeMu T sigma pi)
  let tangents := probabilitiesTangent m T sigma pi {} delta P C q
  let xiJacobian := xiByTheta m xiInverse tangents.1
  let dP := updateTangent m P C q tangents.1 xiJacobian
  let dC := match m.nesting with
    | none => fun _ _ => 0
    | some n => updateConditionalsTangent n C q tangents.2 xiJacobian
  let prices := priceVariable c T sigma pi beta delta
  let eta := computeEta m prices O s
  let costs := fun j => c.x0 j - eta j
  let tilde := fun j => (tildeCosts log bounds costs j).getD (last j)
  let etaJacobian := etaByTheta deltaInverse eta (capitalDeltaTangent m prices T sigma pi O p P dP C dC)
  clippedJacobian bounds costs (omegaByTheta log tilde X3 p etaJacobian)

end Pyblp
