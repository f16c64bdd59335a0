import Verif.Model.Probabilities

/-!
# Model of utilities, shares and their derivatives with respect to a product characteristic
(pyblp/markets/market.py: 242-347, 669-692, 894-902, 1184-1355)
-/

namespace Pyblp

variable {J A G K1 K2 : Type}

/-- The configuration of one characteristic (the argument `name`, usually `'prices'`) in a market.
`x1 k j t` is column `k` of `X1` for product `j` when the characteristic of that product is `t` and all other data are
unchanged (`formulation.evaluate(self.products, {name: ...})`, a formula evaluated row by row); `has1 k` is
`name in formulation.names`; `d1`, `dd1` are `formulation.evaluate_derivative(name, ..., order=1, 2)`, which pyblp
obtains from SymPy. `x2`, `has2`, `d2`, `dd2` are the same for `X2`. `coef k i j` is
`compute_random_coefficients()` (pyblp/markets/market.py:183-210), with an index for the product because demographics can be
product-specific. `x0` is the stored characteristic, `delta` the stored mean utility `self.delta`. -/
structure Characteristic (J A K1 K2 : Type) where
  delta : J → ℝ
  x0 : J → ℝ
  beta : K1 → ℝ
  has1 : K1 → Bool
  x1 : K1 → J → ℝ → ℝ
  d1 : K1 → J → ℝ → ℝ
  dd1 : K1 → J → ℝ → ℝ
  coef : K2 → A → J → ℝ
  has2 : K2 → Bool
  x2 : K2 → J → ℝ → ℝ
  d2 : K2 → J → ℝ → ℝ
  dd2 : K2 → J → ℝ → ℝ

variable [Fintype J] [DecidableEq J] [Nonempty J] [Fintype G] [DecidableEq G] [Fintype A] [Fintype K1] [Fintype K2]

/-- `update_delta_with_variable`, pyblp/markets/market.py:242-258. The early return when no formulation contains the
variable is the case of an empty sum. -/
def updateDelta (c : Characteristic J A K1 K2) (x : J → ℝ) (j : J) : ℝ :=
  c.delta j + ∑ k with c.has1 k = true, c.beta k * (c.x1 k j (x j) - c.x1 k j (c.x0 j))

/-- `update_mu_with_variable` followed by `compute_mu`, pyblp/markets/market.py:229-240 and 260-274: columns of `X2` that
contain the variable are re-evaluated, the others kept. -/
def updateMu (c : Characteristic J A K1 K2) (x : J → ℝ) (j : J) (i : A) : ℝ :=
  ∑ k, (if c.has2 k then c.x2 k j (x j) else c.x2 k j (c.x0 j)) * c.coef k i j

/-- `compute_utility_derivatives(name, x, order=1)`, pyblp/markets/market.py:300-347 (`nan_to_num` on `beta` does nothing on
reals). -/
noncomputable def utilityDerivatives (m : Market J A G) (c : Characteristic J A K1 K2) (x : J → ℝ) (j : J) (i : A) : ℝ :=
  let d := (∑ k, (if c.has1 k then c.d1 k j (x j) else 0) * c.beta k) +
    ∑ k, (if c.has2 k then c.d2 k j (x j) else 0) * c.coef k i j
  if m.epsilonScale ≠ 1 then d / m.epsilonScale else d

/-- `compute_utility_derivatives(name, x, order=2)`, pyblp/markets/market.py:300-347. -/
noncomputable def utilitySecondDerivatives (m : Market J A G) (c : Characteristic J A K1 K2) (x : J → ℝ) (j : J)
    (i : A) : ℝ :=
  let d := (∑ k, (if c.has1 k then c.dd1 k j (x j) else 0) * c.beta k) +
    ∑ k, (if c.has2 k then c.dd2 k j (x j) else 0) * c.coef k i j
  if m.epsilonScale ≠ 1 then d / m.epsilonScale else d

/-- Probabilities at changed values of the characteristic, e.g. pyblp/markets/market.py:817-819 and 899-901. -/
noncomputable def probabilitiesAt (m : Market J A G) (c : Characteristic J A K1 K2) (x : J → ℝ) : J → A → ℝ :=
  computeProbabilities m {} (updateDelta c x) (updateMu c x)

/-- Conditional probabilities at changed values of the characteristic. Used for pyblp/markets/market.py:1298-1309 and 1318-1338. -/
noncomputable def conditionalsAt (m : Market J A G) (c : Characteristic J A K1 K2) (x : J → ℝ) : J → A → ℝ :=
  computeConditionals m {} (updateDelta c x) (updateMu c x)

/-- `compute_shares`, pyblp/markets/market.py:894-902. -/
noncomputable def sharesAt (m : Market J A G) (c : Characteristic J A K1 K2) (x : J → ℝ) (j : J) : ℝ :=
  ∑ i, probabilitiesAt m c x j i * m.weights i

/-- `get_membership_matrix`, pyblp/markets/market.py:165-169. -/
def membership (n : Nesting J G) (j k : J) : ℝ := if n.group j = n.group k then 1 else 0

/-- The diagonal of capital lambda, pyblp/markets/market.py:680-682. `P` are probabilities, `U` utility derivatives. -/
noncomputable def capitalLamda (m : Market J A G) (P U : J → A → ℝ) (j : J) : ℝ :=
  match m.nesting with
  | none => ∑ i, P j i * U j i * m.weights i
  | some n => (∑ i, P j i * U j i * m.weights i) / (1 - n.productRho j)

/-- Capital gamma, pyblp/markets/market.py:685-690. `C` are conditional probabilities. -/
noncomputable def capitalGamma (m : Market J A G) (P C U : J → A → ℝ) (j k : J) : ℝ :=
  match m.nesting with
  | none => ∑ i, P j i * (m.weights i * (P k i * U k i))
  | some n => (∑ i, P j i * (m.weights i * (P k i * U k i))) +
      n.productRho j / (1 - n.productRho j) * membership n j k * ∑ i, C j i * (m.weights i * (P k i * U k i))

/-- `compute_shares_by_variable_jacobian`, pyblp/markets/market.py:1184-1201: `diag(lamda) - gamma`. This is also what
`compute_demand_jacobians` returns for a market (economy_results_market.py:153-160). -/
noncomputable def sharesJacobian (m : Market J A G) (P C U : J → A → ℝ) (j k : J) : ℝ :=
  (if j = k then capitalLamda m P U j else 0) - capitalGamma m P C U j k

/-- pyblp/markets/market.py:1228-1237: derivatives of probabilities with respect to the characteristic of product `l`. -/
noncomputable def probabilityDerivatives (m : Market J A G) (P C U : J → A → ℝ) (l j : J) (i : A) : ℝ :=
  match m.nesting with
  | none => -(P j i) * (P l i * U l i) + (if j = l then P l i * U l i else 0)
  | some n => -(P j i * (P l i * U l i) +
      n.productRho j / (1 - n.productRho j) * membership n j l * C j i * (P l i * U l i)) +
      (if j = l then P l i * U l i / (1 - n.productRho l) else 0)

/-- pyblp/markets/market.py:1240-1241: derivatives of the product of probabilities and utility derivatives. -/
noncomputable def probabilityUtilitySecondDerivatives (m : Market J A G) (P C U U2 : J → A → ℝ) (l j : J) (i : A) : ℝ :=
  probabilityDerivatives m P C U l j i * U j i + (if j = l then P l i * U2 l i else 0)

/-- pyblp/markets/market.py:1261-1262: derivatives of conditional probabilities. -/
noncomputable def conditionalDerivatives (n : Nesting J G) (C U : J → A → ℝ) (l j : J) (i : A) : ℝ :=
  -(C j i) * membership n j l * (C l i * U l i / (1 - n.productRho l)) +
    (if j = l then C l i * U l i / (1 - n.productRho l) else 0)

/-- pyblp/markets/market.py:1244-1248: `capital_lamda_tensor[j, j, l]`. -/
noncomputable def capitalLamdaTensor (m : Market J A G) (P C U U2 : J → A → ℝ) (j l : J) : ℝ :=
  match m.nesting with
  | none => ∑ i, probabilityUtilitySecondDerivatives m P C U U2 l j i * m.weights i
  | some n => (∑ i, probabilityUtilitySecondDerivatives m P C U U2 l j i * m.weights i) / (1 - n.productRho j)

/-- pyblp/markets/market.py:1251-1267: `capital_gamma_tensor[j, k, l]`. -/
noncomputable def capitalGammaTensor (m : Market J A G) (P C U U2 : J → A → ℝ) (j k l : J) : ℝ :=
  match m.nesting with
  | none =>
    (∑ i, probabilityDerivatives m P C U l j i * (m.weights i * (P k i * U k i))) +
      ∑ i, P j i * (m.weights i * probabilityUtilitySecondDerivatives m P C U U2 l k i)
  | some n =>
    ((∑ i, probabilityDerivatives m P C U l j i * (m.weights i * (P k i * U k i))) +
      ∑ i, P j i * (m.weights i * probabilityUtilitySecondDerivatives m P C U U2 l k i)) +
    n.productRho j / (1 - n.productRho j) * membership n j k *
      ((∑ i, conditionalDerivatives n C U l j i * (m.weights i * (P k i * U k i))) +
        ∑ i, C j i * (m.weights i * probabilityUtilitySecondDerivatives m P C U U2 l k i))

/-- `compute_shares_by_variable_hessian`, pyblp/markets/market.py:1271-1289. -/
noncomputable def sharesHessian (m : Market J A G) (P C U U2 : J → A → ℝ) (j k l : J) : ℝ :=
  (if j = k then capitalLamdaTensor m P C U U2 j l else 0) - capitalGammaTensor m P C U U2 j k l

/-- `compute_profit_jacobian` at explicit prices, pyblp/markets/market.py:1298-1309: entry `(j, k)` is about the profit of
product `j` and the price of `k`. -/
noncomputable def profitJacobian (m : Market J A G) (c : Characteristic J A K1 K2) (costs : J → ℝ) (p : J → ℝ)
    (j k : J) : ℝ :=
  (if j = k then sharesAt m c p j else 0) + (p j - costs j) *
    sharesJacobian m (probabilitiesAt m c p) (conditionalsAt m c p) (utilityDerivatives m c p) j k

/-- `compute_profit_hessian` at explicit prices, pyblp/markets/market.py:1318-1338. -/
noncomputable def profitHessian (m : Market J A G) (c : Characteristic J A K1 K2) (costs : J → ℝ) (p : J → ℝ)
    (j k l : J) : ℝ :=
  let P := probabilitiesAt m c p
  let C := conditionalsAt m c p
  let U := utilityDerivatives m c p
  let U2 := utilitySecondDerivatives m c p
  (p j - costs j) * sharesHessian m P C U U2 j k l +
    (if j = k then sharesJacobian m P C U j l else 0) +
    (if j = l then sharesJacobian m P C U j k else 0)

/-- `compute_shares_by_xi_jacobian`, pyblp/markets/market.py:1340-1355. `s` are the observed shares
(`self.products.shares`), which are used for the diagonal. -/
noncomputable def sharesByXiJacobian (m : Market J A G) (s : J → ℝ) (P C : J → A → ℝ) (j k : J) : ℝ :=
  let jac := (if j = k then s j else 0) - ∑ i, P j i * (m.weights i * P k i)
  match m.nesting with
  | none => if m.epsilonScale ≠ 1 then jac / m.epsilonScale else jac
  | some n => jac + n.productRho j / (1 - n.productRho j) *
      ((if j = k then s j else 0) - membership n j k * ∑ i, C j i * (m.weights i * P k i))

/-- `compute_probabilities_by_xi_tensor`, pyblp/markets/market.py:1150-1182: entry `[k, j, i]` of `probabilities_tensor`. -/
noncomputable def probabilitiesByXi (m : Market J A G) (P C : J → A → ℝ) (k j : J) (i : A) : ℝ :=
  let t := -(P j i) * P k i + (if k = j then P j i else 0)
  match m.nesting with
  | none => if m.epsilonScale ≠ 1 then t / m.epsilonScale else t
  | some n => t - membership n k j * (C j i * (n.productRho k / (1 - n.productRho k) * P k i)) +
      (if k = j then n.productRho j / (1 - n.productRho j) * P j i else 0)

/-- `compute_probabilities_by_xi_tensor`, pyblp/markets/market.py:1175-1180: entry `[k, j, i]` of `conditionals_tensor`. -/
noncomputable def conditionalsByXi (n : Nesting J G) (C : J → A → ℝ) (k j : J) (i : A) : ℝ :=
  -(membership n k j) * (C j i * (1 / (1 - n.productRho k) * C k i)) +
    (if k = j then 1 / (1 - n.productRho j) * C j i else 0)

end Pyblp
