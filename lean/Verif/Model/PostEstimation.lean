import Verif.Model.Supply

/-!
# Model of post-estimation outputs of a market (pyblp/markets/economy_results_market.py)
-/

namespace Pyblp

variable {J A G K1 K2 : Type} [Fintype J] [DecidableEq J] [Nonempty J] [Fintype G] [DecidableEq G] [Fintype A]
  [Fintype K1] [Fintype K2]

/-- `safely_compute_diversion_ratios`, pyblp/markets/economy_results_market.py:177-180, from the Jacobian: the diagonal is
replaced by minus row sums, then everything is divided by minus the old diagonal. -/
noncomputable def diversionRatios (jac : J → J → ℝ) (j k : J) : ℝ :=
  -(if j = k then -∑ l, jac j l else jac j k) / jac j j

/-- `safely_compute_long_run_diversion_ratios`, pyblp/markets/economy_results_market.py:184-192. `s` are observed shares
and `without j` shares computed with `eliminate_product=j`. Row `j` is filled first, then its entry `j` is replaced by
minus the sum of the row. -/
noncomputable def longRunDiversionRatios (s : J → ℝ) (without : J → J → ℝ) (j k : J) : ℝ :=
  let row := fun l => (without j l - s l) / s j
  if j = k then -∑ l, row l else row k

/-- `safely_compute_elasticities`, pyblp/markets/economy_results_market.py:138-150. -/
noncomputable def elasticities (jac : J → J → ℝ) (x s : J → ℝ) (j k : J) : ℝ := jac j k * x k / s j

/-- Utility derivatives when `name is None`, pyblp/markets/economy_results_market.py:143 and 174: ones. -/
def onesDerivatives : J → A → ℝ := fun _ _ => 1

/-- `safely_compute_aggregate_elasticity` with a variable name, pyblp/markets/economy_results_market.py:122-135. -/
noncomputable def aggregateElasticity (m : Market J A G) (c : Characteristic J A K1 K2) (s : J → ℝ) (factor : ℝ) : ℝ :=
  (∑ j, (sharesAt m c (fun k => (1 + factor) * c.x0 k) j - s j)) / factor

/-- `safely_compute_hhi`, pyblp/markets/economy_results_market.py:356-364. -/
noncomputable def hhi {F : Type} [DecidableEq F] (firm : J → F) (s : J → ℝ) : ℝ :=
  10 ^ 4 * ∑ f ∈ Finset.univ.image firm, ((∑ j with firm j = f, s j) / ∑ j, s j) ^ 2

/-- An exponentiated utility, scaled by availability and zeroed if the product is eliminated,
pyblp/markets/economy_results_market.py:430-437. -/
noncomputable def surplusExp (a : Option (J → ℝ)) (out : J → Bool) (x : ℝ) (j : J) : ℝ :=
  if out j then 0 else
    match a with
    | none => Real.exp x
    | some a => Real.exp x * a j

/-- The numerator of consumer surplus for one agent, pyblp/markets/economy_results_market.py:419-454. `u` are
`delta + mu`, `a` the agent's availability if there is any, `out j` whether the product's ID is in
`eliminate_product_ids`. -/
noncomputable def surplusNumerator (nesting : Option (Nesting J G)) (u : J → ℝ) (a : Option (J → ℝ)) (out : J → Bool) : ℝ :=
  let u' := fun j => match nesting with
    | none => u j
    | some n => u j / (1 - n.productRho j)
  let r := utilityReduction u'
  let e := fun j => surplusExp a out (u' j - r) j
  match nesting with
  | none => Real.log (Real.exp (-r) + ∑ j, e j) - -r
  | some n =>
    let incl := fun g => expLogMul (∑ j with n.group j = g, e j) (1 - n.rho.groupRho g)
    -- `np.min(self.group_rho)`: over groups in the market
    let minRho := (Finset.univ.image fun j => n.rho.groupRho (n.group j)).min' (by simp)
    let logScale := -r * (1 - minRho)
    let w := fun g => if n.rho.sizeGtOne then Real.exp (-r * (n.rho.groupRho g - minRho)) else 1
    Real.log (Real.exp logScale + ∑ g, w g * incl g) - logScale

/-- `safely_compute_consumer_surplus`, pyblp/markets/economy_results_market.py:399-461. `first` is the first product, whose
price derivative at unchanged prices is used (line 451). -/
noncomputable def consumerSurplus (m : Market J A G) (c : Characteristic J A K1 K2) (first : J) (p : J → ℝ)
    (out : J → Bool) : ℝ :=
  ∑ i, surplusNumerator m.nesting (fun j => updateDelta c p j + updateMu c p j i) (m.availability.map fun a => a i) out /
    (-(utilityDerivatives m c c.x0 first i)) * m.weights i

/-- The inverse of the passthrough matrix, pyblp/markets/economy_results_market.py:264-293, for an invertible capital
delta; row `j`, column `l`. -/
noncomputable def passthroughInverse (m : Market J A G) (c : Characteristic J A K1 K2) (O : J → J → ℝ) (s : J → ℝ) :
    Matrix J J ℝ :=
  let P := probabilitiesAt m c c.x0
  let C := conditionalsAt m c c.x0
  let U := utilityDerivatives m c c.x0
  let U2 := utilitySecondDerivatives m c c.x0
  let jac : Matrix J J ℝ := Matrix.of fun j k => sharesJacobian m P C U j k
  let capDelta : Matrix J J ℝ := Matrix.of fun j k => -(O j k) * sharesJacobian m P C U j k
  let dCapDelta : J → Matrix J J ℝ := fun l => Matrix.of fun j k => -(O j k) * sharesHessian m P C U U2 j k l
  let first : Matrix J J ℝ := Matrix.of fun j l =>
    (capDelta⁻¹ * dCapDelta l * capDelta⁻¹).mulVec s j
  first + (1 - capDelta⁻¹ * jac)

/-- `safely_compute_passthrough`, pyblp/markets/economy_results_market.py:256-300, when both matrices can be inverted. -/
noncomputable def passthrough (m : Market J A G) (c : Characteristic J A K1 K2) (O : J → J → ℝ) (s : J → ℝ) :
    Matrix J J ℝ :=
  (passthroughInverse m c O s)⁻¹

end Pyblp
