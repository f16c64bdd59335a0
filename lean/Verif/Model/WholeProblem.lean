import Verif.Model.MomentsJacobian
import Verif.Model.SupplyTangents

set_option linter.unusedSectionVars false

/-!
# All markets of a problem (`Problem._compute_progress`, pyblp/economies/problem.py:1020-1160 and 1364-1373)

How `theta` is expanded into parameters of each market, and how what is computed for each market is stacked. Concentrated-out linear
parameters are handled in `Verif/Model/MomentsJacobian.lean`: here `K1` and `K3` index columns of `X1` and `X3` whose coefficients are in
`theta` or fixed. Without absorption of fixed effects and without numerical errors. The delta that a market is solved for is an argument
(see `Verif/Model/Delta.lean` and `Verif/Model/Iteration.lean` for how it is computed).
-/

namespace Pyblp

/-- Data of all markets and parameters of a problem, pyblp/economies/problem.py:1020-1097. `locate` gives the market of each row of
product data and its index in this market (`_product_market_indices`). Nesting parameters in `market`, `sigma`, `pi`, `beta` and `gamma`
have the values of fixed parameters; `param` lists unfixed ones. Each nesting group has an index in each market, although it may be empty
there. -/
structure PanelProblem (n : ℕ) (M : Type) (J A : M → Type) (G K1 K2 K3 N D θ : Type) where
  locate : Fin n ≃ (t : M) × J t
  market : (t : M) → Market (J t) (A t) G
  tastes : (t : M) → Tastes (J t) (A t) K2 N D
  prices : (t : M) → Characteristic (J t) (A t) K1 K2
  X1 : (t : M) → J t → K1 → ℝ
  X3 : (t : M) → J t → K3 → ℝ
  ownership : (t : M) → J t → J t → ℝ
  shares : (t : M) → J t → ℝ
  sigma : K2 → N → ℝ
  pi : K2 → D → ℝ
  beta : K1 → ℝ
  gamma : K3 → ℝ
  param : θ → ThetaParam G K1 K2 K3 N D
  logCosts : Bool
  costsBounds : EReal × EReal

namespace PanelProblem

variable {n : ℕ} {M : Type} {J A : M → Type} {G K1 K2 K3 N D θ : Type} [∀ t, Fintype (J t)] [∀ t, DecidableEq (J t)] [∀ t, Nonempty (J t)]
  [∀ t, Fintype (A t)] [Fintype G] [DecidableEq G] [Fintype K1] [Fintype K2] [Fintype K3] [Fintype N] [Fintype D]

variable (P : PanelProblem n M J A G K1 K2 K3 N D θ)

open Classical in
/-- One element in `Parameters.expand`, pyblp/parameters.py:684-698: from `theta` if there is an unfixed parameter at its location, and
otherwise its fixed value. -/
noncomputable def valueAt (theta : θ → ℝ) (location : ThetaParam G K1 K2 K3 N D) (fixed : ℝ) : ℝ :=
  if h : ∃ p, P.param p = location then theta h.choose else fixed

/-- `sigma`, pyblp/economies/problem.py:1023. -/
noncomputable def sigmaAt (theta : θ → ℝ) (k : K2) (c : N) : ℝ := P.valueAt theta (.sigma k c) (P.sigma k c)

/-- `pi`, pyblp/economies/problem.py:1023. -/
noncomputable def piAt (theta : θ → ℝ) (k : K2) (d : D) : ℝ := P.valueAt theta (.pi k d) (P.pi k d)

/-- `beta`, pyblp/economies/problem.py:1023. -/
noncomputable def betaAt (theta : θ → ℝ) (k : K1) : ℝ := P.valueAt theta (.beta k) (P.beta k)

/-- `gamma`, pyblp/economies/problem.py:1023. -/
noncomputable def gammaAt (theta : θ → ℝ) (k : K3) : ℝ := P.valueAt theta (.gamma k) (P.gamma k)

/-- `rho`, pyblp/economies/problem.py:1023. -/
noncomputable def rhoAt (theta : θ → ℝ) : RhoParam G → RhoParam G
  | .single r => .single (P.valueAt theta .rhoAll r)
  | .perGroup r => .perGroup fun g => P.valueAt theta (.rhoOne (some g)) (r g)

/-- `ProblemMarket(self, s, parameters, sigma, pi, rho, beta)`, pyblp/economies/problem.py:1082, as far as choice probabilities depend on
it. -/
noncomputable def marketAt (theta : θ → ℝ) (t : M) : Market (J t) (A t) G :=
  { P.market t with nesting := (P.market t).nesting.map fun n => { n with rho := P.rhoAt theta n.rho } }

/-- `self.mu` of this market, pyblp/markets/market.py:186-226. -/
noncomputable def muAt (theta : θ → ℝ) (t : M) : J t → A t → ℝ := computeMu (P.tastes t) (P.sigmaAt theta) (P.piAt theta)

/-- How utility depends on prices in this market. Used for pyblp/markets/problem_market.py:142-183. -/
noncomputable def pricesAt (theta : θ → ℝ) (t : M) (delta : J t → ℝ) : Characteristic (J t) (A t) K1 K2 :=
  priceVariable (P.prices t) (P.tastes t) (P.sigmaAt theta) (P.piAt theta) (P.betaAt theta) delta

/-- `iv_delta`, pyblp/economies/problem.py:1136 and 1366-1370. -/
noncomputable def ivDelta (theta : θ → ℝ) (delta : (t : M) → J t → ℝ) (i : Fin n) : ℝ :=
  let l := P.locate i
  delta l.1 l.2 - ∑ k, P.X1 l.1 l.2 k * P.betaAt theta k

/-- Marginal costs of products in a market. Used for pyblp/markets/problem_market.py:275-309. -/
noncomputable def costsAt (theta : θ → ℝ) (t : M) (delta : J t → ℝ) : J t → ℝ :=
  computeCosts (P.marketAt theta t) (P.pricesAt theta t delta) (P.ownership t) (P.shares t)

/-- `iv_tilde_costs`, pyblp/economies/problem.py:1156 and 1367-1373. Transformed marginal costs that are not numbers are zero in this
model. -/
noncomputable def ivCosts (theta : θ → ℝ) (delta : (t : M) → J t → ℝ) (i : Fin n) : ℝ :=
  let l := P.locate i
  (tildeCosts P.logCosts P.costsBounds (P.costsAt theta l.1 (delta l.1)) l.2).getD 0 - ∑ k, P.X3 l.1 l.2 k * P.gammaAt theta k

/-- `xi_jacobian`, pyblp/economies/problem.py:1137: what markets compute is stacked. `inverse` is what the linear solver of each market
applies. -/
noncomputable def xiJacobian (theta : θ → ℝ) (delta : (t : M) → J t → ℝ) (inverse : (t : M) → J t → J t → ℝ) : Matrix (Fin n) θ ℝ :=
  Matrix.of fun i p =>
    let t := (P.locate i).1
    let m := P.marketAt theta t
    let mu := P.muAt theta t
    xiByTheta m (inverse t) (probabilitiesTangent m (P.tastes t) (P.sigmaAt theta) (P.piAt theta) {} (delta t)
      (computeProbabilities m {} (delta t) mu) (computeConditionals m {} (delta t) mu) ((P.param p).tangent (P.X1 t) (P.X3 t))).1 (P.locate i).2

/-- `omega_jacobian`, pyblp/economies/problem.py:1158-1159: what markets compute is stacked. -/
noncomputable def omegaJacobian (theta : θ → ℝ) (delta : (t : M) → J t → ℝ) (inverse deltaInverse : (t : M) → J t → J t → ℝ)
    (last : (t : M) → J t → ℝ) : Matrix (Fin n) θ ℝ :=
  Matrix.of fun i p =>
    let t := (P.locate i).1
    Pyblp.omegaJacobian (P.marketAt theta t) (P.prices t) (P.tastes t) (P.sigmaAt theta) (P.piAt theta) (P.betaAt theta) (delta t) (P.X1 t)
      (P.X3 t) (P.ownership t) (P.shares t) P.logCosts P.costsBounds (inverse t) (deltaInverse t) (last t) (P.param p) (P.locate i).2

end PanelProblem

end Pyblp
