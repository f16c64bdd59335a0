import Verif.Model.Realizations
import Verif.Model.SupplyTangents

/-!
# Supply-side Jacobians behind optimal instruments

The supply side of `EconomyResultsMarket.safely_compute_jacobian_realizations` (pyblp/markets/economy_results_market.py:71-98) for the market that
`jacobian_market_factory` builds (pyblp/results/problem_results.py:1616-1630).
-/

namespace Pyblp

variable {ι : Type} [LinearOrder ι] {N : ℕ} {G K1 K2 : Type} {K3 : ℕ} [Fintype G] [DecidableEq G] [Fintype K1] [Fintype K2]
  {V W : Type} [Fintype V] [DecidableEq V] [Fintype W] [DecidableEq W] [DecidableEq K2]

/-- How utility depends on prices in the market that `jacobian_market_factory` builds, pyblp/results/problem_results.py:1616-1628: prices are
overridden (pyblp/markets/market.py:135-139) and mean utilities are those of the realization. -/
def realizationCharacteristic (e : BootstrapEconomy ι N 1 G K1 K2 K3) (s : RealizationState ι N) (t : ι) :
    Characteristic (MarketRows e.ids t) (Fin (e.agents t)) K1 K2 :=
  { drawCharacteristic e 0 t with
    delta := fun j => s.delta j
    x0 := fun j => s.prices j
    beta := e.beta }

/-- Columns of `X1` that `BetaParameter.get_product_characteristic` evaluates with overridden prices, pyblp/parameters.py:118-131. -/
def realizationX1 (e : BootstrapEconomy ι N 1 G K1 K2 K3) (s : RealizationState ι N) (t : ι) (j : MarketRows e.ids t) (k : K1) : ℝ :=
  e.x1 k j (s.prices j)

/-- Columns of `X3` that `GammaParameter.get_product_characteristic` evaluates with overridden shares, pyblp/parameters.py:118-139. -/
def realizationX3 (e : BootstrapEconomy ι N 1 G K1 K2 K3) (s : RealizationState ι N) (t : ι) (j : MarketRows e.ids t) (k : Fin K3) : ℝ :=
  e.x3 k j (s.shares j)

/-- One column of the supply-side Jacobian of a realization, pyblp/markets/economy_results_market.py:54-98. `tildeCosts` of `e` are those of
the realization, `tilde_costs_s` in pyblp/results/problem_results.py:1629. `xiInverse` and `deltaInverse` are what solvers apply. -/
noncomputable def realizationOmegaJacobian (e : BootstrapEconomy ι N 1 G K1 K2 K3) (s : RealizationState ι N) (t : ι) [Nonempty (MarketRows e.ids t)]
    (T : Tastes (MarketRows e.ids t) (Fin (e.agents t)) K2 V W) (sigma : K2 → V → ℝ) (pi : K2 → W → ℝ)
    (xiInverse deltaInverse : MarketRows e.ids t → MarketRows e.ids t → ℝ) (p : ThetaParam G K1 K2 (Fin K3) V W) : MarketRows e.ids t → ℝ :=
  let m := e.market 0 t
  let T' := realizationTastes e t T s.prices
  let q : TangentParam (MarketRows e.ids t) G K2 V W := p.tangent (realizationX1 e s t) (realizationX3 e s t)
  let delta := fun j : MarketRows e.ids t => s.delta j
  let P := computeProbabilities m {} delta (computeMu T' sigma pi)
  let C := computeConditionals m {} delta (computeMu T' sigma pi)
  let tangents := probabilitiesTangent m T' sigma pi {} delta P C q
  let xiJacobian := xiByTheta m xiInverse tangents.1
  let dP := updateTangent m P C q tangents.1 xiJacobian
  let dC := match m.nesting with
    | none => fun _ _ => 0
    | some n => updateConditionalsTangent n C q tangents.2 xiJacobian
  let prices := realizationCharacteristic e s t
  let eta := computeEta m prices (e.ownership t) fun j : MarketRows e.ids t => s.shares j
  omegaByTheta e.logCosts (fun j => e.tildeCosts j) (realizationX3 e s t) p
    (etaByTheta deltaInverse eta (capitalDeltaTangent m prices T' sigma pi (e.ownership t) p P dP C dC))

end Pyblp
