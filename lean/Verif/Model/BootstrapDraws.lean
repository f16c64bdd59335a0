import Verif.Model.ReplaceEndogenous

/-!
# Prices, shares and mean utilities of bootstrapped draws

The second half of `ProblemResults.bootstrap` (pyblp/results/problem_results.py:1236-1278), after parameters have been drawn (see
`Model/Bootstrap`), `EconomyResultsMarket.safely_solve_equilibrium_realization` (pyblp/markets/economy_results_market.py:19-45), and the
markets that `BootstrappedResults` builds from draws (pyblp/results/bootstrapped_results.py:203-222 and pyblp/markets/market.py:138-163).
-/

namespace Pyblp

/-- Estimates and draws of parameters. `delta` and `tildeCosts` are estimated mean utilities and marginal costs (in logarithms if these are
formulated so), `beta` and `gamma` are estimates, and `drawnBeta` and `drawnGamma` are those of draws. Markets and random coefficients depend on
drawn nonlinear parameters. Columns of `X1`, `X2` and `X3` are functions of prices, prices, and shares, as in `SimulatedEconomy`.
Used for pyblp/results/problem_results.py:1205-1278. -/
structure BootstrapEconomy (ι : Type) (N D : ℕ) (G K1 K2 : Type) (K3 : ℕ) where
  ids : Fin N → ι
  agents : ι → ℕ
  market : Fin D → (t : ι) → Market (MarketRows ids t) (Fin (agents t)) G
  ownership : (t : ι) → MarketRows ids t → MarketRows ids t → ℝ
  coef : Fin D → (t : ι) → K2 → Fin (agents t) → MarketRows ids t → ℝ
  prices : Fin N → ℝ
  shares : Fin N → ℝ
  delta : Fin N → ℝ
  tildeCosts : Fin N → ℝ
  beta : K1 → ℝ
  drawnBeta : Fin D → K1 → ℝ
  has1 : K1 → Bool
  x1 : K1 → Fin N → ℝ → ℝ
  d1 : K1 → Fin N → ℝ → ℝ
  dd1 : K1 → Fin N → ℝ → ℝ
  has2 : K2 → Bool
  x2 : K2 → Fin N → ℝ → ℝ
  d2 : K2 → Fin N → ℝ → ℝ
  dd2 : K2 → Fin N → ℝ → ℝ
  logCosts : Bool
  gamma : Fin K3 → ℝ
  drawnGamma : Fin D → Fin K3 → ℝ
  has3 : Fin K3 → Bool
  x3 : Fin K3 → Fin N → ℝ → ℝ
  d3 : Fin K3 → Fin N → ℝ → ℝ

section

variable {ι : Type} [LinearOrder ι] {N D : ℕ} {G K1 K2 : Type} {K3 : ℕ} [Fintype G] [DecidableEq G] [Fintype K1] [Fintype K2]

/-- `self.delta + true_X1 @ (bootstrapped_beta[c] - self.beta)`, pyblp/results/problem_results.py:1259. -/
def drawDelta (e : BootstrapEconomy ι N D G K1 K2 K3) (c : Fin D) (i : Fin N) : ℝ :=
  e.delta i + ∑ k, e.x1 k i (e.prices i) * (e.drawnBeta c k - e.beta k)

/-- `costs_cs`, pyblp/results/problem_results.py:1261-1263. -/
noncomputable def drawCosts (e : BootstrapEconomy ι N D G K1 K2 K3) (c : Fin D) (i : Fin N) : ℝ :=
  let costs := e.tildeCosts i + ∑ k, e.x3 k i (e.shares i) * (e.drawnGamma c k - e.gamma k)
  if e.logCosts then Real.exp costs else costs

/-- `market_cs` as a function of prices, pyblp/results/problem_results.py:1250-1260. -/
def drawCharacteristic (e : BootstrapEconomy ι N D G K1 K2 K3) (c : Fin D) (t : ι) :
    Characteristic (MarketRows e.ids t) (Fin (e.agents t)) K1 K2 where
  delta := fun j => drawDelta e c j
  x0 := fun j => e.prices j
  beta := e.drawnBeta c
  has1 := e.has1
  x1 := fun k j => e.x1 k j
  d1 := fun k j => e.d1 k j
  dd1 := fun k j => e.dd1 k j
  coef := e.coef c t
  has2 := e.has2
  x2 := fun k j => e.x2 k j
  d2 := fun k j => e.d2 k j
  dd2 := fun k j => e.dd2 k j

/-- Marginal costs of `market_cs` as a function of shares, pyblp/results/problem_results.py:1250-1260. -/
def drawCostSide (e : BootstrapEconomy ι N D G K1 K2 K3) (c : Fin D) (t : ι) : CostSide (MarketRows e.ids t) (Fin K3) where
  log := e.logCosts
  gamma := e.drawnGamma c
  has3 := e.has3
  x3 := fun k j => e.x3 k j
  d3 := fun k j => e.d3 k j
  s0 := fun j => e.shares j

/-- The contraction over which `compute_equilibrium_prices` iterates, pyblp/markets/market.py:746-748 and 813-848. -/
noncomputable def drawContraction (e : BootstrapEconomy ι N D G K1 K2 K3) (c : Fin D) (t : ι) [Nonempty (MarketRows e.ids t)]
    (constantCosts : Bool) : (MarketRows e.ids t → ℝ) → MarketRows e.ids t → ℝ :=
  let constant := constantCosts || !decide (∃ k, e.has3 k = true)
  priceContraction (e.market c t) (drawCharacteristic e c t) (e.ownership t)
    (if constant then fun j _ => drawCosts e c j
    else fun j s => updateCosts (drawCostSide e c t) (fun j => drawCosts e c j) (fun _ => s) j)

/-- A row of the results. Used for pyblp/results/problem_results.py:1268-1278. -/
structure DrawRow where
  price : ℝ
  share : ℝ
  delta : ℝ

/-- An iteration configuration for each draw and market: given a contraction and starting values, it returns prices.
Used for pyblp/results/problem_results.py:1187-1196 and 1264. -/
abbrev DrawSolver (e : BootstrapEconomy ι N D G K1 K2 K3) : Type :=
  Fin D → (t : ι) → ((MarketRows e.ids t → ℝ) → MarketRows e.ids t → ℝ) → (MarketRows e.ids t → ℝ) → MarketRows e.ids t → ℝ

/-- Prices of a draw: observed ones if there is no supply side, pyblp/results/problem_results.py:1190-1191 and 1264, and otherwise those
to which the iteration goes from observed ones, pyblp/markets/economy_results_market.py:33-38. -/
noncomputable def realizedPrices (e : BootstrapEconomy ι N D G K1 K2 K3) (constantCosts : Bool) (solve : DrawSolver e) (c : Fin D) (t : ι)
    [Nonempty (MarketRows e.ids t)] : MarketRows e.ids t → ℝ :=
  if K3 = 0 then fun j => e.prices j else solve c t (drawContraction e c t constantCosts) fun j => e.prices j

/-- `safely_solve_equilibrium_realization` without statistics and errors (C71), pyblp/markets/economy_results_market.py:30-45. -/
noncomputable def solveRealization (e : BootstrapEconomy ι N D G K1 K2 K3) (constantCosts : Bool) (solve : DrawSolver e) (c : Fin D) (t : ι)
    [Nonempty (MarketRows e.ids t)] (j : MarketRows e.ids t) : DrawRow :=
  let prices := realizedPrices e constantCosts solve c t
  ⟨prices j, sharesAt (e.market c t) (drawCharacteristic e c t) prices j, updateDelta (drawCharacteristic e c t) prices j⟩

/-- Row `k` of the arrays returned for a draw and a market, whose rows are those of the market in the order of product data.
Used for pyblp/results/problem_results.py:1273-1278. -/
noncomputable def drawRows (e : BootstrapEconomy ι N D G K1 K2 K3) (constantCosts : Bool) (solve : DrawSolver e) (p : Fin D × ι) (k : ℕ) :
    DrawRow :=
  match (indicesOf e.ids p.2)[k]? with
  | none => ⟨0, 0, 0⟩
  | some i =>
    if h : e.ids i = p.2 then
      haveI : Nonempty (MarketRows e.ids p.2) := ⟨⟨i, h⟩⟩
      solveRealization e constantCosts solve p.1 p.2 ⟨i, h⟩
    else ⟨0, 0, 0⟩

/-- `pairs`, pyblp/results/problem_results.py:1271. -/
def drawPairs (D : ℕ) (ids : Fin N → ι) : List (Fin D × ι) := (List.finRange D) ×ˢ (uniqueIds ids)

/-- The loop over `generator`, pyblp/results/problem_results.py:1273-1278: `array[d, indices[t]] = values`. -/
def assembleDraws {α : Type} (ids : Fin N → ι) (initial : Fin D → Fin N → α) (items : List ((Fin D × ι) × (ℕ → α))) :
    Fin D → Fin N → α :=
  items.foldl (fun array p => Function.update array p.1.1 (writeRows (array p.1.1) (indicesOf ids p.1.2) p.2)) initial

/-- `bootstrap`, pyblp/results/problem_results.py:1236-1278: bootstrapped prices, shares and mean utilities when the work for draws and markets is
done in any order that the process pool permits. -/
def BootstrapRealizations (pool : Option ℕ) (e : BootstrapEconomy ι N D G K1 K2 K3) (constantCosts : Bool) (solve : DrawSolver e)
    (results : Fin D → Fin N → DrawRow) : Prop :=
  ∃ items, Generated pool (drawPairs D e.ids) (drawRows e constantCosts solve) items ∧
    results = assembleDraws e.ids (fun _ _ => ⟨0, 0, 0⟩) items

/-- The market that `BootstrappedResults` builds for a draw, pyblp/results/bootstrapped_results.py:203-222, as a function of prices. Prices are
overridden and columns of `X2` that contain them are evaluated again, pyblp/markets/market.py:138-144. -/
def resultsCharacteristic (e : BootstrapEconomy ι N D G K1 K2 K3) (results : Fin D → Fin N → DrawRow) (c : Fin D) (t : ι) :
    Characteristic (MarketRows e.ids t) (Fin (e.agents t)) K1 K2 :=
  { drawCharacteristic e c t with delta := fun j => (results c j).delta, x0 := fun j => (results c j).price }

/-- `mu` of this market, pyblp/markets/market.py:138-144 and 160-163: columns of `X2` that contain prices are evaluated at those of the draw and
others are kept. -/
def resultsMu (e : BootstrapEconomy ι N D G K1 K2 K3) (results : Fin D → Fin N → DrawRow) (c : Fin D) (t : ι) (j : MarketRows e.ids t)
    (a : Fin (e.agents t)) : ℝ :=
  ∑ k, (if e.has2 k then e.x2 k j (results c j).price else e.x2 k j (e.prices j)) * e.coef c t k a j

/-- Its marginal costs as a function of shares, which are overridden too, pyblp/results/bootstrapped_results.py:203-222. -/
def resultsCostSide (e : BootstrapEconomy ι N D G K1 K2 K3) (results : Fin D → Fin N → DrawRow) (c : Fin D) (t : ι) :
    CostSide (MarketRows e.ids t) (Fin K3) :=
  { drawCostSide e c t with s0 := fun j => (results c j).share }

end

end Pyblp
