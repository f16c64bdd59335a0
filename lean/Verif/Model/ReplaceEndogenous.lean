import Verif.Model.Parallel
import Verif.Model.Supply
import Verif.Model.PyErr

/-!
# Replacing prices and shares in a simulation

`Simulation.replace_endogenous` (pyblp/economies/simulation.py:741-856) and `SimulationMarket.compute_endogenous`
(pyblp/markets/simulation_market.py:16-70).
-/

namespace Pyblp

/-- Products of market `t`: rows of product data with its ID.
Used for pyblp/economies/simulation.py:774-787 and pyblp/markets/market.py:746-748 and 813-848. -/
abbrev MarketRows {ι : Type} {N : ℕ} (ids : Fin N → ι) (t : ι) : Type := {i : Fin N // ids i = t}

/-- A simulation. `prices` and `shares` are those in product data, `x1`, `x2` and `x3` are columns of `X1`, `X2` and `X3` as functions of
prices, prices, and shares (see `Characteristic` and `CostSide`), and `coef` are random coefficients of the agents of a market.
Used for pyblp/economies/simulation.py:747-757 and 772. -/
structure SimulatedEconomy (ι : Type) (N : ℕ) (G K1 K2 : Type) (K3 : ℕ) where
  ids : Fin N → ι
  agents : ι → ℕ
  market : (t : ι) → Market (MarketRows ids t) (Fin (agents t)) G
  ownership : (t : ι) → MarketRows ids t → MarketRows ids t → ℝ
  coef : (t : ι) → K2 → Fin (agents t) → MarketRows ids t → ℝ
  prices : Fin N → ℝ
  shares : Fin N → ℝ
  xi : Fin N → ℝ
  omega : Fin N → ℝ
  beta : K1 → ℝ
  has1 : K1 → Bool
  x1 : K1 → Fin N → ℝ → ℝ
  d1 : K1 → Fin N → ℝ → ℝ
  dd1 : K1 → Fin N → ℝ → ℝ
  has2 : K2 → Bool
  x2 : K2 → Fin N → ℝ → ℝ
  d2 : K2 → Fin N → ℝ → ℝ
  dd2 : K2 → Fin N → ℝ → ℝ
  logCosts : Bool
  gamma : Fin K3 → ℝ
  has3 : Fin K3 → Bool
  x3 : Fin K3 → Fin N → ℝ → ℝ
  d3 : Fin K3 → Fin N → ℝ → ℝ

section

variable {ι : Type} [LinearOrder ι] {N : ℕ} {G K1 K2 : Type} {K3 : ℕ} [Fintype G] [DecidableEq G] [Fintype K1] [Fintype K2]

/-- `costs`, pyblp/economies/simulation.py:747-757. -/
noncomputable def initialCosts (e : SimulatedEconomy ι N G K1 K2 K3) (given : Option (Fin N → ℝ)) : Except PyErr (Fin N → ℝ) :=
  match given with
  | some costs => .ok costs
  | none =>
    if K3 = 0 then .error .valueError
    else
      let costs := fun i => (∑ k, e.x3 k i (e.shares i) * e.gamma k) + e.omega i
      .ok (if e.logCosts then fun i => Real.exp (costs i) else costs)

/-- The baseline mean utility, pyblp/economies/simulation.py:772. -/
def baselineDelta (e : SimulatedEconomy ι N G K1 K2 K3) (i : Fin N) : ℝ := (∑ k, e.x1 k i (e.prices i) * e.beta k) + e.xi i

/-- `SimulationMarket` of market `t` as a function of prices, pyblp/economies/simulation.py:774-787. -/
def characteristicOf (e : SimulatedEconomy ι N G K1 K2 K3) (t : ι) : Characteristic (MarketRows e.ids t) (Fin (e.agents t)) K1 K2 where
  delta := fun j => baselineDelta e j
  x0 := fun j => e.prices j
  beta := e.beta
  has1 := e.has1
  x1 := fun k j => e.x1 k j
  d1 := fun k j => e.d1 k j
  dd1 := fun k j => e.dd1 k j
  coef := e.coef t
  has2 := e.has2
  x2 := fun k j => e.x2 k j
  d2 := fun k j => e.d2 k j
  dd2 := fun k j => e.dd2 k j

/-- Its marginal costs as a function of shares.
Used for pyblp/markets/market.py:746-748 and 813-848 and pyblp/markets/simulation_market.py:16-70. -/
def costSideOf (e : SimulatedEconomy ι N G K1 K2 K3) (t : ι) : CostSide (MarketRows e.ids t) (Fin K3) where
  log := e.logCosts
  gamma := e.gamma
  has3 := e.has3
  x3 := fun k j => e.x3 k j
  d3 := fun k j => e.d3 k j
  s0 := fun j => e.shares j

/-- What `compute_endogenous` returns for a market, without solver statistics, Hessians (see C29) and errors (C67, C71).
Used for pyblp/markets/simulation_market.py:16-70. -/
structure EndogenousMarket (J : Type) where
  prices : J → ℝ
  shares : J → ℝ
  delta : J → ℝ
  costs : J → ℝ
  gradient : J → ℝ

/-- The contraction over which `compute_equilibrium_prices` iterates, pyblp/markets/market.py:746-748 and 813-848. -/
noncomputable def equilibriumContraction (e : SimulatedEconomy ι N G K1 K2 K3) (t : ι) [Nonempty (MarketRows e.ids t)] (constantCosts : Bool)
    (costs : MarketRows e.ids t → ℝ) : (MarketRows e.ids t → ℝ) → MarketRows e.ids t → ℝ :=
  let constant := constantCosts || !decide (∃ k, e.has3 k = true)
  priceContraction (e.market t) (characteristicOf e t) (e.ownership t)
    (if constant then fun j _ => costs j else fun j s => updateCosts (costSideOf e t) costs (fun _ => s) j)

/-- `compute_endogenous`, pyblp/markets/simulation_market.py:16-70. `solve` is the iteration configuration: given a contraction and starting
values, it returns prices. -/
noncomputable def computeEndogenous (e : SimulatedEconomy ι N G K1 K2 K3) (t : ι) [Nonempty (MarketRows e.ids t)] (constantCosts : Bool)
    (solve : ((MarketRows e.ids t → ℝ) → MarketRows e.ids t → ℝ) → (MarketRows e.ids t → ℝ) → MarketRows e.ids t → ℝ)
    (costs start : MarketRows e.ids t → ℝ) : EndogenousMarket (MarketRows e.ids t) :=
  let prices := solve (equilibriumContraction e t constantCosts costs) start
  let shares := sharesAt (e.market t) (characteristicOf e t) prices
  let delta := updateDelta (characteristicOf e t) prices
  let costs := if constantCosts then costs else updateCosts (costSideOf e t) costs shares
  ⟨prices, shares, delta, costs, firmProfitGradient (e.market t) (characteristicOf e t) (e.ownership t) costs prices⟩

/-- A row of the results. Used for pyblp/economies/simulation.py:741-856. -/
structure EndogenousRow where
  price : ℝ
  share : ℝ
  delta : ℝ
  cost : ℝ
  gradient : ℝ

/-- Row `k` of the arrays returned for market `t`, whose rows are those of the market in the order of product data.
Used for pyblp/economies/simulation.py:741-856. -/
noncomputable def endogenousRows (e : SimulatedEconomy ι N G K1 K2 K3) (constantCosts : Bool)
    (solve : (t : ι) → ((MarketRows e.ids t → ℝ) → MarketRows e.ids t → ℝ) → (MarketRows e.ids t → ℝ) → MarketRows e.ids t → ℝ)
    (costs start : Fin N → ℝ) (t : ι) (k : ℕ) : EndogenousRow :=
  match (indicesOf e.ids t)[k]? with
  | none => ⟨0, 0, 0, 0, 0⟩
  | some i =>
    if h : e.ids i = t then
      haveI : Nonempty (MarketRows e.ids t) := ⟨⟨i, h⟩⟩
      let m := computeEndogenous e t constantCosts (solve t) (fun j => costs j) (fun j => start j)
      ⟨m.prices ⟨i, h⟩, m.shares ⟨i, h⟩, m.delta ⟨i, h⟩, m.costs ⟨i, h⟩, m.gradient ⟨i, h⟩⟩
    else ⟨0, 0, 0, 0, 0⟩

/-- `replace_endogenous`, pyblp/economies/simulation.py:741-856: rows of the results when the work for markets is done in any order that
the process pool permits. Costs and prices are `None` if they are not given. -/
def ReplaceEndogenous (pool : Option ℕ) (e : SimulatedEconomy ι N G K1 K2 K3) (constantCosts : Bool)
    (solve : (t : ι) → ((MarketRows e.ids t → ℝ) → MarketRows e.ids t → ℝ) → (MarketRows e.ids t → ℝ) → MarketRows e.ids t → ℝ)
    (givenCosts givenPrices : Option (Fin N → ℝ)) (results : Fin N → EndogenousRow) : Prop :=
  ∃ costs, initialCosts e givenCosts = .ok costs ∧
    ∃ items, Generated pool (uniqueIds e.ids) (endogenousRows e constantCosts solve costs (givenPrices.getD costs)) items ∧
      results = assemble e.ids (fun _ => ⟨0, 0, 0, 0, 0⟩) items

end

end Pyblp
