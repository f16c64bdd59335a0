import Verif.Model.BootstrapDraws
import Verif.Model.OptimalInstruments
import Verif.Model.Tangents

/-!
# Realizations behind optimal instruments

`ProblemResults._compute_realizations` (pyblp/results/problem_results.py:1551-1655) for one draw of errors. Mean utilities are in one array,
from which markets are built and into which results of markets are written, while other markets may not have been built yet. With a process
pool, markets are built by another thread than the one that writes results. So the model has separate events for building a market and for
writing its results, and schedules are sequences of them.
-/

namespace Pyblp

variable {ι : Type} [LinearOrder ι] {N : ℕ} {G K1 K2 : Type} {K3 : ℕ} [Fintype G] [DecidableEq G] [Fintype K1] [Fintype K2]

/-- Estimates with `delta` and `tilde_costs` of a realization, pyblp/results/problem_results.py:1565-1569. Parameters are estimates. `xi` and
`omega` are estimated errors and `xiDraw` and `omegaDraw` are drawn ones. -/
def realizationEconomy (e : BootstrapEconomy ι N 1 G K1 K2 K3) (xi omega xiDraw omegaDraw : Fin N → ℝ) : BootstrapEconomy ι N 1 G K1 K2 K3 :=
  { e with
    delta := realizationDelta e.delta xi xiDraw
    tildeCosts := fun i => e.tildeCosts i - omega i + omegaDraw i
    drawnBeta := fun _ => e.beta
    drawnGamma := fun _ => e.gamma }

/-- `expected_prices` that realizations use, pyblp/results/problem_results.py:1464-1487: those that are given. If none are given, prices are
solved for (`none`) if there is a supply side without shares in its formulation, and fitted prices are used otherwise. -/
def plannedPrices (given : Option (Fin N → ℝ)) (k3 : ℕ) (has3 : Fin k3 → Bool) (fitted : Fin N → ℝ) : Option (Fin N → ℝ) :=
  match given with
  | some prices => some prices
  | none => if 0 < k3 ∧ ¬∃ k, has3 k = true then none else some fitted

/-- Prices of a realization of a market: `expected_prices`, or those to which the iteration goes from observed ones,
pyblp/markets/economy_results_market.py:32-39. -/
noncomputable def realizationPrices (e : BootstrapEconomy ι N 1 G K1 K2 K3) (expected : Option (Fin N → ℝ)) (constantCosts : Bool)
    (solve : DrawSolver e) (t : ι) [Nonempty (MarketRows e.ids t)] : MarketRows e.ids t → ℝ :=
  match expected with
  | some prices => fun j => prices j
  | none => solve 0 t (drawContraction e 0 t constantCosts) fun j => e.prices j

/-- Row `k` of the arrays that `safely_solve_equilibrium_realization` returns, pyblp/markets/economy_results_market.py:41-45. -/
noncomputable def realizationRows (e : BootstrapEconomy ι N 1 G K1 K2 K3) (expected : Option (Fin N → ℝ)) (constantCosts : Bool)
    (solve : DrawSolver e) (t : ι) (k : ℕ) : DrawRow :=
  match (indicesOf e.ids t)[k]? with
  | none => ⟨0, 0, 0⟩
  | some i =>
    if h : e.ids i = t then
      haveI : Nonempty (MarketRows e.ids t) := ⟨⟨i, h⟩⟩
      let prices := realizationPrices e expected constantCosts solve t
      ⟨prices ⟨i, h⟩, sharesAt (e.market 0 t) (drawCharacteristic e 0 t) prices ⟨i, h⟩, updateDelta (drawCharacteristic e 0 t) prices ⟨i, h⟩⟩
    else ⟨0, 0, 0⟩

/-- What happens when items are generated: a market is built with `equilibrium_market_factory`, or its results are written.
Used for pyblp/results/problem_results.py:1571-1609. -/
inductive RealizationEvent (ι : Type) where
  | build (t : ι)
  | write (t : ι)
  deriving DecidableEq

/-- The market of an event. Used for pyblp/results/problem_results.py:1571-1609. -/
def RealizationEvent.market {ι : Type} : RealizationEvent ι → ι
  | .build t => t
  | .write t => t

/-- Arrays in memory: mean utilities, which are also read, and `data_override`. `jobs` are markets that have been built, with what the method
returns for them. Used for pyblp/results/problem_results.py:1594-1609. -/
structure RealizationState (ι : Type) (N : ℕ) where
  delta : Fin N → ℝ
  prices : Fin N → ℝ
  shares : Fin N → ℝ
  jobs : ι → Option (ℕ → DrawRow)

/-- One event, pyblp/results/problem_results.py:1571-1609. A market that is built copies its rows of mean utilities at that time
(pyblp/markets/market.py:161). -/
noncomputable def realizationStep (e : BootstrapEconomy ι N 1 G K1 K2 K3) (expected : Option (Fin N → ℝ)) (constantCosts : Bool)
    (solve : DrawSolver e) (s : RealizationState ι N) : RealizationEvent ι → RealizationState ι N
  | .build t => { s with jobs := Function.update s.jobs t (some (realizationRows { e with delta := s.delta } expected constantCosts solve t)) }
  | .write t =>
    match s.jobs t with
    | none => s
    | some rows =>
      { s with
        prices := writeRows s.prices (indicesOf e.ids t) fun k => (rows k).price
        shares := writeRows s.shares (indicesOf e.ids t) fun k => (rows k).share
        delta := writeRows s.delta (indicesOf e.ids t) fun k => (rows k).delta }

/-- The sequences of events that `generate_items` (pyblp/utilities/basics.py:172-179) can lead to: without a pool, each market is built when
results of the one before have been written. With one, results are written in any order, and markets are built at any time before that. -/
def RealizationSchedule (pool : Option ℕ) (keys : List ι) (events : List (RealizationEvent ι)) : Prop :=
  match pool with
  | none => events = keys.flatMap fun t => [.build t, .write t]
  | some _ => events.Perm (keys.flatMap fun t => [.build t, .write t]) ∧
      ∀ before after t, events = before ++ .write t :: after → .build t ∈ before

/-- Arrays after realizations of prices, shares and mean utilities have been computed, pyblp/results/problem_results.py:1565-1609. -/
noncomputable def computeRealization (e : BootstrapEconomy ι N 1 G K1 K2 K3) (expected : Option (Fin N → ℝ)) (constantCosts : Bool)
    (solve : DrawSolver e) (events : List (RealizationEvent ι)) : RealizationState ι N :=
  events.foldl (realizationStep e expected constantCosts solve) ⟨e.delta, fun _ => 0, fun _ => 0, fun _ => none⟩

section jacobian

variable {V W : Type} [Fintype V] [DecidableEq V] [Fintype W] [DecidableEq W] [DecidableEq K2]

/-- Tastes of the market that `jacobian_market_factory` builds: columns of `X2` with prices are evaluated at those of the realization,
pyblp/results/problem_results.py:1615-1628 and pyblp/markets/market.py:136-142. -/
def realizationTastes (e : BootstrapEconomy ι N 1 G K1 K2 K3) (t : ι) (T : Tastes (MarketRows e.ids t) (Fin (e.agents t)) K2 V W)
    (prices : Fin N → ℝ) : Tastes (MarketRows e.ids t) (Fin (e.agents t)) K2 V W :=
  { T with X2 := fun j k => if e.has2 k then e.x2 k j (prices j) else e.x2 k j (e.prices j) }

/-- The demand-side Jacobian of a realization with respect to a parameter, pyblp/results/problem_results.py:1611-1642 and
pyblp/markets/economy_results_market.py:54-70. `inverse` is what the linear solver applies. -/
noncomputable def realizationXiJacobian (e : BootstrapEconomy ι N 1 G K1 K2 K3) (s : RealizationState ι N) (t : ι) [Nonempty (MarketRows e.ids t)]
    (T : Tastes (MarketRows e.ids t) (Fin (e.agents t)) K2 V W) (sigma : K2 → V → ℝ) (pi : K2 → W → ℝ)
    (inverse : MarketRows e.ids t → MarketRows e.ids t → ℝ) (p : TangentParam (MarketRows e.ids t) G K2 V W) (j : MarketRows e.ids t) : ℝ :=
  let T' := realizationTastes e t T s.prices
  let mu := computeMu T' sigma pi
  let delta := fun j : MarketRows e.ids t => s.delta j
  xiByTheta (e.market 0 t) inverse (probabilitiesTangent (e.market 0 t) T' sigma pi {} delta (computeProbabilities (e.market 0 t) {} delta mu)
    (computeConditionals (e.market 0 t) {} delta mu) p).1 j

end jacobian

/-- `xi_jacobian[bad] = self.xi_by_theta_jacobian[bad]`, pyblp/results/problem_results.py:1644-1653. `none` is not finite. -/
def revertJacobian {α : Type} (estimated : α → ℝ) (computed : α → Option ℝ) : α → ℝ := fun a => (computed a).getD (estimated a)

/-- Methods for drawing errors. Used for pyblp/results/problem_results.py:1437-1456. -/
inductive DrawMethod where
  | approximate
  | normal
  | empirical
  deriving DecidableEq

/-- `draws`, pyblp/results/problem_results.py:1458-1462. `none` is `ValueError`. -/
def errorDraws (method : DrawMethod) (draws : ℤ) : Option ℕ :=
  let draws := if method = .approximate then 1 else draws
  if draws < 1 then none else some draws.toNat

/-- `sample`, pyblp/results/problem_results.py:1437-1456. `normal` is what NumPy returns for the normal method, and `choice` for the
empirical method. -/
def sampleErrors {N : Type} (method : DrawMethod) (xi omega : N → ℝ) (normal : (N → ℝ) × (N → ℝ)) (choice : N → N) : (N → ℝ) × (N → ℝ) :=
  match method with
  | .approximate => (fun _ => 0, fun _ => 0)
  | .normal => normal
  | .empirical => sampleEmpirical xi omega choice

end Pyblp
