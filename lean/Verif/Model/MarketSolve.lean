import Verif.Model.Configurations
import Mathlib.Analysis.SpecialFunctions.Log.Basic

/-!
# Market-by-market computation and its errors (`markets/problem_market.py`)

`ProblemMarket.solve` with the computation of contractions, probabilities, tangents, micro moments and inverses as parameters, which
are modelled elsewhere. Here it is about which of these are done, with what, and which errors are reported. A floating point number is NaN, infinite or
a real number.
-/

namespace Pyblp

open Classical

noncomputable section

/-- Errors that `ProblemMarket.solve` reports. Errors about inverses that were replaced are numbered.
Used for pyblp/markets/problem_market.py:56-201 and 214-335. -/
inductive SolveError where
  | replaced (n : ℕ)
  | generic | delta | convergence | xiJacobian | micro | costs | nonpositiveCosts | omegaJacobian
  deriving DecidableEq

/-- What a computation gives: a value, numbers of errors about inverses, and whether NumPy noticed a floating point problem.
Used for pyblp/markets/problem_market.py:56-201 and 214-335. -/
structure Computed (α : Type) where
  value : α
  replaced : List ℕ
  problem : Bool

/-- `NumericalErrorHandler` around a computation that returns errors, pyblp/utilities/basics.py:679-687. Problems in nested computations that
are themselves decorated are not included, see C71. -/
def handled (cls : SolveError) (errors : List SolveError) (problem : Bool) : List SolveError := if problem then errors ++ [cls] else errors

/-- A number that is neither NaN nor infinite, `np.isfinite`. Used for pyblp/markets/problem_market.py:64. -/
def FlFinite (x : Fl) : Prop := ∃ r : ℝ, x = some (r : EReal)

/-- `values[bad_index] = last[bad_index]` where `bad_index = ~np.isfinite(values)`, pyblp/markets/problem_market.py:63-65 and 164-166. -/
def replaceBad {ι : Type} (values last : ι → Fl) : ι → Fl := fun i => if FlFinite (values i) then values i else last i

/-- `np.log` without warnings, pyblp/markets/problem_market.py:306-307. -/
def flLog : Fl → Fl
  | none => none
  | some x => if x < 0 then none else if x = 0 then some ⊥ else if x = ⊤ then some ⊤ else some (Real.log x.toReal : ℝ)

/-- Computation in a market: `X` are probabilities with conditional ones, `T` their tangents, `Y` an inverse and `M` what is computed for
micro moments. Used for pyblp/markets/problem_market.py:56-201. -/
structure MarketOps (J P X T Y M : Type) where
  computeDelta : (J → Fl) → Computed ((J → Fl) × (J → Bool) × Bool)
  probabilities : (J → Fl) → X × Bool
  noTangents : T
  tangents : X → (J → Fl) → Bool → T × Bool
  computeXiJacobian : X → T → Computed (J → P → Fl)
  updateTangents : T → X → (J → P → Fl) → T × Bool
  computeMicro : (J → Fl) → X → T → (J → P → Fl) → Bool → Bool → Computed M
  computeEta : X → Bool → Computed ((J → Fl) × Y)
  computeOmegaJacobian : (J → Fl) → (J → Fl) → Y → X → T → Computed (J → P → Fl)
  prices : J → ℝ

/-- What is to be computed: Jacobians, covariances of micro moments, whether there are micro moments, whether there is a supply side, whether costs are
in logs, and bounds for costs. Used for pyblp/markets/problem_market.py:20-31. -/
structure MarketFlags where
  jacobians : Bool
  microCovariances : Bool
  hasMicro : Bool
  hasSupply : Bool
  logCosts : Bool
  costsBounds : EReal × EReal

/-- What `ProblemMarket.solve` returns, pyblp/markets/problem_market.py:185-201. -/
structure MarketSolution (J P M : Type) where
  delta : J → Fl
  xiJacobian : J → P → Fl
  micro : Option M
  clippedShares : J → Bool
  converged : Bool
  tildeCosts : Option (J → Fl)
  omegaJacobian : J → P → Fl
  clippedCosts : J → Bool
  errors : List SolveError

variable {J P X T Y M : Type}

/-- `safely_compute_delta`, pyblp/markets/problem_market.py:203-217. -/
def safelyComputeDelta (o : MarketOps J P X T Y M) (initial : J → Fl) : ((J → Fl) × (J → Bool) × Bool) × List SolveError :=
  let c := o.computeDelta initial
  (c.value, handled .delta (c.replaced.map .replaced ++ if c.value.2.2 then [] else [.convergence]) c.problem)

/-- `costs < costs_bounds[0] | costs > costs_bounds[1]`, pyblp/markets/problem_market.py:295. -/
def outsideBounds (bounds : EReal × EReal) : Fl → Prop
  | none => False
  | some c => c < bounds.1 ∨ bounds.2 < c

/-- `np.clip(costs, *costs_bounds)`, pyblp/markets/problem_market.py:296-297. -/
def clipCost (bounds : EReal × EReal) : Fl → Fl
  | none => none
  | some c => some (min (max c bounds.1) bounds.2)

/-- `safely_compute_tilde_costs`, pyblp/markets/problem_market.py:274-311: transformed costs, which were clipped, the markup term and an
inverse, which is not computed without Jacobians. -/
def safelyComputeTildeCosts (o : MarketOps J P X T Y M) (f : MarketFlags) (x : X) : ((J → Fl) × (J → Bool) × (J → Fl) × Y) × List SolveError :=
  let eta := o.computeEta x f.jacobians
  let costs : J → Fl := fun j => (eta.value.1 j).map fun e => (o.prices j : EReal) - e
  let clipped : J → Bool := fun j => decide (outsideBounds f.costsBounds (costs j))
  let costs := if ∃ j, clipped j = true then fun j => clipCost f.costsBounds (costs j) else costs
  let nonpositive : Prop := ∃ j c, costs j = some c ∧ c ≤ 0
  let tilde := if f.logCosts then fun j => flLog (costs j) else costs
  ((tilde, clipped, eta.value.1, eta.value.2),
    handled .costs (eta.replaced.map .replaced ++ if f.logCosts ∧ nonpositive then [.nonpositiveCosts] else []) eta.problem)

/-- The supply side, pyblp/markets/problem_market.py:142-183. -/
def solveSupply (o : MarketOps J P X T Y M) (f : MarketFlags) (lastCosts : J → Fl) (x : X) (t : T) :
    (J → Fl) × (J → Bool) × (J → P → Fl) × List SolveError :=
  let c := safelyComputeTildeCosts o f x
  let valid := replaceBad c.1.1 lastCosts
  if f.jacobians then
    let w := o.computeOmegaJacobian valid c.1.2.2.1 c.1.2.2.2 x t
    (c.1.1, c.1.2.1, fun j p => if c.1.2.1 j = true then some 0 else w.value j p,
      c.2 ++ handled .omegaJacobian (w.replaced.map .replaced) w.problem)
  else (c.1.1, c.1.2.1, fun _ _ => none, c.2)

/-- `ProblemMarket.solve` after the contraction, pyblp/markets/problem_market.py:62-201, with errors so far and whether NumPy noticed
problems outside of decorated computations. -/
def solveRest (o : MarketOps J P X T Y M) (f : MarketFlags) (lastCosts valid : J → Fl) :
    (J → P → Fl) × Option M × Option (J → Fl) × (J → P → Fl) × (J → Bool) × List SolveError × Bool :=
  if f.jacobians ∨ f.hasMicro ∨ f.hasSupply then
    let x := o.probabilities valid
    let t := if f.jacobians then o.tangents x.1 valid f.hasSupply else (o.noTangents, false)
    let xi : Computed (J → P → Fl) := if f.jacobians then o.computeXiJacobian x.1 t.1 else ⟨fun _ _ => none, [], false⟩
    let t' := if f.jacobians ∧ (f.hasMicro ∨ f.hasSupply) then o.updateTangents t.1 x.1 xi.value else (t.1, false)
    let micro : Option (Computed M) := if f.hasMicro then some (o.computeMicro valid x.1 t'.1 xi.value f.jacobians f.microCovariances) else none
    let microErrors := match micro with
      | none => []
      | some m => handled .micro (m.replaced.map .replaced) m.problem
    let errors := handled .xiJacobian (xi.replaced.map .replaced) xi.problem ++ microErrors
    let problem := x.2 || t.2 || t'.2
    if f.hasSupply then
      let s := solveSupply o f lastCosts x.1 t'.1
      (xi.value, micro.map Computed.value, some s.1, s.2.2.1, s.2.1, errors ++ s.2.2.2, problem)
    else (xi.value, micro.map Computed.value, none, fun _ _ => none, fun _ => false, errors, problem)
  else (fun _ _ => none, none, none, fun _ _ => none, fun _ => false, [], false)

/-- `ProblemMarket.solve`, pyblp/markets/problem_market.py:18-201. -/
def solveMarket (o : MarketOps J P X T Y M) (f : MarketFlags) (initial lastDelta lastCosts : J → Fl) : MarketSolution J P M :=
  let d := safelyComputeDelta o initial
  let valid := replaceBad d.1.1 lastDelta
  let r := solveRest o f lastCosts valid
  { delta := d.1.1
    xiJacobian := r.1
    micro := r.2.1
    clippedShares := d.1.2.1
    converged := d.1.2.2
    tildeCosts := r.2.2.1
    omegaJacobian := r.2.2.2.1
    clippedCosts := r.2.2.2.2.1
    errors := handled .generic (d.2 ++ r.2.2.2.2.2.1) r.2.2.2.2.2.2 }

/-! ## All markets -/

/-- `delta` after all markets were solved and values that are not finite were replaced, pyblp/economies/problem.py:1136 and 1287-1291. -/
def problemDelta {K : Type} (J : K → Type) (solutions : (t : K) → MarketSolution (J t) P M) (last : (Σ t, J t) → Fl) : (Σ t, J t) → Fl :=
  replaceBad (fun i => (solutions i.1).delta i.2) last

/-- `tilde_costs` after all markets were solved and values that are not finite were replaced, pyblp/economies/problem.py:1156 and 1297-1301. -/
def problemCosts {K : Type} (J : K → Type) (solutions : (t : K) → MarketSolution (J t) P M) (last : (Σ t, J t) → Fl) : (Σ t, J t) → Fl :=
  replaceBad (fun i => match (solutions i.1).tildeCosts with | some c => c i.2 | none => some 0) last

end

end Pyblp
