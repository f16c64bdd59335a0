import Verif.Model.PyErr
import Verif.Tactics
import Mathlib.Data.EReal.Basic
import Mathlib.Data.Real.Basic
import Mathlib.Data.Finset.Lattice.Fold
import Mathlib.Data.Fintype.Basic

/-!
# Objective evaluations and GMM steps (`economies/problem.py`)

A floating point number is a real number or is not finite (`none`). Products, micro moments, costs and parameters are indexed by
arbitrary types. The type `C` of costs is empty if there is no supply side, and `M` is empty if there are no micro moments.
-/

namespace Pyblp

open Classical

/-! ## Errors and reversion -/

/-- Errors that `_compute_progress` collects, pyblp/economies/problem.py:1161 and 1287-1545. Errors from markets are numbered. -/
inductive EvalError where
  | market (n : ℕ)
  | delta | micro | costs | xiJacobian | microJacobian | omegaJacobian | objective | gradient
  deriving DecidableEq

/-- `values[bad_index] = last[bad_index]` where `bad_index = ~np.isfinite(values)`, e.g. pyblp/economies/problem.py:1288-1290. -/
def revertVec {ι : Type} (values last : ι → Option ℝ) : ι → Option ℝ := fun i =>
  match values i with
  | some x => some x
  | none => last i

/-- The error recorded if any element was replaced, e.g. pyblp/economies/problem.py:1289 and 1291. -/
noncomputable def revertErrors {ι : Type} (values : ι → Option ℝ) (e : EvalError) : List EvalError :=
  if ∃ i, values i = none then [e] else []

/-- The values of `error_behavior`. Used for pyblp/economies/problem.py:988-1015. -/
inductive ErrorBehavior where
  | raise | revert | punish
  deriving DecidableEq

/-- The values of `delta_behavior`. Used for pyblp/economies/problem.py:988-1015. -/
inductive DeltaBehavior where
  | last | logit | first
  deriving DecidableEq

/-- Memory for objective values, which are zero-dimensional arrays that `*=` changes in place.
Used for pyblp/economies/problem.py:1523-1531 and 1547-1557. -/
structure Heap where
  cells : ℕ → Option ℝ
  next : ℕ

/-- Progress information, pyblp/economies/problem.py:2212-2348. The objective is a reference. -/
structure ProgressInfo (N P M C : Type) where
  delta : N → Option ℝ
  nextDelta : N → Option ℝ
  micro : M → Option ℝ
  tildeCosts : C → Option ℝ
  xiJacobian : N × P → Option ℝ
  microJacobian : M × P → Option ℝ
  omegaJacobian : C × P → Option ℝ
  gradient : P → Option ℝ
  objective : ℕ
  errors : List EvalError

/-- What market-by-market computation and moments give for one value of `theta`: values of each market, errors, and the objective and
gradient as functions of the values after reversion. Used for pyblp/economies/problem.py:1287-1318 and 1020-1562 and 1655-1686. -/
structure RawEval (N P M C : Type) where
  delta : N → Option ℝ
  micro : M → Option ℝ
  tildeCosts : C → Option ℝ
  xiJacobian : N × P → Option ℝ
  microJacobian : M × P → Option ℝ
  omegaJacobian : C × P → Option ℝ
  errors : List EvalError
  objective : (N → Option ℝ) → (M → Option ℝ) → (C → Option ℝ) → Option ℝ
  gradient : (N → Option ℝ) → (M → Option ℝ) → (C → Option ℝ) →
    (N × P → Option ℝ) → (M × P → Option ℝ) → (C × P → Option ℝ) → P → Option ℝ

/-- Configuration of `_compute_progress`, pyblp/economies/problem.py:988-1015. -/
structure EvalConfig where
  errorBehavior : ErrorBehavior
  errorPunishment : ℝ
  deltaBehavior : DeltaBehavior

variable {N P M C : Type}

/-- The values at which the contraction starts, pyblp/economies/problem.py:1051-1053. -/
def startDelta (c : EvalConfig) (logitDelta : N → Option ℝ) (p : ProgressInfo N P M C) : N → Option ℝ :=
  if c.deltaBehavior = .logit then logitDelta else p.nextDelta

/-- Values after reversion and all errors, pyblp/economies/problem.py:1287-1318. Without Jacobians, `xi_jacobian` is what markets
return (pyblp/markets/problem_market.py:88), all NaN, and the other Jacobians are zero (1030, 1043). Jacobians from finite differences
(1320-1363) are not modelled here. -/
noncomputable def revertAll (computeJacobians : Bool) (p : ProgressInfo N P M C) (raw : RawEval N P M C) :
    (N × P → Option ℝ) × (M × P → Option ℝ) × (C × P → Option ℝ) × List EvalError :=
  if computeJacobians then
    (revertVec raw.xiJacobian p.xiJacobian, revertVec raw.microJacobian p.microJacobian, revertVec raw.omegaJacobian p.omegaJacobian,
      revertErrors raw.xiJacobian .xiJacobian ++ revertErrors raw.microJacobian .microJacobian ++
        revertErrors raw.omegaJacobian .omegaJacobian)
  else (fun _ => none, fun _ => some 0, fun _ => some 0, [])

/-- The objective, pyblp/economies/problem.py:1523-1531: a new array, or the last array if the value is not finite. -/
def placeObjective (h : Heap) (last : ℕ) (value : Option ℝ) : Heap × ℕ × List EvalError :=
  match value with
  | some x => (⟨fun r => if r = h.next then some x else h.cells r, h.next + 1⟩, h.next, [])
  | none => (h, last, [.objective])

/-- The gradient, pyblp/economies/problem.py:1533-1545. -/
noncomputable def placeGradient (computeGradient : Bool) (p : ProgressInfo N P M C) (value : P → Option ℝ) :
    (P → Option ℝ) × List EvalError :=
  if computeGradient then (revertVec value p.gradient, revertErrors value .gradient) else (fun _ => none, [])

/-- Handling of errors, pyblp/economies/problem.py:1547-1557. -/
def handleErrors (c : EvalConfig) (computeGradient : Bool) (errors : List EvalError) (h : Heap) (objective : ℕ)
    (gradient : P → Option ℝ) : Except (List EvalError) (Heap × ℕ × (P → Option ℝ)) :=
  if errors = [] then .ok (h, objective, gradient)
  else
    match c.errorBehavior with
    | .raise => .error errors
    | .revert =>
      .ok (⟨fun r => if r = objective then (h.cells r).map (· * c.errorPunishment) else h.cells r, h.next⟩, objective, gradient)
    | .punish =>
      .ok (⟨fun r => if r = h.next then some c.errorPunishment else h.cells r, h.next + 1⟩, h.next,
        if computeGradient then fun _ => some 0 else gradient)

/-- One evaluation, `_compute_progress`, pyblp/economies/problem.py:1020-1562 and 1655-1686. Market-by-market computation, linear
parameters and moments are inputs. -/
noncomputable def evaluateObjective (c : EvalConfig) (computeGradient : Bool) (logitDelta : N → Option ℝ)
    (markets : (N → Option ℝ) → RawEval N P M C) (h : Heap) (p : ProgressInfo N P M C) :
    Except (List EvalError) (Heap × ProgressInfo N P M C) :=
  let raw := markets (startDelta c logitDelta p)
  let delta := revertVec raw.delta p.delta
  let micro := revertVec raw.micro p.micro
  let costs := revertVec raw.tildeCosts p.tildeCosts
  let jac := revertAll computeGradient p raw
  let obj := placeObjective h p.objective (raw.objective delta micro costs)
  let grad := placeGradient computeGradient p (raw.gradient delta micro costs jac.1 jac.2.1 jac.2.2.1)
  let errors := raw.errors ++ revertErrors raw.delta .delta ++ revertErrors raw.micro .micro ++
    revertErrors raw.tildeCosts .costs ++ jac.2.2.2 ++ obj.2.2 ++ grad.2
  match handleErrors c computeGradient errors obj.1 obj.2.1 grad.1 with
  | .error e => .error e
  | .ok (h', objective, gradient) =>
    .ok (h', ⟨delta, if c.deltaBehavior = .first then p.nextDelta else delta, micro, costs, jac.1, jac.2.1, jac.2.2.1, gradient,
      objective, errors⟩)

/-- A history of evaluations, each with its own `theta` and hence its own logit `delta` and markets; results are listed.
Used for pyblp/economies/problem.py:1020-1562. -/
noncomputable def evaluateAll (c : EvalConfig) : List (Bool × (N → Option ℝ) × ((N → Option ℝ) → RawEval N P M C)) → Heap →
    ProgressInfo N P M C → Except (List EvalError) (Heap × List (ProgressInfo N P M C))
  | [], h, _ => .ok (h, [])
  | (g, logitDelta, markets) :: rest, h, p =>
    match evaluateObjective c g logitDelta markets h p with
    | .error e => .error e
    | .ok (h', q) =>
      match evaluateAll c rest h' q with
      | .error e => .error e
      | .ok (h'', qs) => .ok (h'', q :: qs)

/-! ## Projected gradient and reduced Hessian -/

/-- One iteration of the loop over bounds, pyblp/economies/problem.py:2353-2360. -/
noncomputable def projectOne {P : ℕ} (theta gradient : Fin P → ℝ) (bounds : Fin P → EReal × EReal)
    (s : (Fin P → ℝ) × (Fin P → Fin P → ℝ)) (p : Fin P) : (Fin P → ℝ) × (Fin P → Fin P → ℝ) :=
  if ¬ ((bounds p).1 < theta p ∧ (theta p : EReal) < (bounds p).2) then
    let hessian := fun i j => if i = p ∨ j = p then 0 else s.2 i j
    if (theta p : EReal) ≤ (bounds p).1 then (fun i => if i = p then min 0 (gradient p) else s.1 i, hessian)
    else if (theta p : EReal) ≥ (bounds p).2 then (fun i => if i = p then max 0 (gradient p) else s.1 i, hessian)
    else (s.1, hessian)
  else s

/-- The projected gradient and reduced Hessian, pyblp/economies/problem.py:2350-2360. -/
noncomputable def projectAll {P : ℕ} (theta gradient : Fin P → ℝ) (hessian : Fin P → Fin P → ℝ) (bounds : Fin P → EReal × EReal) :
    (Fin P → ℝ) × (Fin P → Fin P → ℝ) :=
  (List.finRange P).foldl (projectOne theta gradient bounds) (gradient, hessian)

/-- The norm of the projected gradient, pyblp/economies/problem.py:2362-2366, `none` if there are no parameters. -/
noncomputable def projectedNorm {P : ℕ} (projected : Fin P → ℝ) : Option ℝ :=
  if h : (Finset.univ : Finset (Fin P)).Nonempty then some (Finset.univ.sup' h fun p => |projected p|) else none

/-! ## GMM steps -/

/-- Estimation methods. Used for pyblp/economies/problem.py:805-986. -/
inductive GmmMethod where
  | oneStep | twoStep
  deriving DecidableEq

/-- Solver statistics, pyblp/utilities/basics.py:468-479. -/
structure StepStats where
  converged : Bool
  iterations : ℕ
  evaluations : ℕ

/-- What is carried from one step to the next, pyblp/economies/problem.py:980-985 and `theta`. -/
structure GmmState (W T D : Type) where
  W : W
  theta : T
  delta : D

/-- Results of a step: inputs, whether there was optimization, outputs and statistics, pyblp/results/problem_results.py:459-498. -/
structure StepResults (W T D : Type) where
  step : ℕ
  start : GmmState W T D
  optimized : Bool
  theta : T
  delta : D
  updatedW : W
  converged : Bool
  iterations : ℕ
  evaluations : ℕ
  cumulativeConverged : Bool
  cumulativeIterations : ℕ
  cumulativeEvaluations : ℕ
  fpIterations : List ℕ
  cumulativeFpIterations : List ℕ

/-- Optimization and computation of results in a step: `optimize step state` gives final `theta` and statistics, and `finish step
state theta` gives `delta`, the updated weighting matrix and numbers of fixed point iterations at each evaluation.
Used for pyblp/economies/problem.py:905-966 and 805-986. -/
structure GmmOracle (W T D : Type) where
  optimize : ℕ → GmmState W T D → T × StepStats
  finish : ℕ → GmmState W T D → T → D × W × List ℕ

/-- The choice of `initial_update`, pyblp/economies/problem.py:711-715. -/
def chooseInitialUpdate (requested : Option Bool) (hasMicro hasW : Bool) : Except PyErr Bool :=
  match requested with
  | none => .ok (hasMicro && !hasW)
  | some true => .ok true
  | some false => if hasMicro && !hasW then .error .valueError else .ok false

/-- One step, pyblp/economies/problem.py:905-966 and pyblp/results/problem_results.py:459-498. -/
def gmmStep {W T D : Type} (o : GmmOracle W T D) (P step : ℕ) (s : GmmState W T D) (last : Option (StepResults W T D)) :
    StepResults W T D :=
  let optimized := decide (P > 0 ∧ step > 0)
  let r := if optimized then o.optimize step s else (s.theta, ⟨true, 0, 0⟩)
  let f := o.finish step s r.1
  let evaluations := r.2.evaluations + 1
  { step := step
    start := s
    optimized := optimized
    theta := r.1
    delta := f.1
    updatedW := f.2.1
    converged := r.2.converged
    iterations := r.2.iterations
    evaluations := evaluations
    cumulativeConverged := match last with | none => r.2.converged | some l => l.converged && r.2.converged
    cumulativeIterations := match last with | none => r.2.iterations | some l => r.2.iterations + l.cumulativeIterations
    cumulativeEvaluations := match last with | none => evaluations | some l => evaluations + l.cumulativeEvaluations
    fpIterations := f.2.2
    cumulativeFpIterations := match last with | none => f.2.2 | some l => l.cumulativeFpIterations ++ f.2.2 }

/-- The loop over steps, pyblp/economies/problem.py:805-986. The loop ends when `step` is two; it is written to end at larger steps,
too, which are never reached. -/
def gmmLoop {W T D : Type} (o : GmmOracle W T D) (method : GmmMethod) (P : ℕ) (step : ℕ) (s : GmmState W T D)
    (last : Option (StepResults W T D)) : List (StepResults W T D) :=
  let r := gmmStep o P step s last
  if step ≥ 2 ∨ (method = .oneStep ∧ step = 1) then [r]
  else r :: gmmLoop o method P (step + 1) ⟨r.updatedW, r.theta, r.delta⟩ (some r)
termination_by 2 - step

/-- `solve`, pyblp/economies/problem.py:805-986: results of all steps, the last of which is returned. -/
def gmmSolve {W T D : Type} (o : GmmOracle W T D) (method : GmmMethod) (P : ℕ) (initialUpdate : Bool) (s : GmmState W T D) :
    List (StepResults W T D) := gmmLoop o method P (if initialUpdate then 0 else 1) s none

end Pyblp
