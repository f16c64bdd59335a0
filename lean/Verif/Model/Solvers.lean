import Verif.Model.Optimizer
import Verif.Model.Iteration
import Verif.Model.Parameters
import Mathlib.Data.Matrix.Basic

/-!
# What is between the model and an external solver (`configurations/optimization.py`, `configurations/iteration.py`)

An optimizer or a root finder is an arbitrary program that asks questions one after another, each of which may depend on all
answers so far, and then returns. It always returns (simplification: routines that run forever are not modelled).
-/

namespace Pyblp

open Classical

noncomputable section

variable {n : ℕ} {α β ι : Type}

/-- An optimizer of SciPy, or a custom one, as a program: it returns values and a flag, asks for the objective or for the gradient
at values, or calls the callback for iterations. Used for pyblp/configurations/optimization.py:560-565. -/
inductive OptRoutine (n : ℕ) (α β : Type) where
  | done (values : OptPoint n) (success : Bool)
  | objective (values : OptPoint n) (next : α → OptRoutine n α β)
  | gradient (values : OptPoint n) (next : β → OptRoutine n α β)
  | callback (next : OptRoutine n α β)

/-- What the objective is given on each evaluation: values, iterations and evaluations so far. Used for
pyblp/configurations/optimization.py:282-299. -/
structure Told (n : ℕ) where
  values : OptPoint n
  iterations : ℕ
  evaluations : ℕ

/-- Counters of `_optimize` (pyblp/configurations/optimization.py:277-294), the cache of `scipy_optimizer`
(pyblp/configurations/optimization.py:532) and everything that the objective has been given. -/
structure OptRun (n : ℕ) (α β : Type) where
  iterations : ℕ
  evaluations : ℕ
  cache : Option (OptPoint n × (α × β))
  log : List (Told n)

/-- `objective_wrapper` of `_optimize`, pyblp/configurations/optimization.py:284-299: count, then evaluate. The objective may depend
on all earlier evaluations. Arrays are flat here, so that changes of shapes and types do nothing. -/
def OptRun.evaluate (f : List (Told n) → Told n → α × β) (s : OptRun n α β) (values : OptPoint n) : (α × β) × OptRun n α β :=
  let told : Told n := ⟨values, s.iterations, s.evaluations + 1⟩
  (f s.log told, { s with evaluations := s.evaluations + 1, log := s.log ++ [told] })

/-- pyblp/configurations/optimization.py:536-539, 543-546 and 608-613: use the cache if values are the same. -/
def OptRun.cached (f : List (Told n) → Told n → α × β) (s : OptRun n α β) (values : OptPoint n) : (α × β) × OptRun n α β :=
  let fresh : (α × β) × OptRun n α β :=
    let out := s.evaluate f values
    (out.1, { out.2 with cache := some (values, out.1) })
  match s.cache with
  | none => fresh
  | some (point, output) => if arrayEqual values point then (output, s) else fresh

/-- `iteration_callback`, pyblp/configurations/optimization.py:279-282. -/
def OptRun.callback (s : OptRun n α β) : OptRun n α β := { s with iterations := s.iterations + 1 }

/-- The routine runs with the wrappers of `scipy_optimizer`, pyblp/configurations/optimization.py:522-566. -/
def OptRoutine.run (f : List (Told n) → Told n → α × β) : OptRoutine n α β → OptRun n α β → (OptPoint n × Bool) × OptRun n α β
  | .done values success, s => ((values, success), s)
  | .objective values next, s =>
    let out := s.cached f values
    (next out.1.1).run f out.2
  | .gradient values next, s =>
    let out := s.cached f values
    (next out.1.2).run f out.2
  | .callback next, s => next.run f s.callback

/-- `SolverStats`, pyblp/utilities/basics.py:468-479. -/
structure SolverReport where
  converged : Bool
  iterations : ℕ
  evaluations : ℕ

/-- At the start, pyblp/configurations/optimization.py:277 and 532. -/
def OptRun.initial : OptRun n α β := ⟨0, 0, none, []⟩

/-- Bounds given to the routine, pyblp/configurations/optimization.py:302-303. -/
def rawBounds (supportsBounds : Bool) (bounds : Option (Fin n → EReal × EReal)) : Option (Fin n → EReal × EReal) :=
  match bounds with
  | none => none
  | some b => if supportsBounds then some b else none

/-- `_optimize` with a routine of SciPy, pyblp/configurations/optimization.py:266-307 and 522-566. Also returned is everything that the
objective was given. -/
def optimizeScipy (f : List (Told n) → Told n → α × β) (supportsBounds : Bool) (bounds : Option (Fin n → EReal × EReal))
    (routine : OptPoint n → Option (Fin n → EReal × EReal) → OptRoutine n α β) (initial : OptPoint n) :
    OptPoint n × SolverReport × List (Told n) :=
  let out := (routine initial (rawBounds supportsBounds bounds)).run f .initial
  (out.1.1, ⟨out.1.2, out.2.iterations, out.2.evaluations⟩, out.2.log)

/-- `_optimize` with `return_optimizer`, pyblp/configurations/optimization.py:266-307 and 516-519. -/
def optimizeReturn (initial : OptPoint n) : OptPoint n × SolverReport := (initial, ⟨true, 0, 0⟩)

/-- Knitro as a program: it returns values and a code, or asks for the objective or gradient, with the number of its iterations so
far. Used for pyblp/configurations/optimization.py:594-673 and 676-788. -/
inductive KnitroRoutine (n : ℕ) where
  | done (values : OptPoint n) (code : ℤ)
  | objective (values : OptPoint n) (current : ℕ) (next : Fl → KnitroRoutine n)
  | gradient (values : OptPoint n) (current : ℕ) (next : (Fin n → Fl) → KnitroRoutine n)

/-- `sys.maxsize` of a 64-bit build. Used for pyblp/configurations/optimization.py:616 and 721. -/
def maxSize : EReal := ((2 ^ 63 - 1 : ℝ) : EReal)

/-- `normalize`, pyblp/configurations/optimization.py:616 and 721. NaN remains NaN, because Python's `max` and `min` return their first
argument if comparisons are false. -/
def knitroNormalize (x : Fl) : Fl := x.map fun a => min (max a (-maxSize)) maxSize

/-- `while iterations < current_iterations: iteration_callback()`, pyblp/configurations/optimization.py:622-624 and 710-712. There is
one count in `knitro_optimizer` and one in `_optimize`, and they are equal. -/
def OptRun.catchUp (s : OptRun n α β) (current : ℕ) : OptRun n α β :=
  if _h : s.iterations < current then s.callback.catchUp current else s
termination_by current - s.iterations
decreasing_by simp only [OptRun.callback]; omega

/-- `knitro_optimizer_kn` and, if `legacy`, `knitro_optimizer_ktr`, pyblp/configurations/optimization.py:594-673 and 676-788: only the
legacy callback looks at the number of iterations when it is asked for the gradient. -/
def KnitroRoutine.run (legacy : Bool) (f : List (Told n) → Told n → Fl × (Fin n → Fl)) :
    KnitroRoutine n → OptRun n Fl (Fin n → Fl) → (OptPoint n × ℤ) × OptRun n Fl (Fin n → Fl)
  | .done values code, s => ((values, code), s)
  | .objective values current next, s =>
    let out := (s.catchUp current).cached f values
    (next (knitroNormalize out.1.1)).run legacy f out.2
  | .gradient values current next, s =>
    let out := (if legacy then s.catchUp current else s).cached f values
    (next fun i => knitroNormalize (out.1.2 i)).run legacy f out.2

/-- `_optimize` with Knitro, pyblp/configurations/optimization.py:266-307, 594-673 and 676-788; the flag is that of lines 673 and 788. -/
def optimizeKnitro (legacy : Bool) (f : List (Told n) → Told n → Fl × (Fin n → Fl)) (supportsBounds : Bool)
    (bounds : Option (Fin n → EReal × EReal))
    (routine : OptPoint n → Option (Fin n → EReal × EReal) → KnitroRoutine n) (initial : OptPoint n) :
    OptPoint n × SolverReport × List (Told n) :=
  let out := (routine initial (rawBounds supportsBounds bounds)).run legacy f .initial
  (out.1.1, ⟨decide (out.1.2 > -200), out.2.iterations, out.2.evaluations⟩, out.2.log)

/-- What a contraction returns. Used for pyblp/configurations/iteration.py:269-283. -/
structure ContractionOutput (ι : Type) where
  values : FVec ι
  weights : Option (FVec ι)
  jacobian : Option (Matrix ι ι (Option ℝ))

/-- `all_finite(x, weights, jacobian)`, pyblp/configurations/iteration.py:486-488. -/
def ContractionOutput.AllFinite (y : ContractionOutput ι) : Prop :=
  y.values.Finite ∧ (∀ w, y.weights = some w → w.Finite) ∧ ∀ m, y.jacobian = some m → ∀ i j, (m i j).isSome

/-- A root finder of SciPy as a program: it returns values and a flag, asks for the function (with its Jacobian) at values, asks for
the norm of a vector, or calls the callback for iterations. Used for pyblp/configurations/iteration.py:361-366. -/
inductive RootRoutine (ι : Type) where
  | done (values : FVec ι) (success : Bool)
  | ask (values : FVec ι) (next : FVec ι → Option (Matrix ι ι (Option ℝ)) → RootRoutine ι)
  | norm (vector : FVec ι) (next : Option ℝ → RootRoutine ι)
  | callback (next : RootRoutine ι)

/-- Counters of `_iterate` (pyblp/configurations/iteration.py:262-273), and `failed` and `weights_cache` of `scipy_iterator`
(pyblp/configurations/iteration.py:319 and 331). Also kept is everything that the contraction has been given: values, iterations and
evaluations. -/
structure RootRun (ι : Type) where
  iterations : ℕ
  evaluations : ℕ
  failed : Bool
  weights : FVec ι
  log : List (FVec ι × ℕ × ℕ)

/-- At the start, pyblp/configurations/iteration.py:262, 319 and 331. -/
def RootRun.initial : RootRun ι := ⟨0, 0, false, fun _ => some 1, []⟩

/-- `x0 - x`, pyblp/configurations/iteration.py:356-358. -/
def residualOf (x0 x : FVec ι) : FVec ι := x0.sub x

/-- `np.eye(x.size) - jacobian`, pyblp/configurations/iteration.py:358. -/
def eyeMinus [DecidableEq ι] (m : Matrix ι ι (Option ℝ)) : Matrix ι ι (Option ℝ) :=
  fun i j => (m i j).map fun a => (if i = j then 1 else 0) - a

/-- `contraction_wrapper` of `scipy_iterator`, pyblp/configurations/iteration.py:333-358, after that of `_iterate`, 269-283. The
contraction may depend on all earlier evaluations. `supports` is whether the method has a callback for iterations (lines 321-328):
`hybr` and `lm` do not. -/
def RootRun.evaluate [DecidableEq ι] (c : List (FVec ι × ℕ × ℕ) → FVec ι × ℕ × ℕ → ContractionOutput ι) (supports : Bool) (s : RootRun ι)
    (x0 : FVec ι) : (FVec ι × Option (Matrix ι ι (Option ℝ))) × RootRun ι :=
  let told := (x0, s.iterations, s.evaluations + 1)
  let y := c s.log told
  let finite := y.AllFinite
  let x := if finite then y.values else x0
  let weights := if finite then y.weights else none
  let jacobian := if finite then y.jacobian else y.jacobian.map fun _ _ _ => some 0
  let state : RootRun ι :=
    ⟨if supports then s.iterations else s.iterations + 1, s.evaluations + 1, if finite then s.failed else true,
      weights.getD s.weights, s.log ++ [told]⟩
  ((residualOf x0 x, jacobian.map eyeMinus), state)

/-- The routine runs with the wrappers of `scipy_iterator`, pyblp/configurations/iteration.py:308-366. The configured norm is of weighted
vectors (line 328); `hybr` and `lm` do not ask for norms, they use weights directly, which is not modelled. -/
def RootRoutine.run [DecidableEq ι] (c : List (FVec ι × ℕ × ℕ) → FVec ι × ℕ × ℕ → ContractionOutput ι) (supports : Bool)
    (norm : FVec ι → Option ℝ) : RootRoutine ι → RootRun ι → (FVec ι × Bool) × RootRun ι
  | .done values success, s => ((values, success), s)
  | .ask values next, s =>
    let out := s.evaluate c supports values
    (next out.1.1 out.1.2).run c supports norm out.2
  | .norm vector next, s => (next (norm (s.weights.mul vector))).run c supports norm s
  | .callback next, s =>
    next.run c supports norm (if supports then { s with iterations := s.iterations + 1 } else s)

/-- `_iterate` with a root finder of SciPy, pyblp/configurations/iteration.py:258-294 and 308-366. Also returned is everything that the
contraction was given. -/
def iterateScipy [DecidableEq ι] (c : List (FVec ι × ℕ × ℕ) → FVec ι × ℕ × ℕ → ContractionOutput ι) (supports : Bool)
    (norm : FVec ι → Option ℝ) (routine : FVec ι → RootRoutine ι) (initial : FVec ι) :
    FVec ι × SolverReport × List (FVec ι × ℕ × ℕ) :=
  let out := (routine initial).run c supports norm .initial
  (out.1.1, ⟨!out.2.failed && out.1.2, out.2.iterations, out.2.evaluations⟩, out.2.log)

end

end Pyblp
