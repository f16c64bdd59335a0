import Mathlib.Data.Real.Basic
import Verif.Tactics

/-!
# The cache between the objective and SciPy's optimizers (`configurations/optimization.py`)
-/

namespace Pyblp

open Classical

variable {n : ℕ} {α β : Type}

/-- Parameter values; `none` is NaN. Used for pyblp/configurations/optimization.py:532 and 534-546. -/
abbrev OptPoint (n : ℕ) := Fin n → Option ℝ

/-- `np.array_equal`: NaN is not equal to NaN. Used for pyblp/configurations/optimization.py:537 and 544. -/
def arrayEqual (a b : OptPoint n) : Prop := ∀ i, ∃ x, a i = some x ∧ b i = some x

/-- What the optimizer asks for. Used for pyblp/configurations/optimization.py:534-546. -/
inductive OptRequest (n : ℕ) where
  | objective (values : OptPoint n)
  | gradient (values : OptPoint n)

/-- The point asked about. Used for pyblp/configurations/optimization.py:534-546. -/
def OptRequest.point : OptRequest n → OptPoint n
  | .objective v => v
  | .gradient v => v

/-- State: the cache, pyblp/configurations/optimization.py:532, and points at which the model was evaluated so far, in order. -/
structure OptState (n : ℕ) (α β : Type) where
  cache : Option (OptPoint n × (α × β))
  log : List (OptPoint n)

/-- pyblp/configurations/optimization.py:537-538 and 544-545. What `objective_function` returns may depend on all earlier
evaluations. `values.copy()` is why later changes of the optimizer's array do not change the cache. -/
noncomputable def OptState.refresh (f : List (OptPoint n) → OptPoint n → α × β) (s : OptState n α β) (values : OptPoint n) :
    OptState n α β :=
  match s.cache with
  | none => ⟨some (values, f s.log values), s.log ++ [values]⟩
  | some (point, _) => if ¬ arrayEqual values point then ⟨some (values, f s.log values), s.log ++ [values]⟩ else s

/-- `objective_wrapper` and `gradient_wrapper`, pyblp/configurations/optimization.py:534-546. The value is `none` if there is nothing in
the cache, which does not happen. -/
noncomputable def OptState.serve (f : List (OptPoint n) → OptPoint n → α × β) (s : OptState n α β) :
    OptRequest n → Option (α ⊕ β) × OptState n α β
  | .objective values =>
    let s' := s.refresh f values
    (s'.cache.map fun c => .inl c.2.1, s')
  | .gradient values =>
    let s' := s.refresh f values
    (s'.cache.map fun c => .inr c.2.2, s')

/-- State after a sequence of requests. Used for pyblp/configurations/optimization.py:534-546. -/
noncomputable def OptState.serveAll (f : List (OptPoint n) → OptPoint n → α × β) (s : OptState n α β) : List (OptRequest n) → OptState n α β
  | [] => s
  | r :: rs => OptState.serveAll f (s.serve f r).2 rs

/-- State at the start. Used for pyblp/configurations/optimization.py:532. -/
def OptState.initial : OptState n α β := ⟨none, []⟩

end Pyblp
