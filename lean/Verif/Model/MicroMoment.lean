import Verif.Model.Moments

/-!
# Construction of a micro moment (`micro.py`)
-/

namespace Pyblp

variable {M P D : Type} [DecidableEq M] [DecidableEq P] [DecidableEq D]

/-- The argument `parts`: a part, a sequence of which some elements may not be parts, or something else.
Used for pyblp/micro.py:333-357. -/
inductive PartsArgument (P : Type)
  | single (p : P)
  | sequence (l : List (Option P))
  | other

/-- An argument that may be a function: `None`, a function, or something else. Used for pyblp/micro.py:333-361. -/
inductive Callback (F : Type)
  | none
  | callable (f : F)
  | other

/-- Attributes of a micro moment other than its name, pyblp/micro.py:363-367. -/
structure MomentAttributes (P : Type) where
  value : ℝ
  parts : List P
  computeValue : List ℝ → ℝ
  computeGradient : List ℝ → List ℝ

/-- `default_compute_value`, pyblp/micro.py:376-380. It is only called with one value. -/
def defaultComputeValue (v : List ℝ) : ℝ := v.headD 0

/-- `default_compute_gradient`, pyblp/micro.py:383-385. -/
def defaultComputeGradient (v : List ℝ) : List ℝ := v.map fun _ => 1

/-- The loop over parts, pyblp/micro.py:346-357. -/
def MicroConfig.checkParts (c : MicroConfig M P D) : List P → List (Option P) → Except PyErr (List P)
  | seen, [] => .ok seen
  | _, none :: _ => .error .typeError
  | seen, some p :: rest => if seen.any fun q => decide (p = q) || c.partClash p q then .error .valueError else c.checkParts (seen ++ [p]) rest

/-- Parts and functions after defaults are filled in, pyblp/micro.py:333-357. -/
def MicroConfig.momentParts (c : MicroConfig M P D) (parts : PartsArgument P) (computeValue : Callback (List ℝ → ℝ))
    (computeGradient : Callback (List ℝ → List ℝ)) : Except PyErr (List P × Callback (List ℝ → ℝ) × Callback (List ℝ → List ℝ)) :=
  match parts with
  | .single p =>
    .ok ([p], (match computeValue with | .none => .callable defaultComputeValue | f => f),
      match computeGradient with | .none => .callable defaultComputeGradient | g => g)
  | .other => .error .typeError
  | .sequence l =>
    if l.length < 1 then .error .typeError else
    match computeValue, computeGradient with
    | .none, _ => .error .typeError
    | _, .none => .error .typeError
    | f, g => match c.checkParts [] l with | .error e => .error e | .ok ps => .ok (ps, f, g)

/-- `MicroMoment.__init__`, pyblp/micro.py:315-367. Elements of `value` after it is flattened are none if they are not finite. -/
def MicroConfig.momentInit (c : MicroConfig M P D) (nameIsString : Bool) (value : List (Option ℝ)) (parts : PartsArgument P)
    (computeValue : Callback (List ℝ → ℝ)) (computeGradient : Callback (List ℝ → List ℝ)) : Except PyErr (MomentAttributes P) :=
  if !nameIsString then .error .typeError else
  match value with
  | [none] => .error .valueError
  | [some x] =>
    match c.momentParts parts computeValue computeGradient with
    | .error e => .error e
    | .ok (ps, .callable f, .callable g) => .ok ⟨x, ps, f, g⟩
    | .ok _ => .error .valueError
  | _ => .error .typeError

end Pyblp
