import Mathlib.Data.Finset.Basic
import Mathlib.Data.List.Perm.Basic
import Verif.Tactics

/-!
# Errors: collection, deduplication and detection of numerical problems

`utilities/basics.py` (`Error`, `NumericalErrorHandler`, `NumericalErrorDetector`) and `exceptions.py` (`MultipleErrors`).
-/

namespace Pyblp

/-- An error as far as `__eq__` and `__hash__` (pyblp/utilities/basics.py:547-553) can tell: the name of its class and its message. Hashes
of different pairs are taken to be different. -/
structure ReportedError where
  name : String
  message : String
  deriving DecidableEq

/-- `collections.OrderedDict.fromkeys(errors)`: keys in order of first insertion. Used for pyblp/exceptions.py:21-29. -/
def orderedDictFromKeys {α : Type} [DecidableEq α] (l : List α) : List α :=
  l.foldl (fun d a => if a ∈ d then d else d ++ [a]) []

/-- What `MultipleErrors(errors)` is: the error itself or a collection. Used for pyblp/exceptions.py:21-29 and 31-33. -/
inductive CombinedErrors where
  | single (e : ReportedError)
  | multiple (es : List ReportedError)

/-- `MultipleErrors.__new__` and `__init__`, pyblp/exceptions.py:21-29. -/
def multipleErrors : List ReportedError → CombinedErrors
  | [e] => .single e
  | es => .multiple (orderedDictFromKeys es)

/-- Errors that are printed, in order: `__str__`, pyblp/exceptions.py:31-33. -/
def CombinedErrors.shown : CombinedErrors → List ReportedError
  | .single e => [e]
  | .multiple es => es

/-! ## Numerical problems -/

/-- Kinds of floating point problems. Used for pyblp/utilities/basics.py:692-707 and 703-707. -/
inductive FpProblem where
  | divide
  | over
  | under
  | invalid
  deriving DecidableEq

/-- What a decorated computation does: floating point problems and calls of other decorated computations, each with the class of its
errors. Used for pyblp/utilities/basics.py:682 and 679-687. -/
inductive FpProgram where
  | done
  | problem (p : FpProblem) (rest : FpProgram)
  | call (cls : String) (body : FpProgram) (rest : FpProgram)

/-- State: the function called for floating point problems (a detector, or none), and what each detector created so far has collected
(pyblp/utilities/basics.py:692-707). -/
structure FpState where
  handler : Option ℕ
  detectors : List (Finset FpProblem)

/-- `NumericalErrorDetector.__call__`, pyblp/utilities/basics.py:703-707. -/
def FpState.detect (s : FpState) (p : FpProblem) : FpState :=
  match s.handler with
  | none => s
  | some d => ⟨s.handler, s.detectors.modify d (insert p)⟩

mutual

/-- Runs the body of a decorated computation: the errors in the list that it returns are those of nested calls, in order. An error is its
class and the number of its detector, because the object can still change. Underflow is ignored, pyblp/utilities/basics.py:682. -/
def runBody (restores : Bool) : FpProgram → FpState → List (String × ℕ) × FpState
  | .done, s => ([], s)
  | .problem p rest, s => runBody restores rest (if p = .under then s else s.detect p)
  | .call cls body rest, s =>
    let r := runDecorated restores cls body s
    let r' := runBody restores rest r.2
    (r.1 ++ r'.1, r'.2)

/-- `NumericalErrorHandler.__call__.wrapper`, pyblp/utilities/basics.py:679-687. `restores` is whether leaving `np.errstate` also restores
the function set with `np.seterrcall` inside: true since NumPy 2.0, false before. -/
def runDecorated (restores : Bool) (cls : String) : FpProgram → FpState → List (String × ℕ) × FpState
  | body, s =>
    let d := s.detectors.length
    let r := runBody restores body ⟨some d, s.detectors ++ [∅]⟩
    let s' : FpState := ⟨if restores then s.handler else r.2.handler, r.2.detectors⟩
    (if (s'.detectors.getD d ∅) = ∅ then r.1 else r.1 ++ [(cls, d)], s')

end

/-- The errors that a decorated computation returns, with what they report in the end. Used for pyblp/utilities/basics.py:679-687. -/
def reportOf (restores : Bool) (cls : String) (body : FpProgram) : List (String × Finset FpProblem) :=
  let r := runDecorated restores cls body ⟨none, []⟩
  r.1.map fun e => (e.1, r.2.detectors.getD e.2 ∅)

end Pyblp
