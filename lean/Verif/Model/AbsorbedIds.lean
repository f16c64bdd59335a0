import Verif.Model.Formulation
import Verif.Model.PyErr

/-!
# Validation of formulations and the IDs of absorbed fixed effects (`configurations/formulation.py`)
-/

namespace Pyblp

namespace Formula

open Classical

noncomputable section

variable {N : ℕ} {V : Type}

/-- The expression of a factor as it is written, pyblp/configurations/formulation.py:488-498. -/
def Code.expr : Code → Expr
  | expression e => e
  | mark x => .sym x

/-- The symbols of a term, pyblp/configurations/formulation.py:137-140 and 488-498. The intercept has no factors. -/
def codeSymbols (t : List Code) : List Name := t.flatMap fun c => c.expr.symbols

/-- A formulation: its terms and those to be absorbed. Used for pyblp/configurations/formulation.py:121-132. -/
structure Parsed where
  terms : List (List Code)
  absorbed : List (List Code)

/-- `Formulation.__init__`, pyblp/configurations/formulation.py:103-149, after Patsy has parsed both formulas (`parse_terms`, the second with
`- 1`). Errors of Patsy are represented by value errors. -/
def formulationInit (terms absorbed : List (List Code)) : Except PyErr Parsed :=
  let kept := if absorbed ≠ [] then terms.filter fun t => decide (t ≠ []) else terms
  if kept = [] then .error .valueError else
  if 1 < (kept.filter fun t => decide (codeSymbols t = [])).length then .error .valueError else
  if absorbed ≠ [] ∧ ∃ t ∈ absorbed, codeSymbols t = [] then .error .valueError else
  .ok ⟨kept, absorbed⟩

/-- An ID: that of one variable, or those of several, pyblp/utilities/basics.py:279-284. -/
inductive ID (V : Type) where
  | one (v : V)
  | many (vs : List V)

/-- `interact_ids`, pyblp/utilities/basics.py:279-284. There is at least one column. -/
def interactIds (columns : List (Fin N → V)) (i : Fin N) : ID V :=
  match columns with
  | [c] => .one (c i)
  | cs => .many (cs.map fun c => c i)

/-- The symbol of a categorical factor, pyblp/configurations/formulation.py:262-266; an error if it is not categorical. -/
def categoricalName (numbers : Name → Bool) (c : Code) : Except PyErr Name :=
  match c.factor numbers with
  | .categorical _ x => .ok x
  | .numeric _ => .error .valueError

/-- The column of IDs of a term, pyblp/configurations/formulation.py:259-268, given the order in which Patsy has its factors. -/
def termIds (numbers : Name → Bool) (data : Name → Fin N → V) (factors : List Code) : Except PyErr (Fin N → ID V) :=
  (factors.mapM (categoricalName numbers)).map fun xs => interactIds (xs.map data)

/-- `_build_ids`, pyblp/configurations/formulation.py:244-270. `data` is `none` if a variable cannot be loaded; `factors` are the factors of a
term in Patsy's order, which is that of a set. -/
def buildIds (numbers : Name → Bool) (data : Name → Option (Fin N → V)) (default : V) (factors : List Code → List Code)
    (absorbed : List (List Code)) : Except PyErr (List (Fin N → ID V)) :=
  if ∃ t ∈ absorbed, ∃ x ∈ codeSymbols t, data x = none then .error .valueError else
  absorbed.mapM fun t => termIds numbers (fun x => (data x).getD fun _ => default) (factors t)

end

end Formula

end Pyblp
