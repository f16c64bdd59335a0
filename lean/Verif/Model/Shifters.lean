import Verif.Model.OptimalProblem
import Verif.Model.AbsorbedIds

/-!
# Default shifters in problems with optimal instruments (`results/optimal_instrument_results.py`)

Terms are lists of factors, which have the names that Patsy gives them (their code) and expressions.
-/

namespace Pyblp
namespace Formula

noncomputable section

/-- A factor in a term: its code and its expression. Used for pyblp/configurations/formulation.py:488-498. -/
structure NamedFactor where
  code : Name
  expr : Expr

/-- `Term.name()` of Patsy: codes of factors with colons in between, in the order in which they are written, or "Intercept" if there are none.
Used for pyblp/results/optimal_instrument_results.py:150-158. -/
def termName (t : List NamedFactor) : Name :=
  if t = [] then ['I', 'n', 't', 'e', 'r', 'c', 'e', 'p', 't'] else [':'].intercalate (t.map NamedFactor.code)

/-- `expression.free_symbols` of a term, pyblp/results/optimal_instrument_results.py:151 and 156. -/
def termSymbols (t : List NamedFactor) : List Name := t.flatMap fun f => f.expr.symbols

/-- `supply_shifters` and `demand_shifters`, pyblp/results/optimal_instrument_results.py:149-157: names of terms without the endogenous variable,
except for the intercept. A set is a list in which order and repetitions do not matter. -/
def shifterNames (endogenous : Name) (terms : List (List NamedFactor)) : List Name :=
  (terms.filter fun t => decide (endogenous ∉ termSymbols t) && decide (termName t ≠ ['I', 'n', 't', 'e', 'r', 'c', 'e', 'p', 't'])).map termName

/-- `sorted(supply_shifters - demand_shifters)` and the reverse, pyblp/results/optimal_instrument_results.py:159-165: names of terms of the default
formulation of shifters, or none if there are not any. -/
def defaultShifters (endogenous : Name) (own : List (List NamedFactor)) (otherEndogenous : Name) (other : List (List NamedFactor)) : Option (List Name) :=
  let names := (((shifterNames endogenous own).filter fun n => decide (n ∉ shifterNames otherEndogenous other)).dedup).mergeSort fun a b => decide (a ≤ b)
  if names = [] then none else some names

/-- `supply_shifter_formulation`, pyblp/results/optimal_instrument_results.py:159-161, if there is a supply side (line 141). -/
def supplyShifterNames (X1 X3 : List (List NamedFactor)) : Option (List Name) := if X3 = [] then none else defaultShifters sharesName X3 pricesName X1

/-- `demand_shifter_formulation`, pyblp/results/optimal_instrument_results.py:163-165, if there is a supply side (line 141). -/
def demandShifterNames (X1 X3 : List (List NamedFactor)) : Option (List Name) := if X3 = [] then none else defaultShifters pricesName X1 sharesName X3

/-- The value of a term: the product of values of its factors, pyblp/configurations/formulation.py:488-498. -/
def termColumn {R : Type} (data : ColumnData R) (t : List NamedFactor) : R → ℝ := fun r => (t.map fun f => f.expr.eval fun n => data n r).prod

/-- Columns of default shifters, pyblp/results/optimal_instrument_results.py:371-383. Patsy parses the name of a term back into the term, and columns
of continuous variables only are modelled. -/
def shifterColumns {R : Type} (data : ColumnData R) (own : List (List NamedFactor)) : Option (List Name) → List (R → ℝ)
  | none => []
  | some names => names.filterMap fun n => (own.find? fun t => decide (termName t = n)).map (termColumn data)

/-- An argument for shifters: `None`, a formulation with terms (without absorbed fixed effects), or anything else.
Used for pyblp/results/optimal_instrument_results.py:326-348. -/
inductive ShifterArgument
  | none
  | formulation (terms : List (List Code))
  | other

/-- What is used for shifters: the default formulation, one that was parsed, or none. Used for pyblp/results/optimal_instrument_results.py:326-348. -/
inductive ShifterChoice
  | default
  | given (terms : List (List Code))
  | nothing

/-- `to_problem`, pyblp/results/optimal_instrument_results.py:322-334 and 336-348. Parsing the formula with `- 1` gives its terms without the intercept. -/
def chooseShifters (hasSupply : Bool) : ShifterArgument → Except PyErr ShifterChoice
  | .none => .ok (if hasSupply then .default else .nothing)
  | .other => .error .typeError
  | .formulation terms =>
    if !hasSupply then .error .typeError else
    if terms.flatMap codeSymbols = [] then .ok .nothing else
    match formulationInit (terms.filter fun t => !t.isEmpty) [] with
    | .error e => .error e
    | .ok p => .ok (.given p.terms)

end

end Formula
end Pyblp
