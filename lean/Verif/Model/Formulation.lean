import Mathlib.Analysis.SpecialFunctions.Pow.Real
import Mathlib.Data.Rat.Cast.CharZero
import Mathlib.Algebra.BigOperators.Group.List.Basic
import Mathlib.Data.List.Sort

/-!
# Formulations (`configurations/formulation.py`)

How a formula is turned into a matrix, which is done by Patsy, and into expressions for its columns, which PyBLP keeps in order to evaluate
and to differentiate columns after the value of a variable has changed.

Formulas are already parsed into terms. A formula is a list of terms and a term is a list of factors, as in Patsy. SymPy's simplifications,
which preserve values, are not modelled.
-/

namespace Pyblp
namespace Formula

/-- The name of a variable or of a SymPy symbol. Used for pyblp/configurations/formulation.py:501-563 and 566-582. -/
abbrev Name := List Char

/-- The SymPy expressions that `parse_expression` admits, pyblp/configurations/formulation.py:501-563: numbers, symbols, `+`, `-`, `*`, `/`,
`**`, `log` and `exp`. SymPy represents `a - b` by `a + (-1) * b`, and `a / b` by `a * b ** -1`. Powers with integer exponents are apart,
because they are also defined where the base is not positive. -/
inductive Expr
  | num (c : ℚ)
  | sym (n : Name)
  | add (a b : Expr)
  | mul (a b : Expr)
  | ipow (a : Expr) (n : ℤ)
  | rpow (a b : Expr)
  | log (a : Expr)
  | exp (a : Expr)
  deriving DecidableEq

namespace Expr

/-- `evaluate_expression` for one row of the data, pyblp/configurations/formulation.py:566-582. -/
noncomputable def eval (env : Name → ℝ) : Expr → ℝ
  | num c => c
  | sym n => env n
  | add a b => a.eval env + b.eval env
  | mul a b => a.eval env * b.eval env
  | ipow a n => a.eval env ^ n
  | rpow a b => a.eval env ^ b.eval env
  | log a => Real.log (a.eval env)
  | exp a => Real.exp (a.eval env)

/-- `free_symbols`. Used for pyblp/configurations/formulation.py:310 and 385. -/
def symbols : Expr → List Name
  | num _ => []
  | sym n => [n]
  | add a b | mul a b | rpow a b => a.symbols ++ b.symbols
  | ipow a _ | log a | exp a => a.symbols

/-- `expression.replace(old, new)` where both are symbols, pyblp/configurations/formulation.py:317. -/
def replace (old new : Name) : Expr → Expr
  | num c => num c
  | sym n => if n = old then sym new else sym n
  | add a b => add (a.replace old new) (b.replace old new)
  | mul a b => mul (a.replace old new) (b.replace old new)
  | ipow a n => ipow (a.replace old new) n
  | rpow a b => rpow (a.replace old new) (b.replace old new)
  | log a => log (a.replace old new)
  | exp a => exp (a.replace old new)

/-- `expression.diff(sp.Symbol(name))`, pyblp/configurations/formulation.py:354: SymPy's rules, before it simplifies. -/
def diff (s : Name) : Expr → Expr
  | num _ => num 0
  | sym n => if n = s then num 1 else num 0
  | add a b => add (a.diff s) (b.diff s)
  | mul a b => add (mul (a.diff s) b) (mul a (b.diff s))
  | ipow a n => if n = 0 then num 0 else mul (mul (num n) (ipow a (n - 1))) (a.diff s)
  | rpow a b => mul (rpow a b) (add (mul (b.diff s) (log a)) (mul b (mul (a.diff s) (ipow a (-1)))))
  | log a => mul (a.diff s) (ipow a (-1))
  | exp a => mul (exp a) (a.diff s)

end Expr

/-- A factor of a term: an expression in numeric variables or a categorical variable. A variable is categorical if it is marked by `C` or if
it is not numeric, pyblp/configurations/formulation.py:379-393. -/
inductive Factor
  | numeric (e : Expr)
  | categorical (marked : Bool) (x : Name)
  deriving DecidableEq

/-- How a factor is written in a formula: an expression or `C(variable)`, which is not an argument to another function,
pyblp/configurations/formulation.py:537-548. -/
inductive Code
  | expression (e : Expr)
  | mark (x : Name)

/-- The kind of a factor, pyblp/configurations/formulation.py:382-393. Expressions in variables that are not numeric other than such a
variable itself are not modelled: Patsy fails on them. `numbers` is whether the data type of a variable is a number. -/
def Code.factor (numbers : Name → Bool) : Code → Factor
  | mark x => .categorical true x
  | expression (.sym x) => if numbers x then .numeric (.sym x) else .categorical false x
  | expression e => .numeric e

/-- The expression of a factor, pyblp/configurations/formulation.py:488-498, in which markers have been replaced by the identity,
lines 558-561. -/
def Factor.expression : Factor → Expr
  | numeric e => e
  | categorical _ x => .sym x

/-- A Patsy term. The intercept has no factors. Used for pyblp/configurations/formulation.py:488-498 and 217-223. -/
abbrev Term := List Factor

/-- `parse_term_expression`, pyblp/configurations/formulation.py:488-498. -/
def termExpression (t : Term) : Expr := t.foldl (fun e f => .mul e f.expression) (.num 1)

/-! ### Patsy's coding of categorical factors

Patsy is a library, so these definitions follow its documentation and its module `patsy/redundancy.py`, which is not in /repo. -/

/-- A categorical factor. Used for pyblp/configurations/formulation.py:231-239 and 217-223. -/
abbrev Category := Bool × Name

/-- The categorical factors of a term. Used for pyblp/configurations/formulation.py:231-239. -/
def categories (t : Term) : List Category := t.filterMap fun
  | .numeric _ => none
  | .categorical m x => some (m, x)

/-- The numeric factors of a term. Used for pyblp/configurations/formulation.py:470-485. -/
def numerics (t : Term) : List Expr := t.filterMap fun
  | .numeric e => some e
  | .categorical _ _ => none

/-- Subsets of `k` elements in lexicographical order. Used for pyblp/configurations/formulation.py:217-223. -/
def choose {α : Type} : ℕ → List α → List (List α)
  | 0, _ => [[]]
  | _ + 1, [] => []
  | k + 1, a :: l => (choose k l).map (a :: ·) ++ choose (k + 1) l

/-- Patsy's `_subsets_sorted`: shorter subsets come first. Used for pyblp/configurations/formulation.py:217-223. -/
def subsets {α : Type} (l : List α) : List (List α) := (List.range (l.length + 1)).flatMap fun k => choose k l

/-- A set of categorical factors, each of which is coded with all levels or without the first.
Used for pyblp/configurations/formulation.py:217-223. -/
abbrev Coding := List (Category × Bool)

/-- Patsy's `_Subterm.can_absorb`. Used for pyblp/configurations/formulation.py:217-223. -/
def canAbsorb (long short : Coding) : Bool := decide (long.length = short.length + 1) && short.all fun f => decide (f ∈ long)

/-- Patsy's `_Subterm.absorb`. Used for pyblp/configurations/formulation.py:217-223. -/
def absorb (long short : Coding) : Coding := long.map fun f => if f ∈ short then f else (f.1, true)

/-- The inner loop of Patsy's `_simplify_one_subterm`. Used for pyblp/configurations/formulation.py:217-223. -/
def absorbFirst (short : Coding) : List Coding → Option (List Coding)
  | [] => none
  | long :: rest => if canAbsorb long short then some (absorb long short :: rest) else (absorbFirst short rest).map (long :: ·)

/-- Patsy's `_simplify_one_subterm`. Used for pyblp/configurations/formulation.py:217-223. -/
def simplifyOne : List Coding → Option (List Coding)
  | [] => none
  | short :: rest =>
    match absorbFirst short rest with
    | some simplified => some simplified
    | none => (simplifyOne rest).map (short :: ·)

/-- Patsy's `_simplify_subterms`. Each pass removes a subterm, so as many passes as there are subterms are enough.
Used for pyblp/configurations/formulation.py:217-223. -/
def simplify : ℕ → List Coding → List Coding
  | 0, l => l
  | n + 1, l =>
    match simplifyOne l with
    | some simplified => simplify n simplified
    | none => l

/-- Sets are compared. Used for pyblp/configurations/formulation.py:217-223. -/
def sameSet {α : Type} [DecidableEq α] (l m : List α) : Bool := l.all (fun a => decide (a ∈ m)) && m.all fun a => decide (a ∈ l)

/-- The subsets of categorical factors that are not used before. Used for pyblp/configurations/formulation.py:217-223. -/
def unusedSubsets (t : Term) (used : List (List Category)) : List (List Category) :=
  (subsets (categories t)).filter fun s => !used.any (sameSet s)

/-- Patsy's `pick_contrasts_for_term`. Used for pyblp/configurations/formulation.py:217-223. -/
def pickContrasts (t : Term) (used : List (List Category)) : List Coding :=
  simplify (unusedSubsets t used).length ((unusedSubsets t used).map fun s => s.map fun f => (f, false))

/-- Codings of the terms of one bucket, in order. Used for pyblp/configurations/formulation.py:217-223. -/
def codeBucket (used : List (List Category)) : List Term → List (Term × List Coding)
  | [] => []
  | t :: rest => (t, pickContrasts t used) :: codeBucket (used ++ unusedSubsets t used) rest

/-- The bucket of a term: terms with the same numeric factors, sorted by the number of factors.
Used for pyblp/configurations/formulation.py:217-223. -/
def bucket (terms : List Term) (t : Term) : List Term :=
  (terms.filter fun s => sameSet (numerics s) (numerics t)).insertionSort fun a b => a.length ≤ b.length

/-- The codings that Patsy uses for a term of a design. Used for pyblp/configurations/formulation.py:217-223. -/
def codings (terms : List Term) (t : Term) : List Coding :=
  ((codeBucket [] (bucket terms t)).find? fun p => decide (p.1 = t)).elim [] Prod.snd

/-! ### Columns -/

variable {L : Type} [DecidableEq L]

/-- The suffix of an indicator, `format_suffix`, pyblp/configurations/formulation.py:419-426. -/
def formatSuffix (repr : L → List Char) (l : L) : List Char := '[' :: repr l ++ [']']

/-- `remove_suffix`, pyblp/configurations/formulation.py:428-431. -/
def removeSuffix (n : Name) : Option Name := if '[' ∈ n then some (n.takeWhile fun c => c ≠ '[') else none

/-- `extract_suffix`, pyblp/configurations/formulation.py:433-436. -/
def extractSuffix (n : Name) : Option (List Char) := if '[' ∈ n then some (n.dropWhile fun c => c ≠ '[') else none

/-- The levels whose indicators are columns of a contrast matrix, pyblp/configurations/formulation.py:407-417: all of them,
`code_with_intercept`, or all but the first, `code_without_intercept`. -/
def codedLevels (full : Bool) (levels : List L) : List L := if full then levels else levels.tail

/-- The entry of a contrast matrix for the level with index `i` in the column with index `k`, pyblp/configurations/formulation.py:407-417.
Without an intercept there is a row of zeros for the first level. -/
def contrast (full : Bool) (i k : ℕ) : ℝ :=
  if full then if i = k then 1 else 0
  else match i with
    | 0 => 0
    | i + 1 => if i = k then 1 else 0

/-- One row of the data: the values of numeric variables and the levels of all variables.
Used for pyblp/configurations/formulation.py:470-485 and 225-239. -/
structure Row (L : Type) where
  /-- Values of numeric variables. -/
  value : Name → ℝ
  /-- Levels of categorical variables. -/
  level : Name → L

/-- A column of a designed matrix: its term, and for each categorical factor in its name, the factor, whether it is coded with all levels,
and the index of its column in the contrast matrix. Used for pyblp/configurations/formulation.py:217-223 and 213-223. -/
structure Column where
  /-- The term. -/
  term : Term
  /-- The categorical factors in the name of the column. -/
  coded : List (Category × Bool × ℕ)

/-- Combinations of columns of contrast matrices. The first factor varies fastest. Used for pyblp/configurations/formulation.py:217-223. -/
def combinations (levels : Name → List L) : Coding → List (List (Category × Bool × ℕ))
  | [] => [[]]
  | (f, full) :: rest => (combinations levels rest).flatMap fun c =>
      (List.range (codedLevels full (levels f.2)).length).map fun k => (f, full, k) :: c

/-- The columns of a term, `term_slices[term]`, pyblp/configurations/formulation.py:217-223. When fixed effects are absorbed, Patsy is given
an intercept as well, lines 207-211. -/
def termColumns (absorbed : Bool) (terms : List Term) (levels : Name → List L) (t : Term) : List Column :=
  (codings (if absorbed then [] :: terms else terms) t).flatMap fun c => (combinations levels c).map fun k => ⟨t, k⟩

/-- The columns of the matrix that a formula designs, pyblp/configurations/formulation.py:213-223. Terms have no intercept when fixed effects
are absorbed, lines 129-131. -/
def columns (absorbed : Bool) (terms : List Term) (levels : Name → List L) : List Column :=
  terms.flatMap (termColumns absorbed terms levels)

/-- One row of a column of the matrix, which Patsy computes, pyblp/configurations/formulation.py:470-485: the product of the numeric factors
of its term and of the entries of contrast matrices. -/
noncomputable def matrixEntry (levels : Name → List L) (row : Row L) (c : Column) : ℝ :=
  ((numerics c.term).map fun e => e.eval row.value).prod *
    (c.coded.map fun f => contrast f.2.1 ((levels f.1.2).idxOf (row.level f.1.2)) f.2.2).prod

/-- The name of an indicator, without any marker, as made by `parse_full_symbol`, pyblp/configurations/formulation.py:447-453. -/
def indicatorName (repr : L → List Char) (x : Name) (l : L) : Name := x ++ formatSuffix repr l

/-- The name of a categorical factor in the name of a column, without any marker. Used for pyblp/configurations/formulation.py:304-320. -/
def codedName (repr : L → List Char) (levels : Name → List L) (f : Category × Bool × ℕ) : Name :=
  match (codedLevels f.2.1 (levels f.1.2))[f.2.2]? with
  | some l => indicatorName repr f.1.2 l
  | none => f.1.2

/-- The replacement of one factor, pyblp/configurations/formulation.py:313-317. -/
def replaceFactor (e : Expr) (name : Name) : Expr :=
  match removeSuffix name, extractSuffix name with
  | some base, some suffix => e.replace base (base ++ suffix)
  | _, _ => e

/-- `ColumnFormulation.__init__`, pyblp/configurations/formulation.py:304-320: the expression of a column. The factors are those in the name of
the column. -/
def columnExpression (repr : L → List Char) (levels : Name → List L) (c : Column) : Expr :=
  (c.coded.map (codedName repr levels)).foldl replaceFactor (termExpression c.term)

/-- `names`, pyblp/configurations/formulation.py:310. -/
def columnNames (c : Column) : List Name := (termExpression c.term).symbols

/-- The indicators of the categorical variables of a design, pyblp/configurations/formulation.py:231-239. -/
def indicators (repr : L → List Char) (levels : Name → List L) (terms : List Term) : List (Name × Name × L) :=
  (terms.flatMap categories).flatMap fun f => (levels f.2).map fun l => (indicatorName repr f.2 l, f.2, l)

/-- One row of the data that underlie columns, pyblp/configurations/formulation.py:225-239. Lookups of names that are not in the expression of
any column never happen. -/
noncomputable def underlying (repr : L → List Char) (levels : Name → List L) (terms : List Term) (row : Row L) (n : Name) : ℝ :=
  match (indicators repr levels terms).reverse.find? fun i => decide (i.1 = n) with
  | some i => if row.level i.2.1 = i.2.2 then 1 else 0
  | none => row.value n

/-- `get_symbol_data`, pyblp/configurations/formulation.py:585-591. -/
def override (data : Name → ℝ) (change : Option (Name × ℝ)) (n : Name) : ℝ :=
  match change with
  | some (v, w) => if n = v then w else data n
  | none => data n

/-- `ColumnFormulation.evaluate`, pyblp/configurations/formulation.py:338-340. -/
noncomputable def evaluate (e : Expr) (data : Name → ℝ) (change : Option (Name × ℝ)) : ℝ := e.eval (override data change)

/-- The derivative of an order, pyblp/configurations/formulation.py:351-354. -/
def derivative (e : Expr) (v : Name) (order : ℕ) : Expr := (Expr.diff v)^[order] e

/-- `ColumnFormulation.differentiate`, pyblp/configurations/formulation.py:349-356, which keeps derivatives in a dictionary: the new state of the
dictionary and the derivative. -/
def differentiate (e : Expr) (cache : Name × ℕ → Option Expr) (v : Name) (order : ℕ) : (Name × ℕ → Option Expr) × Expr :=
  match cache (v, order) with
  | some d => (cache, d)
  | none => (Function.update cache (v, order) (some (derivative e v order)), derivative e v order)

/-- `ColumnFormulation.evaluate_derivative`, pyblp/configurations/formulation.py:342-347. -/
noncomputable def evaluateDerivative (e : Expr) (v : Name) (data : Name → ℝ) (change : Option (Name × ℝ)) (order : ℕ) : ℝ :=
  evaluate (derivative e v order) data change

/-- The change that `update_delta_with_variable` adds to the mean utility of a product, pyblp/markets/market.py:242-258: only columns with the
variable in their names contribute. -/
noncomputable def updatedDelta (delta : ℝ) (formulations : List (Expr × List Name)) (beta : List ℝ) (data : Name → ℝ) (v : Name) (w : ℝ) : ℝ :=
  delta + ((formulations.zip beta).map fun p =>
    if v ∈ p.1.2 then p.2 * (evaluate p.1.1 data (some (v, w)) - evaluate p.1.1 data none) else 0).sum

end Formula
end Pyblp
