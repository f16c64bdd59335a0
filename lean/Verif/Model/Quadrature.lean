import Verif.Model.Sequences
import Mathlib.Data.List.Lex
import Mathlib.Data.Nat.Choose.Basic

/-!
# Product rules and sparse grids (`configurations/integration.py`)

Arrays of nodes and weights are lists. Numbers are real. `data level` is what `get_quadrature_data` returns for a level: the nodes of a
one-dimensional rule that are not below the middle one, and their weights (see `Verif/Model/QuadratureTables.lean`).
-/

namespace Pyblp

open Classical in
/-- `itertools.product(*lists)`. Used for pyblp/configurations/integration.py:261-268 and 279-286. -/
def itertoolsProduct : List (List ℝ) → List (List ℝ)
  | [] => [[]]
  | l :: ls => l.flatMap fun x => (itertoolsProduct ls).map (x :: ·)

/-- `np.kron` of vectors. Used for pyblp/configurations/integration.py:261-268 and 279-286. -/
def kronList (a b : List ℝ) : List ℝ := a.flatMap fun x => b.map (x * ·)

/-- `functools.reduce(np.kron, ..)`, which fails for no vectors; there is at least one dimension.
Used for pyblp/configurations/integration.py:261-268 and 279-286. -/
def reduceKron : List (List ℝ) → List ℝ
  | [] => []
  | w :: ws => ws.foldl kronList w

/-- `base_nodes` and `base_weights` of `product_rule`, pyblp/configurations/integration.py:263-265. -/
def baseRule (data : List ℝ × List ℝ) (level : ℕ) (nested : Bool) : List ℝ × List ℝ :=
  let skip := if nested then 1 else level % 2
  (data.1.reverse.map (fun x => -x) ++ data.1.drop skip, data.2.reverse ++ data.2.drop skip)

/-- `product_rule`, pyblp/configurations/integration.py:261-268. -/
def productRule (data : ℕ → List ℝ × List ℝ) (dimensions level : ℕ) (nested : Bool) : List (List ℝ) × List ℝ :=
  let base := baseRule (data level) level nested
  (itertoolsProduct (List.replicate dimensions base.1), reduceKron (List.replicate dimensions base.2))

/-- Rows of a grid: nodes and a weight. Used for pyblp/configurations/integration.py:289-291 and 293-305. -/
abbrev GridRows := List (List ℝ × ℝ)

open Classical in
/-- Sorting of rows by the first column of nodes, then by the second, and so on, pyblp/configurations/integration.py:289-291 and
320-322. `np.lexsort` is stable and gives indices; here rows are sorted themselves. -/
noncomputable def sortRows (rows : GridRows) : GridRows := rows.mergeSort fun r s => decide (r.1 ≤ s.1)

open Classical in
/-- Merging of weights of equal neighbouring rows, pyblp/configurations/integration.py:293-305. The first argument is the row `last` with
its weight so far. Its nodes are those of the previous row, to which the code compares. -/
noncomputable def mergeRows : List ℝ × ℝ → GridRows → GridRows
  | last, [] => [last]
  | last, row :: rows => if row.1 = last.1 then mergeRows (last.1, last.2 + row.2) rows else last :: mergeRows row rows

/-- Sorting and merging, pyblp/configurations/integration.py:288-305. -/
noncomputable def sortMerge (rows : GridRows) : GridRows :=
  match sortRows rows with
  | [] => []
  | row :: rows => mergeRows row rows

/-- Rows of the component product rules of one level, pyblp/configurations/integration.py:279-286. -/
noncomputable def componentRows (data : ℕ → List ℝ × List ℝ) (dimensions level q : ℕ) (sequences : List (List ℤ)) : GridRows :=
  let coefficient : ℝ := (-1) ^ (level - q - 1) * ((dimensions - 1).choose (dimensions + q - level) : ℕ)
  sequences.flatMap fun levels =>
    List.zip (itertoolsProduct (levels.map fun l => (data l.toNat).1))
      ((reduceKron (levels.map fun l => (data l.toNat).2)).map (coefficient * ·))

/-- The loop over `q`, pyblp/configurations/integration.py:276-305. -/
noncomputable def gridLoop (fuel : ℕ) (data : ℕ → List ℝ × List ℝ) (dimensions level : ℕ) : List ℕ → GridRows → Option GridRows
  | [], rows => some rows
  | q :: qs, rows =>
    match sameSizeSequences fuel dimensions (dimensions + q) with
    | none => none
    | some sequences => gridLoop fuel data dimensions level qs (sortMerge (rows ++ componentRows data dimensions level q sequences))

open Classical in
/-- Copying to the other orthant in one dimension, pyblp/configurations/integration.py:310-317. -/
noncomputable def copyDimension (middle : ℝ) (rows : GridRows) (dimension : ℕ) : GridRows :=
  let copies := rows.filter fun r => decide (r.1.getD dimension 0 ≠ middle)
  if copies = [] then rows
  else rows.map (fun r => (r.1.modify dimension fun x => 2 * middle - x, r.2)) ++ copies

/-- `sparse_grid`, pyblp/configurations/integration.py:272-324, for a positive number of dimensions. `none` is for too little fuel in
`same_size_sequences`. -/
noncomputable def sparseGrid (fuel : ℕ) (data : ℕ → List ℝ × List ℝ) (dimensions level : ℕ) : Option GridRows :=
  let first := max 0 (level - dimensions)
  match gridLoop fuel data dimensions level (List.range' first (level - first)) [] with
  | none => none
  | some rows =>
    let middle := (data 1).1.headD 0
    let rows := sortRows ((List.range dimensions).foldl (copyDimension middle) rows)
    some (rows.map fun r => (r.1, r.2 / (rows.map Prod.snd).sum))

end Pyblp
