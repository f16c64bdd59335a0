import Mathlib.Data.Finset.Sort
import Mathlib.Data.List.FinRange
import Verif.Tactics

/-!
# Grouping rows by IDs (`get_indices` and `Groups`)

IDs are a function from row numbers to a linearly ordered type (object arrays of comparable IDs). Lists model NumPy arrays
whose length depends on the data.
-/

namespace Pyblp

variable {ι α M : Type} [LinearOrder ι] {N : ℕ}

/-- `flat.argsort(kind='mergesort')`, pyblp/utilities/basics.py:413: a stable sort of row numbers by ID. -/
def stableArgsort (ids : Fin N → ι) : List (Fin N) :=
  (List.finRange N).mergeSort fun a b => decide (ids a ≤ ids b)

/-- What `flat.argsort()` (pyblp/utilities/basics.py:505) guarantees: it returns row numbers, each once, in an order that
sorts the IDs. The default algorithm is not stable, so ties come in any order. -/
structure IsArgsort (ids : Fin N → ι) (sort : List (Fin N)) : Prop where
  perm : sort.Perm (List.finRange N)
  sorted : (sort.map ids).Pairwise (· ≤ ·)

/-- `changes = np.ones(..); changes[1:] = sorted_ids[1:] != sorted_ids[:-1]`, pyblp/utilities/basics.py:415-416 and
509-510. -/
def changes : List ι → List Bool
  | [] => []
  | x :: xs => true :: List.zipWith (fun a b => decide (a ≠ b)) xs (x :: xs)

/-- `np.nonzero(changes)[0]`, pyblp/utilities/basics.py:417 and 511. -/
def nonzero (l : List Bool) : List ℕ := (List.range l.length).filter fun p => l[p]?.getD false

/-- `np.split(l, cuts)` with a starting position: `l[start:c0], l[c0:c1], ..., l[cn:]`. Used for pyblp/utilities/basics.py:408-418. -/
def npSplit (l : List α) (start : ℕ) : List ℕ → List (List α)
  | [] => [l.drop start]
  | c :: cs => (l.take c).drop start :: npSplit l c cs

/-- `np.add.reduceat(l, indices)` for increasing indices. Used for pyblp/utilities/basics.py:522-524. -/
def reduceat [AddCommMonoid M] (l : List M) : List ℕ → List M
  | [] => []
  | [c] => [(l.drop c).sum]
  | c :: d :: cs => ((l.take d).drop c).sum :: reduceat l (d :: cs)

/-- `np.cumsum`, continuing from `a`. Used for pyblp/utilities/basics.py:500-520. -/
def cumsumFrom (a : ℕ) : List ℕ → List ℕ
  | [] => []
  | b :: bs => (a + b) :: cumsumFrom (a + b) bs

/-- `np.diff`. Used for pyblp/utilities/basics.py:500-520. -/
def npDiff : List ℕ → List ℕ
  | [] => []
  | [_] => []
  | a :: b :: l => (b - a) :: npDiff (b :: l)

/-- `sorted_ids[reduce_indices]`, pyblp/utilities/basics.py:418 and 512. -/
def takeAt (l : List α) (indices : List ℕ) : List α := indices.filterMap (l[·]?)

/-- `get_indices`, pyblp/utilities/basics.py:408-418. The dictionary is an association list in insertion order (its keys
are distinct, `C07_keys_nodup`). -/
def getIndices (ids : Fin N → ι) : List (ι × List (Fin N)) :=
  let sort := stableArgsort ids
  let sortedIds := sort.map ids
  let reduce := nonzero (changes sortedIds)
  List.zip (takeAt sortedIds reduce) (npSplit sort 0 reduce).tail

/-- The state of a `Groups` object, pyblp/utilities/basics.py:490-520. -/
structure Groups (ι : Type) (N : ℕ) where
  sort : List (Fin N)
  reduce : List ℕ
  unique : List ι
  codes : Fin N → ℕ
  counts : List ℕ

/-- `Groups.__init__`, pyblp/utilities/basics.py:500-520, given the result of `argsort`. `self.sort_indices.argsort()`
(line 516) is the inverse permutation: row `i` is at position `sort.idxOf i`. -/
def Groups.mk' (ids : Fin N → ι) (sort : List (Fin N)) : Groups ι N :=
  let sortedIds := sort.map ids
  let ch := changes sortedIds
  let reduce := nonzero ch
  let sortedCodes := (cumsumFrom 0 (ch.map fun b => if b then 1 else 0)).map (· - 1)
  { sort := sort
    reduce := reduce
    unique := takeAt sortedIds reduce
    codes := fun i => sortedCodes[sort.idxOf i]?.getD 0
    counts := npDiff (reduce ++ [N]) }

/-- `Groups.sum`, pyblp/utilities/basics.py:522-524. -/
def Groups.sum [AddCommMonoid M] (g : Groups ι N) (x : Fin N → M) : List M := reduceat (g.sort.map x) g.reduce

/-- `Groups.mean`, pyblp/utilities/basics.py:526-528 (one column). -/
noncomputable def Groups.mean (g : Groups ι N) (x : Fin N → ℝ) : List ℝ :=
  List.zipWith (fun (s : ℝ) (c : ℕ) => s / (c : ℝ)) (g.sum x) g.counts

/-- `Groups.expand`, pyblp/utilities/basics.py:530-532. `none` is an index error. -/
def Groups.expand (g : Groups ι N) (stats : List M) (i : Fin N) : Option M := stats[g.codes i]?

end Pyblp
