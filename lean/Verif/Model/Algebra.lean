import Verif.Tactics
import Mathlib.Data.List.Range
import Mathlib.Algebra.BigOperators.Intervals

/-!
# Vectorization operators and inversion with replacements (`utilities/algebra.py`)

Matrices of size `n` are functions of row and column numbers, of which only the first `n` matter. Half-vectorizations are for
entries of any type, because standard errors can be NaN.
-/

namespace Pyblp

/-- A matrix. Used for pyblp/utilities/algebra.py:224-226 and 190-206. -/
abbrev Mat := ℕ → ℕ → ℝ

/-- `E = np.zeros((n, n)); E[i, j] = 1`. Used for pyblp/utilities/algebra.py:190-206 and 209-221. -/
def unitMat (i j : ℕ) : Mat := fun a b => if a = i ∧ b = j then 1 else 0

/-- `vec`, pyblp/utilities/algebra.py:224-226: entry `p` of `np.ravel(x, order='F')`. -/
def vec (n : ℕ) (x : Mat) (p : ℕ) : ℝ := x (p % n) (p / n)

/-- `np.triu_indices(n, k)`: rows and columns of the upper triangle, row by row. Used for pyblp/utilities/algebra.py:229-231 and 234-238. -/
def triuIndices (n k : ℕ) : List (ℕ × ℕ) :=
  (List.range n).flatMap fun a => (List.range' (a + k) (n - (a + k))).map fun b => (a, b)

/-- `vech`, pyblp/utilities/algebra.py:229-231: `x.T[np.triu_indices_from(x)]`. -/
def vech {α : Type} (n : ℕ) (x : ℕ → ℕ → α) : List α := (triuIndices n 0).map fun p => x p.2 p.1

/-- `A[indices] = values` with the rows and columns of entries. Used for pyblp/utilities/algebra.py:234-238 and 241-245. -/
def scatter {α : Type} (base : ℕ → ℕ → α) (indices : List (ℕ × ℕ)) (values : List α) : ℕ → ℕ → α :=
  (indices.zip values).foldl (fun A p => fun i j => if (i, j) = p.1 then p.2 else A i j) base

/-- `vech_to_lower`, pyblp/utilities/algebra.py:234-238. -/
def vechToLower {α : Type} [Zero α] (x : List α) (n : ℕ) : ℕ → ℕ → α :=
  let A := scatter (fun _ _ => 0) (triuIndices n 0) x
  fun i j => A j i

/-- `vech_to_full`, pyblp/utilities/algebra.py:241-245. -/
def vechToFull {α : Type} [Zero α] (x : List α) (n : ℕ) : ℕ → ℕ → α :=
  let A := vechToLower x n
  scatter A (triuIndices n 1) ((triuIndices n 1).map fun p => A p.2 p.1)

/-- `elimination_matrix`, pyblp/utilities/algebra.py:190-206. -/
def eliminationMatrix (n : ℕ) : Mat := fun r p =>
  ∑ i ∈ Finset.range n, ∑ j ∈ Finset.range (i + 1),
    (if r = j * n + i - j * (j + 1) / 2 then 1 else 0) * vec n (unitMat i j) p

/-- `np.kron(a, b)` for square matrices of size `n`. Used for pyblp/utilities/algebra.py:209-221. -/
def kron (n : ℕ) (a b : Mat) : Mat := fun p q => a (p / n) (q / n) * b (p % n) (q % n)

/-- `commutation_matrix`, pyblp/utilities/algebra.py:209-221. -/
def commutationMatrix (n : ℕ) : Mat := fun p q =>
  ∑ i ∈ Finset.range n, ∑ j ∈ Finset.range n, kron n (unitMat i j) (fun a b => unitMat i j b a) p q

/-- `a @ b` with inner dimension `m`. Used for pyblp/utilities/algebra.py:180-187. -/
def matMul (m : ℕ) (a b : Mat) : Mat := fun i j => ∑ k ∈ Finset.range m, a i k * b k j

/-- `a.T`. Used for pyblp/utilities/algebra.py:180-187. -/
def matT (a : Mat) : Mat := fun i j => a j i

/-- `duplication_matrix`, pyblp/utilities/algebra.py:180-187. -/
def duplicationMatrix (n : ℕ) : Mat :=
  let L := eliminationMatrix n
  let K := commutationMatrix n
  let h := n * (n + 1) / 2
  let s := n ^ 2
  fun i j => matT L i j + matMul s K (matT L) i j - matMul s (matMul s (matMul h (matT L) L) K) (matT L) i j

/-! ## Inversion with replacements -/

/-- What a call of an inversion routine does: it returns, raises `ValueError`, or raises `LinAlgError` or a warning turned into
an error. Used for pyblp/utilities/algebra.py:164-175 and 147-177. -/
inductive Attempt (α : Type) where
  | ok (inverse : α)
  | valueError
  | linAlgError

/-- The replacements the caller can be told about. Used for pyblp/utilities/algebra.py:164-175 and 147-177. -/
inductive Replacement where
  | pseudoInverse
  | diagonal
  | nullValues
  deriving DecidableEq

/-- The loop over methods, pyblp/utilities/algebra.py:164-175. `last` is the value of the loop variable `replacement`, which
survives the loop; `nan` is the array of null values. -/
def tryMethods {α : Type} (nan : α) : List (Attempt α × Option Replacement) → Option Replacement → α × Option Replacement
  | [], last => (nan, last)
  | (.ok inverse, _) :: _, _ => (inverse, none)
  | (.valueError, _) :: _, _ => (nan, some .nullValues)
  | (.linAlgError, label) :: rest, _ => tryMethods nan rest label

/-- `approximately_invert`, pyblp/utilities/algebra.py:147-177, for a matrix that is not empty, given what each routine does. -/
def approximatelyInvert {α : Type} (nan : α) (pseudoInverses : Bool) (inv pinv diag : Attempt α) : α × Option Replacement :=
  let methods := (if pseudoInverses then [(pinv, none)] else [(inv, none), (pinv, some .pseudoInverse)]) ++
    [(diag, some .diagonal)]
  tryMethods nan methods none

/-- `approximately_solve`, pyblp/utilities/algebra.py:133-144: any exception from `solve` leads to the inverse. `apply` is
`inverse @ b`. -/
def approximatelySolve {α β : Type} (nan : α) (apply : α → β) (pseudoInverses : Bool) (solve : Attempt β)
    (inv pinv diag : Attempt α) : β × Option Replacement :=
  match solve with
  | .ok solved => (solved, none)
  | _ =>
    let r := approximatelyInvert nan pseudoInverses inv pinv diag
    (apply r.1, r.2)

end Pyblp
