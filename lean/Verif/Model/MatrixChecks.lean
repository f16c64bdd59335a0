import Mathlib.Data.Matrix.Basic
import Mathlib.LinearAlgebra.Matrix.Charpoly.Basic
import Mathlib.LinearAlgebra.Matrix.Charpoly.Coeff
import Mathlib.Analysis.Complex.Polynomial.Basic
import Verif.Model.OptimalProblem
import Verif.Tactics

/-!
# Checks of matrices (`utilities/algebra.py`, `economies/economy.py`)

Decompositions are parameters, with `none` if they fail. Arithmetic is exact.
-/

set_option linter.unusedSectionVars false

namespace Pyblp

open Matrix

section Collinearity

variable {N K : ℕ}

/-- `x.std(axis=0)`, pyblp/utilities/algebra.py:49. -/
noncomputable def columnStd (X : Matrix (Fin N) (Fin K) ℝ) (k : Fin K) : ℝ :=
  Real.sqrt ((∑ n, (X n k - (∑ m, X m k) / N) ^ 2) / N)

/-- Tolerances of a column, pyblp/utilities/algebra.py:49. -/
noncomputable def columnTolerance (atol rtol : ℝ) (X : Matrix (Fin N) (Fin K) ℝ) (k : Fin K) : ℝ := atol + rtol * columnStd X k

open Classical in
/-- `precisely_identify_collinearity`, pyblp/utilities/algebra.py:38-53. The argument `R` is the upper triangular matrix of the QR decomposition. Its
diagonal has as many elements as the smaller dimension: a single one is broadcast, and otherwise, too few raise a `ValueError`, which is caught. -/
noncomputable def identifyCollinearity (atol rtol : ℝ) (R : Option (Matrix (Fin N) (Fin K) ℝ)) (X : Matrix (Fin N) (Fin K) ℝ) : (Fin K → Bool) × Bool :=
  if 0 < N * K ∧ 0 < min atol rtol then
    match R with
    | none => (fun _ => false, false)
    | some R =>
      if h : K ≤ N then (fun k => decide (|R ⟨k, by omega⟩ k| < columnTolerance atol rtol X k), true)
      else if h : N = 1 ∧ 0 < K then (fun k => decide (|R ⟨0, by omega⟩ ⟨0, h.2⟩| < columnTolerance atol rtol X k), true)
      else (fun _ => false, false)
  else (fun _ => false, true)

/-- Labels of the columns of instruments, pyblp/economies/economy.py:213-217: numbered instruments and labels of exogenous characteristics. -/
def instrumentLabels (name : String) (size : ℕ) (exogenous : List String) : List String :=
  ((List.range (size - exogenous.length)).map fun i => name ++ toString i) ++ exogenous

/-- Labels of exogenous characteristics, pyblp/economies/economy.py:210-211. -/
def exogenousLabels (label : Formula.Expr → String) (endogenous : Formula.Name) (X : List Formula.Expr) (added : Bool) : List String :=
  if added then (X.filter fun e => decide (endogenous ∉ e.symbols)).map label else []

/-- `collinear_labels`, pyblp/economies/economy.py:231. -/
def collinearLabels (labels : List String) (collinear : List Bool) : List String := ((labels.zip collinear).filter fun p => p.2).map Prod.fst

/-- What `_detect_collinearity` warns about for one matrix, pyblp/economies/economy.py:201-234: whether the decomposition failed, and labels of collinear
columns, if any. -/
inductive CollinearityWarning where
  | failed
  | collinear (labels : List String)

/-- `_detect_collinearity` for one matrix, pyblp/economies/economy.py:201-203 and 220-234. -/
noncomputable def detectCollinearity (atol rtol : ℝ) (R : Option (Matrix (Fin N) (Fin K) ℝ)) (X : Matrix (Fin N) (Fin K) ℝ) (labels : List String) :
    List CollinearityWarning :=
  if max atol rtol ≤ 0 then []
  else
    let result := identifyCollinearity atol rtol R X
    (if result.2 = false then [.failed] else []) ++
      if (List.ofFn result.1).any id then [.collinear (collinearLabels labels (List.ofFn result.1))] else []

end Collinearity

section PSD

variable {n : Type} [Fintype n] [DecidableEq n]

/-- `np.allclose(a, b, atol=atol, rtol=rtol)` for finite numbers, pyblp/utilities/algebra.py:66. -/
def AllClose (atol rtol : ℝ) (a b : Matrix n n ℝ) : Prop := ∀ i j, |a i j - b i j| ≤ atol + rtol * |b i j|

/-- Tolerances that can be disabled. Both are infinite if there are none. Used for pyblp/utilities/algebra.py:61 and 78. -/
abbrev Tolerances := Option (ℝ × ℝ)

open Classical in
/-- `precisely_identify_psd`, pyblp/utilities/algebra.py:56-70, followed by `_require_psd`, pyblp/economies/economy.py:250-258. The argument `svd` has
singular values and the matrix of right singular vectors, the rows of which are singular vectors. -/
noncomputable def requirePSD (tol : Tolerances) (svd : Option ((n → ℝ) × Matrix n n ℝ)) (x : Matrix n n ℝ) : Bool :=
  match tol with
  | none => true
  | some (atol, rtol) =>
    if Fintype.card n = 0 then true
    else
      match svd with
      | none => false
      | some (s, v) => decide (AllClose atol rtol (vᵀ * diagonal s * v) x)

/-- `norm`, pyblp/utilities/algebra.py:83: the largest absolute eigenvalue of a matrix. -/
noncomputable def spectralNorm (eigenvalues : List ℂ) : ℝ := (eigenvalues.map fun z => ‖z‖).foldr max 0

open Classical in
/-- `precisely_identify_stable`, pyblp/utilities/algebra.py:73-88, followed by `_require_stable`, pyblp/economies/economy.py:260-268. -/
noncomputable def requireStable (tol : Tolerances) (eigenvalues : Option (List ℂ)) (size : ℕ) : Bool :=
  match tol with
  | none => true
  | some (atol, rtol) =>
    if size = 0 then true
    else
      match eigenvalues with
      | none => false
      | some e => decide (spectralNorm e ≤ 1 + max atol (rtol * max 1 (spectralNorm e)))

end PSD

end Pyblp
