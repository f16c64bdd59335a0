import Mathlib.Data.Real.Basic
import Mathlib.Analysis.Real.Sqrt
import Mathlib.Logic.Function.Basic
import Verif.Tactics

/-!
# Finite differences (`utilities/basics.py`)

Functions return vectors; rows of returned arrays are indexed by `ι`.
-/

namespace Pyblp

variable {P ι : Type} [DecidableEq P]

/-- `x1 = x.copy(); x1[index] += amount`, pyblp/utilities/basics.py:427-430 and 446-457. -/
def bump (x : P → ℝ) (index : P) (amount : ℝ) : P → ℝ := Function.update x index (x index + amount)

/-- `compute_finite_differences`, pyblp/utilities/basics.py:421-435. `epsilon` is the product in line 423. The result has one column for
each element of `x`. -/
noncomputable def computeFiniteDifferences (f : (P → ℝ) → ι → ℝ) (x : P → ℝ) (epsilon : ℝ) : ι → P → ℝ :=
  fun i index => (f (bump x index (epsilon / 2)) i - f (bump x index (-(epsilon / 2))) i) / epsilon

/-- `compute_second_finite_differences`, pyblp/utilities/basics.py:438-465. `scaled` is the product in line 440. Columns are `index2` and
the last dimension is `index1`. -/
noncomputable def computeSecondFiniteDifferences (f : (P → ℝ) → ι → ℝ) (x : P → ℝ) (scaled : ℝ) : ι → P → P → ℝ :=
  let epsilon := Real.sqrt scaled
  fun i index2 index1 =>
    let x1 := bump (bump x index1 (epsilon / 2)) index2 (epsilon / 2)
    let x2 := bump (bump x index1 (epsilon / 2)) index2 (-(epsilon / 2))
    let x3 := bump (bump x index1 (-(epsilon / 2))) index2 (epsilon / 2)
    let x4 := bump (bump x index1 (-(epsilon / 2))) index2 (-(epsilon / 2))
    (f x1 i - f x2 i - f x3 i + f x4 i) / epsilon ^ 2

/-- The Hessian, pyblp/economies/problem.py:1597-1599: differences of the gradient made symmetric. -/
noncomputable def differenceHessian (gradient : (P → ℝ) → P → ℝ) (x : P → ℝ) (epsilon : ℝ) : P → P → ℝ :=
  let hessian := computeFiniteDifferences gradient x epsilon
  fun p q => (hessian p q + hessian q p) / 2

end Pyblp
