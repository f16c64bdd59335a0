import Verif.Model.Supply
import Mathlib.Analysis.Matrix.Spectrum

/-! Second order conditions that are reported by simulations. -/

set_option linter.unusedSectionVars false

namespace Pyblp

section

variable {J A G K1 K2 F : Type} [Fintype J] [LinearOrder J] [Nonempty J] [Fintype G] [DecidableEq G] [Fintype A]
  [Fintype K1] [Fintype K2] [DecidableEq F]

/-- Profit gradient that is reported for firm `f`, pyblp/markets/simulation_market.py:54-58. -/
noncomputable def firmGradientBlock (m : Market J A G) (c : Characteristic J A K1 K2) (firm : J → F) (costs p : J → ℝ) (f : F)
    (k : {k // firm k = f}) : ℝ :=
  firmProfitGradient m c (ownershipFromIds firm) costs p k

/-- Profit Hessian that is reported for firm `f`, pyblp/markets/simulation_market.py:65-69. -/
noncomputable def firmHessianBlock (m : Market J A G) (c : Characteristic J A K1 K2) (firm : J → F) (costs p : J → ℝ) (f : F) :
    Matrix {k // firm k = f} {k // firm k = f} ℝ :=
  Matrix.of fun k l => firmProfitHessian m c (ownershipFromIds firm) costs p k l

end

/-- Norm of a profit gradient, pyblp/economies/simulation.py:820-824. Firms have products, so the gradient is not empty. -/
noncomputable def gradientNorm {I : Type} [Fintype I] [Nonempty I] (g : I → ℝ) : ℝ :=
  Finset.univ.sup' Finset.univ_nonempty fun k => |g k|

section

variable {I : Type} [Fintype I] [LinearOrder I]

/-- The matrix of which `scipy.linalg.eigvalsh` computes eigenvalues: it reads the lower triangle only, and takes the upper one to be
the same. -/
def lowerSymmetric (x : Matrix I I ℝ) : Matrix I I ℝ := Matrix.of fun k l => if l ≤ k then x k l else x l k

theorem lowerSymmetric_isHermitian (x : Matrix I I ℝ) : (lowerSymmetric x).IsHermitian := by
  ext k l
  simp only [Matrix.conjTranspose_apply, lowerSymmetric, Matrix.of_apply, star_trivial]
  rcases lt_trichotomy k l with h | h | h
  · rw [if_pos h.le, if_neg (not_le.mpr h)]
  · rw [h]
  · rw [if_neg (not_le.mpr h), if_pos h.le]

/-- `precisely_compute_eigenvalues`, pyblp/utilities/algebra.py:91-102, when the routine succeeds. The order of eigenvalues is not modelled. -/
noncomputable def computeEigenvalues (x : Matrix I I ℝ) : I → ℝ := (lowerSymmetric_isHermitian x).eigenvalues

end

end Pyblp
