import Verif.Model.Groups
import Mathlib.Data.Matrix.Mul
import Mathlib.Data.Matrix.Basic
import Mathlib.Data.Real.Basic
import Mathlib.Algebra.BigOperators.Fin

/-!
# GMM routines (`utilities/statistics.py`)

Observations are rows `n`, equations (demand, supply, covariance, or the levels and differences of dynamic panels) are `ε`, linear
parameters are columns `k`, and the instruments of equation `e` are columns `m e`. Moments are indexed by an equation and one of its
instruments. Numbers are real; null values are not modelled here. `approximately_invert` returns the inverse of matrices that have
one, which enters as an argument (see `Verif/Model/Algebra.lean` for its branches).
-/

namespace Pyblp

open Matrix

variable {ε n k κ : Type} {m : ε → Type} [Fintype ε] [DecidableEq ε] [Fintype n] [Fintype k] [∀ e, Fintype (m e)]

/-- Moments: an equation and one of its instruments. Used for pyblp/utilities/statistics.py:24 and 49 and 22-28. -/
abbrev MomentIndex (m : ε → Type) := (e : ε) × m e

/-- `np.vstack(X_list)`, pyblp/utilities/statistics.py:23, 48 and 50. -/
def vstack (X : ε → Matrix n κ ℝ) : Matrix (ε × n) κ ℝ := fun r c => X r.1 r.2 c

/-- `scipy.linalg.block_diag(*Z_list)`, pyblp/utilities/statistics.py:24 and 49. -/
def blockDiag (Z : (e : ε) → Matrix n (m e) ℝ) : Matrix (ε × n) (MomentIndex m) ℝ :=
  fun r c => if r.1 = c.1 then Z c.1 r.2 c.2 else 0

/-- `covariances_inverse` of `IV.__init__`, pyblp/utilities/statistics.py:22-28. -/
def ivCovariancesInverse (X : ε → Matrix n k ℝ) (Z : (e : ε) → Matrix n (m e) ℝ)
    (W : Matrix (MomentIndex m) (MomentIndex m) ℝ) : Matrix k k ℝ :=
  let product := (blockDiag Z)ᵀ * vstack X
  productᵀ * W * product

/-- `parameters` of `IV.estimate`, pyblp/utilities/statistics.py:47-54, given the stored `covariances`. -/
def ivParameters (covariances : Matrix k k ℝ) (X : ε → Matrix n k ℝ) (Z : (e : ε) → Matrix n (m e) ℝ)
    (W : Matrix (MomentIndex m) (MomentIndex m) ℝ) (y : ε → n → ℝ) : k → ℝ :=
  let XZ := (vstack X)ᵀ * blockDiag Z
  (covariances * XZ * W) *ᵥ ((blockDiag Z)ᵀ *ᵥ fun r => y r.1 r.2)

/-- `residuals_list` of `IV.estimate`, pyblp/utilities/statistics.py:55-58. -/
def ivResiduals (covariances : Matrix k k ℝ) (X : ε → Matrix n k ℝ) (Z : (e : ε) → Matrix n (m e) ℝ)
    (W : Matrix (MomentIndex m) (MomentIndex m) ℝ) (y : ε → n → ℝ) : ε → n → ℝ :=
  fun e i => y e i - (vstack X *ᵥ ivParameters covariances X Z W y) (e, i)

/-- Converted Jacobians of `IV.estimate`, pyblp/utilities/statistics.py:61-65: one column. -/
def ivJacobian (covariances : Matrix k k ℝ) (X : ε → Matrix n k ℝ) (Z : (e : ε) → Matrix n (m e) ℝ)
    (W : Matrix (MomentIndex m) (MomentIndex m) ℝ) (jacobian : ε → n → ℝ) : ε → n → ℝ :=
  let XZ := (vstack X)ᵀ * blockDiag Z
  fun e i => jacobian e i -
    (vstack X *ᵥ (covariances *ᵥ (XZ *ᵥ (W *ᵥ ((blockDiag Z)ᵀ *ᵥ fun r => jacobian r.1 r.2))))) (e, i)

/-- `compute_gmm_moments`, pyblp/utilities/statistics.py:152-154. -/
def gmmMoments (u : ε → n → ℝ) (Z : (e : ε) → Matrix n (m e) ℝ) (i : n) : MomentIndex m → ℝ := fun c => u c.1 i * Z c.1 i c.2

/-- `.mean(axis=0)`. Used for pyblp/utilities/statistics.py:157-159 and 103-104. -/
noncomputable def rowMean {c : Type} (g : n → c → ℝ) : c → ℝ := fun a => (∑ i, g i a) / (Fintype.card n : ℝ)

/-- `compute_gmm_moments_mean`, pyblp/utilities/statistics.py:157-159. -/
noncomputable def gmmMomentsMean (u : ε → n → ℝ) (Z : (e : ε) → Matrix n (m e) ℝ) : MomentIndex m → ℝ :=
  rowMean (gmmMoments u Z)

/-- `compute_gmm_moments_jacobian_mean`, pyblp/utilities/statistics.py:162-164: one column. -/
noncomputable def gmmMomentsJacobianMean (jacobian : ε → n → ℝ) (Z : (e : ε) → Matrix n (m e) ℝ) : MomentIndex m → ℝ :=
  fun c => (∑ i, jacobian c.1 i * Z c.1 i c.2) / (Fintype.card n : ℝ)

/-- `compute_gmm_error_covariance`, pyblp/utilities/statistics.py:147-149: `np.cov(.., bias=True)[0][1]`. -/
noncomputable def gmmErrorCovariance (u1 u2 : n → ℝ) : ℝ :=
  (∑ i, (u1 i - (∑ j, u1 j) / (Fintype.card n : ℝ)) * (u2 i - (∑ j, u2 j) / (Fintype.card n : ℝ))) / (Fintype.card n : ℝ)

/-- `np.c_[S + S.T] / 2`, pyblp/utilities/statistics.py:82, 110 and 129. -/
noncomputable def symmetrized {c : Type} (S : Matrix c c ℝ) : Matrix c c ℝ := fun a b => (S a b + S b a) / 2

/-- The covariance types of `compute_gmm_moment_covariances`. Used for pyblp/utilities/statistics.py:85-110. -/
inductive CovarianceType where
  | unadjusted
  | robust
  | clustered

/-- Optional centring, pyblp/utilities/statistics.py:103-104. -/
noncomputable def centered {c : Type} (center : Bool) (g : n → c → ℝ) : n → c → ℝ :=
  if center then fun i a => g i a - rowMean g a else g

/-- `compute_gmm_moment_covariances`, pyblp/utilities/statistics.py:85-110. Rows are `Fin N`, and `sort` is the result of sorting
clustering IDs in `Groups`. -/
noncomputable def gmmMomentCovariances {ι : Type} [LinearOrder ι] {N : ℕ} (u : ε → Fin N → ℝ)
    (Z : (e : ε) → Matrix (Fin N) (m e) ℝ) (type : CovarianceType) (ids : Fin N → ι) (sort : List (Fin N)) (center : Bool) :
    Matrix (MomentIndex m) (MomentIndex m) ℝ :=
  symmetrized <| match type with
    | .unadjusted => fun a b => gmmErrorCovariance (u a.1) (u b.1) * (∑ i, Z a.1 i a.2 * Z b.1 i b.2) / (N : ℝ)
    | .robust => fun a b =>
      let g := centered center (gmmMoments u Z)
      (∑ i, g i a * g i b) / (N : ℝ)
    | .clustered => fun a b =>
      let g := centered center (gmmMoments u Z)
      (((Groups.mk' ids sort).sum g).map fun row => row a * row b).sum / (N : ℝ)

/-- `compute_gmm_weights`, pyblp/utilities/statistics.py:70-82, given the inverse. -/
noncomputable def gmmWeights {c : Type} (inverse : Matrix c c ℝ) : Matrix c c ℝ := symmetrized inverse

/-- `compute_gmm_parameter_covariances`, pyblp/utilities/statistics.py:113-129, given the inverse of `mean_G.T @ W @ mean_G`. -/
noncomputable def gmmParameterCovariances {c p : Type} [Fintype c] [Fintype p] (W S : Matrix c c ℝ) (meanG : Matrix c p ℝ)
    (inverse : Matrix p p ℝ) (unadjusted : Bool) : Matrix p p ℝ :=
  symmetrized (if unadjusted then inverse else inverse * meanGᵀ * W * S * W * meanG * inverse)

/-- `compute_gmm_parameter_sensitivity`, pyblp/utilities/statistics.py:132-144, given the inverse. -/
noncomputable def gmmParameterSensitivity {c p : Type} [Fintype c] [Fintype p] (W : Matrix c c ℝ) (meanG : Matrix c p ℝ)
    (inverse : Matrix p p ℝ) : Matrix p c ℝ := -inverse * meanGᵀ * W

/-! ## The objective and its gradient -/

/-- `W[:MD + MS, :MD + MS]`, pyblp/economies/problem.py:822 and 1463. -/
def ivWeights {c d : Type} (W : Matrix (c ⊕ d) (c ⊕ d) ℝ) : Matrix c c ℝ := fun a b => W (Sum.inl a) (Sum.inl b)

/-- `np.r_[a, b]` of column vectors. Used for pyblp/economies/problem.py:1463-1476, 1525 and 1537. -/
def concat {c d : Type} (a : c → ℝ) (b : d → ℝ) : c ⊕ d → ℝ := Sum.elim a b

/-- The objective, pyblp/economies/problem.py:1524-1528, given averaged moments and micro moments. -/
noncomputable def gmmObjective {c : Type} [Fintype c] (N : ℕ) (scale : Bool) (W : Matrix c c ℝ) (g : c → ℝ) : ℝ :=
  (if scale then (N : ℝ) else 1) * (g ⬝ᵥ (W *ᵥ g))

/-- An element of the gradient, pyblp/economies/problem.py:1537-1540, given a column of the Jacobian of averaged moments. -/
noncomputable def gmmGradient {c : Type} [Fintype c] (N : ℕ) (scale : Bool) (W : Matrix c c ℝ) (g G : c → ℝ) : ℝ :=
  (if scale then (N : ℝ) else 1) * (2 * (G ⬝ᵥ (W *ᵥ g)))

/-- Averaged moments and their Jacobian as `_compute_progress` computes them without covariance moments,
pyblp/economies/problem.py:1463-1476, 1525 and 1537: linear parameters are concentrated out with the block of `W` that belongs to
aggregate moments, and, because there are no covariance moments, Jacobians of `delta` and transformed costs are used as they are. -/
noncomputable def progressObjective {N : ℕ} {d : Type} [Fintype d] (scale : Bool) (covariances : Matrix k k ℝ)
    (X : ε → Matrix (Fin N) k ℝ) (Z : (e : ε) → Matrix (Fin N) (m e) ℝ) (W : Matrix (MomentIndex m ⊕ d) (MomentIndex m ⊕ d) ℝ)
    (y : ε → Fin N → ℝ) (micro : d → ℝ) : ℝ :=
  gmmObjective N scale W (concat (gmmMomentsMean (ivResiduals covariances X Z (ivWeights W) y) Z) micro)

/-- See `progressObjective`; `yJacobian` and `microJacobian` are columns for one parameter.
Used for pyblp/economies/problem.py:1379-1392 and 1537-1540. -/
noncomputable def progressGradient {N : ℕ} {d : Type} [Fintype d] (scale : Bool) (covariances : Matrix k k ℝ)
    (X : ε → Matrix (Fin N) k ℝ) (Z : (e : ε) → Matrix (Fin N) (m e) ℝ) (W : Matrix (MomentIndex m ⊕ d) (MomentIndex m ⊕ d) ℝ)
    (y yJacobian : ε → Fin N → ℝ) (micro microJacobian : d → ℝ) : ℝ :=
  gmmGradient N scale W (concat (gmmMomentsMean (ivResiduals covariances X Z (ivWeights W) y) Z) micro)
    (concat (gmmMomentsJacobianMean yJacobian Z) microJacobian)

end Pyblp
