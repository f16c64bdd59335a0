import Verif.Model.Algebra
import Verif.Model.Parameters

/-!
# Standard errors of `sigma * sigma'` (`results/problem_results.py`, `utilities/statistics.py`, `parameters.py`)

`pinv s h D` stands for `scipy.linalg.pinv` of a matrix with `s` rows and `h` columns.
-/

namespace Pyblp

open Classical

/-- A null number written as one entry of an array that was initialized with zeros. -/
noncomputable instance : Zero Fl := ⟨some 0⟩

/-- `np.eye(k)`. Used for pyblp/utilities/statistics.py:175-179. -/
def eye : Mat := fun i j => if i = j then 1 else 0

/-- The Jacobian in `compute_sigma_squared_vector_covariances`, pyblp/utilities/statistics.py:175-179. -/
noncomputable def sigmaSquaredJacobian (pinv : ℕ → ℕ → Mat → Mat) (k : ℕ) (sigma : Mat) : Mat :=
  let L := eliminationMatrix k
  let D := duplicationMatrix k
  let s := k ^ 2
  let h := k * (k + 1) / 2
  matMul s (matMul s (fun i j => 2 * pinv s h D i j) (kron k sigma eye)) (matT L)

/-- `compute_sigma_squared_vector_covariances`, pyblp/utilities/statistics.py:167-180. Without random coefficients, all matrices
are empty, and so is the result. -/
noncomputable def sigmaSquaredVectorCovariances (pinv : ℕ → ℕ → Mat → Mat) (k : ℕ) (sigma : Mat) (covariances : Mat) : Mat :=
  let h := k * (k + 1) / 2
  let jacobian := sigmaSquaredJacobian pinv k sigma
  matMul h (matMul h jacobian covariances) (matT jacobian)

/-- The number of parameters in `theta`, `self.P`, pyblp/parameters.py:310. -/
def Parameters.P (p : Parameters) : ℕ := p.stored.unfixed.length

/-- `np.pad(theta_covariances, pad_width=(0, 1), mode='constant', constant_values=0)`, pyblp/parameters.py:713. -/
noncomputable def padCovariances (P : ℕ) (covariances : Mat) : Mat := fun k l => if k < P ∧ l < P then covariances k l else 0

/-- Indices of elements of `vech(sigma)` in `theta`, with the number of parameters for fixed ones, pyblp/parameters.py:708-709 and
714. -/
noncomputable def sigmaIndices (p : Parameters) (K2 : ℕ) : List ℕ :=
  let arange : List Fl := (List.range p.P).map fun k : ℕ => some (((k : ℕ) : ℝ) : EReal)
  (vech K2 (expand p arange true .sigma)).map fun
    | none => p.P
    | some x => ⌊x.toReal⌋₊

/-- `extract_sigma_vector_covariances`, pyblp/parameters.py:703-715. -/
noncomputable def extractSigmaVectorCovariances (p : Parameters) (K2 : ℕ) (covariances : Mat) : Mat :=
  let padded := padCovariances p.P covariances
  let indices := sigmaIndices p K2
  fun r c => padded (indices.getD r 0) (indices.getD c 0)

/-- Estimates of `sigma`: what `expand` builds from the estimate of `theta`, pyblp/results/problem_results.py:498-501. -/
noncomputable def sigmaAt (p : Parameters) (theta : ℕ → ℝ) : Mat := fun i j =>
  ((expand p ((List.range p.P).map fun k : ℕ => some ((theta k : ℝ) : EReal)) false .sigma i j).getD 0).toReal

/-- `sigma_squared`, pyblp/results/problem_results.py:501. -/
noncomputable def sigmaSquared (p : Parameters) (K2 : ℕ) (theta : ℕ → ℝ) : Mat :=
  matMul K2 (sigmaAt p theta) (matT (sigmaAt p theta))

/-- `sigma_squared_se`, pyblp/results/problem_results.py:567-576 and 589, given `theta` and `parameter_covariances`, of which the
first `P` rows and columns are for `theta`. -/
noncomputable def sigmaSquaredSe (pinv : ℕ → ℕ → Mat → Mat) (p : Parameters) (K2 N : ℕ) (theta : ℕ → ℝ) (covariances : Mat) :
    ℕ → ℕ → Fl :=
  let vector := extractSigmaVectorCovariances p K2 covariances
  let squared := sigmaSquaredVectorCovariances pinv K2 (sigmaAt p theta) vector
  let se := (List.range (K2 * (K2 + 1) / 2)).map fun r => sqrtFl (some (squared r r / N))
  vechToFull se K2

end Pyblp
