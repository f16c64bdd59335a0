import Verif.Model.PyErr
import Verif.Model.Algebra
import Verif.Model.Statistics

/-!
# Test statistics (`results/problem_results.py`)

Moments are indexed by `c`, parameters by `p`. Numbers are real.
-/

namespace Pyblp

open Matrix

/-- The parts of `ProblemResults` that test statistics use, pyblp/results/problem_results.py:389-412 and 540-560. -/
structure GmmResults (c p : Type) where
  /-- `self.problem.N`. -/
  N : ℕ
  /-- `self._scaled_objective`. -/
  scaled : Bool
  /-- `self.objective`. -/
  objective : ℝ
  /-- `self.W`. -/
  W : Matrix c c ℝ
  /-- `self.moments`. -/
  moments : c → ℝ
  /-- `self.moments_jacobian`. -/
  jacobian : Matrix c p ℝ
  /-- `self.parameter_covariances`. -/
  covariances : Matrix p p ℝ

variable {c p : Type} [Fintype c] [Fintype p]

/-- `run_hansen_test`, pyblp/results/problem_results.py:982. -/
noncomputable def GmmResults.hansen (r : GmmResults c p) : ℝ := (if r.scaled then 1 else (r.N : ℝ)) * r.objective

/-- `run_distance_test`, pyblp/results/problem_results.py:1024-1030. `none` is an argument that is not a `ProblemResults`. Results may
have other moments and parameters. -/
noncomputable def GmmResults.distance {c' p' : Type} (r : GmmResults c p) (unrestricted : Option (GmmResults c' p')) : Except PyErr ℝ :=
  match unrestricted with
  | none => .error .typeError
  | some u =>
    if u.N ≠ r.N then .error .valueError
    else .ok ((if r.scaled then 1 else (r.N : ℝ)) * r.objective - (if u.scaled then 1 else (u.N : ℝ)) * u.objective)

/-- `run_lm_test`, pyblp/results/problem_results.py:1063-1064. -/
noncomputable def GmmResults.lm (r : GmmResults c p) : ℝ :=
  let gradient := (r.jacobianᵀ * r.W) *ᵥ r.moments
  r.N * (gradient ⬝ᵥ (r.covariances *ᵥ gradient))

/-- `run_wald_test`, pyblp/results/problem_results.py:1111-1116, for arguments of the right shapes. `routines` are the attempts of
`approximately_invert` for a matrix: `scipy.linalg.inv`, `scipy.linalg.pinv` and the inverse of the diagonal. The second component is
whether `WaldInversionError` is output. -/
noncomputable def GmmResults.wald {q : Type} [Fintype q] (r : GmmResults c p) (nan : Matrix q q ℝ) (pseudoInverses : Bool)
    (inv pinv diag : Matrix q q ℝ → Attempt (Matrix q q ℝ)) (restrictions : q → ℝ) (R : Matrix q p ℝ) : ℝ × Bool :=
  let matrix := R * r.covariances * Rᵀ
  let inverted := approximatelyInvert nan pseudoInverses (inv matrix) (pinv matrix) (diag matrix)
  (r.N * (restrictions ⬝ᵥ (inverted.1 *ᵥ restrictions)), inverted.2.isSome)

/-- Validation of the shapes of `restrictions` and `restrictions_jacobian`, pyblp/results/problem_results.py:1101-1109, after `np.c_`,
which leaves matrices as they are and makes vectors columns. Shapes are numbers of rows and columns; `parameters` is the number of rows
of covariances. -/
def waldShapes (parameters : ℕ) (restrictions jacobian : ℕ × ℕ) : Except PyErr Unit :=
  if restrictions ≠ (restrictions.1, 1) then .error .valueError
  else if jacobian ≠ (restrictions.1, parameters) then .error .valueError
  else .ok ()

end Pyblp
