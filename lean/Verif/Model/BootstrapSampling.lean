import Verif.Model.Estimation

/-!
# Drawing parameters from their estimated distribution (`results/problem_results.py`)

The first half of `ProblemResults.bootstrap` in real numbers. `Model/Bootstrap` has the same steps for floating point numbers and arrays.
-/

namespace Pyblp

/-- `np.clip` for real numbers and bounds that may be infinite. Used for pyblp/results/problem_results.py:1229-1234. -/
noncomputable def clipReal (bounds : EReal × EReal) (x : ℝ) : ℝ := (min (max (x : EReal) bounds.1) bounds.2).toReal

/-- `state.multivariate_normal(mean, covariance)` of NumPy from independent standard normal draws `z`. `root` is what NumPy computes from the singular
value decomposition of the covariance matrix, pyblp/results/problem_results.py:1200-1202. -/
def multivariateNormal {P : Type} [Fintype P] (root : Matrix P P ℝ) (mean z : P → ℝ) : P → ℝ := fun p => mean p + ∑ k, z k * root k p

namespace Estimation

section

variable {N nd ns : ℕ} {m : Fin nd ⊕ Fin ns → Type} {q b g θ d ι D : Type} [∀ e, Fintype (m e)] [Fintype q] [Fintype b] [Fintype g] [Fintype θ]
  [Fintype d] [LinearOrder ι] [∀ e, DecidableEq (m e)] [DecidableEq q] [DecidableEq b] [DecidableEq g] [DecidableEq θ] [DecidableEq d]
  (E : Estimation N nd ns m q b g θ d ι D)

/-- `self.parameters`, pyblp/results/problem_results.py:502-506. -/
noncomputable def parameters (r : StepResults (Weights m q d) (θ → ℝ) D) : θ ⊕ b ⊕ g → ℝ := Sum.elim r.theta (E.linearParameters r.start.W (E.outcome r))

/-- Parameters of one bootstrapped draw, pyblp/results/problem_results.py:1198-1234, as a vector of those that were estimated: all others are fixed.
Bounds of linear parameters that are concentrated out are infinite. -/
noncomputable def bootstrapped (r : StepResults (Weights m q d) (θ → ℝ) D) (root : Matrix (θ ⊕ b ⊕ g) (θ ⊕ b ⊕ g) ℝ → Matrix (θ ⊕ b ⊕ g) (θ ⊕ b ⊕ g) ℝ)
    (bounds : θ ⊕ b ⊕ g → EReal × EReal) (z : θ ⊕ b ⊕ g → ℝ) : θ ⊕ b ⊕ g → ℝ :=
  let draw := multivariateNormal (root ((N : ℝ)⁻¹ • E.parameterCovariances r)) (E.parameters r) z
  fun p => clipReal (bounds p) (draw p)

end

end Estimation

end Pyblp
