import Verif.Model.Estimation
import Verif.Model.TestStatistics

/-!
# Results of estimation that are tested (`results/problem_results.py`)
-/

namespace Pyblp

variable {N nd ns : ℕ} {m : Fin nd ⊕ Fin ns → Type} {q b g θ d ι D : Type} [∀ e, Fintype (m e)] [Fintype q] [Fintype b] [Fintype g]
  [Fintype θ] [Fintype d] [LinearOrder ι] (E : Estimation N nd ns m q b g θ d ι D)

namespace Estimation

/-- What `ProblemResults` of a step keeps for tests, pyblp/results/problem_results.py:389, 398, 406, 536 and 554-558: the objective and moments at
the estimate, with weights that the step started with, and the Jacobian and covariances that are computed there. -/
noncomputable def results (r : StepResults (Weights m q d) (θ → ℝ) D) : GmmResults ((MomentIndex m ⊕ q) ⊕ d) (θ ⊕ b ⊕ g) where
  N := N
  scaled := E.scale
  objective := E.objective r.start.W (E.outcome r)
  W := r.start.W
  moments := E.meanMoments r.start.W (E.outcome r)
  jacobian := E.jacobian r
  covariances := E.parameterCovariances r

end Estimation

end Pyblp
