import Verif.Model.Estimation

set_option linter.unusedSectionVars false

/-!
# The Hessian in `_compute_progress` (`economies/problem.py`)

An evaluation either uses a regression initialised before optimization or initialises one of its own, and the Hessian is made of
gradients of further evaluations.
-/

namespace Pyblp

open Matrix

variable {N nd ns : ℕ} {m : Fin nd ⊕ Fin ns → Type} {q b g θ d ι D : Type} [∀ e, Fintype (m e)] [Fintype q] [Fintype b] [Fintype g]
  [Fintype θ] [Fintype d] [LinearOrder ι]

/-- `X_list` before optimization, pyblp/economies/problem.py:813-819. Without a supply side, there are no columns of zeros. -/
def MomentData.levelRegressors (M : MomentData N nd ns m q b g) : Fin nd ⊕ Fin ns → Matrix (Fin N) (b ⊕ g) ℝ
  | .inl _ => fun i c => M.extendedX1 c i
  | .inr _ => fun i c => M.extendedX3 c i

namespace Estimation

variable (E : Estimation N nd ns m q b g θ d ι D)

/-- `all(t == 'levels' ...)`, pyblp/economies/problem.py:812. -/
def onlyLevels : Bool := (List.ofFn E.data.demand ++ List.ofFn E.data.supply).all MomentType.isLevels

/-- The `iv` with which `_compute_progress` is called for a step, pyblp/economies/problem.py:811-824. -/
def initialRegression (W : Weights m q d) : Option (Matrix (b ⊕ g) (b ⊕ g) ℝ) :=
  if E.onlyLevels then some (E.invertLinear (ivCovariancesInverse E.data.levelRegressors E.data.Z (ivWeights (ivWeights W)))) else none

/-- The value of `iv` in `_compute_progress` from pyblp/economies/problem.py:1466 on. -/
def regression (iv : Option (Matrix (b ⊕ g) (b ⊕ g) ℝ)) (W : Weights m q d) (o : Evaluated N θ d) : Matrix (b ⊕ g) (b ⊕ g) ℝ :=
  match iv with
  | some covariances => covariances
  | none => E.covariances W o.phi

/-- The objective from an evaluation with a given `iv`, pyblp/economies/problem.py:1463-1528. -/
noncomputable def progressObjective (iv : Option (Matrix (b ⊕ g) (b ⊕ g) ℝ)) (W : Weights m q d) (s : D) (theta : θ → ℝ) : ℝ :=
  let o := (E.markets s theta).1
  E.data.objective E.scale (E.regression iv W o) W o.phi o.delta o.costs E.mean o.micro

/-- The gradient from an evaluation with a given `iv`, pyblp/economies/problem.py:1463-1540. -/
noncomputable def progressGradient (iv : Option (Matrix (b ⊕ g) (b ⊕ g) ℝ)) (W : Weights m q d) (s : D) (theta : θ → ℝ) : θ → ℝ :=
  fun p =>
    let o := (E.markets s theta).1
    E.data.gradient E.analytic E.scale (E.regression iv W o) W o.phi o.delta o.costs (o.deltaJacobian.col p) (o.costsJacobian.col p)
      E.mean (E.location p) o.micro (o.microJacobian.col p)

/-- The Hessian, pyblp/economies/problem.py:1565-1599. Further evaluations start with the same `delta` as this one, and take the value
that the name `iv` has when they are called, which is not `None` any more. -/
noncomputable def progressHessian [DecidableEq θ] (iv : Option (Matrix (b ⊕ g) (b ⊕ g) ℝ)) (W : Weights m q d) (s : D) (theta : θ → ℝ)
    (epsilon : ℝ) : θ → θ → ℝ :=
  differenceHessian (E.progressGradient (some (E.regression iv W (E.markets s theta).1)) W s) theta epsilon

/-- The Hessian that results report, pyblp/economies/problem.py:938-942 and pyblp/results/problem_results.py:402. -/
noncomputable def hessian [DecidableEq θ] (r : StepResults (Weights m q d) (θ → ℝ) D) (epsilon : ℝ) : θ → θ → ℝ :=
  E.progressHessian (E.initialRegression r.start.W) r.start.W (E.lastDelta r.step r.start) r.theta epsilon

end Estimation

end Pyblp
