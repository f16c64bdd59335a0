import Mathlib.Probability.Moments.Covariance
import Mathlib.Data.Matrix.Basic
import Mathlib.Data.Real.Basic

/-!
# Specification: errors and Jacobians given exogenous variables, and large-sample variances of GMM estimates
-/

open MeasureTheory ProbabilityTheory

namespace Pyblp.Spec

/-- Structural errors of equations `ε` and observations `n` that, given exogenous variables, have a mean of zero, the same covariance matrix for each observation, and
are uncorrelated between observations. -/
structure Homoskedastic {Ω ε n : Type} [MeasurableSpace Ω] [DecidableEq n] (P : Measure Ω) (u : Ω → ε → n → ℝ) (covariances : Matrix ε ε ℝ) : Prop where
  square : ∀ e i, MemLp (fun ω => u ω e i) 2 P
  mean : ∀ e i, ∫ ω, u ω e i ∂P = 0
  covariance : ∀ e i e' i', ∫ ω, u ω e i * u ω e' i' ∂P = if i = i' then covariances e e' else 0

/-- Covariances of the square root of the number of observations times average moments. -/
noncomputable def averageCovariances {Ω c : Type} [MeasurableSpace Ω] (P : Measure Ω) (N : ℕ) (average : Ω → c → ℝ) : Matrix c c ℝ :=
  fun a b => N * cov[fun ω => average ω a, fun ω => average ω b; P]

/-- Expected derivatives of average moments. -/
noncomputable def expectedDerivatives {Ω c p : Type} [MeasurableSpace Ω] (P : Measure Ω) (derivatives : Ω → p → c → ℝ) : Matrix c p ℝ :=
  fun a b => ∫ ω, derivatives ω b a ∂P

end Pyblp.Spec
