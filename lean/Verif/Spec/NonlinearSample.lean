import Verif.Spec.LargeSample

/-!
# Specification: large samples of clusters when there are nonlinear parameters
-/

open MeasureTheory ProbabilityTheory

namespace Pyblp.Spec

variable {C : Type} {nd ns : ℕ} {m : Fin nd ⊕ Fin ns → Type} {k θ : Type}

/-- What clusters look like. Cluster `x` has `size x` rows. For each equation, row `j` has regressors, instruments, and an outcome (a mean utility, for
example) that is a function of nonlinear parameters. -/
structure Models (C : Type) {nd ns : ℕ} (m : Fin nd ⊕ Fin ns → Type) (k θ : Type) where
  size : C → ℕ
  regressor : C → (e : Fin nd ⊕ Fin ns) → ℕ → k → ℝ
  instrument : C → (e : Fin nd ⊕ Fin ns) → ℕ → m e → ℝ
  outcome : (θ → ℝ) → C → Fin nd ⊕ Fin ns → ℕ → ℝ

variable [Fintype k] (M : Models C m k θ)

/-- Clusters with errors that would explain outcomes if `theta` and `beta` were true parameters. -/
def Models.at (theta : θ → ℝ) (beta : k → ℝ) : Clusters C m k where
  size := M.size
  regressor := M.regressor
  instrument := M.instrument
  error x e j := M.outcome theta x e j - ∑ l, M.regressor x e j l * beta l

/-- True parameters are `theta0` and `beta0`, at which there are finite second moments and valid instruments. Outcomes are continuous in parameters in the
set `Θ`, and bounded by what has finite second moments. -/
structure Models.Regular [MeasurableSpace C] (law : Measure C) (Θ : Set (θ → ℝ)) (theta0 : θ → ℝ) (beta0 : k → ℝ) : Prop where
  truth : (M.at theta0 beta0).Regular law
  inside : theta0 ∈ Θ
  continuous : ∀ x e j, ContinuousOn (fun theta => M.outcome theta x e j) Θ
  measurable : ∀ theta ∈ Θ, ∀ e j, Measurable fun x => M.outcome theta x e j
  bounded : ∃ bound : C → Fin nd ⊕ Fin ns → ℕ → ℝ, (∀ e j, Measurable fun x => bound x e j) ∧ (∀ theta ∈ Θ, ∀ x e j, |M.outcome theta x e j| ≤ bound x e j) ∧
    (∀ e, MemLp (fun x => ∑ j ∈ Finset.range (M.size x), bound x e j) 2 law) ∧
    ∀ e a, MemLp (fun x => ∑ j ∈ Finset.range (M.size x), bound x e j * |M.instrument x e j a|) 2 law

/-- Only true parameters satisfy moment conditions. -/
def Models.Identified [MeasurableSpace C] (law : Measure C) (Θ : Set (θ → ℝ)) (theta0 : θ → ℝ) (beta0 : k → ℝ) : Prop :=
  ∀ theta ∈ Θ, ∀ beta, (∀ e a, (M.at theta beta).average law (fun x j => (M.at theta beta).error x e j * M.instrument x e j a) = 0) →
    theta = theta0 ∧ beta = beta0

end Pyblp.Spec
