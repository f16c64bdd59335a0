import Verif.Spec.NonlinearSample
import Mathlib.Analysis.Calculus.FDeriv.Basic
import Mathlib.Topology.Algebra.Module.FiniteDimension

/-!
# Specification: derivatives of outcomes with respect to nonlinear parameters
-/

open MeasureTheory ProbabilityTheory Topology

namespace Pyblp.Spec

variable {C : Type} {nd ns : ℕ} {m : Fin nd ⊕ Fin ns → Type} {k θ : Type} [Fintype k] [Fintype θ] (M : Models C m k θ)

/-- The linear function with given slopes. -/
noncomputable def linearFunction (u : θ → ℝ) : (θ → ℝ) →L[ℝ] ℝ := ∑ p, u p • ContinuousLinearMap.proj (R := ℝ) (φ := fun _ : θ => ℝ) p

/-- True parameters are in the interior of the set `Θ`, which is convex. Outcomes have derivatives with respect to parameters in this set, which are
continuous and bounded by what is integrable when multiplied by instruments. -/
structure Models.Differentiable [MeasurableSpace C] (law : Measure C) (Θ : Set (θ → ℝ)) (theta0 : θ → ℝ)
    (slope : (θ → ℝ) → C → Fin nd ⊕ Fin ns → ℕ → θ → ℝ) : Prop where
  interior : Θ ∈ 𝓝 theta0
  convex : Convex ℝ Θ
  derivative : ∀ theta ∈ Θ, ∀ x e j, HasFDerivWithinAt (fun theta => M.outcome theta x e j) (linearFunction (slope theta x e j)) Θ theta
  continuous : ∀ x e j p, ContinuousOn (fun theta => slope theta x e j p) Θ
  measurable : ∀ theta ∈ Θ, ∀ e j p, Measurable fun x => slope theta x e j p
  bounded : ∃ bound : C → Fin nd ⊕ Fin ns → ℕ → ℝ, (∀ theta ∈ Θ, ∀ x e j p, |slope theta x e j p| ≤ bound x e j) ∧
    ∀ e a, Integrable (fun x => ∑ j ∈ Finset.range (M.size x), bound x e j * |M.instrument x e j a|) law

/-- Derivatives of population moments with respect to nonlinear and linear parameters at the truth. -/
noncomputable def Models.jacobian [MeasurableSpace C] (law : Measure C) (slope : (θ → ℝ) → C → Fin nd ⊕ Fin ns → ℕ → θ → ℝ) (theta0 : θ → ℝ)
    (beta0 : k → ℝ) : Matrix (MomentIndex m) (θ ⊕ k) ℝ :=
  Matrix.of fun a => Sum.elim (fun p => (M.at theta0 beta0).average law fun x j => slope theta0 x a.1 j p * M.instrument x a.1 j a.2)
    fun l => -(M.at theta0 beta0).average law fun x j => M.regressor x a.1 j l * M.instrument x a.1 j a.2

/-- Derivatives of outcomes that are computed are those of the model. -/
def SlopesSampled {N : ℕ} {q b g d ι D : Type} [∀ e, Fintype (m e)] [Fintype q] [Fintype b] [Fintype g] [Fintype d] (M : Models C m (b ⊕ g) θ)
    (slope : C → Fin nd ⊕ Fin ns → ℕ → θ → ℝ) (w : ℕ → C) (T : ℕ) (E : Estimation N nd ns m q b g θ d ι D) (o : Evaluated N θ d) : Prop :=
  ∃ place : Fin N ≃ (t : Fin T) × Fin (M.size (w t)), (∀ i e a, E.data.Z e i a = M.instrument (w (place i).1) e (place i).2 a) ∧
    ∀ i e p, E.data.equations o.phi (o.deltaJacobian.col p) (o.costsJacobian.col p) e i = slope (w (place i).1) e (place i).2 p

end Pyblp.Spec
