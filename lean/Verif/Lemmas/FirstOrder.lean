import Verif.Spec.NonlinearNormal
import Mathlib.Analysis.Calculus.Deriv.MeanValue
import Mathlib.Analysis.Calculus.LocalExtr.Basic

/-!
# First-order conditions of GMM when linear parameters are concentrated out
-/

set_option linter.unusedSectionVars false

open Filter Topology Matrix

namespace Pyblp.Asymptotic

open Spec (linearFunction)

variable {c k θ : Type} [Fintype c] [Fintype k] [Fintype θ] [DecidableEq c] [DecidableEq k] [DecidableEq θ]

lemma linearFunction_apply (u v : θ → ℝ) : linearFunction u v = ∑ p, u p * v p := by
  simp [linearFunction]

/-- Moments from which linear parameters are concentrated out are orthogonal to slopes, with weights. -/
lemma concentrated_orthogonal {W : Matrix c c ℝ} {Q : Matrix c k ℝ} (hQ : (Qᵀ * W * Q).det ≠ 0) (v : c → ℝ) :
    Qᵀ *ᵥ (W *ᵥ (v - Q *ᵥ (gain Q W *ᵥ v))) = 0 := by
  have h : Qᵀ * W * Q * (Qᵀ * W * Q)⁻¹ = 1 := Matrix.mul_nonsing_inv _ (isUnit_iff_ne_zero.mpr hQ)
  have e : Qᵀ * W * Q * gain Q W = Qᵀ * W := by
    unfold gain
    rw [← Matrix.mul_assoc, ← Matrix.mul_assoc, h, Matrix.one_mul]
  rw [Matrix.mulVec_mulVec, Matrix.mulVec_sub, Matrix.mulVec_mulVec, Matrix.mulVec_mulVec, e, sub_self]

/-- At a minimum, they are also orthogonal to derivatives of moments. -/
lemma first_order {W : Matrix c c ℝ} (hW : Wᵀ = W) {Q : Matrix c k ℝ} (hQ : (Qᵀ * W * Q).det ≠ 0) {f : (θ → ℝ) → c → ℝ} {A : Matrix c θ ℝ} {x : θ → ℝ}
    (hf : ∀ a, HasFDerivAt (fun y => f y a) (linearFunction (A a)) x)
    (hmin : IsLocalMin (fun y => (f y - Q *ᵥ (gain Q W *ᵥ f y)) ⬝ᵥ (W *ᵥ (f y - Q *ᵥ (gain Q W *ᵥ f y)))) x) :
    Aᵀ *ᵥ (W *ᵥ (f x - Q *ᵥ (gain Q W *ᵥ f x))) = 0 := by
  set R : Matrix c c ℝ := 1 - Q * gain Q W with hR
  have hg : ∀ y, f y - Q *ᵥ (gain Q W *ᵥ f y) = R *ᵥ f y := fun y => by
    rw [hR, Matrix.sub_mulVec, Matrix.one_mulVec, Matrix.mulVec_mulVec]
  have hd : ∀ a, HasFDerivAt (fun y => (R *ᵥ f y) a) (∑ i, R a i • linearFunction (A i)) x := fun a => by
    have := HasFDerivAt.fun_sum (u := Finset.univ) fun i _ => (hf i).const_mul (R a i)
    exact this
  simp only [hg] at hmin ⊢
  set g : c → ℝ := R *ᵥ f x with hgdef
  have hq : HasFDerivAt (fun y => (R *ᵥ f y) ⬝ᵥ (W *ᵥ (R *ᵥ f y))) (∑ a, (g a • (∑ i, W a i • ∑ l, R i l • linearFunction (A l)) +
      (W *ᵥ g) a • ∑ l, R a l • linearFunction (A l))) x := by
    have := HasFDerivAt.fun_sum (u := Finset.univ) fun a _ => (hd a).mul (HasFDerivAt.fun_sum (u := Finset.univ) fun i _ => (hd i).const_mul (W a i))
    exact this
  have hz := hmin.hasFDerivAt_eq_zero hq
  have hv : ∀ v, 2 * (g ⬝ᵥ (W *ᵥ (R *ᵥ (A *ᵥ v)))) = 0 := by
    intro v
    have h1 := congrArg (fun L : (θ → ℝ) →L[ℝ] ℝ => L v) hz
    simp only [_root_.sum_apply, _root_.add_apply, _root_.smul_apply, linearFunction_apply, smul_eq_mul,
      _root_.zero_apply, Finset.sum_add_distrib] at h1
    have e1 : ∑ a, g a * ∑ i, W a i * ∑ l, R i l * ∑ p, A l p * v p = g ⬝ᵥ (W *ᵥ (R *ᵥ (A *ᵥ v))) := rfl
    have e2 : ∑ a, (W *ᵥ g) a * ∑ l, R a l * ∑ p, A l p * v p = (W *ᵥ g) ⬝ᵥ (R *ᵥ (A *ᵥ v)) := rfl
    rw [e1, e2] at h1
    have e3 : (W *ᵥ g) ⬝ᵥ (R *ᵥ (A *ᵥ v)) = g ⬝ᵥ (W *ᵥ (R *ᵥ (A *ᵥ v))) := by
      rw [dotProduct_comm, Matrix.dotProduct_mulVec, dotProduct_comm, ← Matrix.mulVec_transpose, hW]
    rw [e3] at h1
    linarith
  have ho := concentrated_orthogonal hQ (f x)
  rw [hg, ← hgdef] at ho
  have hz2 : ∀ v, (Aᵀ *ᵥ (W *ᵥ g)) ⬝ᵥ v = 0 := by
    intro v
    have h1 := hv v
    have e : g ⬝ᵥ (W *ᵥ (R *ᵥ (A *ᵥ v))) = (Aᵀ *ᵥ (W *ᵥ g)) ⬝ᵥ v := by
      have e1 : g ⬝ᵥ (W *ᵥ (R *ᵥ (A *ᵥ v))) = (W *ᵥ g) ⬝ᵥ (R *ᵥ (A *ᵥ v)) := by
        rw [Matrix.dotProduct_mulVec _ W, ← Matrix.mulVec_transpose, hW]
      have e2 : (W *ᵥ g) ⬝ᵥ (Q *ᵥ (gain Q W *ᵥ (A *ᵥ v))) = 0 := by
        rw [Matrix.dotProduct_mulVec, ← Matrix.mulVec_transpose, ho, zero_dotProduct]
      rw [e1, hR, Matrix.sub_mulVec, Matrix.one_mulVec, ← Matrix.mulVec_mulVec, dotProduct_sub, e2, sub_zero, Matrix.dotProduct_mulVec,
        ← Matrix.mulVec_transpose]
    rw [e] at h1
    linarith
  exact dotProduct_eq_zero _ hz2

/-- Deviations that solve first-order conditions. -/
lemma solve_orthogonal {W : Matrix c c ℝ} {J K : Matrix c k ℝ} (hd : (Jᵀ * W * K).det ≠ 0) {v : c → ℝ} {x : k → ℝ}
    (h : Jᵀ *ᵥ (W *ᵥ (v + K *ᵥ x)) = 0) : x = -(((Jᵀ * W * K)⁻¹ * Jᵀ * W) *ᵥ v) := by
  rw [Matrix.mulVec_add, Matrix.mulVec_add, Matrix.mulVec_mulVec, Matrix.mulVec_mulVec, Matrix.mulVec_mulVec, add_eq_zero_iff_eq_neg'] at h
  have h1 := congrArg (fun u => (Jᵀ * W * K)⁻¹ *ᵥ u) h
  simp only [Matrix.mulVec_mulVec, Matrix.mulVec_neg] at h1
  rw [Matrix.nonsing_inv_mul _ (isUnit_iff_ne_zero.mpr hd), Matrix.one_mulVec, ← Matrix.mul_assoc] at h1
  exact h1

end Pyblp.Asymptotic
