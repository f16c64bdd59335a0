import Verif.Model.TestStatistics
import Verif.Props.Statistics
import Mathlib.LinearAlgebra.Matrix.NonsingularInverse

/-!
# Test statistics: C66
-/

set_option linter.unusedSectionVars false

namespace Pyblp

open Matrix

variable {c p q : Type} [Fintype c] [Fintype p] [Fintype q]

namespace Spec

/-- `N g'Wg` of Hansen (1982). -/
noncomputable def J (N : ℕ) (W : Matrix c c ℝ) (g : c → ℝ) : ℝ := N * ∑ a, ∑ b, g a * W a b * g b

end Spec

/-- The results of a GMM step: the objective is the one `_compute_progress` computed at the estimate (`gmmObjective`). -/
def GmmResults.Computed (r : GmmResults c p) : Prop := r.objective = gmmObjective r.N r.scaled r.W r.moments

theorem dot_eq_sum (W : Matrix c c ℝ) (g : c → ℝ) : g ⬝ᵥ (W *ᵥ g) = ∑ a, ∑ b, g a * W a b * g b := by
  unfold dotProduct mulVec dotProduct
  refine Finset.sum_congr rfl fun a _ => ?_
  rw [Finset.mul_sum]
  refine Finset.sum_congr rfl fun b _ => ?_
  ring

theorem scaled_objective (r : GmmResults c p) (hr : r.Computed) :
    (if r.scaled then 1 else (r.N : ℝ)) * r.objective = Spec.J r.N r.W r.moments := by
  rw [hr]
  unfold gmmObjective Spec.J
  rw [dot_eq_sum]
  cases r.scaled <;> simp

/-- **C66.** Hansen's statistic is `N g'Wg` whether or not the objective was scaled. -/
theorem C66_hansen (r : GmmResults c p) (hr : r.Computed) : r.hansen = Spec.J r.N r.W r.moments :=
  scaled_objective r hr

/-- **C66.** Hansen's statistic is nonnegative. -/
theorem C66_hansen_nonneg (r : GmmResults c p) (hr : r.Computed) (hW : Spec.PSD r.W) : 0 ≤ r.hansen := by
  rw [C66_hansen r hr]
  unfold Spec.J
  have := hW.2 r.moments
  refine mul_nonneg (Nat.cast_nonneg _) ?_
  exact this

/-- **C66.** The distance statistic is the difference between Hansen's statistics, however each objective was scaled. -/
theorem C66_distance {c' p' : Type} [Fintype c'] [Fintype p'] (r : GmmResults c p) (u : GmmResults c' p') (hr : r.Computed)
    (hu : u.Computed) (hN : u.N = r.N) :
    r.distance (some u) = .ok (Spec.J r.N r.W r.moments - Spec.J u.N u.W u.moments) := by
  unfold GmmResults.distance
  dsimp only
  rw [if_neg (fun h => h hN), scaled_objective r hr, scaled_objective u hu]

/-- **C66.** Arguments that are not results, or results with another number of observations, are rejected. -/
theorem C66_distance_rejected {c' p' : Type} [Fintype c'] [Fintype p'] (r : GmmResults c p) (u : Option (GmmResults c' p')) :
    (∃ v, r.distance u = .ok v) ↔ ∃ u', u = some u' ∧ u'.N = r.N := by
  unfold GmmResults.distance
  match u with
  | none => simp
  | some u =>
    dsimp only
    by_cases h : u.N = r.N
    · rw [if_neg (fun h' => h' h)]
      simp [h]
    · rw [if_pos h]
      simp [h]

/-- **C66.** A nested unrestricted model with the same weighting matrix and a smaller objective gives a nonnegative statistic. -/
theorem C66_distance_nonneg {p' : Type} [Fintype p'] (r : GmmResults c p) (u : GmmResults c p') (hr : r.Computed) (hu : u.Computed)
    (hN : u.N = r.N) (hW : u.W = r.W) (hmin : Spec.J r.N r.W u.moments ≤ Spec.J r.N r.W r.moments) :
    ∃ v, r.distance (some u) = .ok v ∧ 0 ≤ v := by
  refine ⟨_, C66_distance r u hr hu hN, ?_⟩
  rw [hW, hN]
  linarith

/-- **C66.** The Lagrange multiplier statistic is `N g'WGVG'Wg`. -/
theorem C66_lm (r : GmmResults c p) (hW : ∀ a b, r.W a b = r.W b a) :
    r.lm = r.N * (r.moments ⬝ᵥ ((r.W * r.jacobian * r.covariances * r.jacobianᵀ * r.W) *ᵥ r.moments)) := by
  unfold GmmResults.lm
  dsimp only
  congr 1
  have hWt : r.Wᵀ = r.W := by
    ext a b
    exact hW b a
  have h1 : (r.jacobianᵀ * r.W) *ᵥ r.moments = r.moments ᵥ* (r.W * r.jacobian) := by
    rw [← mulVec_transpose, transpose_mul, hWt]
  have h2 : r.W * r.jacobian * r.covariances * r.jacobianᵀ * r.W = r.W * r.jacobian * (r.covariances * (r.jacobianᵀ * r.W)) := by
    simp only [Matrix.mul_assoc]
  rw [h2, ← mulVec_mulVec r.moments (r.W * r.jacobian), dotProduct_mulVec r.moments, ← h1,
    ← mulVec_mulVec r.moments r.covariances]

/-- **C66.** The Lagrange multiplier statistic is a quarter of a quadratic form in the gradient of `g'Wg`, whatever the scale; it is
zero at an unconstrained optimum. -/
theorem C66_lm_gradient (r : GmmResults c p) :
    r.lm = r.N / 4 * ∑ a, ∑ b, gmmGradient r.N false r.W r.moments (fun i => r.jacobian i a) * r.covariances a b *
      gmmGradient r.N false r.W r.moments (fun i => r.jacobian i b) := by
  have hg : ∀ a, ((r.jacobianᵀ * r.W) *ᵥ r.moments) a = gmmGradient r.N false r.W r.moments (fun i => r.jacobian i a) / 2 := by
    intro a
    unfold gmmGradient
    rw [← mulVec_mulVec]
    simp only [Bool.false_eq_true, if_false, one_mul]
    rw [mul_div_cancel_left₀ _ (two_ne_zero)]
    rfl
  unfold GmmResults.lm
  dsimp only
  rw [dot_eq_sum]
  simp only [hg]
  rw [Finset.mul_sum, Finset.mul_sum]
  refine Finset.sum_congr rfl fun a _ => ?_
  rw [Finset.mul_sum, Finset.mul_sum]
  refine Finset.sum_congr rfl fun b _ => ?_
  ring

theorem C66_lm_zero (r : GmmResults c p) (h : ∀ a, gmmGradient r.N r.scaled r.W r.moments (fun i => r.jacobian i a) = 0) (hN : r.N ≠ 0) :
    r.lm = 0 := by
  have h' : ∀ a, gmmGradient r.N false r.W r.moments (fun i => r.jacobian i a) = 0 := by
    intro a
    have := h a
    unfold gmmGradient at this ⊢
    have hN' : (r.N : ℝ) ≠ 0 := Nat.cast_ne_zero.2 hN
    cases hs : r.scaled
    · rw [hs] at this
      exact this
    · rw [hs] at this
      simp only [if_true, Bool.false_eq_true, if_false, one_mul] at this ⊢
      exact (mul_eq_zero.1 this).resolve_left hN'
  rw [C66_lm_gradient]
  simp [h']

variable [DecidableEq q]

/-- The inversion routines return the inverse of matrices that have one. -/
def InvertsRegular (pseudoInverses : Bool) (inv pinv : Matrix q q ℝ → Attempt (Matrix q q ℝ)) : Prop :=
  ∀ M : Matrix q q ℝ, IsUnit M.det → (if pseudoInverses then pinv M else inv M) = .ok M⁻¹

theorem approximatelyInvert_regular (nan : Matrix q q ℝ) (pseudoInverses : Bool)
    (inv pinv diag : Matrix q q ℝ → Attempt (Matrix q q ℝ)) (hi : InvertsRegular pseudoInverses inv pinv) (M : Matrix q q ℝ)
    (hM : IsUnit M.det) : approximatelyInvert nan pseudoInverses (inv M) (pinv M) (diag M) = (M⁻¹, none) := by
  have h := hi M hM
  unfold approximatelyInvert
  cases pseudoInverses
  · simp only [Bool.false_eq_true, if_false] at h ⊢
    rw [h]
    rfl
  · simp only [if_true] at h ⊢
    rw [h]
    rfl

/-- **C66.** If `RVR'` is nonsingular, then the Wald statistic is `N r'(RVR')⁻¹r` and there is no warning. -/
theorem C66_wald (r : GmmResults c p) (nan : Matrix q q ℝ) (pseudoInverses : Bool)
    (inv pinv diag : Matrix q q ℝ → Attempt (Matrix q q ℝ)) (hi : InvertsRegular pseudoInverses inv pinv) (restrictions : q → ℝ)
    (R : Matrix q p ℝ) (hM : IsUnit (R * r.covariances * Rᵀ).det) :
    r.wald nan pseudoInverses inv pinv diag restrictions R =
      (r.N * (restrictions ⬝ᵥ ((R * r.covariances * Rᵀ)⁻¹ *ᵥ restrictions)), false) := by
  unfold GmmResults.wald
  dsimp only
  rw [approximatelyInvert_regular nan pseudoInverses inv pinv diag hi _ hM]
  rfl

/-- **C66.** The Wald statistic does not depend on how restrictions are written: it is the same for `A r` with Jacobian `A R` and any
nonsingular `A`. -/
theorem C66_wald_invariant (r : GmmResults c p) (nan : Matrix q q ℝ) (pseudoInverses : Bool)
    (inv pinv diag : Matrix q q ℝ → Attempt (Matrix q q ℝ)) (hi : InvertsRegular pseudoInverses inv pinv) (restrictions : q → ℝ)
    (R : Matrix q p ℝ) (hM : IsUnit (R * r.covariances * Rᵀ).det) (A : Matrix q q ℝ) (hA : IsUnit A.det) :
    r.wald nan pseudoInverses inv pinv diag (A *ᵥ restrictions) (A * R) = r.wald nan pseudoInverses inv pinv diag restrictions R := by
  have hAt : IsUnit Aᵀ.det := by rwa [det_transpose]
  have e : A * R * r.covariances * (A * R)ᵀ = A * (R * r.covariances * Rᵀ) * Aᵀ := by
    rw [transpose_mul]
    simp only [Matrix.mul_assoc]
  have hM' : IsUnit (A * R * r.covariances * (A * R)ᵀ).det := by
    rw [e, det_mul, det_mul]
    exact (hA.mul hM).mul hAt
  rw [C66_wald r nan pseudoInverses inv pinv diag hi _ _ hM', C66_wald r nan pseudoInverses inv pinv diag hi _ _ hM, e]
  congr 2
  rw [Matrix.mul_inv_rev, Matrix.mul_inv_rev, ← mulVec_mulVec, ← mulVec_mulVec, mulVec_mulVec restrictions A⁻¹ A,
    nonsing_inv_mul A hA, one_mulVec, dotProduct_mulVec, ← mulVec_transpose, mulVec_mulVec]
  rw [transpose_nonsing_inv, transpose_transpose, nonsing_inv_mul A hA, one_mulVec]

/-- **C66.** The Wald statistic is nonnegative if covariances are positive semidefinite and `RVR'` is nonsingular. -/
theorem C66_wald_nonneg (r : GmmResults c p) (hV : Spec.PSD r.covariances) (nan : Matrix q q ℝ) (pseudoInverses : Bool)
    (inv pinv diag : Matrix q q ℝ → Attempt (Matrix q q ℝ)) (hi : InvertsRegular pseudoInverses inv pinv) (restrictions : q → ℝ)
    (R : Matrix q p ℝ) (hM : IsUnit (R * r.covariances * Rᵀ).det) :
    0 ≤ (r.wald nan pseudoInverses inv pinv diag restrictions R).1 := by
  rw [C66_wald r nan pseudoInverses inv pinv diag hi _ _ hM]
  refine mul_nonneg (Nat.cast_nonneg _) ?_
  have hVt : r.covariancesᵀ = r.covariances := by
    ext a b
    exact hV.1 b a
  have hMt : (R * r.covariances * Rᵀ)ᵀ = R * r.covariances * Rᵀ := by
    rw [transpose_mul, transpose_mul, transpose_transpose, hVt, Matrix.mul_assoc]
  generalize hx : (R * r.covariances * Rᵀ)⁻¹ *ᵥ restrictions = x
  have hr : restrictions = (R * r.covariances * Rᵀ) *ᵥ x := by
    rw [← hx, mulVec_mulVec, mul_nonsing_inv _ hM, one_mulVec]
  rw [hr, dotProduct_comm, ← mulVec_mulVec, ← mulVec_mulVec, dotProduct_mulVec x R, ← mulVec_transpose]
  have := hV.2 (Rᵀ *ᵥ x)
  rw [dot_eq_sum]
  exact this

/-- **C66.** Arguments of `run_wald_test` are accepted exactly if restrictions are a column and the Jacobian has as many rows as
restrictions and as many columns as parameters. -/
theorem C66_wald_shapes (parameters : ℕ) (restrictions jacobian : ℕ × ℕ) :
    waldShapes parameters restrictions jacobian = .ok () ↔
      restrictions.2 = 1 ∧ jacobian.1 = restrictions.1 ∧ jacobian.2 = parameters := by
  obtain ⟨a, b⟩ := restrictions
  obtain ⟨x, y⟩ := jacobian
  unfold waldShapes
  by_cases hb : b = 1
  · subst hb
    by_cases hx : x = a ∧ y = parameters
    · obtain ⟨rfl, rfl⟩ := hx
      simp
    · have : (x, y) ≠ (a, parameters) := fun h => hx (Prod.mk.inj h)
      simp only [ne_eq, not_true_eq_false, if_false, this, not_false_eq_true, if_true, true_and, hx, iff_false]
      intro h
      cases h
  · simp [hb]

/-- Results with two moments and one parameter. -/
noncomputable def exampleResults (scaled : Bool) : GmmResults (Fin 2) (Fin 1) where
  N := 4
  scaled := scaled
  objective := if scaled then 20 else 5
  W := 1
  moments := ![1, 2]
  jacobian := !![1; 1]
  covariances := !![2]

theorem exampleResults_computed (scaled : Bool) : (exampleResults scaled).Computed := by
  unfold GmmResults.Computed gmmObjective exampleResults
  cases scaled <;> norm_num [one_mulVec, dotProduct, Fin.sum_univ_two]

example : (exampleResults true).hansen = 20 ∧ (exampleResults false).hansen = 20 := by
  constructor <;> norm_num [GmmResults.hansen, exampleResults]

example : (exampleResults true).lm = 72 := by
  norm_num [GmmResults.lm, exampleResults, dotProduct, mulVec, Matrix.mul_apply, Fin.sum_univ_two, Matrix.one_apply]

/-- `RVR'` is nonsingular for the single restriction that the parameter is zero. -/
example : IsUnit ((1 : Matrix (Fin 1) (Fin 1) ℝ) * (exampleResults true).covariances * (1 : Matrix (Fin 1) (Fin 1) ℝ)ᵀ).det := by
  simp [exampleResults]

end Pyblp
