import Verif.Props.Sensitivity

set_option linter.unusedSectionVars false

/-!
# Efficiency of weighting matrices, and unadjusted standard errors in the first step: C99
-/

namespace Pyblp

open Matrix

/-- Covariances, times the number of observations, of parameters that minimise a weighted quadratic form of moments with covariances `S`
and Jacobian `G`: those of `L` times moments, for `L` the response of parameters to moments. -/
def Spec.responseCovariances {c p : Type} [Fintype c] [Fintype p] (S : Matrix c c ℝ) (L : Matrix p c ℝ) : Matrix p p ℝ := L * S * Lᵀ

section Efficiency

variable {c p : Type} [Fintype c] [Fintype p] [DecidableEq p] [DecidableEq c]

/-- **C99, efficiency.** Covariances of estimates with any weighting matrix exceed those with the inverse of covariances of moments by a
positive semidefinite matrix. -/
theorem C99_efficiency (S V W : Matrix c c ℝ) (hS : Spec.PSD S) (hV : S * V = 1) (hW : ∀ a b, W a b = W b a) (G : Matrix c p ℝ)
    (H K : Matrix p p ℝ) (hH : Gᵀ * W * G * H = 1) (hK : Gᵀ * V * G * K = 1) :
    Spec.PSD (gmmParameterCovariances W S G H false - gmmParameterCovariances V S G K true) := by
  have hWT : Wᵀ = W := by ext a b; exact hW b a
  have hST : Sᵀ = S := by ext a b; exact hS.1 b a
  have hVT : Vᵀ = V := by
    have h := congrArg Matrix.transpose hV
    rw [Matrix.transpose_mul, hST, Matrix.transpose_one] at h
    calc Vᵀ = Vᵀ * (S * V) := by rw [hV, Matrix.mul_one]
      _ = (Vᵀ * S) * V := (Matrix.mul_assoc _ _ _).symm
      _ = V := by rw [h, Matrix.one_mul]
  have hHT := inverse_symm W hWT G H hH
  have hKT := inverse_symm V hVT G K hK
  have h1 : gmmParameterCovariances V S G K true = K := symmetrized_of_symm _ hKT
  have h2 := (C42_sandwich_psd W S hW hS G H hH).1
  set A := H * Gᵀ * W - K * Gᵀ * V with hA
  have hHG : H * Gᵀ * W * G = 1 := by
    have := congrArg Matrix.transpose hH
    rwa [Matrix.transpose_mul, Matrix.transpose_mul, Matrix.transpose_mul, Matrix.transpose_transpose, hWT, hHT, Matrix.transpose_one,
      ← Matrix.mul_assoc, ← Matrix.mul_assoc] at this
  have hKG : K * Gᵀ * V * G = 1 := by
    have := congrArg Matrix.transpose hK
    rwa [Matrix.transpose_mul, Matrix.transpose_mul, Matrix.transpose_mul, Matrix.transpose_transpose, hVT, hKT, Matrix.transpose_one,
      ← Matrix.mul_assoc, ← Matrix.mul_assoc] at this
  have hVS : V * S = 1 := mul_eq_one_comm.1 hV
  have hAT : Aᵀ = W * G * H - V * G * K := by
    rw [hA, Matrix.transpose_sub]
    simp only [Matrix.transpose_mul, Matrix.transpose_transpose, hWT, hVT, hHT, hKT, Matrix.mul_assoc]
  have hmain : H * Gᵀ * W * S * W * G * H - K = A * S * Aᵀ := by
    have e1 : H * Gᵀ * W * S * (V * G * K) = K := by
      calc H * Gᵀ * W * S * (V * G * K) = H * Gᵀ * W * (S * V) * G * K := by simp only [Matrix.mul_assoc]
        _ = H * Gᵀ * W * G * K := by rw [hV, Matrix.mul_one]
        _ = K := by rw [hHG, Matrix.one_mul]
    have e2 : K * Gᵀ * V * S * (W * G * H) = K := by
      calc K * Gᵀ * V * S * (W * G * H) = K * (Gᵀ * (V * S) * W * G * H) := by simp only [Matrix.mul_assoc]
        _ = K := by rw [hVS, Matrix.mul_one, hH, Matrix.mul_one]
    have e3 : K * Gᵀ * V * S * (V * G * K) = K := by
      calc K * Gᵀ * V * S * (V * G * K) = K * Gᵀ * V * (S * V) * G * K := by simp only [Matrix.mul_assoc]
        _ = K * Gᵀ * V * G * K := by rw [hV, Matrix.mul_one]
        _ = K := by rw [hKG, Matrix.one_mul]
    rw [hAT, Matrix.mul_sub, hA, Matrix.sub_mul, Matrix.sub_mul, Matrix.sub_mul, e1, e2, e3]
    simp only [Matrix.mul_assoc]
    abel
  rw [h1, h2, hmain]
  refine ⟨fun a b => ?_, fun x => ?_⟩
  · have : (A * S * Aᵀ)ᵀ = A * S * Aᵀ := by
      simp only [Matrix.transpose_mul, Matrix.transpose_transpose, hST, Matrix.mul_assoc]
    exact congrFun (congrFun this b) a
  · have : Spec.quadratic (A * S * Aᵀ) x = Spec.quadratic S (Aᵀ *ᵥ x) := by
      rw [quadratic_eq, quadratic_eq, Matrix.mul_assoc, ← Matrix.mulVec_mulVec, Matrix.dotProduct_mulVec, ← Matrix.mulVec_transpose,
        Matrix.mulVec_mulVec]
    rw [this]
    exact hS.2 _

end Efficiency

variable {N nd ns : ℕ} {m : Fin nd ⊕ Fin ns → Type} {q b g θ d ι D : Type} [∀ e, Fintype (m e)] [Fintype q] [Fintype b] [Fintype g]
  [Fintype θ] [Fintype d] [LinearOrder ι] (E : Estimation N nd ns m q b g θ d ι D)

/-- **C99, except for unadjusted standard errors.** Squared standard errors are variances of what the reported sensitivity makes of
moments with the reported covariances, divided by the number of observations. -/
theorem C99_standard_errors_partial [DecidableEq θ] [DecidableEq b] [DecidableEq g] (hpar : Spec.Inverts E.invertParameters)
    (r : StepResults (Estimation.Weights m q d) (θ → ℝ) D) (ht : E.seType ≠ .unadjusted) (hW : ∀ a c, r.start.W a c = r.start.W c a)
    (hunit : IsUnit ((E.jacobian r)ᵀ * r.start.W * E.jacobian r)) (p : θ ⊕ b ⊕ g) :
    E.standardErrors r p = Real.sqrt (Spec.responseCovariances (E.reportedCovariances r) (E.parameterSensitivity r) p p / N) := by
  classical
  have hun : E.seType.isUnadjusted = false := by
    revert ht
    cases E.seType <;> intro ht
    · exact absurd rfl ht
    · rfl
    · rfl
  obtain ⟨U, hU⟩ := hunit
  have hmul : (E.jacobian r)ᵀ * r.start.W * E.jacobian r * (↑U⁻¹ : Matrix _ _ ℝ) = 1 := by rw [← hU]; exact U.mul_inv
  have hWT : r.start.Wᵀ = r.start.W := by ext a c; exact hW c a
  have hI := inverse_symm _ hWT _ _ hmul
  unfold Estimation.standardErrors Estimation.parameterCovariances Estimation.parameterSensitivity Estimation.weightsForCovariances
    gmmParameterCovariances gmmParameterSensitivity Spec.responseCovariances
  simp only [hun, Bool.false_and, Bool.false_eq_true, if_false]
  rw [hpar _ _ hmul]
  have hdiag : ∀ A : Matrix (θ ⊕ b ⊕ g) (θ ⊕ b ⊕ g) ℝ, symmetrized A p p = A p p := by
    intro A
    unfold symmetrized
    ring
  rw [hdiag]
  congr 3
  simp only [Matrix.neg_mul, Matrix.transpose_neg, Matrix.mul_neg, neg_neg, Matrix.transpose_mul, Matrix.transpose_transpose, hWT, hI,
    Matrix.mul_assoc]

/-- **C99, unadjusted standard errors in the first step.** They are at most standard errors of the estimates, whichever weighting matrix
the estimates are for. -/
theorem C99_first_step [DecidableEq θ] [DecidableEq b] [DecidableEq g] [DecidableEq q] [DecidableEq d] [∀ e, DecidableEq (m e)]
    (hinv : Spec.Inverts E.invertMoments) (hpar : Spec.Inverts E.invertParameters)
    (r : StepResults (Estimation.Weights m q d) (θ → ℝ) D) (ht : E.seType = .unadjusted) (hstep : r.step = 1)
    (hW : ∀ a c, r.start.W a c = r.start.W c a) (hS : Spec.PSD (E.reportedCovariances r)) (V : Estimation.Weights m q d)
    (hV : E.reportedCovariances r * V = 1) (hunit : IsUnit ((E.jacobian r)ᵀ * V * E.jacobian r))
    (H : Matrix (θ ⊕ b ⊕ g) (θ ⊕ b ⊕ g) ℝ) (hH : (E.jacobian r)ᵀ * r.start.W * E.jacobian r * H = 1) (p : θ ⊕ b ⊕ g) :
    E.standardErrors r p ≤ Real.sqrt (Spec.responseCovariances (E.reportedCovariances r) (-(H * (E.jacobian r)ᵀ * r.start.W)) p p / N) := by
  have hun : E.seType.isUnadjusted = true := by
    rw [ht]
    rfl
  have hST : (E.reportedCovariances r)ᵀ = E.reportedCovariances r := by ext a c; exact hS.1 c a
  have hVT : Vᵀ = V := by
    have h := congrArg Matrix.transpose hV
    rw [Matrix.transpose_mul, hST, Matrix.transpose_one] at h
    calc Vᵀ = Vᵀ * (E.reportedCovariances r * V) := by rw [hV, Matrix.mul_one]
      _ = (Vᵀ * E.reportedCovariances r) * V := (Matrix.mul_assoc _ _ _).symm
      _ = V := by rw [h, Matrix.one_mul]
  obtain ⟨U, hU⟩ := hunit
  have hK : (E.jacobian r)ᵀ * V * E.jacobian r * (↑U⁻¹ : Matrix _ _ ℝ) = 1 := by rw [← hU]; exact U.mul_inv
  have hw : E.weightsForCovariances r = V := by
    unfold Estimation.weightsForCovariances gmmWeights
    rw [if_pos (by rw [hun, hstep]; rfl), hinv _ _ hV, symmetrized_of_symm _ hVT]
  have hWT : r.start.Wᵀ = r.start.W := by ext a c; exact hW c a
  have hI := inverse_symm _ hWT _ _ hH
  have hmain := C99_efficiency _ V r.start.W hS hV hW (E.jacobian r) H _ hH hK
  have hdiag := hmain.2 (Pi.single p 1)
  have hsingle : ∀ M : Matrix (θ ⊕ b ⊕ g) (θ ⊕ b ⊕ g) ℝ, Spec.quadratic M (Pi.single p 1) = M p p := by
    intro M
    rw [quadratic_eq, Matrix.mulVec_single_one, single_dotProduct, one_mul]
    rfl
  rw [hsingle, Matrix.sub_apply, (C42_sandwich_psd _ _ hW hS _ H hH).1, sub_nonneg] at hdiag
  have hresponse : Spec.responseCovariances (E.reportedCovariances r) (-(H * (E.jacobian r)ᵀ * r.start.W)) =
      H * (E.jacobian r)ᵀ * r.start.W * E.reportedCovariances r * r.start.W * E.jacobian r * H := by
    unfold Spec.responseCovariances
    simp only [Matrix.neg_mul, Matrix.transpose_neg, Matrix.mul_neg, neg_neg, Matrix.transpose_mul, Matrix.transpose_transpose, hWT, hI,
      Matrix.mul_assoc]
  unfold Estimation.standardErrors Estimation.parameterCovariances
  rw [hw, hun, hpar _ _ hK, hresponse]
  exact Real.sqrt_le_sqrt (div_le_div_of_nonneg_right hdiag (Nat.cast_nonneg N))

/-! ## Refutation -/

section Witness

open Classical

/-- **C99 is false of the code.** Unadjusted standard errors after one-step GMM with the default weighting matrix can be smaller than
those of the estimates, which are at the global minimum of the objective: they are those that estimates would have in the problem's
efficient GMM. Documentation says that unadjusted standard errors are for weighting matrices that equal the inverse of covariances of
moments; in the first step they are computed as if this had been so. -/
theorem C99_refuted : ∃ r ∈ sensitivityWitness.solve .oneStep false ⟨sensitivityWitness.defaultWeights, fun _ => 0, ()⟩,
    r.start.W = sensitivityWitness.defaultWeights ∧
    (∃ L, Spec.IsSensitivity r.start.W (sensitivityWitness.jacobian r) L) ∧
    ∀ L, Spec.IsSensitivity r.start.W (sensitivityWitness.jacobian r) L → sensitivityWitness.standardErrors r (.inl ()) <
      Real.sqrt (Spec.responseCovariances (sensitivityWitness.reportedCovariances r) L (.inl ()) (.inl ()) / 2) := by
  set s : GmmState (Estimation.Weights (fun _ : Fin 1 ⊕ Fin 1 => Unit) Empty Empty) (Unit → ℝ) Unit :=
    ⟨sensitivityWitness.defaultWeights, fun _ => 0, ()⟩ with hs
  set r := gmmStep sensitivityWitness.oracle (Fintype.card Unit) 1 s none with hr
  have hmem : r ∈ sensitivityWitness.solve .oneStep false s := by
    unfold Estimation.solve gmmSolve
    rw [if_neg (by simp), gmmLoop_last _ _ _ _ _ _ (Or.inr ⟨rfl, rfl⟩), List.mem_singleton]
  have hstep : r.step = 1 := rfl
  have hW : r.start.W = Matrix.diagonal (perSide 2 2) := sensitivityWitness_default
  have htheta : r.theta () = 1 := rfl
  have hse : sensitivityWitness.standardErrors r (.inl ()) = Real.sqrt (1 / 2) := by
    unfold Estimation.standardErrors Estimation.parameterCovariances gmmParameterCovariances
    rw [sensitivityWitness_weights r hstep htheta, sensitivityWitness_product]
    have h1 : sensitivityWitness.invertParameters (Matrix.diagonal fun _ => (2 / 4 + 1 / 2 : ℝ)) = 1 := by
      refine Matrix.inv_eq_right_inv ?_
      rw [Matrix.mul_one, ← Matrix.diagonal_one]
      norm_num
    rw [h1, if_pos (show sensitivityWitness.seType.isUnadjusted = true from rfl)]
    norm_num [symmetrized]
  refine ⟨r, hmem, rfl, ?_, fun L hL => ?_⟩
  · refine ⟨gmmParameterSensitivity r.start.W (sensitivityWitness.jacobian r) (Matrix.diagonal fun _ => 2 / 5),
      isSensitivity_of_inverse _ ?_ _ _ ?_⟩
    · rw [hW]
      exact sensitivityWitness_psd
    · rw [hW, sensitivityWitness_product, Matrix.diagonal_mul_diagonal, ← Matrix.diagonal_one]
      norm_num
  · have hmul : ∀ x : Unit ⊕ Empty ⊕ Empty → ℝ, sensitivityWitness.jacobian r *ᵥ x = perSide (x (.inl ()) / 2) (x (.inl ())) := by
      intro x
      rw [sensitivityWitness_jacobian]
      funext a
      revert a
      refine forall_sensitivityMoments ?_ ?_
      · simp [mulVec, dotProduct, perSide]
        ring
      · simp [mulVec, dotProduct, perSide]
    have hquadratic : ∀ x y u v : ℝ, Spec.quadratic (Matrix.diagonal (perSide 2 2)) (perSide x y + perSide u v) =
        2 * (x + u) ^ 2 + 2 * (y + v) ^ 2 := by
      intro x y u v
      unfold Spec.quadratic
      simp only [sum_sensitivityMoments]
      simp [perSide]
      ring
    have happly : ∀ x y : ℝ, (L *ᵥ perSide x y) (.inl ()) =
        L (.inl ()) (.inl (.inl ⟨.inl 0, ()⟩)) * x + L (.inl ()) (.inl (.inl ⟨.inr 0, ()⟩)) * y := by
      intro x y
      simp only [mulVec, dotProduct, sum_sensitivityMoments]
      rfl
    rw [hW] at hL
    have h1 := hL (perSide 1 0) fun _ => -2 / 5
    have h2 := hL (perSide 0 1) fun _ => -4 / 5
    rw [hmul, hmul, hquadratic, hquadratic, happly] at h1 h2
    set l := L (.inl ()) (.inl (.inl ⟨.inl 0, ()⟩)) with hl
    set l' := L (.inl ()) (.inl (.inl ⟨.inr 0, ()⟩)) with hl'
    have e1 : l = -2 / 5 := by
      have : (l + 2 / 5) ^ 2 ≤ 0 := by nlinarith
      nlinarith [pow_eq_zero_iff (two_ne_zero) |>.1 (le_antisymm this (sq_nonneg _))]
    have e2 : l' = -4 / 5 := by
      have : (l' + 4 / 5) ^ 2 ≤ 0 := by nlinarith
      nlinarith [pow_eq_zero_iff (two_ne_zero) |>.1 (le_antisymm this (sq_nonneg _))]
    have hv : Spec.responseCovariances (sensitivityWitness.reportedCovariances r) L (.inl ()) (.inl ()) = 34 / 25 := by
      rw [sensitivityWitness_covariances r htheta]
      unfold Spec.responseCovariances
      simp only [Matrix.mul_apply, Matrix.transpose_apply, sum_sensitivityMoments, ← hl, ← hl', e1, e2]
      norm_num [perSide, Matrix.diagonal]
      simp
      norm_num
    rw [hse, hv]
    exact Real.sqrt_lt_sqrt (by norm_num) (by norm_num)

/-- A case of `C99_efficiency`: two moments with different variances, an identity weighting matrix and one parameter. -/
example : Spec.PSD (Matrix.diagonal ![1, 4] : Matrix (Fin 2) (Fin 2) ℝ) ∧
    (Matrix.diagonal ![1, 4] * Matrix.diagonal ![1, 1 / 4] : Matrix (Fin 2) (Fin 2) ℝ) = 1 ∧
    ((Matrix.of fun _ _ => 1 : Matrix (Fin 2) Unit ℝ)ᵀ * (1 : Matrix (Fin 2) (Fin 2) ℝ) * (Matrix.of fun _ _ => 1 : Matrix (Fin 2) Unit ℝ) *
      (Matrix.of fun _ _ => 1 / 2 : Matrix Unit Unit ℝ) = 1) ∧
    (Matrix.of fun _ _ => 1 : Matrix (Fin 2) Unit ℝ)ᵀ * (Matrix.diagonal ![1, 1 / 4] : Matrix (Fin 2) (Fin 2) ℝ) * (Matrix.of fun _ _ => 1 : Matrix (Fin 2) Unit ℝ) *
      (Matrix.of fun _ _ => 4 / 5 : Matrix Unit Unit ℝ) = 1 := by
  refine ⟨⟨fun a c => ?_, fun x => ?_⟩, ?_, ?_, ?_⟩
  · fin_cases a <;> fin_cases c <;> simp
  · unfold Spec.quadratic
    simp [Fin.sum_univ_two]
    nlinarith [sq_nonneg (x 0), sq_nonneg (x 1)]
  · ext a c
    fin_cases a <;> fin_cases c <;> simp
  · ext a c
    simp [Matrix.mul_apply]
  · ext a c
    simp [Matrix.mul_apply, Fin.sum_univ_two, Matrix.diagonal]
    norm_num

end Witness

end Pyblp
