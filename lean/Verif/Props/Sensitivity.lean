import Verif.Props.TwoStep

set_option linter.unusedSectionVars false

/-!
# The reported sensitivity of estimates to moments: C98
-/

namespace Pyblp

open Matrix

variable {N nd ns : ℕ} {m : Fin nd ⊕ Fin ns → Type} {q b g θ d ι D : Type} [∀ e, Fintype (m e)] [Fintype q] [Fintype b] [Fintype g]
  [Fintype θ] [Fintype d] [LinearOrder ι]

/-- Whether a matrix describes how parameters that minimise a weighted quadratic form of moments respond to moments: if moments with
Jacobian `G` change by `change`, the quadratic form of linearized moments is minimal when parameters change by `L change`. -/
def Spec.IsSensitivity {c p : Type} [Fintype c] [Fintype p] (W : Matrix c c ℝ) (G : Matrix c p ℝ) (L : Matrix p c ℝ) : Prop :=
  ∀ (change : c → ℝ) (x : p → ℝ), Spec.quadratic W (change + G *ᵥ (L *ᵥ change)) ≤ Spec.quadratic W (change + G *ᵥ x)

variable (E : Estimation N nd ns m q b g θ d ι D)

theorem isSensitivity_of_inverse {c p : Type} [Fintype c] [Fintype p] [DecidableEq p] (W : Matrix c c ℝ) (hW : Spec.PSD W)
    (G : Matrix c p ℝ) (H : Matrix p p ℝ) (hH : Gᵀ * W * G * H = 1) : Spec.IsSensitivity W G (gmmParameterSensitivity W G H) := by
  intro change x
  set L := gmmParameterSensitivity W G H with hL
  set residual := change + G *ᵥ (L *ᵥ change) with hr
  have hsplit : change + G *ᵥ x = residual + G *ᵥ (x - L *ᵥ change) := by
    rw [hr, Matrix.mulVec_sub]
    abel
  have hzero : Gᵀ *ᵥ (W *ᵥ residual) = 0 := by
    have h1 : Gᵀ * W * (G * L) = -(Gᵀ * W) := by
      rw [hL]
      unfold gmmParameterSensitivity
      rw [Matrix.neg_mul, Matrix.neg_mul, Matrix.mul_neg, Matrix.mul_neg, ← Matrix.mul_assoc]
      congr 1
      calc Gᵀ * W * G * (H * Gᵀ * W) = (Gᵀ * W * G * H) * (Gᵀ * W) := by simp only [Matrix.mul_assoc]
        _ = Gᵀ * W := by rw [hH, Matrix.one_mul]
    rw [hr, Matrix.mulVec_mulVec, Matrix.mulVec_mulVec, Matrix.mulVec_add, Matrix.mulVec_mulVec, h1, Matrix.neg_mulVec]
    exact add_neg_cancel _
  have hcross : (G *ᵥ (x - L *ᵥ change)) ⬝ᵥ (W *ᵥ residual) = 0 := by
    rw [dotProduct_comm, Matrix.dotProduct_mulVec, ← Matrix.mulVec_transpose, hzero, zero_dotProduct]
  have hq := quadratic_add W hW.1 residual (G *ᵥ (x - L *ᵥ change))
  rw [hsplit, hq, hcross]
  have := hW.2 (G *ᵥ (x - L *ᵥ change))
  linarith

/-- **C98, except for unadjusted standard errors in the first step.** The reported sensitivity is that of estimates that minimise the
objective with the reported weighting matrix, given the reported Jacobian of moments. -/
theorem C98_sensitivity_partial [DecidableEq θ] [DecidableEq b] [DecidableEq g] (hpar : Spec.Inverts E.invertParameters)
    (r : StepResults (Estimation.Weights m q d) (θ → ℝ) D) (ht : E.seType ≠ .unadjusted ∨ r.step ≠ 1) (hW : Spec.PSD r.start.W)
    (hunit : IsUnit ((E.jacobian r)ᵀ * r.start.W * E.jacobian r)) :
    Spec.IsSensitivity r.start.W (E.jacobian r) (E.parameterSensitivity r) := by
  have hun : ¬((E.seType.isUnadjusted && r.step == 1) = true) := by
    intro h
    rw [Bool.and_eq_true, beq_iff_eq] at h
    rcases ht with ht | ht
    · refine ht ?_
      revert h
      cases E.seType <;> intro h
      · rfl
      · exact absurd h.1 (by decide)
      · exact absurd h.1 (by decide)
    · exact ht h.2
  obtain ⟨U, hU⟩ := hunit
  have hmul : (E.jacobian r)ᵀ * r.start.W * E.jacobian r * (↑U⁻¹ : Matrix _ _ ℝ) = 1 := by rw [← hU]; exact U.mul_inv
  unfold Estimation.parameterSensitivity Estimation.weightsForCovariances
  rw [if_neg hun, hpar _ _ hmul]
  exact isSensitivity_of_inverse _ hW _ _ hmul

/-- **C98, unadjusted standard errors in the first step.** The reported sensitivity is that of estimates with the inverse of covariances
of moments as a weighting matrix, whichever weighting matrix the estimates are for. -/
theorem C98_first_step [DecidableEq θ] [DecidableEq b] [DecidableEq g] [DecidableEq q] [DecidableEq d] [∀ e, DecidableEq (m e)]
    (hinv : Spec.Inverts E.invertMoments) (hpar : Spec.Inverts E.invertParameters)
    (r : StepResults (Estimation.Weights m q d) (θ → ℝ) D) (ht : E.seType = .unadjusted) (hstep : r.step = 1)
    (W : Estimation.Weights m q d) (hW : Spec.PSD W) (hS : E.reportedCovariances r * W = 1)
    (hunit : IsUnit ((E.jacobian r)ᵀ * W * E.jacobian r)) : Spec.IsSensitivity W (E.jacobian r) (E.parameterSensitivity r) := by
  have hWT : Wᵀ = W := by
    ext a c
    exact hW.1 c a
  obtain ⟨U, hU⟩ := hunit
  have hmul : (E.jacobian r)ᵀ * W * E.jacobian r * (↑U⁻¹ : Matrix _ _ ℝ) = 1 := by rw [← hU]; exact U.mul_inv
  have hw : E.weightsForCovariances r = W := by
    unfold Estimation.weightsForCovariances gmmWeights
    rw [if_pos (by rw [ht, hstep]; rfl), hinv _ _ hS, symmetrized_of_symm _ hWT]
  unfold Estimation.parameterSensitivity
  rw [hw, hpar _ _ hmul]
  exact isSensitivity_of_inverse _ hW _ _ hmul

/-! ## Refutation -/

section Witness

open Classical

/-- Two products with a demand-side instrument for one of them and a supply-side instrument for the other. Structural errors are
`theta - 1` and `2` for demand, and `4` and `2 theta - 2` for supply. -/
noncomputable def sensitivityWitness : Estimation 2 1 1 (fun _ => Unit) Empty Empty Empty Unit Empty ℕ Unit where
  data := ⟨id, fun _ => .levels, fun _ => .levels, true,
    Sum.elim (fun _ => Matrix.of fun i _ => ![1, 0] i) (fun _ => Matrix.of fun i _ => ![0, 1] i), Matrix.of fun _ c => c.elim,
    Matrix.of fun _ c => c.elim, Matrix.of fun _ c => c.elim⟩
  location _ := none
  mean := 0
  scale := true
  analytic := true
  wType := .robust
  seType := .unadjusted
  center := false
  ids i := i
  sort := [0, 1]
  markets _ theta := (⟨fun _ _ => 0, ![theta () - 1, 2], ![4, 2 * theta () - 2], Matrix.of ![fun _ => 1, fun _ => 0],
    Matrix.of ![fun _ => 0, fun _ => 2], fun c => c.elim, 0, 0⟩, ())
  resampled _ _ := []
  strategy _ _ _ := .inr (fun _ => 1, ⟨true, 0, 0⟩)
  budget := 10
  invertLinear S := S⁻¹
  invertAggregate S := S⁻¹
  invertMoments S := S⁻¹
  invertParameters S := S⁻¹

/-- Moments of the witness. -/
abbrev SensitivityMoments := (MomentIndex (fun _ : Fin 1 ⊕ Fin 1 => Unit) ⊕ Empty) ⊕ Empty

/-- The two values of a diagonal matrix. -/
noncomputable def perSide (x y : ℝ) : SensitivityMoments → ℝ
  | .inl (.inl ⟨.inl _, _⟩) => x
  | .inl (.inl ⟨.inr _, _⟩) => y
  | .inl (.inr c) => c.elim
  | .inr c => c.elim

/-- Sums over moments of the witness. -/
theorem sum_sensitivityMoments (f : SensitivityMoments → ℝ) : ∑ a, f a = f (.inl (.inl ⟨.inl 0, ()⟩)) + f (.inl (.inl ⟨.inr 0, ()⟩)) := by
  simp [Fintype.sum_sum_type, Fintype.sum_sigma]

theorem forall_sensitivityMoments {P : SensitivityMoments → Prop} (h0 : P (.inl (.inl ⟨.inl 0, ()⟩))) (h1 : P (.inl (.inl ⟨.inr 0, ()⟩))) :
    ∀ a, P a := by
  rintro ((⟨e | e, u⟩ | c) | c)
  · rw [Subsingleton.elim e 0]
    exact h0
  · rw [Subsingleton.elim e 0]
    exact h1
  · exact c.elim
  · exact c.elim

theorem sensitivityWitness_default : (sensitivityWitness.defaultWeights : Estimation.Weights _ Empty Empty) =
    Matrix.diagonal (perSide 2 2) := by
  have h : sensitivityWitness.defaultCovariances = Matrix.diagonal fun _ => (1 / 2 : ℝ) := by
    ext a c
    rcases a with ⟨e | e, u⟩ | a
    · rcases c with ⟨e' | e', u'⟩ | c
      · rw [Subsingleton.elim e 0, Subsingleton.elim e' 0]
        unfold Estimation.defaultCovariances
        rw [fromBlocks_apply₁₁, blockDiagonal'_apply_eq]
        simp [sensitivityWitness, Matrix.mul_apply]
      · unfold Estimation.defaultCovariances
        rw [fromBlocks_apply₁₁, blockDiagonal'_apply_ne _ _ _ (by simp)]
        simp
      · exact c.elim
    · rcases c with ⟨e' | e', u'⟩ | c
      · unfold Estimation.defaultCovariances
        rw [fromBlocks_apply₁₁, blockDiagonal'_apply_ne _ _ _ (by simp)]
        simp
      · rw [Subsingleton.elim e 0, Subsingleton.elim e' 0]
        unfold Estimation.defaultCovariances
        rw [fromBlocks_apply₁₁, blockDiagonal'_apply_eq]
        simp [sensitivityWitness, Matrix.mul_apply]
      · exact c.elim
    · exact a.elim
  have hi : sensitivityWitness.invertAggregate sensitivityWitness.defaultCovariances = Matrix.diagonal fun _ => (2 : ℝ) := by
    rw [h]
    refine Matrix.inv_eq_right_inv ?_
    rw [Matrix.diagonal_mul_diagonal, ← Matrix.diagonal_one]
    norm_num
  unfold Estimation.defaultWeights
  rw [hi]
  ext a c
  revert a c
  refine forall_sensitivityMoments (forall_sensitivityMoments ?_ ?_) (forall_sensitivityMoments ?_ ?_) <;>
    simp [perSide]

theorem sensitivityWitness_jacobian (r : StepResults (Estimation.Weights (fun _ : Fin 1 ⊕ Fin 1 => Unit) Empty Empty) (Unit → ℝ) Unit) :
    sensitivityWitness.jacobian r = Matrix.of fun a _ => perSide (1 / 2) 1 a := by
  ext a p
  revert a
  rcases p with p | p | p
  · have h : levelsIndex (fun _ : Fin 1 => MomentType.levels) = some 0 := by simp [levelsIndex, List.finRange, MomentType.isLevels]
    refine forall_sensitivityMoments ?_ ?_ <;>
      simp [Estimation.jacobian, MomentData.momentsJacobian, MomentData.meanG, MomentData.xiJacobian, MomentData.omegaJacobian,
        MomentData.jacobians, MomentData.converts, MomentData.equations, MomentData.reportedXi, MomentData.reportedOmega,
        MomentData.phiContribution, gmmMomentsJacobianMean, concat, sensitivityWitness, Estimation.outcome, Estimation.final, h, perSide,
        Fin.sum_univ_two]
  · exact p.elim
  · exact p.elim

theorem sensitivityWitness_covariances (r : StepResults (Estimation.Weights (fun _ : Fin 1 ⊕ Fin 1 => Unit) Empty Empty) (Unit → ℝ) Unit)
    (hr : r.theta () = 1) : sensitivityWitness.reportedCovariances r = Matrix.diagonal (perSide (1 / 2) 2) := by
  rw [C97_reported _ ⟨by decide, by simp [sensitivityWitness]⟩]
  have ho : sensitivityWitness.outcome r = (sensitivityWitness.markets () r.theta).1 := rfl
  rw [ho]
  ext a c
  revert a c
  have hs : ∀ (x : List (Evaluated 2 Unit Empty)), x = [] → ∀ a c : SensitivityMoments, Spec.simulated (x.map fun o =>
      Spec.stepMoments sensitivityWitness o (sensitivityWitness.linearParameters r.start.W o)) a c = 0 := by
    rintro x rfl a c
    simp [Spec.simulated]
  have h0 : sensitivityWitness.resampled (sensitivityWitness.lastDelta r.step r.start) r.theta = [] := rfl
  unfold Spec.stepCovariances
  simp only [of_apply, hs _ h0, add_zero]
  refine forall_sensitivityMoments (forall_sensitivityMoments ?_ ?_) (forall_sensitivityMoments ?_ ?_) <;>
    simp [Spec.typedCovariances, Spec.overProducts, Spec.aggregateError, Spec.aggregateInstrument, Spec.stepXi, Spec.stepOmega,
      Spec.unobserved, Spec.momentError, sensitivityWitness, perSide, hr, Fin.sum_univ_two]
  all_goals norm_num

theorem sensitivityWitness_psd : Spec.PSD (Matrix.diagonal (perSide 2 2)) := by
  refine ⟨fun a c => ?_, fun x => ?_⟩
  · revert a c
    refine forall_sensitivityMoments (forall_sensitivityMoments ?_ ?_) (forall_sensitivityMoments ?_ ?_) <;> simp
  · unfold Spec.quadratic
    simp only [sum_sensitivityMoments]
    simp [perSide]
    nlinarith [sq_nonneg (x (.inl (.inl ⟨.inl 0, ()⟩))), sq_nonneg (x (.inl (.inl ⟨.inr 0, ()⟩)))]

theorem sensitivityWitness_product (r : StepResults (Estimation.Weights (fun _ : Fin 1 ⊕ Fin 1 => Unit) Empty Empty) (Unit → ℝ) Unit) (x y : ℝ) :
    (sensitivityWitness.jacobian r)ᵀ * Matrix.diagonal (perSide x y) * sensitivityWitness.jacobian r =
    Matrix.diagonal fun _ => x / 4 + y := by
  rw [sensitivityWitness_jacobian]
  ext a c
  rcases a with a | a | a
  · rcases c with c | c | c
    · simp only [Matrix.mul_apply, sum_sensitivityMoments]
      simp [perSide]
      ring
    · exact c.elim
    · exact c.elim
  · exact a.elim
  · exact a.elim

theorem sensitivityWitness_inverse : (Matrix.diagonal (perSide (1 / 2) 2))⁻¹ = Matrix.diagonal (perSide 2 (1 / 2)) := by
  refine Matrix.inv_eq_right_inv ?_
  rw [Matrix.diagonal_mul_diagonal, ← Matrix.diagonal_one]
  congr 1
  funext a
  revert a
  refine forall_sensitivityMoments ?_ ?_ <;> simp [perSide]

theorem sensitivityWitness_weights (r : StepResults (Estimation.Weights (fun _ : Fin 1 ⊕ Fin 1 => Unit) Empty Empty) (Unit → ℝ) Unit) (hstep : r.step = 1)
    (htheta : r.theta () = 1) : sensitivityWitness.weightsForCovariances r = Matrix.diagonal (perSide 2 (1 / 2)) := by
  unfold Estimation.weightsForCovariances
  rw [if_pos (by rw [hstep]; rfl), sensitivityWitness_covariances r htheta]
  change gmmWeights (Matrix.diagonal (perSide (1 / 2) 2))⁻¹ = _
  rw [sensitivityWitness_inverse]
  unfold gmmWeights
  exact symmetrized_of_symm _ (Matrix.diagonal_transpose _)

/-- **C98 is false of the code.** With unadjusted standard errors in the first step, the reported sensitivity is not that of the
estimates: after one-step GMM with the default weighting matrix and both sides of the market, there is a change in moments to which
estimates do not respond as reported. The reported matrix uses a weighting matrix that was made for scaling unadjusted covariances
(pyblp/results/problem_results.py:547-563) rather than the one that results report as `W`. -/
theorem C98_refuted : ∃ r ∈ sensitivityWitness.solve .oneStep false ⟨sensitivityWitness.defaultWeights, fun _ => 0, ()⟩,
    r.start.W = sensitivityWitness.defaultWeights ∧
    (∀ theta, sensitivityWitness.objective r.start.W (sensitivityWitness.outcome r) ≤
      sensitivityWitness.objective r.start.W (sensitivityWitness.markets () theta).1) ∧
    Spec.PSD r.start.W ∧ IsUnit ((sensitivityWitness.jacobian r)ᵀ * r.start.W * sensitivityWitness.jacobian r) ∧
    ¬Spec.IsSensitivity r.start.W (sensitivityWitness.jacobian r) (sensitivityWitness.parameterSensitivity r) := by
  set s : GmmState (Estimation.Weights (fun _ : Fin 1 ⊕ Fin 1 => Unit) Empty Empty) (Unit → ℝ) Unit :=
    ⟨sensitivityWitness.defaultWeights, fun _ => 0, ()⟩ with hs
  set r := gmmStep sensitivityWitness.oracle (Fintype.card Unit) 1 s none with hr
  have hmem : r ∈ sensitivityWitness.solve .oneStep false s := by
    unfold Estimation.solve gmmSolve
    rw [if_neg (by simp), gmmLoop_last _ _ _ _ _ _ (Or.inr ⟨rfl, rfl⟩), List.mem_singleton]
  have hstep : r.step = 1 := rfl
  have hW : r.start.W = Matrix.diagonal (perSide 2 2) := sensitivityWitness_default
  have htheta : r.theta () = 1 := rfl
  have hobjective : ∀ o, sensitivityWitness.objective (Matrix.diagonal (perSide 2 2)) o =
      2 * (2 * (o.delta 0 / 2) ^ 2 + 2 * (o.costs 1 / 2) ^ 2) := by
    intro o
    rw [C97_objective]
    unfold Spec.stepValue Spec.quadratic
    simp only [sum_sensitivityMoments]
    simp [Spec.objectiveScale, Spec.stepMoments, Spec.averagedMoments, Spec.stepXi, Spec.stepOmega, Spec.momentError, Spec.unobserved,
      sensitivityWitness, perSide]
    ring
  have hG := sensitivityWitness_jacobian r
  have hsensitivity : sensitivityWitness.parameterSensitivity r = Matrix.of fun _ a => perSide (-1) (-1 / 2) a := by
    unfold Estimation.parameterSensitivity
    rw [sensitivityWitness_weights r hstep htheta, sensitivityWitness_product]
    have h1 : sensitivityWitness.invertParameters (Matrix.diagonal fun _ => (2 / 4 + 1 / 2 : ℝ)) = 1 := by
      refine Matrix.inv_eq_right_inv ?_
      rw [Matrix.mul_one, ← Matrix.diagonal_one]
      norm_num
    rw [h1, hG]
    unfold gmmParameterSensitivity
    rw [Matrix.neg_mul, Matrix.one_mul, Matrix.neg_mul]
    ext p a
    revert a
    refine forall_sensitivityMoments ?_ ?_ <;> simp [perSide, Matrix.mul_apply, Matrix.diagonal] <;> norm_num
  refine ⟨r, hmem, rfl, fun theta => ?_, ?_, ?_, fun h => ?_⟩
  · rw [hW, hobjective, hobjective]
    have h0 : (sensitivityWitness.outcome r).delta 0 = 0 := by
      change r.theta () - 1 = 0
      rw [htheta, sub_self]
    have h1 : (sensitivityWitness.outcome r).costs 1 = 0 := by
      change 2 * r.theta () - 2 = 0
      rw [htheta]
      norm_num
    rw [h0, h1]
    refine le_trans (le_of_eq (show _ = (0 : ℝ) by norm_num)) ?_
    positivity
  · rw [hW]
    exact sensitivityWitness_psd
  · rw [hW, sensitivityWitness_product, Matrix.isUnit_iff_isUnit_det, Matrix.det_diagonal, isUnit_iff_ne_zero, Finset.prod_ne_zero_iff]
    intro _ _
    norm_num
  · have h1 := h (perSide 1 0) (fun _ => -2 / 5)
    rw [hW, hsensitivity, hG] at h1
    have hL : (Matrix.of fun (_ : Unit ⊕ Empty ⊕ Empty) a => perSide (-1) (-1 / 2) a) *ᵥ perSide 1 0 = fun _ => -1 := by
      funext p
      simp only [mulVec, dotProduct, sum_sensitivityMoments, of_apply]
      norm_num [perSide]
    have hmul : ∀ x : ℝ, (Matrix.of fun a (_ : Unit ⊕ Empty ⊕ Empty) => perSide (1 / 2) 1 a) *ᵥ (fun _ => x) = perSide (x / 2) x := by
      intro x
      funext a
      revert a
      refine forall_sensitivityMoments ?_ ?_ <;> simp [mulVec, dotProduct, perSide] <;> ring
    rw [hL, hmul, hmul] at h1
    unfold Spec.quadratic at h1
    simp only [sum_sensitivityMoments, Pi.add_apply, Matrix.diagonal_apply] at h1
    norm_num [perSide] at h1
    simp at h1
    norm_num at h1

/-- Hypotheses of the conditional theorems hold for the witness with either type of standard errors. -/
example : Spec.Inverts sensitivityWitness.invertParameters ∧ Spec.Inverts sensitivityWitness.invertMoments ∧
    ({ sensitivityWitness with seType := .robust } : Estimation 2 1 1 (fun _ => Unit) Empty Empty Empty Unit Empty ℕ Unit).seType ≠
      .unadjusted := ⟨fun _ _ h => Matrix.inv_eq_right_inv h, fun _ _ h => Matrix.inv_eq_right_inv h, by simp⟩

end Witness

end Pyblp
