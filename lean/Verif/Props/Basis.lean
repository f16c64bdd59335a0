import Verif.Props.Units

set_option linter.unusedSectionVars false

/-!
# Combinations of characteristics with linear parameters (C116)
-/

namespace Pyblp

open Matrix

/-! ## Linear parameters of combined regressors -/

section Generic

variable {ε n k : Type} {m : ε → Type} [Fintype ε] [DecidableEq ε] [Fintype n] [Fintype k] [DecidableEq k] [∀ e, Fintype (m e)]

theorem ivP_rebased (T : Matrix k k ℝ) (X : ε → Matrix n k ℝ) (Z : (e : ε) → Matrix n (m e) ℝ) :
    ivP (fun e => X e * T) Z = ivP X Z * T := by
  ext c l
  rw [ivP_apply, Matrix.mul_apply]
  simp only [ivP_apply, Matrix.mul_apply, Finset.mul_sum, Finset.sum_mul]
  rw [Finset.sum_comm]
  exact Finset.sum_congr rfl fun j _ => Finset.sum_congr rfl fun i _ => by ring

theorem ivCovariancesInverse_rebased (T : Matrix k k ℝ) (X : ε → Matrix n k ℝ) (Z : (e : ε) → Matrix n (m e) ℝ)
    (W : Matrix (MomentIndex m) (MomentIndex m) ℝ) :
    ivCovariancesInverse (fun e => X e * T) Z W = Tᵀ * ivCovariancesInverse X Z W * T := by
  rw [ivCovariancesInverse_eq, ivCovariancesInverse_eq, ivP_rebased, transpose_mul]
  simp only [Matrix.mul_assoc]

theorem ivParameters_rebased (T C C' : Matrix k k ℝ) (hC : T * C' * Tᵀ = C) (X : ε → Matrix n k ℝ) (Z : (e : ε) → Matrix n (m e) ℝ)
    (W : Matrix (MomentIndex m) (MomentIndex m) ℝ) (y : ε → n → ℝ) :
    T *ᵥ ivParameters C' (fun e => X e * T) Z W y = ivParameters C X Z W y := by
  rw [ivParameters_eq, ivParameters_eq, ivP_rebased, ← hC, transpose_mul]
  simp only [Matrix.mul_assoc, mulVec_mulVec]

theorem ivResiduals_rebased (T C C' : Matrix k k ℝ) (hC : T * C' * Tᵀ = C) (X : ε → Matrix n k ℝ) (Z : (e : ε) → Matrix n (m e) ℝ)
    (W : Matrix (MomentIndex m) (MomentIndex m) ℝ) (y : ε → n → ℝ) :
    ivResiduals C' (fun e => X e * T) Z W y = ivResiduals C X Z W y := by
  funext e i
  unfold ivResiduals
  rw [← ivParameters_rebased T C C' hC, mulVec_mulVec]
  rfl

theorem ivJacobian_rebased (T C C' : Matrix k k ℝ) (hC : T * C' * Tᵀ = C) (X : ε → Matrix n k ℝ) (Z : (e : ε) → Matrix n (m e) ℝ)
    (W : Matrix (MomentIndex m) (MomentIndex m) ℝ) (y : ε → n → ℝ) :
    ivJacobian C' (fun e => X e * T) Z W y = ivJacobian C X Z W y := by
  rw [ivJacobian_eq, ivJacobian_eq, ivResiduals_rebased T C C' hC]

theorem inverts_rebased (invert : Matrix k k ℝ → Matrix k k ℝ) (hinv : Spec.Inverts invert) (T S : Matrix k k ℝ) (hT : IsUnit T)
    (hS : IsUnit S) : T * invert (Tᵀ * S * T) * Tᵀ = invert S := by
  obtain ⟨U, rfl⟩ := hT
  exact inverts_conj invert hinv _ (U⁻¹ : (Matrix k k ℝ)ˣ) S U.mul_inv U.inv_mul hS

end Generic

theorem computeDifference_sum {N : ℕ} {l : Type} [Fintype l] (lag : Fin N → Fin N) (t : DifferenceType) (x y : l → Fin N → ℝ) (phi c : ℝ)
    (has : Bool) (w : l → ℝ) (i : Fin N) :
    computeDifference lag t (fun i => ∑ a, x a i * w a) phi (if has then some (fun i => ∑ a, y a i * w a, c) else none) i =
      ∑ a, computeDifference lag t (x a) phi (if has then some (y a, c) else none) i * w a := by
  cases has <;> cases t <;> simp only [computeDifference, if_true, Bool.false_eq_true, if_false] <;> split <;>
    simp only [zero_mul, Finset.sum_const_zero, sub_mul, Finset.sum_sub_distrib, Finset.mul_sum, mul_assoc]

theorem gmmParameterCovariances_rebased {c p : Type} [Fintype c] [Fintype p] (V S : Matrix c c ℝ) (G : Matrix c p ℝ)
    (T inverse : Matrix p p ℝ) (unadjusted : Bool) :
    gmmParameterCovariances V S G (T * inverse * Tᵀ) unadjusted = T * gmmParameterCovariances V S (G * T) inverse unadjusted * Tᵀ := by
  unfold gmmParameterCovariances
  cases unadjusted
  · rw [← symmetrized_conj]
    simp only [Bool.false_eq_true, if_false, transpose_mul, Matrix.mul_assoc]
  · simp only [if_true, symmetrized_conj]

theorem gmmParameterSensitivity_rebased {c p : Type} [Fintype c] [Fintype p] (V : Matrix c c ℝ) (G : Matrix c p ℝ)
    (T inverse : Matrix p p ℝ) :
    gmmParameterSensitivity V G (T * inverse * Tᵀ) = T * gmmParameterSensitivity V (G * T) inverse := by
  unfold gmmParameterSensitivity
  simp only [transpose_mul, Matrix.mul_assoc, Matrix.neg_mul, Matrix.mul_neg]

theorem jacobianMean_sum {ε l : Type} {m : ε → Type} [Fintype ε] [DecidableEq ε] [∀ e, Fintype (m e)] [Fintype l] {N : ℕ}
    (Z : (e : ε) → Matrix (Fin N) (m e) ℝ) (x : l → ε → Fin N → ℝ) (w : l → ℝ) (c : MomentIndex m) :
    gmmMomentsJacobianMean (fun e i => ∑ a, x a e i * w a) Z c = ∑ a, gmmMomentsJacobianMean (x a) Z c * w a := by
  rw [jacobian_moments]
  simp only [jacobian_moments, Pi.smul_apply, smul_eq_mul, ivV_apply, Finset.mul_sum, Finset.sum_mul]
  rw [Finset.sum_comm]
  exact Finset.sum_congr rfl fun _ _ => Finset.sum_congr rfl fun _ _ => by ring

/-! ## Specification -/

namespace Spec

variable {N nd ns : ℕ} {m : Fin nd ⊕ Fin ns → Type} {q b g θ d ι D : Type} [∀ e, Fintype (m e)] [Fintype q] [Fintype b] [Fintype g]
  [Fintype θ] [Fintype d] [LinearOrder ι]

/-- A problem that differs only by characteristics with linear parameters that are not part of `theta`, which are combinations of those
of the other one: columns of `X1` and columns of `X3` are multiplied by a matrix. -/
def rebased (E : Estimation N nd ns m q b g θ d ι D) (B : Matrix b b ℝ) (Γ : Matrix g g ℝ) : Estimation N nd ns m q b g θ d ι D :=
  { E with data := { E.data with X1 := E.data.X1 * B, X3 := E.data.X3 * Γ } }

/-- With one weighting matrix, linear parameters are identified at all values of `theta`. -/
def Identified [DecidableEq b] [DecidableEq g] (E : Estimation N nd ns m q b g θ d ι D) (W : Estimation.Weights m q d) : Prop :=
  ∀ delta theta, ∀ o ∈ (E.markets delta theta).1 :: E.resampled delta theta,
    IsUnit (ivCovariancesInverse (E.data.regressors o.phi) E.data.Z (ivWeights (ivWeights W)))

/-- The matrix that gives linear parameters from those for combinations. -/
def basis (B : Matrix b b ℝ) (Γ : Matrix g g ℝ) : Matrix (b ⊕ g) (b ⊕ g) ℝ := fromBlocks B 0 0 Γ

/-- The matrix that gives all parameters from those for combinations. Elements of `theta` stay what they are. -/
def fullBasis [DecidableEq θ] (B : Matrix b b ℝ) (Γ : Matrix g g ℝ) : Matrix (θ ⊕ b ⊕ g) (θ ⊕ b ⊕ g) ℝ := fromBlocks 1 0 0 (basis B Γ)

end Spec

section Evaluations

variable {N nd ns : ℕ} {m : Fin nd ⊕ Fin ns → Type} {q b g θ d ι D : Type} [∀ e, Fintype (m e)] [Fintype q] [Fintype b] [Fintype g]
  [Fintype θ] [Fintype d] [LinearOrder ι] [DecidableEq b] [DecidableEq g]

variable (E : Estimation N nd ns m q b g θ d ι D) (B : Matrix b b ℝ) (Γ : Matrix g g ℝ)

theorem equations_sum {l : Type} [Fintype l] (M : MomentData N nd ns m q b g) (phi : Fin 2 → Fin 2 → ℝ) (x y : l → Fin N → ℝ) (w : l → ℝ)
    (e : Fin nd ⊕ Fin ns) (i : Fin N) :
    M.equations phi (fun i => ∑ a, x a i * w a) (fun i => ∑ a, y a i * w a) e i = ∑ a, M.equations phi (x a) (y a) e i * w a := by
  rcases e with e | e
  · unfold MomentData.equations
    simp only
    cases h : M.demand e with
    | levels => rfl
    | difference t => exact computeDifference_sum M.lag t x y (phi 0 0) (phi 0 1) M.hasSupply w i
  · unfold MomentData.equations
    simp only
    cases h : M.supply e with
    | levels => rfl
    | difference t => exact computeDifference_sum M.lag t y x (phi 1 1) (phi 1 0) true w i

theorem basis_unit (hB : IsUnit B) (hΓ : IsUnit Γ) : IsUnit (Spec.basis B Γ) := by
  rw [Matrix.isUnit_iff_isUnit_det] at hB hΓ ⊢
  rw [Spec.basis, det_fromBlocks_zero₂₁]
  exact hB.mul hΓ

theorem fullBasis_unit [DecidableEq θ] (hB : IsUnit B) (hΓ : IsUnit Γ) : IsUnit (Spec.fullBasis (θ := θ) B Γ) := by
  have h := basis_unit B Γ hB hΓ
  rw [Matrix.isUnit_iff_isUnit_det] at h ⊢
  rw [Spec.fullBasis, det_fromBlocks_zero₂₁, det_one, one_mul]
  exact h

theorem extended_rebased (c : b ⊕ g) :
    (Spec.rebased E B Γ).data.extendedX1 c = (fun i => ∑ a, E.data.extendedX1 a i * Spec.basis B Γ a c) ∧
      (Spec.rebased E B Γ).data.extendedX3 c = fun i => ∑ a, E.data.extendedX3 a i * Spec.basis B Γ a c := by
  constructor <;> funext i <;> rcases c with c | c <;>
    simp [MomentData.extendedX1, MomentData.extendedX3, Spec.rebased, Spec.basis, Matrix.mul_apply]

theorem regressors_rebased (phi : Fin 2 → Fin 2 → ℝ) :
    (Spec.rebased E B Γ).data.regressors phi = fun e => E.data.regressors phi e * Spec.basis B Γ := by
  funext e
  ext i c
  rw [Matrix.mul_apply]
  have h := equations_sum E.data phi E.data.extendedX1 E.data.extendedX3 (fun a => Spec.basis B Γ a c) e i
  unfold MomentData.regressors
  rw [(extended_rebased E B Γ c).1, (extended_rebased E B Γ c).2]
  exact h

variable (W : Estimation.Weights m q d) (phi : Fin 2 → Fin 2 → ℝ)

theorem covariances_rebased (hinv : Spec.Inverts E.invertLinear) (hB : IsUnit B) (hΓ : IsUnit Γ)
    (hX : IsUnit (ivCovariancesInverse (E.data.regressors phi) E.data.Z (ivWeights (ivWeights W)))) :
    Spec.basis B Γ * (Spec.rebased E B Γ).covariances W phi * (Spec.basis B Γ)ᵀ = E.covariances W phi := by
  unfold Estimation.covariances
  rw [regressors_rebased]
  have : ivCovariancesInverse (fun e => E.data.regressors phi e * Spec.basis B Γ) (Spec.rebased E B Γ).data.Z (ivWeights (ivWeights W)) =
    (Spec.basis B Γ)ᵀ * ivCovariancesInverse (E.data.regressors phi) E.data.Z (ivWeights (ivWeights W)) * Spec.basis B Γ :=
    ivCovariancesInverse_rebased _ _ _ _
  rw [this]
  exact inverts_rebased E.invertLinear hinv _ _ (basis_unit B Γ hB hΓ) hX

variable (C C' : Matrix (b ⊕ g) (b ⊕ g) ℝ) (V : Matrix (MomentIndex m) (MomentIndex m) ℝ)

theorem dataParameters_rebased (hC : Spec.basis B Γ * C' * (Spec.basis B Γ)ᵀ = C) (delta costs : Fin N → ℝ) :
    Spec.basis B Γ *ᵥ (Spec.rebased E B Γ).data.linearParameters C' V phi delta costs = E.data.linearParameters C V phi delta costs := by
  unfold MomentData.linearParameters
  rw [regressors_rebased]
  exact ivParameters_rebased _ C C' hC _ _ _ _

theorem residuals_rebased (hC : Spec.basis B Γ * C' * (Spec.basis B Γ)ᵀ = C) (delta costs : Fin N → ℝ) :
    (Spec.rebased E B Γ).data.residuals C' V phi delta costs = E.data.residuals C V phi delta costs := by
  unfold MomentData.residuals
  rw [regressors_rebased]
  exact ivResiduals_rebased _ C C' hC _ _ _ _

theorem jacobians_rebased (hC : Spec.basis B Γ * C' * (Spec.basis B Γ)ᵀ = C) (delta costs : Fin N → ℝ) :
    (Spec.rebased E B Γ).data.jacobians C' V phi delta costs = E.data.jacobians C V phi delta costs := by
  unfold MomentData.jacobians
  have hc : (Spec.rebased E B Γ).data.converts = E.data.converts := rfl
  rw [hc, regressors_rebased]
  by_cases h : E.data.converts
  · rw [if_pos h, if_pos h]
    exact ivJacobian_rebased _ C C' hC _ _ _ _
  · rw [if_neg h, if_neg h]
    rfl

theorem dataXi_rebased (hC : Spec.basis B Γ * C' * (Spec.basis B Γ)ᵀ = C) (delta costs : Fin N → ℝ) :
    (Spec.rebased E B Γ).data.xi C' V phi delta costs = E.data.xi C V phi delta costs := by
  unfold MomentData.xi
  have hl : (Spec.rebased E B Γ).data.demand = E.data.demand := rfl
  rw [hl, residuals_rebased E B Γ phi C C' V hC, ← dataParameters_rebased E B Γ phi C C' V hC]
  cases levelsIndex E.data.demand with
  | some i => rfl
  | none =>
    funext j
    have : ∀ x : b ⊕ g → ℝ, ∑ k, (E.data.X1 * B) j k * x (.inl k) = ∑ k, E.data.X1 j k * (Spec.basis B Γ *ᵥ x) (.inl k) := by
      intro x
      simp only [Matrix.mul_apply, mulVec, dotProduct, Fintype.sum_sum_type, Spec.basis, fromBlocks_apply₁₁, fromBlocks_apply₁₂,
        Matrix.zero_apply, zero_mul, Finset.sum_const_zero, add_zero, Finset.sum_mul, Finset.mul_sum]
      rw [Finset.sum_comm]
      exact Finset.sum_congr rfl fun _ _ => Finset.sum_congr rfl fun _ _ => by ring
    exact congrArg (delta j - ·) (this _)

theorem dataOmega_rebased (hC : Spec.basis B Γ * C' * (Spec.basis B Γ)ᵀ = C) (delta costs : Fin N → ℝ) :
    (Spec.rebased E B Γ).data.omega C' V phi delta costs = E.data.omega C V phi delta costs := by
  unfold MomentData.omega
  have hl : (Spec.rebased E B Γ).data.supply = E.data.supply := rfl
  rw [hl, residuals_rebased E B Γ phi C C' V hC, ← dataParameters_rebased E B Γ phi C C' V hC]
  cases levelsIndex E.data.supply with
  | some i => rfl
  | none =>
    funext j
    have : ∀ x : b ⊕ g → ℝ, ∑ k, (E.data.X3 * Γ) j k * x (.inr k) = ∑ k, E.data.X3 j k * (Spec.basis B Γ *ᵥ x) (.inr k) := by
      intro x
      simp only [Matrix.mul_apply, mulVec, dotProduct, Fintype.sum_sum_type, Spec.basis, fromBlocks_apply₂₂, fromBlocks_apply₂₁,
        Matrix.zero_apply, zero_mul, Finset.sum_const_zero, zero_add, Finset.sum_mul, Finset.mul_sum]
      rw [Finset.sum_comm]
      exact Finset.sum_congr rfl fun _ _ => Finset.sum_congr rfl fun _ _ => by ring
    exact congrArg (costs j - ·) (this _)

theorem xiJacobian_rebased (hC : Spec.basis B Γ * C' * (Spec.basis B Γ)ᵀ = C) (delta costs : Fin N → ℝ) :
    (Spec.rebased E B Γ).data.xiJacobian C' V phi delta costs = E.data.xiJacobian C V phi delta costs := by
  unfold MomentData.xiJacobian
  rw [jacobians_rebased E B Γ phi C C' V hC]
  rfl

theorem omegaJacobian_rebased (hC : Spec.basis B Γ * C' * (Spec.basis B Γ)ᵀ = C) (delta costs : Fin N → ℝ) :
    (Spec.rebased E B Γ).data.omegaJacobian C' V phi delta costs = E.data.omegaJacobian C V phi delta costs := by
  unfold MomentData.omegaJacobian
  rw [jacobians_rebased E B Γ phi C C' V hC]
  rfl

theorem meanG_rebased [DecidableEq θ] (phi : Fin 2 → Fin 2 → ℝ) (xiByTheta omegaByTheta : Matrix (Fin N) θ ℝ) (xi omega : Fin N → ℝ)
    (location : θ → Option (Fin 2 × Fin 2)) (microByTheta : Matrix d θ ℝ) :
    (Spec.rebased E B Γ).data.meanG phi xiByTheta omegaByTheta xi omega location microByTheta =
      E.data.meanG phi xiByTheta omegaByTheta xi omega location microByTheta * Spec.fullBasis B Γ := by
  ext a p
  rw [Matrix.mul_apply, Fintype.sum_sum_type]
  rcases p with p | c
  · simp only [Spec.fullBasis, fromBlocks_apply₁₁, fromBlocks_apply₂₁, Matrix.zero_apply, mul_zero, Finset.sum_const_zero, add_zero,
      Matrix.one_apply, mul_ite, mul_one, Finset.sum_ite_eq', Finset.mem_univ, if_true]
    rfl
  · simp only [Spec.fullBasis, fromBlocks_apply₁₂, fromBlocks_apply₂₂, Matrix.zero_apply, mul_zero, Finset.sum_const_zero, zero_add]
    have h1 : ∀ c, (Spec.rebased E B Γ).data.reportedXi xiByTheta (.inr c) =
        fun i => ∑ l, E.data.reportedXi xiByTheta (.inr l) i * Spec.basis B Γ l c := by
      intro c
      funext i
      rcases c with c | c <;> simp [MomentData.reportedXi, Spec.rebased, Spec.basis, Matrix.mul_apply]
    have h2 : ∀ c, (Spec.rebased E B Γ).data.reportedOmega omegaByTheta (.inr c) =
        fun i => ∑ l, E.data.reportedOmega omegaByTheta (.inr l) i * Spec.basis B Γ l c := by
      intro c
      funext i
      rcases c with c | c <;> simp [MomentData.reportedOmega, Spec.rebased, Spec.basis, Matrix.mul_apply]
    have h3 : ∀ c, (Spec.rebased E B Γ).data.reportedCovariance xiByTheta omegaByTheta xi omega (.inr c) =
        fun i => ∑ l, E.data.reportedCovariance xiByTheta omegaByTheta xi omega (.inr l) i * Spec.basis B Γ l c := by
      intro c
      funext i
      rcases c with c | c
      · simp only [MomentData.reportedCovariance, Spec.rebased, Spec.basis, Matrix.mul_apply, Fintype.sum_sum_type, fromBlocks_apply₁₁,
          fromBlocks_apply₂₁, Matrix.zero_apply, mul_zero, Finset.sum_const_zero, add_zero, neg_mul, Finset.sum_neg_distrib, Finset.sum_mul]
        congr 1
        exact Finset.sum_congr rfl fun _ _ => by ring
      · simp only [MomentData.reportedCovariance, Spec.rebased, Spec.basis, Matrix.mul_apply, Fintype.sum_sum_type, fromBlocks_apply₁₂,
          fromBlocks_apply₂₂, Matrix.zero_apply, mul_zero, Finset.sum_const_zero, zero_add, mul_neg, neg_mul, Finset.sum_neg_distrib,
          Finset.mul_sum]
        congr 1
        exact Finset.sum_congr rfl fun _ _ => by ring
    have h4 : ∀ (M : MomentData N nd ns m q b g) (c : b ⊕ g) e i,
        M.phiContribution ((Sum.inr c : θ ⊕ b ⊕ g).elim location fun _ => none) xi omega e i = 0 := fun _ _ _ _ => rfl
    simp only [MomentData.meanG, of_apply, h4, add_zero, h1, h2, h3]
    have h5 : (fun e i => (Spec.rebased E B Γ).data.equations phi (fun i => ∑ l, E.data.reportedXi xiByTheta (.inr l) i * Spec.basis B Γ l c)
        (fun i => ∑ l, E.data.reportedOmega omegaByTheta (.inr l) i * Spec.basis B Γ l c) e i) =
        fun e i => ∑ l, E.data.equations phi (E.data.reportedXi xiByTheta (.inr l)) (E.data.reportedOmega omegaByTheta (.inr l)) e i *
          Spec.basis B Γ l c := by
      funext e i
      exact equations_sum E.data phi _ _ _ e i
    rw [h5]
    rcases a with (a | a) | a
    · exact jacobianMean_sum E.data.Z _ _ a
    · exact jacobianMean_sum (ε := Unit) (m := fun _ => q) (fun _ => E.data.ZC)
        (fun l _ => E.data.reportedCovariance xiByTheta omegaByTheta xi omega (.inr l)) _ ⟨(), a⟩
    · simp [concat]

/-! ## Evaluations -/

variable (o : Evaluated N θ d) (hinv : Spec.Inverts E.invertLinear) (hB : IsUnit B) (hΓ : IsUnit Γ)
  (hX : IsUnit (ivCovariancesInverse (E.data.regressors o.phi) E.data.Z (ivWeights (ivWeights W))))

include hinv hB hΓ hX

theorem linearParameters_rebased :
    Spec.basis B Γ *ᵥ (Spec.rebased E B Γ).linearParameters W o = E.linearParameters W o :=
  dataParameters_rebased E B Γ o.phi _ _ _ (covariances_rebased E B Γ W o.phi hinv hB hΓ hX) _ _

theorem xi_rebased : (Spec.rebased E B Γ).xi W o = E.xi W o :=
  dataXi_rebased E B Γ o.phi _ _ _ (covariances_rebased E B Γ W o.phi hinv hB hΓ hX) _ _

theorem omega_rebased : (Spec.rebased E B Γ).omega W o = E.omega W o :=
  dataOmega_rebased E B Γ o.phi _ _ _ (covariances_rebased E B Γ W o.phi hinv hB hΓ hX) _ _

theorem meanMoments_rebased : (Spec.rebased E B Γ).meanMoments W o = E.meanMoments W o := by
  unfold Estimation.meanMoments
  rw [xi_rebased E B Γ W o hinv hB hΓ hX, omega_rebased E B Γ W o hinv hB hΓ hX,
    residuals_rebased E B Γ o.phi _ _ _ (covariances_rebased E B Γ W o.phi hinv hB hΓ hX)]
  rfl

theorem objective_rebased : (Spec.rebased E B Γ).objective W o = E.objective W o := by
  have h : ∀ (E : Estimation N nd ns m q b g θ d ι D) W, E.objective W o = gmmObjective N E.scale W (E.meanMoments W o) := fun _ _ => rfl
  rw [h, h, meanMoments_rebased E B Γ W o hinv hB hΓ hX]
  rfl

theorem gradient_rebased : (Spec.rebased E B Γ).gradient W o = E.gradient W o := by
  funext p
  have hC := covariances_rebased E B Γ W o.phi hinv hB hΓ hX
  have h : ∀ (E : Estimation N nd ns m q b g θ d ι D), E.gradient W o p = gmmGradient N E.scale W (E.meanMoments W o)
      (E.data.progressJacobian E.analytic (E.covariances W o.phi) (ivWeights (ivWeights W)) o.phi o.delta
        o.costs (o.deltaJacobian.col p) (o.costsJacobian.col p) (E.location p) (o.microJacobian.col p)) := fun _ => rfl
  rw [h, h, meanMoments_rebased E B Γ W o hinv hB hΓ hX]
  unfold MomentData.progressJacobian
  simp only [dataXi_rebased E B Γ o.phi _ _ _ hC, dataOmega_rebased E B Γ o.phi _ _ _ hC, xiJacobian_rebased E B Γ o.phi _ _ _ hC,
    omegaJacobian_rebased E B Γ o.phi _ _ _ hC, jacobians_rebased E B Γ o.phi _ _ _ hC]
  rfl

end Evaluations

/-! ## Steps -/

section Steps

variable {N nd ns : ℕ} {m : Fin nd ⊕ Fin ns → Type} {q b g θ d ι D : Type} [∀ e, Fintype (m e)] [Fintype q] [Fintype b] [Fintype g]
  [Fintype θ] [Fintype d] [LinearOrder ι] [DecidableEq b] [DecidableEq g]
  (E : Estimation N nd ns m q b g θ d ι D) (B : Matrix b b ℝ) (Γ : Matrix g g ℝ) (hinv : Spec.Inverts E.invertLinear)
  (hB : IsUnit B) (hΓ : IsUnit Γ)

include hinv hB hΓ

theorem search_rebased (W : Estimation.Weights m q d) (hX : Spec.Identified E W) (step : ℕ) (start : θ → ℝ) (n : ℕ)
    (history : List ((θ → ℝ) × ℝ × (θ → ℝ))) (s : D) :
    (Spec.rebased E B Γ).search W step start n history s = E.search W step start n history s := by
  induction n generalizing history s with
  | zero => rfl
  | succ n ih =>
    unfold Estimation.search
    have hs : (Spec.rebased E B Γ).strategy = E.strategy := rfl
    rw [hs]
    cases E.strategy step start history with
    | inr done => rfl
    | inl theta =>
      have h := hX s theta _ (List.mem_cons_self ..)
      have hm : (Spec.rebased E B Γ).markets = E.markets := rfl
      simp only [hm, objective_rebased E B Γ W _ hinv hB hΓ h, gradient_rebased E B Γ W _ hinv hB hΓ h]
      exact ih _ _

theorem lastDelta_rebased (step : ℕ) (s : GmmState (Estimation.Weights m q d) (θ → ℝ) D) (hX : Spec.Identified E s.W) :
    (Spec.rebased E B Γ).lastDelta step s = E.lastDelta step s := by
  unfold Estimation.lastDelta
  have hb : (Spec.rebased E B Γ).budget = E.budget := rfl
  rw [hb, search_rebased E B Γ hinv hB hΓ s.W hX]

theorem final_rebased (step : ℕ) (s : GmmState (Estimation.Weights m q d) (θ → ℝ) D) (theta : θ → ℝ) (hX : Spec.Identified E s.W) :
    (Spec.rebased E B Γ).final step s theta = E.final step s theta := by
  unfold Estimation.final
  rw [lastDelta_rebased E B Γ hinv hB hΓ step s hX]
  rfl

theorem momentCovariances_rebased (type : CovarianceType) (center : Bool) (W : Estimation.Weights m q d) (hX : Spec.Identified E W)
    (delta : D) (theta : θ → ℝ) :
    (Spec.rebased E B Γ).momentCovariances type center W (E.markets delta theta).1 (E.resampled delta theta) =
      E.momentCovariances type center W (E.markets delta theta).1 (E.resampled delta theta) := by
  have h := hX delta theta _ (List.mem_cons_self ..)
  have hs : (Spec.rebased E B Γ).simulationCovariances W (E.resampled delta theta) =
      E.simulationCovariances W (E.resampled delta theta) := by
    have : (E.resampled delta theta).map ((Spec.rebased E B Γ).meanMoments W) = (E.resampled delta theta).map (E.meanMoments W) :=
      List.map_congr_left fun o ho => meanMoments_rebased E B Γ W o hinv hB hΓ (hX delta theta o (List.mem_cons_of_mem _ ho))
    unfold Estimation.simulationCovariances
    rw [this]
  unfold Estimation.momentCovariances
  rw [hs, xi_rebased E B Γ W _ hinv hB hΓ h, omega_rebased E B Γ W _ hinv hB hΓ h]
  rfl

theorem gmmStep_rebased (P step : ℕ) (s : GmmState (Estimation.Weights m q d) (θ → ℝ) D)
    (last : Option (StepResults (Estimation.Weights m q d) (θ → ℝ) D)) (hX : Spec.Identified E s.W) :
    gmmStep (Spec.rebased E B Γ).oracle P step s last = gmmStep E.oracle P step s last := by
  have hopt : (Spec.rebased E B Γ).oracle.optimize step s = E.oracle.optimize step s := by
    have hb : (Spec.rebased E B Γ).budget = E.budget := rfl
    simp only [Estimation.oracle, hb, search_rebased E B Γ hinv hB hΓ s.W hX]
  have hfin : ∀ theta, (Spec.rebased E B Γ).oracle.finish step s theta = E.oracle.finish step s theta := by
    intro theta
    simp only [Estimation.oracle, final_rebased E B Γ hinv hB hΓ step s theta hX, lastDelta_rebased E B Γ hinv hB hΓ step s hX]
    unfold Estimation.updatedWeights
    have := momentCovariances_rebased E B Γ hinv hB hΓ E.wType E.center s.W hX (E.lastDelta step s) theta
    have h2 : (Spec.rebased E B Γ).momentCovariances (Spec.rebased E B Γ).wType (Spec.rebased E B Γ).center s.W (E.final step s theta).1
        ((Spec.rebased E B Γ).resampled (E.lastDelta step s) theta) =
      E.momentCovariances E.wType E.center s.W (E.final step s theta).1 (E.resampled (E.lastDelta step s) theta) := this
    rw [h2]
    rfl
  unfold gmmStep
  simp only [hopt, hfin]

theorem gmmLoop_rebased (method : GmmMethod) (P step : ℕ) (s : GmmState (Estimation.Weights m q d) (θ → ℝ) D)
    (last : Option (StepResults (Estimation.Weights m q d) (θ → ℝ) D))
    (hX : ∀ r ∈ gmmLoop E.oracle method P step s last, Spec.Identified E r.start.W) :
    gmmLoop (Spec.rebased E B Γ).oracle method P step s last = gmmLoop E.oracle method P step s last := by
  have hstart : ∀ step s last, (gmmStep E.oracle P step s last).start = s := by
    intro step s last
    unfold gmmStep
    rfl
  induction hn : 2 - step generalizing step s last with
  | zero =>
    have hl : step ≥ 2 ∨ (method = .oneStep ∧ step = 1) := Or.inl (by omega)
    rw [gmmLoop_last _ _ _ _ _ _ hl] at hX ⊢
    rw [gmmLoop_last _ _ _ _ _ _ hl, gmmStep_rebased E B Γ hinv hB hΓ P step s last (by simpa only [hstart] using hX _ (List.mem_singleton_self _))]
  | succ n ih =>
    by_cases hl : step ≥ 2 ∨ (method = .oneStep ∧ step = 1)
    · rw [gmmLoop_last _ _ _ _ _ _ hl] at hX ⊢
      rw [gmmLoop_last _ _ _ _ _ _ hl, gmmStep_rebased E B Γ hinv hB hΓ P step s last (by simpa only [hstart] using hX _ (List.mem_singleton_self _))]
    · rw [gmmLoop_next _ _ _ _ _ _ hl] at hX ⊢
      rw [gmmLoop_next _ _ _ _ _ _ hl, gmmStep_rebased E B Γ hinv hB hΓ P step s last (by simpa only [hstart] using hX _ (List.mem_cons_self ..))]
      congr 1
      exact ih (step + 1) _ _ (fun r hr => hX r (List.mem_cons_of_mem _ hr)) (by omega)

/-! ## Results -/

section Results

variable (r : StepResults (Estimation.Weights m q d) (θ → ℝ) D) (hX : Spec.Identified E r.start.W)

include hX

theorem outcome_rebased : (Spec.rebased E B Γ).outcome r = E.outcome r := by
  unfold Estimation.outcome
  rw [final_rebased E B Γ hinv hB hΓ r.step r.start r.theta hX]

theorem weightsCovariances_rebased : (Spec.rebased E B Γ).weightsCovariances r = E.weightsCovariances r := by
  unfold Estimation.weightsCovariances
  rw [outcome_rebased E B Γ hinv hB hΓ r hX, lastDelta_rebased E B Γ hinv hB hΓ r.step r.start hX]
  exact momentCovariances_rebased E B Γ hinv hB hΓ E.wType E.center r.start.W hX _ _

theorem reportedCovariances_rebased : (Spec.rebased E B Γ).reportedCovariances r = E.reportedCovariances r := by
  unfold Estimation.reportedCovariances
  have h1 : (Spec.rebased E B Γ).seType = E.seType := rfl
  have h2 : (Spec.rebased E B Γ).wType = E.wType := rfl
  have h3 : (Spec.rebased E B Γ).center = E.center := rfl
  rw [h1, h2, h3, weightsCovariances_rebased E B Γ hinv hB hΓ r hX, outcome_rebased E B Γ hinv hB hΓ r hX,
    lastDelta_rebased E B Γ hinv hB hΓ r.step r.start hX]
  have h4 := momentCovariances_rebased E B Γ hinv hB hΓ E.seType false r.start.W hX (E.lastDelta r.step r.start) r.theta
  have h5 : (Spec.rebased E B Γ).momentCovariances E.seType false r.start.W (E.outcome r)
      ((Spec.rebased E B Γ).resampled (E.lastDelta r.step r.start) r.theta) =
    E.momentCovariances E.seType false r.start.W (E.outcome r) (E.resampled (E.lastDelta r.step r.start) r.theta) := h4
  rw [h5]

theorem weightsForCovariances_rebased : (Spec.rebased E B Γ).weightsForCovariances r = E.weightsForCovariances r := by
  unfold Estimation.weightsForCovariances
  rw [reportedCovariances_rebased E B Γ hinv hB hΓ r hX]
  rfl

theorem jacobian_rebased [DecidableEq θ] : (Spec.rebased E B Γ).jacobian r = E.jacobian r * Spec.fullBasis B Γ := by
  have hC := covariances_rebased E B Γ r.start.W (E.outcome r).phi hinv hB hΓ (hX _ _ _ (List.mem_cons_self ..))
  unfold Estimation.jacobian MomentData.momentsJacobian
  simp only [outcome_rebased E B Γ hinv hB hΓ r hX, dataXi_rebased E B Γ _ _ _ _ hC, dataOmega_rebased E B Γ _ _ _ _ hC,
    xiJacobian_rebased E B Γ _ _ _ _ hC, omegaJacobian_rebased E B Γ _ _ _ _ hC]
  exact meanG_rebased E B Γ _ _ _ _ _ _ _

theorem information_rebased [DecidableEq θ] :
    ((Spec.rebased E B Γ).jacobian r)ᵀ * (Spec.rebased E B Γ).weightsForCovariances r * (Spec.rebased E B Γ).jacobian r =
      (Spec.fullBasis B Γ)ᵀ * ((E.jacobian r)ᵀ * E.weightsForCovariances r * E.jacobian r) * Spec.fullBasis B Γ := by
  rw [jacobian_rebased E B Γ hinv hB hΓ r hX, weightsForCovariances_rebased E B Γ hinv hB hΓ r hX, transpose_mul]
  simp only [Matrix.mul_assoc]

theorem parameterCovariances_rebased [DecidableEq θ] (hpar : Spec.Inverts E.invertParameters)
    (hG : IsUnit ((E.jacobian r)ᵀ * E.weightsForCovariances r * E.jacobian r)) :
    E.parameterCovariances r = Spec.fullBasis B Γ * (Spec.rebased E B Γ).parameterCovariances r * (Spec.fullBasis B Γ)ᵀ := by
  have h := inverts_rebased E.invertParameters hpar (Spec.fullBasis B Γ) _ (fullBasis_unit B Γ hB hΓ) hG
  have hi : (Spec.rebased E B Γ).invertParameters = E.invertParameters := rfl
  have hs : (Spec.rebased E B Γ).seType = E.seType := rfl
  unfold Estimation.parameterCovariances
  rw [hi, hs, information_rebased E B Γ hinv hB hΓ r hX, jacobian_rebased E B Γ hinv hB hΓ r hX,
    weightsForCovariances_rebased E B Γ hinv hB hΓ r hX, reportedCovariances_rebased E B Γ hinv hB hΓ r hX, ← h]
  exact gmmParameterCovariances_rebased _ _ _ _ _ _

theorem parameterSensitivity_rebased [DecidableEq θ] (hpar : Spec.Inverts E.invertParameters)
    (hG : IsUnit ((E.jacobian r)ᵀ * E.weightsForCovariances r * E.jacobian r)) :
    E.parameterSensitivity r = Spec.fullBasis B Γ * (Spec.rebased E B Γ).parameterSensitivity r := by
  have h := inverts_rebased E.invertParameters hpar (Spec.fullBasis B Γ) _ (fullBasis_unit B Γ hB hΓ) hG
  have hi : (Spec.rebased E B Γ).invertParameters = E.invertParameters := rfl
  unfold Estimation.parameterSensitivity
  rw [hi, information_rebased E B Γ hinv hB hΓ r hX, jacobian_rebased E B Γ hinv hB hΓ r hX,
    weightsForCovariances_rebased E B Γ hinv hB hΓ r hX, ← h]
  exact gmmParameterSensitivity_rebased _ _ _ _

end Results

/-! ## C116 -/

/-- **C116.** Two problems differ only by characteristics whose linear parameters are not part of `theta`: the second problem's columns of
`X1` and of `X3` are any invertible combinations of the first one's, such as the same characteristics in other units, in another order,
or relative to other ones. Then all steps of `solve` are exactly the same: estimates of `theta`, `delta`, weighting matrices, counts of
iterations and evaluations and convergence, however the optimizer uses values of the objective and its gradient. Linear parameters have
to be identified with weighting matrices of the first problem's steps. -/
theorem C116_steps (method : GmmMethod) (initialUpdate : Bool) (s : GmmState (Estimation.Weights m q d) (θ → ℝ) D)
    (hX : ∀ r ∈ E.solve method initialUpdate s, Spec.Identified E r.start.W) :
    (Spec.rebased E B Γ).solve method initialUpdate s = E.solve method initialUpdate s :=
  gmmLoop_rebased E B Γ hinv hB hΓ method _ _ s none hX

/-- **C116.** In each step, structural errors, the objective, its gradient, covariances of moments and standard errors of `theta` are the
same, and linear parameters, the Jacobian of moments, covariances of parameters and sensitivities to moments are those of the other
problem, transformed as the characteristics are. -/
theorem C116_results [DecidableEq θ] (hpar : Spec.Inverts E.invertParameters) (r : StepResults (Estimation.Weights m q d) (θ → ℝ) D)
    (hX : Spec.Identified E r.start.W) (hG : IsUnit ((E.jacobian r)ᵀ * E.weightsForCovariances r * E.jacobian r)) :
    (Spec.rebased E B Γ).xi r.start.W ((Spec.rebased E B Γ).outcome r) = E.xi r.start.W (E.outcome r) ∧
      (Spec.rebased E B Γ).omega r.start.W ((Spec.rebased E B Γ).outcome r) = E.omega r.start.W (E.outcome r) ∧
      (Spec.rebased E B Γ).objective r.start.W ((Spec.rebased E B Γ).outcome r) = E.objective r.start.W (E.outcome r) ∧
      (Spec.rebased E B Γ).gradient r.start.W ((Spec.rebased E B Γ).outcome r) = E.gradient r.start.W (E.outcome r) ∧
      (Spec.rebased E B Γ).reportedCovariances r = E.reportedCovariances r ∧
      (∀ p, (Spec.rebased E B Γ).standardErrors r (.inl p) = E.standardErrors r (.inl p)) ∧
      (∀ k, E.linearParameters r.start.W (E.outcome r) (.inl k) =
        ∑ l, B k l * (Spec.rebased E B Γ).linearParameters r.start.W ((Spec.rebased E B Γ).outcome r) (.inl l)) ∧
      (∀ k, E.linearParameters r.start.W (E.outcome r) (.inr k) =
        ∑ l, Γ k l * (Spec.rebased E B Γ).linearParameters r.start.W ((Spec.rebased E B Γ).outcome r) (.inr l)) ∧
      (Spec.rebased E B Γ).jacobian r = E.jacobian r * Spec.fullBasis B Γ ∧
      E.parameterCovariances r = Spec.fullBasis B Γ * (Spec.rebased E B Γ).parameterCovariances r * (Spec.fullBasis B Γ)ᵀ ∧
      E.parameterSensitivity r = Spec.fullBasis B Γ * (Spec.rebased E B Γ).parameterSensitivity r := by
  have h : IsUnit (ivCovariancesInverse (E.data.regressors (E.outcome r).phi) E.data.Z (ivWeights (ivWeights r.start.W))) :=
    hX _ _ _ (List.mem_cons_self ..)
  have hp := parameterCovariances_rebased E B Γ hinv hB hΓ r hX hpar hG
  have hl := linearParameters_rebased E B Γ r.start.W (E.outcome r) hinv hB hΓ h
  rw [outcome_rebased E B Γ hinv hB hΓ r hX]
  refine ⟨xi_rebased E B Γ _ _ hinv hB hΓ h, omega_rebased E B Γ _ _ hinv hB hΓ h, objective_rebased E B Γ _ _ hinv hB hΓ h,
    gradient_rebased E B Γ _ _ hinv hB hΓ h, reportedCovariances_rebased E B Γ hinv hB hΓ r hX, ?_, ?_, ?_,
    jacobian_rebased E B Γ hinv hB hΓ r hX, hp, parameterSensitivity_rebased E B Γ hinv hB hΓ r hX hpar hG⟩
  · intro p
    unfold Estimation.standardErrors
    rw [hp]
    congr 2
    generalize (Spec.rebased E B Γ).parameterCovariances r = V
    rw [← fromBlocks_toBlocks V, Spec.fullBasis, fromBlocks_transpose, fromBlocks_multiply, fromBlocks_multiply]
    simp
  · intro k
    rw [← hl]
    simp [mulVec, dotProduct, Spec.basis]
  · intro k
    rw [← hl]
    simp [mulVec, dotProduct, Spec.basis]

/-- **C116.** For characteristics in other units, linear parameters are per unit, and so are their standard errors. -/
theorem C116_units [DecidableEq θ] (hpar : Spec.Inverts E.invertParameters) (κ : b → ℝ) (γ : g → ℝ) (hκ : B = diagonal κ)
    (hγ : Γ = diagonal γ) (r : StepResults (Estimation.Weights m q d) (θ → ℝ) D)
    (hX : Spec.Identified E r.start.W) (hG : IsUnit ((E.jacobian r)ᵀ * E.weightsForCovariances r * E.jacobian r)) :
    (∀ k, E.linearParameters r.start.W (E.outcome r) (.inl k) =
        κ k * (Spec.rebased E B Γ).linearParameters r.start.W ((Spec.rebased E B Γ).outcome r) (.inl k)) ∧
      (∀ k, E.linearParameters r.start.W (E.outcome r) (.inr k) =
        γ k * (Spec.rebased E B Γ).linearParameters r.start.W ((Spec.rebased E B Γ).outcome r) (.inr k)) ∧
      (∀ k, E.standardErrors r (.inr (.inl k)) = |κ k| * (Spec.rebased E B Γ).standardErrors r (.inr (.inl k))) ∧
      ∀ k, E.standardErrors r (.inr (.inr k)) = |γ k| * (Spec.rebased E B Γ).standardErrors r (.inr (.inr k)) := by
  obtain ⟨-, -, -, -, -, -, h1, h2, -, h3, -⟩ := C116_results E B Γ hinv hB hΓ hpar r hX hG
  have h4 : Spec.fullBasis (θ := θ) B Γ = diagonal (Sum.elim 1 (Sum.elim κ γ)) := by
    rw [Spec.fullBasis, Spec.basis, hκ, hγ, fromBlocks_diagonal, ← diagonal_one, fromBlocks_diagonal]
    rfl
  have h5 : ∀ c, E.standardErrors r c = |(Sum.elim 1 (Sum.elim κ γ) : θ ⊕ b ⊕ g → ℝ) c| * (Spec.rebased E B Γ).standardErrors r c := by
    intro c
    unfold Estimation.standardErrors
    rw [h3, h4, diagonal_transpose, mul_diagonal, diagonal_mul, ← Real.sqrt_sq_eq_abs, ← Real.sqrt_mul (sq_nonneg _)]
    congr 1
    ring
  refine ⟨?_, ?_, fun k => h5 _, fun k => h5 _⟩
  · intro k
    rw [h1 k, Finset.sum_eq_single k]
    · rw [hκ, diagonal_apply_eq]
    · intro l _ hl
      rw [hκ, diagonal_apply_ne _ hl.symm, zero_mul]
    · simp
  · intro k
    rw [h2 k, Finset.sum_eq_single k]
    · rw [hγ, diagonal_apply_eq]
    · intro l _ hl
      rw [hγ, diagonal_apply_ne _ hl.symm, zero_mul]
    · simp

/-- **C116.** By default, exogenous characteristics are instruments as well, so that instruments and the default weighting matrix change
with them. With C95, estimates of all steps are nonetheless the same. -/
theorem C116_default [DecidableEq d] [∀ e, DecidableEq (m e)] [DecidableEq q] (A : (e : Fin nd ⊕ Fin ns) → Matrix (m e) (m e) ℝ)
    (AC : Matrix q q ℝ) (hsort : IsArgsort E.ids E.sort) (hagg : Spec.Inverts E.invertAggregate) (hmom : Spec.Inverts E.invertMoments)
    (hA : ∀ e, IsUnit (A e)) (hAC : IsUnit AC) (method : GmmMethod) (initialUpdate : Bool) (theta : θ → ℝ) (delta : D)
    (hZ : IsUnit E.defaultCovariances)
    (hS : ∀ r ∈ E.solve method initialUpdate ⟨E.defaultWeights, theta, delta⟩, IsUnit (E.weightsCovariances r))
    (hX : ∀ r ∈ E.solve method initialUpdate ⟨E.defaultWeights, theta, delta⟩, Spec.Identified E r.start.W) :
    E.solve method initialUpdate ⟨E.defaultWeights, theta, delta⟩ =
      ((Spec.rebased (Spec.combined E A AC) B Γ).solve method initialUpdate
        ⟨(Spec.rebased (Spec.combined E A AC) B Γ).defaultWeights, theta, delta⟩).map
        (Spec.withWeights fun W => Spec.combination A AC * W * (Spec.combination A AC)ᵀ) := by
  have h := C95_default E A AC hsort hagg hmom hA hAC method initialUpdate theta delta hZ hS
  rw [h] at hX
  have hW : (Spec.rebased (Spec.combined E A AC) B Γ).defaultWeights = (Spec.combined E A AC).defaultWeights := rfl
  rw [h, hW, C116_steps (Spec.combined E A AC) B Γ hinv hB hΓ]
  intro r hr s theta o ho
  have h1 := hX _ (List.mem_map_of_mem hr) s theta o ho
  have h2 : (Spec.withWeights (fun W => Spec.combination A AC * W * (Spec.combination A AC)ᵀ) r).start.W = conj A AC r.start.W := rfl
  rw [h2, ivWeights_combination, ← ivCovariancesInverse_combined] at h1
  exact h1

end Steps

/-! ## Hypotheses of C116 are met -/

section Witness

/-- Two products in one market with mean utilities `1 + theta ^ 2` and `2`, a constant, and an instrument for each product. -/
noncomputable def basisWitness : Estimation 2 1 0 (fun _ => Fin 2) Empty (Fin 1) Empty (Fin 1) Empty ℕ Unit where
  data := ⟨id, fun _ => .levels, fun _ => .levels, false, fun _ => 1, Matrix.of fun _ c => c.elim, Matrix.of fun _ _ => 1,
    Matrix.of fun _ c => c.elim⟩
  location _ := none
  mean := 0
  scale := true
  analytic := true
  wType := .robust
  seType := .robust
  center := false
  ids i := i
  sort := [0, 1]
  markets _ theta := (⟨fun _ _ => 0, ![1 + theta 0 ^ 2, 2], fun _ => 0, Matrix.of ![![2 * theta 0], ![0]], 0, fun c => c.elim, 0, 0⟩, ())
  resampled _ _ := []
  strategy _ start history := match history with
    | [] => .inl start
    | _ :: _ => .inr (start, ⟨true, 1, 1⟩)
  budget := 10
  invertLinear S := S⁻¹
  invertAggregate S := S⁻¹
  invertMoments S := S⁻¹
  invertParameters S := S⁻¹

theorem onlyEquation (e : Fin 1 ⊕ Fin 0) : e = .inl 0 := by
  rcases e with e | e
  · rw [Subsingleton.elim e 0]
  · exact e.elim0

theorem isUnit_of_inverse {c : Type} [Fintype c] [DecidableEq c] (S T : Matrix c c ℝ) (h : S * T = 1) : IsUnit S :=
  ⟨⟨S, T, h, mul_eq_one_comm.mp h⟩, rfl⟩

theorem basisWitness_default : basisWitness.defaultCovariances = (1 / 2 : ℝ) • 1 := by
  ext a c
  rcases a with ⟨e, i⟩ | a
  · rcases c with ⟨e', j⟩ | c
    · rw [onlyEquation e, onlyEquation e']
      unfold Estimation.defaultCovariances
      rw [fromBlocks_apply₁₁, blockDiagonal'_apply_eq]
      fin_cases i <;> fin_cases j <;> simp [basisWitness]
    · exact c.elim
  · exact a.elim

theorem basisWitness_weights : basisWitness.defaultWeights = fromBlocks ((2 : ℝ) • 1) 0 0 0 := by
  unfold Estimation.defaultWeights
  rw [basisWitness_default]
  congr 1
  refine Matrix.inv_eq_right_inv ?_
  rw [Matrix.smul_mul, Matrix.one_mul, smul_smul]
  norm_num

theorem basisWitness_ivWeights : ivWeights (ivWeights basisWitness.defaultWeights) = (2 : ℝ) • 1 := by
  rw [basisWitness_weights]
  ext a c
  simp only [ivWeights, fromBlocks_apply₁₁, Matrix.smul_apply, Matrix.one_apply, Sum.inl.injEq]

theorem basisWitness_P (phi : Fin 2 → Fin 2 → ℝ) : ivP (basisWitness.data.regressors phi) basisWitness.data.Z = Matrix.of fun _ _ => 1 := by
  ext c l
  rcases l with l | l
  · rw [ivP_apply, onlyEquation c.1]
    have h : ∀ i, basisWitness.data.regressors phi (.inl 0) i (.inl l) = 1 := fun _ => rfl
    simp only [h, mul_one, of_apply]
    change ∑ i, (1 : Matrix (Fin 2) (Fin 2) ℝ) i c.2 = 1
    simp [Matrix.one_apply]
  · exact l.elim

theorem basisWitness_sum (f : MomentIndex (fun _ : Fin 1 ⊕ Fin 0 => Fin 2) → ℝ) :
    ∑ c, f c = f ⟨.inl 0, 0⟩ + f ⟨.inl 0, 1⟩ := by
  rw [Fintype.sum_sigma, Fintype.sum_sum_type]
  simp [Fin.sum_univ_two]

theorem basisWitness_information (phi : Fin 2 → Fin 2 → ℝ) :
    ivCovariancesInverse (basisWitness.data.regressors phi) basisWitness.data.Z (ivWeights (ivWeights basisWitness.defaultWeights)) =
      (4 : ℝ) • 1 := by
  rw [basisWitness_ivWeights, ivCovariancesInverse_eq, Matrix.mul_smul, Matrix.mul_one, Matrix.smul_mul, basisWitness_P]
  ext a c
  rcases a with a | a
  · rcases c with c | c
    · rw [Subsingleton.elim c a]
      simp only [Matrix.smul_apply, Matrix.mul_apply, basisWitness_sum, transpose_apply, of_apply, Matrix.one_apply_eq, smul_eq_mul]
      norm_num
    · exact c.elim
  · exact a.elim

theorem basisWitness_xi (o : Evaluated 2 (Fin 1) Empty) (i : Fin 2) :
    basisWitness.xi basisWitness.defaultWeights o i = o.delta i - (o.delta 0 + o.delta 1) / 2 := by
  have hC : basisWitness.covariances basisWitness.defaultWeights o.phi = (1 / 4 : ℝ) • 1 := by
    unfold Estimation.covariances
    rw [basisWitness_information]
    refine Matrix.inv_eq_right_inv ?_
    rw [Matrix.smul_mul, Matrix.one_mul, smul_smul]
    norm_num
  have hv : ∀ j : Fin 2, ivV basisWitness.data.Z (basisWitness.data.equations o.phi o.delta o.costs) ⟨.inl 0, j⟩ = o.delta j := by
    intro j
    rw [ivV_apply]
    change ∑ i, (1 : Matrix (Fin 2) (Fin 2) ℝ) i j * o.delta i = o.delta j
    simp [Matrix.one_apply]
  have hp : ∀ l, basisWitness.data.linearParameters ((1 / 4 : ℝ) • 1) ((2 : ℝ) • 1) o.phi o.delta o.costs l =
      (o.delta 0 + o.delta 1) / 2 := by
    intro l
    unfold MomentData.linearParameters
    rw [ivParameters_eq, basisWitness_P, Matrix.smul_mul, Matrix.one_mul, Matrix.mul_smul, Matrix.mul_one, smul_smul]
    simp only [mulVec, dotProduct, basisWitness_sum, hv, Matrix.smul_apply, transpose_apply, of_apply, smul_eq_mul]
    ring
  unfold Estimation.xi MomentData.xi
  have h : levelsIndex basisWitness.data.demand = some 0 := by
    simp [levelsIndex, basisWitness, List.finRange, MomentType.isLevels]
  rw [h, hC, basisWitness_ivWeights]
  change o.delta i - ∑ l : Fin 1 ⊕ Empty, vstack (basisWitness.data.regressors o.phi) (.inl 0, i) l *
    basisWitness.data.linearParameters ((1 / 4 : ℝ) • 1) ((2 : ℝ) • 1) o.phi o.delta o.costs l = _
  simp only [hp, Fintype.sum_sum_type, Fintype.sum_empty, add_zero, Fin.sum_univ_one]
  have h1 : vstack (basisWitness.data.regressors o.phi) (.inl 0, i) (.inl 0) = 1 := rfl
  rw [h1, one_mul]

theorem basisWitness_steps : ∀ r ∈ basisWitness.solve .oneStep false ⟨basisWitness.defaultWeights, fun _ => 3, ()⟩,
    r.start.W = basisWitness.defaultWeights ∧ r.theta = (fun _ => 3) := by
  intro r hr
  unfold Estimation.solve gmmSolve at hr
  rw [if_neg (by simp), gmmLoop_last _ _ _ _ _ _ (Or.inr ⟨rfl, rfl⟩), List.mem_singleton] at hr
  subst hr
  exact ⟨rfl, rfl⟩

theorem basisWitness_outcome (r : StepResults (Estimation.Weights (fun _ : Fin 1 ⊕ Fin 0 => Fin 2) Empty Empty) (Fin 1 → ℝ) Unit)
    (hr : r.theta = fun _ => 3) : (basisWitness.outcome r).delta = ![10, 2] ∧
      (basisWitness.outcome r).deltaJacobian = Matrix.of ![![6], ![0]] := by
  have h1 : (basisWitness.outcome r).delta = ![1 + r.theta 0 ^ 2, 2] := rfl
  have h2 : (basisWitness.outcome r).deltaJacobian = Matrix.of ![![2 * r.theta 0], ![0]] := rfl
  rw [h1, h2, hr]
  norm_num

theorem basisWitness_covariances (r : StepResults (Estimation.Weights (fun _ : Fin 1 ⊕ Fin 0 => Fin 2) Empty Empty) (Fin 1 → ℝ) Unit)
    (hW : r.start.W = basisWitness.defaultWeights) (hr : r.theta = fun _ => 3) : basisWitness.weightsCovariances r = (8 : ℝ) • 1 := by
  have hx : ∀ k, basisWitness.xi basisWitness.defaultWeights (basisWitness.outcome r) k * basisWitness.xi basisWitness.defaultWeights (basisWitness.outcome r) k = 16 := by
    intro k
    rw [basisWitness_xi, (basisWitness_outcome r hr).1]
    fin_cases k <;> norm_num
  ext a c
  rcases a with (⟨e, i⟩ | a) | a
  · rcases c with (⟨e', j⟩ | c) | c
    · rw [onlyEquation e, onlyEquation e']
      have hs : basisWitness.simulationCovariances basisWitness.defaultWeights [] = 0 := by
        ext a c
        simp only [Estimation.simulationCovariances, sampleCovariances, of_apply, Matrix.zero_apply]
        have he : ∀ F : Fin (List.map (basisWitness.meanMoments basisWitness.defaultWeights) []).length → ℝ, ∑ r, F r = 0 := fun F =>
          Finset.sum_eq_zero fun x _ => absurd x.2 (by simp)
        rw [he, zero_div]
      unfold Estimation.weightsCovariances Estimation.momentCovariances
      have hb : basisWitness.resampled (basisWitness.lastDelta r.step r.start) r.theta = [] := rfl
      have ht : basisWitness.wType = .robust := rfl
      have hc : basisWitness.center = false := rfl
      rw [hW, hb, hs, add_zero, fromBlocks_apply₁₁, of_apply, ht, hc, C41_robust]
      have hrow : ∀ k i, Spec.momentRow (basisWitness.data.allErrors (basisWitness.outcome r).phi
          (basisWitness.xi basisWitness.defaultWeights (basisWitness.outcome r))
          (basisWitness.omega basisWitness.defaultWeights (basisWitness.outcome r)) basisWitness.mean)
          basisWitness.data.allInstruments false k (momentPosition (.inl ⟨.inl 0, i⟩)) =
            basisWitness.xi basisWitness.defaultWeights (basisWitness.outcome r) k * (1 : Matrix (Fin 2) (Fin 2) ℝ) k i := by
        intro k i
        simp only [Spec.momentRow, Bool.false_eq_true, if_false, sub_zero]
        rfl
      simp only [hrow]
      have hx0 := hx 0
      have hx1 := hx 1
      fin_cases i <;> fin_cases j <;> simp [Matrix.one_apply] <;> linarith
    · exact c.elim
    · exact c.elim
  · exact a.elim
  · exact a.elim

theorem basisWitness_jacobian (r : StepResults (Estimation.Weights (fun _ : Fin 1 ⊕ Fin 0 => Fin 2) Empty Empty) (Fin 1 → ℝ) Unit)
    (hr : r.theta = fun _ => 3) (i : Fin 2) :
    basisWitness.jacobian r (.inl (.inl ⟨.inl 0, i⟩)) (.inl 0) = ![3, 0] i ∧
      basisWitness.jacobian r (.inl (.inl ⟨.inl 0, i⟩)) (.inr (.inl 0)) = -1 / 2 := by
  have hl : levelsIndex basisWitness.data.demand = some 0 := by
    simp [levelsIndex, basisWitness, List.finRange, MomentType.isLevels]
  have hc : basisWitness.data.converts = false := by
    simp [MomentData.converts]
  constructor
  · have h : basisWitness.jacobian r (.inl (.inl ⟨.inl 0, i⟩)) (.inl 0) =
        (∑ k, (basisWitness.data.xiJacobian (basisWitness.covariances r.start.W (basisWitness.outcome r).phi)
          (ivWeights (ivWeights r.start.W)) (basisWitness.outcome r).phi ((basisWitness.outcome r).deltaJacobian.col 0)
          ((basisWitness.outcome r).costsJacobian.col 0) k + 0) * (1 : Matrix (Fin 2) (Fin 2) ℝ) k i) / (Fintype.card (Fin 2) : ℝ) := rfl
    have hx : ∀ k, basisWitness.data.xiJacobian (basisWitness.covariances r.start.W (basisWitness.outcome r).phi)
          (ivWeights (ivWeights r.start.W)) (basisWitness.outcome r).phi ((basisWitness.outcome r).deltaJacobian.col 0)
          ((basisWitness.outcome r).costsJacobian.col 0) k = (basisWitness.outcome r).deltaJacobian k 0 := by
      intro k
      unfold MomentData.xiJacobian MomentData.jacobians
      rw [hl, hc]
      rfl
    rw [h, Finset.sum_congr rfl fun k _ => by rw [hx k, (basisWitness_outcome r hr).2]]
    fin_cases i <;> simp [Matrix.one_apply]
    norm_num
  · have h : basisWitness.jacobian r (.inl (.inl ⟨.inl 0, i⟩)) (.inr (.inl 0)) =
        (∑ k : Fin 2, (-1 + 0) * (1 : Matrix (Fin 2) (Fin 2) ℝ) k i) / (Fintype.card (Fin 2) : ℝ) := rfl
    rw [h]
    simp [Matrix.one_apply]

example : IsArgsort basisWitness.ids basisWitness.sort ∧ Spec.Inverts basisWitness.invertAggregate ∧
    Spec.Inverts basisWitness.invertMoments ∧ Spec.Inverts basisWitness.invertLinear ∧ Spec.Inverts basisWitness.invertParameters ∧
    IsUnit (diagonal fun _ => 100 : Matrix (Fin 1) (Fin 1) ℝ) ∧ IsUnit (1 : Matrix Empty Empty ℝ) ∧
    IsUnit (!![1, 1; 0, 2] : Matrix (Fin 2) (Fin 2) ℝ) ∧ IsUnit basisWitness.defaultCovariances ∧
    (∃ r, r ∈ basisWitness.solve .oneStep false ⟨basisWitness.defaultWeights, fun _ => 3, ()⟩) ∧
    ∀ r ∈ basisWitness.solve .oneStep false ⟨basisWitness.defaultWeights, fun _ => 3, ()⟩,
      IsUnit (basisWitness.weightsCovariances r) ∧ Spec.Identified basisWitness r.start.W ∧
      IsUnit ((basisWitness.jacobian r)ᵀ * basisWitness.weightsForCovariances r * basisWitness.jacobian r) := by
  have hsmul : ∀ {c : Type} [Fintype c] [DecidableEq c] (x : ℝ), x ≠ 0 → IsUnit (x • (1 : Matrix c c ℝ)) := by
    intro c _ _ x hx
    refine isUnit_of_inverse _ (x⁻¹ • 1) ?_
    rw [Matrix.smul_mul, Matrix.one_mul, smul_smul, mul_inv_cancel₀ hx, one_smul]
  refine ⟨⟨by decide, by simp [basisWitness]⟩, fun S T h => Matrix.inv_eq_right_inv h, fun S T h => Matrix.inv_eq_right_inv h,
    fun S T h => Matrix.inv_eq_right_inv h, fun S T h => Matrix.inv_eq_right_inv h, ?_, isUnit_one, ?_, ?_, ?_, ?_⟩
  · rw [Matrix.isUnit_iff_isUnit_det, Matrix.det_diagonal]
    simp
  · rw [Matrix.isUnit_iff_isUnit_det, Matrix.det_fin_two_of]
    norm_num
  · rw [basisWitness_default]
    exact hsmul _ (by norm_num)
  · unfold Estimation.solve gmmSolve
    rw [if_neg (by simp), gmmLoop_last _ _ _ _ _ _ (Or.inr ⟨rfl, rfl⟩)]
    exact ⟨_, List.mem_singleton_self _⟩
  · intro r hr
    obtain ⟨hW, ht⟩ := basisWitness_steps r hr
    refine ⟨?_, ?_, ?_⟩
    · rw [basisWitness_covariances r hW ht]
      exact hsmul _ (by norm_num)
    · intro s theta o _
      rw [hW, basisWitness_information]
      exact hsmul _ (by norm_num)
    · have hf : basisWitness.weightsForCovariances r = basisWitness.defaultWeights := hW
      rw [hf, basisWitness_weights]
      refine isUnit_of_inverse _ (Matrix.of (Sum.elim (fun _ => Sum.elim (fun _ => 1 / 9) (Sum.elim (fun _ => 1 / 3) Empty.elim))
        (Sum.elim (fun _ => Sum.elim (fun _ => 1 / 3) (Sum.elim (fun _ => 2) Empty.elim)) Empty.elim))) ?_
      have hj := basisWitness_jacobian r ht
      ext a c
      rcases a with a | a | a
      · rcases c with c | c | c
        · fin_cases a; fin_cases c
          simp [Matrix.mul_apply, Fintype.sum_sum_type, basisWitness_sum, hj]
          norm_num
        · fin_cases a; fin_cases c
          simp [Matrix.mul_apply, Fintype.sum_sum_type, basisWitness_sum, hj]
          norm_num
        · exact c.elim
      · rcases c with c | c | c
        · fin_cases a; fin_cases c
          simp [Matrix.mul_apply, Fintype.sum_sum_type, basisWitness_sum, hj]
          norm_num
        · fin_cases a; fin_cases c
          simp [Matrix.mul_apply, Fintype.sum_sum_type, basisWitness_sum, hj]
          norm_num
        · exact c.elim
      · exact a.elim

end Witness

end Pyblp
