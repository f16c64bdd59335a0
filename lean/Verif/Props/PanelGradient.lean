import Verif.Props.MomentsJacobian
import Mathlib.LinearAlgebra.Matrix.NonsingularInverse
import Mathlib.Analysis.Calculus.Deriv.Inv
import Mathlib.Analysis.Calculus.FDeriv.Mul

set_option linter.unusedSectionVars false

/-!
# The gradient with moments of different types (C94)
-/

namespace Pyblp

open Matrix Filter Topology

/-! ## Differentiability of inverses -/

section Inverse

variable {k : Type} [Fintype k] [DecidableEq k]

theorem differentiableAt_det (A : ℝ → Matrix k k ℝ) (t : ℝ) (hA : ∀ i j, DifferentiableAt ℝ (fun s => A s i j) t) :
    DifferentiableAt ℝ (fun s => (A s).det) t := by
  simp only [Matrix.det_apply]
  refine DifferentiableAt.fun_sum fun σ _ => ?_
  refine DifferentiableAt.fun_const_smul ?_ _
  exact DifferentiableAt.fun_finsetProd fun i _ => hA _ _

theorem differentiableAt_adjugate (A : ℝ → Matrix k k ℝ) (t : ℝ) (hA : ∀ i j, DifferentiableAt ℝ (fun s => A s i j) t) (i j : k) :
    DifferentiableAt ℝ (fun s => (A s).adjugate i j) t := by
  simp only [Matrix.adjugate_apply]
  refine differentiableAt_det _ t fun a c => ?_
  by_cases h : a = j
  · subst h
    simp only [Matrix.updateRow_self]
    exact differentiableAt_const _
  · simp only [Matrix.updateRow_ne h]
    exact hA a c

/-- Entries of the inverse of a matrix that is invertible along a path are differentiable where those of the matrix are. -/
theorem differentiableAt_inverse (A C : ℝ → Matrix k k ℝ) (t : ℝ) (hA : ∀ i j, DifferentiableAt ℝ (fun s => A s i j) t)
    (hC : ∀ᶠ s in 𝓝 t, A s * C s = 1) (i j : k) : DifferentiableAt ℝ (fun s => C s i j) t := by
  have hdet : (A t).det ≠ 0 := by
    have := hC.self_of_nhds
    intro h
    have h2 := congrArg Matrix.det this
    rw [Matrix.det_mul, h, zero_mul, Matrix.det_one] at h2
    exact zero_ne_one h2
  have h : DifferentiableAt ℝ (fun s => (A s).det⁻¹ * (A s).adjugate i j) t :=
    (DifferentiableAt.fun_inv (differentiableAt_det A t hA) hdet).fun_mul (differentiableAt_adjugate A t hA i j)
  refine h.congr_of_eventuallyEq ?_
  filter_upwards [hC] with s hs
  have : C s = (A s)⁻¹ := (Matrix.inv_eq_right_inv hs).symm
  rw [this, Matrix.inv_def, Ring.inverse_eq_inv', Matrix.smul_apply, smul_eq_mul]

end Inverse

variable {N nd ns : ℕ} {m : Fin nd ⊕ Fin ns → Type} {q b g θ d : Type} [∀ e, Fintype (m e)] [Fintype q] [Fintype b] [Fintype g]
  [Fintype θ] [Fintype d]

/-! ## Linearity of equations -/

theorem innovation_sub {c : Type} [Fintype c] (lag : Fin N → Fin N) (x y : Fin N → ℝ) (phi cross : ℝ) (X Y : c → Fin N → ℝ) (l : c → ℝ)
    (i : Fin N) : Spec.innovation lag x phi y cross i - ∑ k, Spec.innovation lag (X k) phi (Y k) cross i * l k =
      Spec.innovation lag (fun j => x j - ∑ k, X k j * l k) phi (fun j => y j - ∑ k, Y k j * l k) cross i := by
  unfold Spec.innovation
  by_cases h : lag i = i
  · simp [h]
  · simp only [if_neg h, sub_mul, add_mul, mul_assoc, Finset.sum_sub_distrib, Finset.sum_add_distrib, ← Finset.mul_sum]
    ring

theorem differencedInnovation_sub {c : Type} [Fintype c] (lag : Fin N → Fin N) (x y : Fin N → ℝ) (phi cross : ℝ) (X Y : c → Fin N → ℝ)
    (l : c → ℝ) (i : Fin N) :
    Spec.differencedInnovation lag x phi y cross i - ∑ k, Spec.differencedInnovation lag (X k) phi (Y k) cross i * l k =
      Spec.differencedInnovation lag (fun j => x j - ∑ k, X k j * l k) phi (fun j => y j - ∑ k, Y k j * l k) cross i := by
  unfold Spec.differencedInnovation
  by_cases h : lag i = i ∨ lag (lag i) = lag i
  · simp [h]
  · simp only [if_neg h, sub_mul, Finset.sum_sub_distrib, ← innovation_sub]
    ring

theorem momentError_sub {c : Type} [Fintype c] (lag : Fin N → Fin N) (type : MomentType) (x y : Fin N → ℝ) (phi cross : ℝ)
    (X Y : c → Fin N → ℝ) (l : c → ℝ) (i : Fin N) :
    Spec.momentError lag type x phi y cross i - ∑ k, Spec.momentError lag type (X k) phi (Y k) cross i * l k =
      Spec.momentError lag type (fun j => x j - ∑ k, X k j * l k) phi (fun j => y j - ∑ k, Y k j * l k) cross i := by
  rcases type with _ | t
  · rfl
  · cases t
    · exact innovation_sub ..
    · exact differencedInnovation_sub ..

/-- Errors of moments are those of the structural errors. -/
theorem equations_sub (M : MomentData N nd ns m q b g) (phi : Fin 2 → Fin 2 → ℝ) (delta costs : Fin N → ℝ) (l : b ⊕ g → ℝ)
    (e : Fin nd ⊕ Fin ns) (i : Fin N) : M.equations phi delta costs e i - ∑ c, M.regressors phi e i c * l c =
      M.equations phi (Spec.unobserved M.X1 delta fun k => l (.inl k)) (Spec.unobserved M.X3 costs fun k => l (.inr k)) e i := by
  have h1 : (fun j => delta j - ∑ c, M.extendedX1 c j * l c) = Spec.unobserved M.X1 delta fun k => l (.inl k) := by
    funext j
    simp [Spec.unobserved, MomentData.extendedX1]
  have h3 : (fun j => costs j - ∑ c, M.extendedX3 c j * l c) = Spec.unobserved M.X3 costs fun k => l (.inr k) := by
    funext j
    simp [Spec.unobserved, MomentData.extendedX3]
  simp only [MomentData.regressors, equations_eq]
  rcases e with e | e
  · simp only [Sum.elim_inl]
    rw [momentError_sub, h1]
    congr 1
    cases M.hasSupply
    · funext j
      simp
    · simpa using h3
  · simp only [Sum.elim_inr]
    rw [momentError_sub, h1, h3]

theorem residuals_eq (M : MomentData N nd ns m q b g) (C : Matrix (b ⊕ g) (b ⊕ g) ℝ) (W : Matrix (MomentIndex m) (MomentIndex m) ℝ)
    (phi : Fin 2 → Fin 2 → ℝ) (delta costs : Fin N → ℝ) :
    M.residuals C W phi delta costs = M.equations phi (M.xi C W phi delta costs) (M.omega C W phi delta costs) := by
  funext e i
  rw [xi_eq, omega_eq, ← equations_sub]
  rfl

theorem meanMoments_eq (M : MomentData N nd ns m q b g) (C : Matrix (b ⊕ g) (b ⊕ g) ℝ) (W : Matrix (MomentIndex m) (MomentIndex m) ℝ)
    (phi : Fin 2 → Fin 2 → ℝ) (delta costs : Fin N → ℝ) (mean : ℝ) (micro : d → ℝ) :
    M.meanMoments (M.residuals C W phi delta costs) (M.xi C W phi delta costs) (M.omega C W phi delta costs) mean micro =
      Spec.averagedMoments M phi (M.xi C W phi delta costs) (M.omega C W phi delta costs) mean micro := by
  funext r
  rw [averagedMoments_eq, residuals_eq]

/-- Factor by which the objective is scaled. -/
def Spec.objectiveScale (N : ℕ) (scale : Bool) : ℝ := if scale then (N : ℝ) else 1

/-- The objective as a function of theta: the weighted quadratic form of averaged moments at theta and linear parameters that are
concentrated out given theta, with `C` the inverse of `X'ZWZ'X`, which depends on theta if `phi` does. -/
noncomputable def Spec.concentratedObjective (M : MomentData N nd ns m q b g) (scale : Bool)
    (W : Matrix ((MomentIndex m ⊕ q) ⊕ d) ((MomentIndex m ⊕ q) ⊕ d) ℝ) (delta costs : (θ → ℝ) → Fin N → ℝ)
    (phi : (θ → ℝ) → Fin 2 → Fin 2 → ℝ) (mean : ℝ) (micro : (θ → ℝ) → d → ℝ) (C : (θ → ℝ) → Matrix (b ⊕ g) (b ⊕ g) ℝ)
    (theta : θ → ℝ) : ℝ :=
  Spec.objectiveScale N scale * Spec.quadratic W (Spec.parametricMoments M delta costs phi mean micro
    (reportedParameters M (C theta) (ivWeights (ivWeights W)) (phi theta) (delta theta) (costs theta) theta))

/-- **C94.** The reported objective is the weighted quadratic form of averaged moments at theta and the linear parameters that are
concentrated out given theta, whichever types moments have. -/
theorem C94_objective (M : MomentData N nd ns m q b g) (scale : Bool) (C : (θ → ℝ) → Matrix (b ⊕ g) (b ⊕ g) ℝ)
    (W : Matrix ((MomentIndex m ⊕ q) ⊕ d) ((MomentIndex m ⊕ q) ⊕ d) ℝ) (delta costs : (θ → ℝ) → Fin N → ℝ)
    (phi : (θ → ℝ) → Fin 2 → Fin 2 → ℝ) (mean : ℝ) (micro : (θ → ℝ) → d → ℝ) (theta : θ → ℝ) :
    M.objective scale (C theta) W (phi theta) (delta theta) (costs theta) mean (micro theta) =
      Spec.concentratedObjective M scale W delta costs phi mean micro C theta := by
  unfold MomentData.objective gmmObjective Spec.concentratedObjective Spec.objectiveScale
  simp only [quadratic_eq, meanMoments_eq]
  rw [xi_eq, omega_eq]
  rfl

/-! ## Differentiability of linear parameters -/

theorem differentiableAt_linearParameters [DecidableEq b] [DecidableEq g] (M : MomentData N nd ns m q b g)
    (W : Matrix (MomentIndex m) (MomentIndex m) ℝ) {phi : ℝ → Fin 2 → Fin 2 → ℝ} {delta costs : ℝ → Fin N → ℝ}
    {C : ℝ → Matrix (b ⊕ g) (b ⊕ g) ℝ} {delta' costs' : Fin N → ℝ} {t : ℝ} (location : Option (Fin 2 × Fin 2))
    (hdelta : ∀ i, HasDerivAt (fun s => delta s i) (delta' i) t) (hcosts : ∀ i, HasDerivAt (fun s => costs s i) (costs' i) t)
    (hphi : ∀ r c, HasDerivAt (fun s => phi s r c) (if location = some (r, c) then 1 else 0) t)
    (hsupply : M.hasSupply = false → ∀ l, location = some l → l = (0, 0))
    (hC : ∀ᶠ s in 𝓝 t, ivCovariancesInverse (M.regressors (phi s)) M.Z W * C s = 1) (c : b ⊕ g) :
    DifferentiableAt ℝ (fun s => M.linearParameters (C s) W (phi s) (delta s) (costs s) c) t := by
  have hX : ∀ e i c, DifferentiableAt ℝ (fun s => M.regressors (phi s) e i c) t := fun e i c =>
    (hasDerivAt_equations M (xi := fun _ => M.extendedX1 c) (omega := fun _ => M.extendedX3 c) location
      (fun i => hasDerivAt_const _ _) (fun i => hasDerivAt_const _ _) hphi hsupply e i).differentiableAt
  have hP : ∀ a c, DifferentiableAt ℝ (fun s => ivP (M.regressors (phi s)) M.Z a c) t := by
    intro a c
    simp only [ivP_apply]
    exact DifferentiableAt.fun_sum fun i _ => (hX _ _ _).const_mul _
  have hV : ∀ a, DifferentiableAt ℝ (fun s => ivV M.Z (M.equations (phi s) (delta s) (costs s)) a) t := by
    intro a
    simp only [ivV_apply]
    exact DifferentiableAt.fun_sum fun i _ =>
      (hasDerivAt_equations M location hdelta hcosts hphi hsupply a.1 i).differentiableAt.const_mul _
  have hA : ∀ i j, DifferentiableAt ℝ (fun s => ivCovariancesInverse (M.regressors (phi s)) M.Z W i j) t := by
    intro i j
    simp only [ivCovariancesInverse_eq, Matrix.mul_apply, Matrix.transpose_apply]
    exact DifferentiableAt.fun_sum fun a _ => (DifferentiableAt.fun_sum fun a' _ => (hP _ _).mul_const _).fun_mul (hP _ _)
  have hCd := differentiableAt_inverse _ C t hA hC
  simp only [MomentData.linearParameters, ivParameters_eq, mulVec, dotProduct, Matrix.mul_apply, Matrix.transpose_apply]
  exact DifferentiableAt.fun_sum fun a _ => (DifferentiableAt.fun_sum fun a' _ =>
    (DifferentiableAt.fun_sum fun c' _ => (hCd _ _).fun_mul (hP _ _)).mul_const _).fun_mul (hV a)

/-! ## The gradient without covariance moments -/

/-- The envelope argument: changes in moments through linear parameters do not change the objective. -/
theorem envelope [IsEmpty q] [DecidableEq b] [DecidableEq g] (M : MomentData N nd ns m q b g)
    (W : Matrix ((MomentIndex m ⊕ q) ⊕ d) ((MomentIndex m ⊕ q) ⊕ d) ℝ) (hcross : ∀ a c, W (Sum.inl a) (Sum.inr c) = 0)
    (C : Matrix (b ⊕ g) (b ⊕ g) ℝ) (phi : Fin 2 → Fin 2 → ℝ) (delta costs : Fin N → ℝ) (mean : ℝ) (micro : d → ℝ)
    (hC : ivCovariancesInverse (M.regressors phi) M.Z (ivWeights (ivWeights W)) * C = 1) (l : b ⊕ g → ℝ) :
    concat (concat (gmmMomentsJacobianMean (fun e i => ∑ c, M.regressors phi e i c * l c) M.Z) (0 : q → ℝ)) (0 : d → ℝ) ⬝ᵥ
      (W *ᵥ M.meanMoments (M.residuals C (ivWeights (ivWeights W)) phi delta costs) (M.xi C (ivWeights (ivWeights W)) phi delta costs)
        (M.omega C (ivWeights (ivWeights W)) phi delta costs) mean micro) = 0 := by
  have hJ : gmmMomentsJacobianMean (fun e i => ∑ c, M.regressors phi e i c * l c) M.Z = (1 / (N : ℝ)) • (ivP (M.regressors phi) M.Z *ᵥ l) := by
    rw [jacobian_moments]
    congr 1
    funext a
    rw [ivV_apply]
    simp only [mulVec, dotProduct, ivP_apply, Finset.mul_sum, Finset.sum_mul]
    rw [Finset.sum_comm]
    simp only [mul_assoc]
  have hn := normal_equations C (M.regressors phi) M.Z (ivWeights (ivWeights W)) (M.equations phi delta costs) hC
  have hr : gmmMomentsMean (M.residuals C (ivWeights (ivWeights W)) phi delta costs) M.Z =
      (1 / (N : ℝ)) • (ivV M.Z (M.equations phi delta costs) -
        ivP (M.regressors phi) M.Z *ᵥ ivParameters C (M.regressors phi) M.Z (ivWeights (ivWeights W)) (M.equations phi delta costs)) := by
    unfold MomentData.residuals
    rw [residuals_moments, ivParameters_eq]
  unfold MomentData.meanMoments
  set r := gmmMomentsMean (M.residuals C (ivWeights (ivWeights W)) phi delta costs) M.Z with hrdef
  set z := gmmMomentsMean (ε := Unit) (m := fun _ => q) (fun _ i => M.xi C (ivWeights (ivWeights W)) phi delta costs i *
    M.omega C (ivWeights (ivWeights W)) phi delta costs i - mean) (fun _ => M.ZC)
  have hinl : ∀ a, (W *ᵥ concat (concat r fun c => z ⟨(), c⟩) micro) (Sum.inl (Sum.inl a)) = (ivWeights (ivWeights W) *ᵥ r) a := by
    intro a
    unfold mulVec dotProduct
    rw [Fintype.sum_sum_type, Fintype.sum_sum_type]
    simp [concat, hcross, ivWeights]
  have : concat (concat ((1 / (N : ℝ)) • (ivP (M.regressors phi) M.Z *ᵥ l)) (0 : q → ℝ)) (0 : d → ℝ) ⬝ᵥ
      (W *ᵥ concat (concat r fun c => z ⟨(), c⟩) micro) =
      ((1 / (N : ℝ)) • (ivP (M.regressors phi) M.Z *ᵥ l)) ⬝ᵥ (ivWeights (ivWeights W) *ᵥ r) := by
    unfold dotProduct
    rw [Fintype.sum_sum_type, Fintype.sum_sum_type]
    simp only [concat, Sum.elim_inl, Sum.elim_inr, Pi.zero_apply, zero_mul, Finset.sum_const_zero, add_zero]
    exact Finset.sum_congr rfl fun a _ => by
      have := hinl a
      simp only [concat] at this
      rw [this]
  rw [hJ, this, smul_dotProduct, dotProduct_comm, Matrix.dotProduct_mulVec, ← Matrix.mulVec_transpose, Matrix.mulVec_mulVec,
    hr, Matrix.mulVec_smul, hn, smul_zero, zero_dotProduct, smul_zero]

variable [DecidableEq θ] [DecidableEq b] [DecidableEq g]

theorem jacobianMean_add {ε n : Type} {m : ε → Type} [Fintype n] (x y : ε → n → ℝ) (Z : (e : ε) → Matrix n (m e) ℝ) :
    gmmMomentsJacobianMean (fun e i => x e i + y e i) Z = gmmMomentsJacobianMean x Z + gmmMomentsJacobianMean y Z := by
  funext c
  simp only [gmmMomentsJacobianMean, Pi.add_apply, add_mul, Finset.sum_add_distrib, add_div]

/-- **C94, without covariance moments.** If the weighting matrix has no weight on products of aggregate and micro moments, the gradient
computed with analytic Jacobians is the derivative of the objective with respect to each parameter, elements of `phi` included, although
Jacobians treat linear parameters as fixed, and although the regression in which they are concentrated out changes with `phi`.
Missing: weight on such products (`C75_refuted`), and `finite_differences` with estimated elements of `phi` (`C94_refuted`). -/
theorem C94_gradient_partial [IsEmpty q] (M : MomentData N nd ns m q b g) (scale : Bool)
    (W : Matrix ((MomentIndex m ⊕ q) ⊕ d) ((MomentIndex m ⊕ q) ⊕ d) ℝ) (hW : ∀ a c, W a c = W c a)
    (hcross : ∀ a c, W (Sum.inl a) (Sum.inr c) = 0) (delta costs : (θ → ℝ) → Fin N → ℝ) (phi : (θ → ℝ) → Fin 2 → Fin 2 → ℝ)
    (mean : ℝ) (micro : (θ → ℝ) → d → ℝ) (location : θ → Option (Fin 2 × Fin 2)) (C : (θ → ℝ) → Matrix (b ⊕ g) (b ⊕ g) ℝ)
    (theta : θ → ℝ) (delta' costs' : Matrix (Fin N) θ ℝ) (micro' : Matrix d θ ℝ) (p : θ)
    (hdelta : ∀ i, HasDerivAt (fun s => delta (Function.update theta p s) i) (delta' i p) (theta p))
    (hcosts : ∀ i, HasDerivAt (fun s => costs (Function.update theta p s) i) (costs' i p) (theta p))
    (hmicro : ∀ c, HasDerivAt (fun s => micro (Function.update theta p s) c) (micro' c p) (theta p))
    (hphi : Spec.IsPhi location phi) (hsupply : M.hasSupply = false → ∀ p l, location p = some l → l = (0, 0))
    (hC : ∀ᶠ s in 𝓝 (theta p), ivCovariancesInverse (M.regressors (phi (Function.update theta p s))) M.Z (ivWeights (ivWeights W)) *
      C (Function.update theta p s) = 1) :
    HasDerivAt (fun s => Spec.concentratedObjective M scale W delta costs phi mean micro C (Function.update theta p s))
      (M.gradient true scale (C theta) W (phi theta) (delta theta) (costs theta) (delta'.col p) (costs'.col p) mean (location p)
        (micro theta) (micro'.col p)) (theta p) := by
  set ivW := ivWeights (ivWeights W) with hivW
  have hpath := phi_path hphi theta p
  have hdiff := differentiableAt_linearParameters M ivW (location p) hdelta hcosts hpath (fun h => hsupply h p) hC
  set l' := fun c => deriv (fun s => M.linearParameters (C (Function.update theta p s)) ivW (phi (Function.update theta p s))
    (delta (Function.update theta p s)) (costs (Function.update theta p s)) c) (theta p) with hl'
  have hl : ∀ c, HasDerivAt (fun s => M.linearParameters (C (Function.update theta p s)) ivW (phi (Function.update theta p s))
    (delta (Function.update theta p s)) (costs (Function.update theta p s)) c) (l' c) (theta p) := fun c => (hdiff c).hasDerivAt
  have hxi : ∀ i, HasDerivAt (fun s => M.xi (C (Function.update theta p s)) ivW (phi (Function.update theta p s))
      (delta (Function.update theta p s)) (costs (Function.update theta p s)) i)
      (Spec.unobserved M.X1 (delta'.col p) (fun k => l' (.inl k)) i) (theta p) := by
    intro i
    simp only [xi_eq]
    exact (hdelta i).sub (HasDerivAt.fun_sum fun k _ => (hl (.inl k)).const_mul _)
  have homega : ∀ i, HasDerivAt (fun s => M.omega (C (Function.update theta p s)) ivW (phi (Function.update theta p s))
      (delta (Function.update theta p s)) (costs (Function.update theta p s)) i)
      (Spec.unobserved M.X3 (costs'.col p) (fun k => l' (.inr k)) i) (theta p) := by
    intro i
    simp only [omega_eq]
    exact (hcosts i).sub (HasDerivAt.fun_sum fun k _ => (hl (.inr k)).const_mul _)
  have hg := hasDerivAt_averaged M mean (location p) hxi homega hpath hmicro (fun h => hsupply h p)
  have hconv : M.converts = false := by simp [MomentData.converts]
  simp only [← C94_objective]
  unfold MomentData.objective MomentData.gradient gmmObjective gmmGradient
  simp only [meanMoments_eq, ← hivW]
  refine HasDerivAt.const_mul _ ((hasDerivAt_quadratic W hW _ _ _ hg).congr_deriv ?_)
  simp only [Function.update_eq_self]
  congr 1
  rw [← sub_eq_zero, ← sub_dotProduct]
  have hsplit : M.progressJacobian true (C theta) ivW (phi theta) (delta theta) (costs theta) (delta'.col p) (costs'.col p) (location p)
      (micro'.col p) = concat (concat (gmmMomentsJacobianMean (fun e i => M.equations (phi theta)
          (Spec.unobserved M.X1 (delta'.col p) fun k => l' (.inl k)) (Spec.unobserved M.X3 (costs'.col p) fun k => l' (.inr k)) e i +
          M.phiContribution (location p) (M.xi (C theta) ivW (phi theta) (delta theta) (costs theta))
            (M.omega (C theta) ivW (phi theta) (delta theta) (costs theta)) e i) M.Z)
        (gmmMomentsJacobianMean (ε := Unit) (m := fun _ => q) (fun _ i => Spec.unobserved M.X1 (delta'.col p) (fun k => l' (.inl k)) i *
          M.omega (C theta) ivW (phi theta) (delta theta) (costs theta) i +
          M.xi (C theta) ivW (phi theta) (delta theta) (costs theta) i *
            Spec.unobserved M.X3 (costs'.col p) (fun k => l' (.inr k)) i) (fun _ => M.ZC) ⟨(), ·⟩)) (fun c => micro' c p) +
      concat (concat (gmmMomentsJacobianMean (fun e i => ∑ c, M.regressors (phi theta) e i c * l' c) M.Z) (0 : q → ℝ)) (0 : d → ℝ) := by
    funext r
    rcases r with (r | r) | r
    · simp only [MomentData.progressJacobian, MomentData.jacobians, hconv, concat, Pi.add_apply, Sum.elim_inl, if_true,
        Bool.false_eq_true, if_false, ← equations_sub]
      rw [← Pi.add_apply, ← jacobianMean_add]
      congr 1
      funext e i
      ring
    · exact isEmptyElim r
    · simp [MomentData.progressJacobian, concat]
  rw [hsplit, sub_add_cancel_left, neg_dotProduct, ← meanMoments_eq]
  have := envelope M W hcross (C theta) (phi theta) (delta theta) (costs theta) mean (micro theta)
    (by simpa using hC.self_of_nhds) l'
  rw [this, neg_zero]

/-- **C94, with covariance moments.** The gradient is the derivative of the objective for every weighting matrix, because Jacobians
account for how linear parameters respond. -/
theorem C94_covariance_moments [Nonempty q] [NeZero nd] [NeZero ns] (M : MomentData N nd ns m q b g) (analytic scale : Bool)
    (hdemand : ∀ e, M.demand e = .levels) (hlevels : ∀ e, M.supply e = .levels)
    (W : Matrix ((MomentIndex m ⊕ q) ⊕ d) ((MomentIndex m ⊕ q) ⊕ d) ℝ) (hW : ∀ a c, W a c = W c a)
    (delta costs : (θ → ℝ) → Fin N → ℝ) (phi : Fin 2 → Fin 2 → ℝ) (mean : ℝ) (micro : (θ → ℝ) → d → ℝ)
    (location : θ → Option (Fin 2 × Fin 2)) (C : Matrix (b ⊕ g) (b ⊕ g) ℝ)
    (theta : θ → ℝ) (delta' costs' : Matrix (Fin N) θ ℝ) (micro' : Matrix d θ ℝ) (p : θ)
    (hdelta : ∀ p i, HasDerivAt (fun s => delta (Function.update theta p s) i) (delta' i p) (theta p))
    (hcosts : ∀ p i, HasDerivAt (fun s => costs (Function.update theta p s) i) (costs' i p) (theta p))
    (hmicro : ∀ p c, HasDerivAt (fun s => micro (Function.update theta p s) c) (micro' c p) (theta p)) :
    HasDerivAt (fun s => Spec.concentratedObjective M scale W delta costs (fun _ => phi) mean micro (fun _ => C)
        (Function.update theta p s))
      (M.gradient analytic scale C W phi (delta theta) (costs theta) (delta'.col p) (costs'.col p) mean (location p)
        (micro theta) (micro'.col p)) (theta p) := by
  have hg := fun r => C93_total M hdemand hlevels delta costs phi mean micro location theta delta' costs' micro' hdelta hcosts hmicro C
    (ivWeights (ivWeights W)) r p
  unfold Spec.concentratedObjective MomentData.gradient gmmGradient Spec.objectiveScale
  simp only [quadratic_eq]
  refine HasDerivAt.const_mul _ ((hasDerivAt_quadratic W hW _ _ _ hg).congr_deriv ?_)
  simp only [Function.update_eq_self, meanMoments_eq]
  have hconv : M.converts = true := by simp [MomentData.converts, Fintype.card_pos]
  have hphi : ∀ l xi omega e, M.phiContribution l xi omega e = 0 := by
    intro l xi omega e
    rcases l with _ | l
    · rfl
    · rcases e with e | e <;> simp [MomentData.phiContribution, hdemand, hlevels]
  have h1 : (fun r => M.momentsJacobian C (ivWeights (ivWeights W)) phi (delta theta) (costs theta) delta' costs' location micro' r
      (.inl p)) = M.progressJacobian analytic C (ivWeights (ivWeights W)) phi (delta theta) (costs theta) (delta'.col p) (costs'.col p)
        (location p) (micro'.col p) := by
    obtain ⟨e1, he1⟩ := levelsIndex_of_all hdemand
    obtain ⟨e3, he3⟩ := levelsIndex_of_all hlevels
    have hj : ∀ e, M.jacobians C (ivWeights (ivWeights W)) phi (delta'.col p) (costs'.col p) e = e.elim
        (fun _ => M.xiJacobian C (ivWeights (ivWeights W)) phi (delta'.col p) (costs'.col p))
        (fun _ => M.omegaJacobian C (ivWeights (ivWeights W)) phi (delta'.col p) (costs'.col p)) := by
      intro e
      have hres : M.jacobians C (ivWeights (ivWeights W)) phi (delta'.col p) (costs'.col p) =
          M.residuals C (ivWeights (ivWeights W)) phi (delta'.col p) (costs'.col p) := by
        simp only [MomentData.jacobians, hconv, if_true, ivJacobian_eq, MomentData.residuals]
      rw [hres, residuals_eq, xiJacobian_converted M hdemand, omegaJacobian_converted M hlevels, xi_eq, omega_eq]
      rcases e with e | e <;> simp [MomentData.equations, hdemand, hlevels]
    funext r
    rcases r with (⟨e | e, c⟩ | c) | c
    · simp [MomentData.momentsJacobian, MomentData.meanG, MomentData.progressJacobian, hphi, hj, concat, gmmMomentsJacobianMean,
        MomentData.equations, hdemand, MomentData.reportedXi]
    · simp [MomentData.momentsJacobian, MomentData.meanG, MomentData.progressJacobian, hphi, hj, concat, gmmMomentsJacobianMean,
        MomentData.equations, hlevels, MomentData.reportedOmega]
    · rfl
    · rfl
  rw [h1, xi_eq, omega_eq]
  rfl

/-- **C94, finite differences.** Without estimated elements of `phi`, the gradient does not depend on how its Jacobians were computed. -/
theorem C94_finite_differences (M : MomentData N nd ns m q b g) (scale : Bool) (C : Matrix (b ⊕ g) (b ⊕ g) ℝ)
    (W : Matrix ((MomentIndex m ⊕ q) ⊕ d) ((MomentIndex m ⊕ q) ⊕ d) ℝ) (phi : Fin 2 → Fin 2 → ℝ)
    (delta costs delta' costs' : Fin N → ℝ) (mean : ℝ) (micro micro' : d → ℝ) :
    M.gradient false scale C W phi delta costs delta' costs' mean none micro micro' =
      M.gradient true scale C W phi delta costs delta' costs' mean none micro micro' := by
  unfold MomentData.gradient MomentData.progressJacobian
  simp [MomentData.phiContribution]

theorem equations_zero (M : MomentData N nd ns m q b g) (phi : Fin 2 → Fin 2 → ℝ) (e : Fin nd ⊕ Fin ns) (i : Fin N) :
    M.equations phi (fun _ => 0) (fun _ => 0) e i = 0 := by
  rw [equations_eq]
  rcases e with e | e
  · simp only [Sum.elim_inl]
    rcases M.demand e with _ | t
    · rfl
    · cases t <;> cases M.hasSupply <;> simp [Spec.momentError, Spec.innovation, Spec.differencedInnovation]
  · simp only [Sum.elim_inr]
    rcases M.supply e with _ | t
    · rfl
    · cases t <;> simp [Spec.momentError, Spec.innovation, Spec.differencedInnovation]

/-- **C94, `phi` with finite differences.** The reported derivative of the objective with respect to a parameter on which mean utilities,
costs and micro moments do not depend, such as every element of `phi`, is zero. -/
theorem C94_phi_ignored [IsEmpty q] (M : MomentData N nd ns m q b g) (scale : Bool) (C : Matrix (b ⊕ g) (b ⊕ g) ℝ)
    (W : Matrix ((MomentIndex m ⊕ q) ⊕ d) ((MomentIndex m ⊕ q) ⊕ d) ℝ) (phi : Fin 2 → Fin 2 → ℝ) (delta costs : (θ → ℝ) → Fin N → ℝ)
    (mean : ℝ) (micro : (θ → ℝ) → d → ℝ) (location : θ → Option (Fin 2 × Fin 2)) (theta : θ → ℝ) (epsilon : ℝ) (p : θ)
    (hdelta : ∀ s, delta (Function.update theta p s) = delta theta) (hcosts : ∀ s, costs (Function.update theta p s) = costs theta)
    (hmicro : ∀ s, micro (Function.update theta p s) = micro theta) :
    M.differencedGradient scale C W phi delta costs mean micro location theta epsilon p = 0 := by
  have h1 : (fun i => computeFiniteDifferences delta theta epsilon i p) = fun _ => 0 := by
    funext i
    simp [computeFiniteDifferences, bump, hdelta]
  have h2 : (fun i => computeFiniteDifferences costs theta epsilon i p) = fun _ => 0 := by
    funext i
    simp [computeFiniteDifferences, bump, hcosts]
  have h3 : (fun i => computeFiniteDifferences micro theta epsilon i p) = fun _ => 0 := by
    funext i
    simp [computeFiniteDifferences, bump, hmicro]
  have hconv : M.converts = false := by simp [MomentData.converts]
  unfold MomentData.differencedGradient MomentData.gradient
  rw [h1, h2, h3]
  have : M.progressJacobian false C (ivWeights (ivWeights W)) phi (delta theta) (costs theta) (fun _ => 0) (fun _ => 0) (location p)
      (fun _ => 0) = (0 : (MomentIndex m ⊕ q) ⊕ d → ℝ) := by
    funext r
    rcases r with (r | r) | r
    · simp [MomentData.progressJacobian, concat, gmmMomentsJacobianMean, MomentData.jacobians, hconv, equations_zero]
    · exact isEmptyElim r
    · rfl
  simp only [this, gmmGradient, zero_dotProduct, mul_zero]

/-! ### The counterexample -/

/-- One product in three periods with a constant, a moment in innovations and two instruments. -/
def seriesWitness : MomentData 3 1 0 (fun _ => Fin 2) Empty Unit Empty where
  lag := ![0, 0, 1]
  demand := fun _ => .difference .innovations
  supply := Fin.elim0
  hasSupply := false
  Z := fun _ => Matrix.of fun i j => ![![0, 0], ![1, 0], ![0, 1]] i j
  ZC := Matrix.of fun _ c => c.elim
  X1 := Matrix.of fun _ _ => 1
  X3 := Matrix.of fun _ c => c.elim

/-- `(X'ZWZ'X)⁻¹` of the counterexample, in which `W` is the identity. -/
noncomputable def seriesInverse (theta : Unit → ℝ) : Matrix (Unit ⊕ Empty) (Unit ⊕ Empty) ℝ := (1 / (2 * (1 - theta ()) ^ 2)) • 1

theorem series_inverse (theta : Unit → ℝ) (h : theta () ≠ 1) :
    ivCovariancesInverse (seriesWitness.regressors (panelPhi theta)) seriesWitness.Z 1 * seriesInverse theta = 1 := by
  have h1 : 1 - theta () ≠ 0 := sub_ne_zero.2 (Ne.symm h)
  ext a c
  rcases a with a | a
  · rcases c with c | c
    · rw [ivCovariancesInverse_eq, Matrix.mul_one]
      simp only [Matrix.mul_apply, Matrix.transpose_apply, ivP_apply, seriesInverse, Matrix.smul_apply]
      simp [seriesWitness, MomentData.regressors, MomentData.equations, MomentData.extendedX1,
        computeDifference, hasLag, panelPhi, Fintype.sum_sigma, Fin.sum_univ_three, Fin.sum_univ_two]
      field_simp
      norm_num
    · exact c.elim
  · exact a.elim

/-- The linear parameter of the counterexample. -/
theorem series_parameters (delta costs : Fin 3 → ℝ) (k : Unit) :
    seriesWitness.linearParameters (seriesInverse fun _ => 1 / 2) 1 (panelPhi fun _ => 1 / 2) delta costs (.inl k) =
      (delta 1 - delta 0 / 2) + (delta 2 - delta 1 / 2) := by
  rw [MomentData.linearParameters, ivParameters_eq, Matrix.mul_one]
  simp only [mulVec, dotProduct, Matrix.mul_apply, Matrix.transpose_apply, ivP_apply, ivV_apply, seriesInverse, Matrix.smul_apply]
  simp [seriesWitness, MomentData.regressors, MomentData.equations, MomentData.extendedX1,
    computeDifference, hasLag, panelPhi, Fintype.sum_sigma, Fin.sum_univ_three, Fin.sum_univ_two]
  ring

theorem panelPhi_isPhi : Spec.IsPhi (fun _ : Unit => some (0, 0)) panelPhi := by
  refine ⟨fun p l h theta => by simp at h; subst h; rfl, fun l h => ?_⟩
  have := h ()
  intro theta theta'
  simp only [panelPhi]
  rw [if_neg, if_neg] <;>
  · rintro ⟨h1, h2⟩
    exact this (by rw [← Prod.mk.eta (p := l), h1, h2])

/-- **C94, refutation.** With `finite_differences` and an estimated autocorrelation of `1 / 2`, the derivative of this objective with
respect to the autocorrelation is `1 / 18`, and `0` is reported whatever the differences are. -/
theorem C94_refuted : ∃ (M : MomentData 3 1 0 (fun _ => Fin 2) Empty Unit Empty) (delta costs : (Unit → ℝ) → Fin 3 → ℝ)
    (phi : (Unit → ℝ) → Fin 2 → Fin 2 → ℝ) (C : (Unit → ℝ) → Matrix (Unit ⊕ Empty) (Unit ⊕ Empty) ℝ) (theta : Unit → ℝ),
    Spec.IsPhi (fun _ => some (0, 0)) phi ∧
    (∀ᶠ s in 𝓝 (theta ()), ivCovariancesInverse (M.regressors (phi (Function.update theta () s))) M.Z 1 *
      C (Function.update theta () s) = 1) ∧
    HasDerivAt (fun s => Spec.concentratedObjective M false 1 delta costs phi 0 (fun _ => (Empty.elim : Empty → ℝ)) C
      (Function.update theta () s)) (1 / 18) (theta ()) ∧
    ∀ epsilon, M.differencedGradient false (C theta) 1 (phi theta) delta costs 0 (fun _ => (Empty.elim : Empty → ℝ))
      (fun _ => some (0, 0)) theta epsilon () = 0 := by
  have hiv : ivWeights (ivWeights (1 : Matrix ((MomentIndex (fun _ : Fin 1 ⊕ Fin 0 => Fin 2) ⊕ Empty) ⊕ Empty) _ ℝ)) = 1 := by
    ext a c
    simp [ivWeights, Matrix.one_apply]
  have hC : ∀ᶠ s in 𝓝 (1 / 2 : ℝ), ivCovariancesInverse (seriesWitness.regressors
      (panelPhi (Function.update (fun _ : Unit => (1 / 2 : ℝ)) () s))) seriesWitness.Z 1 *
        seriesInverse (Function.update (fun _ => 1 / 2) () s) = 1 := by
    filter_upwards [eventually_ne_nhds (show (1 / 2 : ℝ) ≠ 1 by norm_num)] with s hs
    exact series_inverse _ (by simpa using hs)
  refine ⟨seriesWitness, fun _ => ![1, 0, 0], fun _ => 0, panelPhi, seriesInverse, fun _ => 1 / 2, panelPhi_isPhi, hC, ?_, ?_⟩
  · have := C94_gradient_partial seriesWitness false 1 (fun a c => by simp [Matrix.one_apply, eq_comm])
      (fun a c => c.elim) (fun _ => ![1, 0, 0]) (fun _ => 0) panelPhi 0
      (fun _ => (Empty.elim : Empty → ℝ)) (fun _ => some (0, 0)) seriesInverse (fun _ : Unit => 1 / 2) 0 0 0 ()
      (fun _ => hasDerivAt_const _ _) (fun _ => hasDerivAt_const _ _) (fun c => c.elim) panelPhi_isPhi
      (fun _ p l h => by simpa using h.symm) (by rw [hiv]; exact hC)
    refine this.congr_deriv ?_
    unfold MomentData.gradient gmmGradient
    simp only [meanMoments_eq, hiv, Matrix.one_mulVec, dotProduct, Fintype.sum_sum_type, Fintype.sum_sigma]
    simp only [MomentData.progressJacobian, xi_eq, omega_eq, series_parameters, concat]
    simp [Fin.sum_univ_two, Fin.sum_univ_three, Spec.averagedMoments, Spec.momentError, Spec.innovation, Spec.unobserved, seriesWitness,
      gmmMomentsJacobianMean, MomentData.phiContribution, computeDifferenceDerivative, MomentData.jacobians, MomentData.converts,
      MomentData.equations, computeDifference, hasLag, panelPhi]
    norm_num
  · intro epsilon
    exact C94_phi_ignored seriesWitness false _ 1 _ _ _ 0 _ _ _ epsilon () (fun _ => rfl) (fun _ => rfl) (fun _ => rfl)

end Pyblp
