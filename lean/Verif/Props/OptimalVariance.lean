import Verif.Props.Efficiency
import Verif.Props.OptimalInstruments
import Verif.Spec.Instruments
import Mathlib.Probability.Distributions.Gaussian.Real

/-!
# C141: optimal instruments give the smallest variances in large samples
-/

set_option linter.unusedSectionVars false

open MeasureTheory ProbabilityTheory Matrix

namespace Pyblp

section algebra
variable {r c p : Type} [Fintype r] [Fintype c] [Fintype p] [DecidableEq p] [DecidableEq c] [DecidableEq r]

/-- Covariances of estimates with any instruments exceed a bound. -/
lemma instruments_bound {O : Matrix r r ℝ} (hO : Spec.PSD O) (Z : Matrix r c ℝ) (X : Matrix r p ℝ) {B : Matrix p p ℝ} (hB : Xᵀ * O * X * B = 1)
    {W : Matrix c c ℝ} (hW : ∀ a b, W a b = W b a) {H : Matrix p p ℝ} (hH : (Zᵀ * O * X)ᵀ * W * (Zᵀ * O * X) * H = 1) :
    Spec.PSD (gmmParameterCovariances W (Zᵀ * O * Z) (Zᵀ * O * X) H false - B) := by
  have hWT : Wᵀ = W := by ext a b; exact hW b a
  have hOT : Oᵀ = O := by ext a b; exact hO.1 b a
  set G := Zᵀ * O * X with hG
  have hHT := inverse_symm W hWT G H hH
  have hBT := inverse_symm O hOT X B hB
  have hS : Spec.PSD (Zᵀ * O * Z) := by
    refine ⟨fun a b => ?_, fun x => ?_⟩
    · have : (Zᵀ * O * Z)ᵀ = Zᵀ * O * Z := by simp only [Matrix.transpose_mul, Matrix.transpose_transpose, hOT, Matrix.mul_assoc]
      exact congrFun (congrFun this b) a
    · rw [quadratic_eq, ← Matrix.mulVec_mulVec, ← Matrix.mulVec_mulVec, Matrix.dotProduct_mulVec, Matrix.vecMul_transpose, ← quadratic_eq]
      exact hO.2 _
  rw [(C42_sandwich_psd W _ hW hS G H hH).1]
  have hGT : Gᵀ = Xᵀ * O * Z := by
    rw [hG]
    simp only [Matrix.transpose_mul, Matrix.transpose_transpose, hOT, Matrix.mul_assoc]
  have hHG : H * Gᵀ * W * G = 1 := by
    have h1 : H * (Gᵀ * W * G) = 1 := mul_eq_one_comm.1 hH
    clear_value G
    rw [← h1]
    simp only [Matrix.mul_assoc]
  set A := Z * W * G * H - X * B with hA
  have hAT : Aᵀ = H * Gᵀ * W * Zᵀ - B * Xᵀ := by
    rw [hA, Matrix.transpose_sub]
    simp only [Matrix.transpose_mul, hWT, hHT, hBT, Matrix.mul_assoc]
  have hmain : H * Gᵀ * W * (Zᵀ * O * Z) * W * G * H - B = Aᵀ * (O * A) := by
    have e1 : H * Gᵀ * W * Zᵀ * (O * (X * B)) = B := by
      calc H * Gᵀ * W * Zᵀ * (O * (X * B)) = H * Gᵀ * W * (Zᵀ * O * X) * B := by simp only [Matrix.mul_assoc]
        _ = B := by rw [← hG, hHG, Matrix.one_mul]
    have e2 : B * Xᵀ * (O * (Z * W * G * H)) = B := by
      calc B * Xᵀ * (O * (Z * W * G * H)) = B * ((Xᵀ * O * Z) * W * G * H) := by simp only [Matrix.mul_assoc]
        _ = B := by rw [← hGT, hH, Matrix.mul_one]
    have e3 : B * Xᵀ * (O * (X * B)) = B := by
      calc B * Xᵀ * (O * (X * B)) = B * (Xᵀ * O * X * B) := by simp only [Matrix.mul_assoc]
        _ = B := by rw [hB, Matrix.mul_one]
    rw [hAT, hA, Matrix.mul_sub, Matrix.sub_mul, Matrix.mul_sub, Matrix.mul_sub, e1, e2, e3]
    simp only [Matrix.mul_assoc]
    abel
  rw [hmain]
  refine ⟨fun a b => ?_, fun x => ?_⟩
  · have : (Aᵀ * (O * A))ᵀ = Aᵀ * (O * A) := by simp only [Matrix.transpose_mul, Matrix.transpose_transpose, hOT, Matrix.mul_assoc]
    exact congrFun (congrFun this b) a
  · rw [quadratic_eq, ← Matrix.mulVec_mulVec, ← Matrix.mulVec_mulVec, Matrix.dotProduct_mulVec, Matrix.vecMul_transpose, ← quadratic_eq]
    exact hO.2 _

/-- Instruments of which the bound's are combinations attain it. -/
lemma instruments_attain {O : Matrix r r ℝ} (hO : Spec.PSD O) (Z : Matrix r c ℝ) (X : Matrix r p ℝ) (R : Matrix c p ℝ) (hX : X = Z * R)
    {V : Matrix c c ℝ} (hV : Zᵀ * O * Z * V = 1) {K : Matrix p p ℝ} (hK : (Zᵀ * O * X)ᵀ * V * (Zᵀ * O * X) * K = 1) (unadjusted : Bool) :
    Xᵀ * O * X * K = 1 ∧ gmmParameterCovariances V (Zᵀ * O * Z) (Zᵀ * O * X) K unadjusted = K := by
  have hOT : Oᵀ = O := by ext a b; exact hO.1 b a
  set S := Zᵀ * O * Z with hS
  have hST : Sᵀ = S := by
    rw [hS]
    simp only [Matrix.transpose_mul, Matrix.transpose_transpose, hOT, Matrix.mul_assoc]
  have hVS : V * S = 1 := mul_eq_one_comm.1 hV
  have hVT : Vᵀ = V := by
    have h := congrArg Matrix.transpose hV
    rw [Matrix.transpose_mul, hST, Matrix.transpose_one] at h
    calc Vᵀ = Vᵀ * (S * V) := by rw [hV, Matrix.mul_one]
      _ = (Vᵀ * S) * V := (Matrix.mul_assoc _ _ _).symm
      _ = V := by rw [h, Matrix.one_mul]
  have hG : Zᵀ * O * X = S * R := by rw [hX, hS]; simp only [Matrix.mul_assoc]
  have hI : Xᵀ * O * X = (S * R)ᵀ * V * (S * R) := by
    rw [hX]
    calc (Z * R)ᵀ * O * (Z * R) = Rᵀ * (Zᵀ * O * Z) * R := by simp only [Matrix.transpose_mul, Matrix.mul_assoc]
      _ = Rᵀ * (S * V * S) * R := by rw [hV, Matrix.one_mul]
      _ = (S * R)ᵀ * V * (S * R) := by simp only [Matrix.transpose_mul, hST, Matrix.mul_assoc]
  rw [hG] at hK ⊢
  refine ⟨by rw [hI]; exact hK, ?_⟩
  have hKT := inverse_symm V hVT (S * R) K hK
  cases unadjusted with
  | true => exact symmetrized_of_symm _ hKT
  | false =>
    have h : K * (S * R)ᵀ * V * S * V * (S * R) * K = K := by
      calc K * (S * R)ᵀ * V * S * V * (S * R) * K = K * ((S * R)ᵀ * (V * S) * V * (S * R) * K) := by simp only [Matrix.mul_assoc]
        _ = K := by rw [hVS, Matrix.mul_one, hK, Matrix.mul_one]
    unfold gmmParameterCovariances
    simp only [h, if_false, Bool.false_eq_true]
    exact symmetrized_of_symm _ hKT

end algebra

section errors
variable {Ω ε n θ : Type} [MeasurableSpace Ω] {P : Measure Ω} [IsProbabilityMeasure P] [Fintype ε] [DecidableEq ε] [Fintype n] [DecidableEq n] [Fintype θ] [DecidableEq θ]
  {m : ε → Type} [∀ e, Fintype (m e)] [∀ e, DecidableEq (m e)]

/-- Covariances of all errors, divided by the number of observations. -/
noncomputable def stackedCovariances (n : Type) [Fintype n] [DecidableEq n] (covariances : Matrix ε ε ℝ) : Matrix (ε × n) (ε × n) ℝ :=
  fun r s => if r.2 = s.2 then covariances r.1 s.1 / Fintype.card n else 0

lemma stacked_sandwich {c c' : Type} (covariances : Matrix ε ε ℝ) (Y : Matrix (ε × n) c ℝ) (Y' : Matrix (ε × n) c' ℝ) (a : c) (b : c') :
    (Yᵀ * stackedCovariances n covariances * Y') a b = (∑ i, ∑ e, ∑ e', Y (e, i) a * covariances e e' * Y' (e', i) b) / Fintype.card n := by
  rw [Matrix.mul_assoc, Matrix.mul_apply]
  simp only [Matrix.mul_apply, Matrix.transpose_apply, stackedCovariances, Fintype.sum_prod_type, ite_mul, zero_mul, Finset.sum_ite_eq, Finset.mem_univ, if_true]
  rw [Finset.sum_comm, Finset.sum_div]
  refine Finset.sum_congr rfl fun i _ => ?_
  rw [Finset.sum_div]
  refine Finset.sum_congr rfl fun e _ => ?_
  rw [Finset.mul_sum, Finset.sum_div]
  refine Finset.sum_congr rfl fun e' _ => ?_
  ring

lemma stacked_psd {covariances : Matrix ε ε ℝ} (h : Spec.PSD covariances) : Spec.PSD (stackedCovariances n covariances) := by
  refine ⟨fun r s => ?_, fun x => ?_⟩
  · unfold stackedCovariances
    rw [h.1 r.1 s.1]
    by_cases hrs : r.2 = s.2
    · rw [if_pos hrs, if_pos hrs.symm]
    · rw [if_neg hrs, if_neg (Ne.symm hrs)]
  · have hone := stacked_sandwich covariances (Matrix.of fun r (_ : Unit) => x r) (Matrix.of fun r (_ : Unit) => x r) () ()
    have e : Spec.quadratic (stackedCovariances n covariances) x =
        ((Matrix.of fun r (_ : Unit) => x r)ᵀ * stackedCovariances n covariances * (Matrix.of fun r (_ : Unit) => x r)) () () := by
      rw [quadratic_eq, Matrix.mul_assoc, Matrix.mul_apply]
      rfl
    rw [e, hone]
    refine div_nonneg (Finset.sum_nonneg fun i _ => ?_) (Nat.cast_nonneg _)
    have := h.2 fun e => x (e, i)
    rw [quadratic_eq] at this
    refine this.trans (le_of_eq ?_)
    simp only [dotProduct, Matrix.mulVec, Finset.mul_sum, Matrix.of_apply, mul_assoc]

/-- Covariances of moments. -/
lemma moments_covariances {u : Ω → ε → n → ℝ} {covariances : Matrix ε ε ℝ} (h : Spec.Homoskedastic P u covariances) (hn : 0 < Fintype.card n)
    (Z : (e : ε) → Matrix n (m e) ℝ) :
    Spec.averageCovariances P (Fintype.card n) (fun ω => gmmMomentsMean (u ω) Z) = (blockDiag Z)ᵀ * stackedCovariances n covariances * blockDiag Z := by
  have hn' : (Fintype.card n : ℝ) ≠ 0 := by exact_mod_cast hn.ne'
  ext a b
  rw [stacked_sandwich]
  have hL : ∀ c : MomentIndex m, ∀ i, MemLp (fun ω => u ω c.1 i * Z c.1 i c.2) 2 P := fun c i => (h.square c.1 i).mul_const _
  have e1 : ∀ c : MomentIndex m, (fun ω => gmmMomentsMean (u ω) Z c) = fun ω => (Fintype.card n : ℝ)⁻¹ * ∑ i, u ω c.1 i * Z c.1 i c.2 := by
    intro c
    funext ω
    simp only [gmmMomentsMean, rowMean, gmmMoments]
    rw [div_eq_inv_mul]
  unfold Spec.averageCovariances
  rw [e1, e1, covariance_const_mul_left, covariance_const_mul_right, covariance_fun_sum_fun_sum (fun i => hL a i) fun i => hL b i]
  have e2 : ∀ i i', cov[fun ω => u ω a.1 i * Z a.1 i a.2, fun ω => u ω b.1 i' * Z b.1 i' b.2; P] =
      if i = i' then covariances a.1 b.1 * Z a.1 i a.2 * Z b.1 i b.2 else 0 := by
    intro i i'
    rw [covariance_mul_const_left, covariance_mul_const_right, covariance_eq_sub (h.square a.1 i) (h.square b.1 i'), h.mean, h.mean]
    simp only [Pi.mul_apply, h.covariance]
    by_cases hi : i = i'
    · subst hi
      simp only [if_true]
      ring
    · simp only [if_neg hi]
      ring
  simp only [e2, Finset.sum_ite_eq, Finset.mem_univ, if_true, blockDiag, ite_mul, zero_mul, mul_ite, mul_zero, Finset.sum_ite_eq']
  rw [div_eq_inv_mul, ← mul_assoc, ← mul_assoc, mul_inv_cancel₀ hn', one_mul]
  congr 1
  refine Finset.sum_congr rfl fun i _ => ?_
  ring

/-- Expected derivatives of moments. -/
lemma moments_derivatives {jacobian : Ω → θ → ε → n → ℝ} (hint : ∀ p e i, Integrable (fun ω => jacobian ω p e i) P) {covariances : Matrix ε ε ℝ}
    {X : ε → Matrix n θ ℝ} (hX : ∀ p e i, ∑ e', covariances e e' * X e' i p = ∫ ω, jacobian ω p e i ∂P) (Z : (e : ε) → Matrix n (m e) ℝ) :
    Spec.expectedDerivatives P (fun ω p => gmmMomentsJacobianMean (jacobian ω p) Z) = (blockDiag Z)ᵀ * stackedCovariances n covariances * vstack X := by
  ext a p
  rw [stacked_sandwich]
  simp only [Spec.expectedDerivatives, gmmMomentsJacobianMean, integral_div, blockDiag, vstack, ite_mul, zero_mul]
  rw [integral_finsetSum _ fun i _ => (hint p a.1 i).mul_const _]
  congr 1
  refine Finset.sum_congr rfl fun i _ => ?_
  simp only [integral_mul_const, Finset.sum_ite_irrel, Finset.sum_const_zero, Finset.sum_ite_eq', Finset.mem_univ, if_true]
  rw [← hX, Finset.sum_mul]
  refine Finset.sum_congr rfl fun e' _ => ?_
  ring

lemma homoskedastic_psd {u : Ω → ε → n → ℝ} {covariances : Matrix ε ε ℝ} (h : Spec.Homoskedastic P u covariances) (hn : 0 < Fintype.card n) : Spec.PSD covariances := by
  obtain ⟨i⟩ := Fintype.card_pos_iff.mp hn
  have e : ∀ a b, covariances a b = ∫ ω, u ω a i * u ω b i ∂P := by
    intro a b
    rw [h.covariance, if_pos rfl]
  have hint : ∀ a b, Integrable (fun ω => u ω a i * u ω b i) P := fun a b => (h.square a i).integrable_mul (h.square b i)
  refine ⟨fun a b => ?_, fun x => ?_⟩
  · rw [e, e]
    simp only [mul_comm]
  · have h1 : Spec.quadratic covariances x = ∫ ω, (∑ a, x a * u ω a i) ^ 2 ∂P := by
      have e2 : ∀ ω, (∑ a, x a * u ω a i) ^ 2 = ∑ a, ∑ b, x a * x b * (u ω a i * u ω b i) := by
        intro ω
        rw [sq, Finset.sum_mul_sum]
        refine Finset.sum_congr rfl fun a _ => Finset.sum_congr rfl fun b _ => ?_
        ring
      simp only [e2]
      rw [integral_finsetSum _ fun a _ => integrable_finsetSum _ fun b _ => (hint a b).const_mul _, quadratic_eq]
      simp only [dotProduct, Matrix.mulVec, Finset.mul_sum]
      refine Finset.sum_congr rfl fun a _ => ?_
      rw [integral_finsetSum _ fun b _ => (hint a b).const_mul _]
      refine Finset.sum_congr rfl fun b _ => ?_
      rw [integral_const_mul, e a b]
      ring
    rw [h1]
    exact integral_nonneg fun ω => sq_nonneg _

/-- Instruments that have efficient ones as combinations are at least as good as any. -/
lemma variance_smallest {u : Ω → ε → n → ℝ} {covariances : Matrix ε ε ℝ} (h : Spec.Homoskedastic P u covariances) (hn : 0 < Fintype.card n)
    {jacobian : Ω → θ → ε → n → ℝ} (hint : ∀ p e i, Integrable (fun ω => jacobian ω p e i) P)
    {X : ε → Matrix n θ ℝ} (hX : ∀ p e i, ∑ e', covariances e e' * X e' i p = ∫ ω, jacobian ω p e i ∂P) (Z : (e : ε) → Matrix n (m e) ℝ)
    (combination : (e : ε) → Matrix (m e) θ ℝ) (hspan : ∀ e i p, ∑ c, Z e i c * combination e c p = X e i p)
    {V : Matrix (MomentIndex m) (MomentIndex m) ℝ} {K : Matrix θ θ ℝ} (hV : Spec.averageCovariances P (Fintype.card n) (fun ω => gmmMomentsMean (u ω) Z) * V = 1)
    (hK : (Spec.expectedDerivatives P (fun ω p => gmmMomentsJacobianMean (jacobian ω p) Z))ᵀ * V *
      Spec.expectedDerivatives P (fun ω p => gmmMomentsJacobianMean (jacobian ω p) Z) * K = 1) (unadjusted : Bool)
    {m' : ε → Type} [∀ e, Fintype (m' e)] [∀ e, DecidableEq (m' e)] (A : (e : ε) → Matrix n (m' e) ℝ) {W : Matrix (MomentIndex m') (MomentIndex m') ℝ}
    (hW : ∀ a b, W a b = W b a) {H : Matrix θ θ ℝ} (hH : (Spec.expectedDerivatives P (fun ω p => gmmMomentsJacobianMean (jacobian ω p) A))ᵀ * W *
      Spec.expectedDerivatives P (fun ω p => gmmMomentsJacobianMean (jacobian ω p) A) * H = 1) :
    Spec.PSD (gmmParameterCovariances W (Spec.averageCovariances P (Fintype.card n) (fun ω => gmmMomentsMean (u ω) A))
        (Spec.expectedDerivatives P (fun ω p => gmmMomentsJacobianMean (jacobian ω p) A)) H false -
      gmmParameterCovariances V (Spec.averageCovariances P (Fintype.card n) (fun ω => gmmMomentsMean (u ω) Z))
        (Spec.expectedDerivatives P (fun ω p => gmmMomentsJacobianMean (jacobian ω p) Z)) K unadjusted) := by
  have hO := stacked_psd (n := n) (homoskedastic_psd h hn)
  simp only [moments_derivatives hint hX, moments_covariances h hn] at *
  have hR : vstack X = blockDiag Z * (Matrix.of fun c p => combination c.1 c.2 p : Matrix (MomentIndex m) θ ℝ) := by
    ext r p
    simp only [Matrix.mul_apply, Matrix.of_apply, vstack, blockDiag, Fintype.sum_sigma, ite_mul, zero_mul, Finset.sum_ite_irrel, Finset.sum_const_zero, Finset.sum_ite_eq,
      Finset.mem_univ, if_true]
    exact (hspan r.1 r.2 p).symm
  obtain ⟨hB, hbest⟩ := instruments_attain hO (blockDiag Z) (vstack X) _ hR hV hK unadjusted
  rw [hbest]
  exact instruments_bound hO (blockDiag A) (vstack X) hB hW hH

end errors

section optimal
variable {Ω n : Type} [MeasurableSpace Ω] {P : Measure Ω} [IsProbabilityMeasure P] [Fintype n] [DecidableEq n]

/-- **C141.** With supply and demand, and errors whose covariances are the estimated ones, let instruments be such that each optimal one is a linear combination of instruments
for the same equation. This is the case for optimal instruments, and for those of the problem that is created from them, in which some are replaced by
exogenous characteristics. With the inverse of covariances of moments as weights, the large-sample covariances of estimates are the smallest: those with any other
instruments and any weights exceed them by a positive semidefinite matrix. -/
theorem C141_joint {q : ℕ} {u : Ω → Fin 2 → n → ℝ} (xi omega : n → ℝ) (h : Spec.Homoskedastic P u (errorCovariance xi omega)) (hn : 0 < Fintype.card n)
    {inverse : Matrix (Fin 2) (Fin 2) ℝ} (hinv : errorCovariance xi omega * inverse = 1)
    {jacobian : Ω → Fin q → Fin 2 → n → ℝ} (hint : ∀ p e i, Integrable (fun ω => jacobian ω p e i) P) {xiJacobian omegaJacobian : n → Fin q → ℝ}
    (hxi : ∀ i p, ∫ ω, jacobian ω p 0 i ∂P = xiJacobian i p) (homega : ∀ i p, ∫ ω, jacobian ω p 1 i ∂P = omegaJacobian i p)
    {m : Fin 2 → Type} [∀ e, Fintype (m e)] [∀ e, DecidableEq (m e)] (Z : (e : Fin 2) → Matrix n (m e) ℝ)
    (hdemand : ∃ combination : m 0 → Fin q → ℝ, ∀ i p, ∑ c, Z 0 i c * combination c p = (splitInstruments (jointInstruments inverse xiJacobian omegaJacobian)).1 i p)
    (hsupply : ∃ combination : m 1 → Fin q → ℝ, ∀ i p, ∑ c, Z 1 i c * combination c p = (splitInstruments (jointInstruments inverse xiJacobian omegaJacobian)).2 i p)
    {V : Matrix (MomentIndex m) (MomentIndex m) ℝ} {K : Matrix (Fin q) (Fin q) ℝ}
    (hV : Spec.averageCovariances P (Fintype.card n) (fun ω => gmmMomentsMean (u ω) Z) * V = 1)
    (hK : (Spec.expectedDerivatives P (fun ω p => gmmMomentsJacobianMean (jacobian ω p) Z))ᵀ * V *
      Spec.expectedDerivatives P (fun ω p => gmmMomentsJacobianMean (jacobian ω p) Z) * K = 1) (unadjusted : Bool)
    {m' : Fin 2 → Type} [∀ e, Fintype (m' e)] [∀ e, DecidableEq (m' e)] (A : (e : Fin 2) → Matrix n (m' e) ℝ) {W : Matrix (MomentIndex m') (MomentIndex m') ℝ}
    (hW : ∀ a b, W a b = W b a) {H : Matrix (Fin q) (Fin q) ℝ} (hH : (Spec.expectedDerivatives P (fun ω p => gmmMomentsJacobianMean (jacobian ω p) A))ᵀ * W *
      Spec.expectedDerivatives P (fun ω p => gmmMomentsJacobianMean (jacobian ω p) A) * H = 1) :
    Spec.PSD (gmmParameterCovariances W (Spec.averageCovariances P (Fintype.card n) (fun ω => gmmMomentsMean (u ω) A))
        (Spec.expectedDerivatives P (fun ω p => gmmMomentsJacobianMean (jacobian ω p) A)) H false -
      gmmParameterCovariances V (Spec.averageCovariances P (Fintype.card n) (fun ω => gmmMomentsMean (u ω) Z))
        (Spec.expectedDerivatives P (fun ω p => gmmMomentsJacobianMean (jacobian ω p) Z)) K unadjusted) := by
  obtain ⟨demand, hdemand⟩ := hdemand
  obtain ⟨supply, hsupply⟩ := hsupply
  set O := splitInstruments (jointInstruments inverse xiJacobian omegaJacobian) with hO
  have hC := fun i p => C80_joint xi omega inverse hinv xiJacobian omegaJacobian i p
  refine variance_smallest h hn hint (X := fun e i p => if e = 0 then O.1 i p else O.2 i p) ?_ Z
    (Fin.cons demand (Fin.cons supply finZeroElim) : (e : Fin 2) → m e → Fin q → ℝ) ?_ hV hK unadjusted A hW hH
  · intro p e i
    have h1 := hC i p
    rw [Fin.sum_univ_two]
    fin_cases e
    · exact Eq.trans h1.1 (hxi i p).symm
    · exact Eq.trans h1.2 (homega i p).symm
  · intro e i p
    fin_cases e
    · exact hdemand i p
    · exact hsupply i p

/-- **C141.** Without a supply side, the same is true whatever the variance of errors. -/
theorem C141_demand {q : Type} [Fintype q] [DecidableEq q] {u : Ω → Unit → n → ℝ} (xi : n → ℝ) (hvar : npVar xi ≠ 0) {variance : ℝ} (hpos : 0 < variance)
    (h : Spec.Homoskedastic P u fun _ _ => variance) (hn : 0 < Fintype.card n)
    {jacobian : Ω → q → Unit → n → ℝ} (hint : ∀ p e i, Integrable (fun ω => jacobian ω p e i) P) {xiJacobian : n → q → ℝ}
    (hxi : ∀ i p, ∫ ω, jacobian ω p () i ∂P = xiJacobian i p) {m : Unit → Type} [∀ e, Fintype (m e)] [∀ e, DecidableEq (m e)] (Z : (e : Unit) → Matrix n (m e) ℝ)
    (hdemand : ∃ combination : m () → q → ℝ, ∀ i p, ∑ c, Z () i c * combination c p = demandInstruments xi xiJacobian i p)
    {V : Matrix (MomentIndex m) (MomentIndex m) ℝ} {K : Matrix q q ℝ}
    (hV : Spec.averageCovariances P (Fintype.card n) (fun ω => gmmMomentsMean (u ω) Z) * V = 1)
    (hK : (Spec.expectedDerivatives P (fun ω p => gmmMomentsJacobianMean (jacobian ω p) Z))ᵀ * V *
      Spec.expectedDerivatives P (fun ω p => gmmMomentsJacobianMean (jacobian ω p) Z) * K = 1) (unadjusted : Bool)
    {m' : Unit → Type} [∀ e, Fintype (m' e)] [∀ e, DecidableEq (m' e)] (A : (e : Unit) → Matrix n (m' e) ℝ) {W : Matrix (MomentIndex m') (MomentIndex m') ℝ}
    (hW : ∀ a b, W a b = W b a) {H : Matrix q q ℝ} (hH : (Spec.expectedDerivatives P (fun ω p => gmmMomentsJacobianMean (jacobian ω p) A))ᵀ * W *
      Spec.expectedDerivatives P (fun ω p => gmmMomentsJacobianMean (jacobian ω p) A) * H = 1) :
    Spec.PSD (gmmParameterCovariances W (Spec.averageCovariances P (Fintype.card n) (fun ω => gmmMomentsMean (u ω) A))
        (Spec.expectedDerivatives P (fun ω p => gmmMomentsJacobianMean (jacobian ω p) A)) H false -
      gmmParameterCovariances V (Spec.averageCovariances P (Fintype.card n) (fun ω => gmmMomentsMean (u ω) Z))
        (Spec.expectedDerivatives P (fun ω p => gmmMomentsJacobianMean (jacobian ω p) Z)) K unadjusted) := by
  obtain ⟨demand, hdemand⟩ := hdemand
  refine variance_smallest h hn hint (X := fun _ i p => xiJacobian i p / variance) ?_ Z (fun _ c p => demand c p * (npVar xi / variance)) ?_ hV hK unadjusted A hW hH
  · intro p e i
    rw [hxi i p, Fintype.sum_unique]
    field_simp
  · intro e i p
    simp only [← mul_assoc]
    rw [← Finset.sum_mul, hdemand i p]
    have := C80_demand xi xiJacobian hvar i p
    field_simp
    linarith

end optimal

/-- Independent standard normal variables with different scales for equations. -/
lemma scaled_homoskedastic {ε : Type} [Fintype ε] [DecidableEq ε] (N : ℕ) (scale : ε → ℝ) :
    Spec.Homoskedastic (Measure.pi fun _ : ε × Fin N => gaussianReal 0 1) (fun ω e i => scale e * ω (e, i)) (Matrix.diagonal fun e => scale e ^ 2) := by
  have hmp : ∀ r : ε × Fin N, MeasurePreserving (fun ω : ε × Fin N → ℝ => ω r) (Measure.pi fun _ => gaussianReal 0 1) (gaussianReal 0 1) := fun r =>
    measurePreserving_eval (fun _ => gaussianReal 0 1) r
  have hid : MemLp (fun x : ℝ => x) 2 (gaussianReal 0 1) := memLp_id_gaussianReal 2
  have hsq : ∀ r : ε × Fin N, MemLp (fun ω : ε × Fin N → ℝ => ω r) 2 (Measure.pi fun _ => gaussianReal 0 1) := fun r => hid.comp_measurePreserving (hmp r)
  have hmean : ∀ r : ε × Fin N, ∫ ω : ε × Fin N → ℝ, ω r ∂(Measure.pi fun _ => gaussianReal 0 1) = 0 := by
    intro r
    have h1 := integral_map (μ := Measure.pi fun _ : ε × Fin N => gaussianReal 0 1) (φ := fun ω => ω r) (f := fun x : ℝ => x)
      (hmp r).measurable.aemeasurable aestronglyMeasurable_id
    rw [(hmp r).map_eq] at h1
    rw [← h1]
    exact integral_id_gaussianReal
  have hvar : ∀ r : ε × Fin N, Var[fun ω : ε × Fin N → ℝ => ω r; Measure.pi fun _ => gaussianReal 0 1] = 1 := by
    intro r
    have hv := variance_map (X := fun x : ℝ => x) (Y := fun ω : ε × Fin N → ℝ => ω r) (μ := Measure.pi fun _ => gaussianReal 0 1) aemeasurable_id
      (hmp r).measurable.aemeasurable
    rw [(hmp r).map_eq] at hv
    refine Eq.trans hv.symm ?_
    simp [variance_fun_id_gaussianReal]
  refine ⟨fun e i => (hsq _).const_mul _, fun e i => ?_, fun e i e' i' => ?_⟩
  · rw [integral_const_mul, hmean, mul_zero]
  · have e1 : (fun ω : ε × Fin N → ℝ => scale e * ω (e, i) * (scale e' * ω (e', i'))) = fun ω => scale e * scale e' * (ω (e, i) * ω (e', i')) := by
      funext ω
      ring
    rw [e1, integral_const_mul]
    by_cases hr : (e, i) = (e', i')
    · obtain ⟨rfl, rfl⟩ := Prod.mk.inj hr
      have h2 := variance_eq_sub (hsq (e, i))
      rw [hvar, hmean] at h2
      rw [if_pos rfl, Matrix.diagonal_apply_eq]
      simp only [Pi.pow_apply, sq, zero_mul, sub_zero] at h2 ⊢
      rw [← h2, mul_one]
    · have hi : IndepFun (fun ω : ε × Fin N → ℝ => ω (e, i)) (fun ω => ω (e', i')) (Measure.pi fun _ => gaussianReal 0 1) :=
        (iIndepFun_pi (μ := fun _ : ε × Fin N => gaussianReal 0 1) (X := fun _ x => x) fun _ => aemeasurable_id).indepFun hr
      rw [hi.integral_fun_mul_eq_mul_integral (hsq _).aestronglyMeasurable (hsq _).aestronglyMeasurable, hmean, zero_mul, mul_zero]
      by_cases hi' : i = i'
      · rw [if_pos hi', Matrix.diagonal_apply_ne _ fun he => hr (by rw [he, hi'])]
      · rw [if_neg hi']

/-- A case that meets the hypotheses: three observations, one parameter, and errors with different variances. The variance with optimal instruments is `3 / 11`. With
constants as instruments and with equal weights it is `13 / 25`. -/
example : ∃ (Ω : Type) (_ : MeasurableSpace Ω) (P : Measure Ω) (_ : IsProbabilityMeasure P) (u : Ω → Fin 2 → Fin 3 → ℝ) (xi omega : Fin 3 → ℝ)
    (inverse : Matrix (Fin 2) (Fin 2) ℝ) (jacobian : Fin 2 → Fin 3 → ℝ) (Z A : Fin 2 → Matrix (Fin 3) (Fin 1) ℝ)
    (V : Matrix (MomentIndex fun _ : Fin 2 => Fin 1) (MomentIndex fun _ : Fin 2 => Fin 1) ℝ) (K H : Matrix (Fin 1) (Fin 1) ℝ),
    Spec.Homoskedastic P u (errorCovariance xi omega) ∧ errorCovariance xi omega * inverse = 1 ∧
    Z 0 = (splitInstruments (jointInstruments inverse (fun i _ => jacobian 0 i) fun i _ => jacobian 1 i)).1 ∧
    Z 1 = (splitInstruments (jointInstruments inverse (fun i _ => jacobian 0 i) fun i _ => jacobian 1 i)).2 ∧
    Spec.averageCovariances P 3 (fun ω => gmmMomentsMean (u ω) Z) * V = 1 ∧
    (Spec.expectedDerivatives P (fun _ (_ : Fin 1) => gmmMomentsJacobianMean jacobian Z))ᵀ * V *
      Spec.expectedDerivatives P (fun _ (_ : Fin 1) => gmmMomentsJacobianMean jacobian Z) * K = 1 ∧
    (Spec.expectedDerivatives P (fun _ (_ : Fin 1) => gmmMomentsJacobianMean jacobian A))ᵀ * (1 : Matrix (MomentIndex fun _ : Fin 2 => Fin 1) (MomentIndex fun _ : Fin 2 => Fin 1) ℝ) *
      Spec.expectedDerivatives P (fun _ (_ : Fin 1) => gmmMomentsJacobianMean jacobian A) * H = 1 ∧
    gmmParameterCovariances V (Spec.averageCovariances P 3 (fun ω => gmmMomentsMean (u ω) Z))
      (Spec.expectedDerivatives P (fun _ (_ : Fin 1) => gmmMomentsJacobianMean jacobian Z)) K true 0 0 = 3 / 11 ∧
    gmmParameterCovariances 1 (Spec.averageCovariances P 3 (fun ω => gmmMomentsMean (u ω) A))
      (Spec.expectedDerivatives P (fun _ (_ : Fin 1) => gmmMomentsJacobianMean jacobian A)) H false 0 0 = 13 / 25 := by
  have hcov : errorCovariance ![1, -1, 0] ![1, 1, -2] = Matrix.diagonal ![1, 3] := by
    ext a b
    fin_cases a <;> fin_cases b <;> simp [errorCovariance, npCov, npMean, Fin.sum_univ_three] <;> norm_num
  have hh := scaled_homoskedastic 3 ![1, √3]
  have hs : (fun e : Fin 2 => (![1, √3] : Fin 2 → ℝ) e ^ 2) = ![1, 3] := by
    funext e
    fin_cases e <;> simp
  rw [hs, ← hcov] at hh
  have hinv : errorCovariance ![1, -1, 0] ![1, 1, -2] * Matrix.diagonal ![1, 1 / 3] = 1 := by
    rw [hcov, Matrix.diagonal_mul_diagonal, ← Matrix.diagonal_one]
    congr 1
    funext e
    fin_cases e <;> simp
  have hS : ∀ Z : Fin 2 → Matrix (Fin 3) (Fin 1) ℝ, Spec.averageCovariances (Measure.pi fun _ : Fin 2 × Fin 3 => gaussianReal 0 1) 3
      (fun ω => gmmMomentsMean ((fun e i => (![1, √3] : Fin 2 → ℝ) e * ω (e, i)) : Fin 2 → Fin 3 → ℝ) Z) =
      Matrix.diagonal fun c => (![1, 3] : Fin 2 → ℝ) c.1 * (∑ i, Z c.1 i c.2 ^ 2) / 3 := by
    intro Z
    have h1 := moments_covariances hh (by simp) Z
    rw [Fintype.card_fin] at h1
    refine h1.trans ?_
    ext ⟨a, a'⟩ ⟨b, b'⟩
    rw [stacked_sandwich, hcov]
    fin_cases a <;> fin_cases b <;> fin_cases a' <;> fin_cases b' <;>
      simp [blockDiag, Fin.sum_univ_three, Matrix.diagonal_apply] <;> ring
  have hG : ∀ (jacobian : Fin 2 → Fin 3 → ℝ) (Z : Fin 2 → Matrix (Fin 3) (Fin 1) ℝ), Spec.expectedDerivatives (Measure.pi fun _ : Fin 2 × Fin 3 => gaussianReal 0 1)
      (fun _ (_ : Fin 1) => gmmMomentsJacobianMean jacobian Z) = Matrix.of fun c _ => (∑ i, jacobian c.1 i * Z c.1 i c.2) / 3 := by
    intro jacobian Z
    ext c p
    simp [Spec.expectedDerivatives, gmmMomentsJacobianMean]
  refine ⟨_, inferInstance, Measure.pi fun _ : Fin 2 × Fin 3 => gaussianReal 0 1, inferInstance, fun ω e i => (![1, √3] : Fin 2 → ℝ) e * ω (e, i), ![1, -1, 0],
    ![1, 1, -2], Matrix.diagonal ![1, 1 / 3], ![![1, 2, 0], ![3, 0, 3]], fun e => Matrix.of fun i _ => (![![1, 2, 0], ![1, 0, 1]] : Fin 2 → Fin 3 → ℝ) e i, fun _ => Matrix.of fun _ _ => 1,
    Matrix.diagonal fun c => (![3 / 5, 1 / 2] : Fin 2 → ℝ) c.1, Matrix.of fun _ _ => 3 / 11, Matrix.of fun _ _ => 1 / 5, hh, hinv, ?_, ?_, ?_, ?_, ?_, ?_, ?_⟩
  · rw [splitInstruments_eq]
    funext i p
    fin_cases i <;> simp [jointInstruments, Fin.sum_univ_two, Matrix.diagonal_apply]
  · rw [splitInstruments_eq]
    funext i p
    fin_cases i <;> simp [jointInstruments, Fin.sum_univ_two, Matrix.diagonal_apply]
  · beta_reduce
    rw [hS, Matrix.diagonal_mul_diagonal, ← Matrix.diagonal_one]
    congr 1
    funext ⟨e, c⟩
    fin_cases e <;> simp [Fin.sum_univ_three] <;> norm_num
  · rw [hG]
    ext a b
    fin_cases a; fin_cases b
    simp [Matrix.mul_apply, Matrix.diagonal_apply, Fintype.sum_sigma, Fin.sum_univ_two, Fin.sum_univ_three]
    norm_num
  · rw [hG]
    ext a b
    fin_cases a; fin_cases b
    simp [Matrix.mul_apply, Fintype.sum_sigma, Fin.sum_univ_two, Fin.sum_univ_three]
    norm_num
  · simp [gmmParameterCovariances, symmetrized]
    try norm_num
  · beta_reduce
    rw [hG, hS]
    simp [gmmParameterCovariances, symmetrized, Matrix.mul_apply, Matrix.diagonal_apply, Fintype.sum_sigma, Fin.sum_univ_two, Fin.sum_univ_three]
    norm_num

/-- A case without a supply side: two observations and one parameter. The variance with optimal instruments is `2 / 5`. With a constant as instrument it is `4 / 9`. -/
example : ∃ (Ω : Type) (_ : MeasurableSpace Ω) (P : Measure Ω) (_ : IsProbabilityMeasure P) (u : Ω → Unit → Fin 2 → ℝ) (xi jacobian : Fin 2 → ℝ)
    (Z A : Unit → Matrix (Fin 2) (Fin 1) ℝ) (V W : Matrix (MomentIndex fun _ : Unit => Fin 1) (MomentIndex fun _ : Unit => Fin 1) ℝ)
    (K H : Matrix (Fin 1) (Fin 1) ℝ), npVar xi ≠ 0 ∧ Spec.Homoskedastic P u (fun _ _ => 1) ∧ Z () = demandInstruments xi (fun i _ => jacobian i) ∧
    Spec.averageCovariances P 2 (fun ω => gmmMomentsMean (u ω) Z) * V = 1 ∧
    (Spec.expectedDerivatives P (fun _ (_ : Fin 1) => gmmMomentsJacobianMean (fun _ => jacobian) Z))ᵀ * V *
      Spec.expectedDerivatives P (fun _ (_ : Fin 1) => gmmMomentsJacobianMean (fun _ => jacobian) Z) * K = 1 ∧
    (Spec.expectedDerivatives P (fun _ (_ : Fin 1) => gmmMomentsJacobianMean (fun _ => jacobian) A))ᵀ * W *
      Spec.expectedDerivatives P (fun _ (_ : Fin 1) => gmmMomentsJacobianMean (fun _ => jacobian) A) * H = 1 ∧
    gmmParameterCovariances V (Spec.averageCovariances P 2 (fun ω => gmmMomentsMean (u ω) Z))
      (Spec.expectedDerivatives P (fun _ (_ : Fin 1) => gmmMomentsJacobianMean (fun _ => jacobian) Z)) K true 0 0 = 2 / 5 ∧
    gmmParameterCovariances W (Spec.averageCovariances P 2 (fun ω => gmmMomentsMean (u ω) A))
      (Spec.expectedDerivatives P (fun _ (_ : Fin 1) => gmmMomentsJacobianMean (fun _ => jacobian) A)) H false 0 0 = 4 / 9 := by
  have hvar : npVar (![1, -1] : Fin 2 → ℝ) = 1 := by
    simp [npVar, npMean, Fin.sum_univ_two]
    try norm_num
  have hh := scaled_homoskedastic 2 (fun _ : Unit => (1 : ℝ))
  have hd : (Matrix.diagonal fun _ : Unit => (1 : ℝ) ^ 2) = fun _ _ => 1 := by
    ext a b
    simp
  rw [hd] at hh
  have hS : ∀ Z : Unit → Matrix (Fin 2) (Fin 1) ℝ, Spec.averageCovariances (Measure.pi fun _ : Unit × Fin 2 => gaussianReal 0 1) 2
      (fun ω => gmmMomentsMean ((fun e i => (1 : ℝ) * ω (e, i)) : Unit → Fin 2 → ℝ) Z) = Matrix.diagonal fun c => (∑ i, Z c.1 i c.2 ^ 2) / 2 := by
    intro Z
    have h1 := moments_covariances hh (by simp) Z
    rw [Fintype.card_fin] at h1
    refine h1.trans ?_
    ext ⟨a, a'⟩ ⟨b, b'⟩
    refine Eq.trans (stacked_sandwich (fun _ _ => (1 : ℝ)) (blockDiag Z) (blockDiag Z) ⟨a, a'⟩ ⟨b, b'⟩) ?_
    fin_cases a' <;> fin_cases b' <;> simp [blockDiag, Fin.sum_univ_two, Matrix.diagonal_apply] <;> ring
  have hG : ∀ (jacobian : Fin 2 → ℝ) (Z : Unit → Matrix (Fin 2) (Fin 1) ℝ), Spec.expectedDerivatives (Measure.pi fun _ : Unit × Fin 2 => gaussianReal 0 1)
      (fun _ (_ : Fin 1) => gmmMomentsJacobianMean (fun _ => jacobian) Z) = Matrix.of fun c _ => (∑ i, jacobian i * Z c.1 i c.2) / 2 := by
    intro jacobian Z
    ext c p
    simp [Spec.expectedDerivatives, gmmMomentsJacobianMean]
  refine ⟨_, inferInstance, Measure.pi fun _ : Unit × Fin 2 => gaussianReal 0 1, inferInstance, fun ω e i => 1 * ω (e, i), ![1, -1], ![1, 2],
    fun _ => Matrix.of fun i _ => (![1, 2] : Fin 2 → ℝ) i, fun _ => Matrix.of fun _ _ => 1, Matrix.diagonal fun _ => 2 / 5, Matrix.diagonal fun _ => 1,
    Matrix.of fun _ _ => 2 / 5, Matrix.of fun _ _ => 4 / 9, by rw [hvar]; exact one_ne_zero, hh, ?_, ?_, ?_, ?_, ?_, ?_⟩
  · funext i p
    simp [demandInstruments, hvar]
  · beta_reduce
    rw [hS, Matrix.diagonal_mul_diagonal, ← Matrix.diagonal_one]
    congr 1
    funext c
    simp [Fin.sum_univ_two]
    norm_num
  · rw [hG]
    ext a b
    fin_cases a; fin_cases b
    simp [Matrix.mul_apply, Matrix.diagonal_apply, Fintype.sum_sigma, Fin.sum_univ_two]
    norm_num
  · rw [hG]
    ext a b
    fin_cases a; fin_cases b
    simp [Matrix.mul_apply, Matrix.diagonal_apply, Fintype.sum_sigma, Fin.sum_univ_two]
    norm_num
  · simp [gmmParameterCovariances, symmetrized]
  · beta_reduce
    rw [hG, hS]
    simp [gmmParameterCovariances, symmetrized, Matrix.mul_apply, Matrix.diagonal_apply, Fintype.sum_sigma, Fin.sum_univ_two]
    norm_num

end Pyblp
