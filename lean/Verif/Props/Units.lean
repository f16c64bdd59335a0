import Verif.Model.Estimation
import Verif.Props.PanelGradient
import Verif.Props.Progress

set_option linter.unusedSectionVars false

/-!
# Combinations of instruments (C95)
-/

namespace Pyblp

open Matrix

/-! ## Moments of combined instruments -/

section Generic

variable {ε n k : Type} {m : ε → Type} [Fintype ε] [DecidableEq ε] [Fintype n] [Fintype k] [DecidableEq k]
  [∀ e, Fintype (m e)]

theorem blockDiagonal'_transpose_mulVec (A : (e : ε) → Matrix (m e) (m e) ℝ) (v : MomentIndex m → ℝ) (c : MomentIndex m) :
    ((blockDiagonal' A)ᵀ *ᵥ v) c = ∑ i, A c.1 i c.2 * v ⟨c.1, i⟩ := by
  rw [Matrix.mulVec, dotProduct, Fintype.sum_sigma, Finset.sum_eq_single c.1]
  · refine Finset.sum_congr rfl fun i _ => ?_
    rw [transpose_apply]
    congr 1
    exact blockDiagonal'_apply_eq A c.1 i c.2
  · intro e _ he
    refine Finset.sum_eq_zero fun i _ => ?_
    rw [transpose_apply]
    have : blockDiagonal' A ⟨e, i⟩ c = 0 := blockDiagonal'_apply_ne A i c.2 he
    rw [this, zero_mul]
  · simp

theorem blockDiagonal'_conj (A : (e : ε) → Matrix (m e) (m e) ℝ) (S : Matrix (MomentIndex m) (MomentIndex m) ℝ) (a c : MomentIndex m) :
    ((blockDiagonal' A)ᵀ * S * blockDiagonal' A) a c = ∑ j, A c.1 j c.2 * ∑ i, A a.1 i a.2 * S ⟨a.1, i⟩ ⟨c.1, j⟩ := by
  have h : ((blockDiagonal' A)ᵀ * S * blockDiagonal' A) a c =
      ((blockDiagonal' A)ᵀ *ᵥ fun x => ((blockDiagonal' A)ᵀ *ᵥ fun y => S y x) a) c := by
    rw [Matrix.mul_apply]
    refine Finset.sum_congr rfl fun x _ => ?_
    rw [mul_comm]
    rfl
  rw [h, blockDiagonal'_transpose_mulVec]
  refine Finset.sum_congr rfl fun j _ => ?_
  rw [blockDiagonal'_transpose_mulVec]

theorem ivV_combined (A : (e : ε) → Matrix (m e) (m e) ℝ) (Z : (e : ε) → Matrix n (m e) ℝ) (y : ε → n → ℝ) :
    ivV (fun e => Z e * A e) y = (blockDiagonal' A)ᵀ *ᵥ ivV Z y := by
  funext c
  rw [blockDiagonal'_transpose_mulVec, ivV_apply]
  simp only [ivV_apply, Matrix.mul_apply, Finset.sum_mul, Finset.mul_sum]
  rw [Finset.sum_comm]
  exact Finset.sum_congr rfl fun i _ => Finset.sum_congr rfl fun j _ => by ring

theorem ivP_combined (A : (e : ε) → Matrix (m e) (m e) ℝ) (X : ε → Matrix n k ℝ) (Z : (e : ε) → Matrix n (m e) ℝ) :
    ivP X (fun e => Z e * A e) = (blockDiagonal' A)ᵀ * ivP X Z := by
  ext c l
  have h1 : ivP X (fun e => Z e * A e) c l = ivV (fun e => Z e * A e) (fun e i => X e i l) c := by rw [ivP_apply, ivV_apply]
  have h2 : ((blockDiagonal' A)ᵀ * ivP X Z) c l = ((blockDiagonal' A)ᵀ *ᵥ ivV Z (fun e i => X e i l)) c := by
    rw [Matrix.mul_apply]
    refine Finset.sum_congr rfl fun x _ => ?_
    rw [ivP_apply, ivV_apply]
  rw [h1, h2, ivV_combined]

theorem ivCovariancesInverse_combined (A : (e : ε) → Matrix (m e) (m e) ℝ) (X : ε → Matrix n k ℝ) (Z : (e : ε) → Matrix n (m e) ℝ)
    (W' : Matrix (MomentIndex m) (MomentIndex m) ℝ) :
    ivCovariancesInverse X (fun e => Z e * A e) W' =
      ivCovariancesInverse X Z (blockDiagonal' A * W' * (blockDiagonal' A)ᵀ) := by
  rw [ivCovariancesInverse_eq, ivCovariancesInverse_eq, ivP_combined, transpose_mul, transpose_transpose]
  simp only [Matrix.mul_assoc]

theorem ivParameters_combined (A : (e : ε) → Matrix (m e) (m e) ℝ) (C : Matrix k k ℝ) (X : ε → Matrix n k ℝ)
    (Z : (e : ε) → Matrix n (m e) ℝ) (W' : Matrix (MomentIndex m) (MomentIndex m) ℝ) (y : ε → n → ℝ) :
    ivParameters C X (fun e => Z e * A e) W' y = ivParameters C X Z (blockDiagonal' A * W' * (blockDiagonal' A)ᵀ) y := by
  rw [ivParameters_eq, ivParameters_eq, ivP_combined, ivV_combined, transpose_mul, transpose_transpose]
  simp only [Matrix.mul_assoc, mulVec_mulVec]

theorem ivResiduals_combined (A : (e : ε) → Matrix (m e) (m e) ℝ) (C : Matrix k k ℝ) (X : ε → Matrix n k ℝ)
    (Z : (e : ε) → Matrix n (m e) ℝ) (W' : Matrix (MomentIndex m) (MomentIndex m) ℝ) (y : ε → n → ℝ) :
    ivResiduals C X (fun e => Z e * A e) W' y = ivResiduals C X Z (blockDiagonal' A * W' * (blockDiagonal' A)ᵀ) y := by
  unfold ivResiduals
  rw [ivParameters_combined]

theorem ivJacobian_combined (A : (e : ε) → Matrix (m e) (m e) ℝ) (C : Matrix k k ℝ) (X : ε → Matrix n k ℝ)
    (Z : (e : ε) → Matrix n (m e) ℝ) (W' : Matrix (MomentIndex m) (MomentIndex m) ℝ) (y : ε → n → ℝ) :
    ivJacobian C X (fun e => Z e * A e) W' y = ivJacobian C X Z (blockDiagonal' A * W' * (blockDiagonal' A)ᵀ) y := by
  rw [ivJacobian_eq, ivJacobian_eq, ivResiduals_combined]

theorem momentsMean_eq {N : ℕ} (Z : (e : ε) → Matrix (Fin N) (m e) ℝ) (u : ε → Fin N → ℝ) :
    gmmMomentsMean u Z = (1 / (N : ℝ)) • ivV Z u := by
  rw [← jacobian_moments]
  rfl

theorem momentsMean_combined {N : ℕ} (A : (e : ε) → Matrix (m e) (m e) ℝ) (Z : (e : ε) → Matrix (Fin N) (m e) ℝ) (u : ε → Fin N → ℝ) :
    gmmMomentsMean u (fun e => Z e * A e) = (blockDiagonal' A)ᵀ *ᵥ gmmMomentsMean u Z := by
  rw [momentsMean_eq, momentsMean_eq, ivV_combined, mulVec_smul]

theorem jacobianMean_combined {N : ℕ} (A : (e : ε) → Matrix (m e) (m e) ℝ) (Z : (e : ε) → Matrix (Fin N) (m e) ℝ) (u : ε → Fin N → ℝ) :
    gmmMomentsJacobianMean u (fun e => Z e * A e) = (blockDiagonal' A)ᵀ *ᵥ gmmMomentsJacobianMean u Z := by
  rw [jacobian_moments, jacobian_moments, ivV_combined, mulVec_smul]

/-! ## Covariances of moments of combined instruments -/

theorem outer_conj {c R : Type} [Fintype c] (Q : Matrix c c ℝ) (s : Finset R) (f f' : R → c → ℝ) (S S' : Matrix c c ℝ) (x : ℝ)
    (hS : ∀ a b, S a b = (∑ r ∈ s, f r a * f r b) / x) (hS' : ∀ a b, S' a b = (∑ r ∈ s, f' r a * f' r b) / x)
    (hf : ∀ r ∈ s, f' r = Qᵀ *ᵥ f r) : S' = Qᵀ * S * Q := by
  have h1 : S = x⁻¹ • ∑ r ∈ s, vecMulVec (f r) (f r) := by
    ext a b
    rw [hS, Matrix.smul_apply, Matrix.sum_apply, smul_eq_mul, mul_comm, div_eq_mul_inv]
    rfl
  have h2 : S' = x⁻¹ • ∑ r ∈ s, vecMulVec (f' r) (f' r) := by
    ext a b
    rw [hS', Matrix.smul_apply, Matrix.sum_apply, smul_eq_mul, mul_comm, div_eq_mul_inv]
    rfl
  rw [h1, h2, Matrix.mul_smul, Matrix.smul_mul, Matrix.mul_sum, Matrix.sum_mul]
  congr 1
  refine Finset.sum_congr rfl fun r hr => ?_
  rw [hf r hr, mul_vecMulVec, vecMulVec_mul, ← mulVec_transpose]

theorem momentRow_combined {N : ℕ} (A : (e : ε) → Matrix (m e) (m e) ℝ) (u : ε → Fin N → ℝ) (Z : (e : ε) → Matrix (Fin N) (m e) ℝ)
    (center : Bool) (i : Fin N) :
    Spec.momentRow u (fun e => Z e * A e) center i = (blockDiagonal' A)ᵀ *ᵥ Spec.momentRow u Z center i := by
  funext c
  rw [blockDiagonal'_transpose_mulVec]
  have h : ∀ j, u c.1 j * (Z c.1 * A c.1) j c.2 = ∑ l, A c.1 l c.2 * (u c.1 j * Z c.1 j l) := by
    intro j
    rw [Matrix.mul_apply, Finset.mul_sum]
    exact Finset.sum_congr rfl fun l _ => by ring
  unfold Spec.momentRow
  simp only [h, mul_sub, Finset.sum_sub_distrib]
  congr 1
  cases center
  · simp
  · simp only [if_true]
    rw [Finset.sum_comm, Finset.sum_div]
    refine Finset.sum_congr rfl fun l _ => ?_
    rw [← Finset.mul_sum, mul_div_assoc]

theorem momentCovariances_combined {ι : Type} [LinearOrder ι] {N : ℕ} (A : (e : ε) → Matrix (m e) (m e) ℝ) (u : ε → Fin N → ℝ)
    (Z : (e : ε) → Matrix (Fin N) (m e) ℝ) (type : CovarianceType) (ids : Fin N → ι) (sort : List (Fin N)) (hsort : IsArgsort ids sort)
    (center : Bool) : gmmMomentCovariances u (fun e => Z e * A e) type ids sort center =
      (blockDiagonal' A)ᵀ * gmmMomentCovariances u Z type ids sort center * blockDiagonal' A := by
  cases type
  · ext a c
    rw [blockDiagonal'_conj, C41_unadjusted]
    simp only [C41_unadjusted]
    have h : ∑ i, (Z a.1 * A a.1) i a.2 * (Z c.1 * A c.1) i c.2 =
        ∑ j, A c.1 j c.2 * ∑ l, A a.1 l a.2 * ∑ i, Z a.1 i l * Z c.1 i j := by
      simp only [Matrix.mul_apply, Finset.mul_sum, Finset.sum_mul]
      rw [Finset.sum_comm]
      refine Finset.sum_congr rfl fun j _ => ?_
      rw [Finset.sum_comm]
      exact Finset.sum_congr rfl fun l _ => Finset.sum_congr rfl fun i _ => by ring
    rw [h, Finset.mul_sum, Finset.sum_div]
    refine Finset.sum_congr rfl fun j _ => ?_
    rw [mul_left_comm, mul_div_assoc, Finset.mul_sum, Finset.sum_div]
    congr 1
    refine Finset.sum_congr rfl fun l _ => ?_
    ring
  · exact outer_conj _ Finset.univ (fun i => Spec.momentRow u Z center i) (fun i => Spec.momentRow u (fun e => Z e * A e) center i) _ _ N
      (C41_robust u Z ids sort center) (C41_robust u _ ids sort center) fun i _ => momentRow_combined A u Z center i
  · refine outer_conj _ (Finset.univ.image ids) (fun k a => ∑ i with ids i = k, Spec.momentRow u Z center i a)
      (fun k a => ∑ i with ids i = k, Spec.momentRow u (fun e => Z e * A e) center i a) _ _ N
      (C41_clustered u Z ids sort hsort center) (C41_clustered u _ ids sort hsort center) fun k _ => ?_
    have : (fun a => ∑ i with ids i = k, Spec.momentRow u Z center i a) = ∑ i with ids i = k, Spec.momentRow u Z center i := by
      funext a
      rw [Finset.sum_apply]
    rw [this, mulVec_sum]
    funext a
    rw [Finset.sum_apply]
    exact Finset.sum_congr rfl fun i _ => by rw [momentRow_combined]

end Generic

/-! ## Specification -/

namespace Spec

variable {N nd ns : ℕ} {m : Fin nd ⊕ Fin ns → Type} {q b g θ d ι D : Type} [∀ e, Fintype (m e)] [Fintype q] [Fintype b] [Fintype g]
  [Fintype θ] [Fintype d] [LinearOrder ι]

/-- A problem that differs only by its instruments, which are combinations of those of the other one: within each set of instruments,
columns are multiplied by a matrix. -/
def combined (E : Estimation N nd ns m q b g θ d ι D) (A : (e : Fin nd ⊕ Fin ns) → Matrix (m e) (m e) ℝ) (AC : Matrix q q ℝ) :
    Estimation N nd ns m q b g θ d ι D :=
  { E with data := { E.data with Z := fun e => E.data.Z e * A e, ZC := E.data.ZC * AC } }

/-- The matrix that combines all moments. Micro moments stay what they are. -/
def combination [DecidableEq d] (A : (e : Fin nd ⊕ Fin ns) → Matrix (m e) (m e) ℝ) (AC : Matrix q q ℝ) : Estimation.Weights m q d :=
  fromBlocks (fromBlocks (blockDiagonal' A) 0 0 AC) 0 0 1

/-- A routine that returns the inverse of matrices that have one. -/
def Inverts {c : Type} [Fintype c] [DecidableEq c] (invert : Matrix c c ℝ → Matrix c c ℝ) : Prop :=
  ∀ S T, S * T = 1 → invert S = T

/-- Results of a step with another weighting matrix for each weighting matrix, and otherwise the same. -/
def withWeights {W T D : Type} (f : W → W) (r : StepResults W T D) : StepResults W T D :=
  { r with start := { r.start with W := f r.start.W }, updatedW := f r.updatedW }

end Spec

/-! ## Evaluations -/

section Evaluations

variable {N nd ns : ℕ} {m : Fin nd ⊕ Fin ns → Type} {q b g θ d ι D : Type} [∀ e, Fintype (m e)] [Fintype q] [Fintype b] [Fintype g]
  [Fintype θ] [Fintype d] [DecidableEq d] [LinearOrder ι] [DecidableEq b] [DecidableEq g]

theorem ivWeights_conj {c f : Type} [Fintype c] [Fintype f] (P : Matrix c c ℝ) (R : Matrix f f ℝ) (W : Matrix (c ⊕ f) (c ⊕ f) ℝ) :
    ivWeights (fromBlocks P 0 0 R * W * (fromBlocks P 0 0 R)ᵀ) = P * ivWeights W * Pᵀ := by
  have h : ∀ V : Matrix (c ⊕ f) (c ⊕ f) ℝ, ivWeights V = V.toBlocks₁₁ := fun V => rfl
  rw [h, h]
  conv_lhs => rw [← fromBlocks_toBlocks W]
  rw [fromBlocks_transpose, fromBlocks_multiply, fromBlocks_multiply, toBlocks_fromBlocks₁₁]
  simp

variable (E : Estimation N nd ns m q b g θ d ι D) (A : (e : Fin nd ⊕ Fin ns) → Matrix (m e) (m e) ℝ) (AC : Matrix q q ℝ)
  (W' : Estimation.Weights m q d) (o : Evaluated N θ d)

/-- The weighting matrix for original moments that belongs to one for combined moments. -/
def conj : Estimation.Weights m q d := Spec.combination A AC * W' * (Spec.combination A AC)ᵀ

theorem ivWeights_combination : ivWeights (ivWeights (conj A AC W')) =
    blockDiagonal' A * ivWeights (ivWeights W') * (blockDiagonal' A)ᵀ := by
  unfold conj Spec.combination
  rw [ivWeights_conj, ivWeights_conj]

theorem covariances_combined (phi : Fin 2 → Fin 2 → ℝ) :
    (Spec.combined E A AC).covariances W' phi = E.covariances (conj A AC W') phi := by
  unfold Estimation.covariances
  rw [ivWeights_combination, ← ivCovariancesInverse_combined]
  rfl

theorem residuals_combined (C : Matrix (b ⊕ g) (b ⊕ g) ℝ) (phi : Fin 2 → Fin 2 → ℝ) (delta costs : Fin N → ℝ) :
    (Spec.combined E A AC).data.residuals C (ivWeights (ivWeights W')) phi delta costs =
      E.data.residuals C (ivWeights (ivWeights (conj A AC W'))) phi delta costs := by
  rw [ivWeights_combination]
  exact ivResiduals_combined A C (E.data.regressors phi) E.data.Z _ _

theorem dataParameters_combined (C : Matrix (b ⊕ g) (b ⊕ g) ℝ) (phi : Fin 2 → Fin 2 → ℝ) (delta costs : Fin N → ℝ) :
    (Spec.combined E A AC).data.linearParameters C (ivWeights (ivWeights W')) phi delta costs =
      E.data.linearParameters C (ivWeights (ivWeights (conj A AC W'))) phi delta costs := by
  rw [ivWeights_combination]
  exact ivParameters_combined A C (E.data.regressors phi) E.data.Z _ _

theorem jacobians_combined (C : Matrix (b ⊕ g) (b ⊕ g) ℝ) (phi : Fin 2 → Fin 2 → ℝ) (delta costs : Fin N → ℝ) :
    (Spec.combined E A AC).data.jacobians C (ivWeights (ivWeights W')) phi delta costs =
      E.data.jacobians C (ivWeights (ivWeights (conj A AC W'))) phi delta costs := by
  rw [ivWeights_combination]
  unfold MomentData.jacobians
  have hc : (Spec.combined E A AC).data.converts = E.data.converts := rfl
  rw [hc]
  by_cases h : E.data.converts
  · rw [if_pos h, if_pos h]
    exact ivJacobian_combined A C (E.data.regressors phi) E.data.Z _ _
  · rw [if_neg h, if_neg h]
    rfl

theorem dataXi_combined (C : Matrix (b ⊕ g) (b ⊕ g) ℝ) (phi : Fin 2 → Fin 2 → ℝ) (delta costs : Fin N → ℝ) :
    (Spec.combined E A AC).data.xi C (ivWeights (ivWeights W')) phi delta costs =
      E.data.xi C (ivWeights (ivWeights (conj A AC W'))) phi delta costs := by
  unfold MomentData.xi
  rw [residuals_combined, dataParameters_combined]
  rfl

theorem dataOmega_combined (C : Matrix (b ⊕ g) (b ⊕ g) ℝ) (phi : Fin 2 → Fin 2 → ℝ) (delta costs : Fin N → ℝ) :
    (Spec.combined E A AC).data.omega C (ivWeights (ivWeights W')) phi delta costs =
      E.data.omega C (ivWeights (ivWeights (conj A AC W'))) phi delta costs := by
  unfold MomentData.omega
  rw [residuals_combined, dataParameters_combined]
  rfl

theorem xiJacobian_combined (C : Matrix (b ⊕ g) (b ⊕ g) ℝ) (phi : Fin 2 → Fin 2 → ℝ) (delta costs : Fin N → ℝ) :
    (Spec.combined E A AC).data.xiJacobian C (ivWeights (ivWeights W')) phi delta costs =
      E.data.xiJacobian C (ivWeights (ivWeights (conj A AC W'))) phi delta costs := by
  unfold MomentData.xiJacobian
  rw [jacobians_combined]
  rfl

theorem omegaJacobian_combined (C : Matrix (b ⊕ g) (b ⊕ g) ℝ) (phi : Fin 2 → Fin 2 → ℝ) (delta costs : Fin N → ℝ) :
    (Spec.combined E A AC).data.omegaJacobian C (ivWeights (ivWeights W')) phi delta costs =
      E.data.omegaJacobian C (ivWeights (ivWeights (conj A AC W'))) phi delta costs := by
  unfold MomentData.omegaJacobian
  rw [jacobians_combined]
  rfl

theorem linearParameters_combined : (Spec.combined E A AC).linearParameters W' o = E.linearParameters (conj A AC W') o := by
  unfold Estimation.linearParameters
  rw [covariances_combined, dataParameters_combined]

theorem xi_combined : (Spec.combined E A AC).xi W' o = E.xi (conj A AC W') o := by
  unfold Estimation.xi
  rw [covariances_combined, dataXi_combined]

theorem omega_combined : (Spec.combined E A AC).omega W' o = E.omega (conj A AC W') o := by
  unfold Estimation.omega
  rw [covariances_combined, dataOmega_combined]

theorem concat_combination (x : MomentIndex m → ℝ) (y : q → ℝ) (z : d → ℝ) :
    (Spec.combination A AC)ᵀ *ᵥ concat (concat x y) z = concat (concat ((blockDiagonal' A)ᵀ *ᵥ x) (ACᵀ *ᵥ y)) z := by
  unfold Spec.combination concat
  rw [fromBlocks_transpose, fromBlocks_mulVec, fromBlocks_transpose, fromBlocks_mulVec]
  simp [Sum.elim_comp_inl, Sum.elim_comp_inr]

theorem covarianceMean_combined (ZC : Matrix (Fin N) q ℝ) (w : Fin N → ℝ) :
    (fun c => gmmMomentsMean (ε := Unit) (m := fun _ => q) (fun _ => w) (fun _ => ZC * AC) ⟨(), c⟩) =
      ACᵀ *ᵥ fun c => gmmMomentsMean (ε := Unit) (m := fun _ => q) (fun _ => w) (fun _ => ZC) ⟨(), c⟩ := by
  funext c
  have := congrFun (momentsMean_combined (ε := Unit) (m := fun _ => q) (fun _ => AC) (fun _ => ZC) (fun _ => w)) ⟨(), c⟩
  rw [this, blockDiagonal'_transpose_mulVec]
  rfl

theorem dataMeanMoments_combined (u : Fin nd ⊕ Fin ns → Fin N → ℝ) (xi omega : Fin N → ℝ) (mean : ℝ) (micro : d → ℝ) :
    (Spec.combined E A AC).data.meanMoments u xi omega mean micro =
      (Spec.combination A AC)ᵀ *ᵥ E.data.meanMoments u xi omega mean micro := by
  unfold MomentData.meanMoments
  rw [concat_combination, ← momentsMean_combined, ← covarianceMean_combined]
  rfl

theorem meanMoments_combined :
    (Spec.combined E A AC).meanMoments W' o = (Spec.combination A AC)ᵀ *ᵥ E.meanMoments (conj A AC W') o := by
  unfold Estimation.meanMoments
  rw [xi_combined, omega_combined, covariances_combined, residuals_combined, dataMeanMoments_combined]
  rfl

theorem quadratic_combined {c : Type} [Fintype c] (B V : Matrix c c ℝ) (x y : c → ℝ) :
    (Bᵀ *ᵥ x) ⬝ᵥ (V *ᵥ (Bᵀ *ᵥ y)) = x ⬝ᵥ ((B * V * Bᵀ) *ᵥ y) := by
  rw [mulVec_transpose, ← dotProduct_mulVec, mulVec_mulVec, mulVec_mulVec, Matrix.mul_assoc]

theorem objective_combined : (Spec.combined E A AC).objective W' o = E.objective (conj A AC W') o := by
  have h : ∀ (E : Estimation N nd ns m q b g θ d ι D) W, E.objective W o = gmmObjective N E.scale W (E.meanMoments W o) := fun _ _ => rfl
  rw [h, h, meanMoments_combined]
  unfold gmmObjective
  rw [quadratic_combined]
  rfl

theorem progressJacobian_combined (p : θ) :
    (Spec.combined E A AC).data.progressJacobian E.analytic (E.covariances (conj A AC W') o.phi) (ivWeights (ivWeights W')) o.phi o.delta
        o.costs (o.deltaJacobian.col p) (o.costsJacobian.col p) (E.location p) (o.microJacobian.col p) =
      (Spec.combination A AC)ᵀ *ᵥ E.data.progressJacobian E.analytic (E.covariances (conj A AC W') o.phi)
        (ivWeights (ivWeights (conj A AC W'))) o.phi o.delta o.costs (o.deltaJacobian.col p) (o.costsJacobian.col p) (E.location p)
        (o.microJacobian.col p) := by
  simp only [MomentData.progressJacobian]
  rw [concat_combination, ← jacobianMean_combined, dataXi_combined, dataOmega_combined, xiJacobian_combined, omegaJacobian_combined,
    jacobians_combined]
  congr 1
  congr 1
  exact covarianceMean_combined AC E.data.ZC _

theorem gradient_combined : (Spec.combined E A AC).gradient W' o = E.gradient (conj A AC W') o := by
  funext p
  have h1 : E.gradient (conj A AC W') o p = gmmGradient N E.scale (conj A AC W') (E.meanMoments (conj A AC W') o)
      (E.data.progressJacobian E.analytic (E.covariances (conj A AC W') o.phi) (ivWeights (ivWeights (conj A AC W'))) o.phi o.delta
        o.costs (o.deltaJacobian.col p) (o.costsJacobian.col p) (E.location p) (o.microJacobian.col p)) := rfl
  have h2 : (Spec.combined E A AC).gradient W' o p = gmmGradient N E.scale W' ((Spec.combined E A AC).meanMoments W' o)
      ((Spec.combined E A AC).data.progressJacobian E.analytic ((Spec.combined E A AC).covariances W' o.phi) (ivWeights (ivWeights W'))
        o.phi o.delta o.costs (o.deltaJacobian.col p) (o.costsJacobian.col p) (E.location p) (o.microJacobian.col p)) := rfl
  rw [h1, h2, meanMoments_combined, covariances_combined, progressJacobian_combined]
  unfold gmmGradient
  rw [quadratic_combined, conj]

theorem search_combined (step : ℕ) (start : θ → ℝ) (n : ℕ) (history : List ((θ → ℝ) × ℝ × (θ → ℝ))) (s : D) :
    (Spec.combined E A AC).search W' step start n history s = E.search (conj A AC W') step start n history s := by
  induction n generalizing history s with
  | zero => rfl
  | succ n ih =>
    unfold Estimation.search
    have h : (Spec.combined E A AC).strategy = E.strategy := rfl
    have h2 : (Spec.combined E A AC).markets = E.markets := rfl
    rw [h]
    cases E.strategy step start history with
    | inr done => rfl
    | inl theta =>
      simp only [h2, objective_combined, gradient_combined]
      exact ih _ _

/-! ## Weighting matrices -/

/-- Positions of aggregate moments. -/
def momentEquiv : MomentIndex m ⊕ q ≃ MomentIndex (withCovariance m q) where
  toFun := momentPosition
  invFun c := match c with
    | ⟨.inl e, i⟩ => .inl ⟨e, i⟩
    | ⟨.inr _, i⟩ => .inr i
  left_inv c := by rcases c with c | c <;> rfl
  right_inv c := by rcases c with ⟨e | e, i⟩ <;> rfl

/-- Combinations of all instruments. -/
def allCombinations : (e : (Fin nd ⊕ Fin ns) ⊕ Unit) → Matrix (withCovariance m q e) (withCovariance m q e) ℝ
  | .inl e => A e
  | .inr _ => AC

theorem allCombinations_submatrix : (blockDiagonal' (allCombinations A AC)).submatrix momentEquiv momentEquiv =
    fromBlocks (blockDiagonal' A) 0 0 AC := by
  ext a c
  rw [submatrix_apply]
  rcases a with ⟨e, i⟩ | i <;> rcases c with ⟨e', j⟩ | j
  · rw [fromBlocks_apply₁₁]
    by_cases h : e = e'
    · subst h
      rw [blockDiagonal'_apply_eq]
      exact blockDiagonal'_apply_eq (allCombinations A AC) (.inl e) i j
    · rw [blockDiagonal'_apply_ne _ _ _ h]
      exact blockDiagonal'_apply_ne (allCombinations A AC) (k := .inl e) (k' := .inl e') i j (by simpa using h)
  · exact blockDiagonal'_apply_ne (allCombinations A AC) (k := .inl e) (k' := .inr ()) i j (by simp)
  · exact blockDiagonal'_apply_ne (allCombinations A AC) (k := .inr ()) (k' := .inl e') i j (by simp)
  · exact blockDiagonal'_apply_eq (allCombinations A AC) (.inr ()) i j

theorem allInstruments_combined :
    (Spec.combined E A AC).data.allInstruments = fun e => E.data.allInstruments e * allCombinations A AC e := by
  funext e
  rcases e with e | e <;> rfl

theorem sampleCovariances_conj {c : Type} [Fintype c] (Q : Matrix c c ℝ) (samples : List (c → ℝ)) :
    sampleCovariances (samples.map (Qᵀ *ᵥ ·)) = Qᵀ * sampleCovariances samples * Q := by
  have h : ∀ l : List (c → ℝ), ∃ f : Fin l.length → c → ℝ, (∀ r a, f r a = l[r] a - (∑ r : Fin l.length, l[r] a) / (l.length : ℝ)) := by
    intro l
    exact ⟨_, fun _ _ => rfl⟩
  obtain ⟨f, hf⟩ := h samples
  have hlen : (samples.map (Qᵀ *ᵥ ·)).length = samples.length := by simp
  have hsum : ∀ F : (c → ℝ) → ℝ, ∑ r : Fin (samples.map (Qᵀ *ᵥ ·)).length, F (samples.map (Qᵀ *ᵥ ·))[r] =
      ∑ r : Fin samples.length, F (Qᵀ *ᵥ samples[r]) := by
    intro F
    refine Fintype.sum_equiv (finCongr hlen) _ _ fun r => ?_
    simp
  refine outer_conj Q Finset.univ f (fun r => Qᵀ *ᵥ f r) _ _ ((samples.length : ℝ) - 1) ?_ ?_ fun _ _ => rfl
  · intro a b
    simp only [sampleCovariances, of_apply, hf]
  · intro a b
    simp only [sampleCovariances, of_apply]
    rw [hsum fun x => (x a - (∑ r : Fin (samples.map (Qᵀ *ᵥ ·)).length, (samples.map (Qᵀ *ᵥ ·))[r] a) /
      ((samples.map (Qᵀ *ᵥ ·)).length : ℝ)) * (x b - (∑ r : Fin (samples.map (Qᵀ *ᵥ ·)).length, (samples.map (Qᵀ *ᵥ ·))[r] b) /
      ((samples.map (Qᵀ *ᵥ ·)).length : ℝ)), hsum fun x => x a, hsum fun x => x b, hlen]
    have hv : ∀ r a, (Qᵀ *ᵥ f r) a = (Qᵀ *ᵥ samples[r]) a - (∑ r : Fin samples.length, (Qᵀ *ᵥ samples[r]) a) / (samples.length : ℝ) := by
      intro r a
      simp only [mulVec, dotProduct, hf, mul_sub, Finset.sum_sub_distrib]
      congr 1
      rw [Finset.sum_comm, Finset.sum_div]
      refine Finset.sum_congr rfl fun i _ => ?_
      rw [← Finset.mul_sum, mul_div_assoc]
    simp only [hv]

theorem simulationCovariances_combined (samples : List (Evaluated N θ d)) :
    (Spec.combined E A AC).simulationCovariances W' samples =
      (Spec.combination A AC)ᵀ * E.simulationCovariances (conj A AC W') samples * Spec.combination A AC := by
  unfold Estimation.simulationCovariances
  rw [← sampleCovariances_conj, List.map_map]
  congr 1
  refine List.map_congr_left fun o _ => ?_
  exact meanMoments_combined E A AC W' o

theorem momentCovariancesMatrix_combined (hsort : IsArgsort E.ids E.sort) (type : CovarianceType) (center : Bool)
    (samples : List (Evaluated N θ d)) :
    (Spec.combined E A AC).momentCovariances type center W' o samples =
      (Spec.combination A AC)ᵀ * E.momentCovariances type center (conj A AC W') o samples * Spec.combination A AC := by
  unfold Estimation.momentCovariances
  rw [simulationCovariances_combined, Matrix.mul_add, Matrix.add_mul]
  congr 1
  rw [xi_combined, omega_combined, allInstruments_combined]
  have h1 : ∀ S : Matrix (MomentIndex (withCovariance m q)) (MomentIndex (withCovariance m q)) ℝ,
      (Matrix.of fun a c => S (momentPosition a) (momentPosition c)) = S.submatrix (momentEquiv (m := m) (q := q)) momentEquiv :=
    fun S => rfl
  have h2 : (Spec.combined E A AC).data.allErrors = E.data.allErrors := by
    funext phi xi omega mean e
    rcases e with e | e <;> rfl
  have h3 : (Spec.combined E A AC).ids = E.ids := rfl
  have h4 : (Spec.combined E A AC).sort = E.sort := rfl
  have h5 : (Spec.combined E A AC).mean = E.mean := rfl
  rw [h1, h1, h2, h3, h4, h5, momentCovariances_combined _ _ _ type E.ids E.sort hsort center]
  unfold Spec.combination
  rw [fromBlocks_transpose, fromBlocks_multiply, fromBlocks_multiply, ← allCombinations_submatrix, transpose_submatrix]
  simp only [Matrix.submatrix_mul_equiv, Matrix.zero_mul, Matrix.mul_zero, add_zero, zero_add, transpose_zero, transpose_one,
    Matrix.one_mul, Matrix.mul_one]

theorem combination_mul (A' : (e : Fin nd ⊕ Fin ns) → Matrix (m e) (m e) ℝ) (AC' : Matrix q q ℝ) :
    (Spec.combination A AC * Spec.combination A' AC' : Estimation.Weights m q d) = Spec.combination (fun e => A e * A' e) (AC * AC') := by
  unfold Spec.combination
  rw [fromBlocks_multiply, fromBlocks_multiply, blockDiagonal'_mul]
  simp

variable [∀ e, DecidableEq (m e)] [DecidableEq q]

theorem combination_one : (Spec.combination (fun _ => 1) 1 : Estimation.Weights m q d) = 1 := by
  unfold Spec.combination
  have h : blockDiagonal' (fun e => (1 : Matrix (m e) (m e) ℝ)) = 1 := blockDiagonal'_one
  rw [h, fromBlocks_one, fromBlocks_one]

theorem combination_unit (hA : ∀ e, IsUnit (A e)) (hAC : IsUnit AC) :
    ∃ B : Estimation.Weights m q d, Spec.combination A AC * B = 1 ∧ B * Spec.combination A AC = 1 := by
  choose U hU using hA
  obtain ⟨V, hV⟩ := hAC
  refine ⟨Spec.combination (fun e => ((U e)⁻¹ : (Matrix (m e) (m e) ℝ)ˣ)) (V⁻¹ : (Matrix q q ℝ)ˣ), ?_, ?_⟩
  · rw [combination_mul, ← combination_one]
    congr 1
    · funext e
      rw [← hU e]
      exact (U e).mul_inv
    · rw [← hV]
      exact V.mul_inv
  · rw [combination_mul, ← combination_one]
    congr 1
    · funext e
      rw [← hU e]
      exact (U e).inv_mul
    · rw [← hV]
      exact V.inv_mul

theorem inverts_conj {c : Type} [Fintype c] [DecidableEq c] (invert : Matrix c c ℝ → Matrix c c ℝ) (hinv : Spec.Inverts invert)
    (B B' S : Matrix c c ℝ) (h1 : B * B' = 1) (h2 : B' * B = 1) (hS : IsUnit S) : B * invert (Bᵀ * S * B) * Bᵀ = invert S := by
  obtain ⟨U, rfl⟩ := hS
  have hT : (U : Matrix c c ℝ) * (U⁻¹ : (Matrix c c ℝ)ˣ) = 1 := U.mul_inv
  rw [hinv _ _ hT]
  have h3 : (Bᵀ * (U : Matrix c c ℝ) * B) * (B' * (U⁻¹ : (Matrix c c ℝ)ˣ) * B'ᵀ) = 1 := by
    calc (Bᵀ * (U : Matrix c c ℝ) * B) * (B' * (U⁻¹ : (Matrix c c ℝ)ˣ) * B'ᵀ)
        = Bᵀ * (U : Matrix c c ℝ) * (B * B') * (U⁻¹ : (Matrix c c ℝ)ˣ) * B'ᵀ := by simp only [Matrix.mul_assoc]
      _ = Bᵀ * ((U : Matrix c c ℝ) * (U⁻¹ : (Matrix c c ℝ)ˣ)) * B'ᵀ := by rw [h1, Matrix.mul_one]; simp only [Matrix.mul_assoc]
      _ = (B' * B)ᵀ := by rw [hT, Matrix.mul_one, transpose_mul]
      _ = 1 := by rw [h2, transpose_one]
  rw [hinv _ _ h3]
  calc B * (B' * (U⁻¹ : (Matrix c c ℝ)ˣ) * B'ᵀ) * Bᵀ = (B * B') * (U⁻¹ : (Matrix c c ℝ)ˣ) * (B * B')ᵀ := by
        rw [transpose_mul]; simp only [Matrix.mul_assoc]
    _ = (U⁻¹ : (Matrix c c ℝ)ˣ) := by rw [h1, transpose_one, Matrix.mul_one, Matrix.one_mul]

theorem symmetrized_conj {c : Type} [Fintype c] (B V : Matrix c c ℝ) : symmetrized (B * V * Bᵀ) = B * symmetrized V * Bᵀ := by
  have h : ∀ V : Matrix c c ℝ, symmetrized V = (1 / 2 : ℝ) • (V + Vᵀ) := by
    intro V
    ext a b
    simp only [symmetrized, Matrix.smul_apply, Matrix.add_apply, transpose_apply, smul_eq_mul]
    ring
  rw [h, h, Matrix.mul_smul, Matrix.smul_mul, Matrix.mul_add, Matrix.add_mul, transpose_mul, transpose_mul, transpose_transpose]
  simp only [Matrix.mul_assoc]

theorem weights_conj {c : Type} [Fintype c] [DecidableEq c] (invert : Matrix c c ℝ → Matrix c c ℝ) (hinv : Spec.Inverts invert)
    (B B' S : Matrix c c ℝ) (h1 : B * B' = 1) (h2 : B' * B = 1) (hS : IsUnit S) :
    B * gmmWeights (invert (Bᵀ * S * B)) * Bᵀ = gmmWeights (invert S) := by
  unfold gmmWeights
  rw [← symmetrized_conj, inverts_conj invert hinv B B' S h1 h2 hS]

/-! ## Default weighting matrices -/

theorem defaultCovariances_combined : (Spec.combined E A AC).defaultCovariances =
    (fromBlocks (blockDiagonal' A) 0 0 AC)ᵀ * E.defaultCovariances * fromBlocks (blockDiagonal' A) 0 0 AC := by
  unfold Estimation.defaultCovariances
  rw [fromBlocks_transpose, fromBlocks_multiply, fromBlocks_multiply, blockDiagonal'_transpose]
  simp only [Matrix.zero_mul, Matrix.mul_zero, add_zero, zero_add, transpose_zero]
  rw [← blockDiagonal'_mul, ← blockDiagonal'_mul]
  congr 1
  · congr 1
    funext e
    have : (Spec.combined E A AC).data.Z e = E.data.Z e * A e := rfl
    rw [this, transpose_mul, Matrix.mul_smul, Matrix.smul_mul]
    simp only [Matrix.mul_assoc]
  · have : (Spec.combined E A AC).data.ZC = E.data.ZC * AC := rfl
    rw [this, transpose_mul, Matrix.mul_smul, Matrix.smul_mul]
    simp only [Matrix.mul_assoc]

theorem aggregate_unit (hA : ∀ e, IsUnit (A e)) (hAC : IsUnit AC) :
    ∃ B : Matrix (MomentIndex m ⊕ q) (MomentIndex m ⊕ q) ℝ, fromBlocks (blockDiagonal' A) 0 0 AC * B = 1 ∧
      B * fromBlocks (blockDiagonal' A) 0 0 AC = 1 := by
  obtain ⟨B, h1, h2⟩ := combination_unit (d := Empty) A AC hA hAC
  refine ⟨B.toBlocks₁₁, ?_, ?_⟩
  · have := congrArg toBlocks₁₁ h1
    rw [← fromBlocks_toBlocks B, Spec.combination, fromBlocks_multiply, toBlocks_fromBlocks₁₁, ← fromBlocks_one, toBlocks_fromBlocks₁₁,
      Matrix.zero_mul, add_zero] at this
    exact this
  · have := congrArg toBlocks₁₁ h2
    rw [← fromBlocks_toBlocks B, Spec.combination, fromBlocks_multiply, toBlocks_fromBlocks₁₁, ← fromBlocks_one, toBlocks_fromBlocks₁₁,
      Matrix.mul_zero, add_zero] at this
    exact this

theorem fromBlocks_conj (P V : Matrix (MomentIndex m ⊕ q) (MomentIndex m ⊕ q) ℝ) :
    (fromBlocks P 0 0 1 * fromBlocks V 0 0 0 * (fromBlocks P 0 0 1)ᵀ : Estimation.Weights m q d) = fromBlocks (P * V * Pᵀ) 0 0 0 := by
  rw [fromBlocks_transpose, fromBlocks_multiply, fromBlocks_multiply]
  simp

theorem defaultWeights_combined (hinv : Spec.Inverts E.invertAggregate) (hA : ∀ e, IsUnit (A e)) (hAC : IsUnit AC)
    (hS : IsUnit E.defaultCovariances) : conj A AC (Spec.combined E A AC).defaultWeights = E.defaultWeights := by
  obtain ⟨B, h1, h2⟩ := aggregate_unit A AC hA hAC
  unfold conj Estimation.defaultWeights
  rw [defaultCovariances_combined]
  unfold Spec.combination
  rw [fromBlocks_conj]
  congr 1
  exact inverts_conj E.invertAggregate hinv _ B _ h1 h2 hS

/-! ## Steps -/

theorem final_combined (step : ℕ) (s : GmmState (Estimation.Weights m q d) (θ → ℝ) D) (theta : θ → ℝ) :
    (Spec.combined E A AC).final step s theta = E.final step { s with W := conj A AC s.W } theta ∧
      (Spec.combined E A AC).lastDelta step s = E.lastDelta step { s with W := conj A AC s.W } := by
  have h : (Spec.combined E A AC).lastDelta step s = E.lastDelta step { s with W := conj A AC s.W } := by
    unfold Estimation.lastDelta
    have hb : (Spec.combined E A AC).budget = E.budget := rfl
    rw [hb, search_combined]
  refine ⟨?_, h⟩
  unfold Estimation.final
  rw [h]
  rfl

theorem gmmStep_combined (hsort : IsArgsort E.ids E.sort) (hinv : Spec.Inverts E.invertMoments) (hA : ∀ e, IsUnit (A e))
    (hAC : IsUnit AC) (P step : ℕ) (s : GmmState (Estimation.Weights m q d) (θ → ℝ) D)
    (last : Option (StepResults (Estimation.Weights m q d) (θ → ℝ) D))
    (hS : IsUnit (E.weightsCovariances
      (gmmStep E.oracle P step { s with W := conj A AC s.W } (last.map (Spec.withWeights (conj A AC)))))) :
    gmmStep E.oracle P step { s with W := conj A AC s.W } (last.map (Spec.withWeights (conj A AC))) =
      Spec.withWeights (conj A AC) (gmmStep (Spec.combined E A AC).oracle P step s last) := by
  obtain ⟨B, h1, h2⟩ := combination_unit (d := d) A AC hA hAC
  have hopt : (Spec.combined E A AC).oracle.optimize step s = E.oracle.optimize step { s with W := conj A AC s.W } := by
    unfold Estimation.oracle
    have hb : (Spec.combined E A AC).budget = E.budget := rfl
    simp only [hb, search_combined]
  set theta := (if decide (P > 0 ∧ step > 0) then E.oracle.optimize step { s with W := conj A AC s.W } else (s.theta, ⟨true, 0, 0⟩)).1
    with htheta
  have hW : E.updatedWeights (conj A AC s.W) (E.final step { s with W := conj A AC s.W } theta).1
        (E.resampled (E.lastDelta step { s with W := conj A AC s.W }) theta) =
      conj A AC ((Spec.combined E A AC).updatedWeights s.W ((Spec.combined E A AC).final step s theta).1
        ((Spec.combined E A AC).resampled ((Spec.combined E A AC).lastDelta step s) theta)) := by
    rw [(final_combined E A AC step s theta).1, (final_combined E A AC step s theta).2]
    unfold Estimation.updatedWeights
    rw [momentCovariancesMatrix_combined E A AC s.W _ hsort]
    exact (weights_conj E.invertMoments hinv _ B _ h1 h2 hS).symm
  have hfin : E.oracle.finish step { s with W := conj A AC s.W } theta =
      (((Spec.combined E A AC).oracle.finish step s theta).1, conj A AC ((Spec.combined E A AC).oracle.finish step s theta).2.1,
        ((Spec.combined E A AC).oracle.finish step s theta).2.2) := by
    unfold Estimation.oracle
    simp only
    rw [hW, (final_combined E A AC step s theta).1]
  unfold gmmStep
  simp only [hopt, ← htheta, hfin]
  cases last <;> rfl

theorem gmmLoop_combined (hsort : IsArgsort E.ids E.sort) (hinv : Spec.Inverts E.invertMoments) (hA : ∀ e, IsUnit (A e))
    (hAC : IsUnit AC) (method : GmmMethod) (P step : ℕ) (s : GmmState (Estimation.Weights m q d) (θ → ℝ) D)
    (last : Option (StepResults (Estimation.Weights m q d) (θ → ℝ) D))
    (hS : ∀ r ∈ gmmLoop E.oracle method P step { s with W := conj A AC s.W } (last.map (Spec.withWeights (conj A AC))),
      IsUnit (E.weightsCovariances r)) :
    gmmLoop E.oracle method P step { s with W := conj A AC s.W } (last.map (Spec.withWeights (conj A AC))) =
      (gmmLoop (Spec.combined E A AC).oracle method P step s last).map (Spec.withWeights (conj A AC)) := by
  induction hn : 2 - step generalizing step s last with
  | zero =>
    have hl : step ≥ 2 ∨ (method = .oneStep ∧ step = 1) := Or.inl (by omega)
    rw [gmmLoop_last _ _ _ _ _ _ hl] at hS ⊢
    rw [gmmLoop_last _ _ _ _ _ _ hl, gmmStep_combined E A AC hsort hinv hA hAC P step s last (hS _ (by simp))]
    rfl
  | succ n ih =>
    by_cases hl : step ≥ 2 ∨ (method = .oneStep ∧ step = 1)
    · rw [gmmLoop_last _ _ _ _ _ _ hl] at hS ⊢
      rw [gmmLoop_last _ _ _ _ _ _ hl, gmmStep_combined E A AC hsort hinv hA hAC P step s last (hS _ (by simp))]
      rfl
    · rw [gmmLoop_next _ _ _ _ _ _ hl] at hS ⊢
      rw [gmmLoop_next _ _ _ _ _ _ hl, List.map_cons]
      have hstep := gmmStep_combined E A AC hsort hinv hA hAC P step s last (hS _ (by simp))
      rw [hstep] at hS ⊢
      congr 1
      exact ih (step + 1) (nextState (gmmStep (Spec.combined E A AC).oracle P step s last))
        (some (gmmStep (Spec.combined E A AC).oracle P step s last)) (fun r hr => hS r (List.mem_cons_of_mem _ hr)) (by omega)

/-! ## Results -/

section Results

variable (r : StepResults (Estimation.Weights m q d) (θ → ℝ) D)

theorem outcome_combined : E.outcome (Spec.withWeights (conj A AC) r) = (Spec.combined E A AC).outcome r := by
  unfold Estimation.outcome
  rw [(final_combined E A AC r.step r.start r.theta).1]
  rfl

theorem samples_combined : (Spec.combined E A AC).resampled ((Spec.combined E A AC).lastDelta r.step r.start) r.theta =
    E.resampled (E.lastDelta (Spec.withWeights (conj A AC) r).step (Spec.withWeights (conj A AC) r).start)
      (Spec.withWeights (conj A AC) r).theta := by
  rw [(final_combined E A AC r.step r.start r.theta).2]
  rfl

theorem weightsCovariances_combined (hsort : IsArgsort E.ids E.sort) : (Spec.combined E A AC).weightsCovariances r =
    (Spec.combination A AC)ᵀ * E.weightsCovariances (Spec.withWeights (conj A AC) r) * Spec.combination A AC := by
  unfold Estimation.weightsCovariances
  rw [samples_combined, ← outcome_combined, momentCovariancesMatrix_combined E A AC r.start.W _ hsort]
  rfl

theorem reportedCovariances_combined (hsort : IsArgsort E.ids E.sort) : (Spec.combined E A AC).reportedCovariances r =
    (Spec.combination A AC)ᵀ * E.reportedCovariances (Spec.withWeights (conj A AC) r) * Spec.combination A AC := by
  unfold Estimation.reportedCovariances
  have h1 : (Spec.combined E A AC).seType = E.seType := rfl
  have h2 : (Spec.combined E A AC).wType = E.wType := rfl
  have h3 : (Spec.combined E A AC).center = E.center := rfl
  rw [h1, h2, h3]
  by_cases h : E.seType ≠ E.wType ∨ E.center = true
  · rw [if_pos h, if_pos h, samples_combined, ← outcome_combined, momentCovariancesMatrix_combined E A AC r.start.W _ hsort]
    rfl
  · rw [if_neg h, if_neg h, weightsCovariances_combined E A AC r hsort]

theorem weightsForCovariances_combined (hsort : IsArgsort E.ids E.sort) (hinv : Spec.Inverts E.invertMoments) (hA : ∀ e, IsUnit (A e))
    (hAC : IsUnit AC) (hS : IsUnit (E.reportedCovariances (Spec.withWeights (conj A AC) r))) :
    E.weightsForCovariances (Spec.withWeights (conj A AC) r) = conj A AC ((Spec.combined E A AC).weightsForCovariances r) := by
  obtain ⟨B, h1, h2⟩ := combination_unit (d := d) A AC hA hAC
  unfold Estimation.weightsForCovariances
  have h3 : (Spec.combined E A AC).seType = E.seType := rfl
  have h4 : (Spec.withWeights (conj A AC) r).step = r.step := rfl
  rw [h3, h4]
  by_cases h : E.seType.isUnadjusted && r.step == 1
  · rw [if_pos h, if_pos h, reportedCovariances_combined E A AC r hsort]
    exact (weights_conj E.invertMoments hinv _ B _ h1 h2 hS).symm
  · rw [if_neg h, if_neg h]
    rfl

theorem meanG_combined (phi : Fin 2 → Fin 2 → ℝ) (xiByTheta omegaByTheta : Matrix (Fin N) θ ℝ) (xi omega : Fin N → ℝ)
    (location : θ → Option (Fin 2 × Fin 2)) (microByTheta : Matrix d θ ℝ) :
    (Spec.combined E A AC).data.meanG phi xiByTheta omegaByTheta xi omega location microByTheta =
      (Spec.combination A AC)ᵀ * E.data.meanG phi xiByTheta omegaByTheta xi omega location microByTheta := by
  ext a p
  have h : ((Spec.combination A AC)ᵀ * E.data.meanG phi xiByTheta omegaByTheta xi omega location microByTheta :
      Matrix ((MomentIndex m ⊕ q) ⊕ d) (θ ⊕ b ⊕ g) ℝ) a p = ((Spec.combination A AC)ᵀ *ᵥ fun c => E.data.meanG phi xiByTheta omegaByTheta xi omega location microByTheta c p) a := rfl
  rw [h]
  simp only [MomentData.meanG, of_apply]
  have h2 : ∀ f : (MomentIndex m ⊕ q) ⊕ d → ℝ, (fun c => f c) = f := fun f => rfl
  rw [h2, concat_combination, ← jacobianMean_combined]
  congr 1
  congr 1
  exact covarianceMean_combined AC E.data.ZC _

theorem jacobian_combined : (Spec.combined E A AC).jacobian r =
    (Spec.combination A AC)ᵀ * E.jacobian (Spec.withWeights (conj A AC) r) := by
  unfold Estimation.jacobian MomentData.momentsJacobian
  simp only [outcome_combined, covariances_combined, meanG_combined, dataXi_combined, dataOmega_combined, xiJacobian_combined,
    omegaJacobian_combined]
  rfl

theorem information_combined (hsort : IsArgsort E.ids E.sort) (hinv : Spec.Inverts E.invertMoments) (hA : ∀ e, IsUnit (A e))
    (hAC : IsUnit AC) (hS : IsUnit (E.reportedCovariances (Spec.withWeights (conj A AC) r))) :
    ((Spec.combined E A AC).jacobian r)ᵀ * (Spec.combined E A AC).weightsForCovariances r * (Spec.combined E A AC).jacobian r =
      (E.jacobian (Spec.withWeights (conj A AC) r))ᵀ * E.weightsForCovariances (Spec.withWeights (conj A AC) r) *
        E.jacobian (Spec.withWeights (conj A AC) r) := by
  rw [weightsForCovariances_combined E A AC r hsort hinv hA hAC hS, jacobian_combined, conj, transpose_mul, transpose_transpose]
  simp only [Matrix.mul_assoc]

theorem gmmParameterCovariances_conj {c p : Type} [Fintype c] [Fintype p] (B V S : Matrix c c ℝ) (G : Matrix c p ℝ)
    (inverse : Matrix p p ℝ) (unadjusted : Bool) :
    gmmParameterCovariances V (Bᵀ * S * B) (Bᵀ * G) inverse unadjusted = gmmParameterCovariances (B * V * Bᵀ) S G inverse unadjusted := by
  unfold gmmParameterCovariances
  cases unadjusted
  · simp only [Bool.false_eq_true, if_false, transpose_mul, transpose_transpose, Matrix.mul_assoc]
  · rw [if_pos rfl, if_pos rfl]

theorem gmmParameterSensitivity_conj {c p : Type} [Fintype c] [Fintype p] (B V : Matrix c c ℝ) (G : Matrix c p ℝ)
    (inverse : Matrix p p ℝ) : gmmParameterSensitivity (B * V * Bᵀ) G inverse = gmmParameterSensitivity V (Bᵀ * G) inverse * Bᵀ := by
  unfold gmmParameterSensitivity
  simp only [transpose_mul, transpose_transpose, Matrix.mul_assoc]

theorem parameterCovariances_combined (hsort : IsArgsort E.ids E.sort) (hinv : Spec.Inverts E.invertMoments) (hA : ∀ e, IsUnit (A e))
    (hAC : IsUnit AC) (hS : IsUnit (E.reportedCovariances (Spec.withWeights (conj A AC) r))) :
    (Spec.combined E A AC).parameterCovariances r = E.parameterCovariances (Spec.withWeights (conj A AC) r) := by
  have h := information_combined E A AC r hsort hinv hA hAC hS
  unfold Estimation.parameterCovariances
  rw [h, reportedCovariances_combined E A AC r hsort, jacobian_combined, gmmParameterCovariances_conj,
    weightsForCovariances_combined E A AC r hsort hinv hA hAC hS, conj]
  rfl

theorem parameterSensitivity_combined (hsort : IsArgsort E.ids E.sort) (hinv : Spec.Inverts E.invertMoments) (hA : ∀ e, IsUnit (A e))
    (hAC : IsUnit AC) (hS : IsUnit (E.reportedCovariances (Spec.withWeights (conj A AC) r))) :
    E.parameterSensitivity (Spec.withWeights (conj A AC) r) =
      (Spec.combined E A AC).parameterSensitivity r * (Spec.combination A AC)ᵀ := by
  have h := information_combined E A AC r hsort hinv hA hAC hS
  unfold Estimation.parameterSensitivity
  rw [h, jacobian_combined, ← gmmParameterSensitivity_conj, weightsForCovariances_combined E A AC r hsort hinv hA hAC hS, conj]
  rfl

end Results

/-! ## C95 -/

/-- **C95.** Two problems differ only by their instruments: within each set of instruments (those of each demand-side and each supply-side
moment type, and covariance instruments), the second problem's are any invertible combinations of the first one's, such as the same
instruments in other units or in another order. If both start with the same `theta`, the same `delta` and weighting matrices that belong
to each other, then each GMM step of both gives the same estimates, the same `delta` and the same counts of iterations and evaluations,
however the optimizer uses values of the objective and its gradient, for one-step and two-step GMM and with or without an initial
update. Updated weighting matrices again belong to each other. Covariances of moments of the first problem have to be invertible. -/
theorem C95_steps (hsort : IsArgsort E.ids E.sort) (hinv : Spec.Inverts E.invertMoments) (hA : ∀ e, IsUnit (A e)) (hAC : IsUnit AC)
    (method : GmmMethod) (initialUpdate : Bool) (W : Estimation.Weights m q d) (theta : θ → ℝ) (delta : D)
    (hS : ∀ r ∈ E.solve method initialUpdate ⟨Spec.combination A AC * W * (Spec.combination A AC)ᵀ, theta, delta⟩,
      IsUnit (E.weightsCovariances r)) :
    E.solve method initialUpdate ⟨Spec.combination A AC * W * (Spec.combination A AC)ᵀ, theta, delta⟩ =
      ((Spec.combined E A AC).solve method initialUpdate ⟨W, theta, delta⟩).map
        (Spec.withWeights fun W => Spec.combination A AC * W * (Spec.combination A AC)ᵀ) :=
  gmmLoop_combined E A AC hsort hinv hA hAC method _ _ ⟨W, theta, delta⟩ none hS

/-- **C95.** The same with default weighting matrices, which belong to each other if there is no collinearity. -/
theorem C95_default (hsort : IsArgsort E.ids E.sort) (hagg : Spec.Inverts E.invertAggregate) (hinv : Spec.Inverts E.invertMoments)
    (hA : ∀ e, IsUnit (A e)) (hAC : IsUnit AC) (method : GmmMethod) (initialUpdate : Bool) (theta : θ → ℝ) (delta : D)
    (hZ : IsUnit E.defaultCovariances)
    (hS : ∀ r ∈ E.solve method initialUpdate ⟨E.defaultWeights, theta, delta⟩, IsUnit (E.weightsCovariances r)) :
    E.solve method initialUpdate ⟨E.defaultWeights, theta, delta⟩ =
      ((Spec.combined E A AC).solve method initialUpdate ⟨(Spec.combined E A AC).defaultWeights, theta, delta⟩).map
        (Spec.withWeights fun W => Spec.combination A AC * W * (Spec.combination A AC)ᵀ) := by
  have h := defaultWeights_combined E A AC hagg hA hAC hZ
  rw [← h] at hS ⊢
  exact C95_steps E A AC hsort hinv hA hAC method initialUpdate _ theta delta hS

/-- **C95.** In steps that belong to each other, linear parameters, structural errors, the objective, the gradient, covariances of
parameters and standard errors are the same. What the estimates' sensitivity to original moments is follows from that to combined
ones by the chain rule. -/
theorem C95_results (hsort : IsArgsort E.ids E.sort) (hinv : Spec.Inverts E.invertMoments) (hA : ∀ e, IsUnit (A e)) (hAC : IsUnit AC)
    (r r' : StepResults (Estimation.Weights m q d) (θ → ℝ) D)
    (hr : r = Spec.withWeights (fun W => Spec.combination A AC * W * (Spec.combination A AC)ᵀ) r')
    (hS : IsUnit (E.reportedCovariances r)) :
    E.linearParameters r.start.W (E.outcome r) =
        (Spec.combined E A AC).linearParameters r'.start.W ((Spec.combined E A AC).outcome r') ∧
      E.xi r.start.W (E.outcome r) = (Spec.combined E A AC).xi r'.start.W ((Spec.combined E A AC).outcome r') ∧
      E.omega r.start.W (E.outcome r) = (Spec.combined E A AC).omega r'.start.W ((Spec.combined E A AC).outcome r') ∧
      E.objective r.start.W (E.outcome r) = (Spec.combined E A AC).objective r'.start.W ((Spec.combined E A AC).outcome r') ∧
      E.gradient r.start.W (E.outcome r) = (Spec.combined E A AC).gradient r'.start.W ((Spec.combined E A AC).outcome r') ∧
      E.parameterCovariances r = (Spec.combined E A AC).parameterCovariances r' ∧
      E.standardErrors r = (Spec.combined E A AC).standardErrors r' ∧
      E.parameterSensitivity r = (Spec.combined E A AC).parameterSensitivity r' * (Spec.combination A AC)ᵀ := by
  subst hr
  have h1 := outcome_combined E A AC r'
  have h2 := parameterCovariances_combined E A AC r' hsort hinv hA hAC hS
  refine ⟨?_, ?_, ?_, ?_, ?_, h2.symm, ?_, parameterSensitivity_combined E A AC r' hsort hinv hA hAC hS⟩
  · rw [linearParameters_combined, ← h1]; rfl
  · rw [xi_combined, ← h1]; rfl
  · rw [omega_combined, ← h1]; rfl
  · rw [objective_combined, ← h1]; rfl
  · rw [gradient_combined, ← h1]; rfl
  · funext p
    unfold Estimation.standardErrors
    rw [h2]
    rfl

end Evaluations

/-! ## Hypotheses of C95 are met -/

section Witness

open Classical

/-- Two products in one market with mean utilities `1 + theta ^ 2` and `2`, two instruments, and an optimizer that evaluates the objective
once and follows the gradient. -/
noncomputable def unitsWitness : Estimation 2 1 0 (fun _ => Fin 2) Empty Empty Empty (Fin 1) Empty ℕ Unit where
  data := ⟨id, fun _ => .levels, fun _ => .levels, false, fun _ => 1, Matrix.of fun _ c => c.elim, Matrix.of fun _ c => c.elim,
    Matrix.of fun _ c => c.elim⟩
  location _ := none
  mean := 0
  scale := true
  analytic := true
  wType := .robust
  seType := .unadjusted
  center := false
  ids i := i
  sort := [0, 1]
  markets _ theta := (⟨fun _ _ => 0, ![1 + theta 0 ^ 2, 2], fun _ => 0, Matrix.of ![![2 * theta 0], ![0]], 0, fun c => c.elim, 0, 0⟩, ())
  resampled _ _ := []
  strategy _ start history := match history with
    | [] => .inl start
    | x :: _ => .inr (fun p => x.1 p - x.2.2 p, ⟨true, 1, 1⟩)
  budget := 10
  invertLinear S := S⁻¹
  invertAggregate S := S⁻¹
  invertMoments S := S⁻¹
  invertParameters S := S⁻¹

theorem unitsWitness_xi (W : Estimation.Weights (fun _ : Fin 1 ⊕ Fin 0 => Fin 2) Empty Empty) (o : Evaluated 2 (Fin 1) Empty) :
    unitsWitness.xi W o = o.delta := by
  unfold Estimation.xi MomentData.xi
  have h : levelsIndex unitsWitness.data.demand = some 0 := by
    simp [levelsIndex, unitsWitness, List.finRange, MomentType.isLevels]
  rw [h]
  funext i
  simp [MomentData.residuals, ivResiduals, MomentData.equations, unitsWitness, mulVec, dotProduct]

theorem unitsWitness_invertible (type : CovarianceType) (W : Estimation.Weights (fun _ : Fin 1 ⊕ Fin 0 => Fin 2) Empty Empty)
    (o : Evaluated 2 (Fin 1) Empty) (htype : type = .robust) (h0 : o.delta 0 ≠ 0) (h1 : o.delta 1 ≠ 0) :
    IsUnit (unitsWitness.momentCovariances type false W o []) := by
  have h : unitsWitness.momentCovariances type false W o [] =
      Matrix.diagonal fun c => Sum.elim (Sum.elim (fun c : MomentIndex (fun _ : Fin 1 ⊕ Fin 0 => Fin 2) => o.delta c.2 ^ 2 / 2)
        fun c => c.elim) (fun c => c.elim) c := by
    ext a c
    rcases a with (⟨e, i⟩ | a) | a
    · rcases c with (⟨e', j⟩ | c) | c
      · have he : ∀ e : Fin 1 ⊕ Fin 0, e = .inl 0 := by
          intro e
          rcases e with e | e
          · rw [Subsingleton.elim e 0]
          · exact e.elim0
        rw [he e, he e']
        have hs : unitsWitness.simulationCovariances W [] = 0 := by
          ext a c
          simp only [Estimation.simulationCovariances, sampleCovariances, of_apply, Matrix.zero_apply]
          have he : ∀ F : Fin (List.map (unitsWitness.meanMoments W) []).length → ℝ, ∑ r, F r = 0 := fun F =>
            Finset.sum_eq_zero fun x _ => absurd x.2 (by simp)
          rw [he, zero_div]
        unfold Estimation.momentCovariances
        rw [hs, add_zero, fromBlocks_apply₁₁, of_apply, htype, C41_robust, unitsWitness_xi]
        have hrow : ∀ k i, Spec.momentRow (unitsWitness.data.allErrors o.phi o.delta (unitsWitness.omega W o) unitsWitness.mean)
            unitsWitness.data.allInstruments false k (momentPosition (.inl ⟨.inl 0, i⟩)) =
              o.delta k * (1 : Matrix (Fin 2) (Fin 2) ℝ) k i := by
          intro k i
          simp only [Spec.momentRow, Bool.false_eq_true, if_false, sub_zero]
          rfl
        simp only [hrow]
        fin_cases i <;> fin_cases j <;> simp [Matrix.one_apply, pow_two]
      · exact c.elim
      · exact c.elim
    · exact a.elim
    · exact a.elim
  rw [h, Matrix.isUnit_iff_isUnit_det, Matrix.det_diagonal, isUnit_iff_ne_zero, Finset.prod_ne_zero_iff]
  intro c _
  rcases c with (⟨e, i⟩ | a) | a
  · fin_cases i
    · simpa using h0
    · simpa using h1
  · exact a.elim
  · exact a.elim

theorem unitsWitness_steps (r : StepResults (Estimation.Weights (fun _ : Fin 1 ⊕ Fin 0 => Fin 2) Empty Empty) (Fin 1 → ℝ) Unit) :
    IsUnit (unitsWitness.weightsCovariances r) := by
  refine unitsWitness_invertible _ _ _ rfl ?_ ?_
  · change (1 + r.theta 0 ^ 2 : ℝ) ≠ 0
    positivity
  · change (2 : ℝ) ≠ 0
    norm_num

example : IsArgsort unitsWitness.ids unitsWitness.sort ∧ Spec.Inverts unitsWitness.invertAggregate ∧
    Spec.Inverts unitsWitness.invertMoments ∧ IsUnit (!![1, 1; 0, 2] : Matrix (Fin 2) (Fin 2) ℝ) ∧
    IsUnit unitsWitness.defaultCovariances ∧ ∀ r ∈ unitsWitness.solve .twoStep false ⟨unitsWitness.defaultWeights, fun _ => 3, ()⟩,
      IsUnit (unitsWitness.weightsCovariances r) := by
  refine ⟨⟨by decide, by simp [unitsWitness]⟩, fun S T h => Matrix.inv_eq_right_inv h, fun S T h => Matrix.inv_eq_right_inv h, ?_, ?_,
    fun r _ => unitsWitness_steps r⟩
  · rw [Matrix.isUnit_iff_isUnit_det, Matrix.det_fin_two_of]
    norm_num
  · have h : unitsWitness.defaultCovariances = Matrix.diagonal fun _ => (1 / 2 : ℝ) := by
      ext a c
      rcases a with ⟨e, i⟩ | a
      · rcases c with ⟨e', j⟩ | c
        · have he : ∀ e : Fin 1 ⊕ Fin 0, e = .inl 0 := by
            intro e
            rcases e with e | e
            · rw [Subsingleton.elim e 0]
            · exact e.elim0
          rw [he e, he e']
          unfold Estimation.defaultCovariances
          rw [fromBlocks_apply₁₁, blockDiagonal'_apply_eq]
          fin_cases i <;> fin_cases j <;> simp [unitsWitness]
        · exact c.elim
      · exact a.elim
    rw [h, Matrix.isUnit_iff_isUnit_det, Matrix.det_diagonal, isUnit_iff_ne_zero, Finset.prod_ne_zero_iff]
    intro c _
    norm_num

end Witness

end Pyblp
