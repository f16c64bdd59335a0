import Verif.Model.Absorption
import Verif.Props.Statistics
import Mathlib.Data.Matrix.ColumnRowPartitioned

set_option linter.unusedSectionVars false

/-!
# Absorbing fixed effects (C92)
-/

namespace Pyblp

open Matrix

namespace Spec

/-- Residualizing a column with respect to fixed effects, which is what PyHDFE computes: what is left of the column after subtracting
a combination of fixed effects (columns of `D`, for example indicators of categories) is orthogonal to each of them. -/
def Residualizes {n δ : Type} [Fintype n] [Fintype δ] (D : Matrix n δ ℝ) (R : (n → ℝ) → n → ℝ) : Prop :=
  ∀ v, (∀ j, ∑ i, D i j * R v i = 0) ∧ ∃ a : δ → ℝ, ∀ i, R v i = v i - ∑ j, D i j * a j

variable {ε n k : Type} {m δ : ε → Type} [DecidableEq ε]

/-- Regressors followed by fixed effects: those of an equation are zero in other equations. -/
def withEffects (X : ε → Matrix n k ℝ) (D : (e : ε) → Matrix n (δ e) ℝ) : ε → Matrix n (k ⊕ ((e : ε) × δ e)) ℝ :=
  fun e i c => c.elim (fun l => X e i l) fun j => if e = j.1 then D j.1 i j.2 else 0

/-- Instruments followed by fixed effects. -/
def instrumentsWithEffects (Z : (e : ε) → Matrix n (m e) ℝ) (D : (e : ε) → Matrix n (δ e) ℝ) :
    (e : ε) → Matrix n (m e ⊕ δ e) ℝ :=
  fun e i c => c.elim (fun l => Z e i l) fun j => D e i j

end Spec

/-! ## Two-stage least squares with residualized columns -/

section Stacked

variable {r k q d K Q : Type} [Fintype r] [Fintype k] [DecidableEq k] [Fintype q] [DecidableEq q] [Fintype d]
  [Fintype Q] [DecidableEq Q]

theorem eq_zero_of_gram {r d : Type} [Fintype r] [Fintype d] (D : Matrix r d ℝ) (z : d → ℝ) (h : Dᵀ *ᵥ (D *ᵥ z) = 0) :
    D *ᵥ z = 0 := by
  have : (D *ᵥ z) ⬝ᵥ (D *ᵥ z) = 0 := by
    have := Matrix.dotProduct_mulVec z Dᵀ (D *ᵥ z)
    rw [h, dotProduct_zero, Matrix.vecMul_transpose] at this
    exact this.symm
  exact dotProduct_self_eq_zero.1 this

theorem transpose_mulVec_residual (D : Matrix r d ℝ) (X Xt : Matrix r q ℝ) (A : Matrix d q ℝ) (hX : X = Xt + D * A) (v : r → ℝ)
    (hv : Dᵀ *ᵥ v = 0) : Xᵀ *ᵥ v = Xtᵀ *ᵥ v := by
  rw [hX, Matrix.transpose_add, Matrix.add_mulVec, Matrix.transpose_mul, ← Matrix.mulVec_mulVec, hv, Matrix.mulVec_zero, add_zero]

/-- The core of the argument, for stacked equations. -/
theorem stacked_absorption (X Xt : Matrix r k ℝ) (Z Zt : Matrix r q ℝ) (D : Matrix r d ℝ) (Zb : Matrix r Q ℝ) (y yt : r → ℝ)
    (A : Matrix d k ℝ) (hX : X = Xt + D * A)
    (B : Matrix d q ℝ) (hZ : Z = Zt + D * B) (hZD : Dᵀ * Zt = 0)
    (a0 : d → ℝ) (hy : y = yt + D *ᵥ a0) (hyD : Dᵀ *ᵥ yt = 0) (hXD : Dᵀ * Xt = 0)
    (E : Matrix Q q ℝ) (hE : Z = Zb * E) (F : Matrix Q d ℝ) (hF : D = Zb * F)
    (hG : ∀ x, Zᵀ *ᵥ x = 0 → Dᵀ *ᵥ x = 0 → Zbᵀ *ᵥ x = 0)
    (c : ℝ) (hc : c ≠ 0) (W : Matrix q q ℝ) (hW : (c • (Ztᵀ * Zt)) * W = 1)
    (Wb : Matrix Q Q ℝ) (hWb : (c • (Zbᵀ * Zb)) * Wb = 1)
    (b : k → ℝ) (a : d → ℝ)
    (hb : Xᵀ *ᵥ (Zb *ᵥ (Wb *ᵥ (Zbᵀ *ᵥ (y - X *ᵥ b - D *ᵥ a)))) = 0)
    (ha : Dᵀ *ᵥ (Zb *ᵥ (Wb *ᵥ (Zbᵀ *ᵥ (y - X *ᵥ b - D *ᵥ a)))) = 0) :
    y - X *ᵥ b - D *ᵥ a = yt - Xt *ᵥ b ∧
    Zb *ᵥ (Wb *ᵥ (Zbᵀ *ᵥ (y - X *ᵥ b - D *ᵥ a))) = Zt *ᵥ (W *ᵥ (Ztᵀ *ᵥ (yt - Xt *ᵥ b))) ∧
    Xtᵀ *ᵥ (Zt *ᵥ (W *ᵥ (Ztᵀ *ᵥ (yt - Xt *ᵥ b)))) = 0 := by
  set u := y - X *ᵥ b - D *ᵥ a with hu
  set v := Zb *ᵥ (Wb *ᵥ (Zbᵀ *ᵥ u)) with hv
  have hbig : c • (Zbᵀ *ᵥ v) = Zbᵀ *ᵥ u := by
    have : (c • (Zbᵀ * Zb)) *ᵥ (Wb *ᵥ (Zbᵀ *ᵥ u)) = Zbᵀ *ᵥ u := by rw [Matrix.mulVec_mulVec, hWb, Matrix.one_mulVec]
    rw [← this, Matrix.smul_mulVec, ← Matrix.mulVec_mulVec]
  have hDu : Dᵀ *ᵥ u = 0 := by
    have h1 : Dᵀ *ᵥ u = c • (Dᵀ *ᵥ v) := by
      rw [hF, Matrix.transpose_mul, ← Matrix.mulVec_mulVec, ← hbig, ← Matrix.mulVec_mulVec, Matrix.mulVec_smul]
    rw [h1, ha, smul_zero]
  have hZu : Zᵀ *ᵥ u = c • (Zᵀ *ᵥ v) := by
    rw [hE, Matrix.transpose_mul, ← Matrix.mulVec_mulVec, ← hbig, ← Matrix.mulVec_mulVec, Matrix.mulVec_smul]
  -- residuals
  have hut : u = yt - Xt *ᵥ b := by
    have hz : u - (yt - Xt *ᵥ b) = D *ᵥ (a0 - A *ᵥ b - a) := by
      rw [hu, hy, hX, Matrix.add_mulVec, Matrix.mulVec_sub, Matrix.mulVec_sub, Matrix.mulVec_mulVec]
      abel
    have h0 : Dᵀ *ᵥ (D *ᵥ (a0 - A *ᵥ b - a)) = 0 := by
      clear_value u
      rw [← hz, Matrix.mulVec_sub, Matrix.mulVec_sub, hDu, hyD, Matrix.mulVec_mulVec, hXD, Matrix.zero_mulVec, sub_zero, sub_zero]
    have := eq_zero_of_gram D _ h0
    rw [this] at hz
    exact sub_eq_zero.1 hz
  set w := Zt *ᵥ (W *ᵥ (Ztᵀ *ᵥ u)) with hw
  have hDw : Dᵀ *ᵥ w = 0 := by rw [hw, Matrix.mulVec_mulVec, hZD, Matrix.zero_mulVec]
  have hsmall : c • (Ztᵀ *ᵥ w) = Ztᵀ *ᵥ u := by
    have : (c • (Ztᵀ * Zt)) *ᵥ (W *ᵥ (Ztᵀ *ᵥ u)) = Ztᵀ *ᵥ u := by rw [Matrix.mulVec_mulVec, hW, Matrix.one_mulVec]
    rw [← this, Matrix.smul_mulVec, ← Matrix.mulVec_mulVec]
  have hvw : v = w := by
    have hZ' : Zᵀ *ᵥ v = Zᵀ *ᵥ w := by
      have h1 : c • (Zᵀ *ᵥ v) = c • (Zᵀ *ᵥ w) := by
        rw [← hZu, transpose_mulVec_residual D Z Zt B hZ u hDu, transpose_mulVec_residual D Z Zt B hZ w hDw, hsmall]
      have h2 := congrArg (fun x => c⁻¹ • x) h1
      simpa [smul_smul, inv_mul_cancel₀ hc] using h2
    have hb0 : Zbᵀ *ᵥ (v - w) = 0 := by
      apply hG
      · rw [Matrix.mulVec_sub, hZ', sub_self]
      · rw [Matrix.mulVec_sub Dᵀ v w, ha, hDw, sub_self]
    have hrange : ∃ s, v - w = Zb *ᵥ s := by
      refine ⟨Wb *ᵥ (Zbᵀ *ᵥ u) - (E - F * B) *ᵥ (W *ᵥ (Ztᵀ *ᵥ u)), ?_⟩
      have hZt : Zt = Zb * (E - F * B) := by
        rw [Matrix.mul_sub, ← Matrix.mul_assoc, ← hE, ← hF, hZ]
        abel
      rw [Matrix.mulVec_sub, Matrix.mulVec_mulVec (M := Zb) (N := E - F * B), ← hZt]
    obtain ⟨s, hs⟩ := hrange
    rw [hs] at hb0
    have := eq_zero_of_gram Zb s hb0
    rw [this] at hs
    exact sub_eq_zero.1 hs
  rw [← hut]
  refine ⟨rfl, hvw, ?_⟩
  rw [← transpose_mulVec_residual D X Xt A hX w hDw, ← hvw]
  exact hb

end Stacked

section Equations

variable {ε n k : Type} {m δ : ε → Type} [Fintype ε] [DecidableEq ε] [Fintype n] [Fintype k] [DecidableEq k]
  [∀ e, Fintype (m e)] [∀ e, Fintype (δ e)]

/-- Stacked columns. -/
def stacked (y : ε → n → ℝ) : ε × n → ℝ := fun r => y r.1 r.2

theorem blockDiag_mulVec (D : (e : ε) → Matrix n (δ e) ℝ) (a : MomentIndex δ → ℝ) (e : ε) (i : n) :
    (blockDiag D *ᵥ a) (e, i) = ∑ j, D e i j * a ⟨e, j⟩ := by
  have h : (blockDiag D *ᵥ a) (e, i) = ∑ c : MomentIndex δ, (if e = c.1 then D c.1 i c.2 else 0) * a c := rfl
  rw [h, Fintype.sum_sigma, Finset.sum_eq_single e]
  · simp
  · intro f _ hf
    apply Finset.sum_eq_zero
    intro j _
    simp only [if_neg (Ne.symm hf), zero_mul]
  · simp

theorem blockDiag_transpose_mulVec (D : (e : ε) → Matrix n (δ e) ℝ) (y : ε → n → ℝ) (c : MomentIndex δ) :
    ((blockDiag D)ᵀ *ᵥ stacked y) c = ∑ i, D c.1 i c.2 * y c.1 i := ivV_apply D y c

theorem stacked_residual (D : (e : ε) → Matrix n (δ e) ℝ) (y yt : ε → n → ℝ)
    (h : ∀ e, ∃ a : δ e → ℝ, ∀ i, yt e i = y e i - ∑ j, D e i j * a j) :
    ∃ a : MomentIndex δ → ℝ, stacked y = stacked yt + blockDiag D *ᵥ a := by
  choose a ha using h
  refine ⟨fun c => a c.1 c.2, ?_⟩
  funext r
  obtain ⟨e, i⟩ := r
  rw [Pi.add_apply, blockDiag_mulVec]
  simp only [stacked, ha]
  ring

theorem columns_residual {r d q : Type} [Fintype d] (D : Matrix r d ℝ) (M Mt : Matrix r q ℝ)
    (h : ∀ c, ∃ a : d → ℝ, (fun i => M i c) = (fun i => Mt i c) + D *ᵥ a) : ∃ A : Matrix d q ℝ, M = Mt + D * A := by
  choose a ha using h
  refine ⟨fun j c => a c j, ?_⟩
  ext i c
  exact congrFun (ha c) i

theorem defaultWeightsInverse_eq (Z : (e : ε) → Matrix n (m e) ℝ) :
    defaultWeightsInverse Z = ((Fintype.card n : ℝ)⁻¹) • ((blockDiag Z)ᵀ * blockDiag Z) := by
  ext a b
  have h : ((blockDiag Z)ᵀ * blockDiag Z) a b = ∑ i, Z a.1 i a.2 * (if a.1 = b.1 then Z b.1 i b.2 else 0) :=
    ivV_apply Z (fun e i => blockDiag Z (e, i) b) a
  rw [Matrix.smul_apply, h, smul_eq_mul, defaultWeightsInverse]
  by_cases hab : a.1 = b.1
  · simp only [if_pos hab]
    rw [div_eq_inv_mul]
  · simp only [if_neg hab, mul_zero, Finset.sum_const_zero]

theorem withEffects_mulVec (X : ε → Matrix n k ℝ) (D : (e : ε) → Matrix n (δ e) ℝ) (b : k ⊕ ((e : ε) × δ e) → ℝ) :
    vstack (Spec.withEffects X D) *ᵥ b = vstack X *ᵥ (fun l => b (Sum.inl l)) + blockDiag D *ᵥ fun c => b (Sum.inr c) := by
  funext r
  simp only [mulVec, dotProduct, Fintype.sum_sum_type, Pi.add_apply]
  rfl

theorem withEffects_transpose_inl (X : ε → Matrix n k ℝ) (D : (e : ε) → Matrix n (δ e) ℝ) (v : ε × n → ℝ) (l : k) :
    ((vstack (Spec.withEffects X D))ᵀ *ᵥ v) (Sum.inl l) = ((vstack X)ᵀ *ᵥ v) l := rfl

theorem withEffects_transpose_inr (X : ε → Matrix n k ℝ) (D : (e : ε) → Matrix n (δ e) ℝ) (v : ε × n → ℝ) (c : MomentIndex δ) :
    ((vstack (Spec.withEffects X D))ᵀ *ᵥ v) (Sum.inr c) = ((blockDiag D)ᵀ *ᵥ v) c := rfl

/-- The normal equations, in terms of projected residuals. -/
theorem stacked_normal (C : Matrix k k ℝ) (X : ε → Matrix n k ℝ) (Z : (e : ε) → Matrix n (m e) ℝ)
    (W : Matrix (MomentIndex m) (MomentIndex m) ℝ) (y : ε → n → ℝ) (hC : ivCovariancesInverse X Z W * C = 1) :
    (vstack X)ᵀ *ᵥ (blockDiag Z *ᵥ (W *ᵥ ((blockDiag Z)ᵀ *ᵥ (stacked y - vstack X *ᵥ ivParameters C X Z W y)))) = 0 := by
  have h := normal_equations C X Z W y hC
  rw [← h, ivP, ivV, Matrix.transpose_mul, Matrix.transpose_transpose, Matrix.mulVec_sub, ← Matrix.mulVec_mulVec,
    ← Matrix.mulVec_mulVec]
  simp only [← Matrix.mulVec_mulVec]
  rfl

/-- Solutions to the normal equations are unique. -/
theorem parameters_of_normal (C : Matrix k k ℝ) (X : ε → Matrix n k ℝ) (Z : (e : ε) → Matrix n (m e) ℝ)
    (W : Matrix (MomentIndex m) (MomentIndex m) ℝ) (y : ε → n → ℝ) (hC : ivCovariancesInverse X Z W * C = 1) (b : k → ℝ)
    (hb : (vstack X)ᵀ *ᵥ (blockDiag Z *ᵥ (W *ᵥ ((blockDiag Z)ᵀ *ᵥ (stacked y - vstack X *ᵥ b)))) = 0) :
    ivParameters C X Z W y = b := by
  have hC' : C * ivCovariancesInverse X Z W = 1 := mul_eq_one_comm.1 hC
  have h1 : (vstack X)ᵀ *ᵥ (blockDiag Z *ᵥ (W *ᵥ ((blockDiag Z)ᵀ *ᵥ stacked y))) = ivCovariancesInverse X Z W *ᵥ b := by
    rw [Matrix.mulVec_sub, Matrix.mulVec_sub, Matrix.mulVec_sub, Matrix.mulVec_sub, sub_eq_zero] at hb
    rw [hb, ivCovariancesInverse_eq, ivP, Matrix.transpose_mul, Matrix.transpose_transpose]
    simp only [← Matrix.mulVec_mulVec]
  have h2 : ivParameters C X Z W y = C *ᵥ ((vstack X)ᵀ *ᵥ (blockDiag Z *ᵥ (W *ᵥ ((blockDiag Z)ᵀ *ᵥ stacked y)))) := by
    unfold ivParameters
    simp only [← Matrix.mulVec_mulVec]
    rfl
  rw [h2, h1, Matrix.mulVec_mulVec, hC', Matrix.one_mulVec]

/-- Weights are `W` up to a constant in both problems. -/
theorem equations_absorption [∀ e, DecidableEq (m e)] [∀ e, DecidableEq (δ e)] (D : (e : ε) → Matrix n (δ e) ℝ)
    (R : ε → (n → ℝ) → n → ℝ) (hR : ∀ e, Spec.Residualizes (D e) (R e))
    (X : ε → Matrix n k ℝ) (Z : (e : ε) → Matrix n (m e) ℝ) (y : ε → n → ℝ) (s : ℝ) (hs : s ≠ 0)
    (W : Matrix (MomentIndex m) (MomentIndex m) ℝ)
    (hW : (s • ((blockDiag fun e => absorbed (R e) (Z e))ᵀ * blockDiag fun e => absorbed (R e) (Z e))) * W = 1)
    (C : Matrix k k ℝ)
    (hC : ivCovariancesInverse (fun e => absorbed (R e) (X e)) (fun e => absorbed (R e) (Z e)) W * C = 1)
    (Wd : Matrix (MomentIndex fun e => m e ⊕ δ e) (MomentIndex fun e => m e ⊕ δ e) ℝ)
    (hWd : (s • ((blockDiag (Spec.instrumentsWithEffects Z D))ᵀ * blockDiag (Spec.instrumentsWithEffects Z D))) * Wd = 1)
    (Cd : Matrix (k ⊕ ((e : ε) × δ e)) (k ⊕ ((e : ε) × δ e)) ℝ)
    (hCd : ivCovariancesInverse (Spec.withEffects X D) (Spec.instrumentsWithEffects Z D) Wd * Cd = 1) :
    (∀ l, ivParameters C (fun e => absorbed (R e) (X e)) (fun e => absorbed (R e) (Z e)) W (fun e => R e (y e)) l =
      ivParameters Cd (Spec.withEffects X D) (Spec.instrumentsWithEffects Z D) Wd y (Sum.inl l)) ∧
    (ivResiduals C (fun e => absorbed (R e) (X e)) (fun e => absorbed (R e) (Z e)) W (fun e => R e (y e)) =
      ivResiduals Cd (Spec.withEffects X D) (Spec.instrumentsWithEffects Z D) Wd y) ∧
    blockDiag (fun e => absorbed (R e) (Z e)) *ᵥ (W *ᵥ ((blockDiag fun e => absorbed (R e) (Z e))ᵀ *ᵥ
        stacked (ivResiduals Cd (Spec.withEffects X D) (Spec.instrumentsWithEffects Z D) Wd y))) =
      blockDiag (Spec.instrumentsWithEffects Z D) *ᵥ (Wd *ᵥ ((blockDiag (Spec.instrumentsWithEffects Z D))ᵀ *ᵥ
        stacked (ivResiduals Cd (Spec.withEffects X D) (Spec.instrumentsWithEffects Z D) Wd y))) := by
  set Xt : ε → Matrix n k ℝ := fun e => absorbed (R e) (X e) with hXt
  set Zt : (e : ε) → Matrix n (m e) ℝ := fun e => absorbed (R e) (Z e) with hZt
  set Zb := Spec.instrumentsWithEffects Z D with hZb
  set bd := ivParameters Cd (Spec.withEffects X D) Zb Wd y with hbd
  obtain ⟨a0, ha0⟩ := stacked_residual D y (fun e => R e (y e)) fun e => (hR e (y e)).2
  obtain ⟨A, hA⟩ := columns_residual (blockDiag D) (vstack X) (vstack Xt) fun l =>
    stacked_residual D (fun e i => X e i l) (fun e i => Xt e i l) fun e => (hR e _).2
  obtain ⟨B, hB⟩ := columns_residual (blockDiag D) (blockDiag Z) (blockDiag Zt) fun c =>
    stacked_residual D (fun e i => if e = c.1 then Z c.1 i c.2 else 0) (fun e i => if e = c.1 then Zt c.1 i c.2 else 0) (by
      intro e
      by_cases hec : e = c.1
      · subst hec
        simp only [if_pos]
        exact (hR _ _).2
      · refine ⟨0, fun i => ?_⟩
        simp [hec])
  have hyD : (blockDiag D)ᵀ *ᵥ stacked (fun e => R e (y e)) = 0 := by
    funext c
    rw [blockDiag_transpose_mulVec]
    exact (hR _ _).1 _
  have hXD : (blockDiag D)ᵀ * vstack Xt = 0 := by
    ext c l
    exact (blockDiag_transpose_mulVec D (fun e i => Xt e i l) c).trans ((hR _ _).1 _)
  have hZD : (blockDiag D)ᵀ * blockDiag Zt = 0 := by
    ext c c'
    refine (blockDiag_transpose_mulVec D (fun e i => if e = c'.1 then Zt c'.1 i c'.2 else 0) c).trans ?_
    by_cases hcc : c.1 = c'.1
    · obtain ⟨e, j⟩ := c
      obtain ⟨e', l⟩ := c'
      subst hcc
      simp only [if_pos]
      exact (hR _ _).1 _
    · simp [hcc]
  have hn := stacked_normal Cd (Spec.withEffects X D) Zb Wd y hCd
  rw [withEffects_mulVec] at hn
  have hu : stacked y - (vstack X *ᵥ (fun l => bd (Sum.inl l)) + blockDiag D *ᵥ fun c => bd (Sum.inr c)) =
      stacked y - vstack X *ᵥ (fun l => bd (Sum.inl l)) - blockDiag D *ᵥ fun c => bd (Sum.inr c) := by abel
  rw [hu] at hn
  have hE : blockDiag Z = blockDiag Zb * (1 : Matrix (MomentIndex fun e => m e ⊕ δ e) (MomentIndex fun e => m e ⊕ δ e) ℝ).submatrix
      (Equiv.refl _) (fun c : MomentIndex m => (⟨c.1, Sum.inl c.2⟩ : MomentIndex fun e => m e ⊕ δ e)) := by
    rw [Matrix.mul_submatrix_one]
    rfl
  have hF : blockDiag D = blockDiag Zb * (1 : Matrix (MomentIndex fun e => m e ⊕ δ e) (MomentIndex fun e => m e ⊕ δ e) ℝ).submatrix
      (Equiv.refl _) (fun c : MomentIndex δ => (⟨c.1, Sum.inr c.2⟩ : MomentIndex fun e => m e ⊕ δ e)) := by
    rw [Matrix.mul_submatrix_one]
    rfl
  have hG : ∀ x, (blockDiag Z)ᵀ *ᵥ x = 0 → (blockDiag D)ᵀ *ᵥ x = 0 → (blockDiag Zb)ᵀ *ᵥ x = 0 := by
    intro x h1 h2
    funext c
    obtain ⟨e, l | j⟩ := c
    · exact congrFun h1 ⟨e, l⟩
    · exact congrFun h2 ⟨e, j⟩
  obtain ⟨h1, h2, h3⟩ := stacked_absorption (vstack X) (vstack Xt) (blockDiag Z) (blockDiag Zt) (blockDiag D) (blockDiag Zb)
    (stacked y) (stacked fun e => R e (y e)) A hA B hB hZD a0 ha0 hyD hXD _ hE _ hF hG s hs W hW Wd hWd
    (fun l => bd (Sum.inl l)) (fun c => bd (Sum.inr c))
    (by
      funext l
      exact congrFun hn (Sum.inl l))
    (by
      funext c
      exact congrFun hn (Sum.inr c))
  have hb := parameters_of_normal C Xt Zt W (fun e => R e (y e)) hC _ h3
  have hres : stacked (ivResiduals Cd (Spec.withEffects X D) Zb Wd y) =
      stacked y - vstack X *ᵥ (fun l => bd (Sum.inl l)) - blockDiag D *ᵥ fun c => bd (Sum.inr c) := by
    rw [← hu, ← withEffects_mulVec]
    rfl
  refine ⟨fun l => congrFun hb l, ?_, ?_⟩
  · funext e i
    have h4 := congrFun (hres.trans h1) (e, i)
    refine Eq.trans ?_ h4.symm
    rw [ivResiduals, hb]
    rfl
  · rw [hres, h2, h1]

end Equations

/-! ## C92 -/

section Property

variable {ε k d : Type} {m δ : ε → Type} {N : ℕ} [Fintype ε] [DecidableEq ε] [Fintype k] [DecidableEq k] [Fintype d]
  [∀ e, Fintype (m e)] [∀ e, Fintype (δ e)] [∀ e, DecidableEq (m e)] [∀ e, DecidableEq (δ e)]

theorem blocks_form {a d : Type} [Fintype a] [Fintype d] (W : Matrix a a ℝ) (V : Matrix d d ℝ) (g h : a → ℝ) (f l : d → ℝ) :
    concat g f ⬝ᵥ (Matrix.fromBlocks W 0 0 V *ᵥ concat h l) = g ⬝ᵥ (W *ᵥ h) + f ⬝ᵥ (V *ᵥ l) := by
  unfold concat
  rw [Matrix.fromBlocks_mulVec]
  simp only [Matrix.zero_mulVec, add_zero, zero_add]
  unfold dotProduct
  rw [Fintype.sum_sum_type]
  rfl

theorem moments_stacked {a : ε → Type} [∀ e, Fintype (a e)] (u : ε → Fin N → ℝ) (Z : (e : ε) → Matrix (Fin N) (a e) ℝ) :
    gmmMomentsMean u Z = (1 / (N : ℝ)) • ((blockDiag Z)ᵀ *ᵥ stacked u) := jacobian_moments Z u

theorem form_stacked {r a : Type} [Fintype r] [Fintype a] (Z : Matrix r a ℝ) (W : Matrix a a ℝ) (c : ℝ) (j u : r → ℝ) :
    (c • (Zᵀ *ᵥ j)) ⬝ᵥ (W *ᵥ (c • (Zᵀ *ᵥ u))) = c * (c * (j ⬝ᵥ (Z *ᵥ (W *ᵥ (Zᵀ *ᵥ u))))) := by
  rw [Matrix.mulVec_smul, smul_dotProduct, dotProduct_smul, Matrix.dotProduct_mulVec j Z, Matrix.mulVec_transpose Z j]
  rfl

/-- C92 for weights that are equal to the default ones up to a constant. -/
theorem property_absorption (D : (e : ε) → Matrix (Fin N) (δ e) ℝ) (R : ε → (Fin N → ℝ) → Fin N → ℝ)
    (hR : ∀ e, Spec.Residualizes (D e) (R e)) (X : ε → Matrix (Fin N) k ℝ) (Z : (e : ε) → Matrix (Fin N) (m e) ℝ)
    (addExogenous : Bool) (given : (e : ε) → Matrix (Fin N) (m e) ℝ)
    (hgiven : given = if addExogenous then Z else fun e => absorbed (R e) (Z e))
    (s : ℝ) (hs : s ≠ 0) (W : Matrix (MomentIndex m) (MomentIndex m) ℝ)
    (hW : (s • ((blockDiag fun e => absorbed (R e) (Z e))ᵀ * blockDiag fun e => absorbed (R e) (Z e))) * W = 1)
    (C : Matrix k k ℝ)
    (hC : ivCovariancesInverse (fun e => absorbed (R e) (X e)) (fun e => absorbed (R e) (Z e)) W * C = 1)
    (Wd : Matrix (MomentIndex fun e => m e ⊕ δ e) (MomentIndex fun e => m e ⊕ δ e) ℝ)
    (hWd : (s • ((blockDiag (Spec.instrumentsWithEffects Z D))ᵀ * blockDiag (Spec.instrumentsWithEffects Z D))) * Wd = 1)
    (Cd : Matrix (k ⊕ ((e : ε) × δ e)) (k ⊕ ((e : ε) × δ e)) ℝ)
    (hCd : ivCovariancesInverse (Spec.withEffects X D) (Spec.instrumentsWithEffects Z D) Wd * Cd = 1)
    (V : Matrix d d ℝ) (scale : Bool) (y yJacobian : ε → Fin N → ℝ) (micro microJacobian : d → ℝ) :
    (∀ l, absorbedParameters R addExogenous C X given W y l =
      ivParameters Cd (Spec.withEffects X D) (Spec.instrumentsWithEffects Z D) Wd y (Sum.inl l)) ∧
    absorbedResiduals R addExogenous C X given W y =
      ivResiduals Cd (Spec.withEffects X D) (Spec.instrumentsWithEffects Z D) Wd y ∧
    absorbedObjective R addExogenous scale C X given (Matrix.fromBlocks W 0 0 V) y micro =
      progressObjective scale Cd (Spec.withEffects X D) (Spec.instrumentsWithEffects Z D) (Matrix.fromBlocks Wd 0 0 V) y micro ∧
    absorbedGradient R addExogenous scale C X given (Matrix.fromBlocks W 0 0 V) y yJacobian micro microJacobian =
      progressGradient scale Cd (Spec.withEffects X D) (Spec.instrumentsWithEffects Z D) (Matrix.fromBlocks Wd 0 0 V) y yJacobian
        micro microJacobian := by
  have hZ : (fun e => absorbedInstruments addExogenous (R e) (given e)) = fun e => absorbed (R e) (Z e) := by
    funext e
    cases addExogenous <;> simp [absorbedInstruments, hgiven]
  obtain ⟨h1, h2, h3⟩ := equations_absorption D R hR X Z y s hs W hW C hC Wd hWd Cd hCd
  unfold absorbedParameters absorbedResiduals absorbedObjective absorbedGradient
  rw [hZ]
  refine ⟨h1, h2, ?_, ?_⟩
  · unfold progressObjective gmmObjective
    change _ * (concat (gmmMomentsMean (ivResiduals C _ _ W _) _) micro ⬝ᵥ _) =
      _ * (concat (gmmMomentsMean (ivResiduals Cd _ _ Wd _) _) micro ⬝ᵥ _)
    change _ * (_ ⬝ᵥ (Matrix.fromBlocks W 0 0 V *ᵥ concat (gmmMomentsMean (ivResiduals C _ _ W _) _) micro)) =
      _ * (_ ⬝ᵥ (Matrix.fromBlocks Wd 0 0 V *ᵥ concat (gmmMomentsMean (ivResiduals Cd _ _ Wd _) _) micro))
    rw [blocks_form, blocks_form, h2, moments_stacked, moments_stacked, form_stacked, form_stacked, h3]
  · unfold progressGradient gmmGradient
    change _ * (2 * (_ ⬝ᵥ (Matrix.fromBlocks W 0 0 V *ᵥ concat (gmmMomentsMean (ivResiduals C _ _ W _) _) micro))) =
      _ * (2 * (_ ⬝ᵥ (Matrix.fromBlocks Wd 0 0 V *ᵥ concat (gmmMomentsMean (ivResiduals Cd _ _ Wd _) _) micro)))
    rw [blocks_form, blocks_form, h2, moments_stacked, moments_stacked, jacobian_moments, jacobian_moments]
    change _ * (2 * ((_ • ((blockDiag _)ᵀ *ᵥ stacked yJacobian)) ⬝ᵥ _ + _)) =
      _ * (2 * ((_ • ((blockDiag _)ᵀ *ᵥ stacked yJacobian)) ⬝ᵥ _ + _))
    rw [form_stacked, form_stacked, h3]

/-- **C92.** With the default weighting matrix, absorbing fixed effects gives the same linear parameters, structural errors, objective
and gradient, for every guess of the nonlinear parameters (every `delta` and transformed costs `y`), as adding the fixed effects to the
regressors and instruments. This is so whether exogenous characteristics are added to instruments, which are then residualized, or all
instruments were residualized and given by the user. The Jacobian of `delta` does not have to be residualized. -/
theorem C92_absorbed (hN : 0 < N) (D : (e : ε) → Matrix (Fin N) (δ e) ℝ) (R : ε → (Fin N → ℝ) → Fin N → ℝ)
    (hR : ∀ e, Spec.Residualizes (D e) (R e)) (X : ε → Matrix (Fin N) k ℝ) (Z : (e : ε) → Matrix (Fin N) (m e) ℝ)
    (addExogenous : Bool) (given : (e : ε) → Matrix (Fin N) (m e) ℝ)
    (hgiven : given = if addExogenous then Z else fun e => absorbed (R e) (Z e))
    (W : Matrix (MomentIndex m) (MomentIndex m) ℝ)
    (hW : defaultWeightsInverse (fun e => absorbedInstruments addExogenous (R e) (given e)) * W = 1) (C : Matrix k k ℝ)
    (hC : ivCovariancesInverse (fun e => absorbed (R e) (X e)) (fun e => absorbedInstruments addExogenous (R e) (given e)) W * C = 1)
    (Wd : Matrix (MomentIndex fun e => m e ⊕ δ e) (MomentIndex fun e => m e ⊕ δ e) ℝ)
    (hWd : defaultWeightsInverse (Spec.instrumentsWithEffects Z D) * Wd = 1)
    (Cd : Matrix (k ⊕ ((e : ε) × δ e)) (k ⊕ ((e : ε) × δ e)) ℝ)
    (hCd : ivCovariancesInverse (Spec.withEffects X D) (Spec.instrumentsWithEffects Z D) Wd * Cd = 1)
    (V : Matrix d d ℝ) (scale : Bool) (y yJacobian : ε → Fin N → ℝ) (micro microJacobian : d → ℝ) :
    (∀ l, absorbedParameters R addExogenous C X given W y l =
      ivParameters Cd (Spec.withEffects X D) (Spec.instrumentsWithEffects Z D) Wd y (Sum.inl l)) ∧
    absorbedResiduals R addExogenous C X given W y =
      ivResiduals Cd (Spec.withEffects X D) (Spec.instrumentsWithEffects Z D) Wd y ∧
    absorbedObjective R addExogenous scale C X given (Matrix.fromBlocks W 0 0 V) y micro =
      progressObjective scale Cd (Spec.withEffects X D) (Spec.instrumentsWithEffects Z D) (Matrix.fromBlocks Wd 0 0 V) y micro ∧
    absorbedGradient R addExogenous scale C X given (Matrix.fromBlocks W 0 0 V) y yJacobian micro microJacobian =
      progressGradient scale Cd (Spec.withEffects X D) (Spec.instrumentsWithEffects Z D) (Matrix.fromBlocks Wd 0 0 V) y yJacobian
        micro microJacobian := by
  have hZ : (fun e => absorbedInstruments addExogenous (R e) (given e)) = fun e => absorbed (R e) (Z e) := by
    funext e
    cases addExogenous <;> simp [absorbedInstruments, hgiven]
  rw [hZ] at hW hC
  rw [defaultWeightsInverse_eq] at hW hWd
  have hs : ((Fintype.card (Fin N) : ℝ))⁻¹ ≠ 0 := by
    rw [Fintype.card_fin]
    exact inv_ne_zero (by exact_mod_cast hN.ne')
  exact property_absorption D R hR X Z addExogenous given hgiven _ hs W hW C hC Wd hWd Cd hCd V scale y yJacobian micro microJacobian

theorem unadjusted_eq {a : Type} [Fintype a] {ι : Type} [LinearOrder ι] (u : Unit → Fin N → ℝ)
    (Z : Unit → Matrix (Fin N) a ℝ) (ids : Fin N → ι) (sort : List (Fin N)) (center : Bool) :
    gmmMomentCovariances (m := fun _ => a) u Z .unadjusted ids sort center =
      (gmmErrorCovariance (u ()) (u ()) / (N : ℝ)) • ((blockDiag (m := fun _ => a) Z)ᵀ * blockDiag (m := fun _ => a) Z) := by
  ext b c
  have h : ((blockDiag (m := fun _ => a) Z)ᵀ * blockDiag (m := fun _ => a) Z) b c =
      ∑ i, Z b.1 i b.2 * (if b.1 = c.1 then Z c.1 i c.2 else 0) :=
    ivV_apply (m := fun _ => a) Z (fun e i => blockDiag (m := fun _ => a) Z (e, i) c) b
  rw [Matrix.smul_apply, h, smul_eq_mul]
  simp only [gmmMomentCovariances, symmetrized, if_pos]
  have hswap : ∑ i, Z c.1 i c.2 * Z b.1 i b.2 = ∑ i, Z b.1 i b.2 * Z c.1 i c.2 := Finset.sum_congr rfl fun i _ => mul_comm _ _
  rw [hswap]
  ring

/-- **C92**, second step: without a supply side, this remains so if the weighting matrix is updated with unadjusted moment covariances,
which are computed from the same structural errors in both problems according to `C92_absorbed`. -/
theorem C92_unadjusted {m δ : Type} [Fintype m] [Fintype δ] [DecidableEq m] [DecidableEq δ] {ι : Type} [LinearOrder ι] (hN : 0 < N)
    (D : Matrix (Fin N) δ ℝ) (R : (Fin N → ℝ) → Fin N → ℝ) (hR : Spec.Residualizes D R) (X : Matrix (Fin N) k ℝ)
    (Z : Matrix (Fin N) m ℝ) (u : Unit → Fin N → ℝ) (hu : gmmErrorCovariance (u ()) (u ()) ≠ 0)
    (ids : Fin N → ι) (sort : List (Fin N)) (center : Bool) (W : Matrix (MomentIndex fun _ : Unit => m) (MomentIndex fun _ : Unit => m) ℝ)
    (hW : gmmMomentCovariances (m := fun _ => m) u (fun _ => absorbedInstruments true R Z) .unadjusted ids sort center * W = 1)
    (C : Matrix k k ℝ)
    (hC : ivCovariancesInverse (m := fun _ => m) (fun _ => absorbed R X) (fun _ => absorbedInstruments true R Z) W * C = 1)
    (Wd : Matrix (MomentIndex fun _ : Unit => m ⊕ δ) (MomentIndex fun _ : Unit => m ⊕ δ) ℝ)
    (hWd : gmmMomentCovariances (m := fun _ => m ⊕ δ) u (Spec.instrumentsWithEffects (m := fun _ => m) (fun _ => Z) fun _ => D)
      .unadjusted ids sort center * Wd = 1)
    (Cd : Matrix (k ⊕ ((_ : Unit) × δ)) (k ⊕ ((_ : Unit) × δ)) ℝ)
    (hCd : ivCovariancesInverse (m := fun _ => m ⊕ δ) (Spec.withEffects (δ := fun _ => δ) (fun _ => X) fun _ => D)
      (Spec.instrumentsWithEffects (m := fun _ => m) (fun _ => Z) fun _ => D) Wd * Cd = 1)
    (V : Matrix d d ℝ) (scale : Bool) (y yJacobian : Unit → Fin N → ℝ) (micro microJacobian : d → ℝ) :
    let Xd := Spec.withEffects (δ := fun _ : Unit => δ) (fun _ => X) fun _ => D
    let Zd := Spec.instrumentsWithEffects (m := fun _ : Unit => m) (δ := fun _ => δ) (fun _ => Z) fun _ => D
    (∀ l, absorbedParameters (m := fun _ => m) (fun _ => R) true C (fun _ => X) (fun _ => Z) W y l =
      ivParameters Cd Xd Zd Wd y (Sum.inl l)) ∧
    absorbedResiduals (m := fun _ => m) (fun _ => R) true C (fun _ => X) (fun _ => Z) W y = ivResiduals Cd Xd Zd Wd y ∧
    absorbedObjective (m := fun _ => m) (fun _ => R) true scale C (fun _ => X) (fun _ => Z) (Matrix.fromBlocks W 0 0 V) y micro =
      progressObjective scale Cd Xd Zd (Matrix.fromBlocks Wd 0 0 V) y micro ∧
    absorbedGradient (m := fun _ => m) (fun _ => R) true scale C (fun _ => X) (fun _ => Z) (Matrix.fromBlocks W 0 0 V) y yJacobian micro
        microJacobian =
      progressGradient scale Cd Xd Zd (Matrix.fromBlocks Wd 0 0 V) y yJacobian micro microJacobian := by
  rw [unadjusted_eq] at hW
  have hWd' := hWd
  erw [unadjusted_eq] at hWd'
  have hs : gmmErrorCovariance (u ()) (u ()) / (N : ℝ) ≠ 0 := div_ne_zero hu (by exact_mod_cast hN.ne')
  exact property_absorption (m := fun _ => m) (δ := fun _ => δ) (fun _ => D) (fun _ => R) (fun _ => hR) (fun _ => X) (fun _ => Z)
    true (fun _ => Z) rfl _ hs W hW C hC Wd hWd' Cd hCd V scale y yJacobian micro microJacobian

end Property

/-! ## One categorical variable -/

section Categories

variable {n ι : Type} [Fintype n] [Fintype ι] [DecidableEq ι]

namespace Spec

/-- Indicators of the values of a categorical variable. -/
def indicators (ids : n → ι) : Matrix n ι ℝ := fun i g => if ids i = g then 1 else 0

/-- Subtract from each element the mean of elements with the same ID. -/
noncomputable def demeaned (ids : n → ι) (v : n → ℝ) (i : n) : ℝ :=
  v i - (∑ j with ids j = ids i, v j) / (Finset.univ.filter fun j => ids j = ids i).card

end Spec

/-- **C92**, contract: for one categorical variable, subtracting means is residualizing with respect to its indicators. -/
theorem C92_demeaned (ids : n → ι) : Spec.Residualizes (Spec.indicators ids) (Spec.demeaned ids) := by
  intro v
  constructor
  · intro g
    have h : ∀ i, Spec.indicators ids i g * Spec.demeaned ids v i =
        if ids i = g then v i - (∑ j with ids j = g, v j) / (Finset.univ.filter fun j => ids j = g).card else 0 := by
      intro i
      by_cases hi : ids i = g
      · simp [Spec.indicators, Spec.demeaned, hi]
      · simp [Spec.indicators, hi]
    rw [Finset.sum_congr rfl fun i _ => h i, ← Finset.sum_filter, Finset.sum_sub_distrib, Finset.sum_const, nsmul_eq_mul]
    by_cases h0 : (Finset.univ.filter fun j => ids j = g).card = 0
    · rw [Finset.card_eq_zero.1 h0]
      simp
    · rw [mul_div_cancel₀ _ (by exact_mod_cast h0), sub_self]
  · refine ⟨fun g => (∑ j with ids j = g, v j) / (Finset.univ.filter fun j => ids j = g).card, fun i => ?_⟩
    rw [Finset.sum_eq_single (ids i)]
    · simp [Spec.indicators, Spec.demeaned]
    · intro g _ hg
      simp [Spec.indicators, Ne.symm hg]
    · simp

end Categories

section Example

/-- Two categories of two products each. -/
def exampleIds : Fin 4 → Fin 2 := ![0, 0, 1, 1]

/-- One regressor, which is its own instrument. -/
def exampleColumn : Matrix (Fin 4) Unit ℝ := Matrix.of fun i _ => ![0, 2, 0, 2] i

/-- The residualized regressor. -/
def exampleResidual : Matrix (Fin 4) Unit ℝ := Matrix.of fun i _ => ![-1, 1, -1, 1] i

theorem example_absorbed : absorbed (Spec.demeaned exampleIds) exampleColumn = exampleResidual := by
  ext i _
  have h0 : (Finset.univ.filter fun j => exampleIds j = 0) = {0, 1} := by decide
  have h1 : (Finset.univ.filter fun j => exampleIds j = 1) = {2, 3} := by decide
  have e0 : exampleIds 0 = 0 := rfl
  have e1 : exampleIds 1 = 0 := rfl
  have e2 : exampleIds 2 = 1 := rfl
  have e3 : exampleIds 3 = 1 := rfl
  fin_cases i <;>
    simp [absorbed, Spec.demeaned, exampleColumn, exampleResidual, e0, e1, e2, e3, h0, h1] <;> norm_num

/-- Weights of the regressor, and of the regressor and indicators. -/
def exampleWeights : Matrix (Unit ⊕ Fin 2) (Unit ⊕ Fin 2) ℝ :=
  Matrix.of fun a b => match a, b with
    | Sum.inl _, Sum.inl _ => 1
    | Sum.inr i, Sum.inr j => if i = j then 3 else 1
    | _, _ => -1

/-- Inner products of the regressor and indicators. -/
def exampleGram : Matrix (Unit ⊕ Fin 2) (Unit ⊕ Fin 2) ℝ :=
  Matrix.of fun a b => match a, b with
    | Sum.inl _, Sum.inl _ => 8
    | Sum.inr i, Sum.inr j => if i = j then 2 else 0
    | _, _ => 2

theorem example_gram (a b : Unit ⊕ Fin 2) :
    ∑ i, Spec.instrumentsWithEffects (m := fun _ : Unit => Unit) (fun _ => exampleColumn) (fun _ => Spec.indicators exampleIds) () i a *
      Spec.instrumentsWithEffects (m := fun _ : Unit => Unit) (fun _ => exampleColumn) (fun _ => Spec.indicators exampleIds) () i b =
    exampleGram a b := by
  rcases a with _ | a <;> rcases b with _ | b <;> (try fin_cases a) <;> (try fin_cases b) <;>
  simp [Spec.instrumentsWithEffects, exampleGram, Spec.indicators, exampleIds, exampleColumn, Fin.sum_univ_four] <;> norm_num

theorem example_inverse : (Matrix.of fun a b => exampleGram a b / 4) * exampleWeights = 1 := by
  ext a b
  rcases a with _ | a <;> rcases b with _ | b <;> (try fin_cases a) <;> (try fin_cases b) <;>
  simp [Matrix.mul_apply, exampleGram, exampleWeights, Fintype.sum_sum_type, Fin.sum_univ_two] <;> norm_num

/-- The hypotheses of `C92_absorbed` are met. -/
example : let D : Unit → Matrix (Fin 4) (Fin 2) ℝ := fun _ => Spec.indicators exampleIds
    let R : Unit → (Fin 4 → ℝ) → Fin 4 → ℝ := fun _ => Spec.demeaned exampleIds
    let X : Unit → Matrix (Fin 4) Unit ℝ := fun _ => exampleColumn
    ∃ (W : Matrix (MomentIndex fun _ : Unit => Unit) (MomentIndex fun _ : Unit => Unit) ℝ) (C : Matrix Unit Unit ℝ)
      (Wd : Matrix (MomentIndex fun _ : Unit => Unit ⊕ Fin 2) (MomentIndex fun _ : Unit => Unit ⊕ Fin 2) ℝ)
      (Cd : Matrix (Unit ⊕ ((_ : Unit) × Fin 2)) (Unit ⊕ ((_ : Unit) × Fin 2)) ℝ),
      (∀ e, Spec.Residualizes (D e) (R e)) ∧
      defaultWeightsInverse (m := fun _ => Unit) (fun e => absorbedInstruments true (R e) (X e)) * W = 1 ∧
      ivCovariancesInverse (m := fun _ => Unit) (fun e => absorbed (R e) (X e)) (fun e => absorbedInstruments true (R e) (X e)) W * C = 1 ∧
      defaultWeightsInverse (m := fun _ => Unit ⊕ Fin 2) (Spec.instrumentsWithEffects X D) * Wd = 1 ∧
      ivCovariancesInverse (m := fun _ => Unit ⊕ Fin 2) (Spec.withEffects X D) (Spec.instrumentsWithEffects X D) Wd * Cd = 1 := by
  intro D R X
  refine ⟨1, Matrix.of fun _ _ => 1 / 16, Matrix.of fun a b => exampleWeights a.2 b.2,
    Matrix.of fun a b => exampleWeights (a.map id Sigma.snd) (b.map id Sigma.snd) / 16, fun _ => C92_demeaned _, ?_, ?_, ?_, ?_⟩
  · ext ⟨_, _⟩ ⟨_, _⟩
    have h : (absorbedInstruments true (Spec.demeaned exampleIds) exampleColumn) = exampleResidual := example_absorbed
    simp only [defaultWeightsInverse, Matrix.mul_one, R, X, h]
    simp [Fin.sum_univ_four, exampleResidual]
    norm_num
  · ext _ _
    have h : (absorbedInstruments true (Spec.demeaned exampleIds) exampleColumn) = exampleResidual := example_absorbed
    simp only [R, X, h, example_absorbed]
    rw [ivCovariancesInverse_eq, Matrix.mul_one]
    simp only [Matrix.mul_apply, ivP_apply, Matrix.transpose_apply, Fin.sum_univ_four, Fintype.sum_sigma, Finset.univ_unique,
      Finset.sum_singleton, Matrix.one_apply, exampleResidual, Matrix.of_apply]
    simp
    norm_num
  · have hD : defaultWeightsInverse (m := fun _ : Unit => Unit ⊕ Fin 2) (Spec.instrumentsWithEffects X D) =
        Matrix.of fun a b => exampleGram a.2 b.2 / 4 := by
      ext ⟨_, a⟩ ⟨_, b⟩
      refine (if_pos rfl).trans ?_
      exact congrArg₂ (fun p q : ℝ => p / q) (example_gram a b) (by rw [Fintype.card_fin]; norm_num)
    rw [hD]
    ext ⟨_, a⟩ ⟨_, b⟩
    refine (Matrix.mul_apply ..).trans ?_
    rw [Fintype.sum_sigma, Finset.univ_unique, Finset.sum_singleton]
    have := congrFun (congrFun example_inverse a) b
    rw [Matrix.mul_apply] at this
    refine Eq.trans (Finset.sum_congr rfl fun c _ => ?_) (this.trans ?_)
    · rfl
    · simp [Matrix.one_apply]
  · let f : (MomentIndex fun _ : Unit => Unit ⊕ Fin 2) ≃ Unit ⊕ Fin 2 := ⟨Sigma.snd, fun a => ⟨(), a⟩, fun _ => rfl, fun _ => rfl⟩
    let g : (Unit ⊕ ((_ : Unit) × Fin 2)) ≃ Unit ⊕ Fin 2 :=
      ⟨Sum.map id Sigma.snd, Sum.map id fun a => ⟨(), a⟩, by rintro (_ | _) <;> rfl, by rintro (_ | _) <;> rfl⟩
    have hP : ivP (m := fun _ : Unit => Unit ⊕ Fin 2) (Spec.withEffects X D) (Spec.instrumentsWithEffects X D) =
        exampleGram.submatrix f g := by
      ext ⟨_, a⟩ b
      refine (ivP_apply ..).trans ?_
      refine Eq.trans ?_ (example_gram a (g b))
      rcases b with _ | ⟨_, b⟩
      · rfl
      · refine Finset.sum_congr rfl fun i _ => congrArg _ ?_
        change (if () = () then Spec.indicators exampleIds i b else 0) = Spec.indicators exampleIds i b
        simp
    have hWd : (Matrix.of fun a b => exampleWeights a.2 b.2 :
        Matrix (MomentIndex fun _ : Unit => Unit ⊕ Fin 2) (MomentIndex fun _ : Unit => Unit ⊕ Fin 2) ℝ) = exampleWeights.submatrix f f := rfl
    have hCd : (Matrix.of fun a b => exampleWeights (a.map id Sigma.snd) (b.map id Sigma.snd) / 16 :
        Matrix (Unit ⊕ ((_ : Unit) × Fin 2)) (Unit ⊕ ((_ : Unit) × Fin 2)) ℝ) =
        ((1 / 16 : ℝ) • exampleWeights).submatrix g g := by
      ext a b
      simp only [Matrix.of_apply, Matrix.submatrix_apply, Matrix.smul_apply, smul_eq_mul]
      rw [div_eq_inv_mul, one_div]
      rfl
    have hGW : exampleGram * exampleWeights = (4 : ℝ) • 1 := by
      have : (Matrix.of fun a b => exampleGram a b / 4) = (1 / 4 : ℝ) • exampleGram := by
        ext a b
        simp only [Matrix.of_apply, Matrix.smul_apply, smul_eq_mul]
        ring
      rw [← example_inverse, this, Matrix.smul_mul, smul_smul]
      norm_num
    have hT : exampleGramᵀ = exampleGram := by
      ext a b
      rcases a with _ | a <;> rcases b with _ | b <;> simp [exampleGram, eq_comm]
    erw [ivCovariancesInverse_eq, hP, hWd, hCd, Matrix.transpose_submatrix, hT]
    rw [Matrix.submatrix_mul_equiv, Matrix.submatrix_mul_equiv, Matrix.submatrix_mul_equiv, hGW, Matrix.smul_mul, Matrix.one_mul,
      Matrix.smul_mul, Matrix.mul_smul, hGW, smul_smul, smul_smul, Matrix.submatrix_smul]
    norm_num

end Example

end Pyblp
