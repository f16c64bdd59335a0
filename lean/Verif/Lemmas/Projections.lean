import Mathlib.Analysis.Matrix.Order
import Mathlib.Analysis.InnerProductSpace.PiL2
import Mathlib.LinearAlgebra.Matrix.NonsingularInverse
import Mathlib.LinearAlgebra.Matrix.Trace

/-!
# Factors of projections and of weights
-/

set_option linter.unusedSectionVars false

open Matrix

namespace Pyblp.Asymptotic

variable {n c p p' q : Type} [Fintype n] [Fintype c] [Fintype p] [Fintype p'] [Fintype q] [DecidableEq n] [DecidableEq c] [DecidableEq p] [DecidableEq p'] [DecidableEq q]

/-- Projections have as many orthonormal directions as the trace says. -/
lemma projection_factor (P : Matrix n n ℝ) (hsym : Pᵀ = P) (hid : P * P = P) :
    ∃ (k : ℕ) (D : Matrix (Fin k) n ℝ), (k : ℝ) = P.trace ∧ D * Dᵀ = 1 ∧ Dᵀ * D = P := by
  set U : Submodule ℝ (EuclideanSpace ℝ n) := LinearMap.range (Matrix.toEuclideanLin P) with hU
  set b := stdOrthonormalBasis ℝ U with hb
  set D : Matrix (Fin (Module.finrank ℝ U)) n ℝ := Matrix.of fun j a => (b j : EuclideanSpace ℝ n) a with hD
  have h1 : D * Dᵀ = 1 := by
    ext j j'
    have := (orthonormal_iff_ite.mp b.orthonormal) j' j
    rw [Submodule.coe_inner, PiLp.inner_apply] at this
    simp only [RCLike.inner_apply, conj_trivial] at this
    rw [Matrix.mul_apply, Matrix.one_apply]
    simp only [hD, Matrix.transpose_apply, Matrix.of_apply]
    rw [this]
    exact if_congr eq_comm rfl rfl
  have hfix : ∀ u ∈ U, Matrix.toEuclideanLin P u = u := by
    rintro u ⟨v, rfl⟩
    rw [← LinearMap.comp_apply, ← Matrix.toLpLin_mul_same, hid]
  have h2 : Dᵀ * D = P := by
    have hDP : D * P = D := by
      ext j a
      have hj := congrArg (fun v : EuclideanSpace ℝ n => v a) (hfix _ (b j).2)
      simp only [Matrix.toLpLin_apply, Matrix.mulVec, dotProduct] at hj
      rw [Matrix.mul_apply]
      simp only [hD, Matrix.of_apply]
      rw [← hj]
      refine Finset.sum_congr rfl fun a' _ => ?_
      rw [mul_comm]
      congr 1
      exact congrFun (congrFun hsym a) a'
    have hU : ∀ u ∈ U, (Dᵀ * D) *ᵥ u.ofLp = u.ofLp := by
      intro u hu
      have hs := congrArg (fun v : U => (v : EuclideanSpace ℝ n)) (b.sum_repr' ⟨u, hu⟩)
      simp only at hs
      funext a
      have ha := congrArg (fun v : EuclideanSpace ℝ n => v a) hs
      simp only at ha
      rw [← ha, ← Matrix.mulVec_mulVec]
      simp only [Matrix.mulVec, dotProduct, Matrix.transpose_apply, hD, Matrix.of_apply]
      rw [Submodule.coe_sum, WithLp.ofLp_sum, Finset.sum_apply]
      refine Finset.sum_congr rfl fun j _ => ?_
      rw [Submodule.coe_smul, PiLp.smul_apply, smul_eq_mul, mul_comm]
      congr 1
      rw [Submodule.coe_inner, PiLp.inner_apply]
      simp only [RCLike.inner_apply, conj_trivial]
      exact Finset.sum_congr rfl fun a' _ => mul_comm _ _
    ext a a'
    have hPa : (Dᵀ * D) * P = P := by
      ext x y
      have hy : Matrix.toEuclideanLin P (WithLp.toLp 2 (Pi.single y 1)) ∈ U := ⟨_, rfl⟩
      have := congrFun (hU _ hy) x
      simp only [Matrix.toLpLin_apply, Matrix.mulVec_single_one] at this
      exact this
    rw [Matrix.mul_assoc, hDP] at hPa
    rw [hPa]
  refine ⟨_, D, ?_, h1, h2⟩
  rw [← h2, Matrix.trace_mul_comm, h1, Matrix.trace_one, Fintype.card_fin]

open scoped MatrixOrder in
/-- Positive definite matrices have roots. -/
lemma exists_root {S : Matrix c c ℝ} (hS : S.PosDef) : ∃ C : Matrix c c ℝ, Cᵀ * C = S⁻¹ ∧ C * S * Cᵀ = 1 := by
  have hA : (S⁻¹).PosSemidef := hS.inv.posSemidef
  obtain ⟨C, hC, -, h⟩ := CFC.exists_sqrt_of_isSelfAdjoint_of_quasispectrumRestricts hA.isHermitian
    (QuasispectrumRestricts.nnreal_of_nonneg (Matrix.nonneg_iff_posSemidef.mpr hA))
  have hCt : Cᵀ = C := by
    have := hC.star_eq
    rwa [Matrix.star_eq_conjTranspose, Matrix.conjTranspose_eq_transpose_of_trivial] at this
  have hu : IsUnit S.det := (Matrix.isUnit_iff_isUnit_det S).mp hS.isUnit
  have hCC : C * C = S⁻¹ := h
  refine ⟨C, by rw [hCt, hCC], ?_⟩
  have h1 : C * (C * S) = 1 := by rw [← Matrix.mul_assoc, hCC, Matrix.nonsing_inv_mul _ hu]
  rw [hCt]
  exact mul_eq_one_comm.mp h1

lemma sandwich_symm (X : Matrix c p ℝ) {K : Matrix p p ℝ} (hK : Kᵀ = K) : (X * K * Xᵀ)ᵀ = X * K * Xᵀ := by
  rw [Matrix.transpose_mul, Matrix.transpose_mul, Matrix.transpose_transpose, hK, Matrix.mul_assoc]

/-- What Hansen's statistic is a quadratic form of. -/
lemma hansen_factor {S : Matrix c c ℝ} (hS : S.PosDef) (Q : Matrix c p ℝ) (hd : (Qᵀ * S⁻¹ * Q).det ≠ 0) :
    ∃ B : Matrix (Fin (Fintype.card c - Fintype.card p)) c ℝ, B * S * Bᵀ = 1 ∧ Bᵀ * B = S⁻¹ - S⁻¹ * Q * (Qᵀ * S⁻¹ * Q)⁻¹ * Qᵀ * S⁻¹ := by
  obtain ⟨C, hC, hCS⟩ := exists_root hS
  have hu : IsUnit (Qᵀ * S⁻¹ * Q).det := isUnit_iff_ne_zero.mpr hd
  set H := Qᵀ * S⁻¹ * Q with hH
  have hHs : (C * Q)ᵀ * (C * Q) = H := by
    rw [Matrix.transpose_mul, Matrix.mul_assoc, ← Matrix.mul_assoc Cᵀ, hC, hH, Matrix.mul_assoc]
  have hHt : Hᵀ = H := by rw [← hHs, Matrix.transpose_mul, Matrix.transpose_transpose]
  have hHi : (H⁻¹)ᵀ = H⁻¹ := by rw [Matrix.transpose_nonsing_inv, hHt]
  set X := C * Q with hX
  set P0 := X * H⁻¹ * Xᵀ with hP0
  have hP0t : P0ᵀ = P0 := by
    exact sandwich_symm X hHi
  have hP0i : P0 * P0 = P0 := by
    have : P0 * P0 = X * H⁻¹ * (Xᵀ * X) * H⁻¹ * Xᵀ := by simp only [hP0, Matrix.mul_assoc]
    rw [this, hHs, Matrix.mul_assoc X, Matrix.nonsing_inv_mul _ hu, Matrix.mul_one]
  obtain ⟨k, D, hk, hDD, hD⟩ := projection_factor (1 - P0) (by rw [Matrix.transpose_sub, Matrix.transpose_one, hP0t])
    (by rw [Matrix.sub_mul, Matrix.one_mul, Matrix.mul_sub, Matrix.mul_one, hP0i, sub_self, sub_zero])
  have htr : P0.trace = Fintype.card p := by
    rw [hP0, Matrix.trace_mul_comm, ← Matrix.mul_assoc, hHs, Matrix.mul_nonsing_inv _ hu, Matrix.trace_one]
  rw [Matrix.trace_sub, Matrix.trace_one, htr] at hk
  have hk' : k = Fintype.card c - Fintype.card p := by
    have h2 : (k : ℝ) + Fintype.card p = Fintype.card c := by linarith
    have h3 : k + Fintype.card p = Fintype.card c := by exact_mod_cast h2
    omega
  subst hk'
  refine ⟨D * C, ?_, ?_⟩
  · have : D * C * S * (D * C)ᵀ = D * (C * S * Cᵀ) * Dᵀ := by simp only [Matrix.transpose_mul, Matrix.mul_assoc]
    rw [this, hCS, Matrix.mul_one, hDD]
  · have : (D * C)ᵀ * (D * C) = Cᵀ * (Dᵀ * D) * C := by simp only [Matrix.transpose_mul, Matrix.mul_assoc]
    rw [this, hD, Matrix.mul_sub, Matrix.sub_mul, Matrix.mul_one, hC]
    congr 1
    have : Cᵀ * P0 * C = (Cᵀ * C) * Q * H⁻¹ * Qᵀ * (Cᵀ * C) := by simp only [hP0, hX, Matrix.transpose_mul, Matrix.mul_assoc]
    rw [this, hC]

/-- What the distance statistic is a quadratic form of, when restricted slopes are combinations of unrestricted ones. -/
lemma distance_factor {S : Matrix c c ℝ} (hS : S.PosDef) (Q : Matrix c p ℝ) (L : Matrix p p' ℝ) (hd : (Qᵀ * S⁻¹ * Q).det ≠ 0)
    (hd' : ((Q * L)ᵀ * S⁻¹ * (Q * L)).det ≠ 0) :
    ∃ B : Matrix (Fin (Fintype.card p - Fintype.card p')) c ℝ, B * S * Bᵀ = 1 ∧
      Bᵀ * B = S⁻¹ * Q * (Qᵀ * S⁻¹ * Q)⁻¹ * Qᵀ * S⁻¹ - S⁻¹ * (Q * L) * ((Q * L)ᵀ * S⁻¹ * (Q * L))⁻¹ * (Q * L)ᵀ * S⁻¹ := by
  obtain ⟨C, hC, hCS⟩ := exists_root hS
  have hu : IsUnit (Qᵀ * S⁻¹ * Q).det := isUnit_iff_ne_zero.mpr hd
  have hu' : IsUnit ((Q * L)ᵀ * S⁻¹ * (Q * L)).det := isUnit_iff_ne_zero.mpr hd'
  set H := Qᵀ * S⁻¹ * Q with hH
  set H' := (Q * L)ᵀ * S⁻¹ * (Q * L) with hH'
  have hHs : (C * Q)ᵀ * (C * Q) = H := by
    rw [Matrix.transpose_mul, Matrix.mul_assoc, ← Matrix.mul_assoc Cᵀ, hC, hH, Matrix.mul_assoc]
  have hHs' : (C * Q * L)ᵀ * (C * Q * L) = H' := by
    rw [Matrix.mul_assoc C, Matrix.transpose_mul, Matrix.mul_assoc, ← Matrix.mul_assoc Cᵀ, hC, hH', Matrix.mul_assoc]
  have hHt : Hᵀ = H := by rw [← hHs, Matrix.transpose_mul, Matrix.transpose_transpose]
  have hHt' : H'ᵀ = H' := by rw [← hHs', Matrix.transpose_mul, Matrix.transpose_transpose]
  have hHi : (H⁻¹)ᵀ = H⁻¹ := by rw [Matrix.transpose_nonsing_inv, hHt]
  have hHi' : (H'⁻¹)ᵀ = H'⁻¹ := by rw [Matrix.transpose_nonsing_inv, hHt']
  set X := C * Q with hX
  set P0 := X * H⁻¹ * Xᵀ with hP0
  set P1 := X * L * H'⁻¹ * (X * L)ᵀ with hP1
  have hP0t : P0ᵀ = P0 := by
    exact sandwich_symm X hHi
  have hP1t : P1ᵀ = P1 := by
    exact sandwich_symm (X * L) hHi'
  have hP0X : P0 * X = X := by rw [hP0, Matrix.mul_assoc, hHs, Matrix.mul_assoc, Matrix.nonsing_inv_mul _ hu, Matrix.mul_one]
  have hP1X : P1 * (X * L) = X * L := by rw [hP1, Matrix.mul_assoc, hHs', Matrix.mul_assoc, Matrix.nonsing_inv_mul _ hu', Matrix.mul_one]
  have hP0i : P0 * P0 = P0 := by
    nth_rewrite 2 [hP0]
    rw [← Matrix.mul_assoc, ← Matrix.mul_assoc, hP0X]
  have hP1i : P1 * P1 = P1 := by
    nth_rewrite 2 [hP1]
    rw [← Matrix.mul_assoc, ← Matrix.mul_assoc, hP1X]
  have h01 : P0 * P1 = P1 := by
    rw [hP1, ← Matrix.mul_assoc, ← Matrix.mul_assoc, ← Matrix.mul_assoc, hP0X]
  have h10 : P1 * P0 = P1 := by
    have := congrArg Matrix.transpose h01
    rwa [Matrix.transpose_mul, hP0t, hP1t] at this
  obtain ⟨k, D, hk, hDD, hD⟩ := projection_factor (P0 - P1) (by rw [Matrix.transpose_sub, hP0t, hP1t])
    (by rw [Matrix.sub_mul, Matrix.mul_sub, Matrix.mul_sub, hP0i, hP1i, h01, h10, sub_self, sub_zero])
  have htr : P0.trace = Fintype.card p := by
    rw [hP0, Matrix.trace_mul_comm, ← Matrix.mul_assoc, hHs, Matrix.mul_nonsing_inv _ hu, Matrix.trace_one]
  have htr' : P1.trace = Fintype.card p' := by
    rw [hP1, Matrix.trace_mul_comm, ← Matrix.mul_assoc, hHs', Matrix.mul_nonsing_inv _ hu', Matrix.trace_one]
  rw [Matrix.trace_sub, htr', htr] at hk
  have hk' : k = Fintype.card p - Fintype.card p' := by
    have h2 : (k : ℝ) + Fintype.card p' = Fintype.card p := by linarith
    have h3 : k + Fintype.card p' = Fintype.card p := by exact_mod_cast h2
    omega
  subst hk'
  refine ⟨D * C, ?_, ?_⟩
  · have : D * C * S * (D * C)ᵀ = D * (C * S * Cᵀ) * Dᵀ := by simp only [Matrix.transpose_mul, Matrix.mul_assoc]
    rw [this, hCS, Matrix.mul_one, hDD]
  · have : (D * C)ᵀ * (D * C) = Cᵀ * (Dᵀ * D) * C := by simp only [Matrix.transpose_mul, Matrix.mul_assoc]
    rw [this, hD, Matrix.mul_sub, Matrix.sub_mul]
    congr 1
    · have : Cᵀ * P0 * C = (Cᵀ * C) * Q * H⁻¹ * Qᵀ * (Cᵀ * C) := by simp only [hP0, hX, Matrix.transpose_mul, Matrix.mul_assoc]
      rw [this, hC]
    · have : Cᵀ * P1 * C = (Cᵀ * C) * (Q * L) * H'⁻¹ * (Q * L)ᵀ * (Cᵀ * C) := by simp only [hP1, hX, Matrix.transpose_mul, Matrix.mul_assoc]
      rw [this, hC]

/-- What Wald's statistic is a quadratic form of. -/
lemma wald_factor {S : Matrix c c ℝ} (hS : S.PosSemidef) (A : Matrix q c ℝ) (hd : (A * S * Aᵀ).det ≠ 0) :
    ∃ B : Matrix (Fin (Fintype.card q)) c ℝ, B * S * Bᵀ = 1 ∧ Bᵀ * B = Aᵀ * (A * S * Aᵀ)⁻¹ * A := by
  have hp : (A * S * Aᵀ).PosSemidef := by
    have := hS.mul_mul_conjTranspose_same A
    rwa [Matrix.conjTranspose_eq_transpose_of_trivial] at this
  obtain ⟨C, hC, hCS⟩ := exists_root (hp.posDef_iff_det_ne_zero.mpr hd)
  refine ⟨(C * A).submatrix (Fintype.equivFin q).symm (Equiv.refl c), ?_, ?_⟩
  · rw [Matrix.transpose_submatrix]
    have : (C * A).submatrix (Fintype.equivFin q).symm (Equiv.refl c) * S = (C * A * S).submatrix (Fintype.equivFin q).symm (Equiv.refl c) := rfl
    rw [this, Matrix.submatrix_mul_equiv]
    have : C * A * S * (C * A)ᵀ = C * (A * S * Aᵀ) * Cᵀ := by simp only [Matrix.transpose_mul, Matrix.mul_assoc]
    rw [this, hCS, Matrix.submatrix_one_equiv]
  · rw [Matrix.transpose_submatrix, Matrix.submatrix_mul_equiv]
    have : (C * A)ᵀ * (C * A) = Aᵀ * (Cᵀ * C) * A := by simp only [Matrix.transpose_mul, Matrix.mul_assoc]
    rw [this, hC]
    rfl

end Pyblp.Asymptotic
