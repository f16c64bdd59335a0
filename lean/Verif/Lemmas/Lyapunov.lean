import Mathlib.Analysis.Normed.Algebra.GelfandFormula
import Mathlib.Analysis.Matrix.Normed
import Mathlib.Analysis.Matrix.PosDef
import Mathlib.Analysis.Complex.Polynomial.Basic
import Mathlib.LinearAlgebra.Matrix.ToLinearEquiv
import Mathlib.LinearAlgebra.Matrix.FiniteDimensional
import Verif.Tactics

/-!
# Stable matrices and discrete Lyapunov equations
-/

set_option linter.unusedSectionVars false

namespace Pyblp

open Matrix Filter Topology

namespace Spec

/-- All eigenvalues of a real matrix are inside the unit circle. -/
def Stable {n : Type} [Fintype n] [DecidableEq n] (x : Matrix n n ℝ) : Prop :=
  ∀ z : ℂ, (x.map (algebraMap ℝ ℂ) - z • (1 : Matrix n n ℂ)).det = 0 → ‖z‖ < 1

end Spec

variable {n : Type} [Fintype n] [DecidableEq n]

section Powers

attribute [local instance] Matrix.linftyOpNormedRing Matrix.linftyOpNormedAlgebra

theorem entry_le_norm (A : Matrix n n ℂ) (i j : n) : ‖A i j‖ ≤ ‖A‖ := by
  rw [Matrix.linfty_opNorm_def]
  have h1 : ‖A i j‖₊ ≤ ∑ k, ‖A i k‖₊ := Finset.single_le_sum (f := fun k => ‖A i k‖₊) (fun _ _ => bot_le) (Finset.mem_univ j)
  have h2 : (∑ k, ‖A i k‖₊) ≤ Finset.univ.sup fun i => ∑ k, ‖A i k‖₊ := Finset.le_sup (f := fun i => ∑ k, ‖A i k‖₊) (Finset.mem_univ i)
  exact_mod_cast h1.trans h2

theorem complex_pow_tendsto [Nonempty n] (A : Matrix n n ℂ) (h : ∀ z : ℂ, (A - z • (1 : Matrix n n ℂ)).det = 0 → ‖z‖ < 1) (i j : n) :
    Tendsto (fun k : ℕ => (A ^ k) i j) atTop (𝓝 0) := by
  have : CompleteSpace (Matrix n n ℂ) := FiniteDimensional.complete ℂ _
  have hsp : spectralRadius ℂ A < 1 := by
    obtain ⟨z, hz, he⟩ := spectrum.exists_nnnorm_eq_spectralRadius A
    rw [← he]
    have hd : (A - z • (1 : Matrix n n ℂ)).det = 0 := by
      by_contra hne
      have hu : IsUnit (A - z • (1 : Matrix n n ℂ)) := (Matrix.isUnit_iff_isUnit_det _).2 (isUnit_iff_ne_zero.2 hne)
      apply hz
      rw [spectrum.mem_resolventSet_iff]
      have : algebraMap ℂ (Matrix n n ℂ) z - A = -(A - z • 1) := by rw [Algebra.algebraMap_eq_smul_one]; abel
      rw [this]
      exact hu.neg
    have := h z hd
    exact_mod_cast this
  obtain ⟨r, hr1, hr2⟩ := exists_between hsp
  have hg := spectrum.pow_nnnorm_pow_one_div_tendsto_nhds_spectralRadius A
  have hev := hg.eventually (gt_mem_nhds hr1)
  rw [tendsto_zero_iff_norm_tendsto_zero]
  have hrr : r ≠ ⊤ := ne_top_of_lt hr2
  have hr3 : r.toReal < 1 := by
    have := (ENNReal.toReal_lt_toReal hrr ENNReal.one_ne_top).2 hr2
    simpa using this
  refine squeeze_zero' (Eventually.of_forall fun _ => norm_nonneg _) ?_ (tendsto_pow_atTop_nhds_zero_of_lt_one ENNReal.toReal_nonneg hr3)
  filter_upwards [hev, eventually_gt_atTop 0] with k hk hk0
  refine (entry_le_norm _ i j).trans ?_
  have hk' : (‖A ^ k‖₊ : ENNReal) ≤ r ^ k := by
    have h1 := ENNReal.rpow_le_rpow hk.le (Nat.cast_nonneg k : (0 : ℝ) ≤ k)
    rw [← ENNReal.rpow_mul, one_div, inv_mul_cancel₀ (by positivity), ENNReal.rpow_one, ENNReal.rpow_natCast] at h1
    exact h1
  have := ENNReal.toReal_mono (ENNReal.pow_ne_top hrr) hk'
  rw [ENNReal.toReal_pow] at this
  simpa using this

end Powers

/-- Powers of stable matrices vanish. -/
theorem pow_tendsto {x : Matrix n n ℝ} (h : Spec.Stable x) (i j : n) : Tendsto (fun k : ℕ => (x ^ k) i j) atTop (𝓝 0) := by
  have : Nonempty n := ⟨i⟩
  have h1 := complex_pow_tendsto (x.map (algebraMap ℝ ℂ)) h i j
  have h2 : ∀ k : ℕ, ((x.map (algebraMap ℝ ℂ)) ^ k) i j = (((x ^ k) i j : ℝ) : ℂ) := by
    intro k
    rw [← Matrix.map_pow]
    rfl
  simp_rw [h2] at h1
  rw [tendsto_zero_iff_norm_tendsto_zero] at h1 ⊢
  simpa using h1

theorem iterate_lyapunov {x D V : Matrix n n ℝ} (h : D = x * D * xᵀ + V) (k : ℕ) :
    D = x ^ k * D * (x ^ k)ᵀ + ∑ m ∈ Finset.range k, x ^ m * V * (x ^ m)ᵀ := by
  induction k with
  | zero => simp
  | succ k ih =>
    rw [Finset.sum_range_succ]
    calc D = x ^ k * D * (x ^ k)ᵀ + ∑ m ∈ Finset.range k, x ^ m * V * (x ^ m)ᵀ := ih
      _ = x ^ k * (x * D * xᵀ + V) * (x ^ k)ᵀ + ∑ m ∈ Finset.range k, x ^ m * V * (x ^ m)ᵀ := by rw [← h]
      _ = _ := by
        rw [pow_succ, transpose_mul]
        simp only [Matrix.mul_add, Matrix.add_mul, Matrix.mul_assoc]
        abel

theorem conj_tendsto {x : Matrix n n ℝ} (h : Spec.Stable x) (D : Matrix n n ℝ) (i j : n) :
    Tendsto (fun k : ℕ => (x ^ k * D * (x ^ k)ᵀ) i j) atTop (𝓝 0) := by
  have : ∀ k : ℕ, (x ^ k * D * (x ^ k)ᵀ) i j = ∑ a, (∑ b, (x ^ k) i b * D b a) * (x ^ k) j a := by
    intro k
    simp only [Matrix.mul_apply, Matrix.transpose_apply]
  simp_rw [this]
  have : (0 : ℝ) = ∑ a : n, (∑ b : n, 0 * D b a) * 0 := by simp
  rw [this]
  exact tendsto_finsetSum _ fun a _ => (tendsto_finsetSum _ fun b _ => (pow_tendsto h i b).mul_const _).mul (pow_tendsto h j a)

/-- Solutions are unique if the matrix is stable. -/
theorem lyapunov_unique {x V D E : Matrix n n ℝ} (h : Spec.Stable x) (hD : D = x * D * xᵀ + V) (hE : E = x * E * xᵀ + V) : D = E := by
  have hz : (D - E) = x * (D - E) * xᵀ + 0 := by
    rw [Matrix.mul_sub, Matrix.sub_mul, add_zero]
    nth_rw 1 [hD, hE]
    abel
  rw [← sub_eq_zero]
  ext i j
  have h1 := conj_tendsto h (D - E) i j
  have h2 : ∀ k : ℕ, (x ^ k * (D - E) * (x ^ k)ᵀ) i j = (D - E) i j := by
    intro k
    have := iterate_lyapunov hz k
    simp only [Matrix.mul_zero, Matrix.zero_mul, Finset.sum_const_zero, add_zero] at this
    rw [← this]
  simp_rw [h2] at h1
  exact (tendsto_nhds_unique tendsto_const_nhds h1)

/-- Solutions exist if the matrix is stable. -/
theorem lyapunov_exists {x : Matrix n n ℝ} (h : Spec.Stable x) (V : Matrix n n ℝ) : ∃ D, D = x * D * xᵀ + V := by
  let f : Matrix n n ℝ →ₗ[ℝ] Matrix n n ℝ :=
    { toFun := fun D => D - x * D * xᵀ
      map_add' := by intro A B; simp only [Matrix.mul_add, Matrix.add_mul]; abel
      map_smul' := by intro c A; simp [smul_sub] }
  have hi : Function.Injective f := by
    intro A B hAB
    have hAB' : A - x * A * xᵀ = B - x * B * xᵀ := hAB
    refine lyapunov_unique (V := A - x * A * xᵀ) h (by abel) ?_
    rw [hAB']
    abel
  obtain ⟨D, hD⟩ := (LinearMap.injective_iff_surjective.1 hi) V
  have hD' : D - x * D * xᵀ = V := hD
  exact ⟨D, by rw [← hD']; abel⟩

theorem quadratic_lyapunov {x V D : Matrix n n ℝ} (hD : D = x * D * xᵀ + V) (v : n → ℝ) :
    v ⬝ᵥ (D *ᵥ v) = (xᵀ *ᵥ v) ⬝ᵥ (D *ᵥ (xᵀ *ᵥ v)) + v ⬝ᵥ (V *ᵥ v) := by
  nth_rw 1 [hD]
  rw [Matrix.add_mulVec, dotProduct_add, ← Matrix.mulVec_mulVec, ← Matrix.mulVec_mulVec, dotProduct_mulVec v x, ← Matrix.mulVec_transpose]

/-- With a stable matrix and a positive definite covariance, the solution is positive definite. -/
theorem lyapunov_posDef {x V D : Matrix n n ℝ} (h : Spec.Stable x) (hV : V.PosDef) (hD : D = x * D * xᵀ + V) : D.PosDef := by
  have hsymm : Dᵀ = D := by
    refine lyapunov_unique (V := V) h ?_ hD
    have hVs : Vᵀ = V := hV.isHermitian.eq
    nth_rw 1 [hD]
    simp [Matrix.transpose_mul, hVs, Matrix.mul_assoc]
  refine Matrix.PosDef.of_dotProduct_mulVec_pos (by simpa [Matrix.IsHermitian] using hsymm) ?_
  intro v hv
  have hpos := hV.dotProduct_mulVec_pos hv
  simp only [star_trivial] at hpos ⊢
  refine lt_of_lt_of_le hpos ?_
  have hlim : Tendsto (fun k : ℕ => v ⬝ᵥ ((x ^ k * D * (x ^ k)ᵀ) *ᵥ v) + v ⬝ᵥ (V *ᵥ v)) atTop (𝓝 (0 + v ⬝ᵥ (V *ᵥ v))) := by
    refine Tendsto.add_const _ ?_
    have h0 : (0 : ℝ) = ∑ a : n, v a * ∑ b : n, 0 * v b := by simp
    rw [h0]
    simp only [dotProduct, Matrix.mulVec]
    exact tendsto_finsetSum _ fun a _ => (tendsto_finsetSum _ fun b _ => (conj_tendsto h D a b).mul_const _).const_mul _
  rw [zero_add] at hlim
  refine le_of_tendsto hlim ?_
  filter_upwards [eventually_gt_atTop 0] with k hk
  nth_rw 2 [iterate_lyapunov hD k]
  rw [Matrix.add_mulVec, dotProduct_add]
  refine add_le_add le_rfl ?_
  obtain ⟨k, rfl⟩ : ∃ m, k = m + 1 := ⟨k - 1, by omega⟩
  rw [Finset.sum_range_succ', Matrix.add_mulVec, dotProduct_add]
  simp only [pow_zero, Matrix.one_mul, Matrix.transpose_one, Matrix.mul_one]
  refine le_add_of_nonneg_left ?_
  have hpsd : (∑ m ∈ Finset.range k, x ^ (m + 1) * V * (x ^ (m + 1))ᵀ).PosSemidef := by
    refine Matrix.posSemidef_sum _ fun m _ => ?_
    simpa using hV.posSemidef.mul_mul_conjTranspose_same (x ^ (m + 1))
  simpa using hpsd.dotProduct_mulVec_nonneg v

/-- A positive definite solution with a positive definite covariance exists only if the matrix is stable. -/
theorem stable_of_lyapunov {x V D : Matrix n n ℝ} (hV : V.PosDef) (hDp : D.PosDef) (hD : D = x * D * xᵀ + V) : Spec.Stable x := by
  intro z hz
  obtain ⟨v, hv, hvx⟩ := (Matrix.exists_vecMul_eq_zero_iff (M := x.map (algebraMap ℝ ℂ) - z • (1 : Matrix n n ℂ))).2 hz
  set p : n → ℝ := fun i => (v i).re with hp
  set q : n → ℝ := fun i => (v i).im with hq
  have hvx' : ∀ j, ∑ i, v i * (x i j : ℂ) = z * v j := by
    intro j
    have := congrFun hvx j
    rw [Matrix.vecMul_sub] at this
    simp only [Pi.sub_apply, Pi.zero_apply, Matrix.vecMul_smul, Matrix.vecMul_one, Pi.smul_apply, smul_eq_mul, sub_eq_zero] at this
    rw [← this]
    simp [Matrix.vecMul, dotProduct]
  have hpx : xᵀ *ᵥ p = z.re • p - z.im • q := by
    ext j
    have := congrArg Complex.re (hvx' j)
    simp only [Complex.re_sum, Complex.mul_re, Complex.ofReal_re, Complex.ofReal_im, mul_zero, sub_zero] at this
    simp only [Matrix.mulVec, dotProduct, Matrix.transpose_apply, Pi.sub_apply, Pi.smul_apply, smul_eq_mul, hp, hq]
    rw [← this]
    exact Finset.sum_congr rfl fun _ _ => mul_comm _ _
  have hqx : xᵀ *ᵥ q = z.re • q + z.im • p := by
    ext j
    have := congrArg Complex.im (hvx' j)
    simp only [Complex.im_sum, Complex.mul_im, Complex.ofReal_re, Complex.ofReal_im, mul_zero, zero_add] at this
    simp only [Matrix.mulVec, dotProduct, Matrix.transpose_apply, Pi.add_apply, Pi.smul_apply, smul_eq_mul, hp, hq]
    rw [← this]
    exact Finset.sum_congr rfl fun _ _ => mul_comm _ _
  have e1 := quadratic_lyapunov hD p
  have e2 := quadratic_lyapunov hD q
  have hs : ∀ a b : n → ℝ, a ⬝ᵥ (D *ᵥ b) = b ⬝ᵥ (D *ᵥ a) := by
    intro a b
    have hDs : Dᵀ = D := hDp.isHermitian.eq
    rw [dotProduct_mulVec, ← Matrix.mulVec_transpose, hDs, dotProduct_comm]
  have key : p ⬝ᵥ (D *ᵥ p) + q ⬝ᵥ (D *ᵥ q) = (z.re ^ 2 + z.im ^ 2) * (p ⬝ᵥ (D *ᵥ p) + q ⬝ᵥ (D *ᵥ q)) + (p ⬝ᵥ (V *ᵥ p) + q ⬝ᵥ (V *ᵥ q)) := by
    rw [hpx] at e1
    rw [hqx] at e2
    simp only [Matrix.mulVec_sub, Matrix.mulVec_add, Matrix.mulVec_smul, dotProduct_sub, dotProduct_add, sub_dotProduct, add_dotProduct,
      smul_dotProduct, dotProduct_smul, smul_eq_mul] at e1 e2
    rw [hs q p] at e1 e2
    linarith
  have hpq : p ≠ 0 ∨ q ≠ 0 := by
    by_contra hc
    push Not at hc
    apply hv
    ext i
    apply Complex.ext
    · exact congrFun hc.1 i
    · exact congrFun hc.2 i
  have nonneg : ∀ {A : Matrix n n ℝ}, A.PosDef → ∀ u, 0 ≤ u ⬝ᵥ (A *ᵥ u) := fun hA u => by simpa using hA.posSemidef.dotProduct_mulVec_nonneg u
  have pos : ∀ {A : Matrix n n ℝ}, A.PosDef → ∀ u, u ≠ 0 → 0 < u ⬝ᵥ (A *ᵥ u) := fun hA u hu => by simpa using hA.dotProduct_mulVec_pos hu
  have sumpos : ∀ {A : Matrix n n ℝ}, A.PosDef → 0 < p ⬝ᵥ (A *ᵥ p) + q ⬝ᵥ (A *ᵥ q) := by
    intro A hA
    rcases hpq with h | h
    · exact add_pos_of_pos_of_nonneg (pos hA p h) (nonneg hA q)
    · exact add_pos_of_nonneg_of_pos (nonneg hA p) (pos hA q h)
  have h1 := sumpos hV
  have h2 := sumpos hDp
  have h3 : z.re ^ 2 + z.im ^ 2 < 1 := by nlinarith
  have h4 : ‖z‖ ^ 2 < 1 := by
    rw [← Complex.normSq_eq_norm_sq, Complex.normSq_apply]
    nlinarith
  nlinarith [norm_nonneg z]

end Pyblp
