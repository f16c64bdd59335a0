import Verif.Model.Statistics
import Verif.Props.Groups
import Mathlib.LinearAlgebra.Matrix.NonsingularInverse
import Mathlib.LinearAlgebra.Matrix.DotProduct
import Mathlib.Analysis.Calculus.Deriv.Add
import Mathlib.Analysis.Calculus.Deriv.Mul

set_option linter.unusedSectionVars false

/-!
# Linear IV-GMM (C40), moment covariances (C41), parameter covariances (C42) and the gradient of the objective (C75)
-/

namespace Pyblp

open Matrix

variable {ε n k κ : Type} {m : ε → Type} [Fintype ε] [DecidableEq ε] [Fintype n] [Fintype k] [DecidableEq k] [∀ e, Fintype (m e)]

namespace Spec

/-- The sample moment of equation `e` and instrument `j` at linear parameters `b`: `∑_i z_i (y_i - x_i b)`. -/
def ivMoment (X : ε → Matrix n k ℝ) (Z : (e : ε) → Matrix n (m e) ℝ) (y : ε → n → ℝ) (b : k → ℝ) (c : (e : ε) × m e) : ℝ :=
  ∑ i, Z c.1 i c.2 * (y c.1 i - ∑ l, X c.1 i l * b l)

/-- The GMM quadratic form. -/
def quadratic {c : Type} [Fintype c] (W : Matrix c c ℝ) (g : c → ℝ) : ℝ := ∑ a, ∑ b, g a * W a b * g b

/-- Symmetric positive semidefinite. -/
def PSD {c : Type} [Fintype c] (W : Matrix c c ℝ) : Prop := (∀ a b, W a b = W b a) ∧ ∀ x, 0 ≤ quadratic W x

end Spec

theorem quadratic_eq {c : Type} [Fintype c] (W : Matrix c c ℝ) (g : c → ℝ) : Spec.quadratic W g = g ⬝ᵥ (W *ᵥ g) := by
  unfold Spec.quadratic dotProduct mulVec dotProduct
  simp only [Finset.mul_sum, mul_assoc]

/-! ## Stacked matrices -/

/-- `Z.T @ X`. -/
def ivP (X : ε → Matrix n k ℝ) (Z : (e : ε) → Matrix n (m e) ℝ) : Matrix (MomentIndex m) k ℝ := (blockDiag Z)ᵀ * vstack X

/-- `Z.T @ y`. -/
def ivV (Z : (e : ε) → Matrix n (m e) ℝ) (y : ε → n → ℝ) : MomentIndex m → ℝ := (blockDiag Z)ᵀ *ᵥ fun r => y r.1 r.2

theorem ivV_apply (Z : (e : ε) → Matrix n (m e) ℝ) (y : ε → n → ℝ) (c : MomentIndex m) :
    ivV Z y c = ∑ i, Z c.1 i c.2 * y c.1 i := by
  have h : ivV Z y c = ∑ r : ε × n, (if r.1 = c.1 then Z c.1 r.2 c.2 else 0) * y r.1 r.2 := rfl
  rw [h, Fintype.sum_prod_type, Finset.sum_eq_single c.1]
  · simp
  · intro e _ he
    apply Finset.sum_eq_zero
    intro i _
    simp only [if_neg he, zero_mul]
  · simp

theorem ivP_apply (X : ε → Matrix n k ℝ) (Z : (e : ε) → Matrix n (m e) ℝ) (c : MomentIndex m) (l : k) :
    ivP X Z c l = ∑ i, Z c.1 i c.2 * X c.1 i l := by
  have := ivV_apply Z (fun e i => X e i l) c
  rw [← this]
  rfl

theorem ivMoment_eq (X : ε → Matrix n k ℝ) (Z : (e : ε) → Matrix n (m e) ℝ) (y : ε → n → ℝ) (b : k → ℝ) :
    Spec.ivMoment X Z y b = ivV Z y - ivP X Z *ᵥ b := by
  funext c
  rw [Pi.sub_apply, ivV_apply]
  unfold Spec.ivMoment mulVec dotProduct
  simp only [ivP_apply, mul_sub, Finset.sum_sub_distrib, Finset.mul_sum, Finset.sum_mul]
  congr 1
  rw [Finset.sum_comm]
  simp only [mul_assoc]

theorem ivParameters_eq (C : Matrix k k ℝ) (X : ε → Matrix n k ℝ) (Z : (e : ε) → Matrix n (m e) ℝ)
    (W : Matrix (MomentIndex m) (MomentIndex m) ℝ) (y : ε → n → ℝ) :
    ivParameters C X Z W y = (C * (ivP X Z)ᵀ * W) *ᵥ ivV Z y := by
  unfold ivParameters ivP ivV
  simp only [Matrix.transpose_mul, Matrix.transpose_transpose]

theorem ivCovariancesInverse_eq (X : ε → Matrix n k ℝ) (Z : (e : ε) → Matrix n (m e) ℝ)
    (W : Matrix (MomentIndex m) (MomentIndex m) ℝ) : ivCovariancesInverse X Z W = (ivP X Z)ᵀ * W * ivP X Z := rfl

theorem normal_equations (C : Matrix k k ℝ) (X : ε → Matrix n k ℝ) (Z : (e : ε) → Matrix n (m e) ℝ)
    (W : Matrix (MomentIndex m) (MomentIndex m) ℝ) (y : ε → n → ℝ) (hC : ivCovariancesInverse X Z W * C = 1) :
    ((ivP X Z)ᵀ * W) *ᵥ (ivV Z y - ivP X Z *ᵥ ivParameters C X Z W y) = 0 := by
  rw [ivParameters_eq, Matrix.mulVec_sub, Matrix.mulVec_mulVec, Matrix.mulVec_mulVec]
  have : (ivP X Z)ᵀ * W * (ivP X Z * (C * (ivP X Z)ᵀ * W)) = (ivP X Z)ᵀ * W := by
    calc (ivP X Z)ᵀ * W * (ivP X Z * (C * (ivP X Z)ᵀ * W))
        = ((ivP X Z)ᵀ * W * ivP X Z * C) * ((ivP X Z)ᵀ * W) := by simp only [Matrix.mul_assoc]
      _ = _ := by rw [← ivCovariancesInverse_eq, hC, Matrix.one_mul]
  rw [Matrix.mul_assoc _ (ivP X Z), this, sub_self]

/-! ## C40 -/

/-- **C40.** The concentrated-out linear parameters satisfy the normal equations of the GMM problem: for each regressor, the
derivative of the moments with respect to its parameter is orthogonal to the weighted moments. -/
theorem C40_normal_equations (C : Matrix k k ℝ) (X : ε → Matrix n k ℝ) (Z : (e : ε) → Matrix n (m e) ℝ)
    (W : Matrix (MomentIndex m) (MomentIndex m) ℝ) (y : ε → n → ℝ) (hC : ivCovariancesInverse X Z W * C = 1) (l : k) :
    ∑ a : MomentIndex m, ∑ b : MomentIndex m, (∑ i, Z a.1 i a.2 * X a.1 i l) * W a b *
      Spec.ivMoment X Z y (ivParameters C X Z W y) b = 0 := by
  have h := congrFun (normal_equations C X Z W y hC) l
  rw [← ivMoment_eq, Pi.zero_apply] at h
  rw [← h]
  simp only [mulVec, dotProduct, Matrix.mul_apply, Matrix.transpose_apply, Finset.sum_mul, ivP_apply]
  rw [Finset.sum_comm]

theorem quadratic_add {c : Type} [Fintype c] (W : Matrix c c ℝ) (hW : ∀ a b, W a b = W b a) (r d : c → ℝ) :
    Spec.quadratic W (r + d) = Spec.quadratic W r + 2 * (d ⬝ᵥ (W *ᵥ r)) + Spec.quadratic W d := by
  have hT : Wᵀ = W := by ext a b; exact hW b a
  simp only [quadratic_eq, Matrix.mulVec_add, add_dotProduct, dotProduct_add]
  have : r ⬝ᵥ (W *ᵥ d) = d ⬝ᵥ (W *ᵥ r) := by
    rw [Matrix.dotProduct_mulVec, dotProduct_comm, ← Matrix.mulVec_transpose, hT]
  rw [this]; ring

/-- **C40.** They minimise the GMM quadratic form for every symmetric positive semidefinite weighting matrix, and nothing else
does. -/
theorem C40_minimises (C : Matrix k k ℝ) (X : ε → Matrix n k ℝ) (Z : (e : ε) → Matrix n (m e) ℝ)
    (W : Matrix (MomentIndex m) (MomentIndex m) ℝ) (y : ε → n → ℝ) (hC : ivCovariancesInverse X Z W * C = 1)
    (hW : Spec.PSD W) (b : k → ℝ) :
    Spec.quadratic W (Spec.ivMoment X Z y (ivParameters C X Z W y)) ≤ Spec.quadratic W (Spec.ivMoment X Z y b) ∧
    (Spec.quadratic W (Spec.ivMoment X Z y b) = Spec.quadratic W (Spec.ivMoment X Z y (ivParameters C X Z W y)) →
      b = ivParameters C X Z W y) := by
  set p := ivParameters C X Z W y with hp
  have hsplit : Spec.ivMoment X Z y b = Spec.ivMoment X Z y p + ivP X Z *ᵥ (p - b) := by
    rw [ivMoment_eq, ivMoment_eq, Matrix.mulVec_sub]; abel
  have hcross : (ivP X Z *ᵥ (p - b)) ⬝ᵥ (W *ᵥ Spec.ivMoment X Z y p) = 0 := by
    have h := normal_equations C X Z W y hC
    rw [← ivMoment_eq, ← hp, ← Matrix.mulVec_mulVec] at h
    rw [dotProduct_comm, Matrix.dotProduct_mulVec, ← Matrix.mulVec_transpose, h, zero_dotProduct]
  have heq : Spec.quadratic W (Spec.ivMoment X Z y b) =
      Spec.quadratic W (Spec.ivMoment X Z y p) + Spec.quadratic W (ivP X Z *ᵥ (p - b)) := by
    rw [hsplit, quadratic_add W hW.1, hcross]; ring
  refine ⟨by rw [heq]; linarith [hW.2 (ivP X Z *ᵥ (p - b))], ?_⟩
  intro h
  have hzero : Spec.quadratic W (ivP X Z *ᵥ (p - b)) = 0 := by linarith
  -- a semidefinite form vanishes only where the matrix does
  have hker : W *ᵥ (ivP X Z *ᵥ (p - b)) = 0 := by
    set d := ivP X Z *ᵥ (p - b) with hd
    funext a
    by_contra hne
    set w := W *ᵥ d with hw
    have hww : 0 < w ⬝ᵥ w := by
      have : w ≠ 0 := fun h0 => hne (by rw [h0])
      have h1 := (not_congr dotProduct_self_eq_zero).2 this
      have h2 : 0 ≤ w ⬝ᵥ w := by
        unfold dotProduct
        exact Finset.sum_nonneg fun i _ => mul_self_nonneg _
      exact lt_of_le_of_ne h2 (Ne.symm h1)
    -- the form at d + s w is 2 s w.w + s² q(w)
    have hform : ∀ s : ℝ, 0 ≤ 2 * s * (w ⬝ᵥ w) + s ^ 2 * Spec.quadratic W w := by
      intro s
      have h1 := hW.2 (d + s • w)
      rw [quadratic_add W hW.1, hzero, quadratic_eq W (s • w), Matrix.mulVec_smul, smul_dotProduct, dotProduct_smul,
        smul_dotProduct, ← hw, ← quadratic_eq] at h1
      simp only [smul_eq_mul] at h1
      nlinarith [h1]
    have hq := hW.2 w
    by_cases hq0 : Spec.quadratic W w = 0
    · have := hform (-1)
      rw [hq0] at this
      linarith
    · have hqpos : 0 < Spec.quadratic W w := lt_of_le_of_ne hq (Ne.symm hq0)
      have := hform (-(w ⬝ᵥ w) / Spec.quadratic W w)
      have h2 : 2 * (-(w ⬝ᵥ w) / Spec.quadratic W w) * (w ⬝ᵥ w) +
          (-(w ⬝ᵥ w) / Spec.quadratic W w) ^ 2 * Spec.quadratic W w = -((w ⬝ᵥ w) ^ 2 / Spec.quadratic W w) := by
        field_simp; ring
      rw [h2] at this
      have : 0 < (w ⬝ᵥ w) ^ 2 / Spec.quadratic W w := by positivity
      linarith
  have hC' : C * ivCovariancesInverse X Z W = 1 := mul_eq_one_comm.1 hC
  have : p - b = 0 := by
    calc p - b = (C * ivCovariancesInverse X Z W) *ᵥ (p - b) := by rw [hC', Matrix.one_mulVec]
      _ = (C * (ivP X Z)ᵀ) *ᵥ (W *ᵥ (ivP X Z *ᵥ (p - b))) := by
        rw [ivCovariancesInverse_eq]; simp only [Matrix.mulVec_mulVec, Matrix.mul_assoc]
      _ = 0 := by rw [hker, Matrix.mulVec_zero]
  exact (sub_eq_zero.1 this).symm

/-- **C40.** With exactly as many instruments as regressors, all moments are zero at the concentrated-out parameters, so they do
not depend on the weighting matrix. -/
theorem C40_exactly_identified [∀ e, DecidableEq (m e)] (hcard : Fintype.card (MomentIndex m) = Fintype.card k)
    (C C' : Matrix k k ℝ) (X : ε → Matrix n k ℝ) (Z : (e : ε) → Matrix n (m e) ℝ)
    (W W' : Matrix (MomentIndex m) (MomentIndex m) ℝ) (y : ε → n → ℝ) (hC : ivCovariancesInverse X Z W * C = 1)
    (hC' : ivCovariancesInverse X Z W' * C' = 1) :
    (∀ a, Spec.ivMoment X Z y (ivParameters C X Z W y) a = 0) ∧
    ivParameters C X Z W y = ivParameters C' X Z W' y := by
  have key : ∀ (C : Matrix k k ℝ) (W : Matrix (MomentIndex m) (MomentIndex m) ℝ), ivCovariancesInverse X Z W * C = 1 →
      Spec.ivMoment X Z y (ivParameters C X Z W y) = 0 := by
    intro C W hC
    have h1 : (C * (ivP X Z)ᵀ * W) * ivP X Z = 1 := by
      have := mul_eq_one_comm.1 hC
      rw [ivCovariancesInverse_eq] at this
      simpa only [Matrix.mul_assoc] using this
    have h2 : ivP X Z * (C * (ivP X Z)ᵀ * W) = 1 := (Matrix.mul_eq_one_comm_of_card_eq _ _ _ hcard.symm).1 h1
    rw [ivMoment_eq, ivParameters_eq, Matrix.mulVec_mulVec, h2, Matrix.one_mulVec, sub_self]
  refine ⟨fun a => congrFun (key C W hC) a, ?_⟩
  have e := (key C W hC).trans (key C' W' hC').symm
  rw [ivMoment_eq, ivMoment_eq] at e
  have e2 : ivP X Z *ᵥ ivParameters C X Z W y = ivP X Z *ᵥ ivParameters C' X Z W' y := sub_right_injective e
  have h1 : (C * (ivP X Z)ᵀ * W) * ivP X Z = 1 := by
    have := mul_eq_one_comm.1 hC
    rw [ivCovariancesInverse_eq] at this
    simpa only [Matrix.mul_assoc] using this
  calc ivParameters C X Z W y = ((C * (ivP X Z)ᵀ * W) * ivP X Z) *ᵥ ivParameters C X Z W y := by rw [h1, Matrix.one_mulVec]
    _ = (C * (ivP X Z)ᵀ * W) *ᵥ (ivP X Z *ᵥ ivParameters C' X Z W' y) := by rw [← Matrix.mulVec_mulVec, e2]
    _ = _ := by rw [Matrix.mulVec_mulVec, h1, Matrix.one_mulVec]

/-- **C40.** Residuals are the dependent variable less fitted values. -/
theorem C40_residuals (C : Matrix k k ℝ) (X : ε → Matrix n k ℝ) (Z : (e : ε) → Matrix n (m e) ℝ)
    (W : Matrix (MomentIndex m) (MomentIndex m) ℝ) (y : ε → n → ℝ) (e : ε) (i : n) :
    ivResiduals C X Z W y e i = y e i - ∑ l, X e i l * ivParameters C X Z W y l := rfl

/-- One equation, two observations, one regressor and two instruments. -/
example : ivCovariancesInverse (ε := Unit) (m := fun _ => Fin 2) (k := Unit) (n := Fin 2) (fun _ => Matrix.of fun _ _ => 1)
    (fun _ => 1) 1 * (Matrix.of fun _ _ => 1 / 2 : Matrix Unit Unit ℝ) = 1 := by
  rw [ivCovariancesInverse_eq, Matrix.mul_one]
  ext a b
  simp only [Matrix.mul_apply, Matrix.transpose_apply, ivP_apply]
  simp [Fintype.sum_sigma]
  norm_num

/-! ## C41 -/

section Covariances

variable {ι : Type} [LinearOrder ι] {N : ℕ}

namespace Spec

/-- Products of errors and instruments, less their averages if they are to be centred. -/
noncomputable def momentRow (u : ε → Fin N → ℝ) (Z : (e : ε) → Matrix (Fin N) (m e) ℝ) (center : Bool) (i : Fin N)
    (a : (e : ε) × m e) : ℝ :=
  u a.1 i * Z a.1 i a.2 - if center then (∑ j, u a.1 j * Z a.1 j a.2) / N else 0

end Spec

theorem centered_eq (u : ε → Fin N → ℝ) (Z : (e : ε) → Matrix (Fin N) (m e) ℝ) (center : Bool) :
    centered center (gmmMoments u Z) = Spec.momentRow u Z center := by
  funext i a
  cases center <;> simp [centered, gmmMoments, Spec.momentRow, rowMean]

/-- **C41.** The robust type is the average outer product of (optionally centred) products of errors and instruments. -/
theorem C41_robust (u : ε → Fin N → ℝ) (Z : (e : ε) → Matrix (Fin N) (m e) ℝ) (ids : Fin N → ι) (sort : List (Fin N))
    (center : Bool) (a b : (e : ε) × m e) :
    gmmMomentCovariances u Z .robust ids sort center a b =
      (∑ i, Spec.momentRow u Z center i a * Spec.momentRow u Z center i b) / N := by
  unfold gmmMomentCovariances symmetrized
  simp only [centered_eq]
  have : ∑ i, Spec.momentRow u Z center i b * Spec.momentRow u Z center i a =
      ∑ i, Spec.momentRow u Z center i a * Spec.momentRow u Z center i b := Finset.sum_congr rfl fun i _ => mul_comm _ _
  rw [this]; ring

/-- **C41.** The clustered type sums products within clusters before taking outer products. -/
theorem C41_clustered (u : ε → Fin N → ℝ) (Z : (e : ε) → Matrix (Fin N) (m e) ℝ) (ids : Fin N → ι) (sort : List (Fin N))
    (hsort : IsArgsort ids sort) (center : Bool) (a b : (e : ε) × m e) :
    gmmMomentCovariances u Z .clustered ids sort center a b =
      (∑ c ∈ Finset.univ.image ids, (∑ i with ids i = c, Spec.momentRow u Z center i a) *
        (∑ i with ids i = c, Spec.momentRow u Z center i b)) / N := by
  have hsum : ∀ f : ι → ℝ, (((Finset.univ.image ids).sort (· ≤ ·)).map f).sum = ∑ c ∈ Finset.univ.image ids, f c := by
    intro f
    rw [← Finset.sum_map_toList]
    exact (List.Perm.map f (Finset.sort_perm_toList _ _)).sum_eq
  unfold gmmMomentCovariances symmetrized
  simp only [centered_eq]
  rw [C06_sum ids sort hsort]
  simp only [List.map_map, Function.comp_def, Finset.sum_apply]
  rw [hsum, hsum]
  have : ∑ c ∈ Finset.univ.image ids, (∑ i with ids i = c, Spec.momentRow u Z center i b) *
        (∑ i with ids i = c, Spec.momentRow u Z center i a) =
      ∑ c ∈ Finset.univ.image ids, (∑ i with ids i = c, Spec.momentRow u Z center i a) *
        (∑ i with ids i = c, Spec.momentRow u Z center i b) := Finset.sum_congr rfl fun i _ => mul_comm _ _
  rw [this]; ring

/-- **C41.** The unadjusted type multiplies cross products of instruments by the covariance of the errors. -/
theorem C41_unadjusted (u : ε → Fin N → ℝ) (Z : (e : ε) → Matrix (Fin N) (m e) ℝ) (ids : Fin N → ι) (sort : List (Fin N))
    (center : Bool) (a b : (e : ε) × m e) :
    gmmMomentCovariances u Z .unadjusted ids sort center a b =
      ((∑ i, u a.1 i * u b.1 i) / N - (∑ i, u a.1 i) / N * ((∑ i, u b.1 i) / N)) * (∑ i, Z a.1 i a.2 * Z b.1 i b.2) / N := by
  have hcov : ∀ x y : Fin N → ℝ, gmmErrorCovariance x y = (∑ i, x i * y i) / N - (∑ i, x i) / N * ((∑ i, y i) / N) := by
    intro x y
    unfold gmmErrorCovariance
    rw [Fintype.card_fin]
    rcases Nat.eq_zero_or_pos N with h | h
    · subst h; simp
    · have hN : (N : ℝ) ≠ 0 := by exact_mod_cast h.ne'
      have : ∀ i, (x i - (∑ j, x j) / N) * (y i - (∑ j, y j) / N) =
          x i * y i - x i * ((∑ j, y j) / N) - (∑ j, x j) / N * y i + (∑ j, x j) / N * ((∑ j, y j) / N) := by
        intro i; ring
      simp only [this, Finset.sum_add_distrib, Finset.sum_sub_distrib, ← Finset.sum_mul, ← Finset.mul_sum, Finset.sum_const,
        Finset.card_univ, Fintype.card_fin, nsmul_eq_mul]
      field_simp
      ring
  unfold gmmMomentCovariances symmetrized
  simp only [hcov]
  have h1 : ∑ i, u b.1 i * u a.1 i = ∑ i, u a.1 i * u b.1 i := Finset.sum_congr rfl fun i _ => mul_comm _ _
  have h2 : ∑ i, Z b.1 i b.2 * Z a.1 i a.2 = ∑ i, Z a.1 i a.2 * Z b.1 i b.2 := Finset.sum_congr rfl fun i _ => mul_comm _ _
  rw [h1, h2]; ring

/-- A sum of outer products is positive semidefinite. -/
theorem outer_nonneg {c R : Type} [Fintype c] (s : Finset R) (f : R → c → ℝ) (S : Matrix c c ℝ)
    (hS : ∀ a b, S a b = (∑ r ∈ s, f r a * f r b) / N) : Spec.PSD S := by
  refine ⟨fun a b => by rw [hS, hS]; congr 1; exact Finset.sum_congr rfl fun i _ => mul_comm _ _, fun x => ?_⟩
  have : Spec.quadratic S x = (∑ r ∈ s, (∑ a, x a * f r a) ^ 2) / N := by
    unfold Spec.quadratic
    simp only [hS, sq, Finset.sum_mul_sum]
    rw [Finset.sum_comm (s := s)]
    rw [Finset.sum_div]
    apply Finset.sum_congr rfl
    intro a _
    rw [Finset.sum_comm (s := s), Finset.sum_div]
    apply Finset.sum_congr rfl
    intro b _
    rw [Finset.sum_div, Finset.mul_sum, Finset.sum_div, Finset.sum_mul]
    apply Finset.sum_congr rfl
    intro r _
    ring
  rw [this]
  apply div_nonneg _ (Nat.cast_nonneg N)
  exact Finset.sum_nonneg fun r _ => sq_nonneg _

/-- **C41.** Moment covariance matrices are symmetric positive semidefinite for all three types, with and without centring. -/
theorem C41_psd (u : ε → Fin N → ℝ) (Z : (e : ε) → Matrix (Fin N) (m e) ℝ) (type : CovarianceType) (ids : Fin N → ι)
    (sort : List (Fin N)) (hsort : IsArgsort ids sort) (center : Bool) :
    Spec.PSD (gmmMomentCovariances u Z type ids sort center) := by
  cases type with
  | robust => exact outer_nonneg Finset.univ _ _ (C41_robust u Z ids sort center)
  | clustered =>
    exact outer_nonneg (N := N) (Finset.univ.image ids) (fun c a => ∑ i with ids i = c, Spec.momentRow u Z center i a) _
      (C41_clustered u Z ids sort hsort center)
  | unadjusted =>
    -- the error covariance is an average of outer products of centred errors
    refine outer_nonneg (N := N * N) (c := (e : ε) × m e) (Finset.univ : Finset (Fin N × Fin N))
      (fun r a => (u a.1 r.1 - (∑ j, u a.1 j) / N) * Z a.1 r.2 a.2) _ ?_
    intro a b
    have hS : gmmMomentCovariances u Z .unadjusted ids sort center a b =
        gmmErrorCovariance (u a.1) (u b.1) * (∑ i, Z a.1 i a.2 * Z b.1 i b.2) / (N : ℝ) := by
      unfold gmmMomentCovariances symmetrized
      have h1 : gmmErrorCovariance (u b.1) (u a.1) = gmmErrorCovariance (u a.1) (u b.1) := by
        unfold gmmErrorCovariance
        congr 1
        exact Finset.sum_congr rfl fun i _ => mul_comm _ _
      have h2 : ∑ i, Z b.1 i b.2 * Z a.1 i a.2 = ∑ i, Z a.1 i a.2 * Z b.1 i b.2 :=
        Finset.sum_congr rfl fun i _ => mul_comm _ _
      simp only [h1, h2]
      ring
    rw [hS, Fintype.sum_prod_type]
    unfold gmmErrorCovariance
    rw [Fintype.card_fin, div_mul_eq_mul_div, div_div, Finset.sum_mul_sum]
    push_cast
    congr 1
    apply Finset.sum_congr rfl
    intro i _
    apply Finset.sum_congr rfl
    intro j _
    ring

/-- **C41.** Robust equals clustered when every observation is its own cluster. -/
theorem C41_own_clusters (u : ε → Fin N → ℝ) (Z : (e : ε) → Matrix (Fin N) (m e) ℝ) (ids : Fin N → ι)
    (hids : Function.Injective ids) (sort : List (Fin N)) (hsort : IsArgsort ids sort) (center : Bool) :
    gmmMomentCovariances u Z .clustered ids sort center = gmmMomentCovariances u Z .robust ids sort center := by
  ext a b
  rw [C41_clustered u Z ids sort hsort, C41_robust]
  congr 1
  rw [Finset.sum_image fun i _ j _ h => hids h]
  apply Finset.sum_congr rfl
  intro i _
  have : (Finset.univ.filter fun j => ids j = ids i) = {i} := by
    ext j; simp [hids.eq_iff]
  rw [this, Finset.sum_singleton, Finset.sum_singleton]

end Covariances

/-! ## C42 -/

section ParameterCovariances

variable {c p : Type} [Fintype c] [Fintype p] [DecidableEq p] [DecidableEq c]

/-- **C42.** The reported covariance matrix is symmetric. -/
theorem C42_symmetric (W S : Matrix c c ℝ) (G : Matrix c p ℝ) (inverse : Matrix p p ℝ) (unadjusted : Bool) (a b : p) :
    gmmParameterCovariances W S G inverse unadjusted a b = gmmParameterCovariances W S G inverse unadjusted b a := by
  unfold gmmParameterCovariances symmetrized
  ring

theorem symmetrized_of_symm (M : Matrix c c ℝ) (h : Mᵀ = M) : symmetrized M = M := by
  ext a b
  unfold symmetrized
  have : M b a = M a b := congrFun (congrFun h a) b
  rw [this]; ring

theorem inverse_symm (W : Matrix c c ℝ) (hW : Wᵀ = W) (G : Matrix c p ℝ) (inverse : Matrix p p ℝ)
    (hinv : (Gᵀ * W * G) * inverse = 1) : inverseᵀ = inverse := by
  have hA : (Gᵀ * W * G)ᵀ = Gᵀ * W * G := by
    simp only [Matrix.transpose_mul, Matrix.transpose_transpose, hW, Matrix.mul_assoc]
  have h1 : inverseᵀ * (Gᵀ * W * G) = 1 := by
    have := congrArg Matrix.transpose hinv
    rwa [Matrix.transpose_mul, hA, Matrix.transpose_one] at this
  calc inverseᵀ = inverseᵀ * ((Gᵀ * W * G) * inverse) := by rw [hinv, Matrix.mul_one]
    _ = (inverseᵀ * (Gᵀ * W * G)) * inverse := (Matrix.mul_assoc _ _ _).symm
    _ = inverse := by rw [h1, Matrix.one_mul]

/-- **C42.** With the efficient weighting matrix (the inverse of the moment covariances) the sandwich equals the unadjusted
covariance matrix. -/
theorem C42_efficient (W S : Matrix c c ℝ) (G : Matrix c p ℝ) (inverse : Matrix p p ℝ) (hWS : S * W = 1)
    (hinv : (Gᵀ * W * G) * inverse = 1) :
    gmmParameterCovariances W S G inverse false = gmmParameterCovariances W S G inverse true := by
  unfold gmmParameterCovariances
  have : inverse * Gᵀ * W * S * W * G * inverse = inverse := by
    calc inverse * Gᵀ * W * S * W * G * inverse
        = inverse * Gᵀ * W * (S * W) * G * inverse := by simp only [Matrix.mul_assoc]
      _ = inverse * ((Gᵀ * W * G) * inverse) := by rw [hWS]; simp only [Matrix.mul_assoc, Matrix.mul_one]
      _ = inverse := by rw [hinv, Matrix.mul_one]
  simp only [this]
  rfl

/-- **C42.** The sandwich is `(G'WG)⁻¹ G'WSWG (G'WG)⁻¹` and is positive semidefinite whenever the moment covariances are. -/
theorem C42_sandwich_psd (W S : Matrix c c ℝ) (hW : ∀ a b, W a b = W b a) (hS : Spec.PSD S) (G : Matrix c p ℝ)
    (inverse : Matrix p p ℝ) (hinv : (Gᵀ * W * G) * inverse = 1) :
    gmmParameterCovariances W S G inverse false = inverse * Gᵀ * W * S * W * G * inverse ∧
    Spec.PSD (gmmParameterCovariances W S G inverse false) := by
  have hWT : Wᵀ = W := by ext a b; exact hW b a
  have hST : Sᵀ = S := by ext a b; exact hS.1 b a
  have hI := inverse_symm W hWT G inverse hinv
  have hsym : (inverse * Gᵀ * W * S * W * G * inverse)ᵀ = inverse * Gᵀ * W * S * W * G * inverse := by
    simp only [Matrix.transpose_mul, Matrix.transpose_transpose, hWT, hST, hI, Matrix.mul_assoc]
  have heq : gmmParameterCovariances W S G inverse false = inverse * Gᵀ * W * S * W * G * inverse :=
    symmetrized_of_symm _ hsym
  refine ⟨heq, C42_symmetric W S G inverse false, fun x => ?_⟩
  rw [heq, quadratic_eq]
  have : x ⬝ᵥ ((inverse * Gᵀ * W * S * W * G * inverse) *ᵥ x) = Spec.quadratic S ((W * G * inverse) *ᵥ x) := by
    rw [quadratic_eq]
    have h1 : inverse * Gᵀ * W * S * W * G * inverse = (W * G * inverse)ᵀ * (S * (W * G * inverse)) := by
      simp only [Matrix.transpose_mul, hWT, hI, Matrix.mul_assoc]
    rw [h1, ← Matrix.mulVec_mulVec, Matrix.dotProduct_mulVec, Matrix.vecMul_transpose]
    simp only [Matrix.mulVec_mulVec, Matrix.mul_assoc]
  rw [this]
  exact hS.2 _

/-- **C42.** The unadjusted covariance matrix is positive semidefinite whenever the weighting matrix is. -/
theorem C42_unadjusted_psd (W S : Matrix c c ℝ) (hW : Spec.PSD W) (G : Matrix c p ℝ) (inverse : Matrix p p ℝ)
    (hinv : (Gᵀ * W * G) * inverse = 1) :
    gmmParameterCovariances W S G inverse true = inverse ∧ Spec.PSD (gmmParameterCovariances W S G inverse true) := by
  have hWT : Wᵀ = W := by ext a b; exact hW.1 b a
  have hI := inverse_symm W hWT G inverse hinv
  have heq : gmmParameterCovariances W S G inverse true = inverse := symmetrized_of_symm _ hI
  refine ⟨heq, C42_symmetric W S G inverse true, fun x => ?_⟩
  rw [heq, quadratic_eq]
  have : x ⬝ᵥ (inverse *ᵥ x) = Spec.quadratic W ((G * inverse) *ᵥ x) := by
    rw [quadratic_eq]
    have h1 : inverse = (G * inverse)ᵀ * (W * (G * inverse)) := by
      calc inverse = inverse * ((Gᵀ * W * G) * inverse) := by rw [hinv, Matrix.mul_one]
        _ = _ := by simp only [Matrix.transpose_mul, hI, Matrix.mul_assoc]
    conv_lhs => rw [h1]
    rw [← Matrix.mulVec_mulVec, Matrix.dotProduct_mulVec, Matrix.vecMul_transpose]
    simp only [Matrix.mulVec_mulVec]
  rw [this]
  exact hW.2 _

/-- **C42.** The updated weighting matrix is the inverse of the moment covariances, so two-step GMM satisfies `C42_efficient`. -/
theorem C42_updated_weights (S inverse : Matrix c c ℝ) (hS : ∀ a b, S a b = S b a) (hinv : S * inverse = 1) :
    S * gmmWeights inverse = 1 := by
  have hST : Sᵀ = S := by ext a b; exact hS b a
  have hI : inverseᵀ = inverse := by
    have := congrArg Matrix.transpose hinv
    rw [Matrix.transpose_mul, hST, Matrix.transpose_one] at this
    calc inverseᵀ = inverseᵀ * (S * inverse) := by rw [hinv, Matrix.mul_one]
      _ = (inverseᵀ * S) * inverse := by rw [Matrix.mul_assoc]
      _ = inverse := by rw [this, Matrix.one_mul]
  unfold gmmWeights
  rw [symmetrized_of_symm _ hI, hinv]

/-- Two moments and one parameter with an inefficient weighting matrix. -/
example : (Matrix.of ![![1], ![1]] : Matrix (Fin 2) (Fin 1) ℝ)ᵀ * (Matrix.diagonal ![1, 3] : Matrix (Fin 2) (Fin 2) ℝ) *
    (Matrix.of ![![1], ![1]] : Matrix (Fin 2) (Fin 1) ℝ) * (Matrix.of ![![1 / 4]] : Matrix (Fin 1) (Fin 1) ℝ) = 1 := by
  ext a b
  fin_cases a; fin_cases b
  norm_num [Matrix.mul_apply, Fin.sum_univ_two, Matrix.diagonal]

end ParameterCovariances

/-! ## C76 -/

section Sensitivity

variable {c p : Type} [Fintype c] [Fintype p] [DecidableEq p] [DecidableEq c]

theorem sensitivity_normal (W : Matrix c c ℝ) (G : Matrix c p ℝ) (inverse : Matrix p p ℝ)
    (hinv : (Gᵀ * W * G) * inverse = 1) (η : c → ℝ) :
    (Gᵀ * W) *ᵥ (η + G *ᵥ (gmmParameterSensitivity W G inverse *ᵥ η)) = 0 := by
  unfold gmmParameterSensitivity
  rw [Matrix.mulVec_add, Matrix.mulVec_mulVec, Matrix.mulVec_mulVec]
  have : Gᵀ * W * (G * (-inverse * Gᵀ * W)) = -(Gᵀ * W) := by
    calc Gᵀ * W * (G * (-inverse * Gᵀ * W)) = -((Gᵀ * W * G * inverse) * (Gᵀ * W)) := by
          simp only [Matrix.neg_mul, Matrix.mul_neg, Matrix.mul_assoc]
      _ = _ := by rw [hinv, Matrix.one_mul]
  rw [Matrix.mul_assoc (Gᵀ * W) G, this, Matrix.neg_mulVec, add_neg_cancel]

/-- **C76.** If averaged moments are linear in parameters and `b` minimises the GMM objective, then after moments are perturbed by
`η` the objective is minimised by `b` plus the reported sensitivity times `η`. -/
theorem C76_sensitivity (W : Matrix c c ℝ) (hW : Spec.PSD W) (G : Matrix c p ℝ) (inverse : Matrix p p ℝ)
    (hinv : (Gᵀ * W * G) * inverse = 1) (a η : c → ℝ) (b : p → ℝ)
    (hb : ∀ b', Spec.quadratic W (a + G *ᵥ b) ≤ Spec.quadratic W (a + G *ᵥ b')) (b' : p → ℝ) :
    Spec.quadratic W (a + η + G *ᵥ (b + gmmParameterSensitivity W G inverse *ᵥ η)) ≤ Spec.quadratic W (a + η + G *ᵥ b') := by
  have hexp : ∀ (x : c → ℝ) (v : p → ℝ), Spec.quadratic W (x + G *ᵥ v) =
      Spec.quadratic W x + 2 * (v ⬝ᵥ ((Gᵀ * W) *ᵥ x)) + Spec.quadratic W (G *ᵥ v) := by
    intro x v
    rw [quadratic_add W hW.1]
    congr 3
    rw [dotProduct_comm, Matrix.dotProduct_mulVec, ← Matrix.mulVec_transpose, Matrix.mulVec_mulVec, dotProduct_comm]
  -- first order conditions at b
  have hfoc : (Gᵀ * W) *ᵥ (a + G *ᵥ b) = 0 := by
    set w := (Gᵀ * W) *ᵥ (a + G *ᵥ b) with hw
    by_contra hne
    have hww : 0 < w ⬝ᵥ w := by
      have h2 : 0 ≤ w ⬝ᵥ w := by
        unfold dotProduct
        exact Finset.sum_nonneg fun i _ => mul_self_nonneg _
      exact lt_of_le_of_ne h2 (Ne.symm ((not_congr dotProduct_self_eq_zero).2 hne))
    have hform : ∀ s : ℝ, 0 ≤ 2 * s * (w ⬝ᵥ w) + s ^ 2 * Spec.quadratic W (G *ᵥ w) := by
      intro s
      have h1 := hb (b + s • w)
      rw [Matrix.mulVec_add, ← add_assoc, hexp (a + G *ᵥ b), ← hw, smul_dotProduct, Matrix.mulVec_smul] at h1
      have h2 : Spec.quadratic W (s • (G *ᵥ w)) = s ^ 2 * Spec.quadratic W (G *ᵥ w) := by
        rw [quadratic_eq, quadratic_eq, Matrix.mulVec_smul, smul_dotProduct, dotProduct_smul]
        simp only [smul_eq_mul]; ring
      rw [h2, smul_eq_mul] at h1
      linarith
    have hq := hW.2 (G *ᵥ w)
    by_cases hq0 : Spec.quadratic W (G *ᵥ w) = 0
    · have := hform (-1)
      rw [hq0] at this
      linarith
    · have hqpos : 0 < Spec.quadratic W (G *ᵥ w) := lt_of_le_of_ne hq (Ne.symm hq0)
      have := hform (-(w ⬝ᵥ w) / Spec.quadratic W (G *ᵥ w))
      have h2 : 2 * (-(w ⬝ᵥ w) / Spec.quadratic W (G *ᵥ w)) * (w ⬝ᵥ w) +
          (-(w ⬝ᵥ w) / Spec.quadratic W (G *ᵥ w)) ^ 2 * Spec.quadratic W (G *ᵥ w) =
            -((w ⬝ᵥ w) ^ 2 / Spec.quadratic W (G *ᵥ w)) := by
        field_simp; ring
      rw [h2] at this
      have : 0 < (w ⬝ᵥ w) ^ 2 / Spec.quadratic W (G *ᵥ w) := by positivity
      linarith
  set s := gmmParameterSensitivity W G inverse *ᵥ η with hs
  have hfoc2 : (Gᵀ * W) *ᵥ (a + η + G *ᵥ (b + s)) = 0 := by
    have : a + η + G *ᵥ (b + s) = (a + G *ᵥ b) + (η + G *ᵥ s) := by rw [Matrix.mulVec_add]; abel
    rw [this, Matrix.mulVec_add, hfoc, sensitivity_normal W G inverse hinv, add_zero]
  have hsplit : a + η + G *ᵥ b' = (a + η + G *ᵥ (b + s)) + G *ᵥ (b' - (b + s)) := by
    rw [Matrix.mulVec_sub]; abel
  rw [hsplit, hexp (a + η + G *ᵥ (b + s)), hfoc2, dotProduct_zero]
  linarith [hW.2 (G *ᵥ (b' - (b + s)))]

end Sensitivity

/-! ## C75 -/

section Gradient

variable {N : ℕ} {d : Type} [Fintype d]

theorem residuals_moments (C : Matrix k k ℝ) (X : ε → Matrix (Fin N) k ℝ) (Z : (e : ε) → Matrix (Fin N) (m e) ℝ)
    (W : Matrix (MomentIndex m) (MomentIndex m) ℝ) (y : ε → Fin N → ℝ) :
    gmmMomentsMean (ivResiduals C X Z W y) Z =
      (1 / (N : ℝ)) • (ivV Z y - ivP X Z *ᵥ ((C * (ivP X Z)ᵀ * W) *ᵥ ivV Z y)) := by
  rw [← ivParameters_eq, ← ivMoment_eq]
  funext c
  unfold gmmMomentsMean rowMean gmmMoments
  rw [Fintype.card_fin, Pi.smul_apply, smul_eq_mul, Spec.ivMoment, one_div, mul_comm, ← div_eq_mul_inv]
  congr 1
  apply Finset.sum_congr rfl
  intro i _
  rw [C40_residuals, mul_comm]

theorem jacobian_moments (Z : (e : ε) → Matrix (Fin N) (m e) ℝ) (y : ε → Fin N → ℝ) :
    gmmMomentsJacobianMean y Z = (1 / (N : ℝ)) • ivV Z y := by
  funext c
  unfold gmmMomentsJacobianMean
  rw [Fintype.card_fin, Pi.smul_apply, smul_eq_mul, ivV_apply, one_div, mul_comm, ← div_eq_mul_inv]
  congr 1
  exact Finset.sum_congr rfl fun i _ => mul_comm _ _

theorem hasDerivAt_quadratic {c : Type} [Fintype c] (W : Matrix c c ℝ) (hW : ∀ a b, W a b = W b a) (g : ℝ → c → ℝ) (g' : c → ℝ)
    (t : ℝ) (hg : ∀ a, HasDerivAt (fun s => g s a) (g' a) t) :
    HasDerivAt (fun s => g s ⬝ᵥ (W *ᵥ g s)) (2 * (g' ⬝ᵥ (W *ᵥ g t))) t := by
  have hT : Wᵀ = W := by ext a b; exact hW b a
  have h1 : HasDerivAt (fun s => g s ⬝ᵥ (W *ᵥ g s)) (g' ⬝ᵥ (W *ᵥ g t) + g t ⬝ᵥ (W *ᵥ g')) t := by
    have h2 : ∀ a, HasDerivAt (fun s => (W *ᵥ g s) a) ((W *ᵥ g') a) t := by
      intro a
      unfold mulVec dotProduct
      exact HasDerivAt.fun_sum fun b _ => (hg b).const_mul (W a b)
    have h3 := HasDerivAt.fun_sum (u := Finset.univ) fun a _ => (hg a).mul (h2 a)
    refine h3.congr_deriv ?_
    unfold dotProduct
    rw [← Finset.sum_add_distrib]
  refine h1.congr_deriv ?_
  have : g t ⬝ᵥ (W *ᵥ g') = g' ⬝ᵥ (W *ᵥ g t) := by
    rw [Matrix.dotProduct_mulVec, dotProduct_comm, ← Matrix.mulVec_transpose, hT]
  rw [this]; ring

/-- The derivative of averaged moments, accounting for how concentrated-out linear parameters change. -/
theorem hasDerivAt_moments (C : Matrix k k ℝ) (X : ε → Matrix (Fin N) k ℝ) (Z : (e : ε) → Matrix (Fin N) (m e) ℝ)
    (W : Matrix (MomentIndex m) (MomentIndex m) ℝ) (y : ℝ → ε → Fin N → ℝ) (y' : ε → Fin N → ℝ) (t : ℝ)
    (hy : ∀ e i, HasDerivAt (fun s => y s e i) (y' e i) t) (a : MomentIndex m) :
    HasDerivAt (fun s => gmmMomentsMean (ivResiduals C X Z W (y s)) Z a)
      (gmmMomentsMean (ivResiduals C X Z W y') Z a) t := by
  have hv : ∀ b, HasDerivAt (fun s => ivV Z (y s) b) (ivV Z y' b) t := by
    intro b
    simp only [ivV_apply]
    exact HasDerivAt.fun_sum fun i _ => (hy _ _).const_mul _
  simp only [residuals_moments, Matrix.mulVec_mulVec, Pi.smul_apply, Pi.sub_apply, smul_eq_mul]
  apply HasDerivAt.const_mul
  apply (hv a).sub
  unfold mulVec dotProduct
  exact HasDerivAt.fun_sum fun b _ => (hv b).const_mul _

/-- **C75.** If the weighting matrix has no weight on products of aggregate and micro moments, the reported gradient is the
derivative of the reported objective, including through the concentrated-out linear parameters, although Jacobians of `delta` and
transformed costs treat them as fixed. -/
theorem C75_gradient_partial (scale : Bool) (C : Matrix k k ℝ) (X : ε → Matrix (Fin N) k ℝ) (Z : (e : ε) → Matrix (Fin N) (m e) ℝ)
    (W : Matrix (MomentIndex m ⊕ d) (MomentIndex m ⊕ d) ℝ) (hW : ∀ a b, W a b = W b a)
    (hcross : ∀ a b, W (Sum.inl a) (Sum.inr b) = 0) (hC : ivCovariancesInverse X Z (ivWeights W) * C = 1)
    (y : ℝ → ε → Fin N → ℝ) (y' : ε → Fin N → ℝ) (micro : ℝ → d → ℝ) (micro' : d → ℝ) (t : ℝ)
    (hy : ∀ e i, HasDerivAt (fun s => y s e i) (y' e i) t) (hmicro : ∀ b, HasDerivAt (fun s => micro s b) (micro' b) t) :
    HasDerivAt (fun s => progressObjective scale C X Z W (y s) (micro s))
      (progressGradient scale C X Z W (y t) y' (micro t) micro') t := by
  unfold progressObjective progressGradient gmmObjective gmmGradient
  apply HasDerivAt.const_mul
  have hg : ∀ a, HasDerivAt (fun s => concat (gmmMomentsMean (ivResiduals C X Z (ivWeights W) (y s)) Z) (micro s) a)
      (concat (gmmMomentsMean (ivResiduals C X Z (ivWeights W) y') Z) micro' a) t := by
    rintro (a | b)
    · exact hasDerivAt_moments C X Z _ y y' t hy a
    · exact hmicro b
  have h := hasDerivAt_quadratic W hW _ _ t hg
  refine h.congr_deriv ?_
  -- the two Jacobians differ by a combination of derivatives with respect to linear parameters
  set P := ivP X Z with hP
  set w := (C * Pᵀ * ivWeights W) *ᵥ ivV Z y' with hw
  have hdiff : concat (gmmMomentsJacobianMean y' Z) micro' =
      concat (gmmMomentsMean (ivResiduals C X Z (ivWeights W) y') Z) micro' +
        concat ((1 / (N : ℝ)) • (P *ᵥ w)) (0 : d → ℝ) := by
    funext a
    rcases a with a | b
    · simp only [concat, Sum.elim_inl, Pi.add_apply, residuals_moments, jacobian_moments, Pi.smul_apply, Pi.sub_apply, smul_eq_mul]
      ring
    · simp [concat]
  rw [hdiff, add_dotProduct]
  symm
  have hzero : concat ((1 / (N : ℝ)) • (P *ᵥ w)) (0 : d → ℝ) ⬝ᵥ
      (W *ᵥ concat (gmmMomentsMean (ivResiduals C X Z (ivWeights W) (y t)) Z) (micro t)) = 0 := by
    have hn := normal_equations C X Z (ivWeights W) (y t) hC
    have hr : gmmMomentsMean (ivResiduals C X Z (ivWeights W) (y t)) Z =
        (1 / (N : ℝ)) • (ivV Z (y t) - P *ᵥ ivParameters C X Z (ivWeights W) (y t)) := by
      rw [residuals_moments, ivParameters_eq]
    set r := gmmMomentsMean (ivResiduals C X Z (ivWeights W) (y t)) Z with hrdef
    have hinl : ∀ a, (W *ᵥ concat r (micro t)) (Sum.inl a) = (ivWeights W *ᵥ r) a := by
      intro a
      unfold mulVec dotProduct
      rw [Fintype.sum_sum_type]
      simp [concat, hcross, ivWeights]
    have : concat ((1 / (N : ℝ)) • (P *ᵥ w)) (0 : d → ℝ) ⬝ᵥ (W *ᵥ concat r (micro t)) =
        ((1 / (N : ℝ)) • (P *ᵥ w)) ⬝ᵥ (ivWeights W *ᵥ r) := by
      unfold dotProduct
      rw [Fintype.sum_sum_type]
      simp only [hinl]
      simp [concat]
    rw [this, smul_dotProduct, dotProduct_comm, Matrix.dotProduct_mulVec, ← Matrix.mulVec_transpose, Matrix.mulVec_mulVec,
      hr, Matrix.mulVec_smul, hn, smul_zero, zero_dotProduct, smul_zero]
  rw [hzero, add_zero]

/-- **C75.** Converted Jacobians, which are used when there are covariance moments, are the derivatives of residuals. -/
theorem C75_converted (C : Matrix k k ℝ) (X : ε → Matrix n k ℝ) (Z : (e : ε) → Matrix n (m e) ℝ)
    (W : Matrix (MomentIndex m) (MomentIndex m) ℝ) (y : ℝ → ε → n → ℝ) (y' : ε → n → ℝ) (t : ℝ)
    (hy : ∀ e i, HasDerivAt (fun s => y s e i) (y' e i) t) (e : ε) (i : n) :
    HasDerivAt (fun s => ivResiduals C X Z W (y s) e i) (ivJacobian C X Z W y' e i) t := by
  have hv : ∀ b, HasDerivAt (fun s => ivV Z (y s) b) (ivV Z y' b) t := by
    intro b
    simp only [ivV_apply]
    exact HasDerivAt.fun_sum fun i _ => (hy _ _).const_mul _
  have heq : ivJacobian C X Z W y' e i = y' e i - ((vstack X * (C * (ivP X Z)ᵀ * W)) *ᵥ ivV Z y') (e, i) := by
    unfold ivJacobian
    have : (vstack X)ᵀ * blockDiag Z = (ivP X Z)ᵀ := by
      unfold ivP
      rw [Matrix.transpose_mul, Matrix.transpose_transpose]
    rw [this]
    simp only [ivV, Matrix.mulVec_mulVec, Matrix.mul_assoc]
  rw [heq]
  unfold ivResiduals
  simp only [ivParameters_eq, Matrix.mulVec_mulVec]
  apply (hy e i).sub
  unfold mulVec dotProduct
  exact HasDerivAt.fun_sum fun b _ => (hv b).const_mul _

/-- The weighting matrix of the counterexample: an aggregate and a micro moment with weight on their product. -/
noncomputable def crossW : Matrix (MomentIndex (fun _ : Unit => Unit) ⊕ Unit) (MomentIndex (fun _ : Unit => Unit) ⊕ Unit) ℝ
  | .inl _, .inl _ => 1
  | .inr _, .inr _ => 1
  | _, _ => 1 / 2

/-- **C75, refutation.** With weight on products of aggregate and micro moments (which user-supplied weighting matrices and those
accounting for simulation error have), the reported gradient is not the derivative of the reported objective, even for a positive
definite weighting matrix: the objective is constant but the gradient is one. -/
theorem C75_refuted :
    ∃ (C : Matrix Unit Unit ℝ) (X : Unit → Matrix (Fin 1) Unit ℝ) (Z : Unit → Matrix (Fin 1) Unit ℝ)
      (y : ℝ → Unit → Fin 1 → ℝ) (y' : Unit → Fin 1 → ℝ) (micro : ℝ → Unit → ℝ) (micro' : Unit → ℝ),
      Spec.PSD crossW ∧ ivCovariancesInverse X Z (ivWeights crossW) * C = 1 ∧
      (∀ t e i, HasDerivAt (fun s => y s e i) (y' e i) t) ∧ (∀ t b, HasDerivAt (fun s => micro s b) (micro' b) t) ∧
      (∀ t, progressObjective true C X Z crossW (y t) (micro t) = 1) ∧
      (∀ t, progressGradient true C X Z crossW (y t) y' (micro t) micro' = 1) := by
  refine ⟨1, fun _ => Matrix.of fun _ _ => 1, fun _ => Matrix.of fun _ _ => 1, fun t _ _ => t, fun _ _ => 1, fun _ _ => 1,
    fun _ => 0, ⟨?_, ?_⟩, ?_, fun t _ _ => hasDerivAt_id t, fun t _ => hasDerivAt_const t 1, ?_, ?_⟩
  · rintro (a | a) (b | b) <;> rfl
  · intro x
    unfold Spec.quadratic
    simp only [Fintype.sum_sum_type, Fintype.sum_sigma, Finset.univ_unique, Finset.sum_singleton, crossW]
    nlinarith [sq_nonneg (x (Sum.inl ⟨default, default⟩) + x (Sum.inr default)),
      sq_nonneg (x (Sum.inl ⟨default, default⟩)), sq_nonneg (x (Sum.inr default))]
  · ext a b
    rw [Matrix.mul_one, ivCovariancesInverse_eq]
    simp [Matrix.mul_apply, ivP_apply, ivWeights, crossW]
  all_goals
    intro t
    have hr : gmmMomentsMean (ivResiduals (1 : Matrix Unit Unit ℝ) (fun _ : Unit => Matrix.of fun (_ : Fin 1) (_ : Unit) => (1 : ℝ))
        (fun _ : Unit => Matrix.of fun (_ : Fin 1) (_ : Unit) => (1 : ℝ)) (ivWeights crossW) (fun _ _ => t))
        (fun _ : Unit => Matrix.of fun (_ : Fin 1) (_ : Unit) => (1 : ℝ)) = fun _ => 0 := by
      rw [residuals_moments]
      funext c
      simp [mulVec, dotProduct, ivV_apply, ivP_apply, Matrix.mul_apply, ivWeights, crossW]
  · unfold progressObjective
    rw [hr, gmmObjective]
    simp [dotProduct, mulVec, concat, Fintype.sum_sum_type, crossW]
  · unfold progressGradient
    rw [hr, jacobian_moments, gmmGradient]
    simp [dotProduct, mulVec, concat, Fintype.sum_sum_type, crossW, ivV_apply]

end Gradient

end Pyblp
