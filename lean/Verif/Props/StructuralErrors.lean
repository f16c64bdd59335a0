import Verif.Model.StructuralErrors
import Verif.Lemmas.Lyapunov
import Verif.Props.Panel
import Verif.Props.MatrixChecks
import Mathlib.Probability.Moments.Covariance
import Mathlib.Probability.Distributions.Gaussian.Real
import Mathlib.Analysis.Matrix.Order
import Mathlib.Analysis.Matrix.Spectrum

/-!
# C120: simulated structural errors
-/

set_option linter.unusedSectionVars false

namespace Pyblp

open Matrix MeasureTheory ProbabilityTheory

variable {N : ℕ}

/-! ### Specification -/

namespace Spec

/-- Standard draws: pairs of random numbers with mean zero and variance one that are not correlated with each other. -/
structure StandardDraws {Ω : Type} [MeasurableSpace Ω] (P : Measure Ω) (z : Ω → Fin N → Fin 2 → ℝ) : Prop where
  square : ∀ n a, MemLp (fun ω => z ω n a) 2 P
  mean : ∀ n a, ∫ ω, z ω n a ∂P = 0
  covariance : ∀ n a m b, covariance (fun ω => z ω n a) (fun ω => z ω m b) P = if n = m ∧ a = b then 1 else 0

/-- The matrix of covariances between two pairs of random numbers. -/
noncomputable def covarianceMatrix {Ω : Type} [MeasurableSpace Ω] (P : Measure Ω) (x y : Ω → Fin 2 → ℝ) : Matrix (Fin 2) (Fin 2) ℝ :=
  Matrix.of fun a b => ProbabilityTheory.covariance (fun ω => x ω a) (fun ω => y ω b) P

/-- An array is a column with one number for each product. -/
def IsColumn (g : GivenArray) (x : Fin N → ℝ) : Prop :=
  match g with
  | .scalar y => N = 1 ∧ ∀ i, x i = y
  | .vector l => l = List.ofFn x
  | .matrix r c y => ∃ h : N = r, c = 1 ∧ ∀ i k, y (Fin.cast h i) k = x i

/-- The covariance matrix with some variances and some correlation. -/
noncomputable def covariances (xiVariance omegaVariance correlation : ℝ) : Matrix (Fin 2) (Fin 2) ℝ :=
  !![xiVariance, correlation * (Real.sqrt xiVariance * Real.sqrt omegaVariance);
    correlation * (Real.sqrt xiVariance * Real.sqrt omegaVariance), omegaVariance]

/-- What decompositions of an innovation covariance matrix and of coefficients of an autoregression should be. -/
structure ErrorAlgebraCorrect (L : ErrorAlgebra) (phi V : Matrix (Fin 2) (Fin 2) ℝ) : Prop where
  svd : ∃ U s v, L.svd V = some (s, v) ∧ IsSVD V U v s
  drawSvd : ∃ U s v, L.drawSvd V = some (s, v) ∧ IsSVD V U v s
  eigenvalues : ∃ e, L.eigenvalues phi = some e ∧ IsEigenvalues phi e
  lyapunov : ∀ S, L.lyapunov phi V = some S ↔ S = phi * S * phiᵀ + V ∧ ∀ S', S' = phi * S' * phiᵀ + V → S' = S
  cholesky : ∀ S, S = V ∨ L.lyapunov phi V = some S → (S.PosDef ↔ ∃ F, L.cholesky S = some F) ∧ ∀ F, L.cholesky S = some F → F * Fᵀ = S

/-- Structural errors of a product. -/
def errors (xi omega : Fin N → ℝ) (i : Fin N) : Fin 2 → ℝ := ![xi i, omega i]

/-- The innovations of both structural errors. -/
noncomputable def innovations (lag : Fin N → Fin N) (phi : Matrix (Fin 2) (Fin 2) ℝ) (xi omega : Fin N → ℝ) (i : Fin N) : Fin 2 → ℝ :=
  ![innovation lag xi (phi 0 0) omega (phi 0 1) i, innovation lag omega (phi 1 1) xi (phi 1 0) i]

/-- One row is another one or a lag of it. -/
def Precedes (lag : Fin N → Fin N) (j i : Fin N) : Prop := ∃ m, lag^[m] i = j

end Spec

/-! ### Which structural errors are used -/

theorem covariances_eq (xv ov c : ℝ) (hx : 0 ≤ xv) (ho : 0 ≤ ov) : errorCovariances xv ov c = some (Spec.covariances xv ov c) := by
  unfold errorCovariances Spec.covariances
  rw [if_pos (mul_nonneg hx ho), Real.sqrt_mul hx]

theorem toColumn_iff (g : GivenArray) (x : Fin N → ℝ) : toColumn N g = some x ↔ Spec.IsColumn g x := by
  cases g with
  | scalar y =>
    simp only [toColumn, Spec.IsColumn]
    split_ifs with h
    · simp only [h, true_and, Option.some.injEq, funext_iff]
      exact ⟨fun h i => (h i).symm, fun h i => (h i).symm⟩
    · simp [h]
  | vector l =>
    simp only [toColumn, Spec.IsColumn]
    split_ifs with h
    · subst h
      simp only [Option.some.injEq]
      constructor
      · rintro rfl
        exact (List.ofFn_get l).symm
      · intro h
        funext i
        simp only [Fin.cast_eq_self]
        rw [List.get_eq_getElem]
        conv_lhs => rw [List.getElem_of_eq h]
        simp
    · simp only [false_iff]
      rintro rfl
      exact h List.length_ofFn
  | matrix r c y =>
    simp only [toColumn, Spec.IsColumn]
    split_ifs with h
    · obtain ⟨rfl, rfl⟩ := h
      simp only [Option.some.injEq, funext_iff]
      constructor
      · intro h
        refine ⟨trivial, trivial, fun i k => ?_⟩
        rw [← h i, Subsingleton.elim k 0]
        rfl
      · rintro ⟨_, _, h⟩ i
        exact h i 0
    · simp only [false_iff]
      rintro ⟨h1, h2, -⟩
      exact h ⟨h1.symm, h2⟩

/-- **C120.** Structural errors that are passed are used as they are, whatever else is passed, and those that are simulated are only used if neither is
passed and the supply side is formulated. Everything else fails: arrays that are not columns with one number for each product, no demand-side errors, and no
supply-side ones although that side is formulated. -/
theorem C120_given (L : ErrorAlgebra) (psdTol stableTol : Tolerances) (K3 : ℕ) (xi omega : Option GivenArray) (xv ov c : ℝ)
    (lags : Option (Fin N → Fin N)) (phi : Matrix (Fin 2) (Fin 2) ℝ) (z : Fin N → Fin 2 → ℝ) (x : Fin N → ℝ) (w : Option (Fin N → ℝ)) :
    structuralErrors L psdTol stableTol K3 xi omega xv ov c lags phi z = .ok (x, w) ↔
      ((∃ g, xi = some g ∧ Spec.IsColumn g x) ∧
        ((omega = none ∧ w = none ∧ K3 = 0) ∨ ∃ g y, omega = some g ∧ Spec.IsColumn g y ∧ w = some y)) ∨
      (xi = none ∧ omega = none ∧ 0 < K3 ∧ ∃ u, simulateErrors L psdTol stableTol xv ov c lags phi z = .ok u ∧ x = (fun i => u i 0) ∧
        w = some fun i => u i 1) := by
  simp only [← toColumn_iff]
  unfold structuralErrors loadErrors
  cases xi with
  | none =>
    cases omega with
    | none =>
      by_cases h : 0 < K3
      · simp only [true_and, h, if_true]
        cases hs : simulateErrors L psdTol stableTol xv ov c lags phi z with
        | error e => simp
        | ok u =>
          simp only [requireErrors]
          rw [if_neg (by simp)]
          simp only [Except.ok.injEq, Prod.mk.injEq]
          constructor
          · rintro ⟨rfl, rfl⟩
            exact Or.inr ⟨u, rfl, rfl, rfl⟩
          · rintro (h' | ⟨u', rfl, rfl, rfl⟩)
            · simp at h'
            · exact ⟨rfl, rfl⟩
      · simp [h, requireErrors]
    | some g =>
      cases hg : toColumn N g with
      | none => simp [hg]
      | some y => simp [hg, requireErrors]
  | some g =>
    cases hg : toColumn N g with
    | none => simp [hg]
    | some y =>
      cases omega with
      | none =>
        by_cases h : 0 < K3
        · simp [hg, requireErrors, h]
          omega
        · have h0 : K3 = 0 := by omega
          simp only [hg, requireErrors, h0, lt_irrefl, and_false, if_false, Except.ok.injEq, Prod.mk.injEq, Option.some.injEq]
          constructor
          · rintro ⟨rfl, rfl⟩
            exact Or.inl ⟨⟨g, rfl, hg⟩, Or.inl ⟨trivial, rfl, trivial⟩⟩
          · rintro (⟨⟨g', rfl, h1⟩, h2⟩ | h2)
            · rw [hg] at h1
              rcases h2 with ⟨-, rfl, -⟩ | ⟨g'', y', h3, -⟩
              · exact ⟨Option.some.inj h1, rfl⟩
              · cases h3
            · cases h2.1
      | some g' =>
        cases hg' : toColumn N g' with
        | none => simp [hg, hg']
        | some y' =>
          simp only [hg, hg', requireErrors]
          rw [if_neg (by simp), if_neg (by simp)]
          simp only [Except.ok.injEq, Prod.mk.injEq]
          constructor
          · rintro ⟨rfl, rfl⟩
            exact Or.inl ⟨⟨g, rfl, hg⟩, Or.inr ⟨g', y', rfl, hg', rfl⟩⟩
          · rintro (⟨⟨g1, h1, h1'⟩, h2⟩ | h2)
            · cases h1
              rw [hg] at h1'
              rcases h2 with ⟨h3, -⟩ | ⟨g2, y2, h3, h4, rfl⟩
              · cases h3
              · cases h3
                rw [hg'] at h4
                exact ⟨Option.some.inj h1', congrArg some (Option.some.inj h4)⟩
            · cases h2.1

/-- **C120.** A covariance matrix is positive semidefinite, so accepted with any tolerances that are not negative, if variances are not negative and the
correlation is between minus one and one. Without tolerances, these are the only ones accepted, except that any correlation is accepted with a zero variance. -/
theorem C120_covariances (xv ov c : ℝ) :
    (∃ V, errorCovariances xv ov c = some V ∧ V.PosSemidef) ↔ 0 ≤ xv ∧ 0 ≤ ov ∧ (|c| ≤ 1 ∨ xv = 0 ∨ ov = 0) := by
  have key : 0 ≤ xv → 0 ≤ ov → (Spec.covariances xv ov c).PosSemidef → (|c| ≤ 1 ∨ xv = 0 ∨ ov = 0) := by
    intro hx ho hp
    by_contra hc
    push Not at hc
    have hd := hp.det_nonneg
    rw [Spec.covariances, Matrix.det_fin_two_of] at hd
    have h1 : (Real.sqrt xv * Real.sqrt ov) * (Real.sqrt xv * Real.sqrt ov) = xv * ov := by
      rw [mul_mul_mul_comm, Real.mul_self_sqrt hx, Real.mul_self_sqrt ho]
    have h2 : 0 < xv * ov := mul_pos (lt_of_le_of_ne hx (Ne.symm hc.2.1)) (lt_of_le_of_ne ho (Ne.symm hc.2.2))
    have h3 : 1 < c * c := by
      have := hc.1
      rw [← abs_mul_abs_self c]
      nlinarith
    nlinarith
  constructor
  · rintro ⟨V, hV, hp⟩
    have hV' := hV
    unfold errorCovariances at hV
    split_ifs at hV with h
    · have h0 := hp.diag_nonneg (i := 0)
      have h1 := hp.diag_nonneg (i := 1)
      rw [← Option.some.inj hV] at h0 h1
      have h0' : 0 ≤ xv := by simpa using h0
      have h1' : 0 ≤ ov := by simpa using h1
      rw [covariances_eq xv ov c h0' h1'] at hV'
      rw [← Option.some.inj hV'] at hp
      exact ⟨h0', h1', key h0' h1' hp⟩
  · rintro ⟨hx, ho, hc⟩
    refine ⟨_, covariances_eq xv ov c hx ho, ?_⟩
    refine Matrix.PosSemidef.of_dotProduct_mulVec_nonneg ?_ ?_
    · ext i j
      fin_cases i <;> fin_cases j <;> simp [Spec.covariances]
    · intro v
      simp only [Spec.covariances, Matrix.mulVec, dotProduct, Fin.sum_univ_two, star_trivial, Matrix.of_apply, Matrix.cons_val_zero, Matrix.cons_val_one,
        Matrix.cons_val', Matrix.cons_val_fin_one]
      set p := Real.sqrt xv with hp
      set q := Real.sqrt ov with hq
      have hpp : p * p = xv := Real.mul_self_sqrt hx
      have hqq : q * q = ov := Real.mul_self_sqrt ho
      rw [← hpp, ← hqq]
      rcases hc with hc | hc | hc
      · have h1 := abs_le.1 hc
        have e : v 0 * (p * p * v 0 + c * (p * q) * v 1) + v 1 * (c * (p * q) * v 0 + q * q * v 1) =
            (1 + c) / 2 * (p * v 0 + q * v 1) ^ 2 + (1 - c) / 2 * (p * v 0 - q * v 1) ^ 2 := by ring
        rw [e]
        exact add_nonneg (mul_nonneg (by linarith) (sq_nonneg _)) (mul_nonneg (by linarith) (sq_nonneg _))
      · rw [hc, Real.sqrt_zero] at hp
        rw [hp]
        nlinarith [sq_nonneg (q * v 1)]
      · rw [hc, Real.sqrt_zero] at hq
        rw [hq]
        nlinarith [sq_nonneg (p * v 0)]

/-! ### Linear combinations of draws -/

section Linear

variable {Ω : Type} [MeasurableSpace Ω] {P : Measure Ω} [IsProbabilityMeasure P] {z : Ω → Fin N → Fin 2 → ℝ}

/-- All draws as one vector. -/
def flat (z : Fin N → Fin 2 → ℝ) : Fin N × Fin 2 → ℝ := fun p => z p.1 p.2

/-- The matrix that selects draws of one row. -/
def sel (n : Fin N) : Matrix (Fin 2) (Fin N × Fin 2) ℝ := Matrix.of fun a p => if p = (n, a) then 1 else 0

theorem sel_mulVec (n : Fin N) (z : Fin N → Fin 2 → ℝ) : sel n *ᵥ flat z = z n := by
  ext a
  simp [Matrix.mulVec, dotProduct, sel, flat]

theorem sel_same (n : Fin N) : sel n * (sel n)ᵀ = 1 := by
  ext a b
  simp [Matrix.mul_apply, sel, Matrix.one_apply, eq_comm]

theorem sel_other {n m : Fin N} (h : n ≠ m) : sel n * (sel m)ᵀ = 0 := by
  ext a b
  simp only [Matrix.mul_apply, sel, Matrix.of_apply, Matrix.transpose_apply, Matrix.zero_apply]
  refine Finset.sum_eq_zero fun p _ => ?_
  by_cases hp : p = (n, a)
  · rw [if_neg (c := p = (m, b)) fun hq => h (congrArg Prod.fst (hp.symm.trans hq)), mul_zero]
  · rw [if_neg hp, zero_mul]

theorem linear_memLp (hz : Spec.StandardDraws P z) (W : Matrix (Fin 2) (Fin N × Fin 2) ℝ) (a : Fin 2) :
    MemLp (fun ω => (W *ᵥ flat (z ω)) a) 2 P := by
  simp only [Matrix.mulVec, dotProduct, flat]
  exact memLp_finsetSum _ fun p _ => (hz.square p.1 p.2).const_mul (W a p)

theorem linear_mean (hz : Spec.StandardDraws P z) (W : Matrix (Fin 2) (Fin N × Fin 2) ℝ) (a : Fin 2) :
    ∫ ω, (W *ᵥ flat (z ω)) a ∂P = 0 := by
  simp only [Matrix.mulVec, dotProduct, flat]
  rw [integral_finsetSum _ fun p _ => ((hz.square p.1 p.2).integrable one_le_two).const_mul (W a p)]
  refine Finset.sum_eq_zero fun p _ => ?_
  rw [integral_const_mul, hz.mean, mul_zero]

theorem linear_covariance (hz : Spec.StandardDraws P z) (W X : Matrix (Fin 2) (Fin N × Fin 2) ℝ) :
    Spec.covarianceMatrix P (fun ω => W *ᵥ flat (z ω)) (fun ω => X *ᵥ flat (z ω)) = W * Xᵀ := by
  ext a b
  simp only [Spec.covarianceMatrix, Matrix.of_apply, Matrix.mulVec, dotProduct, flat]
  rw [covariance_fun_sum_fun_sum (fun p => (hz.square p.1 p.2).const_mul (W a p)) (fun p => (hz.square p.1 p.2).const_mul (X b p))]
  simp only [covariance_const_mul_left, covariance_const_mul_right, hz.covariance, Matrix.mul_apply, Matrix.transpose_apply]
  refine Finset.sum_congr rfl fun p _ => ?_
  rw [Finset.sum_eq_single p]
  · simp [mul_comm]
  · intro q _ hq
    rw [if_neg]
    · simp
    · rintro ⟨h1, h2⟩
      exact hq (Prod.ext h1.symm h2.symm)
  · simp

end Linear

/-- The matrix by which pairs of standard draws are multiplied. -/
noncomputable def drawFactor (s : Fin 2 → ℝ) (v : Matrix (Fin 2) (Fin 2) ℝ) : Matrix (Fin 2) (Fin 2) ℝ := (diagonal (fun a => Real.sqrt (s a)) * v)ᵀ

theorem normalDraws_eq (s : Fin 2 → ℝ) (v : Matrix (Fin 2) (Fin 2) ℝ) (z : Fin N → Fin 2 → ℝ) (n : Fin N) :
    normalDraws s v z n = drawFactor s v *ᵥ z n := by
  ext b
  simp only [normalDraws, drawFactor, Matrix.mulVec, dotProduct, Matrix.transpose_apply, Matrix.diagonal_mul]
  exact Finset.sum_congr rfl fun a _ => mul_comm _ _

theorem drawFactor_mul {V U v : Matrix (Fin 2) (Fin 2) ℝ} {s : Fin 2 → ℝ} (h : Spec.IsSVD V U v s) (hV : V.PosSemidef) :
    drawFactor s v * (drawFactor s v)ᵀ = V := by
  unfold drawFactor
  rw [transpose_transpose, transpose_mul, diagonal_transpose]
  calc vᵀ * diagonal (fun a => Real.sqrt (s a)) * (diagonal (fun a => Real.sqrt (s a)) * v)
      = vᵀ * (diagonal (fun a => Real.sqrt (s a)) * diagonal (fun a => Real.sqrt (s a))) * v := by simp only [Matrix.mul_assoc]
    _ = vᵀ * diagonal s * v := by
      rw [diagonal_mul_diagonal]
      congr 3
      funext a
      exact Real.mul_self_sqrt (h.nonneg a)
    _ = V := svd_eq h hV

/-! ### Simulations without lags -/

theorem requirePSD_true {L : ErrorAlgebra} {phi V : Matrix (Fin 2) (Fin 2) ℝ} (hL : Spec.ErrorAlgebraCorrect L phi V) (hV : V.PosSemidef)
    (tol : Tolerances) (ht : ∀ t ∈ tol, 0 ≤ t.1 ∧ 0 ≤ t.2) : requirePSD tol (L.svd V) V = true := by
  obtain ⟨U, s, v, h1, h2⟩ := hL.svd
  cases tol with
  | none => rfl
  | some t =>
    rw [h1]
    exact (C105_psd h2).1 t.1 t.2 (ht t rfl).1 (ht t rfl).2 hV

theorem simulateErrors_eq {L : ErrorAlgebra} {xv ov c : ℝ} {phi : Matrix (Fin 2) (Fin 2) ℝ} (hx : 0 ≤ xv) (ho : 0 ≤ ov) (hc : |c| ≤ 1)
    (hL : Spec.ErrorAlgebraCorrect L phi (Spec.covariances xv ov c)) {psdTol : Tolerances} (ht : ∀ t ∈ psdTol, 0 ≤ t.1 ∧ 0 ≤ t.2) :
    ∃ U s v, Spec.IsSVD (Spec.covariances xv ov c) U v s ∧ ∀ (stableTol : Tolerances) (lags : Option (Fin N → Fin N)) (z : Fin N → Fin 2 → ℝ),
      simulateErrors L psdTol stableTol xv ov c lags phi z =
        autocorrelate L stableTol lags phi (Spec.covariances xv ov c) (normalDraws s v z) := by
  obtain ⟨V, hV1, hV2⟩ := (C120_covariances xv ov c).2 ⟨hx, ho, Or.inl hc⟩
  have hV3 := covariances_eq xv ov c hx ho
  rw [hV1] at hV3
  cases hV3
  obtain ⟨U, s, v, h1, h2⟩ := hL.drawSvd
  refine ⟨U, s, v, h2, fun stableTol lags z => ?_⟩
  unfold simulateErrors
  rw [hV1]
  dsimp only
  rw [requirePSD_true hL hV2 psdTol ht, if_neg (by simp), h1]

theorem covariances_posSemidef {xv ov c : ℝ} (hx : 0 ≤ xv) (ho : 0 ≤ ov) (hc : |c| ≤ 1) : (Spec.covariances xv ov c).PosSemidef := by
  obtain ⟨V, hV1, hV2⟩ := (C120_covariances xv ov c).2 ⟨hx, ho, Or.inl hc⟩
  rw [covariances_eq xv ov c hx ho] at hV1
  rwa [Option.some.inj hV1]

/-- **C120** (no lags). Simulations succeed, errors have mean zero and the variances and correlation asked for, and errors of different rows are not
correlated. -/
theorem C120_drawn {Ω : Type} [MeasurableSpace Ω] {P : Measure Ω} [IsProbabilityMeasure P] (L : ErrorAlgebra) (psdTol stableTol : Tolerances)
    (ht : ∀ t ∈ psdTol, 0 ≤ t.1 ∧ 0 ≤ t.2) (K3 : ℕ) (hK3 : 0 < K3) (xv ov c : ℝ) (hx : 0 ≤ xv) (ho : 0 ≤ ov) (hc : |c| ≤ 1)
    (phi : Matrix (Fin 2) (Fin 2) ℝ) (hL : Spec.ErrorAlgebraCorrect L phi (Spec.covariances xv ov c))
    (z : Ω → Fin N → Fin 2 → ℝ) (hz : Spec.StandardDraws P z) :
    ∃ xi omega : Ω → Fin N → ℝ,
      (∀ ω, structuralErrors L psdTol stableTol K3 none none xv ov c none phi (z ω) = .ok (xi ω, some (omega ω))) ∧
      (∀ i, ∫ ω, xi ω i ∂P = 0 ∧ ∫ ω, omega ω i ∂P = 0) ∧
      ∀ i j, Spec.covarianceMatrix P (fun ω => Spec.errors (xi ω) (omega ω) i) (fun ω => Spec.errors (xi ω) (omega ω) j) =
        if i = j then Spec.covariances xv ov c else 0 := by
  obtain ⟨U, s, v, hs, hsim⟩ := simulateErrors_eq (N := N) hx ho hc hL ht
  have hV := covariances_posSemidef hx ho hc
  have hA := drawFactor_mul hs hV
  have hu : ∀ ω i, normalDraws s v (z ω) i = (drawFactor s v * sel i) *ᵥ flat (z ω) := by
    intro ω i
    rw [normalDraws_eq, ← Matrix.mulVec_mulVec, sel_mulVec]
  refine ⟨fun ω i => normalDraws s v (z ω) i 0, fun ω i => normalDraws s v (z ω) i 1, ?_, ?_, ?_⟩
  · intro ω
    rw [C120_given]
    exact Or.inr ⟨rfl, rfl, hK3, normalDraws s v (z ω), hsim stableTol none (z ω), rfl, rfl⟩
  · intro i
    simp only [hu]
    exact ⟨linear_mean hz _ 0, linear_mean hz _ 1⟩
  · intro i j
    have he : ∀ ω i, Spec.errors (fun i => normalDraws s v (z ω) i 0) (fun i => normalDraws s v (z ω) i 1) i =
        (drawFactor s v * sel i) *ᵥ flat (z ω) := by
      intro ω i
      rw [← hu]
      ext a
      fin_cases a <;> rfl
    simp only [he]
    rw [linear_covariance hz, transpose_mul]
    by_cases h : i = j
    · subst h
      rw [if_pos rfl, Matrix.mul_assoc, ← Matrix.mul_assoc (sel i), sel_same, Matrix.one_mul, hA]
    · rw [if_neg h, Matrix.mul_assoc, ← Matrix.mul_assoc (sel i), sel_other h, Matrix.zero_mul, Matrix.mul_zero]

/-! ### Simulations with lags -/

theorem stationaryTransform_iff {L : ErrorAlgebra} {phi V : Matrix (Fin 2) (Fin 2) ℝ} (hL : Spec.ErrorAlgebraCorrect L phi V) {stableTol : Tolerances}
    (ht : ∀ t ∈ stableTol, 0 ≤ t.1 ∧ 0 ≤ t.2) : (∃ T, stationaryTransform L stableTol phi V = .ok T) ↔ V.PosDef ∧ Spec.Stable phi := by
  constructor
  · rintro ⟨T, hT⟩
    unfold stationaryTransform at hT
    split_ifs at hT
    cases hly : L.lyapunov phi V with
    | none => rw [hly] at hT; cases hT
    | some S =>
      rw [hly] at hT
      cases hF : L.cholesky S with
      | none => simp [hF] at hT
      | some F =>
        cases hG : L.cholesky V with
        | none => simp [hF, hG] at hT
        | some G =>
          have hVp : V.PosDef := (hL.cholesky V (Or.inl rfl)).1.2 ⟨G, hG⟩
          have hSp : S.PosDef := (hL.cholesky S (Or.inr hly)).1.2 ⟨F, hF⟩
          exact ⟨hVp, stable_of_lyapunov hVp hSp ((hL.lyapunov S).1 hly).1⟩
  · rintro ⟨hVp, hst⟩
    obtain ⟨S, hS⟩ := lyapunov_exists hst V
    have hly : L.lyapunov phi V = some S := (hL.lyapunov S).2 ⟨hS, fun S' hS' => lyapunov_unique hst hS' hS⟩
    have hSp := lyapunov_posDef hst hVp hS
    obtain ⟨F, hF⟩ := (hL.cholesky S (Or.inr hly)).1.1 hSp
    obtain ⟨G, hG⟩ := (hL.cholesky V (Or.inl rfl)).1.1 hVp
    refine ⟨initialTransform F G, ?_⟩
    unfold stationaryTransform
    have hreq : requireStable stableTol (L.eigenvalues phi) 4 = true := by
      obtain ⟨e, he, hee⟩ := hL.eigenvalues
      cases stableTol with
      | none => rfl
      | some t =>
        rw [he]
        exact (C105_stable_partial hee).2.1 t.1 t.2 (ht t rfl).1 (ht t rfl).2 fun z hz => (hst z hz).le
    rw [hreq, if_neg (by simp), hly]
    simp [hF, hG]

theorem stationaryTransform_eq {L : ErrorAlgebra} {phi V T : Matrix (Fin 2) (Fin 2) ℝ} (hL : Spec.ErrorAlgebraCorrect L phi V) {stableTol : Tolerances}
    (hT : stationaryTransform L stableTol phi V = .ok T) : ∃ S, S = phi * S * phiᵀ + V ∧ T * V * Tᵀ = S := by
  unfold stationaryTransform at hT
  split_ifs at hT
  cases hly : L.lyapunov phi V with
  | none => rw [hly] at hT; cases hT
  | some S =>
    rw [hly] at hT
    cases hF : L.cholesky S with
    | none => simp [hF] at hT
    | some F =>
      cases hG : L.cholesky V with
      | none => simp [hF, hG] at hT
      | some G =>
        simp only [hF, hG, Except.ok.injEq] at hT
        refine ⟨S, ((hL.lyapunov S).1 hly).1, ?_⟩
        have h1 := (hL.cholesky S (Or.inr hly)).2 F hF
        have h2 := (hL.cholesky V (Or.inl rfl)).2 G hG
        have hVp : V.PosDef := (hL.cholesky V (Or.inl rfl)).1.2 ⟨G, hG⟩
        have hdet : IsUnit G.det := by
          have := hVp.det_pos
          rw [← h2, det_mul, det_transpose] at this
          exact isUnit_iff_ne_zero.2 fun h => by rw [h] at this; simp at this
        rw [← hT, ← h2, ← h1]
        unfold initialTransform
        have hGi := Matrix.nonsing_inv_mul G hdet
        have hGi' : Gᵀ * (G⁻¹)ᵀ = 1 := by rw [← transpose_mul, hGi, transpose_one]
        calc F * G⁻¹ * (G * Gᵀ) * (F * G⁻¹)ᵀ = F * (G⁻¹ * G) * (Gᵀ * (G⁻¹)ᵀ) * Fᵀ := by
              rw [transpose_mul]; simp only [Matrix.mul_assoc]
          _ = F * Fᵀ := by rw [hGi, hGi', Matrix.mul_one, Matrix.mul_one]

theorem fillResult_spec {lag : Fin N → Fin N} (hu : Spec.UniqueLags lag) (phi : Matrix (Fin 2) (Fin 2) ℝ) (x : Fin N → Fin 2 → ℝ) :
    ∃ r, fillResult lag phi x = some r ∧ FillLoop lag phi (fillStart lag) x r := by
  unfold fillResult
  have h := (C53_terminates lag hu phi x).exists
  rw [dif_pos h]
  exact ⟨_, rfl, h.choose_spec⟩

/-- **C120** (lags). With variances that are not negative and a correlation between minus one and one, a simulation with lags succeeds if and only if the
covariance matrix of innovations is not singular and all eigenvalues of the coefficients are inside the unit circle. -/
theorem C120_succeeds (L : ErrorAlgebra) (psdTol stableTol : Tolerances) (ht : ∀ t ∈ psdTol, 0 ≤ t.1 ∧ 0 ≤ t.2)
    (ht' : ∀ t ∈ stableTol, 0 ≤ t.1 ∧ 0 ≤ t.2) (K3 : ℕ) (hK3 : 0 < K3) (xv ov c : ℝ) (hx : 0 ≤ xv) (ho : 0 ≤ ov) (hc : |c| ≤ 1)
    (lag : Fin N → Fin N) (hu : Spec.UniqueLags lag) (phi : Matrix (Fin 2) (Fin 2) ℝ)
    (hL : Spec.ErrorAlgebraCorrect L phi (Spec.covariances xv ov c)) (z : Fin N → Fin 2 → ℝ) :
    (∃ xi omega, structuralErrors L psdTol stableTol K3 none none xv ov c (some lag) phi z = .ok (xi, some omega)) ↔
      0 < xv ∧ 0 < ov ∧ |c| < 1 ∧ Spec.Stable phi := by
  have hpd : (Spec.covariances xv ov c).PosDef ↔ 0 < xv ∧ 0 < ov ∧ |c| < 1 := by
    have hps := covariances_posSemidef hx ho hc
    have hdet : (Spec.covariances xv ov c).det = (1 - c * c) * (xv * ov) := by
      rw [Spec.covariances, Matrix.det_fin_two_of]
      have h1 : (Real.sqrt xv * Real.sqrt ov) * (Real.sqrt xv * Real.sqrt ov) = xv * ov := by
        rw [mul_mul_mul_comm, Real.mul_self_sqrt hx, Real.mul_self_sqrt ho]
      linear_combination (-c * c) * h1
    have habs : c * c = |c| * |c| := (abs_mul_abs_self c).symm
    constructor
    · intro h
      have hd := h.det_pos
      rw [hdet] at hd
      have h0 : xv ≠ 0 := by rintro rfl; simp at hd
      have h1 : ov ≠ 0 := by rintro rfl; simp at hd
      refine ⟨lt_of_le_of_ne hx (Ne.symm h0), lt_of_le_of_ne ho (Ne.symm h1), lt_of_le_of_ne hc ?_⟩
      intro h2
      rw [habs, h2] at hd
      simp at hd
    · rintro ⟨h0, h1, h2⟩
      refine (hps.posDef_iff_det_ne_zero).2 ?_
      rw [hdet, habs]
      have : 0 < 1 - |c| * |c| := by nlinarith [abs_nonneg c]
      positivity
  obtain ⟨U, s, v, hs, hsim⟩ := simulateErrors_eq (N := N) hx ho hc hL ht
  rw [← and_assoc, ← and_assoc, and_assoc (a := 0 < xv), ← hpd, ← stationaryTransform_iff hL ht']
  have hauto := hsim stableTol (some lag) z
  unfold autocorrelate at hauto
  constructor
  · rintro ⟨xi, omega, h⟩
    rw [C120_given] at h
    rcases h with ⟨⟨g, hg, -⟩, -⟩ | ⟨-, -, -, u, h, -⟩
    · cases hg
    · rw [hauto] at h
      cases hT : stationaryTransform L stableTol phi (Spec.covariances xv ov c) with
      | error e => rw [hT] at h; cases h
      | ok T => exact ⟨T, rfl⟩
  · rintro ⟨T, hT⟩
    obtain ⟨r, hr, -⟩ := fillResult_spec hu phi (scaleInitial lag T (normalDraws s v z))
    refine ⟨fun i => r i 0, fun i => r i 1, ?_⟩
    rw [C120_given]
    refine Or.inr ⟨rfl, rfl, hK3, r, ?_, rfl, rfl⟩
    rw [hauto, hT]
    dsimp only
    rw [hr]

/-- Coefficients on standard draws of a row that is some number of periods after the first. -/
noncomputable def coef (lag : Fin N → Fin N) (phi T A : Matrix (Fin 2) (Fin 2) ℝ) : ℕ → Fin N → Matrix (Fin 2) (Fin N × Fin 2) ℝ
  | 0, i => T * A * sel i
  | k + 1, i => A * sel i + phi * coef lag phi T A k (lag i)

section Coef

variable {lag : Fin N → Fin N} {phi T A V S : Matrix (Fin 2) (Fin 2) ℝ}

theorem coef_eq (hu : Spec.UniqueLags lag) (z r : Fin N → Fin 2 → ℝ)
    (hr : FillLoop lag phi (fillStart lag) (scaleInitial lag T fun n => A *ᵥ z n) r) (k : ℕ) :
    ∀ i, HasDepth lag i k → r i = coef lag phi T A k i *ᵥ flat z := by
  induction k with
  | zero =>
    intro i hi
    rw [(C53_autoregression_partial lag hu phi T _ r hr i).1 (hasDepth_zero.1 hi)]
    simp only [coef]
    rw [← Matrix.mulVec_mulVec, sel_mulVec, Matrix.mulVec_mulVec]
  | succ k ih =>
    intro i hi
    obtain ⟨h1, h2⟩ := hasDepth_succ.1 hi
    rw [(C53_autoregression_partial lag hu phi T _ r hr i).2 h1 ⟨k + 1, hi.1⟩, ih _ h2]
    simp only [coef]
    rw [Matrix.add_mulVec, ← Matrix.mulVec_mulVec, sel_mulVec, Matrix.mulVec_mulVec]

theorem coef_off (k : ℕ) : ∀ i n, HasDepth lag i k → ¬ Spec.Precedes lag n i → coef lag phi T A k i * (sel n)ᵀ = 0 := by
  induction k with
  | zero =>
    intro i n _ hn
    have : i ≠ n := fun h => hn ⟨0, h⟩
    simp only [coef]
    rw [Matrix.mul_assoc, sel_other this, Matrix.mul_zero]
  | succ k ih =>
    intro i n hi hn
    have : i ≠ n := fun h => hn ⟨0, h⟩
    simp only [coef]
    rw [Matrix.add_mul, Matrix.mul_assoc, sel_other this, Matrix.mul_zero, Matrix.mul_assoc, ih (lag i) n (hasDepth_succ.1 hi).2, Matrix.mul_zero, add_zero]
    rintro ⟨m, hm⟩
    exact hn ⟨m + 1, by rw [Function.iterate_succ_apply]; exact hm⟩

theorem depth_iterate (m : ℕ) : ∀ k i, HasDepth lag i k → HasDepth lag (lag^[m] i) (k - m) := by
  induction m with
  | zero => intro k i h; exact h
  | succ m ih =>
    intro k i h
    rw [Function.iterate_succ_apply]
    cases k with
    | zero =>
      have h0 := hasDepth_zero.1 h
      have := ih 0 (lag i) (by rw [h0]; exact h)
      simpa using this
    | succ k =>
      have := ih k (lag i) (hasDepth_succ.1 h).2
      rwa [Nat.succ_sub_succ]

/-- A row does not precede its lag. -/
theorem not_precedes_lag {k : ℕ} {i : Fin N} (h : HasDepth lag i (k + 1)) (m : ℕ) : ¬ Spec.Precedes lag i (lag^[m + 1] i) := by
  rintro ⟨l, hl⟩
  rw [← Function.iterate_add_apply] at hl
  have := depth_iterate (l + (m + 1)) _ _ h
  rw [hl] at this
  have := this.unique h
  omega

theorem coef_variance (hA : A * Aᵀ = V) (hT : T * V * Tᵀ = S) (hS : S = phi * S * phiᵀ + V) (k : ℕ) :
    ∀ i, HasDepth lag i k → coef lag phi T A k i * (coef lag phi T A k i)ᵀ = S := by
  induction k with
  | zero =>
    intro i _
    simp only [coef, transpose_mul]
    calc T * A * sel i * ((sel i)ᵀ * (Aᵀ * Tᵀ)) = T * (A * (sel i * (sel i)ᵀ) * Aᵀ) * Tᵀ := by simp only [Matrix.mul_assoc]
      _ = S := by rw [sel_same, Matrix.mul_one, hA, hT]
  | succ k ih =>
    intro i hi
    have h2 := (hasDepth_succ.1 hi).2
    have hoff := coef_off (phi := phi) (T := T) (A := A) k (lag i) i h2 (not_precedes_lag hi 0)
    have hoff' : sel i * (coef lag phi T A k (lag i))ᵀ = 0 := by
      have := congrArg transpose hoff
      simpa [transpose_mul] using this
    simp only [coef]
    generalize hB : coef lag phi T A k (lag i) = B at *
    have e1 : A * sel i * (A * sel i)ᵀ = V := by
      rw [transpose_mul, Matrix.mul_assoc, ← Matrix.mul_assoc (sel i), sel_same, Matrix.one_mul, hA]
    have e2 : A * sel i * (phi * B)ᵀ = 0 := by
      rw [transpose_mul, Matrix.mul_assoc, ← Matrix.mul_assoc (sel i), hoff', Matrix.zero_mul, Matrix.mul_zero]
    have e3 : phi * B * (A * sel i)ᵀ = 0 := by
      rw [transpose_mul, Matrix.mul_assoc, ← Matrix.mul_assoc B, hoff, Matrix.zero_mul, Matrix.mul_zero]
    have e4 : phi * B * (phi * B)ᵀ = phi * S * phiᵀ := by
      rw [transpose_mul, Matrix.mul_assoc, ← Matrix.mul_assoc B, ← hB, ih _ h2, Matrix.mul_assoc]
    rw [transpose_add, Matrix.add_mul, Matrix.mul_add, Matrix.mul_add, e1, e2, e3, e4, add_zero, zero_add, add_comm]
    exact hS.symm

theorem coef_lag (hA : A * Aᵀ = V) (hT : T * V * Tᵀ = S) (hS : S = phi * S * phiᵀ + V) (m : ℕ) :
    ∀ k i, HasDepth lag i k → m ≤ k → coef lag phi T A k i * (coef lag phi T A (k - m) (lag^[m] i))ᵀ = phi ^ m * S := by
  induction m with
  | zero =>
    intro k i hi _
    simpa using coef_variance hA hT hS k i hi
  | succ m ih =>
    intro k i hi hm
    obtain ⟨k, rfl⟩ : ∃ l, k = l + 1 := ⟨k - 1, by omega⟩
    have h2 := (hasDepth_succ.1 hi).2
    have hd := depth_iterate (m + 1) (k + 1) i hi
    have hoff := coef_off (phi := phi) (T := T) (A := A) _ _ i hd (not_precedes_lag hi m)
    have hoff' : sel i * (coef lag phi T A (k + 1 - (m + 1)) (lag^[m + 1] i))ᵀ = 0 := by
      have := congrArg transpose hoff
      simpa [transpose_mul] using this
    have hi' := ih k (lag i) h2 (by omega)
    nth_rw 1 [coef]
    rw [Matrix.add_mul, Matrix.mul_assoc, hoff', Matrix.mul_zero, zero_add, Function.iterate_succ_apply, Nat.succ_sub_succ, Matrix.mul_assoc, hi', pow_succ',
      Matrix.mul_assoc]

theorem coef_disjoint {k i} (hi : HasDepth lag i k) (l : ℕ) : ∀ j, HasDepth lag j l → (∀ n, Spec.Precedes lag n j → ¬ Spec.Precedes lag n i) →
    coef lag phi T A k i * (coef lag phi T A l j)ᵀ = 0 := by
  induction l with
  | zero =>
    intro j _ hn
    have h := coef_off (phi := phi) (T := T) (A := A) k i j hi (hn j ⟨0, rfl⟩)
    rw [coef.eq_def lag phi T A 0 j, transpose_mul, ← Matrix.mul_assoc, h, Matrix.zero_mul]
  | succ l ih =>
    intro j hj hn
    have h := coef_off (phi := phi) (T := T) (A := A) k i j hi (hn j ⟨0, rfl⟩)
    have h' := ih (lag j) (hasDepth_succ.1 hj).2 fun n ⟨m, hm⟩ => hn n ⟨m + 1, by rw [Function.iterate_succ_apply]; exact hm⟩
    rw [coef.eq_def lag phi T A (l + 1) j]
    simp only
    rw [transpose_add, Matrix.mul_add, transpose_mul, transpose_mul, ← Matrix.mul_assoc, h, Matrix.zero_mul, ← Matrix.mul_assoc, h', Matrix.zero_mul, add_zero]

/-- Rows neither of which precedes the other one have no row in common that precedes both. -/
theorem no_common (hu : Spec.UniqueLags lag) {i j : Fin N} (h1 : ¬ Spec.Precedes lag i j) (h2 : ¬ Spec.Precedes lag j i) (a : ℕ) :
    ∀ b, lag^[a] i ≠ lag^[b] j := by
  induction a with
  | zero => intro b h; exact h1 ⟨b, h.symm⟩
  | succ a iha =>
    intro b
    induction b with
    | zero => intro h; exact h2 ⟨a + 1, h⟩
    | succ b ihb =>
      intro h
      rw [Function.iterate_succ_apply', Function.iterate_succ_apply'] at h
      by_cases hi : lag (lag^[a] i) = lag^[a] i
      · rw [hi, ← Function.iterate_succ_apply' lag b] at h
        exact iha (b + 1) h
      · by_cases hj : lag (lag^[b] j) = lag^[b] j
        · rw [hj] at h
          exact ihb (by rw [Function.iterate_succ_apply']; exact h)
        · exact iha b (hu _ _ hi hj h)

end Coef

section Lags

variable {Ω : Type} [MeasurableSpace Ω] {P : Measure Ω} [IsProbabilityMeasure P]

/-- What successful simulations with lags are. -/
theorem lags_eq {L : ErrorAlgebra} {psdTol stableTol : Tolerances} (ht : ∀ t ∈ psdTol, 0 ≤ t.1 ∧ 0 ≤ t.2) {K3 : ℕ} {xv ov c : ℝ}
    (hx : 0 ≤ xv) (ho : 0 ≤ ov) (hc : |c| ≤ 1) {lag : Fin N → Fin N} (hu : Spec.UniqueLags lag) {phi : Matrix (Fin 2) (Fin 2) ℝ}
    (hL : Spec.ErrorAlgebraCorrect L phi (Spec.covariances xv ov c)) {z : Ω → Fin N → Fin 2 → ℝ} {xi omega : Ω → Fin N → ℝ}
    (hr : ∀ ω, structuralErrors L psdTol stableTol K3 none none xv ov c (some lag) phi (z ω) = .ok (xi ω, some (omega ω))) [Nonempty Ω] :
    ∃ T A S, A * Aᵀ = Spec.covariances xv ov c ∧ T * Spec.covariances xv ov c * Tᵀ = S ∧ S = phi * S * phiᵀ + Spec.covariances xv ov c ∧
      (Spec.covariances xv ov c).PosDef ∧ Spec.Stable phi ∧
      (∀ i, lag i ≠ i → Spec.Anchored lag i → ∀ ω, Spec.errors (xi ω) (omega ω) i = A *ᵥ z ω i + phi *ᵥ Spec.errors (xi ω) (omega ω) (lag i)) ∧
      ∀ k i, HasDepth lag i k → ∀ ω, Spec.errors (xi ω) (omega ω) i = coef lag phi T A k i *ᵥ flat (z ω) := by
  obtain ⟨U, s, v, hs, hsim⟩ := simulateErrors_eq (N := N) hx ho hc hL ht
  have hA := drawFactor_mul hs (covariances_posSemidef hx ho hc)
  have hout : ∃ T, stationaryTransform L stableTol phi (Spec.covariances xv ov c) = .ok T ∧
      ∀ ω, ∃ r, FillLoop lag phi (fillStart lag) (scaleInitial lag T fun n => drawFactor s v *ᵥ z ω n) r ∧
        ∀ i, Spec.errors (xi ω) (omega ω) i = r i := by
    have hone : ∀ ω, ∃ T, stationaryTransform L stableTol phi (Spec.covariances xv ov c) = .ok T ∧
        ∃ r, FillLoop lag phi (fillStart lag) (scaleInitial lag T fun n => drawFactor s v *ᵥ z ω n) r ∧
        ∀ i, Spec.errors (xi ω) (omega ω) i = r i := by
      intro ω
      have h := hr ω
      rw [C120_given] at h
      rcases h with ⟨⟨g, hg, -⟩, -⟩ | ⟨-, -, -, u, h, h1, h2⟩
      · cases hg
      · rw [hsim] at h
        unfold autocorrelate at h
        cases hT : stationaryTransform L stableTol phi (Spec.covariances xv ov c) with
        | error e => rw [hT] at h; cases h
        | ok T =>
          rw [hT] at h
          dsimp only at h
          obtain ⟨r, hr1, hr2⟩ := fillResult_spec hu phi (scaleInitial lag T (normalDraws s v (z ω)))
          rw [hr1] at h
          obtain rfl : r = u := Except.ok.inj h
          refine ⟨T, rfl, r, ?_, ?_⟩
          · have : (fun n => drawFactor s v *ᵥ z ω n) = normalDraws s v (z ω) := funext fun n => (normalDraws_eq s v (z ω) n).symm
            rw [this]
            exact hr2
          · intro i
            ext a
            have h2' := Option.some.inj h2
            fin_cases a
            · exact congrFun h1 i
            · exact congrFun h2' i
    obtain ⟨T, hT, -⟩ := hone (Classical.arbitrary Ω)
    refine ⟨T, hT, fun ω => ?_⟩
    obtain ⟨T', hT', h⟩ := hone ω
    rw [hT] at hT'
    cases hT'
    exact h
  obtain ⟨T, hT, hω⟩ := hout
  obtain ⟨S, hS, hTS⟩ := stationaryTransform_eq hL hT
  have hpd : (Spec.covariances xv ov c).PosDef ∧ Spec.Stable phi := by
    unfold stationaryTransform at hT
    split_ifs at hT
    cases hly : L.lyapunov phi (Spec.covariances xv ov c) with
    | none => rw [hly] at hT; cases hT
    | some S =>
      rw [hly] at hT
      cases hF : L.cholesky S with
      | none => simp [hF] at hT
      | some F =>
        cases hG : L.cholesky (Spec.covariances xv ov c) with
        | none => simp [hF, hG] at hT
        | some G =>
          have hVp := (hL.cholesky _ (Or.inl rfl)).1.2 ⟨G, hG⟩
          exact ⟨hVp, stable_of_lyapunov hVp ((hL.cholesky S (Or.inr hly)).1.2 ⟨F, hF⟩) ((hL.lyapunov S).1 hly).1⟩
  refine ⟨T, drawFactor s v, S, hA, hTS, hS, hpd.1, hpd.2, ?_, ?_⟩
  · intro i hi ha ω
    obtain ⟨r, hr1, hr2⟩ := hω ω
    rw [hr2, hr2]
    exact (C53_autoregression_partial lag hu phi T _ r hr1 i).2 hi ha
  · intro k i hi ω
    obtain ⟨r, hr1, hr2⟩ := hω ω
    rw [hr2]
    exact coef_eq hu (z ω) r hr1 k i hi

/-- **C120** (lags). Errors have mean zero, and those of every row have the same covariance matrix: the only one that does not change when multiplying by
coefficients of the autoregression and adding innovations. Between an error and its own lags, covariances are this one times powers of the coefficients, and
errors of which neither is a lag of the other one, like those of different products, are not correlated. -/
theorem C120_stationary (L : ErrorAlgebra) (psdTol stableTol : Tolerances) (ht : ∀ t ∈ psdTol, 0 ≤ t.1 ∧ 0 ≤ t.2) (K3 : ℕ)
    (xv ov c : ℝ) (hx : 0 ≤ xv) (ho : 0 ≤ ov) (hc : |c| ≤ 1) (lag : Fin N → Fin N) (hu : Spec.UniqueLags lag) (ha : ∀ i, Spec.Anchored lag i)
    (phi : Matrix (Fin 2) (Fin 2) ℝ) (hL : Spec.ErrorAlgebraCorrect L phi (Spec.covariances xv ov c))
    (z : Ω → Fin N → Fin 2 → ℝ) (hz : Spec.StandardDraws P z) (xi omega : Ω → Fin N → ℝ)
    (hr : ∀ ω, structuralErrors L psdTol stableTol K3 none none xv ov c (some lag) phi (z ω) = .ok (xi ω, some (omega ω))) :
    (∀ i, ∫ ω, xi ω i ∂P = 0 ∧ ∫ ω, omega ω i ∂P = 0) ∧
    ∃ S, (S.PosDef ∧ S = phi * S * phiᵀ + Spec.covariances xv ov c ∧ ∀ S', S' = phi * S' * phiᵀ + Spec.covariances xv ov c → S' = S) ∧
      (∀ i, Spec.covarianceMatrix P (fun ω => Spec.errors (xi ω) (omega ω) i) (fun ω => Spec.errors (xi ω) (omega ω) i) = S) ∧
      (∀ i m, (∀ l < m, lag (lag^[l] i) ≠ lag^[l] i) →
        Spec.covarianceMatrix P (fun ω => Spec.errors (xi ω) (omega ω) i) (fun ω => Spec.errors (xi ω) (omega ω) (lag^[m] i)) = phi ^ m * S) ∧
      ∀ i j, ¬ Spec.Precedes lag i j → ¬ Spec.Precedes lag j i →
        Spec.covarianceMatrix P (fun ω => Spec.errors (xi ω) (omega ω) i) (fun ω => Spec.errors (xi ω) (omega ω) j) = 0 := by
  have hne : Nonempty Ω := P.nonempty_of_neZero
  obtain ⟨T, A, S, hA, hT, hS, hVp, hst, hrec, hcoef⟩ := lags_eq ht hx ho hc hu hL hr
  have hcov : ∀ {k l i j}, HasDepth lag i k → HasDepth lag j l →
      Spec.covarianceMatrix P (fun ω => Spec.errors (xi ω) (omega ω) i) (fun ω => Spec.errors (xi ω) (omega ω) j) =
        coef lag phi T A k i * (coef lag phi T A l j)ᵀ := by
    intro k l i j hi hj
    simp only [hcoef k i hi, hcoef l j hj]
    exact linear_covariance hz _ _
  refine ⟨?_, S, ⟨lyapunov_posDef hst hVp hS, hS, fun S' hS' => lyapunov_unique hst hS' hS⟩, ?_, ?_, ?_⟩
  · intro i
    obtain ⟨k, hk⟩ := hasDepth_of_anchored (ha i)
    have h := fun a => linear_mean hz (coef lag phi T A k i) a
    simp only [← hcoef k i hk] at h
    exact ⟨h 0, h 1⟩
  · intro i
    obtain ⟨k, hk⟩ := hasDepth_of_anchored (ha i)
    rw [hcov hk hk]
    exact coef_variance hA hT hS k i hk
  · intro i m hm
    obtain ⟨k, hk⟩ := hasDepth_of_anchored (ha i)
    have hmk : m ≤ k := by
      by_contra hc
      exact hm k (by omega) hk.1
    rw [hcov hk (depth_iterate m k i hk)]
    exact coef_lag hA hT hS m k i hk hmk
  · intro i j h1 h2
    obtain ⟨k, hk⟩ := hasDepth_of_anchored (ha i)
    obtain ⟨l, hl⟩ := hasDepth_of_anchored (ha j)
    rw [hcov hk hl]
    refine coef_disjoint hk l j hl ?_
    rintro n ⟨a, hna⟩ ⟨b, hnb⟩
    exact no_common hu h1 h2 b a (hnb.trans hna.symm)

/-- **C120** (lags). At the true coefficients, innovations of rows that have lags, which are what the moments of dynamic panels are about, have the variances
and correlation asked for. They are not correlated with each other, and they are not correlated with errors of their own lags or of other products. -/
theorem C120_innovations (L : ErrorAlgebra) (psdTol stableTol : Tolerances) (ht : ∀ t ∈ psdTol, 0 ≤ t.1 ∧ 0 ≤ t.2) (K3 : ℕ)
    (xv ov c : ℝ) (hx : 0 ≤ xv) (ho : 0 ≤ ov) (hc : |c| ≤ 1) (lag : Fin N → Fin N) (hu : Spec.UniqueLags lag) (ha : ∀ i, Spec.Anchored lag i)
    (phi : Matrix (Fin 2) (Fin 2) ℝ) (hL : Spec.ErrorAlgebraCorrect L phi (Spec.covariances xv ov c))
    (z : Ω → Fin N → Fin 2 → ℝ) (hz : Spec.StandardDraws P z) (xi omega : Ω → Fin N → ℝ)
    (hr : ∀ ω, structuralErrors L psdTol stableTol K3 none none xv ov c (some lag) phi (z ω) = .ok (xi ω, some (omega ω))) :
    (∀ i j, lag i ≠ i → lag j ≠ j →
      Spec.covarianceMatrix P (fun ω => Spec.innovations lag phi (xi ω) (omega ω) i) (fun ω => Spec.innovations lag phi (xi ω) (omega ω) j) =
        if i = j then Spec.covariances xv ov c else 0) ∧
    ∀ i j, lag i ≠ i → ¬ Spec.Precedes lag i j →
      Spec.covarianceMatrix P (fun ω => Spec.innovations lag phi (xi ω) (omega ω) i) (fun ω => Spec.errors (xi ω) (omega ω) j) = 0 := by
  have hne : Nonempty Ω := P.nonempty_of_neZero
  obtain ⟨T, A, S, hA, hT, hS, hVp, hst, hrec, hcoef⟩ := lags_eq ht hx ho hc hu hL hr
  have hinn : ∀ i, lag i ≠ i → ∀ ω, Spec.innovations lag phi (xi ω) (omega ω) i = (A * sel i) *ᵥ flat (z ω) := by
    intro i hi ω
    have h := hrec i hi (ha i) ω
    rw [← Matrix.mulVec_mulVec, sel_mulVec]
    have h' : A *ᵥ z ω i = Spec.errors (xi ω) (omega ω) i - phi *ᵥ Spec.errors (xi ω) (omega ω) (lag i) := by rw [h]; abel
    rw [h']
    ext a
    fin_cases a <;> simp [Spec.innovations, Spec.innovation, hi, Spec.errors, Matrix.mulVec, dotProduct, Fin.sum_univ_two, add_comm]
  constructor
  · intro i j hi hj
    simp only [hinn i hi, hinn j hj]
    rw [linear_covariance hz, transpose_mul]
    by_cases h : i = j
    · subst h
      rw [if_pos rfl, Matrix.mul_assoc, ← Matrix.mul_assoc (sel i), sel_same, Matrix.one_mul, hA]
    · rw [if_neg h, Matrix.mul_assoc, ← Matrix.mul_assoc (sel i), sel_other h, Matrix.zero_mul, Matrix.mul_zero]
  · intro i j hi hij
    obtain ⟨l, hl⟩ := hasDepth_of_anchored (ha j)
    simp only [hinn i hi, hcoef l j hl]
    rw [linear_covariance hz]
    have h := coef_off (phi := phi) (T := T) (A := A) l j i hl hij
    have h' : sel i * (coef lag phi T A l j)ᵀ = 0 := by
      have := congrArg transpose h
      simpa [transpose_mul] using this
    rw [Matrix.mul_assoc, h', Matrix.mul_zero]

end Lags

/-! ### Cases that meet the hypotheses -/

/-- Independent standard normal draws are standard draws. -/
theorem standardDraws_normal : Spec.StandardDraws (N := N) (Measure.pi fun _ : Fin N × Fin 2 => gaussianReal 0 1) (fun ω n a => ω (n, a)) := by
  have hp : ∀ p : Fin N × Fin 2, MeasurePreserving (Function.eval p) (Measure.pi fun _ : Fin N × Fin 2 => gaussianReal 0 1) (gaussianReal 0 1) :=
    fun p => measurePreserving_eval _ p
  have hm : ∀ p : Fin N × Fin 2, MemLp (fun ω : Fin N × Fin 2 → ℝ => ω p) 2 (Measure.pi fun _ : Fin N × Fin 2 => gaussianReal 0 1) :=
    fun p => (memLp_id_gaussianReal 2).comp_measurePreserving (hp p)
  refine ⟨fun n a => hm _, ?_, ?_⟩
  · intro n a
    have h := integral_map (μ := Measure.pi fun _ : Fin N × Fin 2 => gaussianReal 0 1) (hp (n, a)).measurable.aemeasurable (f := fun x : ℝ => x)
      (by fun_prop)
    rw [(hp (n, a)).map_eq, integral_id_gaussianReal] at h
    exact h.symm
  · intro n a m b
    by_cases h : n = m ∧ a = b
    · obtain ⟨rfl, rfl⟩ := h
      rw [if_pos ⟨rfl, rfl⟩, covariance_self (hm _).aestronglyMeasurable.aemeasurable]
      have h := variance_map (μ := Measure.pi fun _ : Fin N × Fin 2 => gaussianReal 0 1) (X := id) (Y := Function.eval (n, a)) (by fun_prop)
        (hp (n, a)).measurable.aemeasurable
      rw [(hp (n, a)).map_eq, variance_id_gaussianReal] at h
      exact h.symm
    · rw [if_neg h]
      have hi := iIndepFun_pi (μ := fun _ : Fin N × Fin 2 => gaussianReal 0 1) (X := fun _ x => x) (fun _ => by fun_prop)
      have hne : (n, a) ≠ (m, b) := fun he => h ⟨congrArg Prod.fst he, congrArg Prod.snd he⟩
      exact (hi.indepFun hne).covariance_eq_zero (hm _) (hm _)

theorem svd_exists {V : Matrix (Fin 2) (Fin 2) ℝ} (hV : V.PosSemidef) : ∃ p : (Fin 2 → ℝ) × Matrix (Fin 2) (Fin 2) ℝ, ∃ U, Spec.IsSVD V U p.2 p.1 := by
  have h := hV.isHermitian.spectral_theorem
  set Q : Matrix (Fin 2) (Fin 2) ℝ := (hV.isHermitian.eigenvectorUnitary : Matrix (Fin 2) (Fin 2) ℝ) with hQ
  have hQ1 : star Q * Q = 1 := Unitary.coe_star_mul_self _
  refine ⟨(hV.isHermitian.eigenvalues, Qᵀ), Q, ?_, ?_, hV.eigenvalues_nonneg, ?_⟩
  · simpa [Matrix.star_eq_conjTranspose] using hQ1
  · simpa [Matrix.star_eq_conjTranspose] using hQ1
  · nth_rw 1 [h]
    rw [Unitary.conjStarAlgAut_apply]
    simp [Matrix.star_eq_conjTranspose, hQ]

theorem factor_exists {V : Matrix (Fin 2) (Fin 2) ℝ} (hV : V.PosSemidef) : ∃ F : Matrix (Fin 2) (Fin 2) ℝ, F * Fᵀ = V := by
  obtain ⟨p, U, h⟩ := svd_exists hV
  exact ⟨_, drawFactor_mul h hV⟩

theorem eigenvalues_exist (x : Matrix (Fin 2) (Fin 2) ℝ) : ∃ e, Spec.IsEigenvalues x e := by
  refine ⟨(x.map (algebraMap ℝ ℂ)).charpoly.roots.toList, fun z => ?_⟩
  rw [Multiset.mem_toList, Polynomial.mem_roots (Matrix.charpoly_monic _).ne_zero, Polynomial.IsRoot, Matrix.eval_charpoly]
  have : (x.map (algebraMap ℝ ℂ) - z • (1 : Matrix (Fin 2) (Fin 2) ℂ)) = -(Matrix.scalar (Fin 2) z - x.map (algebraMap ℝ ℂ)) := by
    rw [neg_sub, Matrix.smul_one_eq_diagonal]
    rfl
  rw [this, Matrix.det_neg]
  simp

open Classical in
/-- Decompositions that are as they should be. -/
noncomputable def exactAlgebra : ErrorAlgebra where
  svd V := if h : V.PosSemidef then some (svd_exists h).choose else none
  drawSvd V := if h : V.PosSemidef then some (svd_exists h).choose else none
  eigenvalues x := some (eigenvalues_exist x).choose
  lyapunov x V := if h : ∃ S, S = x * S * xᵀ + V ∧ ∀ S', S' = x * S' * xᵀ + V → S' = S then some h.choose else none
  cholesky S := if h : S.PosDef then some (factor_exists h.posSemidef).choose else none

open Classical in
theorem exactAlgebra_correct (phi : Matrix (Fin 2) (Fin 2) ℝ) {V : Matrix (Fin 2) (Fin 2) ℝ} (hV : V.PosSemidef) :
    Spec.ErrorAlgebraCorrect exactAlgebra phi V := by
  have hsvd : ∃ U s v, (if h : V.PosSemidef then some (svd_exists h).choose else none) = some (s, v) ∧ Spec.IsSVD V U v s := by
    rw [dif_pos hV]
    obtain ⟨U, hU⟩ := (svd_exists hV).choose_spec
    exact ⟨U, _, _, rfl, hU⟩
  refine ⟨hsvd, hsvd, ⟨_, rfl, (eigenvalues_exist phi).choose_spec⟩, ?_, ?_⟩
  · intro S
    simp only [exactAlgebra]
    constructor
    · intro h
      split_ifs at h with hS
      rw [← Option.some.inj h]
      exact hS.choose_spec
    · intro h
      have hS : ∃ S, S = phi * S * phiᵀ + V ∧ ∀ S', S' = phi * S' * phiᵀ + V → S' = S := ⟨S, h⟩
      rw [dif_pos hS, h.2 _ hS.choose_spec.1]
  · intro S _
    simp only [exactAlgebra]
    constructor
    · constructor
      · intro h
        exact ⟨_, dif_pos h⟩
      · rintro ⟨F, hF⟩
        split_ifs at hF with h
        exact h
    · intro F hF
      split_ifs at hF with h
      rw [← Option.some.inj hF]
      exact (factor_exists h.posSemidef).choose_spec

theorem stable_witness : Spec.Stable (!![1 / 2, 1 / 4; 0, 1 / 3] : Matrix (Fin 2) (Fin 2) ℝ) := by
  intro z hz
  rw [Matrix.det_fin_two] at hz
  have hz' : ((1 / 2 : ℂ) - z) * (1 / 3 - z) = 0 := by simpa using hz
  rcases mul_eq_zero.1 hz' with h | h
  · rw [← sub_eq_zero.1 h]; norm_num
  · rw [← sub_eq_zero.1 h]; norm_num

theorem uniqueLags_witness : Spec.UniqueLags (![0, 0, 2, 1] : Fin 4 → Fin 4) ∧ ∀ i, Spec.Anchored (![0, 0, 2, 1] : Fin 4 → Fin 4) i := by
  refine ⟨by unfold Spec.UniqueLags; decide, fun i => ⟨2, ?_⟩⟩
  revert i
  decide

/-- Two products, one of which is in three periods, with normal draws: the hypotheses of all theorems are met. -/
example : ∃ xi omega : (Fin 4 × Fin 2 → ℝ) → Fin 4 → ℝ,
    (∀ ω, structuralErrors exactAlgebra (some (1 / 100, 1 / 100)) (some (1 / 100, 1 / 100)) 1 none none 1 2 (9 / 10) (some ![0, 0, 2, 1])
      !![1 / 2, 1 / 4; 0, 1 / 3] (fun n a => ω (n, a)) = .ok (xi ω, some (omega ω))) ∧
    ∃ S, (∀ i, Spec.covarianceMatrix (Measure.pi fun _ : Fin 4 × Fin 2 => gaussianReal 0 1) (fun ω => Spec.errors (xi ω) (omega ω) i)
      (fun ω => Spec.errors (xi ω) (omega ω) i) = S) ∧ S.PosDef := by
  have hc : |(9 / 10 : ℝ)| ≤ 1 := by rw [abs_le]; norm_num
  have ht : ∀ t ∈ (some (1 / 100, 1 / 100) : Tolerances), 0 ≤ t.1 ∧ 0 ≤ t.2 := by
    rintro t ⟨⟩
    norm_num
  have hL := exactAlgebra_correct !![1 / 2, 1 / 4; 0, 1 / 3] (covariances_posSemidef (xv := 1) (ov := 2) zero_le_one zero_le_two hc)
  have hs := fun ω : Fin 4 × Fin 2 → ℝ => (C120_succeeds exactAlgebra (some (1 / 100, 1 / 100)) (some (1 / 100, 1 / 100)) ht ht 1 one_pos 1 2 (9 / 10)
    zero_le_one zero_le_two hc ![0, 0, 2, 1] uniqueLags_witness.1 !![1 / 2, 1 / 4; 0, 1 / 3] hL (fun n a => ω (n, a))).2
      ⟨one_pos, two_pos, by rw [abs_lt]; norm_num, stable_witness⟩
  choose xi omega h using hs
  obtain ⟨-, S, hS, hS', -⟩ := C120_stationary exactAlgebra (some (1 / 100, 1 / 100)) (some (1 / 100, 1 / 100)) ht 1 1 2 (9 / 10) zero_le_one zero_le_two hc
    ![0, 0, 2, 1] uniqueLags_witness.1 uniqueLags_witness.2 !![1 / 2, 1 / 4; 0, 1 / 3] hL _ standardDraws_normal xi omega h
  exact ⟨xi, omega, h, S, hS', hS.1⟩

/-- A simulation without lags, with perfectly correlated errors. -/
example : ∃ xi omega : (Fin 3 × Fin 2 → ℝ) → Fin 3 → ℝ,
    (∀ ω, structuralErrors exactAlgebra (some (0, 0)) none 1 none none 1 4 1 none 0 (fun n a => ω (n, a)) = .ok (xi ω, some (omega ω))) ∧
    ∀ i, Spec.covarianceMatrix (Measure.pi fun _ : Fin 3 × Fin 2 => gaussianReal 0 1) (fun ω => Spec.errors (xi ω) (omega ω) i)
      (fun ω => Spec.errors (xi ω) (omega ω) i) = Spec.covariances 1 4 1 := by
  have hc : |(1 : ℝ)| ≤ 1 := by simp
  obtain ⟨xi, omega, h1, -, h2⟩ := C120_drawn exactAlgebra (some (0, 0)) none (by rintro t ⟨⟩; norm_num) 1 one_pos 1 4 1 zero_le_one (by norm_num) hc 0
    (exactAlgebra_correct 0 (covariances_posSemidef zero_le_one (by norm_num) hc)) _ (standardDraws_normal (N := 3))
  exact ⟨xi, omega, h1, fun i => by rw [h2 i i, if_pos rfl]⟩

/-- Vectors and matrices with one column are used as they are, but only with one number for each product. -/
example : Spec.IsColumn (.vector [3, 5]) (![3, 5] : Fin 2 → ℝ) ∧ Spec.IsColumn (.matrix 2 1 fun i _ => ![3, 5] i) (![3, 5] : Fin 2 → ℝ) ∧
    (∀ x : Fin 2 → ℝ, ¬ Spec.IsColumn (.vector [3, 5, 7]) x) ∧ ∀ x : Fin 2 → ℝ, ¬ Spec.IsColumn (.matrix 1 2 fun _ => ![3, 5]) x := by
  refine ⟨by simp [Spec.IsColumn], ⟨rfl, rfl, fun _ _ => rfl⟩, fun x h => ?_, fun x h => ?_⟩
  · have := congrArg List.length h
    simp at this
  · obtain ⟨h, -⟩ := h
    norm_num at h

end Pyblp
