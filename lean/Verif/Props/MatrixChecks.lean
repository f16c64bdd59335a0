import Verif.Model.MatrixChecks
import Mathlib.Analysis.Matrix.Order
import Mathlib.Analysis.SpecialFunctions.ContinuousFunctionalCalculus.Rpow.Basic
import Mathlib.LinearAlgebra.Matrix.Block
import Mathlib.LinearAlgebra.Matrix.NonsingularInverse
import Mathlib.LinearAlgebra.Matrix.Charpoly.Eigs

/-!
# C105: checks of matrices
-/

set_option linter.unusedSectionVars false

namespace Pyblp

open Matrix

/-! ### Specification -/

namespace Spec

variable {N K : ℕ}

/-- A QR decomposition: orthonormal columns times an upper triangular matrix. -/
structure IsQR (X : Matrix (Fin N) (Fin K) ℝ) (Q : Matrix (Fin N) (Fin N) ℝ) (R : Matrix (Fin N) (Fin K) ℝ) : Prop where
  orthogonal : Qᵀ * Q = 1
  triangular : ∀ (i : Fin N) (j : Fin K), (j : ℕ) < (i : ℕ) → R i j = 0
  product : X = Q * R

/-- A column is closer than some tolerance to a linear combination of columns before it. -/
def Near (X : Matrix (Fin N) (Fin K) ℝ) (k : Fin K) (tol : ℝ) : Prop :=
  ∃ c : Fin K → ℝ, Real.sqrt (∑ n, (X n k - ∑ j with j < k, c j * X n j) ^ 2) < tol

/-- A singular value decomposition of a square matrix. -/
structure IsSVD {n : Type} [Fintype n] [DecidableEq n] (x U V : Matrix n n ℝ) (s : n → ℝ) : Prop where
  left : Uᵀ * U = 1
  right : V * Vᵀ = 1
  nonneg : ∀ i, 0 ≤ s i
  product : x = U * diagonal s * V

/-- Eigenvalues of a real matrix: complex numbers at which it is singular. -/
def IsEigenvalues {n : Type} [Fintype n] [DecidableEq n] (x : Matrix n n ℝ) (eigenvalues : List ℂ) : Prop :=
  ∀ z : ℂ, z ∈ eigenvalues ↔ (x.map (algebraMap ℝ ℂ) - z • (1 : Matrix n n ℂ)).det = 0

end Spec

/-! ### Collinearity -/

section Collinearity

variable {N K : ℕ} {X : Matrix (Fin N) (Fin K) ℝ} {Q : Matrix (Fin N) (Fin N) ℝ} {R : Matrix (Fin N) (Fin K) ℝ}

/-- Distances between columns are those between columns of the triangular matrix. -/
theorem qr_distance (h : Spec.IsQR X Q R) (k : Fin K) (c : Fin K → ℝ) :
    ∑ n, (X n k - ∑ j with j < k, c j * X n j) ^ 2 = ∑ i, (R i k - ∑ j with j < k, c j * R i j) ^ 2 := by
  have hv : ∀ n, X n k - ∑ j with j < k, c j * X n j = (Q *ᵥ fun i => R i k - ∑ j with j < k, c j * R i j) n := by
    intro n
    have hx : ∀ j, X n j = ∑ i, Q n i * R i j := by intro j; rw [h.product]; rfl
    simp only [mulVec, dotProduct, mul_sub, Finset.sum_sub_distrib, hx, Finset.mul_sum]
    congr 1
    rw [Finset.sum_comm]
    exact Finset.sum_congr rfl fun i _ => Finset.sum_congr rfl fun j _ => by ring
  have hdot : ∀ v : Fin N → ℝ, ∑ n, (Q *ᵥ v) n ^ 2 = ∑ i, v i ^ 2 := by
    intro v
    have : (Q *ᵥ v) ⬝ᵥ (Q *ᵥ v) = v ⬝ᵥ v := by
      rw [dotProduct_mulVec, vecMul_mulVec, ← mulVec_transpose, transpose_mul, transpose_transpose, h.orthogonal, one_mulVec]
    simpa [dotProduct, sq] using this
  simp only [hv]
  exact hdot _

/-- A diagonal element is at most the distance to any combination. -/
theorem qr_diagonal_le (h : Spec.IsQR X Q R) (k : Fin K) (i : Fin N) (hi : (i : ℕ) = k) (c : Fin K → ℝ) :
    |R i k| ≤ Real.sqrt (∑ n, (X n k - ∑ j with j < k, c j * X n j) ^ 2) := by
  rw [qr_distance h k c]
  apply Real.abs_le_sqrt
  have h0 : ∑ j with j < k, c j * R i j = 0 := by
    apply Finset.sum_eq_zero
    intro j hj
    rw [Finset.mem_filter] at hj
    rw [h.triangular i j (by rw [hi]; exact hj.2), mul_zero]
  calc R i k ^ 2 = (R i k - ∑ j with j < k, c j * R i j) ^ 2 := by rw [h0, sub_zero]
    _ ≤ _ := Finset.single_le_sum (f := fun i => (R i k - ∑ j with j < k, c j * R i j) ^ 2) (fun _ _ => sq_nonneg _) (Finset.mem_univ i)

/-- If preceding diagonal elements are not zero, some combination is at that distance. -/
theorem qr_diagonal_attained (h : Spec.IsQR X Q R) (hKN : K ≤ N) (k : Fin K) (hd : ∀ j : Fin K, j < k → R ⟨j, by omega⟩ j ≠ 0) :
    ∃ c : Fin K → ℝ, Real.sqrt (∑ n, (X n k - ∑ j with j < k, c j * X n j) ^ 2) = |R ⟨k, by omega⟩ k| := by
  -- the leading block is invertible
  let A : Matrix (Fin k) (Fin k) ℝ := fun i j => R ⟨i, by omega⟩ ⟨j, by omega⟩
  have htri : A.BlockTriangular id := by
    intro i j hij
    exact h.triangular _ _ hij
  have hdet : IsUnit A.det := by
    rw [det_of_isUpperTriangular htri, isUnit_iff_ne_zero, Finset.prod_ne_zero_iff]
    intro i _
    exact hd ⟨i, by omega⟩ i.2
  let d : Fin k → ℝ := A⁻¹ *ᵥ fun i : Fin k => R ⟨i, by omega⟩ k
  have hsolve : A *ᵥ d = fun i : Fin k => R ⟨i, by omega⟩ k := by
    rw [mulVec_mulVec, mul_nonsing_inv _ hdet, one_mulVec]
  refine ⟨fun j => if hj : j < k then d ⟨j, hj⟩ else 0, ?_⟩
  rw [qr_distance h k]
  have hsum : ∀ i : Fin N, ∑ j with j < k, (if hj : j < k then d ⟨j, hj⟩ else 0) * R i j = ∑ l : Fin k, d l * R i ⟨l, by omega⟩ := by
    intro i
    symm
    apply Finset.sum_bij (fun (l : Fin k) _ => (⟨l, by omega⟩ : Fin K))
    · intro l _
      rw [Finset.mem_filter]
      exact ⟨Finset.mem_univ _, l.2⟩
    · intro a _ b _ hab
      exact Fin.ext (Fin.mk.inj_iff.1 hab)
    · intro j hj
      rw [Finset.mem_filter] at hj
      exact ⟨⟨j, hj.2⟩, Finset.mem_univ _, rfl⟩
    · intro l _
      rw [dif_pos (show (⟨l, by omega⟩ : Fin K) < k from l.2)]
  have hzero : ∀ i : Fin N, (i : ℕ) ≠ k → R i k - ∑ j with j < k, (if hj : j < k then d ⟨j, hj⟩ else 0) * R i j = 0 := by
    intro i hi
    rw [hsum]
    by_cases hik : (i : ℕ) < k
    · have := congrFun hsolve ⟨i, hik⟩
      simp only [mulVec, dotProduct, A] at this
      rw [sub_eq_zero, ← this]
      exact Finset.sum_congr rfl fun l _ => mul_comm _ _
    · rw [h.triangular i k (by omega), zero_sub, neg_eq_zero]
      apply Finset.sum_eq_zero
      intro l _
      rw [h.triangular i ⟨l, by omega⟩ (by have := l.2; simp only; omega), mul_zero]
  have hdiag : R ⟨k, by omega⟩ k - ∑ j with j < k, (if hj : j < k then d ⟨j, hj⟩ else 0) * R ⟨k, by omega⟩ j = R ⟨k, by omega⟩ k := by
    rw [hsum, sub_eq_self]
    apply Finset.sum_eq_zero
    intro l _
    rw [h.triangular _ ⟨l, by omega⟩ (by have := l.2; simp only; omega), mul_zero]
  rw [Finset.sum_eq_single (⟨k, by omega⟩ : Fin N)]
  · rw [hdiag, Real.sqrt_sq_eq_abs]
  · intro i _ hi
    rw [hzero i (fun h' => hi (Fin.ext h'))]
    ring
  · intro h'
    exact absurd (Finset.mem_univ _) h'

/-- The tolerance of a column: the absolute one and the relative one times the column's standard deviation, the root of the mean of squares less the
squared mean. -/
noncomputable def Spec.tolerance (atol rtol : ℝ) (X : Matrix (Fin N) (Fin K) ℝ) (k : Fin K) : ℝ :=
  atol + rtol * √((∑ n, X n k ^ 2) / N - ((∑ n, X n k) / N) ^ 2)

theorem columnTolerance_eq (atol rtol : ℝ) (X : Matrix (Fin N) (Fin K) ℝ) (k : Fin K) : columnTolerance atol rtol X k = Spec.tolerance atol rtol X k := by
  unfold columnTolerance columnStd Spec.tolerance
  congr 3
  rcases Nat.eq_zero_or_pos N with rfl | hN
  · simp
  · have hN' : (N : ℝ) ≠ 0 := Nat.cast_ne_zero.2 hN.ne'
    generalize hμ : (∑ n, X n k) / (N : ℝ) = μ
    have hs : ∑ n, X n k = N * μ := by rw [← hμ]; field_simp
    have : ∑ n, (X n k - μ) ^ 2 = ∑ n, X n k ^ 2 - 2 * μ * ∑ n, X n k + N * μ ^ 2 := by
      simp only [sub_sq, Finset.sum_add_distrib, Finset.sum_sub_distrib, Finset.sum_const, Finset.card_univ, Fintype.card_fin, nsmul_eq_mul]
      rw [Finset.mul_sum]
      congr 2
      exact Finset.sum_congr rfl fun n _ => by ring
    rw [this, hs]
    field_simp
    ring

theorem columnTolerance_pos {atol rtol : ℝ} (ht : 0 < min atol rtol) (X : Matrix (Fin N) (Fin K) ℝ) (k : Fin K) : 0 < columnTolerance atol rtol X k := by
  rw [lt_min_iff] at ht
  exact add_pos_of_pos_of_nonneg ht.1 (mul_nonneg ht.2.le (Real.sqrt_nonneg _))

theorem identify_eq {atol rtol : ℝ} (ht : 0 < min atol rtol) (hKN : K ≤ N) (k : Fin K) :
    (identifyCollinearity atol rtol (some R) X).2 = true ∧
    ((identifyCollinearity atol rtol (some R) X).1 k = true ↔ |R ⟨k, by omega⟩ k| < columnTolerance atol rtol X k) := by
  unfold identifyCollinearity
  rw [if_pos ⟨Nat.mul_pos (by have := k.2; omega) (by have := k.2; omega), ht⟩]
  dsimp only
  rw [dif_pos hKN]
  exact ⟨rfl, decide_eq_true_iff⟩

/-- **C105** (collinearity). With positive tolerances and at least as many rows as columns, every column that is closer than its tolerance to the span of
columns before it is identified, the first identified column is such a column, and so some column is identified if and only if there is such a column.
This is so whichever QR decomposition is computed. -/
theorem C105_collinear {atol rtol : ℝ} (ht : 0 < min atol rtol) (hKN : K ≤ N) (h : Spec.IsQR X Q R) :
    let collinear := (identifyCollinearity atol rtol (some R) X).1
    (∀ k, Spec.Near X k (Spec.tolerance atol rtol X k) → collinear k = true) ∧
    (∀ k, collinear k = true → (∀ j < k, collinear j = false) → Spec.Near X k (Spec.tolerance atol rtol X k)) ∧
    ((∃ k, collinear k = true) ↔ ∃ k, Spec.Near X k (Spec.tolerance atol rtol X k)) := by
  intro collinear
  simp only [← columnTolerance_eq]
  have hc : ∀ k, collinear k = true ↔ |R ⟨k, by omega⟩ k| < columnTolerance atol rtol X k := fun k => (identify_eq ht hKN k).2
  have h1 : ∀ k, Spec.Near X k (columnTolerance atol rtol X k) → collinear k = true := by
    rintro k ⟨c, hn⟩
    rw [hc]
    exact (qr_diagonal_le h k ⟨k, by omega⟩ rfl c).trans_lt hn
  have h2 : ∀ k, collinear k = true → (∀ j < k, collinear j = false) → Spec.Near X k (columnTolerance atol rtol X k) := by
    intro k hk hj
    obtain ⟨c, he⟩ := qr_diagonal_attained h hKN k fun j hjk h0 => by
      have := (hc j).2 (by rw [h0, abs_zero]; exact columnTolerance_pos ht X j)
      rw [hj j hjk] at this
      cases this
    exact ⟨c, by rw [he]; exact (hc k).1 hk⟩
  refine ⟨h1, h2, ?_, fun ⟨k, hk⟩ => ⟨k, h1 k hk⟩⟩
  rintro ⟨k, hk⟩
  -- the first one
  obtain ⟨m, hm, hmin⟩ := WellFounded.has_min (wellFounded_lt (α := Fin K)) {k | collinear k = true} ⟨k, hk⟩
  exact ⟨m, h2 m hm fun j hj => by
    by_contra hne
    exact hmin j (by simpa using hne) hj⟩

/-- **C105** (collinearity). Whatever positive tolerances are, some column is identified if columns are linearly dependent. -/
theorem C105_dependent {atol rtol : ℝ} (ht : 0 < min atol rtol) (hKN : K ≤ N) (h : Spec.IsQR X Q R)
    (hdep : ¬ LinearIndependent ℝ (fun k n => X n k)) : ∃ k, (identifyCollinearity atol rtol (some R) X).1 k = true := by
  rw [(C105_collinear ht hKN h).2.2]
  rw [Fintype.not_linearIndependent_iff] at hdep
  obtain ⟨g, hg, i, hi⟩ := hdep
  -- the last column with a coefficient
  have hne : (Finset.univ.filter fun k => g k ≠ 0).Nonempty := ⟨i, by simp [hi]⟩
  obtain ⟨k, hk, hmax⟩ := (Finset.univ.filter fun k => g k ≠ 0).exists_max_image id hne
  rw [Finset.mem_filter] at hk
  refine ⟨k, fun j => - g j / g k, ?_⟩
  have hz : ∀ n, X n k - ∑ j with j < k, -g j / g k * X n j = 0 := by
    intro n
    have hn := congrFun hg n
    simp only [Finset.sum_apply, Pi.smul_apply, smul_eq_mul, Pi.zero_apply] at hn
    have hsplit : ∑ j, g j * X n j = g k * X n k + ∑ j with j < k, g j * X n j := by
      rw [← Finset.sum_filter_add_sum_filter_not Finset.univ (fun j => j < k), add_comm]
      congr 1
      rw [Finset.sum_eq_single k]
      · intro j hj hjk
        rw [Finset.mem_filter] at hj
        have : g j = 0 := by
          by_contra hgj
          have := hmax j (by simp [hgj])
          exact hjk (le_antisymm this (not_lt.1 hj.2))
        rw [this, zero_mul]
      · intro h'
        simp at h'
    rw [hsplit] at hn
    have : ∑ j with j < k, -g j / g k * X n j = -(∑ j with j < k, g j * X n j) / g k := by
      rw [neg_div, Finset.sum_div, ← Finset.sum_neg_distrib]
      exact Finset.sum_congr rfl fun j _ => by ring
    rw [this, sub_eq_zero, eq_div_iff hk.2]
    linarith
  simp only [hz]
  simpa [← columnTolerance_eq] using columnTolerance_pos ht X k

/-- Labels in the order of columns. -/
theorem collinearLabels_ofFn (labels : List String) (hl : labels.length = K) (c : Fin K → Bool) :
    collinearLabels labels (List.ofFn c) = ((List.finRange K).filter fun k => c k).map fun k => labels[k]'(by omega) := by
  unfold collinearLabels
  have : labels.zip (List.ofFn c) = (List.finRange K).map fun k => (labels[k]'(by omega), c k) := by
    apply List.ext_getElem
    · simp [hl]
    · intro i h1 h2
      simp
  rw [this, List.filter_map, List.map_map]
  rfl

theorem identify_none {atol rtol : ℝ} (ht : 0 < min atol rtol) (hs : 0 < N * K) :
    identifyCollinearity atol rtol none X = (fun _ => false, false) := by
  unfold identifyCollinearity
  rw [if_pos ⟨hs, ht⟩]

theorem identify_wide {atol rtol : ℝ} (ht : 0 < min atol rtol) (h1 : 1 < N) (h2 : N < K) :
    identifyCollinearity atol rtol (some R) X = (fun _ => false, false) := by
  unfold identifyCollinearity
  rw [if_pos ⟨Nat.mul_pos (by omega) (by omega), ht⟩]
  dsimp only
  rw [dif_neg (by omega), dif_neg (by omega)]

theorem identify_zero (atol : ℝ) : identifyCollinearity atol 0 (some R) X = (fun _ => false, true) := by
  unfold identifyCollinearity
  rw [if_neg]
  rintro ⟨_, h⟩
  rw [lt_min_iff] at h
  exact lt_irrefl _ h.2

/-- **C105** (warnings). With positive tolerances and a QR decomposition of a matrix with at least as many rows as columns, there is a warning if and only if
some column is closer than its tolerance to the span of columns before it, and it has the labels of identified columns in their order. If the decomposition
fails, or if there are more columns than rows and more than one row, there is a warning that it failed. -/
theorem C105_warnings {atol rtol : ℝ} (ht : 0 < min atol rtol) (labels : List String) (hl : labels.length = K) :
    (∀ (_ : K ≤ N) (_ : Spec.IsQR X Q R),
      ((∃ k, Spec.Near X k (Spec.tolerance atol rtol X k)) → detectCollinearity atol rtol (some R) X labels =
        [.collinear (((List.finRange K).filter fun k => (identifyCollinearity atol rtol (some R) X).1 k).map fun k => labels[k]'(by omega))]) ∧
      ((¬ ∃ k, Spec.Near X k (Spec.tolerance atol rtol X k)) → detectCollinearity atol rtol (some R) X labels = [])) ∧
    (0 < N * K → detectCollinearity atol rtol none X labels = [.failed]) ∧
    (1 < N → N < K → detectCollinearity atol rtol (some R) X labels = [.failed]) := by
  have hmax : ¬ max atol rtol ≤ 0 := not_le.2 (ht.trans_le (min_le_max))
  have hany : ∀ c : Fin K → Bool, (List.ofFn c).any id = true ↔ ∃ k, c k = true := by
    intro c
    rw [List.any_eq_true]
    simp [List.mem_ofFn]
  refine ⟨fun hKN h => ⟨fun hn => ?_, fun hn => ?_⟩, fun hs => ?_, fun h1 h2 => ?_⟩
  · obtain ⟨k, hk⟩ := (C105_collinear ht hKN h).2.2.2 hn
    unfold detectCollinearity
    dsimp only
    rw [if_neg hmax, if_neg (by rw [(identify_eq ht hKN k).1]; decide), if_pos ((hany _).2 ⟨k, hk⟩), collinearLabels_ofFn labels hl]
    rfl
  · have hno : ¬ ∃ k, (identifyCollinearity atol rtol (some R) X).1 k = true := fun h' => hn ((C105_collinear ht hKN h).2.2.1 h')
    have hsucc : (identifyCollinearity atol rtol (some R) X).2 = true := by
      unfold identifyCollinearity
      by_cases hs : 0 < N * K
      · rw [if_pos ⟨hs, ht⟩]
        dsimp only
        rw [dif_pos hKN]
      · rw [if_neg fun h' => hs h'.1]
    unfold detectCollinearity
    dsimp only
    rw [if_neg hmax, if_neg (by rw [hsucc]; decide), if_neg fun h' => hno ((hany _).1 h')]
    rfl
  · unfold detectCollinearity
    rw [if_neg hmax, identify_none ht hs]
    simp
  · unfold detectCollinearity
    rw [if_neg hmax, identify_wide ht h1 h2]
    simp

/-- **C105 refuted** (collinearity): if only one tolerance is set to zero, nothing is identified, although both are documented to have to be zero for the
check to be disabled. For example, two columns that are the same. -/
theorem C105_refuted_tolerances : ∃ (X : Matrix (Fin 2) (Fin 2) ℝ) (Q R : Matrix (Fin 2) (Fin 2) ℝ), Spec.IsQR X Q R ∧
    ¬ LinearIndependent ℝ (fun k n => X n k) ∧ ∀ atol > 0, ∀ labels, detectCollinearity atol 0 (some R) X labels = [] := by
  refine ⟨Matrix.of fun i _ => if i = 0 then 1 else 0, 1, Matrix.of fun i _ => if i = 0 then 1 else 0, ⟨by simp, ?_, by simp⟩, ?_, ?_⟩
  · intro i j hij
    exact if_neg fun h => by rw [h] at hij; exact absurd hij (Nat.not_lt_zero _)
  · rw [Fintype.not_linearIndependent_iff]
    refine ⟨fun k => if k = 0 then 1 else -1, ?_, 0, by simp⟩
    funext n
    simp [Fin.sum_univ_two]
  · intro atol ha labels
    unfold detectCollinearity
    rw [if_neg (not_le.2 (lt_max_of_lt_left ha)), identify_zero]
    simp

/-- **C105** (labels). When collinearity of demand-side instruments is checked, each column has its label: the number of an excluded instrument, or the
label of an exogenous characteristic in X1. -/
theorem C105_labels {Row : Type} (f : Formula.Formulations Row) (data : Formula.ColumnData Row) (excluded : List Formula.Name) (label : Formula.Expr → String)
    (added : Bool) : ∃ exogenous : List Formula.Expr, (∀ e ∈ exogenous, e ∈ f.X1 ∧ Formula.pricesName ∉ e.symbols) ∧
      instrumentLabels "demand_instruments" (Formula.problemZD f data excluded added).length (exogenousLabels label Formula.pricesName f.X1 added) =
        ((List.range excluded.length).map fun i => "demand_instruments" ++ toString i) ++ exogenous.map label ∧
      ∃ residualize : (Row → ℝ) → Row → ℝ, Formula.problemZD f data excluded added =
        (excluded.map fun n => residualize (data n)) ++ exogenous.map fun e => residualize (Formula.evaluateColumn data e) := by
  have hsup : ∀ (X : List Formula.Expr) (Z : List (Row → ℝ)), Formula.supplement data Formula.pricesName X Z =
      Z ++ (X.filter fun e => decide (Formula.pricesName ∉ e.symbols)).map (Formula.evaluateColumn data) := by
    intro X
    induction X with
    | nil => intro Z; simp [Formula.supplement]
    | cons a X ih =>
      intro Z
      have hcons : Formula.supplement data Formula.pricesName (a :: X) Z =
        Formula.supplement data Formula.pricesName X (if Formula.pricesName ∈ a.symbols then Z else Z ++ [Formula.evaluateColumn data a]) := rfl
      rw [hcons, ih]
      by_cases ha : Formula.pricesName ∈ a.symbols
      · simp [ha]
      · simp [ha]
  cases added with
  | false =>
    refine ⟨[], by simp, ?_, id, ?_⟩
    · simp [instrumentLabels, exogenousLabels, Formula.problemZD, Formula.givenColumns]
    · simp [Formula.problemZD, Formula.givenColumns]
  | true =>
    refine ⟨f.X1.filter fun e => decide (Formula.pricesName ∉ e.symbols), ?_, ?_, f.absorbDemand, ?_⟩
    · intro e he
      rw [List.mem_filter, decide_eq_true_eq] at he
      exact he
    · unfold instrumentLabels exogenousLabels Formula.problemZD Formula.absorbColumns Formula.givenColumns
      rw [if_pos rfl, if_pos rfl, hsup]
      simp
    · unfold Formula.problemZD Formula.absorbColumns Formula.givenColumns
      rw [if_pos rfl, hsup, List.map_append, List.map_map, List.map_map]
      rfl

end Collinearity

/-! ### Positive semidefinite matrices -/

section PSD

variable {n : Type} [Fintype n] [DecidableEq n]

open scoped MatrixOrder Matrix.Norms.L2Operator

theorem svd_posSemidef {V : Matrix n n ℝ} {s : n → ℝ} (hs : ∀ i, 0 ≤ s i) : (Vᵀ * diagonal s * V).PosSemidef := by
  have := (PosSemidef.diagonal hs).conjTranspose_mul_mul_same V
  simpa [conjTranspose_eq_transpose_of_trivial] using this

/-- The matrix that is compared is the positive semidefinite one. -/
theorem svd_eq {x U V : Matrix n n ℝ} {s : n → ℝ} (h : Spec.IsSVD x U V s) (hx : x.PosSemidef) : Vᵀ * diagonal s * V = x := by
  have hP := svd_posSemidef (V := V) h.nonneg
  have hxt : xᵀ = x := by
    have := hx.1
    rwa [IsHermitian, conjTranspose_eq_transpose_of_trivial] at this
  have hsq : (Vᵀ * diagonal s * V) ^ 2 = x ^ 2 := by
    have h1 : x ^ 2 = xᵀ * x := by rw [hxt, sq]
    rw [h1, sq, h.product, transpose_mul, transpose_mul, diagonal_transpose]
    calc Vᵀ * diagonal s * V * (Vᵀ * diagonal s * V) = Vᵀ * diagonal s * (V * Vᵀ) * diagonal s * V := by simp only [Matrix.mul_assoc]
      _ = Vᵀ * diagonal s * (Uᵀ * U) * diagonal s * V := by rw [h.right, h.left]
      _ = _ := by simp only [Matrix.mul_assoc]
  exact (CFC.sq_eq_sq_iff _ _ hP.nonneg hx.nonneg).1 hsq

/-- **C105** (positive semidefinite matrices). With finite tolerances, and whichever singular value decomposition is computed, every positive semidefinite
matrix is accepted, every matrix that is accepted is within tolerances of one that is positive semidefinite, and without tolerances, exactly positive
semidefinite matrices are accepted. -/
theorem C105_psd {x U V : Matrix n n ℝ} {s : n → ℝ} (h : Spec.IsSVD x U V s) :
    (∀ atol rtol, 0 ≤ atol → 0 ≤ rtol → x.PosSemidef → requirePSD (some (atol, rtol)) (some (s, V)) x = true) ∧
    (∀ atol rtol, requirePSD (some (atol, rtol)) (some (s, V)) x = true →
      ∃ P : Matrix n n ℝ, P.PosSemidef ∧ ∀ i j, |P i j - x i j| ≤ atol + rtol * |x i j|) ∧
    (requirePSD (some (0, 0)) (some (s, V)) x = true ↔ x.PosSemidef) := by
  have h1 : ∀ atol rtol, 0 ≤ atol → 0 ≤ rtol → x.PosSemidef → requirePSD (some (atol, rtol)) (some (s, V)) x = true := by
    intro atol rtol ha hr hx
    unfold requirePSD
    dsimp only
    by_cases hn : Fintype.card n = 0
    · rw [if_pos hn]
    · rw [if_neg hn]
      simp only [decide_eq_true_eq]
      intro i j
      rw [svd_eq h hx, sub_self, abs_zero]
      exact add_nonneg ha (mul_nonneg hr (abs_nonneg _))
  have h2 : ∀ atol rtol, requirePSD (some (atol, rtol)) (some (s, V)) x = true →
      ∃ P : Matrix n n ℝ, P.PosSemidef ∧ ∀ i j, |P i j - x i j| ≤ atol + rtol * |x i j| := by
    intro atol rtol hr
    unfold requirePSD at hr
    dsimp only at hr
    refine ⟨_, svd_posSemidef (V := V) h.nonneg, ?_⟩
    by_cases hn : Fintype.card n = 0
    · intro i
      exact ((Fintype.card_eq_zero_iff.1 hn).false i).elim
    · rw [if_neg hn] at hr
      simp only [decide_eq_true_eq] at hr
      exact hr
  refine ⟨h1, h2, fun hr => ?_, h1 0 0 le_rfl le_rfl⟩
  obtain ⟨P, hP, hc⟩ := h2 0 0 hr
  have : P = x := by
    ext i j
    have := hc i j
    rw [zero_mul, add_zero] at this
    exact sub_eq_zero.1 (abs_nonpos_iff.1 this)
  rwa [← this]

/-- **C105** (disabled checks). If tolerances are infinite, everything is accepted. Otherwise, nothing is accepted if decompositions fail. -/
theorem C105_disabled [Nonempty n] (x : Matrix n n ℝ) (tol : Tolerances) (size : ℕ) (hs : 0 < size) :
    (requirePSD none none x = true ∧ requireStable none none size = true) ∧
    (tol ≠ none → requirePSD tol none x = false ∧ requireStable tol none size = false) := by
  refine ⟨⟨rfl, rfl⟩, fun h => ?_⟩
  cases tol with
  | none => exact absurd rfl h
  | some t =>
    unfold requirePSD requireStable
    dsimp only
    rw [if_neg Fintype.card_ne_zero, if_neg (by omega)]
    exact ⟨rfl, rfl⟩

/-! ### Stable matrices -/

theorem spectralNorm_le (e : List ℂ) (b : ℝ) (hb : 0 ≤ b) : spectralNorm e ≤ b ↔ ∀ z ∈ e, ‖z‖ ≤ b := by
  unfold spectralNorm
  induction e with
  | nil => simpa using hb
  | cons a e ih => simp [ih]

/-- **C105** (stability). Without tolerances, coefficients of an autoregression are accepted if and only if no eigenvalue is outside of the unit circle.
With tolerances, matrices of which no eigenvalue is outside are accepted too, and if a matrix is accepted, no eigenvalue is further outside than allowed by
the larger one of the absolute tolerance and the relative one times the largest absolute eigenvalue. -/
theorem C105_stable_partial {x : Matrix n n ℝ} {e : List ℂ} (h : Spec.IsEigenvalues x e) [Nonempty n] :
    (requireStable (some (0, 0)) (some e) (Fintype.card n) = true ↔
      ∀ z : ℂ, (x.map (algebraMap ℝ ℂ) - z • (1 : Matrix n n ℂ)).det = 0 → ‖z‖ ≤ 1) ∧
    (∀ atol rtol, 0 ≤ atol → 0 ≤ rtol → (∀ z : ℂ, (x.map (algebraMap ℝ ℂ) - z • (1 : Matrix n n ℂ)).det = 0 → ‖z‖ ≤ 1) →
      requireStable (some (atol, rtol)) (some e) (Fintype.card n) = true) ∧
    (∀ atol rtol, 0 ≤ atol → 0 ≤ rtol → requireStable (some (atol, rtol)) (some e) (Fintype.card n) = true →
      ∃ ρ : ℝ, (∀ z : ℂ, (x.map (algebraMap ℝ ℂ) - z • (1 : Matrix n n ℂ)).det = 0 → ‖z‖ ≤ ρ) ∧ ρ ≤ 1 + max atol (rtol * max 1 ρ)) := by
  have hr : ∀ atol rtol : ℝ, requireStable (some (atol, rtol)) (some e) (Fintype.card n) = true ↔
      spectralNorm e ≤ 1 + max atol (rtol * max 1 (spectralNorm e)) := by
    intro atol rtol
    unfold requireStable
    dsimp only
    rw [if_neg Fintype.card_ne_zero, decide_eq_true_iff]
  have hle := fun b hb => spectralNorm_le e b hb
  refine ⟨?_, ?_, ?_⟩
  · rw [hr, zero_mul, max_self, add_zero, hle 1 zero_le_one]
    exact ⟨fun h' z hz => h' z ((h z).2 hz), fun h' z hz => h' z ((h z).1 hz)⟩
  · intro atol rtol ha hrt h'
    rw [hr]
    exact ((hle 1 zero_le_one).2 fun z hz => h' z ((h z).1 hz)).trans (le_add_of_nonneg_right (le_max_of_le_left ha))
  · intro atol rtol ha hrt h'
    rw [hr] at h'
    have h0 : 0 ≤ spectralNorm e := by
      unfold spectralNorm
      cases e with
      | nil => simp
      | cons a e => exact le_max_of_le_left (norm_nonneg a)
    exact ⟨spectralNorm e, fun z hz => (hle _ h0).1 le_rfl z ((h z).2 hz), h'⟩

/-- **C105 refuted** (stability): a unit root is accepted with any tolerances that are not negative, although the error message says that the spectral radius
must be less than one, and although no distribution is stationary: there is no variance to which a positive variance of innovations can be added without changing it. -/
theorem C105_refuted_unit_root : ∃ x : Matrix (Fin 1) (Fin 1) ℝ, Spec.IsEigenvalues x [1] ∧
    (∀ atol rtol, 0 ≤ atol → 0 ≤ rtol → requireStable (some (atol, rtol)) (some [1]) 1 = true) ∧
    ∀ V S : Matrix (Fin 1) (Fin 1) ℝ, S ≠ 0 → V ≠ x * V * xᵀ + S := by
  have heig : Spec.IsEigenvalues (1 : Matrix (Fin 1) (Fin 1) ℝ) [1] := by
    intro z
    rw [List.mem_singleton, det_fin_one]
    simp [sub_eq_zero]
    exact eq_comm
  refine ⟨1, heig, ?_, ?_⟩
  · intro atol rtol ha hr
    refine (C105_stable_partial heig).2.1 atol rtol ha hr fun z hz => ?_
    rw [List.mem_singleton.1 ((heig z).2 hz)]
    simp
  · intro V S hS h
    apply hS
    rw [one_mul, transpose_one, mul_one] at h
    exact left_eq_add.1 h

/-- **C105 refuted** (stability): with tolerances, matrices are rejected although their spectral radius does not exceed one by more than the absolute tolerance
plus the relative one times the spectral radius, which is documented to be enough. -/
theorem C105_refuted_stable : ∃ (x : Matrix (Fin 1) (Fin 1) ℝ) (ρ : ℝ) (atol rtol : ℝ), Spec.IsEigenvalues x [(ρ : ℂ)] ∧ 0 < atol ∧ 0 < rtol ∧
    ρ ≤ 1 + (atol + rtol * |ρ|) ∧ requireStable (some (atol, rtol)) (some [(ρ : ℂ)]) 1 = false := by
  refine ⟨Matrix.of fun _ _ => 23 / 20, 23 / 20, 1 / 10, 1 / 10, ?_, by norm_num, by norm_num, by norm_num, ?_⟩
  · intro z
    rw [List.mem_singleton, det_fin_one]
    simp [sub_eq_zero]
    exact eq_comm
  · unfold requireStable
    dsimp only
    rw [if_neg (by decide), decide_eq_false_iff_not]
    have : spectralNorm [((23 / 20 : ℝ) : ℂ)] = 23 / 20 := by
      unfold spectralNorm
      simp
      norm_num
    rw [this]
    norm_num

/-! ### Hypotheses are met -/

/-- Two columns of three rows with a QR decomposition, the second of which is near the first. -/
example : ∃ (X : Matrix (Fin 3) (Fin 2) ℝ) (Q : Matrix (Fin 3) (Fin 3) ℝ) (R : Matrix (Fin 3) (Fin 2) ℝ), Spec.IsQR X Q R ∧ 2 ≤ 3 ∧
    LinearIndependent ℝ (fun k n => X n k) ∧ Spec.Near X 1 (1 / 10) := by
  refine ⟨!![1, 1; 0, 1 / 100; 0, 0], 1, !![1, 1; 0, 1 / 100; 0, 0], ⟨by simp, ?_, by simp⟩, by norm_num, ?_, ?_⟩
  · intro i j hij
    fin_cases i <;> fin_cases j <;> simp at hij ⊢
  · rw [Fintype.linearIndependent_iff]
    intro g hg
    have h0 := congrFun hg 0
    have h1 := congrFun hg 1
    simp [Fin.sum_univ_two] at h0 h1
    intro i
    fin_cases i
    · simp [h1] at h0 ⊢
      exact h0
    · simpa using h1
  · refine ⟨fun _ => 1, ?_⟩
    rw [Real.sqrt_lt' (by norm_num)]
    have : (Finset.univ.filter fun j : Fin 2 => j < 1) = {0} := by decide
    rw [this]
    simp [Fin.sum_univ_three]
    norm_num

/-- A positive semidefinite covariance matrix with a singular value decomposition, and one that is not. -/
example : Spec.IsSVD (!![1, 0; 0, -1] : Matrix (Fin 2) (Fin 2) ℝ) !![1, 0; 0, -1] 1 (fun _ => 1) ∧
    Spec.IsSVD (!![2, 0; 0, 1] : Matrix (Fin 2) (Fin 2) ℝ) 1 1 ![2, 1] ∧ (!![2, 0; 0, 1] : Matrix (Fin 2) (Fin 2) ℝ).PosSemidef := by
  have hd : (diagonal ![2, 1] : Matrix (Fin 2) (Fin 2) ℝ) = !![2, 0; 0, 1] := by
    ext i j
    fin_cases i <;> fin_cases j <;> simp
  refine ⟨⟨?_, by simp, fun _ => zero_le_one, ?_⟩, ⟨by simp, by simp, ?_, ?_⟩, ?_⟩
  · ext i j
    fin_cases i <;> fin_cases j <;> simp [mul_apply, Fin.sum_univ_two]
  · ext i j
    fin_cases i <;> fin_cases j <;> simp
  · intro i
    fin_cases i <;> simp
  · rw [hd]; simp
  · rw [← hd]
    exact PosSemidef.diagonal fun i => by fin_cases i <;> simp

end PSD

end Pyblp
