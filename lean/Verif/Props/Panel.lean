import Verif.Model.Panel
import Verif.Props.Groups
import Mathlib.Analysis.Calculus.Deriv.Basic
import Mathlib.Analysis.Calculus.Deriv.Mul
import Mathlib.Analysis.Calculus.Deriv.Add

/-!
# Panels and validation: C52, C53, C63, C64
-/

set_option linter.unusedSectionVars false

namespace Pyblp

open Classical

variable {N : ℕ}

/-! ## C52 -/

namespace Spec

/-- What is left of a variable after removing the part predicted from lags, zero in initial periods. -/
noncomputable def innovation (lag : Fin N → Fin N) (x : Fin N → ℝ) (phi : ℝ) (y : Fin N → ℝ) (c : ℝ) (j : Fin N) : ℝ :=
  if lag j = j then 0 else x j - (phi * x (lag j) + c * y (lag j))

/-- The change in innovations, zero unless the row and its lag both have lags. -/
noncomputable def differencedInnovation (lag : Fin N → Fin N) (x : Fin N → ℝ) (phi : ℝ) (y : Fin N → ℝ) (c : ℝ) (j : Fin N) : ℝ :=
  if lag j = j ∨ lag (lag j) = lag j then 0 else innovation lag x phi y c j - innovation lag x phi y c (lag j)

end Spec

/-- **C52.** Innovations, with and without the cross term. -/
theorem C52_innovations (lag : Fin N → Fin N) (x y : Fin N → ℝ) (phi c : ℝ) (j : Fin N) :
    computeDifference lag .innovations x phi (some (y, c)) j = Spec.innovation lag x phi y c j ∧
      computeDifference lag .innovations x phi none j = Spec.innovation lag x phi 0 0 j := by
  unfold computeDifference Spec.innovation hasLag
  by_cases h : lag j = j
  · simp [h]
  · simp [h]
    ring

/-- **C52.** Differenced innovations, with and without the cross term. -/
theorem C52_differenced (lag : Fin N → Fin N) (x y : Fin N → ℝ) (phi c : ℝ) (j : Fin N) :
    computeDifference lag .differencedInnovations x phi (some (y, c)) j = Spec.differencedInnovation lag x phi y c j ∧
      computeDifference lag .differencedInnovations x phi none j = Spec.differencedInnovation lag x phi 0 0 j := by
  unfold computeDifference Spec.differencedInnovation Spec.innovation hasSecondLag hasLag
  by_cases h : lag j = j
  · simp [h]
  · by_cases h2 : lag (lag j) = lag j
    · simp [h2]
    · simp [h, h2]
      ring

/-- **C52.** The reported derivative is the derivative with respect to the coefficient on the lag. -/
theorem C52_derivative (lag : Fin N → Fin N) (t : DifferenceType) (x : Fin N → ℝ) (other : Option ((Fin N → ℝ) × ℝ)) (phi : ℝ)
    (j : Fin N) : HasDerivAt (fun p => computeDifference lag t x p other j) (computeDifferenceDerivative lag t x j) phi := by
  have hlin : ∀ a b : ℝ, HasDerivAt (fun p : ℝ => a - p * b) (-b) phi := by
    intro a b
    have := ((hasDerivAt_id phi).mul_const b).const_sub a
    simpa using this
  unfold computeDifference computeDifferenceDerivative
  cases t
  · by_cases h : hasLag lag j
    · cases other with
      | none => simpa [h] using hlin (x j) (x (lag j))
      | some yc => simpa [h] using (hlin (x j) (x (lag j))).sub_const (yc.2 * yc.1 (lag j))
    · simpa [h] using hasDerivAt_const phi (0 : ℝ)
  · by_cases h : hasSecondLag lag j
    · cases other with
      | none =>
        have := (hlin (x j) (x (lag j))).sub (hlin (x (lag j)) (x (lag (lag j))))
        simp only [h, Bool.not_true, Bool.false_eq_true, if_false]
        exact this.congr_deriv (by ring)
      | some yc =>
        have := ((hlin (x j) (x (lag j))).sub_const (yc.2 * yc.1 (lag j))).sub
          ((hlin (x (lag j)) (x (lag (lag j)))).sub_const (yc.2 * yc.1 (lag (lag j))))
        simp only [h, Bool.not_true, Bool.false_eq_true, if_false]
        exact this.congr_deriv (by ring)
    · simpa [h] using hasDerivAt_const phi (0 : ℝ)

/-- **C52.** The derivative with respect to the coefficient on the lag of the other variable is that function of the other variable. -/
theorem C52_cross_derivative (lag : Fin N → Fin N) (t : DifferenceType) (x y : Fin N → ℝ) (phi c : ℝ) (j : Fin N) :
    HasDerivAt (fun p => computeDifference lag t x phi (some (y, p)) j) (computeDifferenceDerivative lag t y j) c := by
  have hlin : ∀ a b : ℝ, HasDerivAt (fun p : ℝ => a - p * b) (-b) c := by
    intro a b
    have := ((hasDerivAt_id c).mul_const b).const_sub a
    simpa using this
  unfold computeDifference computeDifferenceDerivative
  cases t
  · by_cases h : hasLag lag j
    · simpa [h] using hlin (x j - phi * x (lag j)) (y (lag j))
    · simpa [h] using hasDerivAt_const c (0 : ℝ)
  · by_cases h : hasSecondLag lag j
    · have := (hlin (x j - phi * x (lag j)) (y (lag j))).sub (hlin (x (lag j) - phi * x (lag (lag j))) (y (lag (lag j))))
      simp only [h, Bool.not_true, Bool.false_eq_true, if_false]
      exact this.congr_deriv (by ring)
    · simpa [h] using hasDerivAt_const c (0 : ℝ)

/-- A panel with three periods: only the last has two lags. -/
example : (computeDifference (![0, 0, 1] : Fin 3 → Fin 3) .differencedInnovations ![1, 2, 5] (1 / 2) none 2 = (5 - 1) - (2 - 1 / 2)) ∧
    computeDifference (![0, 0, 1] : Fin 3 → Fin 3) .differencedInnovations ![1, 2, 5] (1 / 2) none 1 = 0 ∧
    computeDifference (![0, 0, 1] : Fin 3 → Fin 3) .innovations ![1, 2, 5] (1 / 2) none 1 = 2 - 1 / 2 := by
  refine ⟨?_, ?_, ?_⟩ <;> simp [computeDifference, hasLag, hasSecondLag]

/-! ## C53 -/

namespace Spec

/-- Following lags from a row ends at an initial period. -/
def Anchored (lag : Fin N → Fin N) (i : Fin N) : Prop := ∃ k, lag (lag^[k] i) = lag^[k] i

/-- No two rows that are not initial have the same lag. -/
def UniqueLags (lag : Fin N → Fin N) : Prop := ∀ i j, lag i ≠ i → lag j ≠ j → lag i = lag j → i = j

end Spec

/-- The number of steps to an initial period is `k`. -/
def HasDepth (lag : Fin N → Fin N) (i : Fin N) (k : ℕ) : Prop :=
  lag (lag^[k] i) = lag^[k] i ∧ ∀ m < k, lag (lag^[m] i) ≠ lag^[m] i

theorem HasDepth.unique {lag : Fin N → Fin N} {i : Fin N} {k m : ℕ} (h : HasDepth lag i k) (h' : HasDepth lag i m) : k = m := by
  rcases lt_trichotomy k m with hlt | heq | hlt
  · exact absurd h.1 (h'.2 k hlt)
  · exact heq
  · exact absurd h'.1 (h.2 m hlt)

theorem hasDepth_of_anchored {lag : Fin N → Fin N} {i : Fin N} (h : Spec.Anchored lag i) : ∃ k, HasDepth lag i k :=
  ⟨Nat.find h, Nat.find_spec h, fun _ hm => Nat.find_min h hm⟩

theorem hasDepth_zero {lag : Fin N → Fin N} {i : Fin N} : HasDepth lag i 0 ↔ lag i = i :=
  ⟨fun h => h.1, fun h => ⟨h, fun m hm => absurd hm (Nat.not_lt_zero m)⟩⟩

theorem hasDepth_succ {lag : Fin N → Fin N} {i : Fin N} {k : ℕ} : HasDepth lag i (k + 1) ↔ lag i ≠ i ∧ HasDepth lag (lag i) k := by
  constructor
  · intro h
    refine ⟨h.2 0 (Nat.succ_pos k), ?_, ?_⟩
    · have := h.1
      rwa [Function.iterate_succ_apply] at this
    · intro m hm
      have := h.2 (m + 1) (Nat.succ_lt_succ hm)
      rwa [Function.iterate_succ_apply] at this
  · rintro ⟨h1, h2, h3⟩
    refine ⟨by rw [Function.iterate_succ_apply]; exact h2, ?_⟩
    intro m hm
    cases m with
    | zero => exact h1
    | succ m =>
      rw [Function.iterate_succ_apply]
      exact h3 m (Nat.lt_of_succ_lt_succ hm)

theorem lagLookup_iff {lag : Fin N → Fin N} (hu : Spec.UniqueLags lag) (i j : Fin N) :
    lagLookup lag j = some i ↔ lag i ≠ i ∧ lag i = j := by
  unfold lagLookup
  constructor
  · intro h
    have := List.mem_of_head? h
    rw [List.mem_filter] at this
    simpa using this.2
  · intro h
    have hmem : i ∈ (List.finRange N).filter fun i => decide (lag i ≠ i ∧ lag i = j) := by
      rw [List.mem_filter]
      exact ⟨List.mem_finRange i, by simpa using h⟩
    cases hl : (List.finRange N).filter fun i => decide (lag i ≠ i ∧ lag i = j) with
    | nil =>
      rw [hl] at hmem
      cases hmem
    | cons a l =>
      have ha : a ∈ (List.finRange N).filter fun i => decide (lag i ≠ i ∧ lag i = j) := by
        rw [hl]
        exact List.mem_cons_self
      rw [List.mem_filter] at ha
      have ha2 : lag a ≠ a ∧ lag a = j := by simpa using ha.2
      rw [hu a i ha2.1 h.1 (ha2.2.trans h.2.symm)]
      rfl

/-- Rows updated in iteration `k`. -/
def wave (lag : Fin N → Fin N) : ℕ → List (Fin N)
  | 0 => fillStart lag
  | k + 1 => (wave lag k).filterMap (lagLookup lag)

theorem mem_wave {lag : Fin N → Fin N} (hu : Spec.UniqueLags lag) (k : ℕ) (i : Fin N) : i ∈ wave lag k ↔ HasDepth lag i (k + 1) := by
  induction k generalizing i with
  | zero =>
    unfold wave fillStart
    rw [hasDepth_succ, hasDepth_zero, List.mem_filterMap]
    constructor
    · rintro ⟨j, hj, hl⟩
      rw [List.mem_filter] at hj
      obtain ⟨h1, h2⟩ := (lagLookup_iff hu i j).1 hl
      have hj2 : lag j = j := by simpa [hasLag] using hj.2
      exact ⟨h1, by rw [h2]; exact hj2⟩
    · rintro ⟨h1, h2⟩
      refine ⟨lag i, ?_, (lagLookup_iff hu i _).2 ⟨h1, rfl⟩⟩
      rw [List.mem_filter]
      exact ⟨List.mem_finRange _, by simpa [hasLag] using h2⟩
  | succ k ih =>
    unfold wave
    rw [hasDepth_succ, List.mem_filterMap]
    constructor
    · rintro ⟨j, hj, hl⟩
      obtain ⟨h1, h2⟩ := (lagLookup_iff hu i j).1 hl
      exact ⟨h1, by rw [h2]; exact (ih j).1 hj⟩
    · rintro ⟨h1, h2⟩
      exact ⟨lag i, (ih _).2 h2, (lagLookup_iff hu i _).2 ⟨h1, rfl⟩⟩

/-- The array after `k` iterations. -/
def filled (lag : Fin N → Fin N) (phi : Matrix (Fin 2) (Fin 2) ℝ) (x : Fin N → Fin 2 → ℝ) : ℕ → Fin N → Fin 2 → ℝ
  | 0 => x
  | k + 1 => fillWave lag phi (wave lag k) (filled lag phi x k)

theorem filled_not {lag : Fin N → Fin N} (phi : Matrix (Fin 2) (Fin 2) ℝ) (x : Fin N → Fin 2 → ℝ) {a b : ℕ} (hab : a ≤ b) (i : Fin N)
    (h : ∀ k, a ≤ k → k < b → i ∉ wave lag k) : filled lag phi x b i = filled lag phi x a i := by
  induction b with
  | zero => rw [Nat.le_zero.1 hab]
  | succ b ih =>
    rcases Nat.lt_or_ge a (b + 1) with hlt | hge
    · show fillWave lag phi (wave lag b) (filled lag phi x b) i = _
      unfold fillWave
      rw [if_neg (h b (by omega) (by omega))]
      exact ih (by omega) fun k h1 h2 => h k h1 (by omega)
    · rw [Nat.le_antisymm hab hge]

theorem fillLoop_filled (lag : Fin N → Fin N) (phi : Matrix (Fin 2) (Fin 2) ℝ) (x : Fin N → Fin 2 → ℝ) (K : ℕ)
    (hK : ∀ k, K ≤ k → wave lag k = []) (k : ℕ) (hk : k ≤ K) :
    FillLoop lag phi (wave lag k) (filled lag phi x k) (filled lag phi x K) := by
  obtain ⟨d, rfl⟩ := Nat.exists_eq_add_of_le hk
  induction d generalizing k with
  | zero =>
    rw [Nat.add_zero] at hK ⊢
    rw [hK k le_rfl]
    exact .done _
  | succ d ih =>
    by_cases h : wave lag k = []
    · have hall : ∀ m, k ≤ m → wave lag m = [] := by
        intro m hm
        induction m, hm using Nat.le_induction with
        | base => exact h
        | succ m _ ihm =>
          show (wave lag m).filterMap _ = []
          rw [ihm]
          rfl
      have : filled lag phi x (k + (d + 1)) = filled lag phi x k := by
        funext i
        refine filled_not phi x (by omega) i ?_
        intro m hm _
        rw [hall m hm]
        exact List.not_mem_nil
      rw [this, h]
      exact .done _
    · refine .step _ _ _ h ?_
      have := ih (k + 1) (by
        intro m hm
        exact hK m (by omega)) (by omega)
      have e : k + 1 + d = k + (d + 1) := by omega
      rw [e] at this
      exact this

theorem FillLoop.deterministic {lag : Fin N → Fin N} {phi : Matrix (Fin 2) (Fin 2) ℝ} {next : List (Fin N)}
    {x r r' : Fin N → Fin 2 → ℝ} (h : FillLoop lag phi next x r) (h' : FillLoop lag phi next x r') : r = r' := by
  induction h with
  | done x =>
    cases h' with
    | done => rfl
    | step _ _ _ hne _ => exact absurd rfl hne
  | step next x r hne _ ih =>
    cases h' with
    | done => exact absurd rfl hne
    | step _ _ _ _ h2 => exact ih h2

theorem exists_wave_bound {lag : Fin N → Fin N} (hu : Spec.UniqueLags lag) : ∃ K, ∀ k, K ≤ k → wave lag k = [] := by
  let depth : Fin N → ℕ := fun i => if h : ∃ k, HasDepth lag i k then h.choose else 0
  refine ⟨Finset.univ.sup depth, fun k hk => ?_⟩
  rw [List.eq_nil_iff_forall_not_mem]
  intro i hi
  have hd := (mem_wave hu k i).1 hi
  have hex : ∃ k, HasDepth lag i k := ⟨_, hd⟩
  have : depth i = k + 1 := by
    show (if h : ∃ k, HasDepth lag i k then h.choose else 0) = k + 1
    rw [dif_pos hex]
    exact hex.choose_spec.unique hd
  have hle : depth i ≤ Finset.univ.sup depth := Finset.le_sup (Finset.mem_univ i)
  omega

/-- **C53.** The loop ends, with one result, for all lags that are unique. -/
theorem C53_terminates (lag : Fin N → Fin N) (hu : Spec.UniqueLags lag) (phi : Matrix (Fin 2) (Fin 2) ℝ) (x : Fin N → Fin 2 → ℝ) :
    ∃! r, FillLoop lag phi (fillStart lag) x r := by
  obtain ⟨K, hK⟩ := exists_wave_bound hu
  exact ⟨_, fillLoop_filled lag phi x K hK 0 (Nat.zero_le K), fun r hr => hr.deterministic (fillLoop_filled lag phi x K hK 0 (Nat.zero_le K))⟩

/-- **C53, partial.** In the result every row that is not initial and from which lags lead to an initial period is its innovation plus
`phi` times the error at its lag, and initial rows are scaled draws. Missing: rows on cycles of lags, for which it is false
(`C53_cycle_refuted`). -/
theorem C53_autoregression_partial (lag : Fin N → Fin N) (hu : Spec.UniqueLags lag) (phi transform : Matrix (Fin 2) (Fin 2) ℝ)
    (draws r : Fin N → Fin 2 → ℝ) (hr : FillLoop lag phi (fillStart lag) (scaleInitial lag transform draws) r) (i : Fin N) :
    (lag i = i → r i = transform.mulVec (draws i)) ∧
      (lag i ≠ i → Spec.Anchored lag i → r i = draws i + phi.mulVec (r (lag i))) := by
  obtain ⟨K, hK⟩ := exists_wave_bound hu
  have hr' := hr.deterministic (fillLoop_filled lag phi (scaleInitial lag transform draws) K hK 0 (Nat.zero_le K))
  subst hr'
  constructor
  · intro hi
    rw [filled_not phi _ (Nat.zero_le K) i]
    · show scaleInitial lag transform draws i = _
      simp [scaleInitial, hasLag, hi]
    · intro k _ _ hmem
      exact absurd (((mem_wave hu k i).1 hmem).unique (hasDepth_zero.2 hi)) (by omega)
  · intro hi ha
    obtain ⟨d, hd⟩ := hasDepth_of_anchored ha
    cases d with
    | zero => exact absurd (hasDepth_zero.1 hd) hi
    | succ k =>
      have hkK : k < K := by
        by_contra hge
        have := (mem_wave hu k i).2 hd
        rw [hK k (by omega)] at this
        cases this
      have hdl := (hasDepth_succ.1 hd).2
      have e1 : filled lag phi (scaleInitial lag transform draws) K i = filled lag phi (scaleInitial lag transform draws) (k + 1) i := by
        refine filled_not phi _ (by omega) i ?_
        intro m hm _ hmem
        exact absurd (((mem_wave hu m i).1 hmem).unique hd) (by omega)
      have e2 : filled lag phi (scaleInitial lag transform draws) k i = draws i := by
        rw [filled_not phi _ (Nat.zero_le k) i]
        · show scaleInitial lag transform draws i = _
          simp [scaleInitial, hasLag, hi]
        · intro m _ hm hmem
          exact absurd (((mem_wave hu m i).1 hmem).unique hd) (by omega)
      have e3 : filled lag phi (scaleInitial lag transform draws) K (lag i) =
          filled lag phi (scaleInitial lag transform draws) k (lag i) := by
        refine filled_not phi _ (by omega) (lag i) ?_
        intro m hm _ hmem
        exact absurd (((mem_wave hu m (lag i)).1 hmem).unique hdl) (by omega)
      rw [e1, e3]
      show fillWave lag phi (wave lag k) (filled lag phi _ k) i = _
      unfold fillWave
      rw [if_pos ((mem_wave hu k i).2 hd), e2]

/-- **C53.** Scaled initial draws have the stationary covariance: if `stationary` solves the Lyapunov equation, then the covariance of
transformed draws is reproduced by the autoregression. -/
theorem C53_stationary (phi covariances stationary factor stationaryFactor : Matrix (Fin 2) (Fin 2) ℝ)
    (hl : stationary = phi * stationary * phi.transpose + covariances) (hf : factor * factor.transpose = covariances)
    (hs : stationaryFactor * stationaryFactor.transpose = stationary) (hdet : IsUnit factor.det) :
    let covarianceOfInitial := initialTransform stationaryFactor factor * covariances * (initialTransform stationaryFactor factor).transpose
    covarianceOfInitial = phi * covarianceOfInitial * phi.transpose + covariances := by
  intro c
  have hc : c = stationary := by
    show stationaryFactor * factor⁻¹ * covariances * (stationaryFactor * factor⁻¹).transpose = _
    rw [← hf, Matrix.transpose_mul, ← hs]
    calc stationaryFactor * factor⁻¹ * (factor * factor.transpose) * (factor⁻¹.transpose * stationaryFactor.transpose)
        = stationaryFactor * (factor⁻¹ * factor) * (factor.transpose * factor⁻¹.transpose) * stationaryFactor.transpose := by
          simp only [Matrix.mul_assoc]
      _ = stationaryFactor * stationaryFactor.transpose := by
          rw [Matrix.nonsing_inv_mul _ hdet, ← Matrix.transpose_mul, Matrix.nonsing_inv_mul _ hdet, Matrix.transpose_one, Matrix.mul_one,
            Matrix.mul_one]
  rw [hc]
  exact hl

/-- The lags of a panel with two firms, one of which has two periods and is out of order. -/
example : Spec.UniqueLags (![1, 2, 2, 3] : Fin 4 → Fin 4) ∧ ∀ i, Spec.Anchored (![1, 2, 2, 3] : Fin 4 → Fin 4) i := by
  constructor
  · unfold Spec.UniqueLags
    decide
  · intro i
    refine ⟨2, ?_⟩
    revert i
    decide

/-! ## C64 -/

theorem buildLags_ok (lag : Fin N → ℚ) (r : Fin N → Fin N) (h : buildLags lag = .ok r) :
    validateLags lag = .ok () ∧ ∀ i, wrapIndex N (truncInt (lag i)) = some (r i) := by
  unfold buildLags at h
  split at h
  · cases h
  · rename_i u hv
    by_cases hw : ∀ i, ∃ j, wrapIndex N (truncInt (lag i)) = some j
    · rw [dif_pos hw] at h
      obtain rfl := Except.ok.inj h
      exact ⟨hv, fun i => (hw i).choose_spec⟩
    · rw [dif_neg hw] at h
      cases h

theorem validateLags_ok (lag : Fin N → ℚ) : validateLags lag = .ok () ↔
    ((∀ i, lag i ≤ (N : ℚ) - 1) → ∀ i, 0 ≤ lag i) ∧ (∃ i : Fin N, lag i = (i : ℕ)) ∧
      ∀ i j : Fin N, lag i ≠ (i : ℕ) → lag j ≠ (j : ℕ) → lag i = lag j → i = j := by
  have hinj : ((Finset.univ.filter fun i : Fin N => lag i ≠ (i : ℕ)).image lag).card =
      (Finset.univ.filter fun i : Fin N => lag i ≠ (i : ℕ)).card ↔
      ∀ i j : Fin N, lag i ≠ (i : ℕ) → lag j ≠ (j : ℕ) → lag i = lag j → i = j := by
    rw [Finset.card_image_iff]
    constructor
    · intro h i j hi hj hij
      exact h (by simpa using hi) (by simpa using hj) hij
    · intro h i hi j hj hij
      exact h i j (by simpa using hi) (by simpa using hj) hij
  unfold validateLags
  by_cases h1 : ¬ (∀ i, 0 ≤ lag i) ∧ (∀ i, lag i ≤ (N : ℚ) - 1)
  · rw [if_pos h1]
    constructor
    · intro h
      cases h
    · rintro ⟨h, _⟩
      exact absurd (h h1.2) h1.1
  · rw [if_neg h1]
    have h1' : (∀ i, lag i ≤ (N : ℚ) - 1) → ∀ i, 0 ≤ lag i := fun h => by
      by_contra h0
      exact h1 ⟨h0, h⟩
    by_cases h2 : ¬ ∃ i : Fin N, lag i = (i : ℕ)
    · rw [if_pos h2]
      constructor
      · intro h
        cases h
      · rintro ⟨_, h, _⟩
        exact absurd h h2
    · rw [if_neg h2]
      by_cases h3 : ((Finset.univ.filter fun i : Fin N => lag i ≠ (i : ℕ)).image lag).card ≠
          (Finset.univ.filter fun i : Fin N => lag i ≠ (i : ℕ)).card
      · rw [if_pos h3]
        constructor
        · intro h
          cases h
        · rintro ⟨_, _, h⟩
          exact absurd (hinj.2 h) h3
      · rw [if_neg h3]
        exact ⟨fun _ => ⟨h1', not_not.1 h2, hinj.1 (not_not.1 h3)⟩, fun _ => rfl⟩

theorem truncInt_int (z : ℤ) : truncInt (z : ℚ) = z := by
  unfold truncInt
  split
  · exact Int.floor_intCast z
  · exact Int.ceil_intCast z

/-- **C64, partial.** A column of integers is accepted exactly when all are between 0 and N - 1, some row is an initial period and rows that
are not have different lags; then these are the lags that are used. Missing: numbers that are not integers, for which it is false
(`C64_fraction_refuted`). -/
theorem C64_integers_partial (z : Fin N → ℤ) :
    ((∃ r, buildLags (fun i => (z i : ℚ)) = .ok r) ↔
      (∀ i, 0 ≤ z i ∧ z i ≤ (N : ℤ) - 1) ∧ (∃ i : Fin N, z i = (i : ℕ)) ∧
        ∀ i j : Fin N, z i ≠ (i : ℕ) → z j ≠ (j : ℕ) → z i = z j → i = j) ∧
    ∀ r, buildLags (fun i => (z i : ℚ)) = .ok r → ∀ i, ((r i : ℕ) : ℤ) = z i := by
  have hcast : ∀ i, ((z i : ℚ) = ((i : ℕ) : ℚ)) ↔ z i = (i : ℕ) := by
    intro i
    rw [← Int.cast_natCast (R := ℚ), Int.cast_inj]
  have hle : ∀ i, ((z i : ℚ) ≤ (N : ℚ) - 1) ↔ z i ≤ (N : ℤ) - 1 := by
    intro i
    have : ((N : ℚ) - 1) = (((N : ℤ) - 1 : ℤ) : ℚ) := by push_cast; rfl
    rw [this, Int.cast_le]
  have hge : ∀ i, (0 ≤ (z i : ℚ)) ↔ 0 ≤ z i := fun i => Int.cast_nonneg_iff
  have key : ∀ r, buildLags (fun i => (z i : ℚ)) = .ok r → (∀ i, 0 ≤ z i ∧ z i ≤ (N : ℤ) - 1) ∧ ∀ i, ((r i : ℕ) : ℤ) = z i := by
    intro r hr
    obtain ⟨hv, hw⟩ := buildLags_ok _ r hr
    obtain ⟨h1, _, _⟩ := (validateLags_ok _).1 hv
    have hup : ∀ i, z i ≤ (N : ℤ) - 1 := by
      intro i
      have := hw i
      rw [truncInt_int] at this
      unfold wrapIndex at this
      split at this
      · omega
      · split at this
        · omega
        · cases this
    have hlo : ∀ i, 0 ≤ z i := fun i => (hge i).1 (h1 (fun j => (hle j).2 (hup j)) i)
    refine ⟨fun i => ⟨hlo i, hup i⟩, fun i => ?_⟩
    have := hw i
    rw [truncInt_int] at this
    unfold wrapIndex at this
    rw [dif_pos ⟨hlo i, by have := hup i; omega⟩] at this
    rw [← Option.some.inj this]
    have := hlo i
    simp only [Int.toNat_of_nonneg this]
  refine ⟨⟨?_, ?_⟩, fun r hr => (key r hr).2⟩
  · rintro ⟨r, hr⟩
    obtain ⟨hv, _⟩ := buildLags_ok _ r hr
    obtain ⟨_, ⟨i, hi⟩, h3⟩ := (validateLags_ok _).1 hv
    refine ⟨(key r hr).1, ⟨i, (hcast i).1 hi⟩, ?_⟩
    intro i j hi hj hij
    exact h3 i j (fun h => hi ((hcast i).1 h)) (fun h => hj ((hcast j).1 h)) (by rw [hij])
  · rintro ⟨h1, ⟨i, hi⟩, h3⟩
    have hv : validateLags (fun i => (z i : ℚ)) = .ok () := by
      rw [validateLags_ok]
      refine ⟨fun _ i => (hge i).2 (h1 i).1, ⟨i, (hcast i).2 hi⟩, ?_⟩
      intro a b ha hb hab
      exact h3 a b (fun h => ha ((hcast a).2 h)) (fun h => hb ((hcast b).2 h)) (Int.cast_injective hab)
    have hw : ∀ i, ∃ j, wrapIndex N (truncInt (z i : ℚ)) = some j := by
      intro i
      rw [truncInt_int]
      unfold wrapIndex
      rw [dif_pos ⟨(h1 i).1, by have := (h1 i).2; omega⟩]
      exact ⟨_, rfl⟩
    unfold buildLags
    rw [hv]
    dsimp only
    rw [dif_pos hw]
    exact ⟨_, rfl⟩

/-- **C64, finding.** A column with a value that is not between 0 and N - 1 can be accepted: 3/2 with two rows, which is truncated to 1. -/
theorem C64_fraction_refuted : ∃ r, buildLags (![0, 3 / 2] : Fin 2 → ℚ) = .ok r := by
  have hv : validateLags (![0, 3 / 2] : Fin 2 → ℚ) = .ok () := by
    rw [validateLags_ok]
    refine ⟨?_, ⟨0, by simp⟩, ?_⟩
    · intro h
      have := h 1
      norm_num at this
    · intro i j hi hj _
      fin_cases i <;> fin_cases j <;> simp at hi hj ⊢
  have hw : ∀ i, ∃ j, wrapIndex 2 (truncInt ((![0, 3 / 2] : Fin 2 → ℚ) i)) = some j := by
    intro i
    fin_cases i
    · refine ⟨0, ?_⟩
      have : truncInt ((![0, 3 / 2] : Fin 2 → ℚ) 0) = 0 := by simp [truncInt]
      exact (congrArg (wrapIndex 2) this).trans rfl
    · refine ⟨1, ?_⟩
      have : truncInt ((![0, 3 / 2] : Fin 2 → ℚ) 1) = 1 := by
        unfold truncInt
        norm_num
      exact (congrArg (wrapIndex 2) this).trans rfl
  unfold buildLags
  rw [hv]
  dsimp only
  rw [dif_pos hw]
  exact ⟨_, rfl⟩

/-- **C64, finding.** The check of the range itself passes for indices that are too large; it is the later indexing that fails, with
`IndexError`. -/
theorem C64_large_index : validateLags (![0, 7] : Fin 2 → ℚ) = .ok () ∧ buildLags (![0, 7] : Fin 2 → ℚ) = .error .indexError := by
  have hv : validateLags (![0, 7] : Fin 2 → ℚ) = .ok () := by
    rw [validateLags_ok]
    refine ⟨?_, ⟨0, by simp⟩, ?_⟩
    · intro h
      have := h 1
      norm_num at this
    · intro i j hi hj _
      fin_cases i <;> fin_cases j <;> simp at hi hj ⊢
  refine ⟨hv, ?_⟩
  unfold buildLags
  rw [hv]
  dsimp only
  rw [dif_neg]
  intro h
  obtain ⟨j, hj⟩ := h 1
  have : truncInt ((![0, 7] : Fin 2 → ℚ) 1) = 7 := truncInt_int 7
  rw [this] at hj
  exact absurd hj (by unfold wrapIndex; simp)

/-- **C53, finding.** Lags with a cycle are accepted, and rows on the cycle do not get the contribution of their lags: with lags
0, 2, 1 and `phi` the identity the error of row 1 is its innovation whatever the error of row 2 is. -/
theorem C53_cycle_refuted :
    (∃ r, buildLags (![0, 2, 1] : Fin 3 → ℚ) = .ok r ∧ r = ![0, 2, 1]) ∧
      ∃ r, FillLoop (![0, 2, 1] : Fin 3 → Fin 3) 1 (fillStart ![0, 2, 1]) (fun _ _ => 1) r ∧
        r 1 ≠ (fun _ => 1) + (1 : Matrix (Fin 2) (Fin 2) ℝ).mulVec (r 2) := by
  constructor
  · have hz : (fun i => (((![0, 2, 1] : Fin 3 → ℤ) i : ℤ) : ℚ)) = ![0, 2, 1] := by
      funext i
      fin_cases i <;> simp
    obtain ⟨h1, h2⟩ := C64_integers_partial (![0, 2, 1] : Fin 3 → ℤ)
    rw [hz] at h1 h2
    obtain ⟨r, hr⟩ := h1.2 (by
      refine ⟨by decide, ⟨0, rfl⟩, by decide⟩)
    refine ⟨r, hr, ?_⟩
    funext i
    have := h2 r hr i
    apply Fin.ext
    fin_cases i <;> simp at this ⊢ <;> omega
  · have hs : fillStart (![0, 2, 1] : Fin 3 → Fin 3) = [] := by decide
    rw [hs]
    refine ⟨_, .done _, ?_⟩
    intro h
    have := congrFun h 0
    simp at this

/-! ## C63 -/

theorem zip_map_self {α β : Type} (l : List α) (f : α → β) : List.zip l (l.map f) = l.map fun a => (a, f a) := by
  induction l with
  | nil => rfl
  | cons a l ih => rw [List.map_cons, List.zip_cons_cons, ih, List.map_cons]

/-- **C63.** Accepted shares are interior and every market's outside share is positive. -/
theorem C63_accepted {τ : Type} [LinearOrder τ] (ids : Fin N → τ) (sort : List (Fin N)) (hs : IsArgsort ids sort)
    (shares : Fin N → Option EReal) (x : Fin N → ℝ) (h : validateShares ids sort shares = .ok x) :
    (∀ i, shares i = some (x i : EReal)) ∧ (∀ i, 0 < x i ∧ x i < 1) ∧ ∀ i, 0 < 1 - ∑ j with ids j = ids i, x j := by
  unfold validateShares at h
  by_cases hf : ∀ i, ∃ x : ℝ, shares i = some (x : EReal)
  · rw [dif_pos hf] at h
    dsimp only at h
    by_cases hi : (∃ i, (hf i).choose ≤ 0) ∨ ∃ i, 1 ≤ (hf i).choose
    · rw [if_pos hi] at h
      cases h
    · rw [if_neg hi] at h
      push Not at hi
      by_cases hb : ((List.zip (Groups.mk' ids sort).unique ((Groups.mk' ids sort).sum fun i => (hf i).choose)).filter fun p =>
          decide (1 ≤ p.2)) ≠ []
      · rw [if_pos hb] at h
        cases h
      · rw [if_neg hb] at h
        obtain rfl := Except.ok.inj h
        refine ⟨fun i => (hf i).choose_spec, fun i => ⟨hi.1 i, hi.2 i⟩, fun i => ?_⟩
        rw [not_not, C06_unique ids sort hs, C06_sum ids sort hs, List.filter_eq_nil_iff] at hb
        have := hb (ids i, ∑ j with ids j = ids i, (hf j).choose) (by
          have hmem : ids i ∈ (Finset.univ.image ids).sort (· ≤ ·) := by simp
          have e : List.zip ((Finset.univ.image ids).sort (· ≤ ·)) (((Finset.univ.image ids).sort (· ≤ ·)).map
              fun u => ∑ j with ids j = u, (hf j).choose) = ((Finset.univ.image ids).sort (· ≤ ·)).map
              fun u => (u, ∑ j with ids j = u, (hf j).choose) := by
            exact zip_map_self _ _
          rw [e]
          exact List.mem_map_of_mem (f := fun u => (u, ∑ j with ids j = u, (hf j).choose)) hmem)
        simp only [decide_eq_true_eq, not_le] at this
        linarith
  · rw [dif_neg hf] at h
    cases h

/-- **C63.** The errors: each kind is raised exactly when it should be, and the message about sums names exactly the offending markets, in
order. -/
theorem C63_rejected {τ : Type} [LinearOrder τ] (ids : Fin N → τ) (sort : List (Fin N)) (hs : IsArgsort ids sort)
    (shares : Fin N → Option EReal) :
    (validateShares ids sort shares = .error .notFinite ↔ ¬ ∀ i, ∃ x : ℝ, shares i = some (x : EReal)) ∧
    ∀ x : Fin N → ℝ, (∀ i, shares i = some (x i : EReal)) →
      (validateShares ids sort shares = .error .notInterior ↔ ∃ i, x i ≤ 0 ∨ 1 ≤ x i) ∧
      (∀ bad, validateShares ids sort shares = .error (.markets bad) ↔
        (∀ i, 0 < x i ∧ x i < 1) ∧ (∃ i, 1 ≤ ∑ j with ids j = ids i, x j) ∧
          bad = ((Finset.univ.image ids).filter fun u => 1 ≤ ∑ j with ids j = u, x j).sort (· ≤ ·)) ∧
      ((∃ y, validateShares ids sort shares = .ok y) ↔
        (∀ i, 0 < x i ∧ x i < 1) ∧ ∀ i, ∑ j with ids j = ids i, x j < 1) := by
  constructor
  · unfold validateShares
    by_cases hf : ∀ i, ∃ x : ℝ, shares i = some (x : EReal)
    · rw [dif_pos hf]
      dsimp only
      constructor
      · intro h
        split at h
        · cases h
        · split at h
          · cases h
          · cases h
      · intro h
        exact absurd hf h
    · rw [dif_neg hf]
      exact ⟨fun _ => hf, fun _ => rfl⟩
  · intro x hx
    have hf : ∀ i, ∃ x : ℝ, shares i = some (x : EReal) := fun i => ⟨x i, hx i⟩
    have hch : (fun i => (hf i).choose) = x := by
      funext i
      have := (hf i).choose_spec
      exact (EReal.coe_injective (Option.some.inj ((hx i).symm.trans this))).symm
    have hval : validateShares ids sort shares =
        if (∃ i, x i ≤ 0) ∨ (∃ i, 1 ≤ x i) then .error .notInterior
        else if ((List.zip (Groups.mk' ids sort).unique ((Groups.mk' ids sort).sum x)).filter fun p => decide (1 ≤ p.2)) ≠ [] then
          .error (.markets (((List.zip (Groups.mk' ids sort).unique ((Groups.mk' ids sort).sum x)).filter
            fun p => decide (1 ≤ p.2)).map Prod.fst)) else .ok x := by
      unfold validateShares
      rw [dif_pos hf, ← hch]
    have hzip : (List.zip (Groups.mk' ids sort).unique ((Groups.mk' ids sort).sum x)).filter (fun p => decide (1 ≤ p.2)) =
        (((Finset.univ.image ids).sort (· ≤ ·)).filter fun u => decide (1 ≤ ∑ j with ids j = u, x j)).map
          fun u => (u, ∑ j with ids j = u, x j) := by
      rw [C06_unique ids sort hs, C06_sum ids sort hs, zip_map_self, List.filter_map]
      rfl
    have hsort : (((Finset.univ.image ids).sort (· ≤ ·)).filter fun u => decide (1 ≤ ∑ j with ids j = u, x j)) =
        ((Finset.univ.image ids).filter fun u => 1 ≤ ∑ j with ids j = u, x j).sort (· ≤ ·) := by
      refine List.Perm.eq_of_pairwise (le := (· ≤ ·)) ?_ ?_ ?_ ?_
      · intro a b _ _ hab hba
        exact le_antisymm hab hba
      · exact (Finset.pairwise_sort _ _).filter _
      · exact Finset.pairwise_sort _ _
      · rw [List.perm_ext_iff_of_nodup ((Finset.sort_nodup _ _).filter _) (Finset.sort_nodup _ _)]
        intro a
        simp
    rw [hzip, hsort] at hval
    have hnil : (((Finset.univ.image ids).filter fun u => 1 ≤ ∑ j with ids j = u, x j).sort (· ≤ ·)).map
        (fun u => (u, ∑ j with ids j = u, x j)) ≠ [] ↔ ∃ i, 1 ≤ ∑ j with ids j = ids i, x j := by
      rw [Ne, List.map_eq_nil_iff]
      constructor
      · intro h
        obtain ⟨u, hu⟩ := List.exists_mem_of_ne_nil _ h
        simp only [Finset.mem_sort, Finset.mem_filter, Finset.mem_image, Finset.mem_univ, true_and] at hu
        obtain ⟨⟨i, rfl⟩, hu⟩ := hu
        exact ⟨i, hu⟩
      · rintro ⟨i, hi⟩ h
        have : ids i ∈ ((Finset.univ.image ids).filter fun u => 1 ≤ ∑ j with ids j = u, x j).sort (· ≤ ·) := by
          simp [hi]
        rw [h] at this
        cases this
    have hint : ¬ ((∃ i, x i ≤ 0) ∨ ∃ i, 1 ≤ x i) ↔ ∀ i, 0 < x i ∧ x i < 1 := by
      push Not
      exact ⟨fun h i => ⟨h.1 i, h.2 i⟩, fun h => ⟨fun i => (h i).1, fun i => (h i).2⟩⟩
    have hmap : ((((Finset.univ.image ids).filter fun u => 1 ≤ ∑ j with ids j = u, x j).sort (· ≤ ·)).map
        (fun u => (u, ∑ j with ids j = u, x j))).map Prod.fst =
        ((Finset.univ.image ids).filter fun u => 1 ≤ ∑ j with ids j = u, x j).sort (· ≤ ·) := by
      rw [List.map_map]
      exact List.map_id _
    rw [hmap] at hval
    rw [hval]
    by_cases h1 : (∃ i, x i ≤ 0) ∨ ∃ i, 1 ≤ x i
    · rw [if_pos h1]
      have hno : ¬ ∀ i, 0 < x i ∧ x i < 1 := fun h => (hint.2 h) h1
      refine ⟨⟨fun _ => ?_, fun _ => rfl⟩, fun bad => ⟨fun h => (by simp at h), fun h => absurd h.1 hno⟩,
        ⟨fun ⟨y, h⟩ => (by cases h), fun h => absurd h.1 hno⟩⟩
      rcases h1 with ⟨i, hi⟩ | ⟨i, hi⟩
      · exact ⟨i, Or.inl hi⟩
      · exact ⟨i, Or.inr hi⟩
    · rw [if_neg h1]
      have hyes := hint.1 h1
      by_cases h2 : ∃ i, 1 ≤ ∑ j with ids j = ids i, x j
      · rw [if_pos (hnil.2 h2)]
        refine ⟨⟨fun h => (by simp at h), fun ⟨i, h⟩ => ?_⟩, fun bad => ?_, ⟨fun ⟨y, h⟩ => (by cases h), fun h => ?_⟩⟩
        · rcases h with h | h
          · exact absurd (Or.inl ⟨i, h⟩) h1
          · exact absurd (Or.inr ⟨i, h⟩) h1
        · simp only [Except.error.injEq, SharesError.markets.injEq]
          exact ⟨fun h => ⟨hyes, h2, h.symm⟩, fun h => h.2.2.symm⟩
        · obtain ⟨i, hi⟩ := h2
          exact absurd (h.2 i) (not_lt.2 hi)
      · rw [if_neg (fun h => h2 (hnil.1 h))]
        push Not at h2
        refine ⟨⟨fun h => (by cases h), fun ⟨i, h⟩ => ?_⟩, fun bad => ⟨fun h => (by cases h), fun h => ?_⟩,
          ⟨fun _ => ⟨hyes, h2⟩, fun _ => ⟨x, rfl⟩⟩⟩
        · rcases h with h | h
          · exact absurd (Or.inl ⟨i, h⟩) h1
          · exact absurd (Or.inr ⟨i, h⟩) h1
        · obtain ⟨_, ⟨i, hi⟩, _⟩ := h
          exact absurd (h2 i) (not_lt.2 hi)

/-- Two markets, one of which is at fault. -/
example : validateShares (![1, 2, 1] : Fin 3 → ℕ) [0, 2, 1] (fun i => some (((![1 / 2, 1 / 4, 1 / 2] : Fin 3 → ℝ) i : ℝ) : EReal)) =
    .error (.markets [1]) := by
  have hs : IsArgsort (![1, 2, 1] : Fin 3 → ℕ) [0, 2, 1] := ⟨by decide, by decide⟩
  have e2 : (![1, 2, 1] : Fin 3 → ℕ) 2 = 1 := rfl
  have f2 : (![1 / 2, 1 / 4, 1 / 2] : Fin 3 → ℝ) 2 = 1 / 2 := rfl
  rw [(((C63_rejected _ _ hs _).2 (![1 / 2, 1 / 4, 1 / 2] : Fin 3 → ℝ) (fun i => rfl)).2.1 [1])]
  have hf : ((Finset.univ.image (![1, 2, 1] : Fin 3 → ℕ)).filter fun u => 1 ≤ ∑ j with (![1, 2, 1] : Fin 3 → ℕ) j = u,
      (![1 / 2, 1 / 4, 1 / 2] : Fin 3 → ℝ) j) = {1} := by
    ext u
    simp only [Finset.mem_filter, Finset.mem_image, Finset.mem_univ, true_and, Finset.mem_singleton]
    constructor
    · rintro ⟨⟨i, rfl⟩, h⟩
      fin_cases i
      · rfl
      · rw [Finset.sum_filter, Fin.sum_univ_three] at h
        norm_num [e2, f2] at h
      · rfl
    · rintro rfl
      refine ⟨⟨0, rfl⟩, ?_⟩
      rw [Finset.sum_filter, Fin.sum_univ_three]
      norm_num [e2, f2]
  refine ⟨?_, ⟨0, ?_⟩, ?_⟩
  · intro i
    fin_cases i <;> norm_num
  · rw [Finset.sum_filter, Fin.sum_univ_three]
    norm_num [e2, f2]
  · rw [hf]
    simp

end Pyblp
