import Verif.Model.Iteration
import Mathlib.Analysis.Normed.Group.Constructions
import Mathlib.Analysis.SpecificLimits.Basic
import Mathlib.Analysis.Normed.Module.Basic

set_option linter.unusedSectionVars false

/-!
# Fixed point iteration (C14, C15, C16)
-/

namespace Pyblp

open Classical

variable {ι : Type}

namespace Spec

/-- The iterates `x, f x, f (f x), ...` (the contraction may change from call to call). -/
def iterate (c : Contraction ι) (initial : FVec ι) : ℕ → FVec ι
  | 0 => initial
  | n + 1 => (c n (iterate c initial n)).1

/-- The weights that come with the `n + 1`-th iterate. -/
def weights (c : Contraction ι) (initial : FVec ι) (n : ℕ) : Option (FVec ι) := (c n (iterate c initial n)).2

/-- The `n + 1`-th call returned finite values and weights. -/
def Good (c : Contraction ι) (initial : FVec ι) (n : ℕ) : Prop :=
  (∀ i, (iterate c initial (n + 1) i).isSome) ∧ ∀ w, weights c initial n = some w → ∀ i, (w i).isSome

/-- The tolerance test: the weighted distance from `y` to `x` has a norm below `atol + rtol * norm` (of the weighted `x`). -/
def Within (norm : FVec ι → Option ℝ) (atol rtol : ℝ) (y x : FVec ι) (w : Option (FVec ι)) : Prop :=
  let scaled := fun z : FVec ι => match w with
    | none => z
    | some w => fun i => match w i, z i with
      | some a, some b => some (a * b)
      | _, _ => none
  let gap : FVec ι := fun i => match x i, y i with
    | some a, some b => some (a - b)
    | _, _ => none
  ∃ d, norm (scaled gap) = some d ∧ (if 0 < rtol then ∃ n, norm (scaled x) = some n ∧ d < atol + rtol * n else d < atol)

end Spec

open Spec

theorem within_iff (norm : FVec ι → Option ℝ) (atol rtol : ℝ) (y x : FVec ι) (w : Option (FVec ι)) :
    terminationCheck norm atol rtol x (x.sub y) w ↔ Within norm atol rtol y x w := by
  have hsub : x.sub y = fun i => match x i, y i with
      | some a, some b => some (a - b)
      | _, _ => none := by
    funext i; unfold FVec.sub; cases x i <;> cases y i <;> rfl
  have hw : ∀ z : FVec ι, weightBy z w = match w with
      | none => z
      | some w => fun i => match w i, z i with
        | some a, some b => some (a * b)
        | _, _ => none := by
    intro z
    cases w with
    | none => rfl
    | some w => funext i; simp only [weightBy, FVec.mul]; cases w i <;> cases z i <;> rfl
  unfold terminationCheck Within
  simp only [hsub, hw]
  generalize norm _ = a
  generalize norm _ = b
  by_cases hr : 0 < rtol
  · simp only [hr, if_true]
    cases a <;> cases b <;> simp [flt]
  · simp only [hr, if_false]
    cases a <;> simp [flt]

/-! ## C14 -/

theorem simpleLoop_spec (o : IterOptions ι) (c : Contraction ι) (initial : FVec ι) (n : ℕ) :
    ∃ m, n ≤ m ∧ (n < o.maxEvaluations → m < o.maxEvaluations) ∧
      (∀ k, n ≤ k → k < m → Good c initial k ∧ k + 1 < o.maxEvaluations ∧
        ¬ Within o.norm o.atol o.rtol (iterate c initial k) (iterate c initial (k + 1)) (weights c initial k)) ∧
      (if Good c initial m then
        (o.maxEvaluations ≤ m + 1 ∨
          Within o.norm o.atol o.rtol (iterate c initial m) (iterate c initial (m + 1)) (weights c initial m)) ∧
        simpleLoop o c n (iterate c initial n) =
          ⟨iterate c initial (m + 1), decide (m + 1 < o.maxEvaluations), m + 1⟩
      else simpleLoop o c n (iterate c initial n) = ⟨iterate c initial m, false, m + 1⟩) := by
  induction hk : o.maxEvaluations - n using Nat.strong_induction_on generalizing n with
  | _ d ih =>
    have hgood : allFinite (c n (iterate c initial n)).1 (c n (iterate c initial n)).2 ↔ Good c initial n := Iff.rfl
    have hwi := within_iff o.norm o.atol o.rtol (iterate c initial n) (iterate c initial (n + 1)) (weights c initial n)
    by_cases hg : Good c initial n
    · by_cases hs : n + 1 ≥ o.maxEvaluations ∨
          Within o.norm o.atol o.rtol (iterate c initial n) (iterate c initial (n + 1)) (weights c initial n)
      · refine ⟨n, le_rfl, id, fun k h1 h2 => absurd h1 (by omega), ?_⟩
        rw [if_pos hg]
        refine ⟨hs, ?_⟩
        have he : evaluate o c n (iterate c initial n) (iterate c initial n) =
            .stop ⟨iterate c initial (n + 1), decide (n + 1 < o.maxEvaluations), n + 1⟩ := by
          unfold evaluate
          simp only
          rw [if_neg (not_not.2 (hgood.2 hg)), if_pos]
          · rfl
          · rcases hs with h | h
            · exact Or.inl h
            · exact Or.inr (hwi.2 h)
        rw [simpleLoop]
        split
        · rename_i r hr; rw [he] at hr; exact (Outcome.stop.inj hr).symm
        · rename_i y hr; rw [he] at hr; simp at hr
      · push Not at hs
        have he : evaluate o c n (iterate c initial n) (iterate c initial n) = .go (iterate c initial (n + 1)) := by
          unfold evaluate
          simp only
          rw [if_neg (not_not.2 (hgood.2 hg)), if_neg]
          · rfl
          · push Not; exact ⟨hs.1, fun h => hs.2 (hwi.1 h)⟩
        obtain ⟨m, h1, h2, h3, h4⟩ := ih (o.maxEvaluations - (n + 1)) (by omega) (n + 1) rfl
        have hstep : simpleLoop o c n (iterate c initial n) = simpleLoop o c (n + 1) (iterate c initial (n + 1)) := by
          conv_lhs => rw [simpleLoop]
          split
          · rename_i r hr; rw [he] at hr; simp at hr
          · rename_i y hr; rw [he] at hr; rw [← Outcome.go.inj hr]
        refine ⟨m, by omega, fun _ => h2 hs.1, fun k hk1 hk2 => ?_, ?_⟩
        · by_cases hkn : k = n
          · subst hkn; exact ⟨hg, hs.1, hs.2⟩
          · exact h3 k (by omega) hk2
        · rw [hstep]; exact h4
    · refine ⟨n, le_rfl, id, fun k h1 h2 => absurd h1 (by omega), ?_⟩
      rw [if_neg hg]
      have he : evaluate o c n (iterate c initial n) (iterate c initial n) = .stop ⟨iterate c initial n, false, n + 1⟩ := by
        unfold evaluate
        simp only
        rw [if_pos (fun h => hg (hgood.1 h))]
      rw [simpleLoop]
      split
      · rename_i r hr; rw [he] at hr; exact (Outcome.stop.inj hr).symm
      · rename_i y hr; rw [he] at hr; simp at hr

/-- **C14.** Simple iteration makes at least one and at most `max_evaluations` calls. If it reports convergence, it returns the
image of the previous iterate, all iterates so far are finite, the distance between the last two passes the tolerance test and
none before does. Otherwise it returns either the last iterate after exactly `max_evaluations` finite calls, or the last finite
iterate before the first call that returned something not finite. -/
theorem C14_simple (o : IterOptions ι) (hmax : 1 ≤ o.maxEvaluations) (c : Contraction ι) (initial : FVec ι) :
    let r := simpleIterator o c initial
    1 ≤ r.calls ∧ r.calls ≤ o.maxEvaluations ∧
    (∀ k, k + 1 < r.calls → Good c initial k ∧
      ¬ Within o.norm o.atol o.rtol (iterate c initial k) (iterate c initial (k + 1)) (weights c initial k)) ∧
    (r.converged = true →
      r.calls < o.maxEvaluations ∧ r.x = iterate c initial r.calls ∧ Good c initial (r.calls - 1) ∧
      Within o.norm o.atol o.rtol (iterate c initial (r.calls - 1)) (iterate c initial r.calls)
        (weights c initial (r.calls - 1))) ∧
    (r.converged = false →
      (r.calls = o.maxEvaluations ∧ Good c initial (r.calls - 1) ∧ r.x = iterate c initial r.calls) ∨
      (¬ Good c initial (r.calls - 1) ∧ r.x = iterate c initial (r.calls - 1))) := by
  intro r
  obtain ⟨m, -, h2, h3, h4⟩ := simpleLoop_spec o c initial 0
  have h2' := h2 hmax
  by_cases hg : Good c initial m
  · rw [if_pos hg] at h4
    have hr : r = ⟨iterate c initial (m + 1), decide (m + 1 < o.maxEvaluations), m + 1⟩ := h4.2
    rw [hr]
    refine ⟨by simp, by simpa using h2', fun k hk => ?_, fun hc => ?_, fun hc => ?_⟩
    · have := h3 k (by omega) (by simpa using hk); exact ⟨this.1, this.2.2⟩
    · have hlt : m + 1 < o.maxEvaluations := by simpa using hc
      refine ⟨hlt, rfl, hg, ?_⟩
      rcases h4.1 with h | h
      · omega
      · exact h
    · left
      have hge : o.maxEvaluations ≤ m + 1 := by simpa using hc
      exact ⟨by simp; omega, hg, rfl⟩
  · rw [if_neg hg] at h4
    have hr : r = ⟨iterate c initial m, false, m + 1⟩ := h4
    rw [hr]
    refine ⟨by simp, by simpa using h2', fun k hk => ?_, fun hc => by simp at hc, fun _ => Or.inr ⟨hg, rfl⟩⟩
    have := h3 k (by omega) (by simpa using hk); exact ⟨this.1, this.2.2⟩

/-- The budget is exclusive: a run whose first step is already exact is reported as not converged if `max_evaluations = 1`. -/
theorem C14_budget_exclusive (o : IterOptions ι) (hmax : o.maxEvaluations = 1) (c : Contraction ι) (initial : FVec ι) :
    (simpleIterator o c initial).converged = false := by
  obtain ⟨h1, h2, -, h4, -⟩ := C14_simple o hmax.ge c initial
  by_contra h
  have := (h4 (by simpa using h)).1
  omega

section Banach

variable [Fintype ι] [Nonempty ι]

/-- A real vector as a float vector. -/
def lift (x : ι → ℝ) : FVec ι := fun i => some (x i)

theorem lift_finite (x : ι → ℝ) : (lift x).Finite := fun _ => rfl

theorem infinityNorm_lift (x : ι → ℝ) : infinityNorm (lift x) = some ‖x‖ := by
  unfold infinityNorm
  rw [if_pos (lift_finite x)]
  congr 1
  apply le_antisymm
  · apply Finset.sup'_le
    intro i _
    exact norm_le_pi_norm x i
  · rw [pi_norm_le_iff_of_nonneg]
    · intro i
      exact Finset.le_sup' (f := fun i => |(lift x i).getD 0|) (Finset.mem_univ i)
    · exact (abs_nonneg _).trans (Finset.le_sup' (f := fun i => |(lift x i).getD 0|) (Finset.mem_univ (Classical.arbitrary ι)))

/-- An unweighted contraction given by a real function. -/
def realContraction (f : (ι → ℝ) → (ι → ℝ)) : Contraction ι := fun _ x => (lift (f fun i => (x i).getD 0), none)

theorem iterate_real (f : (ι → ℝ) → (ι → ℝ)) (x : ι → ℝ) (n : ℕ) :
    iterate (realContraction f) (lift x) n = lift (f^[n] x) := by
  induction n with
  | zero => rfl
  | succ n ih =>
    simp only [iterate, ih, realContraction]
    rw [Function.iterate_succ_apply']
    rfl

theorem within_real (atol rtol : ℝ) (x y : ι → ℝ) :
    Within infinityNorm atol rtol (lift x) (lift y) none ↔
      ‖y - x‖ < if 0 < rtol then atol + rtol * ‖y‖ else atol := by
  unfold Within
  have hgap : (fun i => match lift y i, lift x i with
      | some a, some b => some (a - b)
      | _, _ => none : FVec ι) = lift (y - x) := rfl
  simp only [hgap, infinityNorm_lift, Option.some.injEq, exists_eq_left']
  split <;> rfl

/-- **C14.** On a function that shrinks distances by a factor `L < 1`, simple iteration with the infinity norm converges from
every starting value once the budget is large enough, and what it returns is within `L / (1 - L)` times the tolerance of the
fixed point. -/
theorem C14_contraction (f : (ι → ℝ) → (ι → ℝ)) (L : ℝ) (hL0 : 0 ≤ L) (hL1 : L < 1)
    (hf : ∀ x y, ‖f x - f y‖ ≤ L * ‖x - y‖) (atol rtol : ℝ) (ha : 0 < atol) (initial : ι → ℝ) :
    ∃ budget, ∀ maxEvaluations, budget ≤ maxEvaluations →
      let r := simpleIterator ⟨maxEvaluations, atol, rtol, infinityNorm⟩ (realContraction f) (lift initial)
      r.converged = true ∧ ∃ x, r.x = lift x ∧
        ∀ fixed, f fixed = fixed → ‖x - fixed‖ ≤ L / (1 - L) * (if 0 < rtol then atol + rtol * ‖x‖ else atol) := by
  have hstep : ∀ n, ‖f^[n + 1] initial - f^[n] initial‖ ≤ L ^ n * ‖f initial - initial‖ := by
    intro n
    induction n with
    | zero => simp
    | succ n ih =>
      have hle := hf (f^[n + 1] initial) (f^[n] initial)
      rw [← Function.iterate_succ_apply' f (n + 1), ← Function.iterate_succ_apply' f n] at hle
      calc _ ≤ L * ‖f^[n + 1] initial - f^[n] initial‖ := hle
        _ ≤ L * (L ^ n * ‖f initial - initial‖) := by gcongr
        _ = _ := by ring
  have hlim : Filter.Tendsto (fun n => L ^ n * ‖f initial - initial‖) Filter.atTop (nhds (0 * ‖f initial - initial‖)) :=
    (tendsto_pow_atTop_nhds_zero_of_lt_one hL0 hL1).mul_const _
  rw [zero_mul] at hlim
  obtain ⟨n, hn⟩ := (hlim.eventually (gt_mem_nhds ha)).exists
  refine ⟨n + 2, fun maxEvaluations hmax => ?_⟩
  intro r
  obtain ⟨h1, h2, h3, h4, h5⟩ := C14_simple ⟨maxEvaluations, atol, rtol, infinityNorm⟩ (by simp; omega)
    (realContraction f) (lift initial)
  change 1 ≤ r.calls at h1
  change r.calls ≤ maxEvaluations at h2
  have hgood : ∀ k, Good (realContraction f) (lift initial) k := by
    intro k
    refine ⟨fun i => ?_, fun w hw => ?_⟩
    · rw [iterate_real]; rfl
    · simp [weights, realContraction] at hw
  have hwithin : ∀ k, Within infinityNorm atol rtol (iterate (realContraction f) (lift initial) k)
      (iterate (realContraction f) (lift initial) (k + 1)) (weights (realContraction f) (lift initial) k) ↔
      ‖f^[k + 1] initial - f^[k] initial‖ < if 0 < rtol then atol + rtol * ‖f^[k + 1] initial‖ else atol := by
    intro k
    rw [iterate_real, iterate_real]
    exact within_real atol rtol _ _
  have hcalls : r.calls ≤ n + 1 := by
    by_contra hc
    have := (h3 n (by change n + 1 < r.calls; omega)).2
    rw [hwithin] at this
    apply this
    refine lt_of_le_of_lt (hstep n) (lt_of_lt_of_le hn ?_)
    split
    · rename_i hr; have := mul_nonneg hr.le (norm_nonneg (f^[n + 1] initial)); linarith
    · exact le_rfl
  have hconv : r.converged = true := by
    by_contra hc
    rcases h5 (by change r.converged = false; simpa using hc) with ⟨h, _, _⟩ | ⟨h, _⟩
    · change r.calls = maxEvaluations at h; omega
    · exact h (hgood _)
  obtain ⟨-, hx, -, hw⟩ := h4 hconv
  change r.x = iterate (realContraction f) (lift initial) r.calls at hx
  obtain ⟨k, hk⟩ : ∃ k, r.calls = k + 1 := ⟨r.calls - 1, by omega⟩
  change Within infinityNorm atol rtol (iterate (realContraction f) (lift initial) (r.calls - 1))
      (iterate (realContraction f) (lift initial) r.calls) (weights (realContraction f) (lift initial) (r.calls - 1)) at hw
  rw [hk, Nat.add_sub_cancel, hwithin] at hw
  refine ⟨hconv, f^[k + 1] initial, by rw [hx, iterate_real, hk], fun fixed hfix => ?_⟩
  have hle : ‖f^[k + 1] initial - fixed‖ ≤ L * ‖f^[k] initial - fixed‖ := by
    conv_lhs => rw [Function.iterate_succ_apply', ← hfix]
    exact hf _ _
  have htri : ‖f^[k] initial - fixed‖ ≤ ‖f^[k + 1] initial - f^[k] initial‖ + ‖f^[k + 1] initial - fixed‖ := by
    have := norm_add_le (-(f^[k + 1] initial - f^[k] initial)) (f^[k + 1] initial - fixed)
    rw [norm_neg] at this
    have he : -(f^[k + 1] initial - f^[k] initial) + (f^[k + 1] initial - fixed) = f^[k] initial - fixed := by abel
    rwa [he] at this
  rw [div_mul_eq_mul_div, le_div_iff₀ (by linarith)]
  set t := if 0 < rtol then atol + rtol * ‖f^[k + 1] initial‖ else atol
  nlinarith [mul_le_mul_of_nonneg_left htri hL0, mul_le_mul_of_nonneg_left hw.le hL0]

/-- Halving is such a function. -/
example : ∃ budget, ∀ maxEvaluations, budget ≤ maxEvaluations →
    (simpleIterator ⟨maxEvaluations, 1 / 10, 0, infinityNorm⟩ (realContraction fun x : Fin 2 → ℝ => (1 / 2 : ℝ) • x)
      (lift fun _ => 1)).converged = true := by
  obtain ⟨b, hb⟩ := C14_contraction (fun x : Fin 2 → ℝ => (1 / 2 : ℝ) • x) (1 / 2) (by norm_num) (by norm_num)
    (fun x y => by rw [← smul_sub, norm_smul]; norm_num) (1 / 10) 0 (by norm_num) (fun _ => 1)
  exact ⟨b, fun m hm => (hb m hm).1⟩

end Banach

/-! ## C15 -/

theorem evaluate_stop (o : IterOptions ι) (c : Contraction ι) (n : ℕ) (fb x : FVec ι) (r : IterResult ι)
    (h : evaluate o c n fb x = .stop r) :
    r.calls = n + 1 ∧
    (r.converged = true → n + 1 < o.maxEvaluations ∧ r.x = (c n x).1 ∧ allFinite (c n x).1 (c n x).2 ∧
      Within o.norm o.atol o.rtol x (c n x).1 (c n x).2) ∧
    (r.converged = false →
      (n + 1 ≥ o.maxEvaluations ∧ allFinite (c n x).1 (c n x).2 ∧ r.x = (c n x).1) ∨
      (¬ allFinite (c n x).1 (c n x).2 ∧ r.x = fb)) := by
  unfold evaluate at h
  simp only at h
  by_cases hg : allFinite (c n x).1 (c n x).2
  · rw [if_neg (not_not.2 hg)] at h
    split at h
    · rename_i hs
      rw [← Outcome.stop.inj h]
      refine ⟨rfl, fun hc => ?_, fun hc => Or.inl ⟨by simpa using hc, hg, rfl⟩⟩
      have hlt : n + 1 < o.maxEvaluations := by simpa using hc
      refine ⟨hlt, rfl, hg, ?_⟩
      rcases hs with hs | hs
      · omega
      · exact (within_iff _ _ _ _ _ _).1 hs
    · simp at h
  · rw [if_pos hg] at h
    rw [← Outcome.stop.inj h]
    exact ⟨rfl, fun hc => by simp at hc, fun _ => Or.inr ⟨hg, rfl⟩⟩

theorem evaluate_go_eq (o : IterOptions ι) (c : Contraction ι) (n : ℕ) (fb x y : FVec ι) (h : evaluate o c n fb x = .go y) :
    y = (c n x).1 ∧ allFinite (c n x).1 (c n x).2 ∧ n + 1 < o.maxEvaluations ∧
      ¬ Within o.norm o.atol o.rtol x (c n x).1 (c n x).2 := by
  have hlt := evaluate_go h
  unfold evaluate at h
  simp only at h
  by_cases hg : allFinite (c n x).1 (c n x).2
  · rw [if_neg (not_not.2 hg)] at h
    split at h
    · simp at h
    · rename_i hs
      push Not at hs
      exact ⟨(Outcome.go.inj h).symm, hg, hlt, fun hw => hs.2 ((within_iff _ _ _ _ _ _).2 hw)⟩
  · rw [if_pos hg] at h; simp at h

/-- What every outcome of SQUAREM satisfies: `last` is the point at which the contraction was called last. -/
def SquaremGood (o : IterOptions ι) (c : Contraction ι) (r : IterResult ι) : Prop :=
  1 ≤ r.calls ∧ r.calls ≤ o.maxEvaluations ∧ ∃ last,
    (r.converged = true → r.calls < o.maxEvaluations ∧ r.x = (c (r.calls - 1) last).1 ∧
      allFinite (c (r.calls - 1) last).1 (c (r.calls - 1) last).2 ∧
      Within o.norm o.atol o.rtol last (c (r.calls - 1) last).1 (c (r.calls - 1) last).2) ∧
    (r.converged = false →
      (r.calls = o.maxEvaluations ∧ allFinite (c (r.calls - 1) last).1 (c (r.calls - 1) last).2 ∧
        r.x = (c (r.calls - 1) last).1) ∨
      ¬ allFinite (c (r.calls - 1) last).1 (c (r.calls - 1) last).2)

theorem squaremGood_of_stop (o : IterOptions ι) (c : Contraction ι) (n : ℕ) (hn : n < o.maxEvaluations) (fb x : FVec ι)
    (r : IterResult ι) (h : evaluate o c n fb x = .stop r) : SquaremGood o c r := by
  obtain ⟨h1, h2, h3⟩ := evaluate_stop o c n fb x r h
  refine ⟨by omega, by omega, x, ?_, ?_⟩
  · intro hc
    obtain ⟨ha, hb, hd, he⟩ := h2 hc
    rw [h1, Nat.add_sub_cancel]
    exact ⟨by omega, hb, hd, he⟩
  · intro hc
    rw [h1, Nat.add_sub_cancel]
    rcases h3 hc with ⟨ha, hb, hd⟩ | ⟨ha, hb⟩
    · exact Or.inl ⟨by omega, hb, hd⟩
    · exact Or.inr ha

variable [Fintype ι]

theorem squaremLoop_spec (o : IterOptions ι) (s : SquaremOptions) (c : Contraction ι) (n : ℕ) (hn : n < o.maxEvaluations)
    (stepMin stepMax : ℝ) (x0 : FVec ι) :
    SquaremGood o c (squaremLoop o s c n stepMin stepMax x0) ∧
      (x0.Finite → (squaremLoop o s c n stepMin stepMax x0).x.Finite) := by
  have hfin : ∀ (n : ℕ) (fb x : FVec ι) (r : IterResult ι), fb.Finite → evaluate o c n fb x = .stop r → r.x.Finite := by
    intro n fb x r hfb h
    obtain ⟨h1, h2, h3⟩ := evaluate_stop o c n fb x r h
    by_cases hc : r.converged = true
    · rw [(h2 hc).2.1]; exact (h2 hc).2.2.1.1
    · rcases h3 (by simpa using hc) with ⟨_, hb, hd⟩ | ⟨_, hb⟩
      · rw [hd]; exact hb.1
      · rw [hb]; exact hfb
  induction hk : o.maxEvaluations - n using Nat.strong_induction_on generalizing n stepMin stepMax x0 with
  | _ d ih =>
    rw [squaremLoop]
    split
    · rename_i r h1
      exact ⟨squaremGood_of_stop o c n hn x0 x0 r h1, fun hx => hfin n x0 x0 r hx h1⟩
    · rename_i x1 h1
      obtain ⟨e1, g1, l1, -⟩ := evaluate_go_eq o c n x0 x0 x1 h1
      have f1 : x1.Finite := e1 ▸ g1.1
      split
      · rename_i r h2
        exact ⟨squaremGood_of_stop o c (n + 1) l1 x1 x1 r h2, fun _ => hfin _ x1 x1 r f1 h2⟩
      · rename_i x2 h2
        obtain ⟨e2, g2, l2, -⟩ := evaluate_go_eq o c (n + 1) x1 x1 x2 h2
        have f2 : x2.Finite := e2 ▸ g2.1
        simp only
        split
        · rename_i r h3
          exact ⟨squaremGood_of_stop o c (n + 2) l2 x2 _ r h3, fun _ => hfin _ x2 _ r f2 h3⟩
        · rename_i x h3
          obtain ⟨e3, g3, l3, -⟩ := evaluate_go_eq o c (n + 2) x2 _ x h3
          have f3 : x.Finite := e3 ▸ g3.1
          have := ih (o.maxEvaluations - (n + 3)) (by omega) (n + 3) l3
            (nextStepMin stepMin s.stepFactor (boundedStep (s.negZero n) s.scheme stepMin stepMax (x1.sub x0)
              ((x2.sub x1).sub (x1.sub x0))))
            (nextStepMax stepMax s.stepFactor (boundedStep (s.negZero n) s.scheme stepMin stepMax (x1.sub x0)
              ((x2.sub x1).sub (x1.sub x0)))) x rfl
          exact ⟨this.1, fun _ => this.2 f3⟩

/-- **C15.** SQUAREM calls the contraction at least once and at most `max_evaluations` times. If it reports convergence, it did
not use up the budget, and it returns the finite image of the point it evaluated last, whose distance to that image passes the
tolerance test. If it does not, either the budget is used up and the last image, which is finite, is returned, or the last call
returned something not finite. -/
theorem C15_squarem (o : IterOptions ι) (hmax : 1 ≤ o.maxEvaluations) (s : SquaremOptions) (stepMin stepMax : ℝ)
    (c : Contraction ι) (initial : FVec ι) :
    let r := squaremIterator o s stepMin stepMax c initial
    1 ≤ r.calls ∧ r.calls ≤ o.maxEvaluations ∧ ∃ last,
      (r.converged = true → r.calls < o.maxEvaluations ∧ r.x = (c (r.calls - 1) last).1 ∧
        allFinite (c (r.calls - 1) last).1 (c (r.calls - 1) last).2 ∧
        Within o.norm o.atol o.rtol last (c (r.calls - 1) last).1 (c (r.calls - 1) last).2) ∧
      (r.converged = false →
        (r.calls = o.maxEvaluations ∧ allFinite (c (r.calls - 1) last).1 (c (r.calls - 1) last).2 ∧
          r.x = (c (r.calls - 1) last).1) ∨
        ¬ allFinite (c (r.calls - 1) last).1 (c (r.calls - 1) last).2) :=
  (squaremLoop_spec o s c 0 hmax stepMin stepMax initial).1

/-- **C15.** The step length that is used is a number between the bounds, whenever it is a number. -/
theorem C15_step_bounds (neg : Bool) (scheme : ℕ) (stepMin stepMax : ℝ) (h : stepMin ≤ stepMax) (r v : FVec ι) (alpha : ℝ)
    (ha : boundedStep neg scheme stepMin stepMax r v = some alpha) : stepMin ≤ -alpha ∧ -alpha ≤ stepMax := by
  unfold boundedStep at ha
  rw [Option.map_eq_some_iff] at ha
  obtain ⟨b, hb, rfl⟩ := ha
  rw [neg_neg]
  unfold clipStep at hb
  split at hb <;> simp only [Option.some.injEq, reduceCtorEq] at hb <;> subst hb
  · exact ⟨le_max_left _ _, max_le h (min_le_left _ _)⟩
  · exact ⟨le_max_left _ _, max_le h le_rfl⟩
  · exact ⟨le_rfl, h⟩

/-- **C15.** The bounds stay ordered, and the upper bound never shrinks, if the factor is at least one. -/
theorem C15_bounds_ordered (stepMin stepMax factor : ℝ) (hpos : 0 < stepMax) (hf : 1 ≤ factor)
    (alpha : Option ℝ) :
    nextStepMin stepMin factor alpha ≤ stepMin ∧ stepMax ≤ nextStepMax stepMax factor alpha := by
  constructor
  · unfold nextStepMin
    split
    · rename_i h'; nlinarith [h'.2]
    · exact le_rfl
  · unfold nextStepMax
    split
    · nlinarith
    · exact le_rfl

/-- **C15.** Which bound is moved, and by how much: a step length at the upper bound multiplies it by the factor, one at a
negative lower bound multiplies that by the factor, and bounds that are not hit stay. -/
theorem C15_bounds_update (neg : Bool) (scheme : ℕ) (stepMin stepMax factor alpha : ℝ) (r v : FVec ι)
    (ha : boundedStep neg scheme stepMin stepMax r v = some alpha) :
    (-alpha = stepMax → nextStepMax stepMax factor (boundedStep neg scheme stepMin stepMax r v) = factor * stepMax) ∧
    (-alpha < stepMax → nextStepMax stepMax factor (boundedStep neg scheme stepMin stepMax r v) = stepMax) ∧
    (-alpha = stepMin → stepMin < 0 →
      nextStepMin stepMin factor (boundedStep neg scheme stepMin stepMax r v) = factor * stepMin) ∧
    (stepMin < -alpha ∨ 0 ≤ stepMin → nextStepMin stepMin factor (boundedStep neg scheme stepMin stepMax r v) = stepMin) := by
  rw [ha]
  unfold nextStepMax nextStepMin
  simp only [Option.map_some, Option.some.injEq]
  refine ⟨fun h => ?_, fun h => if_neg h.ne, fun h h0 => ?_, fun h => if_neg ?_⟩
  · rw [if_pos h, mul_comm]
  · rw [if_pos ⟨h, h0⟩, mul_comm]
  · rintro ⟨h1, h2⟩
    rcases h with h | h <;> linarith

section Affine

variable [Nonempty ι]

/-- The tolerance for the value `z`. -/
noncomputable def realTol (o : IterOptions ι) (z : ι → ℝ) : ℝ := if 0 < o.rtol then o.atol + o.rtol * ‖z‖ else o.atol

theorem evaluate_real (o : IterOptions ι) (ho : o.norm = infinityNorm) (f : (ι → ℝ) → (ι → ℝ)) (n : ℕ) (fb : FVec ι)
    (x : ι → ℝ) :
    evaluate o (realContraction f) n fb (lift x) =
      if n + 1 ≥ o.maxEvaluations ∨ ‖f x - x‖ < realTol o (f x) then
        .stop ⟨lift (f x), decide (n + 1 < o.maxEvaluations), n + 1⟩ else .go (lift (f x)) := by
  have hc : realContraction f n (lift x) = (lift (f x), none) := rfl
  unfold evaluate
  rw [hc]
  simp only
  rw [if_neg (not_not.2 ⟨lift_finite _, fun w hw => by simp at hw⟩)]
  have := within_iff o.norm o.atol o.rtol (lift x) (lift (f x)) none
  rw [ho, within_real] at this
  rw [ho]
  simp only [this]
  rfl

theorem fdot_lift (x y : ι → ℝ) : fdot (lift x) (lift y) = some (∑ i, x i * y i) := by
  unfold fdot
  rw [if_pos ⟨lift_finite x, lift_finite y⟩]
  rfl

/-- The step length of each scheme when successive differences shrink by the constant factor `a`. -/
theorem boundedStep_affine (neg : Bool) (scheme : ℕ) (stepMin stepMax a : ℝ) (ha : a < 1)
    (h1 : stepMin ≤ 1 / (1 - a)) (h2 : 1 / (1 - a) ≤ stepMax) (r : ι → ℝ) (hr : r ≠ 0) :
    boundedStep neg scheme stepMin stepMax (lift r) (lift ((a - 1) • r)) = some (1 / (a - 1)) := by
  have ha' : a - 1 ≠ 0 := by linarith
  have ha'' : 1 - a ≠ 0 := by linarith
  have hS : 0 < ∑ i, r i * r i := by
    obtain ⟨j, hj⟩ : ∃ j, r j ≠ 0 := by
      by_contra h; push Not at h; exact hr (funext h)
    exact Finset.sum_pos' (fun i _ => mul_self_nonneg _) ⟨j, Finset.mem_univ j, mul_self_pos.2 hj⟩
  have hrv : ∑ i, r i * ((a - 1) • r) i = (a - 1) * ∑ i, r i * r i := by
    rw [Finset.mul_sum]; apply Finset.sum_congr rfl; intro i _; simp only [Pi.smul_apply, smul_eq_mul]; ring
  have hvv : ∑ i, ((a - 1) • r) i * ((a - 1) • r) i = (a - 1) ^ 2 * ∑ i, r i * r i := by
    rw [Finset.mul_sum]; apply Finset.sum_congr rfl; intro i _; simp only [Pi.smul_apply, smul_eq_mul]; ring
  have hraw : rawStep neg scheme (lift r) (lift ((a - 1) • r)) = .fin (1 / (a - 1)) := by
    unfold rawStep
    rw [fdot_lift, fdot_lift, fdot_lift, hrv, hvv]
    generalize (∑ i, r i * r i) = S at hS
    have hS' := hS.ne'
    by_cases hs1 : scheme = 1
    · rw [if_pos hs1]
      simp only [fdiv]
      rw [if_pos (by positivity)]
      congr 1
      field_simp
    · rw [if_neg hs1]
      by_cases hs2 : scheme = 2
      · rw [if_pos hs2]
        simp only [fdiv]
        rw [if_pos (mul_ne_zero ha' hS')]
        congr 1
        field_simp
      · rw [if_neg hs2]
        simp only [fdiv]
        rw [if_pos (by positivity)]
        have hq : S / ((a - 1) ^ 2 * S) = (1 / (1 - a)) ^ 2 := by
          have : (a - 1) ^ 2 = (1 - a) ^ 2 := by ring
          rw [this]
          field_simp
        simp only [Quotient.sqrt, hq]
        rw [if_pos (by positivity)]
        simp only [Quotient.neg]
        rw [Real.sqrt_sq (div_nonneg zero_le_one (by linarith))]
        congr 1
        rw [← neg_sub, div_neg, neg_neg]
  unfold boundedStep
  rw [hraw]
  simp only [Quotient.neg, clipStep, Option.map_some, Option.some.injEq]
  have : -(1 / (a - 1)) = 1 / (1 - a) := by rw [← neg_sub, div_neg, neg_neg]
  rw [this, min_eq_right h2, max_eq_right h1, ← this, neg_neg]

/-- **C15.** On an affine map that scales all differences by one factor `a < 1`, one cycle of SQUAREM reaches the fixed point
exactly, with each of the three schemes, provided the exact step length `1 / (1 - a)` is within the bounds: at most three calls
are made, convergence is reported, and unless an earlier step passed the tolerance test the returned value is the fixed
point. -/
theorem C15_affine (o : IterOptions ι) (ho : o.norm = infinityNorm) (hmax : 4 ≤ o.maxEvaluations) (hatol : 0 < o.atol)
    (hrtol : 0 ≤ o.rtol) (s : SquaremOptions) (stepMin stepMax a : ℝ) (ha : a < 1)
    (h1 : stepMin ≤ 1 / (1 - a)) (h2 : 1 / (1 - a) ≤ stepMax) (b initial : ι → ℝ) :
    let f := fun x : ι → ℝ => a • x + b
    let r := squaremIterator o s stepMin stepMax (realContraction f) (lift initial)
    r.converged = true ∧ r.calls ≤ 3 ∧ (r.calls = 3 → ∃ x, r.x = lift x ∧ f x = x) := by
  intro f r
  have ha' : a - 1 ≠ 0 := by linarith
  have htol : ∀ z : ι → ℝ, 0 < realTol o z := by
    intro z
    unfold realTol
    split
    · have := mul_nonneg hrtol (norm_nonneg z); linarith
    · exact hatol
  have hr : r = squaremLoop o s (realContraction f) 0 stepMin stepMax (lift initial) := rfl
  rw [hr, squaremLoop]
  split
  · rename_i q hq
    rw [evaluate_real o ho] at hq
    split at hq
    · rw [← Outcome.stop.inj hq]
      exact ⟨by simp; omega, by simp, fun h => by simp at h⟩
    · simp at hq
  · rename_i x1 hq1
    rw [evaluate_real o ho] at hq1
    split at hq1
    · simp at hq1
    · rename_i hn1
      push Not at hn1
      have hres : f initial - initial ≠ 0 := by
        intro h0
        have := hn1.2
        rw [h0, norm_zero] at this
        exact absurd this (not_le.2 (htol _))
      rw [← Outcome.go.inj hq1]
      split
      · rename_i q hq
        rw [evaluate_real o ho] at hq
        split at hq
        · rw [← Outcome.stop.inj hq]
          exact ⟨by simp; omega, by simp, fun h => by simp at h⟩
        · simp at hq
      · rename_i x2 hq2
        rw [evaluate_real o ho] at hq2
        split at hq2
        · simp at hq2
        · rw [← Outcome.go.inj hq2]
          have hr0 : (lift (f initial)).sub (lift initial) = lift (f initial - initial) := rfl
          have hv0 : ((lift (f (f initial))).sub (lift (f initial))).sub (lift (f initial - initial)) =
              lift ((a - 1) • (f initial - initial)) := by
            funext i
            simp only [FVec.sub, lift, Option.bind_some, Option.map_some, f, Pi.add_apply, Pi.smul_apply, smul_eq_mul,
              Pi.sub_apply, Option.some.injEq]
            ring
          simp only [hr0, hv0]
          rw [boundedStep_affine _ s.scheme stepMin stepMax a ha h1 h2 _ hres]
          have hacc : accelerate (lift initial) (lift (f initial - initial)) (lift ((a - 1) • (f initial - initial)))
              (some (1 / (a - 1))) = lift (initial - (1 / (a - 1)) • (f initial - initial)) := by
            funext i
            simp only [accelerate, lift, Option.bind_some, Option.map_some, Pi.smul_apply, smul_eq_mul,
              Pi.sub_apply, Option.some.injEq]
            field_simp
            ring
          rw [hacc]
          set z := initial - (1 / (a - 1)) • (f initial - initial) with hz
          have hfix : f z = z := by
            funext i
            simp only [hz, f, Pi.add_apply, Pi.smul_apply, smul_eq_mul, Pi.sub_apply]
            field_simp
            ring
          split
          · rename_i q hq
            rw [evaluate_real o ho] at hq
            split at hq
            · rw [← Outcome.stop.inj hq]
              exact ⟨by simp; omega, by simp, fun _ => ⟨z, by rw [hfix], hfix⟩⟩
            · simp at hq
          · rename_i x3 hq3
            rw [evaluate_real o ho, if_pos] at hq3
            · simp at hq3
            · right
              rw [hfix, sub_self, norm_zero]
              exact htol _

/-- The default bounds of the step length allow this for `a = 0`; here with bounds that allow more. -/
example (s : SquaremOptions) :
    (squaremIterator ⟨100, 1 / 1000, 0, infinityNorm⟩ s 1 4 (realContraction fun x : Fin 2 → ℝ => (1 / 2 : ℝ) • x + fun _ => 7)
      (lift fun _ => 1)).converged = true :=
  (C15_affine _ rfl (by norm_num) (by norm_num) le_rfl s 1 4 (1 / 2) (by norm_num) (by norm_num) (by norm_num) _ _).1

end Affine

/-! ## C16 -/

/-- **C16.** The `return` routine returns the starting values, reports convergence and does not evaluate the contraction. -/
theorem C16_return (initial : FVec ι) :
    (returnIterator initial).x = initial ∧ (returnIterator initial).converged = true ∧ (returnIterator initial).calls = 0 :=
  ⟨rfl, rfl, rfl⟩

/-- **C16.** Whatever the contraction returns, the vector returned by `simple`, `squarem` and `return` is finite if the
starting values are. -/
theorem C16_finite (o : IterOptions ι) (hmax : 1 ≤ o.maxEvaluations) (s : SquaremOptions) (stepMin stepMax : ℝ)
    (c : Contraction ι) (initial : FVec ι) (h : ∀ i, (initial i).isSome) :
    (∀ i, ((simpleIterator o c initial).x i).isSome) ∧
    (∀ i, ((squaremIterator o s stepMin stepMax c initial).x i).isSome) ∧
    (∀ i, ((returnIterator initial).x i).isSome) := by
  refine ⟨?_, (squaremLoop_spec o s c 0 hmax stepMin stepMax initial).2 h, h⟩
  obtain ⟨h1, -, h3, h4, h5⟩ := C14_simple o hmax c initial
  have hit : ∀ k, k < (simpleIterator o c initial).calls → (iterate c initial k).Finite := by
    intro k hk
    cases k with
    | zero => exact h
    | succ k => exact (h3 k hk).1.1
  by_cases hc : (simpleIterator o c initial).converged = true
  · obtain ⟨-, hx, hg, -⟩ := h4 hc
    rw [hx]
    have := hg.1
    rwa [Nat.sub_add_cancel h1] at this
  · rcases h5 (by simpa using hc) with ⟨-, hg, hx⟩ | ⟨-, hx⟩
    · rw [hx]
      have := hg.1
      rwa [Nat.sub_add_cancel h1] at this
    · rw [hx]
      exact hit _ (by omega)

/-- A contraction that returns something not finite: the starting values come back, without convergence. -/
example : (simpleIterator (ι := Fin 2) ⟨10, 1, 0, infinityNorm⟩ (fun _ _ => (fun _ => none, none)) (lift fun _ => 3)).converged
    = false := by
  obtain ⟨-, -, -, h4, -⟩ := C14_simple (ι := Fin 2) ⟨10, 1, 0, infinityNorm⟩ (by norm_num)
    (fun _ _ => (fun _ => none, none)) (lift fun _ => 3)
  by_contra h
  have := (h4 (by simpa using h)).2.2.1.1 0
  simp [iterate] at this

end Pyblp
