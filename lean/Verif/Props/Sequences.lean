import Verif.Model.Sequences
import Mathlib.Data.List.GetD
import Mathlib.Data.List.Nodup
import Mathlib.Algebra.Order.BigOperators.Group.List
import Mathlib.Tactic.Ring
import Mathlib.Tactic.Linarith

/-!
# Enumeration of grid levels: C61
-/

set_option linter.unusedSectionVars false

namespace Pyblp

namespace Spec

/-- Sequences of `d + 1` natural numbers with sum `s`: those that start with `s`, then `s - 1`, and so on. -/
def weakCompositions : ℕ → ℕ → List (List ℕ)
  | 0, s => [[s]]
  | d + 1, s => (List.range (s + 1)).reverse.flatMap fun a => (weakCompositions d (s - a)).map (a :: ·)

end Spec

theorem mem_weakCompositions (d s : ℕ) (l : List ℕ) : l ∈ Spec.weakCompositions d s ↔ l.length = d + 1 ∧ l.sum = s := by
  induction d generalizing s l with
  | zero =>
    rw [Spec.weakCompositions, List.mem_singleton]
    constructor
    · rintro rfl
      simp
    · rintro ⟨h1, h2⟩
      obtain ⟨a, rfl⟩ := List.length_eq_one_iff.1 h1
      simpa using h2
  | succ d ih =>
    rw [Spec.weakCompositions]
    simp only [List.mem_flatMap, List.mem_reverse, List.mem_range, List.mem_map]
    constructor
    · rintro ⟨a, ha, l', hl', rfl⟩
      obtain ⟨h1, h2⟩ := (ih _ _).1 hl'
      rw [List.length_cons, List.sum_cons]
      omega
    · rintro ⟨h1, h2⟩
      cases l with
      | nil => simp at h1
      | cons a l =>
        rw [List.length_cons] at h1
        rw [List.sum_cons] at h2
        exact ⟨a, by omega, l, (ih _ _).2 ⟨by omega, by omega⟩, rfl⟩

theorem nodup_weakCompositions (d s : ℕ) : (Spec.weakCompositions d s).Nodup := by
  induction d generalizing s with
  | zero => simp [Spec.weakCompositions]
  | succ d ih =>
    rw [Spec.weakCompositions, List.nodup_flatMap]
    refine ⟨fun a _ => (ih _).map (List.cons_injective), ?_⟩
    have hn : (List.range (s + 1)).reverse.Nodup := List.nodup_reverse.2 List.nodup_range
    refine hn.imp ?_
    intro a b hab
    rw [Function.onFun, List.disjoint_left]
    intro l h1 h2
    rw [List.mem_map] at h1 h2
    obtain ⟨x, _, rfl⟩ := h1
    obtain ⟨y, _, h⟩ := h2
    exact hab (List.cons.inj h).1.symm

/-- The sequence after another in the order of `weakCompositions`. -/
def nextComposition : List ℕ → Option (List ℕ)
  | [] => none
  | [_] => none
  | a :: b :: l =>
    match nextComposition (b :: l) with
    | some l' => some (a :: l')
    | none => if a = 0 then none else some ((a - 1) :: ((b :: l).sum + 1) :: List.replicate l.length 0)

/-- Each element of a list is followed by its successor, and the last has none. -/
def Follows {α : Type} (next : α → Option α) : α → List α → Prop
  | x, [] => next x = none
  | x, y :: l => next x = some y ∧ Follows next y l

theorem next_cons (a d : ℕ) (z : List ℕ) (hz : z.length = d + 1) (h : nextComposition z = none) :
    nextComposition (a :: z) = if a = 0 then none else some ((a - 1) :: (z.sum + 1) :: List.replicate d 0) := by
  cases z with
  | nil => simp at hz
  | cons b l =>
    rw [nextComposition, h]
    rw [List.length_cons, Nat.add_right_cancel_iff] at hz
    rw [hz]

theorem next_cons_some (a : ℕ) (z y : List ℕ) (h : nextComposition z = some y) : nextComposition (a :: z) = some (a :: y) := by
  cases z with
  | nil => cases h
  | cons b l => rw [nextComposition, h]

theorem follows_block (a d σ : ℕ) (M : List (List ℕ))
    (hM : (M = [] ∧ a = 0) ∨ ∃ M', M = ((a - 1) :: (σ + 1) :: List.replicate d 0) :: M' ∧ a ≠ 0 ∧
      Follows nextComposition ((a - 1) :: (σ + 1) :: List.replicate d 0) M')
    (x : List ℕ) (L : List (List ℕ)) (hlen : ∀ z ∈ x :: L, z.length = d + 1 ∧ z.sum = σ) (hL : Follows nextComposition x L) :
    Follows nextComposition (a :: x) (L.map (a :: ·) ++ M) := by
  induction L generalizing x with
  | nil =>
    obtain ⟨h1, h2⟩ := hlen x (List.mem_cons_self ..)
    have hn := next_cons a d x h1 hL
    rw [h2] at hn
    rw [List.map_nil, List.nil_append]
    rcases hM with ⟨rfl, rfl⟩ | ⟨M', rfl, ha, hF⟩
    · rw [if_pos rfl] at hn
      exact hn
    · rw [if_neg ha] at hn
      exact ⟨hn, hF⟩
  | cons y L ih =>
    exact ⟨next_cons_some a x y hL.1, ih y (fun z hz => hlen z (List.mem_cons_of_mem _ hz)) hL.2⟩

/-- Blocks of `weakCompositions` that start with less than a number. -/
def compositionBlocks (d s : ℕ) : ℕ → List (List ℕ)
  | 0 => []
  | a + 1 => (Spec.weakCompositions d (s - a)).map (a :: ·) ++ compositionBlocks d s a

theorem compositionBlocks_eq (d s n : ℕ) :
    (List.range n).reverse.flatMap (fun a => (Spec.weakCompositions d (s - a)).map (a :: ·)) = compositionBlocks d s n := by
  induction n with
  | zero => rfl
  | succ n ih => rw [List.range_succ, List.reverse_append, List.reverse_singleton, List.singleton_append, List.flatMap_cons, ih]; rfl

theorem weakCompositions_follows (d s : ℕ) :
    ∃ T, Spec.weakCompositions d s = (s :: List.replicate d 0) :: T ∧ Follows nextComposition (s :: List.replicate d 0) T := by
  induction d generalizing s with
  | zero => exact ⟨[], rfl, rfl⟩
  | succ d ih =>
    rw [Spec.weakCompositions, compositionBlocks_eq]
    have key : ∀ a, a ≤ s → ∃ T, compositionBlocks d s (a + 1) = (a :: (s - a) :: List.replicate d 0) :: T ∧
        Follows nextComposition (a :: (s - a) :: List.replicate d 0) T := by
      intro a
      induction a with
      | zero =>
        intro _
        obtain ⟨T, hT, hF⟩ := ih (s - 0)
        refine ⟨T.map (0 :: ·) ++ [], ?_, ?_⟩
        · rw [compositionBlocks, hT]
          rfl
        · refine follows_block 0 d (s - 0) [] (Or.inl ⟨rfl, rfl⟩) _ T ?_ hF
          intro z hz
          rw [← hT] at hz
          exact (mem_weakCompositions d (s - 0) z).1 hz
      | succ a iha =>
        intro has
        obtain ⟨M', hM', hFM⟩ := iha (by omega)
        obtain ⟨T, hT, hF⟩ := ih (s - (a + 1))
        have e : s - (a + 1) + 1 = s - a := by omega
        refine ⟨T.map ((a + 1) :: ·) ++ compositionBlocks d s (a + 1), ?_, ?_⟩
        · rw [compositionBlocks, hT]
          rfl
        · refine follows_block (a + 1) d (s - (a + 1)) _ (Or.inr ⟨M', ?_, Nat.succ_ne_zero a, ?_⟩) _ T ?_ hF
          · rw [hM', e, Nat.add_sub_cancel]
          · rw [e, Nat.add_sub_cancel]
            exact hFM
          · intro z hz
            rw [← hT] at hz
            exact (mem_weakCompositions d _ z).1 hz
    obtain ⟨T, hT, hF⟩ := key s le_rfl
    rw [Nat.sub_self] at hT hF
    exact ⟨T, hT, hF⟩

/-! ### The loop -/

/-- A sequence before the last one. -/
theorem next_form (pre : List ℕ) (a k r : ℕ) :
    nextComposition (pre ++ (a + 1) :: (List.replicate k 0 ++ [r])) = some (pre ++ a :: (r + 1) :: List.replicate k 0) := by
  have hz : ∀ k, nextComposition (List.replicate k 0 ++ [r]) = none := by
    intro k
    induction k with
    | zero => rfl
    | succ k ih =>
      rw [List.replicate_succ, List.cons_append, next_cons 0 k _ (by simp) ih, if_pos rfl]
  induction pre with
  | nil =>
    rw [List.nil_append, next_cons (a + 1) k _ (by simp) (hz k), if_neg (Nat.succ_ne_zero a)]
    simp
  | cons b pre ih =>
    rw [List.cons_append, next_cons_some b _ _ ih]
    rfl

/-- Every sequence is of the form above or is the last one. -/
theorem sequence_cases (l : List ℕ) (hl : l ≠ []) :
    (∃ k r, l = List.replicate k 0 ++ [r]) ∨ ∃ pre a k r, l = pre ++ (a + 1) :: (List.replicate k 0 ++ [r]) := by
  induction l with
  | nil => exact absurd rfl hl
  | cons b l ih =>
    cases l with
    | nil => exact Or.inl ⟨0, b, rfl⟩
    | cons c l =>
      rcases ih (by simp) with ⟨k, r, h⟩ | ⟨pre, a, k, r, h⟩
      · rw [h]
        cases b with
        | zero => exact Or.inl ⟨k + 1, r, rfl⟩
        | succ b => exact Or.inr ⟨[], b, k, r, rfl⟩
      · rw [h]
        exact Or.inr ⟨b :: pre, a, k, r, rfl⟩

/-- Integers of a sequence of natural numbers. -/
def toInts (l : List ℕ) : List ℤ := l.map Int.ofNat

theorem toInts_append (l l' : List ℕ) : toInts (l ++ l') = toInts l ++ toInts l' := List.map_append
theorem toInts_cons (a : ℕ) (l : List ℕ) : toInts (a :: l) = (a : ℤ) :: toInts l := rfl
theorem toInts_replicate (k : ℕ) : toInts (List.replicate k 0) = List.replicate k 0 := List.map_replicate
theorem toInts_length (l : List ℕ) : (toInts l).length = l.length := List.length_map ..
theorem toInts_sum (l : List ℕ) : (toInts l).sum = (l.sum : ℤ) := by
  induction l with
  | nil => rfl
  | cons a l ih => rw [toInts_cons, List.sum_cons, List.sum_cons, ih]; push_cast; rfl

theorem searchBackward_form (pre : List ℤ) (a : ℤ) (ha : a ≠ 0) (post : List ℤ) (k : ℕ)
    (hz : ∀ i < k, post.getD i 0 = 0) (f : ℕ) : searchBackward (pre ++ a :: post) (pre.length + 1 + k) f = pre.length := by
  induction k generalizing f with
  | zero =>
    rw [Nat.add_zero, searchBackward, if_pos]
    rw [List.getD_append_right _ _ _ _ le_rfl, Nat.sub_self]
    exact ha
  | succ k ih =>
    rw [← Nat.add_assoc, searchBackward, if_neg]
    · exact ih (fun i hi => hz i (by omega)) _
    · rw [List.getD_append_right _ _ _ _ (by omega)]
      have : pre.length + 1 + k - pre.length = k + 1 := by omega
      rw [this, List.getD_cons_succ, hz k (Nat.lt_succ_self k)]
      simp

theorem step_form (pre : List ℕ) (a k r : ℕ) (f : ℕ) (S : ℤ)
    (hS : S = ((pre ++ (a + 1) :: (List.replicate k 0 ++ [r])).sum : ℕ))
    (hf : f = pre.length + k + 1 ∨ (f = pre.length ∧ r = 0)) :
    SequenceState.step (pre.length + k + 2) S ⟨toInts (pre ++ (a + 1) :: (List.replicate k 0 ++ [r])), f⟩ =
      ⟨toInts (pre ++ a :: (r + 1) :: List.replicate k 0), pre.length + 1⟩ := by
  have hsearch : (if f = pre.length + k + 2 - 1 then
      searchBackward (toInts (pre ++ (a + 1) :: (List.replicate k 0 ++ [r]))) f f else f) = pre.length := by
    rcases hf with rfl | ⟨rfl, rfl⟩
    · rw [if_pos (by omega), toInts_append, toInts_cons]
      have := searchBackward_form (toInts pre) ((a + 1 : ℕ) : ℤ) (by exact_mod_cast Nat.succ_ne_zero a)
        (toInts (List.replicate k 0 ++ [r])) k (by
          intro i hi
          rw [toInts_append, toInts_replicate, List.getD_append _ _ _ _ (by simpa using hi)]
          simp) (pre.length + k + 1)
      rw [toInts_length] at this
      rw [show pre.length + k + 1 = pre.length + 1 + k by omega] at this ⊢
      exact this
    · rw [if_neg (by omega)]
  unfold SequenceState.step
  dsimp only
  rw [hsearch]
  have hp : (toInts pre).length = pre.length := toInts_length pre
  have e1 : (toInts (pre ++ (a + 1) :: (List.replicate k 0 ++ [r]))).set pre.length
      ((toInts (pre ++ (a + 1) :: (List.replicate k 0 ++ [r]))).getD pre.length 0 - 1) =
      toInts pre ++ (a : ℤ) :: toInts (List.replicate k 0 ++ [r]) := by
    rw [toInts_append, toInts_cons, List.getD_append_right _ _ _ _ (by omega), hp, Nat.sub_self, List.getD_cons_zero,
      List.set_append_right _ _ (by omega), hp, Nat.sub_self, List.set_cons_zero]
    push_cast
    rw [add_sub_cancel_right]
  rw [e1]
  have e2 : S - ((toInts pre ++ (a : ℤ) :: toInts (List.replicate k 0 ++ [r])).take (pre.length + 1)).sum = (r : ℤ) + 1 := by
    rw [List.take_append, hp, List.take_of_length_le (by omega), show pre.length + 1 - pre.length = 1 by omega, List.take_succ_cons,
      List.take_zero, List.sum_append, toInts_sum, hS]
    simp only [List.sum_append, List.sum_cons, List.sum_replicate, List.sum_nil]
    push_cast
    simp
    ring
  rw [e2]
  have e3 : (toInts pre ++ (a : ℤ) :: toInts (List.replicate k 0 ++ [r])).set (pre.length + 1) ((r : ℤ) + 1) =
      toInts pre ++ (a : ℤ) :: (toInts (List.replicate k 0 ++ [r])).set 0 ((r : ℤ) + 1) := by
    rw [List.set_append_right _ _ (by omega), hp, show pre.length + 1 - pre.length = 0 + 1 by omega, List.set_cons_succ]
  rw [e3]
  congr 1
  have e4 : toInts (pre ++ a :: (r + 1) :: List.replicate k 0) = toInts pre ++ (a : ℤ) :: ((r : ℤ) + 1) :: List.replicate k 0 := by
    rw [toInts_append, toInts_cons, toInts_cons, toInts_replicate]
    push_cast
    rfl
  rw [e4]
  cases k with
  | zero =>
    rw [if_neg (by omega)]
    simp [toInts]
  | succ k =>
    rw [if_pos (by omega), toInts_append, toInts_replicate, List.replicate_succ, List.cons_append, List.set_cons_zero]
    rw [List.take_append, hp, List.take_of_length_le (by omega), show pre.length + 1 + 1 - pre.length = 2 by omega]
    simp only [List.take_succ_cons, List.take_zero]
    rw [show pre.length + (k + 1) + 2 - (pre.length + 1 + 1) = k + 1 by omega, List.append_assoc]
    rfl

/-- What holds before each iteration: the loop variable points to the last element, or to the last element that is not zero. -/
def SequenceInvariant (l : List ℕ) (f : ℕ) : Prop :=
  f + 1 = l.length ∨ ∃ pre a k, l = pre ++ (a + 1) :: (List.replicate k 0 ++ [0]) ∧ f = pre.length

theorem getLastD_toInts (k r : ℕ) (pre : List ℕ) : (toInts (pre ++ (List.replicate k 0 ++ [r]))).getLastD 0 = r := by
  rw [← List.append_assoc, toInts_append]
  simp [toInts, List.getLastD_eq_getLast?]

theorem loop_follows (L : List (List ℕ)) (l : List ℕ) (f : ℕ) (hl : l ≠ []) (hinv : L ≠ [] → SequenceInvariant l f)
    (hF : Follows nextComposition l L) (extra : ℕ) :
    sequenceLoop l.length (l.sum : ℕ) (L.length + extra) ⟨toInts l, f⟩ = some (L.map toInts) := by
  induction L generalizing l f with
  | nil =>
    have hlast : ¬ (toInts l).getLastD 0 < ((l.sum : ℕ) : ℤ) := by
      rcases sequence_cases l hl with ⟨k, r, h⟩ | ⟨pre, a, k, r, h⟩
      · have := getLastD_toInts k r []
        rw [List.nil_append, ← h] at this
        rw [this, h]
        simp
      · have := next_form pre a k r
        rw [← h, show nextComposition l = none from hF] at this
        cases this
    cases extra with
    | zero => rw [List.length_nil, Nat.add_zero, sequenceLoop, if_neg hlast]; rfl
    | succ e => rw [List.length_nil, Nat.zero_add, sequenceLoop, if_neg hlast]; rfl
  | cons y L ih =>
    obtain ⟨hy, hF⟩ := hF
    rcases sequence_cases l hl with ⟨k, r, h⟩ | ⟨pre, a, k, r, h⟩
    · have hz : ∀ k, nextComposition (List.replicate k 0 ++ [r]) = none := by
        intro k
        induction k with
        | zero => rfl
        | succ k ih => rw [List.replicate_succ, List.cons_append, next_cons 0 k _ (by simp) ih, if_pos rfl]
      rw [h, hz k] at hy
      cases hy
    · have hn := next_form pre a k r
      rw [← h, hy] at hn
      have hy' := Option.some.inj hn
      have hlen : l.length = pre.length + k + 2 := by
        rw [h]
        simp
        omega
      have hylen : y.length = l.length := by
        rw [hy', hlen]
        simp
        omega
      have hysum : y.sum = l.sum := by
        rw [hy', h]
        simp
        omega
      have hlast : (toInts l).getLastD 0 < ((l.sum : ℕ) : ℤ) := by
        have := getLastD_toInts k r (pre ++ [a + 1])
        rw [List.append_assoc, List.singleton_append, ← h] at this
        rw [this, h]
        simp only [List.sum_append, List.sum_cons, List.sum_replicate, List.sum_nil]
        push_cast
        simp
        have : (0 : ℤ) ≤ (pre.sum : ℤ) := Int.natCast_nonneg _
        linarith [Int.natCast_nonneg a]
      have hstep := step_form pre a k r f ((l.sum : ℕ) : ℤ) (by rw [h]) (by
        rcases hinv (by simp) with hf | ⟨pre', a', k', h', hf⟩
        · left
          omega
        · right
          have hnn := next_form pre' a' k' 0
          rw [← h', hy, hy'] at hnn
          rw [h] at h'
          -- the two decompositions agree
          have h1 := h'
          have hr : r = 0 := by
            have h2 := congrArg (fun t => (toInts t).getLastD 0) h1
            have h6 := getLastD_toInts k r (pre ++ [a + 1])
            have h7 := getLastD_toInts k' 0 (pre' ++ [a' + 1])
            rw [List.append_assoc, List.singleton_append] at h6 h7
            rw [h6, h7] at h2
            exact_mod_cast h2
          refine ⟨?_, hr⟩
          subst hr
          rw [hf]
          have h3 : pre'.length = pre.length := by
            by_contra hne
            have key : ∀ (p q : List ℕ) (x y i j : ℕ), p ++ (x + 1) :: (List.replicate i 0 ++ [0]) =
                q ++ (y + 1) :: (List.replicate j 0 ++ [0]) → p.length < q.length → False := by
              intro p q x y i j he hlt
              have h4 := congrArg (fun t => t.getD q.length 0) he
              rw [List.getD_append_right q _ _ _ le_rfl, Nat.sub_self, List.getD_cons_zero,
                List.getD_append_right p _ _ _ (by omega)] at h4
              obtain ⟨w, hw⟩ : ∃ w, q.length - p.length = w + 1 := ⟨q.length - p.length - 1, by omega⟩
              rw [hw, List.getD_cons_succ] at h4
              have h5 : (List.replicate i 0 ++ [0] : List ℕ) = List.replicate (i + 1) 0 := by
                rw [List.replicate_succ']
              rw [h5] at h4
              have : (List.replicate (i + 1) 0 : List ℕ).getD w 0 = 0 := by simp
              omega
            rcases Nat.lt_or_gt_of_ne hne with hlt | hgt
            · exact key pre' pre a' a k' k h'.symm hlt
            · exact key pre pre' a a' k k' h' hgt
          exact h3)
      rw [← h, ← hlen, ← hy'] at hstep
      rw [List.length_cons, Nat.add_right_comm, sequenceLoop, if_pos hlast]
      dsimp only
      rw [hstep]
      have hih := ih y (pre.length + 1) (by rw [hy']; simp) (by
        intro _
        rw [hy']
        cases k with
        | zero =>
          left
          simp
        | succ k =>
          right
          refine ⟨pre ++ [a], r, k, ?_, by simp⟩
          rw [List.replicate_succ']
          simp) hF
      rw [hylen, hysum] at hih
      rw [hih]
      rfl

theorem sameSizeSequences_eq (d s : ℕ) (summation : ℤ) (hs' : summation - ((d + 1 : ℕ) : ℤ) = s) :
    ∃ bound, ∀ extra, sameSizeSequences (bound + extra) (d + 1) summation =
      some ((Spec.weakCompositions d s).map fun l => (toInts l).map (· + 1)) := by
  obtain ⟨T, hT, hF⟩ := weakCompositions_follows d s
  refine ⟨T.length, fun extra => ?_⟩
  unfold sameSizeSequences
  dsimp only
  rw [hs']
  have e : (List.replicate (d + 1) (0 : ℤ)).set 0 (s : ℤ) = toInts (s :: List.replicate d 0) := by
    rw [List.replicate_succ, List.set_cons_zero, toInts_cons, toInts_replicate]
  rw [e]
  have hsum : (s :: List.replicate d 0).sum = s := by simp
  have hloop := loop_follows T (s :: List.replicate d 0) 0 (by simp) (by
    intro hne
    cases d with
    | zero => left; rfl
    | succ d =>
      cases s with
      | zero =>
        exfalso
        cases T with
        | nil => exact hne rfl
        | cons y T =>
          have hz : ∀ k, nextComposition (List.replicate (k + 1) 0) = none := by
            intro k
            induction k with
            | zero => rfl
            | succ k ih => rw [List.replicate_succ, next_cons 0 k _ (by simp) ih, if_pos rfl]
          have h1 := hF.1
          rw [← List.replicate_succ, hz] at h1
          cases h1
      | succ s =>
        right
        refine ⟨[], s, d, ?_, rfl⟩
        rw [List.replicate_succ', List.nil_append]) hF extra
  rw [hsum] at hloop
  simp only [List.length_cons, List.length_replicate] at hloop
  rw [hloop, Option.map_some, ← List.map_cons, hT, List.map_map]
  simp [toInts_cons, Function.comp_def]

/-- **C61.** For every positive size and every sum that is not smaller, the loop ends, and the result has exactly the sequences of
positive integers with the size and the sum, each once. -/
theorem C61_enumerates (size : ℕ) (hsize : 0 < size) (summation : ℤ) (hs : (size : ℤ) ≤ summation) :
    ∃ sequences bound, (∀ extra, sameSizeSequences (bound + extra) size summation = some sequences) ∧ sequences.Nodup ∧
      ∀ l, l ∈ sequences ↔ l.length = size ∧ (∀ x ∈ l, 1 ≤ x) ∧ l.sum = summation := by
  obtain ⟨d, rfl⟩ : ∃ d, size = d + 1 := ⟨size - 1, by omega⟩
  obtain ⟨s, hs'⟩ : ∃ s : ℕ, summation - ((d + 1 : ℕ) : ℤ) = s := ⟨(summation - ((d + 1 : ℕ) : ℤ)).toNat, by omega⟩
  obtain ⟨bound, hbound⟩ := sameSizeSequences_eq d s summation hs'
  have hinc : Function.Injective fun l : List ℕ => (toInts l).map (· + 1) := by
    intro l l' h
    have h1 : Function.Injective (fun x : ℤ => x + 1) := fun a b h => by simpa using h
    have h2 : Function.Injective Int.ofNat := fun a b h => by simpa using h
    exact (List.map_injective_iff.2 h2) ((List.map_injective_iff.2 h1) h)
  refine ⟨(Spec.weakCompositions d s).map fun l => (toInts l).map (· + 1), bound, hbound, (nodup_weakCompositions d s).map hinc, ?_⟩
  · intro l
    rw [List.mem_map]
    constructor
    · rintro ⟨w, hw, rfl⟩
      obtain ⟨h1, h2⟩ := (mem_weakCompositions d s w).1 hw
      refine ⟨by rw [List.length_map, toInts_length, h1], ?_, ?_⟩
      · intro x hx
        rw [List.mem_map] at hx
        obtain ⟨y, hy, rfl⟩ := hx
        unfold toInts at hy
        rw [List.mem_map] at hy
        obtain ⟨z, _, rfl⟩ := hy
        have : (0 : ℤ) ≤ Int.ofNat z := Int.natCast_nonneg z
        omega
      · rw [List.sum_map_add]
        simp only [List.map_id', List.map_const', List.sum_replicate, toInts_length, toInts_sum, h1, h2]
        simp
        omega
    · rintro ⟨h1, h2, h3⟩
      refine ⟨l.map fun x => (x - 1).toNat, ?_, ?_⟩
      · rw [mem_weakCompositions]
        refine ⟨by rw [List.length_map, h1], ?_⟩
        have : (((l.map fun x => (x - 1).toNat).sum : ℕ) : ℤ) = l.sum - l.length := by
          clear h1 h3
          induction l with
          | nil => rfl
          | cons x l ih =>
            have hx := h2 x (List.mem_cons_self ..)
            rw [List.map_cons, List.sum_cons, List.sum_cons, List.length_cons]
            push_cast
            rw [ih fun y hy => h2 y (List.mem_cons_of_mem _ hy)]
            omega
        rw [h3, h1] at this
        omega
      · unfold toInts
        rw [List.map_map, List.map_map]
        conv_rhs => rw [← List.map_id l]
        refine List.map_congr_left fun x hx => ?_
        have := h2 x hx
        simp only [Function.comp_apply, id]
        have : (Int.ofNat (x - 1).toNat) = x - 1 := Int.toNat_of_nonneg (by omega)
        rw [this]
        omega

/-- Six sequences of three positive integers have sum five. -/
example : sameSizeSequences 10 3 5 = some [[3, 1, 1], [2, 2, 1], [2, 1, 2], [1, 3, 1], [1, 2, 2], [1, 1, 3]] := by decide

example : sameSizeSequences 0 1 4 = some [[4]] := by decide

end Pyblp
