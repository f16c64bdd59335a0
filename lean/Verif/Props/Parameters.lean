import Verif.Model.Parameters
import Mathlib.Tactic.Linarith
import Mathlib.Tactic.NormNum
import Mathlib.Data.List.Nodup
import Mathlib.Data.List.Pairwise
import Mathlib.Data.Real.Basic

/-!
# Parameters: C43, C44, C45, C46
-/

set_option linter.unusedSectionVars false

namespace Pyblp

open Classical

/-! ## Specification -/

namespace Spec

/-- The starting value a user supplies for an element, with NaN where nothing is supplied. The upper triangle of `sigma` is zero. -/
noncomputable def start (e : ParamInputs) (b : Block) (i j : ℕ) : Fl :=
  if b = .sigma ∧ i < j then some 0
  else match e.values b with
    | none => none
    | some m => m.entry i j

/-- Coefficients that can be concentrated out. -/
def Linear (b : Block) : Prop := b = .beta ∨ b = .gamma

/-- Lower bound supplied by a user, with no bound where it is NaN. -/
noncomputable def userLower (lb : FMatrix) (i j : ℕ) : EReal :=
  match lb.entry i j with | none => ⊥ | some x => x

/-- Upper bound supplied by a user, with no bound where it is NaN. -/
noncomputable def userUpper (ub : FMatrix) (i j : ℕ) : EReal :=
  match ub.entry i j with | none => ⊤ | some x => x

/-- A user fixes an element by supplying equal bounds. -/
def FixedByUser (e : ParamInputs) (b : Block) (i j : ℕ) : Prop :=
  ∃ lb ub, e.bounds b = some (lb, ub) ∧ userLower lb i j = userUpper ub i j

/-- Position of a kind in the documented order of `theta`. -/
def blockRank : Block → ℕ
  | .sigma => 0 | .pi => 1 | .rho => 2 | .phi => 3 | .beta => 4 | .gamma => 5

/-- The documented order of `theta`: kind, then row, then column. -/
def Before (a b : Param) : Prop :=
  blockRank a.block < blockRank b.block ∨
    (a.block = b.block ∧ (a.row < b.row ∨ (a.row = b.row ∧ a.col < b.col)))

end Spec

/-! ## Lists -/

theorem forBlocks_ok {α : Type} {f : Block → Except PyErr α} {g : Block → α} (h : forBlocks f = .ok g) (b : Block) :
    f b = .ok (g b) := by
  unfold forBlocks at h
  split at h
  · rename_i a1 a2 a3 a4 a5 a6 h1 h2 h3 h4 h5 h6
    have := Except.ok.inj h
    subst this
    cases b <;> assumption
  all_goals cases h

theorem forBlocks_error {α : Type} {f : Block → Except PyErr α} {x : PyErr} (h : forBlocks f = .error x) :
    ∃ b, f b = .error x := by
  unfold forBlocks at h
  split at h
  · cases h
  all_goals
    have := Except.error.inj h
    subst this
    exact ⟨_, by assumption⟩

theorem mem_locations (b : Block) (m : FMatrix) (l : ℕ × ℕ) :
    l ∈ locations b m ↔ l.1 < m.rows ∧ l.2 < m.cols ∧ (b = .sigma → l.2 ≤ l.1) := by
  unfold locations
  simp only [List.mem_flatMap, List.mem_range, List.mem_map]
  constructor
  · rintro ⟨i, hi, j, hj, rfl⟩
    by_cases hb : b = .sigma
    · rw [if_pos hb] at hj
      exact ⟨hi, (lt_min_iff.1 hj).2, fun _ => Nat.lt_succ_iff.1 (lt_min_iff.1 hj).1⟩
    · rw [if_neg hb] at hj
      exact ⟨hi, hj, fun h => absurd h hb⟩
  · rintro ⟨h1, h2, h3⟩
    refine ⟨l.1, h1, l.2, ?_, rfl⟩
    by_cases hb : b = .sigma
    · rw [if_pos hb]
      exact lt_min (Nat.lt_succ_of_le (h3 hb)) h2
    · rw [if_neg hb]
      exact h2

theorem mem_allParams (mats : Block → FMatrix) (q : Param) :
    q ∈ allParams mats ↔ q.row < (mats q.block).rows ∧ q.col < (mats q.block).cols ∧ (q.block = .sigma → q.col ≤ q.row) := by
  unfold allParams
  simp only [List.mem_flatMap, List.mem_map]
  constructor
  · rintro ⟨b, _, l, hl, rfl⟩
    exact (mem_locations b _ l).1 hl
  · intro h
    refine ⟨q.block, ?_, (q.row, q.col), (mem_locations _ _ _).2 h, rfl⟩
    cases q.block <;> simp [Block.all]

theorem pairwise_range_flatMap {α : Type} (R : α → α → Prop) (n : ℕ) (f : ℕ → List α) (hf : ∀ i, (f i).Pairwise R)
    (hc : ∀ i j, i < j → ∀ a ∈ f i, ∀ b ∈ f j, R a b) : ((List.range n).flatMap f).Pairwise R := by
  rw [List.pairwise_flatMap]
  refine ⟨fun i _ => hf i, ?_⟩
  exact (List.pairwise_lt_range (n := n)).imp fun {i j} hij a ha b hb => hc i j hij a ha b hb

theorem pairwise_locations (b : Block) (m : FMatrix) :
    ((locations b m).map fun l => (⟨b, l.1, l.2⟩ : Param)).Pairwise Spec.Before := by
  rw [List.pairwise_map]
  unfold locations
  apply pairwise_range_flatMap
  · intro i
    rw [List.pairwise_map]
    exact List.pairwise_lt_range.imp fun {j k} hjk => Or.inr ⟨rfl, Or.inr ⟨rfl, hjk⟩⟩
  · intro i j hij a ha c hc
    obtain ⟨_, _, rfl⟩ := List.mem_map.1 ha
    obtain ⟨_, _, rfl⟩ := List.mem_map.1 hc
    exact Or.inr ⟨rfl, Or.inl hij⟩

theorem pairwise_allParams (mats : Block → FMatrix) : (allParams mats).Pairwise Spec.Before := by
  unfold allParams
  rw [List.pairwise_flatMap]
  refine ⟨fun b _ => pairwise_locations b _, ?_⟩
  have hall : Block.all.Pairwise fun a b => Spec.blockRank a < Spec.blockRank b := by
    unfold Block.all
    simp [Spec.blockRank]
  refine hall.imp fun {a b} hab x hx y hy => ?_
  obtain ⟨_, _, rfl⟩ := List.mem_map.1 hx
  obtain ⟨_, _, rfl⟩ := List.mem_map.1 hy
  exact Or.inl hab

theorem before_irrefl (q : Param) : ¬ Spec.Before q q := by
  rintro (h | ⟨_, h | ⟨_, h⟩⟩) <;> exact absurd h (lt_irrefl _)

theorem nodup_allParams (mats : Block → FMatrix) : (allParams mats).Nodup :=
  (pairwise_allParams mats).imp fun {a b} (h : Spec.Before a b) (hab : a = b) => before_irrefl b (hab ▸ h)

/-- An element that is concentrated out. -/
def isEliminated (mats : Block → FMatrix) (q : Param) : Prop :=
  (q.block = .beta ∨ q.block = .gamma) ∧ (mats q.block).entry q.row q.col = none

/-- An element with equal bounds. -/
def isEqual (bounds : Block → BoundsMatrix) (q : Param) : Prop :=
  (bounds q.block q.row q.col).1 = (bounds q.block q.row q.col).2

theorem storeAll_eq_aux (mats : Block → FMatrix) (bounds : Block → BoundsMatrix) (l : List Param) (s : Stored) :
    l.foldl (storeOne mats bounds) s =
      ⟨s.fixed ++ (l.filter fun q => decide (¬ isEliminated mats q ∧ isEqual bounds q)).map
          (fun q => (q, (bounds q.block q.row q.col).1)),
        s.unfixed ++ l.filter (fun q => decide (¬ isEliminated mats q ∧ ¬ isEqual bounds q)),
        s.eliminated ++ l.filter (fun q => decide (isEliminated mats q))⟩ := by
  induction l generalizing s with
  | nil => simp
  | cons q l ih =>
    rw [List.foldl_cons, ih]
    unfold storeOne
    by_cases h1 : isEliminated mats q
    · rw [if_pos (show (q.block = .beta ∨ q.block = .gamma) ∧ _ from h1)]
      simp [h1]
    · rw [if_neg (show ¬ ((q.block = .beta ∨ q.block = .gamma) ∧ _) from h1)]
      by_cases h2 : isEqual bounds q
      · rw [if_pos (show _ = _ from h2)]
        simp [h1, h2]
      · rw [if_neg (show ¬ (_ = _) from h2)]
        simp [h1, h2]

theorem storeAll_eq (mats : Block → FMatrix) (bounds : Block → BoundsMatrix) :
    storeAll mats bounds =
      ⟨((allParams mats).filter fun q => decide (¬ isEliminated mats q ∧ isEqual bounds q)).map
          (fun q => (q, (bounds q.block q.row q.col).1)),
        (allParams mats).filter (fun q => decide (¬ isEliminated mats q ∧ ¬ isEqual bounds q)),
        (allParams mats).filter (fun q => decide (isEliminated mats q))⟩ := by
  unfold storeAll
  rw [storeAll_eq_aux]
  simp

/-! ## Construction -/

/-- What a successful construction establishes. -/
structure Built (e : ParamInputs) (p : Parameters) (b0 : Block → BoundsMatrix) : Prop where
  entry : ∀ b i j, (p.mats b).entry i j = Spec.start e b i j
  shape : ∀ b, ((p.mats b).rows, (p.mats b).cols) ∈ e.shapes b
  given : ∀ b m, e.values b = some m → (p.mats b).rows = m.rows ∧ (p.mats b).cols = m.cols
  nan : ∀ b i j, i < (p.mats b).rows → j < (p.mats b).cols → (p.mats b).entry i j = none → Spec.Linear b
  bounds : ∀ b, initializeBounds (p.mats b) (e.bounds b) e.bounded = .ok (b0 b)
  stored : p.stored = storeAll p.mats b0
  final : p.bounds = withDefaults e p.mats p.stored.unfixed b0

/-- Entries of supplied values. -/
def givenEntry (values : Option FMatrix) : ℕ → ℕ → Fl :=
  match values with | none => fun _ _ => none | some v => v.entry

theorem initializeMatrix_ok {values : Option FMatrix} {shapes : List (ℕ × ℕ)} {allow : Bool} {m : FMatrix} (hs : shapes ≠ [])
    (h : initializeMatrix values shapes allow = .ok m) :
    (m.rows, m.cols) ∈ shapes ∧ m.entry = givenEntry values ∧
      (allow = false → ∀ i < m.rows, ∀ j < m.cols, m.entry i j ≠ none) ∧ ∀ v, values = some v → m = v := by
  unfold initializeMatrix at h
  dsimp only at h
  split at h
  · rename_i h1
    have := Except.ok.inj h
    subst this
    refine ⟨?_, ?_, ?_, ?_⟩
    · cases shapes with
      | nil => exact absurd rfl hs
      | cons a l => simp
    · rw [h1.2]
      rfl
    · intro h2
      rw [h2] at h1
      exact absurd h1.1 (by simp)
    · intro v hv
      rw [h1.2] at hv
      cases hv
  · split at h
    · cases h
    · split at h
      · cases h
      · split at h
        · cases h
        · rename_i h2 h3 h4 h5
          have := Except.ok.inj h
          subst this
          refine ⟨not_not.1 h4, ?_, ?_, ?_⟩
          · cases values <;> rfl
          · intro ha i hi j hj hn
            exact h5 ⟨ha, i, hi, j, hj, hn⟩
          · intro v hv
            rw [hv]
            rfl

theorem built_of_ok {e : ParamInputs} {p : Parameters} (h : buildParameters e = .ok p) : ∃ b0, Built e p b0 := by
  unfold buildParameters at h
  split at h
  · cases h
  · rename_i raw hraw
    split at h
    · cases h
    · split at h
      · cases h
      · split at h
        · cases h
        · rename_i b0 hb0
          have := Except.ok.inj h
          subst this
          have hm := fun b => initializeMatrix_ok (by cases b <;> simp [ParamInputs.shapes]) (forBlocks_ok hraw b)
          refine ⟨b0, ?_, ?_, ?_, ?_, ?_, rfl, rfl⟩
          · intro b i j
            show (if b = Block.sigma then fillUpper (raw b) else raw b).entry i j = _
            unfold Spec.start
            by_cases hb : b = .sigma
            · rw [if_pos hb]
              by_cases hij : i < j
              · rw [if_pos ⟨hb, hij⟩]
                exact if_pos hij
              · rw [if_neg (fun h => hij h.2)]
                show (if i < j then some 0 else (raw b).entry i j) = _
                rw [if_neg hij, (hm b).2.1]
                unfold givenEntry
                cases e.values b <;> rfl
            · rw [if_neg hb, if_neg (fun h => hb h.1), (hm b).2.1]
              unfold givenEntry
              cases e.values b <;> rfl
          · intro b
            show ((if b = Block.sigma then fillUpper (raw b) else raw b).rows,
              (if b = Block.sigma then fillUpper (raw b) else raw b).cols) ∈ _
            by_cases hb : b = .sigma
            · rw [if_pos hb]
              exact (hm b).1
            · rw [if_neg hb]
              exact (hm b).1
          · intro b m hbm
            have := (hm b).2.2.2 m hbm
            show (if b = Block.sigma then fillUpper (raw b) else raw b).rows = _ ∧
              (if b = Block.sigma then fillUpper (raw b) else raw b).cols = _
            rw [← this]
            by_cases hb : b = .sigma
            · rw [if_pos hb]
              exact ⟨rfl, rfl⟩
            · rw [if_neg hb]
              exact ⟨rfl, rfl⟩
          · intro b i j
            show i < (if b = Block.sigma then fillUpper (raw b) else raw b).rows →
              j < (if b = Block.sigma then fillUpper (raw b) else raw b).cols →
              (if b = Block.sigma then fillUpper (raw b) else raw b).entry i j = none → _
            intro hi hj hn
            by_contra hl
            have ha : e.allowNans b = false := by
              cases b <;> first | rfl | exact absurd (Or.inl rfl) hl | exact absurd (Or.inr rfl) hl
            by_cases hb : b = .sigma
            · rw [if_pos hb] at hi hj hn
              by_cases hij : i < j
              · rw [show (fillUpper (raw b)).entry i j = some 0 from if_pos hij] at hn
                cases hn
              · rw [show (fillUpper (raw b)).entry i j = (raw b).entry i j from if_neg hij] at hn
                exact (hm b).2.2.1 ha i hi j hj hn
            · rw [if_neg hb] at hi hj hn
              exact (hm b).2.2.1 ha i hi j hj hn
          · exact fun b => forBlocks_ok hb0 b

/-- What validated bounds are. -/
theorem validateBounds_ok {m : FMatrix} {user : Option (FMatrix × FMatrix)} {bounds : BoundsMatrix}
    (h : validateBounds m user = .ok bounds) (i j : ℕ) (hi : i < m.rows) (hj : j < m.cols) :
    (user = none ∧ bounds i j = (⊥, ⊤)) ∨
      ∃ lb ub, user = some (lb, ub) ∧ bounds i j = (Spec.userLower lb i j, Spec.userUpper ub i j) ∧
        ∀ x, m.entry i j = some x → Spec.userLower lb i j ≤ x ∧ x ≤ Spec.userUpper ub i j := by
  unfold validateBounds at h
  split at h
  · have := Except.ok.inj h
    subst this
    exact Or.inl ⟨rfl, rfl⟩
  · rename_i lb ub
    split at h
    · rename_i h0
      rcases Nat.mul_eq_zero.1 h0 with h0 | h0 <;> omega
    · split at h
      · cases h
      · split at h
        · cases h
        · dsimp only at h
          split at h
          · cases h
          · rename_i hw
            have := Except.ok.inj h
            subst this
            have hl : (lb.entry i j).getD ⊥ = Spec.userLower lb i j := by
              unfold Spec.userLower
              cases lb.entry i j <;> rfl
            have hu : (ub.entry i j).getD ⊤ = Spec.userUpper ub i j := by
              unfold Spec.userUpper
              cases ub.entry i j <;> rfl
            refine Or.inr ⟨lb, ub, rfl, by rw [← hl, ← hu], ?_⟩
            intro x hx
            rw [← hl, ← hu]
            constructor
            · by_contra hlt
              exact hw ⟨i, hi, j, hj, Or.inl ⟨x, _, hx, rfl, not_le.1 hlt⟩⟩
            · by_contra hlt
              exact hw ⟨i, hi, j, hj, Or.inr ⟨_, x, rfl, hx, not_le.1 hlt⟩⟩

theorem built_bounds {e : ParamInputs} {p : Parameters} {b0 : Block → BoundsMatrix} (H : Built e p b0) (b : Block) :
    ∃ v, validateBounds (p.mats b) (e.bounds b) = .ok v ∧ b0 b = fixZeros (p.mats b) (dropBounds e.bounded v) := by
  have := H.bounds b
  unfold initializeBounds at this
  split at this
  · cases this
  · rename_i v hv
    exact ⟨v, hv, (Except.ok.inj this).symm⟩

theorem bot_ne_top' : (⊥ : EReal) ≠ ⊤ := bot_ne_top

/-- When the stored bounds of an element are equal. -/
theorem equal_iff {e : ParamInputs} {p : Parameters} {b0 : Block → BoundsMatrix} (H : Built e p b0) (b : Block) (i j : ℕ)
    (hi : i < (p.mats b).rows) (hj : j < (p.mats b).cols) :
    (b0 b i j).1 = (b0 b i j).2 ↔ Spec.start e b i j = some 0 ∨ Spec.FixedByUser e b i j := by
  obtain ⟨v, hv, hb⟩ := built_bounds H b
  rw [hb, ← H.entry]
  unfold fixZeros
  by_cases h0 : (p.mats b).entry i j = some 0
  · simp [h0]
  · rw [if_neg h0]
    have hdrop : (dropBounds e.bounded v i j).1 = (dropBounds e.bounded v i j).2 ↔ (v i j).1 = (v i j).2 := by
      unfold dropBounds
      cases e.bounded
      · show (if (v i j).1 ≠ (v i j).2 then ((⊥, ⊤) : EReal × EReal) else v i j).1 =
          (if (v i j).1 ≠ (v i j).2 then ((⊥, ⊤) : EReal × EReal) else v i j).2 ↔ _
        by_cases hne : (v i j).1 = (v i j).2
        · rw [if_neg (not_not.2 hne)]
        · rw [if_pos hne]
          exact ⟨fun h => absurd h bot_ne_top', fun h => absurd h hne⟩
      · rfl
    rw [hdrop]
    rcases validateBounds_ok hv i j hi hj with ⟨hn, hvij⟩ | ⟨lb, ub, hs, hvij, _⟩
    · rw [hvij]
      constructor
      · exact fun h => absurd h bot_ne_top'
      · rintro (h | ⟨lb, ub, h, _⟩)
        · exact absurd h h0
        · rw [hn] at h
          cases h
    · rw [hvij]
      constructor
      · exact fun h => Or.inr ⟨lb, ub, hs, h⟩
      · rintro (h | ⟨lb', ub', h, h'⟩)
        · exact absurd h h0
        · rw [hs] at h
          cases h
          exact h'

/-! ## C44 -/

/-- **C44.** An element is in `theta` exactly when it is an element of a supplied matrix (of the lower triangle for `sigma`), its
starting value is neither zero nor a NaN among linear parameters, and it is not fixed by equal bounds. -/
theorem C44_estimated {e : ParamInputs} {p : Parameters} (h : buildParameters e = .ok p) (b : Block) (i j : ℕ) :
    (⟨b, i, j⟩ : Param) ∈ p.stored.unfixed ↔
      i < (p.mats b).rows ∧ j < (p.mats b).cols ∧ (b = .sigma → j ≤ i) ∧ Spec.start e b i j ≠ some 0 ∧
        ¬ (Spec.Linear b ∧ Spec.start e b i j = none) ∧ ¬ Spec.FixedByUser e b i j := by
  obtain ⟨b0, H⟩ := built_of_ok h
  rw [H.stored, storeAll_eq]
  simp only [List.mem_filter, mem_allParams, decide_eq_true_eq]
  unfold isEliminated isEqual
  simp only [H.entry]
  constructor
  · rintro ⟨⟨h1, h2, h3⟩, h4, h5⟩
    rw [equal_iff H b i j h1 h2] at h5
    exact ⟨h1, h2, h3, fun h => h5 (Or.inl h), h4, fun h => h5 (Or.inr h)⟩
  · rintro ⟨h1, h2, h3, h4, h5, h6⟩
    refine ⟨⟨h1, h2, h3⟩, h5, ?_⟩
    rw [equal_iff H b i j h1 h2]
    rintro (h | h)
    · exact h4 h
    · exact h6 h

/-- **C44.** Exactly the linear parameters with NaN starting values are concentrated out. -/
theorem C44_concentrated {e : ParamInputs} {p : Parameters} (h : buildParameters e = .ok p) (b : Block) (i j : ℕ) :
    (⟨b, i, j⟩ : Param) ∈ p.stored.eliminated ↔
      i < (p.mats b).rows ∧ j < (p.mats b).cols ∧ Spec.Linear b ∧ Spec.start e b i j = none := by
  obtain ⟨b0, H⟩ := built_of_ok h
  rw [H.stored, storeAll_eq]
  simp only [List.mem_filter, mem_allParams, decide_eq_true_eq]
  unfold isEliminated
  simp only [H.entry]
  constructor
  · rintro ⟨⟨h1, h2, h3⟩, h4, h5⟩
    exact ⟨h1, h2, h4, h5⟩
  · rintro ⟨h1, h2, h3, h4⟩
    refine ⟨⟨h1, h2, ?_⟩, h3, h4⟩
    rintro rfl
    rcases h3 with h3 | h3 <;> cases h3

/-- **C44.** Every element is in exactly one of the three groups and appears there once: fixed, estimated or concentrated out. -/
theorem C44_partition {e : ParamInputs} {p : Parameters} (h : buildParameters e = .ok p) :
    ((p.stored.fixed.map Prod.fst ++ p.stored.unfixed ++ p.stored.eliminated).Nodup) ∧
      ∀ b i j, (⟨b, i, j⟩ : Param) ∈ p.stored.fixed.map Prod.fst ++ p.stored.unfixed ++ p.stored.eliminated ↔
        i < (p.mats b).rows ∧ j < (p.mats b).cols ∧ (b = .sigma → j ≤ i) := by
  obtain ⟨b0, H⟩ := built_of_ok h
  rw [H.stored, storeAll_eq]
  simp only [List.map_map]
  have hid : (Prod.fst ∘ fun q : Param => (q, (b0 q.block q.row q.col).1)) = id := rfl
  rw [hid, List.map_id]
  have hnd := nodup_allParams p.mats
  constructor
  · refine List.Nodup.append (List.Nodup.append (hnd.filter _) (hnd.filter _) ?_) (hnd.filter _) ?_
    · intro q h1 h2
      simp only [List.mem_filter, decide_eq_true_eq] at h1 h2
      exact h2.2.2 h1.2.2
    · intro q h1 h2
      simp only [List.mem_append, List.mem_filter, decide_eq_true_eq] at h1 h2
      rcases h1 with h1 | h1
      · exact h1.2.1 h2.2
      · exact h1.2.1 h2.2
  · intro b i j
    simp only [List.mem_append, List.mem_filter, mem_allParams, decide_eq_true_eq]
    constructor
    · rintro ((⟨h, _⟩ | ⟨h, _⟩) | ⟨h, _⟩) <;> exact h
    · intro h
      by_cases h1 : isEliminated p.mats ⟨b, i, j⟩
      · exact Or.inr ⟨h, h1⟩
      · by_cases h2 : isEqual b0 ⟨b, i, j⟩
        · exact Or.inl (Or.inl ⟨h, h1, h2⟩)
        · exact Or.inl (Or.inr ⟨h, h1, h2⟩)

/-- **C44.** `theta` lists elements of `sigma`, `pi`, `rho`, `phi`, `beta` and `gamma` in this order, row by row. -/
theorem C44_order {e : ParamInputs} {p : Parameters} (h : buildParameters e = .ok p) : p.stored.unfixed.Pairwise Spec.Before := by
  obtain ⟨b0, H⟩ := built_of_ok h
  rw [H.stored, storeAll_eq]
  exact (pairwise_allParams p.mats).filter _

/-! ## C45 -/

/-- **C45.** Every estimated parameter starts at a value within its bounds, whether these were supplied or are defaults. -/
theorem C45_start_within {e : ParamInputs} {p : Parameters} (h : buildParameters e = .ok p) (q : Param) (hq : q ∈ p.stored.unfixed) :
    ∃ x, Spec.start e q.block q.row q.col = some x ∧ (p.bounds q.block q.row q.col).1 ≤ x ∧ x ≤ (p.bounds q.block q.row q.col).2 := by
  obtain ⟨b, i, j⟩ := q
  obtain ⟨hi, hj, _, h0, hl, _⟩ := (C44_estimated h b i j).1 hq
  obtain ⟨b0, H⟩ := built_of_ok h
  dsimp only
  have hsome : ∃ x, Spec.start e b i j = some x := by
    cases hx : Spec.start e b i j with
    | some x => exact ⟨x, rfl⟩
    | none =>
      rw [← H.entry] at hx
      have := H.nan b i j hi hj hx
      exact absurd ⟨this, by rw [← H.entry]; exact hx⟩ hl
  obtain ⟨x, hx⟩ := hsome
  refine ⟨x, hx, ?_⟩
  have hb0 : (b0 b i j).1 ≤ x ∧ x ≤ (b0 b i j).2 := by
    obtain ⟨v, hv, hb⟩ := built_bounds H b
    rw [hb]
    unfold fixZeros
    rw [H.entry, if_neg h0]
    have hvx : (v i j).1 ≤ x ∧ x ≤ (v i j).2 := by
      rcases validateBounds_ok hv i j hi hj with ⟨_, hvij⟩ | ⟨lb, ub, _, hvij, hin⟩
      · rw [hvij]
        exact ⟨bot_le, le_top⟩
      · rw [hvij]
        exact hin x (by rw [H.entry]; exact hx)
    unfold dropBounds
    cases e.bounded
    · show (if (v i j).1 ≠ (v i j).2 then ((⊥, ⊤) : EReal × EReal) else v i j).1 ≤ x ∧
        x ≤ (if (v i j).1 ≠ (v i j).2 then ((⊥, ⊤) : EReal × EReal) else v i j).2
      by_cases hne : (v i j).1 ≠ (v i j).2
      · rw [if_pos hne]
        exact ⟨bot_le, le_top⟩
      · rw [if_neg hne]
        exact hvx
    · exact hvx
  rw [H.final]
  unfold withDefaults
  by_cases hc : e.bounded ∧ (⟨b, i, j⟩ : Param) ∈ p.stored.unfixed
  · rw [if_pos hc]
    unfold defaultBounds
    dsimp only
    rw [H.entry, hx]
    show (if _ then (min 0 x, (b0 b i j).2) else if _ then (min 0 x, max _ x) else b0 b i j).1 ≤ x ∧
      x ≤ (if _ then (min 0 x, (b0 b i j).2) else if _ then (min 0 x, max _ x) else b0 b i j).2
    split
    · exact ⟨min_le_right _ _, hb0.2⟩
    · split
      · exact ⟨min_le_right _ _, le_max_right _ _⟩
      · exact hb0
  · rw [if_neg hc]
    exact hb0

/-- **C45.** The only error is a `ValueError`. -/
theorem C45_value_error (e : ParamInputs) (x : PyErr) (h : buildParameters e = .error x) : x = .valueError := by
  unfold buildParameters at h
  split at h
  · rename_i y hy
    cases h
    obtain ⟨b, hb⟩ := forBlocks_error hy
    unfold initializeMatrix at hb
    dsimp only at hb
    split at hb
    · cases hb
    · split at hb
      · cases hb; rfl
      · split at hb
        · cases hb; rfl
        · split at hb
          · cases hb; rfl
          · cases hb
  · split at h
    · cases h; rfl
    · split at h
      · cases h; rfl
      · split at h
        · rename_i y hy
          cases h
          obtain ⟨b, hb⟩ := forBlocks_error hy
          unfold initializeBounds at hb
          split at hb
          · rename_i y' hy'
            cases hb
            unfold validateBounds at hy'
            split at hy'
            · cases hy'
            · split at hy'
              · cases hy'
              · split at hy'
                · cases hy'; rfl
                · split at hy'
                  · cases hy'; rfl
                  · dsimp only at hy'
                    split at hy'
                    · cases hy'; rfl
                    · cases hy'
          · cases hb
        · cases h

/-- **C45.** Bounds that exclude a starting value are rejected with a `ValueError`. -/
theorem C45_rejected (e : ParamInputs) (b : Block) (lb ub m : FMatrix) (hb : e.bounds b = some (lb, ub)) (hm : e.values b = some m)
    (i j : ℕ) (hi : i < m.rows) (hj : j < m.cols) (x : EReal) (hx : Spec.start e b i j = some x)
    (hout : x < Spec.userLower lb i j ∨ Spec.userUpper ub i j < x) : buildParameters e = .error .valueError := by
  cases h : buildParameters e with
  | error y => rw [C45_value_error e y h]
  | ok p =>
    exfalso
    obtain ⟨b0, H⟩ := built_of_ok h
    obtain ⟨v, hv, _⟩ := built_bounds H b
    have hg := H.given b m hm
    rcases validateBounds_ok hv i j (by omega) (by omega) with ⟨hn, _⟩ | ⟨lb', ub', hs, _, hin⟩
    · rw [hb] at hn
      cases hn
    · rw [hb] at hs
      cases hs
      have := hin x (by rw [H.entry]; exact hx)
      rcases hout with h | h
      · exact absurd this.1 (not_le.2 h)
      · exact absurd this.2 (not_le.2 h)

theorem built_b0_unfixed {e : ParamInputs} {p : Parameters} {b0 : Block → BoundsMatrix} (H : Built e p b0) (b : Block) (i j : ℕ)
    (hi : i < (p.mats b).rows) (hj : j < (p.mats b).cols) (h0 : Spec.start e b i j ≠ some 0) (hf : ¬ Spec.FixedByUser e b i j) :
    b0 b i j = if e.bounded then
      (match e.bounds b with | none => (⊥, ⊤) | some (lb, ub) => (Spec.userLower lb i j, Spec.userUpper ub i j))
      else (⊥, ⊤) := by
  obtain ⟨v, hv, hb⟩ := built_bounds H b
  rw [hb]
  unfold fixZeros
  rw [H.entry, if_neg h0]
  unfold dropBounds
  rcases validateBounds_ok hv i j hi hj with ⟨hn, hvij⟩ | ⟨lb, ub, hs, hvij, _⟩
  · cases e.bounded
    · show (if (v i j).1 ≠ (v i j).2 then ((⊥, ⊤) : EReal × EReal) else v i j) = (⊥, ⊤)
      rw [hvij]
      split <;> rfl
    · show v i j = _
      rw [hvij, hn]
      rfl
  · cases e.bounded
    · show (if (v i j).1 ≠ (v i j).2 then ((⊥, ⊤) : EReal × EReal) else v i j) = (⊥, ⊤)
      rw [hvij, if_pos]
      exact fun h => hf ⟨lb, ub, hs, h⟩
    · show v i j = _
      rw [hvij, hs]
      rfl

/-- **C45.** If the optimizer does not support bounds, an estimated parameter has none. -/
theorem C45_unsupported {e : ParamInputs} {p : Parameters} (h : buildParameters e = .ok p) (hb : e.bounded = false) (q : Param)
    (hq : q ∈ p.stored.unfixed) : p.bounds q.block q.row q.col = (⊥, ⊤) := by
  obtain ⟨b, i, j⟩ := q
  obtain ⟨hi, hj, _, h0, hl, hf⟩ := (C44_estimated h b i j).1 hq
  obtain ⟨b0, H⟩ := built_of_ok h
  rw [H.final]
  unfold withDefaults
  dsimp only
  rw [if_neg (by rw [hb]; simp), built_b0_unfixed H b i j hi hj h0 hf, hb]
  rfl

/-- **C45.** Otherwise bounds supplied for an estimated parameter are used as they are. -/
theorem C45_supplied {e : ParamInputs} {p : Parameters} (h : buildParameters e = .ok p) (hb : e.bounded = true) (q : Param)
    (hq : q ∈ p.stored.unfixed) (lb ub : FMatrix) (hu : e.bounds q.block = some (lb, ub)) :
    p.bounds q.block q.row q.col = (Spec.userLower lb q.row q.col, Spec.userUpper ub q.row q.col) := by
  obtain ⟨b, i, j⟩ := q
  obtain ⟨hi, hj, _, h0, hl, hf⟩ := (C44_estimated h b i j).1 hq
  obtain ⟨b0, H⟩ := built_of_ok h
  dsimp only at hu ⊢
  rw [H.final]
  unfold withDefaults
  rw [if_pos ⟨hb, hq⟩]
  unfold defaultBounds
  dsimp only
  rw [if_neg, if_neg, built_b0_unfixed H b i j hi hj h0 hf, hb, hu]
  · rfl
  · rintro ⟨rfl, h2⟩
    rw [hu] at h2
    cases h2
  · rintro ⟨rfl, h2, _⟩
    rw [hu] at h2
    cases h2

/-- **C45.** Default bounds: an estimated diagonal element of `sigma` is bounded below by zero or a negative starting value, elements
of `rho` are between zero and 0.99 or further out if they start there, and nothing else is bounded. -/
theorem C45_default {e : ParamInputs} {p : Parameters} (h : buildParameters e = .ok p) (hb : e.bounded = true) (q : Param)
    (hq : q ∈ p.stored.unfixed) (hu : e.bounds q.block = none) (x : EReal) (hx : Spec.start e q.block q.row q.col = some x) :
    p.bounds q.block q.row q.col =
      if q.block = .sigma ∧ q.row = q.col then (min 0 x, ⊤)
      else if q.block = .rho then (min 0 x, max ((0.99 : ℝ) : EReal) x)
      else (⊥, ⊤) := by
  obtain ⟨b, i, j⟩ := q
  obtain ⟨hi, hj, _, h0, hl, hf⟩ := (C44_estimated h b i j).1 hq
  obtain ⟨b0, H⟩ := built_of_ok h
  dsimp only at hu hx ⊢
  rw [H.final]
  unfold withDefaults
  rw [if_pos ⟨hb, hq⟩]
  unfold defaultBounds
  dsimp only
  rw [built_b0_unfixed H b i j hi hj h0 hf, hb, hu, H.entry, hx]
  dsimp only [Option.getD]
  by_cases h1 : b = .sigma ∧ i = j
  · rw [if_pos h1, if_pos ⟨h1.1, by rw [← h1.1, hu]; rfl, h1.2⟩]
    rfl
  · rw [if_neg h1, if_neg (fun h => h1 ⟨h.1, h.2.2⟩)]
    by_cases h2 : b = .rho
    · rw [if_pos h2, if_pos ⟨h2, by rw [← h2, hu]; rfl⟩]
    · rw [if_neg h2, if_neg (fun h => h2 h.1)]
      rfl

/-! ## C43 -/

theorem foldl_setParam_of_not_mem (l : List (Param × Fl)) (v : Block → ℕ → ℕ → Fl) (b : Block) (i j : ℕ)
    (h : (⟨b, i, j⟩ : Param) ∉ l.map Prod.fst) : l.foldl (fun v q => setParam v q.1 q.2) v b i j = v b i j := by
  induction l generalizing v with
  | nil => rfl
  | cons a l ih =>
    rw [List.map_cons, List.mem_cons, not_or] at h
    rw [List.foldl_cons, ih _ h.2]
    exact if_neg h.1

theorem foldl_setParam_of_mem (l : List (Param × Fl)) (hl : (l.map Prod.fst).Nodup) (v : Block → ℕ → ℕ → Fl) (q : Param) (x : Fl)
    (h : (q, x) ∈ l) : l.foldl (fun v q => setParam v q.1 q.2) v q.block q.row q.col = x := by
  induction l generalizing v with
  | nil => cases h
  | cons a l ih =>
    rw [List.map_cons, List.nodup_cons] at hl
    rw [List.foldl_cons]
    rcases List.mem_cons.1 h with h | h
    · subst h
      rw [foldl_setParam_of_not_mem l _ _ _ _ hl.1]
      exact if_pos rfl
    · exact ih hl.2 _ h

theorem compress_eq {e : ParamInputs} {p : Parameters} (h : buildParameters e = .ok p) {α : Type} (f : Block → ℕ → ℕ → α) :
    (Block.all.flatMap fun b => (p.stored.unfixed.filter fun q => decide (q.block = b)).map fun q => f b q.row q.col) =
      p.stored.unfixed.map fun q => f q.block q.row q.col := by
  obtain ⟨b0, H⟩ := built_of_ok h
  rw [H.stored, storeAll_eq]
  dsimp only
  generalize (fun q => decide (¬isEliminated p.mats q ∧ ¬isEqual b0 q)) = P
  have hsplit : ∀ c : Block, ((allParams p.mats).filter P).filter (fun q => decide (q.block = c)) =
      ((locations c (p.mats c)).map fun l => (⟨c, l.1, l.2⟩ : Param)).filter P := by
    intro c
    rw [List.filter_filter, show (fun q => decide (Param.block q = c) && P q) = fun q => P q && decide (Param.block q = c) from
      funext fun q => Bool.and_comm _ _, ← List.filter_filter]
    congr 1
    have hself : ∀ c : Block, (((locations c (p.mats c)).map fun l => (⟨c, l.1, l.2⟩ : Param)).filter fun q => decide (q.block = c)) =
        (locations c (p.mats c)).map fun l => (⟨c, l.1, l.2⟩ : Param) := by
      intro c
      rw [List.filter_eq_self]
      intro q hq
      obtain ⟨_, _, rfl⟩ := List.mem_map.1 hq
      simp
    have hother : ∀ d, d ≠ c → (((locations d (p.mats d)).map fun l => (⟨d, l.1, l.2⟩ : Param)).filter fun q => decide (q.block = c)) = [] := by
      intro d hd
      rw [List.filter_eq_nil_iff]
      intro q hq
      obtain ⟨_, _, rfl⟩ := List.mem_map.1 hq
      simpa using hd
    unfold allParams Block.all
    simp only [List.flatMap_cons, List.flatMap_nil, List.append_nil, List.filter_append]
    cases c <;> simp [hself, hother]
  simp only [hsplit]
  unfold allParams
  rw [List.filter_flatMap, List.map_flatMap]
  congr 1
  funext b
  apply List.map_congr_left
  intro q hq
  obtain ⟨_, _, rfl⟩ := List.mem_map.1 (List.mem_filter.1 hq).1
  rfl

theorem nodup_unfixed {e : ParamInputs} {p : Parameters} (h : buildParameters e = .ok p) : p.stored.unfixed.Nodup :=
  (C44_order h).imp fun {a b} (h : Spec.Before a b) (hab : a = b) => before_irrefl b (hab ▸ h)

theorem nodup_fixed {e : ParamInputs} {p : Parameters} (h : buildParameters e = .ok p) : (p.stored.fixed.map Prod.fst).Nodup :=
  (List.nodup_append.1 (List.nodup_append.1 (C44_partition h).1).1).1

theorem fixed_not_unfixed {e : ParamInputs} {p : Parameters} (h : buildParameters e = .ok p) (q : Param)
    (hq : q ∈ p.stored.fixed.map Prod.fst) : q ∉ p.stored.unfixed := fun h' =>
  (List.nodup_append.1 (List.nodup_append.1 (C44_partition h).1).1).2.2 q hq q h' rfl

/-- A fixed parameter is fixed at its starting value. -/
theorem fixed_value {e : ParamInputs} {p : Parameters} (h : buildParameters e = .ok p) (q : Param) (x : EReal)
    (hq : (q, x) ∈ p.stored.fixed) : Spec.start e q.block q.row q.col = some x := by
  obtain ⟨b0, H⟩ := built_of_ok h
  rw [H.stored, storeAll_eq] at hq
  obtain ⟨q', hq', heq⟩ := List.mem_map.1 hq
  obtain ⟨rfl, rfl⟩ := Prod.mk.inj heq
  simp only [List.mem_filter, mem_allParams, decide_eq_true_eq] at hq'
  obtain ⟨⟨hi, hj, _⟩, he, heqb⟩ := hq'
  have hs : ∃ y, Spec.start e q'.block q'.row q'.col = some y := by
    cases hx : Spec.start e q'.block q'.row q'.col with
    | some y => exact ⟨y, rfl⟩
    | none =>
      rw [← H.entry] at hx
      exact absurd ⟨H.nan _ _ _ hi hj hx, hx⟩ he
  obtain ⟨y, hy⟩ := hs
  rw [hy]
  congr 1
  unfold isEqual at heqb
  obtain ⟨v, hv, hb⟩ := built_bounds H q'.block
  rw [hb] at heqb ⊢
  unfold fixZeros at heqb ⊢
  rw [H.entry, hy] at heqb ⊢
  by_cases h0 : (some y : Fl) = some 0
  · rw [if_pos h0]
    exact Option.some.inj h0
  · rw [if_neg h0] at heqb ⊢
    have hvx : (v q'.row q'.col).1 ≤ y ∧ y ≤ (v q'.row q'.col).2 := by
      rcases validateBounds_ok hv _ _ hi hj with ⟨_, hvij⟩ | ⟨lb, ub, _, hvij, hin⟩
      · rw [hvij]
        exact ⟨bot_le, le_top⟩
      · rw [hvij]
        exact hin y (by rw [H.entry]; exact hy)
    have key : dropBounds e.bounded v q'.row q'.col = v q'.row q'.col := by
      unfold dropBounds at heqb ⊢
      cases hbd : e.bounded
      · rw [hbd] at heqb
        change (if (v q'.row q'.col).1 ≠ (v q'.row q'.col).2 then ((⊥, ⊤) : EReal × EReal) else v q'.row q'.col).1 =
          (if (v q'.row q'.col).1 ≠ (v q'.row q'.col).2 then ((⊥, ⊤) : EReal × EReal) else v q'.row q'.col).2 at heqb
        show (if (v q'.row q'.col).1 ≠ (v q'.row q'.col).2 then ((⊥, ⊤) : EReal × EReal) else v q'.row q'.col) = _
        by_cases hne : (v q'.row q'.col).1 ≠ (v q'.row q'.col).2
        · rw [if_pos hne] at heqb
          exact absurd heqb bot_ne_top'
        · rw [if_neg hne]
      · rfl
    rw [key] at heqb ⊢
    exact le_antisymm (heqb ▸ hvx.2) hvx.1

theorem zip_map_fst {α β : Type} (l : List α) (t : List β) (h : l.length ≤ t.length) : (l.zip t).map Prod.fst = l :=
  List.map_fst_zip h

theorem expand_fold (p : Parameters) (upper : Block → ℕ → ℕ → Fl) :
    p.stored.fixed.foldl (fun v q => setParam v q.1 (some q.2)) upper =
      (p.stored.fixed.map fun q => (q.1, (some q.2 : Fl))).foldl (fun v q => setParam v q.1 q.2) upper := by
  rw [List.foldl_map]

/-- `expand` at each kind of element. -/
theorem expand_unfixed {e : ParamInputs} {p : Parameters} (h : buildParameters e = .ok p) (theta : List Fl)
    (ht : theta.length = p.stored.unfixed.length) (nullify : Bool) (k : ℕ) (hk : k < p.stored.unfixed.length) :
    expand p theta nullify p.stored.unfixed[k].block p.stored.unfixed[k].row p.stored.unfixed[k].col =
      theta[k]'(by omega) := by
  have hmem : (p.stored.unfixed[k], theta[k]'(by omega)) ∈ p.stored.unfixed.zip theta := by
    rw [List.mem_iff_getElem]
    exact ⟨k, by rw [List.length_zip]; omega, List.getElem_zip⟩
  have hfill := foldl_setParam_of_mem (p.stored.unfixed.zip theta)
    (by rw [zip_map_fst _ _ (le_of_eq ht.symm)]; exact nodup_unfixed h) (fun _ _ _ => none) _ _ hmem
  unfold expand
  dsimp only
  cases nullify
  · rw [if_neg (by simp), expand_fold, foldl_setParam_of_not_mem]
    · have hl := (C44_estimated h p.stored.unfixed[k].block p.stored.unfixed[k].row p.stored.unfixed[k].col).1
        (List.getElem_mem hk)
      rw [if_neg]
      · exact hfill
      · rintro ⟨h1, h2⟩
        exact absurd (hl.2.2.1 h1) (not_le.2 h2)
    · rw [List.map_map]
      intro hc
      exact fixed_not_unfixed h _ (by simpa using hc) (List.getElem_mem hk)
  · rw [if_pos rfl]
    exact hfill

/-- **C43.** Compressing what was expanded from any `theta` gives `theta` back. -/
theorem C43_compress_expand {e : ParamInputs} {p : Parameters} (h : buildParameters e = .ok p) (theta : List Fl)
    (ht : theta.length = p.stored.unfixed.length) : compress p (expand p theta false) = theta := by
  unfold compress
  rw [compress_eq h]
  apply List.ext_getElem
  · rw [List.length_map, ht]
  · intro k h1 h2
    rw [List.getElem_map]
    exact expand_unfixed h theta ht false k (by omega)

/-- **C43.** Whatever `theta` is, a fixed element keeps its starting value, an element that is concentrated out is NaN, and the upper
triangle of `sigma` is zero. -/
theorem C43_fixed {e : ParamInputs} {p : Parameters} (h : buildParameters e = .ok p) (theta : List Fl)
    (ht : theta.length = p.stored.unfixed.length) (b : Block) (i j : ℕ) (hi : i < (p.mats b).rows) (hj : j < (p.mats b).cols)
    (hu : (⟨b, i, j⟩ : Param) ∉ p.stored.unfixed) : expand p theta false b i j = Spec.start e b i j := by
  have hfill : (p.stored.unfixed.zip theta).foldl (fun v q => setParam v q.1 q.2) (fun _ _ _ => none) b i j = none := by
    apply foldl_setParam_of_not_mem
    rw [zip_map_fst _ _ (le_of_eq ht.symm)]
    exact hu
  unfold expand
  dsimp only
  rw [if_neg (by simp), expand_fold]
  by_cases hf : (⟨b, i, j⟩ : Param) ∈ p.stored.fixed.map Prod.fst
  · obtain ⟨⟨q, x⟩, hq, heq⟩ := List.mem_map.1 hf
    dsimp only at heq
    subst heq
    have hmem : ((⟨b, i, j⟩ : Param), (some x : Fl)) ∈ p.stored.fixed.map fun q => (q.1, (some q.2 : Fl)) :=
      List.mem_map.2 ⟨_, hq, rfl⟩
    have := foldl_setParam_of_mem (p.stored.fixed.map fun q => (q.1, (some q.2 : Fl)))
      (by rw [List.map_map]; exact nodup_fixed h)
      (fun b i j => if b = .sigma ∧ i < j then some 0 else
        (p.stored.unfixed.zip theta).foldl (fun v q => setParam v q.1 q.2) (fun _ _ _ => none) b i j) _ _ hmem
    rw [fixed_value h _ _ hq]
    exact this
  · rw [foldl_setParam_of_not_mem]
    · by_cases hs : b = .sigma ∧ i < j
      · rw [if_pos hs]
        unfold Spec.start
        rw [if_pos hs]
      · rw [if_neg hs]
        refine hfill.trans ?_
        have hin := ((C44_partition h).2 b i j).2 ⟨hi, hj, fun hb => by
          by_contra hlt
          exact hs ⟨hb, not_le.1 hlt⟩⟩
        rw [List.mem_append, List.mem_append] at hin
        rcases hin with (h1 | h1) | h1
        · exact absurd h1 hf
        · exact absurd h1 hu
        · exact (((C44_concentrated h b i j).1 h1).2.2.2).symm
    · rw [List.map_map]
      exact hf

/-- **C43.** Compressing starting values and expanding them again gives them back at every element of every matrix. -/
theorem C43_expand_compress {e : ParamInputs} {p : Parameters} (h : buildParameters e = .ok p) (b : Block) (i j : ℕ)
    (hi : i < (p.mats b).rows) (hj : j < (p.mats b).cols) :
    expand p (compress p (Spec.start e)) false b i j = Spec.start e b i j := by
  have hlen : (compress p (Spec.start e)).length = p.stored.unfixed.length := by
    unfold compress
    rw [compress_eq h, List.length_map]
  by_cases hu : (⟨b, i, j⟩ : Param) ∈ p.stored.unfixed
  · obtain ⟨k, hk, hkq⟩ := List.mem_iff_getElem.1 hu
    have := expand_unfixed h (compress p (Spec.start e)) hlen false k hk
    rw [hkq] at this
    rw [this]
    have hc : compress p (Spec.start e) = p.stored.unfixed.map fun q => Spec.start e q.block q.row q.col := by
      unfold compress
      exact compress_eq h _
    simp only [hc, List.getElem_map, hkq]
  · exact C43_fixed h _ hlen b i j hi hj hu

/-- **C43, C45.** Compressed bounds are listed in the same order as `theta`. -/
theorem C43_bounds_order {e : ParamInputs} {p : Parameters} (h : buildParameters e = .ok p) :
    compressBounds p = p.stored.unfixed.map fun q => p.bounds q.block q.row q.col := by
  unfold compressBounds
  exact compress_eq h _

/-! ## C46 -/

theorem fillMask_of_not_mem (mask : List ℕ) (entries : List Fl) (v : ℕ → Fl) (i : ℕ) (h : i ∉ mask) :
    fillMask v mask entries i = v i := by
  unfold fillMask
  induction mask generalizing v entries with
  | nil => rfl
  | cons a l ih =>
    cases entries with
    | nil => rfl
    | cons x xs =>
      rw [List.mem_cons, not_or] at h
      rw [List.zip_cons_cons, List.foldl_cons, ih _ _ h.2]
      exact if_neg h.1

theorem fillMask_get (mask : List ℕ) (entries : List Fl) (v : ℕ → Fl) (hn : mask.Nodup) (k : ℕ) (hk : k < mask.length)
    (hke : k < entries.length) : fillMask v mask entries mask[k] = entries[k] := by
  induction mask generalizing v entries k with
  | nil => cases hk
  | cons a l ih =>
    cases entries with
    | nil => cases hke
    | cons x xs =>
      rw [List.nodup_cons] at hn
      unfold fillMask
      rw [List.zip_cons_cons, List.foldl_cons]
      cases k with
      | zero =>
        have := fillMask_of_not_mem l xs (fun i => if i = a then x else v i) a hn.1
        unfold fillMask at this
        simp only [List.getElem_cons_zero]
        rw [this]
        exact if_pos rfl
      | succ k =>
        simp only [List.getElem_cons_succ]
        exact ih xs _ hn.2 k (by simpa using hk) (by simpa using hke)

theorem nodup_eliminatedRows (m : FMatrix) : (eliminatedRows m).Nodup := by
  unfold eliminatedRows
  exact List.nodup_range.filter _

/-- Specification of a standard error: the square root of a variance over the number of observations, NaN if there is none. -/
noncomputable def Spec.standardError (variance : Option ℝ) (N : ℕ) : Fl :=
  match variance with
  | none => none
  | some v => if v / N < 0 then none else some ((Real.sqrt (v / N) : ℝ) : EReal)

theorem sqrtFl_eq (v : Option ℝ) (N : ℕ) : sqrtFl (v.map (· / (N : ℝ))) = Spec.standardError v N := by
  cases v <;> rfl

theorem shape_linear {e : ParamInputs} {p : Parameters} (h : buildParameters e = .ok p) {b : Block} (hb : Spec.Linear b) :
    (p.mats b).cols = 1 := by
  obtain ⟨b0, H⟩ := built_of_ok h
  have := H.shape b
  rcases hb with rfl | rfl
  · simp only [ParamInputs.shapes, List.mem_singleton] at this
    exact (Prod.mk.inj this).2
  · simp only [ParamInputs.shapes, List.mem_singleton] at this
    exact (Prod.mk.inj this).2

/-- **C46.** The standard error at the location of the `k`-th estimated nonlinear parameter is from the `k`-th variance. -/
theorem C46_theta {e : ParamInputs} {p : Parameters} (h : buildParameters e = .ok p) (N : ℕ) (diagonal : List (Option ℝ))
    (hd : p.stored.unfixed.length ≤ diagonal.length) (k : ℕ) (hk : k < p.stored.unfixed.length) :
    standardErrors p N diagonal p.stored.unfixed[k].block p.stored.unfixed[k].row p.stored.unfixed[k].col =
      Spec.standardError (diagonal[k]'(by omega)) N := by
  have hex := expand_unfixed h ((diagonal.map fun x => sqrtFl (x.map (· / (N : ℝ)))).take p.stored.unfixed.length)
    (by rw [List.length_take, List.length_map]; omega) true k hk
  have hval : ((diagonal.map fun x => sqrtFl (x.map (· / (N : ℝ)))).take p.stored.unfixed.length)[k]'(by
      rw [List.length_take, List.length_map]; omega) = Spec.standardError (diagonal[k]'(by omega)) N := by
    rw [List.getElem_take, List.getElem_map, sqrtFl_eq]
  rw [hval] at hex
  have hin := (C44_estimated h p.stored.unfixed[k].block p.stored.unfixed[k].row p.stored.unfixed[k].col).1 (List.getElem_mem hk)
  obtain ⟨b0, H⟩ := built_of_ok h
  have hnot : ∀ b, b = p.stored.unfixed[k].block → Spec.Linear b → p.stored.unfixed[k].row ∉ eliminatedRows (p.mats b) ∧
      p.stored.unfixed[k].col = 0 := by
    intro b hb hl
    have hc := shape_linear h hl
    subst hb
    have h0 : p.stored.unfixed[k].col = 0 := by have := hin.2.1; omega
    refine ⟨?_, h0⟩
    intro hm
    unfold eliminatedRows at hm
    rw [List.mem_filter, decide_eq_true_eq, H.entry] at hm
    exact hin.2.2.2.2.1 ⟨hl, by rw [h0]; exact hm.2⟩
  unfold standardErrors
  generalize p.stored.unfixed[k] = q at hex hnot ⊢
  obtain ⟨b, i, j⟩ := q
  dsimp only at hex hnot ⊢
  cases b
  case beta =>
    obtain ⟨h1, h2⟩ := hnot .beta rfl (Or.inl rfl)
    subst h2
    dsimp only
    rw [if_pos rfl, fillMask_of_not_mem _ _ _ _ h1]
    exact hex
  case gamma =>
    obtain ⟨h1, h2⟩ := hnot .gamma rfl (Or.inr rfl)
    subst h2
    dsimp only
    rw [if_pos rfl, fillMask_of_not_mem _ _ _ _ h1]
    exact hex
  all_goals exact hex

theorem expand_null {p : Parameters} (theta : List Fl) (b : Block) (i j : ℕ)
    (hu : (⟨b, i, j⟩ : Param) ∉ p.stored.unfixed) : expand p theta true b i j = none := by
  unfold expand
  dsimp only
  rw [if_pos rfl]
  apply foldl_setParam_of_not_mem
  intro hc
  obtain ⟨⟨q, x⟩, hq, heq⟩ := List.mem_map.1 hc
  dsimp only at heq
  subst heq
  exact hu (List.of_mem_zip hq).1

/-- **C46.** Everything that is not estimated has no standard error. -/
theorem C46_fixed {e : ParamInputs} {p : Parameters} (h : buildParameters e = .ok p) (N : ℕ) (diagonal : List (Option ℝ))
    (b : Block) (i j : ℕ) (hi : i < (p.mats b).rows) (hu : (⟨b, i, j⟩ : Param) ∉ p.stored.unfixed)
    (he : (⟨b, i, j⟩ : Param) ∉ p.stored.eliminated) : standardErrors p N diagonal b i j = none := by
  obtain ⟨b0, H⟩ := built_of_ok h
  have hnot : Spec.Linear b → j = 0 → i ∉ eliminatedRows (p.mats b) := by
    intro hl hj hm
    unfold eliminatedRows at hm
    rw [List.mem_filter, decide_eq_true_eq, H.entry] at hm
    exact he ((C44_concentrated h b i j).2 ⟨hi, by rw [shape_linear h hl]; omega, hl, by rw [hj]; exact hm.2⟩)
  unfold standardErrors
  cases b
  case beta =>
    dsimp only
    by_cases hj : j = 0
    · rw [if_pos hj, fillMask_of_not_mem _ _ _ _ (hnot (Or.inl rfl) hj)]
      subst hj
      exact expand_null _ _ _ _ hu
    · rw [if_neg hj]
      exact expand_null _ _ _ _ hu
  case gamma =>
    dsimp only
    by_cases hj : j = 0
    · rw [if_pos hj, fillMask_of_not_mem _ _ _ _ (hnot (Or.inr rfl) hj)]
      subst hj
      exact expand_null _ _ _ _ hu
    · rw [if_neg hj]
      exact expand_null _ _ _ _ hu
  all_goals exact expand_null _ _ _ _ hu

/-- **C46.** The standard error of the `k`-th coefficient in `beta` that is concentrated out is from variance `P + k`. -/
theorem C46_beta (p : Parameters) (N : ℕ) (diagonal : List (Option ℝ))
    (hd : p.stored.unfixed.length + (eliminatedRows (p.mats .beta)).length ≤ diagonal.length) (k : ℕ)
    (hk : k < (eliminatedRows (p.mats .beta)).length) :
    standardErrors p N diagonal .beta (eliminatedRows (p.mats .beta))[k] 0 =
      Spec.standardError (diagonal[p.stored.unfixed.length + k]'(by omega)) N := by
  unfold standardErrors
  dsimp only
  rw [if_pos rfl, fillMask_get _ _ _ (nodup_eliminatedRows _) k hk (by
    rw [List.length_take, List.length_drop, List.length_map]; omega)]
  rw [List.getElem_take, List.getElem_drop, List.getElem_map, sqrtFl_eq]

/-- **C46.** The standard error of the `k`-th coefficient in `gamma` that is concentrated out is from the variance after those of
`theta` and `beta`. -/
theorem C46_gamma (p : Parameters) (N : ℕ) (diagonal : List (Option ℝ))
    (hd : p.stored.unfixed.length + (eliminatedRows (p.mats .beta)).length + (eliminatedRows (p.mats .gamma)).length ≤
      diagonal.length) (k : ℕ) (hk : k < (eliminatedRows (p.mats .gamma)).length) :
    standardErrors p N diagonal .gamma (eliminatedRows (p.mats .gamma))[k] 0 =
      Spec.standardError (diagonal[p.stored.unfixed.length + (eliminatedRows (p.mats .beta)).length + k]'(by omega)) N := by
  unfold standardErrors
  dsimp only
  rw [if_pos rfl, fillMask_get _ _ _ (nodup_eliminatedRows _) k hk (by
    rw [List.length_drop, List.length_map]; omega)]
  rw [List.getElem_drop, List.getElem_map, sqrtFl_eq]

/-- **C46.** Coefficients that are concentrated out are listed row by row. -/
theorem C46_rows {e : ParamInputs} {p : Parameters} (h : buildParameters e = .ok p) (b : Block) (hb : Spec.Linear b) :
    (eliminatedRows (p.mats b)).Pairwise (· < ·) ∧ ∀ i, i ∈ eliminatedRows (p.mats b) ↔ (⟨b, i, 0⟩ : Param) ∈ p.stored.eliminated := by
  obtain ⟨b0, H⟩ := built_of_ok h
  unfold eliminatedRows
  refine ⟨List.pairwise_lt_range.filter _, fun i => ?_⟩
  rw [List.mem_filter, List.mem_range, decide_eq_true_eq, C44_concentrated h, H.entry, shape_linear h hb]
  exact ⟨fun h => ⟨h.1, Nat.one_pos, hb, h.2⟩, fun h => ⟨h.1, h.2.2.2⟩⟩

/-! ## An example -/

/-- One random coefficient with standard deviation 2, one group with `rho` of one half, and three linear parameters: one is
concentrated out, one starts at 3, and one is fixed at zero. -/
noncomputable def exampleInputs : ParamInputs where
  K1 := 3
  K2 := 1
  K3 := 0
  D := 0
  H := 1
  hasLags := false
  nodeColumns := 1
  usesPrices := fun _ => false
  values := fun
    | .sigma => some ⟨1, 1, fun _ _ => some 2⟩
    | .rho => some ⟨1, 1, fun _ _ => some 1⟩
    | .beta => some ⟨3, 1, fun i _ => if i = 0 then none else if i = 1 then some 3 else some 0⟩
    | _ => none
  bounds := fun
    | .beta => some (⟨3, 1, fun _ _ => none⟩, ⟨3, 1, fun _ _ => some 4⟩)
    | _ => none
  bounded := true
  allowLinearNans := true
  checkAlpha := true

theorem forBlocks_of {α : Type} {f : Block → Except PyErr α} {g : Block → α} (h : ∀ b, f b = .ok (g b)) :
    forBlocks f = .ok g := by
  unfold forBlocks
  rw [h .sigma, h .pi, h .rho, h .phi, h .beta, h .gamma]
  dsimp only
  congr 1
  funext b
  cases b <;> rfl

theorem validateBounds_of (m lb ub : FMatrix) (h0 : m.rows * m.cols ≠ 0) (h1 : (lb.rows, lb.cols) = (m.rows, m.cols))
    (h2 : (ub.rows, ub.cols) = (m.rows, m.cols))
    (h3 : ¬ ∃ i < m.rows, ∃ j < m.cols, Fl.lt (m.entry i j) (some ((lb.entry i j).getD ⊥)) ∨
      Fl.lt (some ((ub.entry i j).getD ⊤)) (m.entry i j)) : ∃ v, validateBounds m (some (lb, ub)) = .ok v := by
  unfold validateBounds
  dsimp only
  rw [if_neg h0, if_neg (not_not.2 h1), if_neg (not_not.2 h2), if_neg h3]
  exact ⟨_, rfl⟩

/-- The matrices of the example. -/
noncomputable def exampleRaw : Block → FMatrix
  | .sigma => ⟨1, 1, fun _ _ => some 2⟩
  | .pi => ⟨1, 0, fun _ _ => none⟩
  | .rho => ⟨1, 1, fun _ _ => some 1⟩
  | .phi => ⟨1, 0, fun _ _ => none⟩
  | .beta => ⟨3, 1, fun i _ => if i = 0 then none else if i = 1 then some 3 else some 0⟩
  | .gamma => ⟨0, 1, fun _ _ => none⟩

theorem example_ok : ∃ p, buildParameters exampleInputs = .ok p ∧
    (⟨.sigma, 0, 0⟩ : Param) ∈ p.stored.unfixed ∧ (⟨.rho, 0, 0⟩ : Param) ∈ p.stored.unfixed ∧
    (⟨.beta, 0, 0⟩ : Param) ∈ p.stored.eliminated ∧ (⟨.beta, 1, 0⟩ : Param) ∈ p.stored.unfixed ∧
    (⟨.beta, 2, 0⟩ : Param) ∈ p.stored.fixed.map Prod.fst := by
  have hm : forBlocks (fun b => initializeMatrix (exampleInputs.values b) (exampleInputs.shapes b) (exampleInputs.allowNans b)) =
      .ok exampleRaw := by
    apply forBlocks_of
    intro b
    cases b <;> simp [initializeMatrix, exampleInputs, ParamInputs.shapes, ParamInputs.allowNans, exampleRaw]
  have hb : ∃ b0, forBlocks (fun b => initializeBounds (withUpper exampleRaw b) (exampleInputs.bounds b) exampleInputs.bounded) =
      .ok b0 := by
    have : ∀ b, ∃ c, initializeBounds (withUpper exampleRaw b) (exampleInputs.bounds b) exampleInputs.bounded = .ok c := by
      intro b
      have hv : ∃ v, validateBounds (withUpper exampleRaw b) (exampleInputs.bounds b) = .ok v := by
        cases b
        case beta =>
          rw [show withUpper exampleRaw .beta = exampleRaw .beta from if_neg (by decide)]
          apply validateBounds_of
          · exact Nat.succ_ne_zero _
          · rfl
          · rfl
          · rintro ⟨i, hi, j, hj, ⟨x, y, h1, h2, h3⟩ | ⟨x, y, h1, h2, h3⟩⟩
            · have : y = ⊥ := (Option.some.inj h2).symm
              rw [this] at h3
              exact absurd h3 (not_lt.2 bot_le)
            · have hx : x = 4 := (Option.some.inj h1).symm
              rw [hx] at h3
              change (if i = 0 then none else if i = 1 then some 3 else some 0 : Fl) = some y at h2
              have h34 : ((3 : ℝ) : EReal) ≤ ((4 : ℝ) : EReal) := EReal.coe_le_coe_iff.2 (by norm_num)
              have h04 : ((0 : ℝ) : EReal) ≤ ((4 : ℝ) : EReal) := EReal.coe_le_coe_iff.2 (by norm_num)
              by_cases h0 : i = 0
              · rw [if_pos h0] at h2
                cases h2
              · rw [if_neg h0] at h2
                by_cases h1 : i = 1
                · rw [if_pos h1] at h2
                  rw [← Option.some.inj h2] at h3
                  exact absurd h3 (not_lt.2 h34)
                · rw [if_neg h1] at h2
                  rw [← Option.some.inj h2] at h3
                  exact absurd h3 (not_lt.2 h04)
        all_goals exact ⟨_, rfl⟩
      obtain ⟨v, hv⟩ := hv
      unfold initializeBounds
      rw [hv]
      exact ⟨_, rfl⟩
    choose c hc using this
    exact ⟨c, forBlocks_of hc⟩
  obtain ⟨b0, hb0⟩ := hb
  have hcol : ¬ exampleInputs.nodeColumns < nonzeroColumns exampleInputs.K2 (withUpper exampleRaw .sigma) := by
    unfold nonzeroColumns
    exact not_lt.2 (List.countP_le_length.trans (by simp [exampleInputs]))
  have hok : ∃ p, buildParameters exampleInputs = .ok p ∧ p.mats = withUpper exampleRaw := by
    unfold buildParameters
    rw [hm]
    dsimp only
    rw [if_neg hcol, if_neg (by simp [exampleInputs]), hb0]
    exact ⟨_, rfl, rfl⟩
  obtain ⟨p, hp, hmats⟩ := hok
  have h2 : (2 : EReal) ≠ 0 := by
    have : ((2 : ℝ) : EReal) ≠ ((0 : ℝ) : EReal) := fun h => by
      have := EReal.coe_eq_coe_iff.1 h
      norm_num at this
    exact this
  have h3 : (3 : EReal) ≠ 0 := by
    have : ((3 : ℝ) : EReal) ≠ ((0 : ℝ) : EReal) := fun h => by
      have := EReal.coe_eq_coe_iff.1 h
      norm_num at this
    exact this
  have s1 : (⟨.sigma, 0, 0⟩ : Param) ∈ p.stored.unfixed := by
    rw [C44_estimated hp, hmats]
    refine ⟨Nat.one_pos, Nat.one_pos, fun _ => le_rfl, ?_, ?_, ?_⟩
    · exact fun h => h2 (Option.some.inj h)
    · rintro ⟨h | h, _⟩ <;> cases h
    · rintro ⟨_, _, h, _⟩
      cases h
  have s2 : (⟨.rho, 0, 0⟩ : Param) ∈ p.stored.unfixed := by
    rw [C44_estimated hp, hmats]
    refine ⟨Nat.one_pos, Nat.one_pos, fun _ => le_rfl, ?_, ?_, ?_⟩
    · exact fun h => one_ne_zero (Option.some.inj h)
    · rintro ⟨h | h, _⟩ <;> cases h
    · rintro ⟨_, _, h, _⟩
      cases h
  have s3 : (⟨.beta, 0, 0⟩ : Param) ∈ p.stored.eliminated := by
    rw [C44_concentrated hp, hmats]
    exact ⟨by simp [withUpper, exampleRaw], by simp [withUpper, exampleRaw], Or.inl rfl, by simp [Spec.start, exampleInputs]⟩
  have s4 : (⟨.beta, 1, 0⟩ : Param) ∈ p.stored.unfixed := by
    rw [C44_estimated hp, hmats]
    refine ⟨by simp [withUpper, exampleRaw], by simp [withUpper, exampleRaw], fun h => (by cases h), ?_, ?_, ?_⟩
    · simp [Spec.start, exampleInputs, h3]
    · simp [Spec.start, exampleInputs]
    · rintro ⟨lb, ub, h, h'⟩
      cases h
      change (⊥ : EReal) = 4 at h'
      exact absurd h' (EReal.bot_ne_coe 4)
  refine ⟨p, hp, s1, s2, s3, s4, ?_⟩
  have hin := ((C44_partition hp).2 .beta 2 0).2 ⟨by simp [hmats, withUpper, exampleRaw], by simp [hmats, withUpper, exampleRaw],
    fun h => (by cases h)⟩
  rw [List.mem_append, List.mem_append] at hin
  rcases hin with (h | h) | h
  · exact h
  · have := ((C44_estimated hp _ _ _).1 h).2.2.2.1
    simp [Spec.start, exampleInputs] at this
  · have := ((C44_concentrated hp _ _ _).1 h).2.2.2
    simp [Spec.start, exampleInputs] at this

/-- Bounds that exclude the starting value of the example's `sigma` meet the hypotheses of `C45_rejected`. -/
example : ∃ x, Spec.start exampleInputs .sigma 0 0 = some x ∧ Spec.userUpper ⟨1, 1, fun _ _ => some 1⟩ 0 0 < x :=
  ⟨2, rfl, by
    have : ((1 : ℝ) : EReal) < ((2 : ℝ) : EReal) := EReal.coe_lt_coe_iff.2 (by norm_num)
    exact this⟩

end Pyblp
