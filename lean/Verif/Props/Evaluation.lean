import Verif.Props.Progress

/-!
# Errors in objective evaluations: C49, C50, C51
-/

set_option linter.unusedSectionVars false

namespace Pyblp

open Classical

variable {N P M C : Type}

theorem isReverted_revertVec {ι : Type} (raw last : ι → Option ℝ) : Spec.IsReverted (revertVec raw last) raw last := by
  intro i
  unfold revertVec
  constructor
  · intro x hx
    rw [hx]
  · intro hx
    rw [hx]

theorem revertVec_finite {ι : Type} (raw last : ι → Option ℝ) (h : Spec.Finite raw) : revertVec raw last = raw := by
  funext i
  unfold revertVec
  obtain ⟨x, hx⟩ := h i
  rw [hx]

theorem finite_revertVec {ι : Type} (raw last : ι → Option ℝ) (h : Spec.Finite last) : Spec.Finite (revertVec raw last) := by
  intro i
  unfold revertVec
  cases raw i with
  | none => exact h i
  | some x => exact ⟨x, rfl⟩

theorem not_finite_iff {ι : Type} (v : ι → Option ℝ) : ¬ Spec.Finite v ↔ ∃ i, v i = none := by
  unfold Spec.Finite
  push Not
  constructor
  · rintro ⟨i, hi⟩
    refine ⟨i, ?_⟩
    cases h : v i with
    | none => rfl
    | some x => exact absurd h (hi x)
  · rintro ⟨i, hi⟩
    exact ⟨i, fun x hx => by rw [hi] at hx; cases hx⟩

theorem revertErrors_nil {ι : Type} (v : ι → Option ℝ) (e : EvalError) : revertErrors v e = [] ↔ Spec.Finite v := by
  unfold revertErrors
  by_cases h : ∃ i, v i = none
  · rw [if_pos h]
    constructor
    · intro h'
      cases h'
    · intro h'
      exact absurd h' ((not_finite_iff v).2 h)
  · rw [if_neg h]
    exact ⟨fun _ => not_not.1 fun h' => h ((not_finite_iff v).1 h'), fun _ => rfl⟩

theorem mem_revertErrors {ι : Type} (v : ι → Option ℝ) (e e' : EvalError) : e' ∈ revertErrors v e ↔ e' = e ∧ ∃ i, v i = none := by
  unfold revertErrors
  by_cases h : ∃ i, v i = none
  · rw [if_pos h, List.mem_singleton]
    exact ⟨fun h' => ⟨h', h⟩, fun h' => h'.1⟩
  · rw [if_neg h]
    exact ⟨fun h' => (List.not_mem_nil h').elim, fun h' => absurd h'.2 h⟩

/-- Markets' results in an evaluation. -/
def rawOf (c : EvalConfig) (logitDelta : N → Option ℝ) (markets : (N → Option ℝ) → RawEval N P M C) (p : ProgressInfo N P M C) :
    RawEval N P M C := markets (startDelta c logitDelta p)

/-- The objective that was computed, before anything is done about errors. -/
def computedObjective (raw : RawEval N P M C) (p : ProgressInfo N P M C) : Option ℝ :=
  raw.objective (revertVec raw.delta p.delta) (revertVec raw.micro p.micro) (revertVec raw.tildeCosts p.tildeCosts)

/-- The gradient that was computed, before anything is done about errors. -/
noncomputable def computedGradient (g : Bool) (raw : RawEval N P M C) (p : ProgressInfo N P M C) : P → Option ℝ :=
  raw.gradient (revertVec raw.delta p.delta) (revertVec raw.micro p.micro) (revertVec raw.tildeCosts p.tildeCosts)
    (revertAll g p raw).1 (revertAll g p raw).2.1 (revertAll g p raw).2.2.1

/-- All errors. -/
noncomputable def allErrors (g : Bool) (raw : RawEval N P M C) (h : Heap) (p : ProgressInfo N P M C) : List EvalError :=
  raw.errors ++ revertErrors raw.delta .delta ++ revertErrors raw.micro .micro ++ revertErrors raw.tildeCosts .costs ++
    (revertAll g p raw).2.2.2 ++ (placeObjective h p.objective (computedObjective raw p)).2.2 ++
    (placeGradient g p (computedGradient g raw p)).2

theorem evaluateObjective_eq (c : EvalConfig) (g : Bool) (l : N → Option ℝ) (m : (N → Option ℝ) → RawEval N P M C) (h : Heap)
    (p : ProgressInfo N P M C) :
    evaluateObjective c g l m h p =
      match handleErrors c g (allErrors g (rawOf c l m p) h p)
          (placeObjective h p.objective (computedObjective (rawOf c l m p) p)).1
          (placeObjective h p.objective (computedObjective (rawOf c l m p) p)).2.1
          (placeGradient g p (computedGradient g (rawOf c l m p) p)).1 with
      | .error e => .error e
      | .ok (h', objective, gradient) =>
        .ok (h', ⟨revertVec (rawOf c l m p).delta p.delta,
          if c.deltaBehavior = .first then p.nextDelta else revertVec (rawOf c l m p).delta p.delta,
          revertVec (rawOf c l m p).micro p.micro, revertVec (rawOf c l m p).tildeCosts p.tildeCosts,
          (revertAll g p (rawOf c l m p)).1, (revertAll g p (rawOf c l m p)).2.1, (revertAll g p (rawOf c l m p)).2.2.1, gradient,
          objective, allErrors g (rawOf c l m p) h p⟩) := rfl

theorem allErrors_nil (g : Bool) (raw : RawEval N P M C) (h : Heap) (p : ProgressInfo N P M C) :
    allErrors g raw h p = [] ↔ Spec.Clean g raw := by
  unfold allErrors Spec.Clean
  simp only [List.append_eq_nil_iff, revertErrors_nil]
  constructor
  · rintro ⟨⟨⟨⟨⟨⟨h1, h2⟩, h3⟩, h4⟩, h5⟩, h6⟩, h7⟩
    unfold computedObjective at h6
    unfold computedGradient at h7
    rw [revertVec_finite _ _ h2, revertVec_finite _ _ h3, revertVec_finite _ _ h4] at h6 h7
    refine ⟨h1, h2, h3, h4, ?_, ?_⟩
    · unfold placeObjective at h6
      cases ho : raw.objective raw.delta raw.micro raw.tildeCosts with
      | none => rw [ho] at h6; cases h6
      | some x => exact ⟨x, rfl⟩
    · rintro rfl
      unfold revertAll at h5 h7
      rw [if_pos rfl] at h5 h7
      simp only [List.append_eq_nil_iff, revertErrors_nil] at h5
      obtain ⟨⟨j1, j2⟩, j3⟩ := h5
      refine ⟨j1, j2, j3, ?_⟩
      unfold placeGradient at h7
      rw [if_pos rfl] at h7
      dsimp only at h7
      rw [revertErrors_nil, revertVec_finite _ _ j1, revertVec_finite _ _ j2, revertVec_finite _ _ j3] at h7
      exact h7
  · rintro ⟨h1, h2, h3, h4, ⟨x, h5⟩, h6⟩
    refine ⟨⟨⟨⟨⟨⟨h1, h2⟩, h3⟩, h4⟩, ?_⟩, ?_⟩, ?_⟩
    · unfold revertAll
      cases g
      · rfl
      · rw [if_pos rfl]
        obtain ⟨j1, j2, j3, _⟩ := h6 rfl
        simp only [List.append_eq_nil_iff, revertErrors_nil]
        exact ⟨⟨j1, j2⟩, j3⟩
    · unfold computedObjective
      rw [revertVec_finite _ _ h2, revertVec_finite _ _ h3, revertVec_finite _ _ h4, h5]
      rfl
    · unfold placeGradient computedGradient
      rw [revertVec_finite _ _ h2, revertVec_finite _ _ h3, revertVec_finite _ _ h4]
      cases g
      · rfl
      · obtain ⟨j1, j2, j3, j4⟩ := h6 rfl
        rw [if_pos rfl]
        dsimp only
        rw [revertErrors_nil]
        unfold revertAll
        rw [if_pos rfl]
        dsimp only
        rw [revertVec_finite _ _ j1, revertVec_finite _ _ j2, revertVec_finite _ _ j3]
        exact j4

/-! ## C49 -/

/-- **C49.** Without errors, everything is what was computed. -/
theorem C49_clean (c : EvalConfig) (g : Bool) (l : N → Option ℝ) (m : (N → Option ℝ) → RawEval N P M C) (h : Heap)
    (p : ProgressInfo N P M C) (hc : Spec.Clean g (rawOf c l m p)) :
    ∃ h' q, evaluateObjective c g l m h p = .ok (h', q) ∧ q.errors = [] ∧
      h'.cells q.objective = (rawOf c l m p).objective (rawOf c l m p).delta (rawOf c l m p).micro (rawOf c l m p).tildeCosts ∧
      q.delta = (rawOf c l m p).delta ∧ q.micro = (rawOf c l m p).micro ∧ q.tildeCosts = (rawOf c l m p).tildeCosts ∧
      (g = true → q.xiJacobian = (rawOf c l m p).xiJacobian ∧ q.microJacobian = (rawOf c l m p).microJacobian ∧
        q.omegaJacobian = (rawOf c l m p).omegaJacobian ∧
        q.gradient = (rawOf c l m p).gradient (rawOf c l m p).delta (rawOf c l m p).micro (rawOf c l m p).tildeCosts
          (rawOf c l m p).xiJacobian (rawOf c l m p).microJacobian (rawOf c l m p).omegaJacobian) := by
  have he := (allErrors_nil g (rawOf c l m p) h p).2 hc
  obtain ⟨h1, h2, h3, h4, ⟨x, h5⟩, h6⟩ := hc
  rw [evaluateObjective_eq, he]
  unfold handleErrors
  rw [if_pos rfl]
  refine ⟨_, _, rfl, rfl, ?_, revertVec_finite _ _ h2, revertVec_finite _ _ h3, revertVec_finite _ _ h4, ?_⟩
  · unfold computedObjective
    rw [revertVec_finite _ _ h2, revertVec_finite _ _ h3, revertVec_finite _ _ h4, h5]
    exact if_pos rfl
  · rintro rfl
    obtain ⟨j1, j2, j3, j4⟩ := h6 rfl
    have e1 : (revertAll true p (rawOf c l m p)).1 = (rawOf c l m p).xiJacobian := revertVec_finite _ _ j1
    have e2 : (revertAll true p (rawOf c l m p)).2.1 = (rawOf c l m p).microJacobian := revertVec_finite _ _ j2
    have e3 : (revertAll true p (rawOf c l m p)).2.2.1 = (rawOf c l m p).omegaJacobian := revertVec_finite _ _ j3
    refine ⟨e1, e2, e3, ?_⟩
    show (placeGradient true p (computedGradient true (rawOf c l m p) p)).1 = _
    unfold placeGradient computedGradient
    rw [if_pos rfl, e1, e2, e3, revertVec_finite _ _ h2, revertVec_finite _ _ h3, revertVec_finite _ _ h4]
    exact revertVec_finite _ _ j4

/-- **C49.** With `'raise'`, an evaluation fails exactly when there is any problem; otherwise evaluations never fail. -/
theorem C49_raise (c : EvalConfig) (g : Bool) (l : N → Option ℝ) (m : (N → Option ℝ) → RawEval N P M C) (h : Heap)
    (p : ProgressInfo N P M C) :
    (∃ e, evaluateObjective c g l m h p = .error e) ↔ c.errorBehavior = .raise ∧ ¬ Spec.Clean g (rawOf c l m p) := by
  rw [evaluateObjective_eq, ← allErrors_nil g (rawOf c l m p) h p]
  unfold handleErrors
  by_cases he : allErrors g (rawOf c l m p) h p = []
  · rw [if_pos he]
    simp [he]
  · rw [if_neg he]
    cases c.errorBehavior <;> simp [he]

/-- **C49.** With `'revert'` and any problem, values that are not finite are replaced by the last ones and the objective, or the last
objective if it is not finite, is scaled. -/
theorem C49_revert (c : EvalConfig) (hb : c.errorBehavior = .revert) (g : Bool) (l : N → Option ℝ)
    (m : (N → Option ℝ) → RawEval N P M C) (h : Heap) (p : ProgressInfo N P M C) (hc : ¬ Spec.Clean g (rawOf c l m p)) :
    ∃ h' q, evaluateObjective c g l m h p = .ok (h', q) ∧ q.errors ≠ [] ∧
      Spec.IsReverted q.delta (rawOf c l m p).delta p.delta ∧ Spec.IsReverted q.micro (rawOf c l m p).micro p.micro ∧
      Spec.IsReverted q.tildeCosts (rawOf c l m p).tildeCosts p.tildeCosts ∧
      h'.cells q.objective =
        (match (rawOf c l m p).objective q.delta q.micro q.tildeCosts with
          | some x => some (x * c.errorPunishment)
          | none => (h.cells p.objective).map (· * c.errorPunishment)) ∧
      (g = true → Spec.IsReverted q.xiJacobian (rawOf c l m p).xiJacobian p.xiJacobian ∧
        Spec.IsReverted q.microJacobian (rawOf c l m p).microJacobian p.microJacobian ∧
        Spec.IsReverted q.omegaJacobian (rawOf c l m p).omegaJacobian p.omegaJacobian ∧
        Spec.IsReverted q.gradient
          ((rawOf c l m p).gradient q.delta q.micro q.tildeCosts q.xiJacobian q.microJacobian q.omegaJacobian) p.gradient) := by
  rw [← allErrors_nil g (rawOf c l m p) h p] at hc
  rw [evaluateObjective_eq]
  unfold handleErrors
  rw [if_neg hc, hb]
  refine ⟨_, _, rfl, hc, isReverted_revertVec _ _, isReverted_revertVec _ _, isReverted_revertVec _ _, ?_, ?_⟩
  · unfold computedObjective
    dsimp only
    generalize (rawOf c l m p).objective (revertVec (rawOf c l m p).delta p.delta) (revertVec (rawOf c l m p).micro p.micro)
      (revertVec (rawOf c l m p).tildeCosts p.tildeCosts) = o
    cases o with
    | none =>
      unfold placeObjective
      dsimp only
      rw [if_pos rfl]
    | some x =>
      unfold placeObjective
      dsimp only
      rw [if_pos rfl, if_pos rfl]
      rfl
  · rintro rfl
    exact ⟨isReverted_revertVec _ _, isReverted_revertVec _ _, isReverted_revertVec _ _, isReverted_revertVec _ _⟩

/-- **C49.** With `'punish'` and any problem, the objective is the punishment and the gradient is zero. -/
theorem C49_punish (c : EvalConfig) (hb : c.errorBehavior = .punish) (g : Bool) (l : N → Option ℝ)
    (m : (N → Option ℝ) → RawEval N P M C) (h : Heap) (p : ProgressInfo N P M C) (hc : ¬ Spec.Clean g (rawOf c l m p)) :
    ∃ h' q, evaluateObjective c g l m h p = .ok (h', q) ∧ q.errors ≠ [] ∧ h'.cells q.objective = some (1 * c.errorPunishment) ∧
      (g = true → ∀ i, q.gradient i = some 0) := by
  rw [← allErrors_nil g (rawOf c l m p) h p] at hc
  rw [evaluateObjective_eq]
  unfold handleErrors
  rw [if_neg hc, hb]
  refine ⟨_, _, rfl, hc, ?_, ?_⟩
  · dsimp only
    rw [if_pos rfl, one_mul]
  · rintro rfl i
    rfl

/-- **C49.** An evaluation whose objective is finite leaves objectives of earlier evaluations alone. -/
theorem C49_no_alias (c : EvalConfig) (g : Bool) (l : N → Option ℝ) (m : (N → Option ℝ) → RawEval N P M C) (h h' : Heap)
    (p q : ProgressInfo N P M C) (he : evaluateObjective c g l m h p = .ok (h', q)) (x : ℝ)
    (hx : (rawOf c l m p).objective q.delta q.micro q.tildeCosts = some x) (r : ℕ) (hr : r < h.next) :
    h'.cells r = h.cells r := by
  rw [evaluateObjective_eq] at he
  have hd : q.delta = revertVec (rawOf c l m p).delta p.delta ∧ q.micro = revertVec (rawOf c l m p).micro p.micro ∧
      q.tildeCosts = revertVec (rawOf c l m p).tildeCosts p.tildeCosts := by
    split at he
    · cases he
    · obtain ⟨_, rfl⟩ := Prod.mk.inj (Except.ok.inj he)
      exact ⟨rfl, rfl, rfl⟩
  have ho : computedObjective (rawOf c l m p) p = some x := by
    unfold computedObjective
    rw [← hd.1, ← hd.2.1, ← hd.2.2]
    exact hx
  rw [ho] at he
  unfold handleErrors placeObjective at he
  dsimp only at he
  by_cases hn : allErrors g (rawOf c l m p) h p = []
  · rw [if_pos hn] at he
    obtain ⟨rfl, _⟩ := Prod.mk.inj (Except.ok.inj he)
    exact if_neg (by omega)
  · rw [if_neg hn] at he
    cases hb : c.errorBehavior
    · rw [hb] at he
      cases he
    · rw [hb] at he
      obtain ⟨rfl, _⟩ := Prod.mk.inj (Except.ok.inj he)
      dsimp only
      rw [if_neg (by omega), if_neg (by omega)]
    · rw [hb] at he
      obtain ⟨rfl, _⟩ := Prod.mk.inj (Except.ok.inj he)
      dsimp only
      rw [if_neg (by omega), if_neg (by omega)]

/-- Results of markets in which nothing is finite. -/
def badRaw : RawEval Unit Unit Empty Empty where
  delta := fun _ => none
  micro := fun _ => none
  tildeCosts := fun _ => none
  xiJacobian := fun _ => none
  microJacobian := fun _ => none
  omegaJacobian := fun _ => none
  errors := []
  objective := fun _ _ _ => none
  gradient := fun _ _ _ _ _ _ _ => none

/-- Results of markets in which everything is finite. -/
def goodRaw : RawEval Unit Unit Empty Empty where
  delta := fun _ => some 1
  micro := fun _ => none
  tildeCosts := fun _ => none
  xiJacobian := fun _ => some 2
  microJacobian := fun _ => none
  omegaJacobian := fun _ => none
  errors := []
  objective := fun _ _ _ => some 3
  gradient := fun _ _ _ _ _ _ _ => some 4

/-- Initial progress. -/
def initialInfo : ProgressInfo Unit Unit Empty Empty :=
  ⟨fun _ => some 0, fun _ => some 0, fun _ => none, fun _ => none, fun _ => some 0, fun _ => none, fun _ => none, fun _ => some 0, 0, []⟩

/-- Memory with the initial objective. -/
def initialHeap : Heap := ⟨fun r => if r = 0 then some 10 else none, 1⟩

theorem clean_goodRaw (g : Bool) : Spec.Clean g goodRaw :=
  ⟨rfl, fun _ => ⟨1, rfl⟩, fun e => e.elim, fun e => e.elim, ⟨3, rfl⟩,
    fun _ => ⟨fun _ => ⟨2, rfl⟩, fun e => e.1.elim, fun e => e.1.elim, fun _ => ⟨4, rfl⟩⟩⟩

theorem not_clean_badRaw (g : Bool) : ¬ Spec.Clean g badRaw := fun h => by
  obtain ⟨x, hx⟩ := h.2.1 ()
  cases hx

/-- **C49, finding.** With `'revert'` a failing evaluation scales the objective of the *earlier* evaluation in place: the objective
that was 10 is 20 after an evaluation that fails, although only the new objective should be scaled. -/
theorem C49_alias_refuted :
    ∃ h' q, evaluateObjective ⟨.revert, 2, .last⟩ true (fun _ => none) (fun _ => badRaw) initialHeap initialInfo = .ok (h', q) ∧
      initialHeap.cells initialInfo.objective = some 10 ∧ h'.cells initialInfo.objective = some 20 := by
  obtain ⟨h', q, he, _, _, _, _, ho, _⟩ := C49_revert ⟨.revert, 2, .last⟩ rfl true (fun _ : Unit => none) (fun _ => badRaw)
    initialHeap initialInfo (not_clean_badRaw true)
  refine ⟨h', q, he, rfl, ?_⟩
  have hq : q.objective = initialInfo.objective := by
    rw [evaluateObjective_eq] at he
    unfold handleErrors at he
    rw [if_neg (by
      rw [allErrors_nil]
      exact not_clean_badRaw true)] at he
    rw [← (Prod.mk.inj (Except.ok.inj he)).2]
    rfl
  rw [← hq, ho]
  show ((if (0 : ℕ) = 0 then some (10 : ℝ) else none).map (· * (2 : ℝ))) = some 20
  rw [if_pos rfl, Option.map_some]
  norm_num

/-! ## C50 -/

theorem evaluateObjective_ok (c : EvalConfig) (g : Bool) (l : N → Option ℝ) (m : (N → Option ℝ) → RawEval N P M C) (h h' : Heap)
    (p q : ProgressInfo N P M C) (he : evaluateObjective c g l m h p = .ok (h', q)) :
    q.delta = revertVec (rawOf c l m p).delta p.delta ∧
      q.nextDelta = (if c.deltaBehavior = .first then p.nextDelta else revertVec (rawOf c l m p).delta p.delta) ∧
      q.micro = revertVec (rawOf c l m p).micro p.micro ∧ q.tildeCosts = revertVec (rawOf c l m p).tildeCosts p.tildeCosts ∧
      q.xiJacobian = (revertAll g p (rawOf c l m p)).1 ∧ q.microJacobian = (revertAll g p (rawOf c l m p)).2.1 ∧
      q.omegaJacobian = (revertAll g p (rawOf c l m p)).2.2.1 ∧ q.errors = allErrors g (rawOf c l m p) h p ∧
      handleErrors c g (allErrors g (rawOf c l m p) h p)
          (placeObjective h p.objective (computedObjective (rawOf c l m p) p)).1
          (placeObjective h p.objective (computedObjective (rawOf c l m p) p)).2.1
          (placeGradient g p (computedGradient g (rawOf c l m p) p)).1 = .ok (h', q.objective, q.gradient) := by
  rw [evaluateObjective_eq] at he
  split at he
  · cases he
  · rename_i hh o gr heq
    obtain ⟨rfl, rfl⟩ := Prod.mk.inj (Except.ok.inj he)
    exact ⟨rfl, rfl, rfl, rfl, rfl, rfl, rfl, rfl, heq⟩

/-- Every objective in memory is finite. -/
def HeapFinite (h : Heap) : Prop := ∀ r < h.next, ∃ x, h.cells r = some x

/-- An evaluation keeps objectives finite. -/
theorem heap_step (c : EvalConfig) (g : Bool) (errors : List EvalError) (h h' : Heap) (last o : ℕ) (value : Option ℝ)
    (gr gr' : P → Option ℝ) (hf : HeapFinite h) (hl : last < h.next)
    (he : handleErrors c g errors (placeObjective h last value).1 (placeObjective h last value).2.1 gr = .ok (h', o, gr')) :
    HeapFinite h' ∧ o < h'.next ∧ h.next ≤ h'.next := by
  have hp : HeapFinite (placeObjective h last value).1 ∧ (placeObjective h last value).2.1 < (placeObjective h last value).1.next ∧
      h.next ≤ (placeObjective h last value).1.next := by
    unfold placeObjective
    cases value with
    | none => exact ⟨hf, hl, le_rfl⟩
    | some x =>
      refine ⟨?_, Nat.lt_succ_self _, Nat.le_succ _⟩
      intro r hr
      dsimp only at hr ⊢
      by_cases h1 : r = h.next
      · rw [if_pos h1]
        exact ⟨x, rfl⟩
      · rw [if_neg h1]
        exact hf r (by omega)
  generalize placeObjective h last value = t at he hp
  obtain ⟨h1, o1, _⟩ := t
  dsimp only at he hp
  unfold handleErrors at he
  by_cases hn : errors = []
  · rw [if_pos hn] at he
    obtain ⟨rfl, he2⟩ := Prod.mk.inj (Except.ok.inj he)
    obtain ⟨rfl, _⟩ := Prod.mk.inj he2
    exact hp
  · rw [if_neg hn] at he
    cases hb : c.errorBehavior
    · rw [hb] at he
      cases he
    · rw [hb] at he
      obtain ⟨rfl, he2⟩ := Prod.mk.inj (Except.ok.inj he)
      obtain ⟨rfl, _⟩ := Prod.mk.inj he2
      refine ⟨?_, hp.2.1, hp.2.2⟩
      intro r hr
      obtain ⟨x, hx⟩ := hp.1 r hr
      dsimp only
      by_cases h2 : r = o1
      · rw [if_pos h2, hx]
        exact ⟨_, rfl⟩
      · rw [if_neg h2]
        exact ⟨x, hx⟩
    · rw [hb] at he
      obtain ⟨rfl, he2⟩ := Prod.mk.inj (Except.ok.inj he)
      obtain ⟨rfl, _⟩ := Prod.mk.inj he2
      refine ⟨?_, Nat.lt_succ_self _, hp.2.2.trans (Nat.le_succ _)⟩
      intro r hr
      dsimp only at hr ⊢
      by_cases h2 : r = h1.next
      · rw [if_pos h2]
        exact ⟨_, rfl⟩
      · rw [if_neg h2]
        exact hp.1 r (by omega)

/-- **C50.** In any history of evaluations, whatever markets return, `delta`, micro moments, costs and the objective are finite if they
were at the start. -/
theorem C50_finite (c : EvalConfig) (evals : List (Bool × (N → Option ℝ) × ((N → Option ℝ) → RawEval N P M C))) (h h' : Heap)
    (p : ProgressInfo N P M C) (qs : List (ProgressInfo N P M C)) (hrun : evaluateAll c evals h p = .ok (h', qs))
    (hd : Spec.Finite p.delta) (hnd : Spec.Finite p.nextDelta) (hm : Spec.Finite p.micro) (ht : Spec.Finite p.tildeCosts)
    (hh : HeapFinite h) (ho : p.objective < h.next) :
    HeapFinite h' ∧ h.next ≤ h'.next ∧
      ∀ q ∈ qs, Spec.Finite q.delta ∧ Spec.Finite q.nextDelta ∧ Spec.Finite q.micro ∧ Spec.Finite q.tildeCosts ∧
        ∃ x, h'.cells q.objective = some x := by
  suffices HeapFinite h' ∧ h.next ≤ h'.next ∧
      ∀ q ∈ qs, Spec.Finite q.delta ∧ Spec.Finite q.nextDelta ∧ Spec.Finite q.micro ∧ Spec.Finite q.tildeCosts ∧
        q.objective < h'.next by
    obtain ⟨h1, h2, h3⟩ := this
    exact ⟨h1, h2, fun q hq => ⟨(h3 q hq).1, (h3 q hq).2.1, (h3 q hq).2.2.1, (h3 q hq).2.2.2.1, h1 _ (h3 q hq).2.2.2.2⟩⟩
  induction evals generalizing h p qs with
  | nil =>
    obtain ⟨rfl, rfl⟩ := Prod.mk.inj (Except.ok.inj hrun)
    exact ⟨hh, le_rfl, fun q hq => by cases hq⟩
  | cons a rest ih =>
    obtain ⟨g, l, m⟩ := a
    unfold evaluateAll at hrun
    split at hrun
    · cases hrun
    · rename_i h1 q1 he
      split at hrun
      · cases hrun
      · rename_i h2 qs' hrest
        obtain ⟨rfl, rfl⟩ := Prod.mk.inj (Except.ok.inj hrun)
        obtain ⟨e1, e2, e3, e4, _, _, _, _, e5⟩ := evaluateObjective_ok c g l m h h1 p q1 he
        have k1 : Spec.Finite q1.delta := by rw [e1]; exact finite_revertVec _ _ hd
        have k2 : Spec.Finite q1.nextDelta := by
          rw [e2]
          split
          · exact hnd
          · exact finite_revertVec _ _ hd
        have k3 : Spec.Finite q1.micro := by rw [e3]; exact finite_revertVec _ _ hm
        have k4 : Spec.Finite q1.tildeCosts := by rw [e4]; exact finite_revertVec _ _ ht
        obtain ⟨s1, s2, s3⟩ := heap_step c g _ h h1 _ _ _ _ _ hh ho e5
        obtain ⟨r1, r2, r3⟩ := ih h1 q1 qs' hrest k1 k2 k3 k4 s1 s2
        refine ⟨r1, s3.trans r2, ?_⟩
        intro q hq
        rcases List.mem_cons.1 hq with rfl | hq
        · exact ⟨k1, k2, k3, k4, lt_of_lt_of_le s2 r2⟩
        · exact r3 q hq

/-- **C50, partial.** If every evaluation computes Jacobians and the gradient, these are also finite in any history. Missing:
histories in which some evaluations do not, for which it is false (`C50_refuted`). -/
theorem C50_jacobians_partial (c : EvalConfig) (evals : List (Bool × (N → Option ℝ) × ((N → Option ℝ) → RawEval N P M C))) (h h' : Heap)
    (p : ProgressInfo N P M C) (qs : List (ProgressInfo N P M C)) (hrun : evaluateAll c evals h p = .ok (h', qs))
    (hg : ∀ e ∈ evals, e.1 = true) (hx : Spec.Finite p.xiJacobian) (hm : Spec.Finite p.microJacobian)
    (hw : Spec.Finite p.omegaJacobian) (hgr : Spec.Finite p.gradient) :
    ∀ q ∈ qs, Spec.Finite q.xiJacobian ∧ Spec.Finite q.microJacobian ∧ Spec.Finite q.omegaJacobian ∧ Spec.Finite q.gradient := by
  induction evals generalizing h p qs with
  | nil =>
    obtain ⟨rfl, rfl⟩ := Prod.mk.inj (Except.ok.inj hrun)
    intro q hq
    cases hq
  | cons a rest ih =>
    obtain ⟨g, l, m⟩ := a
    have hgt : g = true := hg _ List.mem_cons_self
    subst hgt
    unfold evaluateAll at hrun
    split at hrun
    · cases hrun
    · rename_i h1 q1 he
      split at hrun
      · cases hrun
      · rename_i h2 qs' hrest
        obtain ⟨rfl, rfl⟩ := Prod.mk.inj (Except.ok.inj hrun)
        obtain ⟨_, _, _, _, e1, e2, e3, _, e5⟩ := evaluateObjective_ok c true l m h h1 p q1 he
        have k1 : Spec.Finite q1.xiJacobian := by rw [e1]; exact finite_revertVec _ _ hx
        have k2 : Spec.Finite q1.microJacobian := by rw [e2]; exact finite_revertVec _ _ hm
        have k3 : Spec.Finite q1.omegaJacobian := by rw [e3]; exact finite_revertVec _ _ hw
        have k4 : Spec.Finite q1.gradient := by
          have hp : Spec.Finite (placeGradient true p (computedGradient true (rawOf c l m p) p)).1 := finite_revertVec _ _ hgr
          unfold handleErrors at e5
          split at e5
          · obtain ⟨_, e6⟩ := Prod.mk.inj (Except.ok.inj e5)
            rw [← (Prod.mk.inj e6).2]
            exact hp
          · split at e5
            · cases e5
            · obtain ⟨_, e6⟩ := Prod.mk.inj (Except.ok.inj e5)
              rw [← (Prod.mk.inj e6).2]
              exact hp
            · obtain ⟨_, e6⟩ := Prod.mk.inj (Except.ok.inj e5)
              rw [← (Prod.mk.inj e6).2]
              exact fun _ => ⟨0, rfl⟩
        intro q hq
        rcases List.mem_cons.1 hq with rfl | hq
        · exact ⟨k1, k2, k3, k4⟩
        · exact ih h1 q1 qs' hrest (fun e he => hg e (List.mem_cons_of_mem _ he)) k1 k2 k3 k4 q hq

/-- **C50.** Elements that are finite are kept and others are replaced by the last ones. -/
theorem C50_kept (c : EvalConfig) (g : Bool) (l : N → Option ℝ) (m : (N → Option ℝ) → RawEval N P M C) (h h' : Heap)
    (p q : ProgressInfo N P M C) (he : evaluateObjective c g l m h p = .ok (h', q)) :
    Spec.IsReverted q.delta (rawOf c l m p).delta p.delta ∧ Spec.IsReverted q.micro (rawOf c l m p).micro p.micro ∧
      Spec.IsReverted q.tildeCosts (rawOf c l m p).tildeCosts p.tildeCosts ∧
      (g = true → Spec.IsReverted q.xiJacobian (rawOf c l m p).xiJacobian p.xiJacobian ∧
        Spec.IsReverted q.microJacobian (rawOf c l m p).microJacobian p.microJacobian ∧
        Spec.IsReverted q.omegaJacobian (rawOf c l m p).omegaJacobian p.omegaJacobian) := by
  obtain ⟨e1, _, e3, e4, e5, e6, e7, _, _⟩ := evaluateObjective_ok c g l m h h' p q he
  rw [e1, e3, e4, e5, e6, e7]
  refine ⟨isReverted_revertVec _ _, isReverted_revertVec _ _, isReverted_revertVec _ _, ?_⟩
  rintro rfl
  exact ⟨isReverted_revertVec _ _, isReverted_revertVec _ _, isReverted_revertVec _ _⟩

/-- **C50.** A reversion is reported exactly when an element was replaced. -/
theorem C50_reported (c : EvalConfig) (g : Bool) (l : N → Option ℝ) (m : (N → Option ℝ) → RawEval N P M C) (h h' : Heap)
    (p q : ProgressInfo N P M C) (he : evaluateObjective c g l m h p = .ok (h', q))
    (hmark : ∀ e ∈ (rawOf c l m p).errors, ∃ n, e = .market n) :
    (.delta ∈ q.errors ↔ ∃ i, (rawOf c l m p).delta i = none) ∧ (.micro ∈ q.errors ↔ ∃ i, (rawOf c l m p).micro i = none) ∧
      (.costs ∈ q.errors ↔ ∃ i, (rawOf c l m p).tildeCosts i = none) ∧
      (.xiJacobian ∈ q.errors ↔ g = true ∧ ∃ i, (rawOf c l m p).xiJacobian i = none) ∧
      (.microJacobian ∈ q.errors ↔ g = true ∧ ∃ i, (rawOf c l m p).microJacobian i = none) ∧
      (.omegaJacobian ∈ q.errors ↔ g = true ∧ ∃ i, (rawOf c l m p).omegaJacobian i = none) ∧
      (.objective ∈ q.errors ↔ (rawOf c l m p).objective q.delta q.micro q.tildeCosts = none) := by
  obtain ⟨e1, _, e3, e4, e5, e6, e7, e8, _⟩ := evaluateObjective_ok c g l m h h' p q he
  have hno : ∀ e, (∀ n, e ≠ .market n) → e ∉ (rawOf c l m p).errors := by
    intro e hne hmem
    obtain ⟨n, hn⟩ := hmark e hmem
    exact hne n hn
  have hobj : ∀ e, e ∈ (placeObjective h p.objective (computedObjective (rawOf c l m p) p)).2.2 ↔
      e = .objective ∧ computedObjective (rawOf c l m p) p = none := by
    intro e
    unfold placeObjective
    cases computedObjective (rawOf c l m p) p <;> simp
  have hgrad : ∀ e, e ∈ (placeGradient g p (computedGradient g (rawOf c l m p) p)).2 → e = .gradient := by
    intro e hm
    unfold placeGradient at hm
    cases g
    · cases hm
    · exact ((mem_revertErrors _ _ _).1 hm).1
  have hjac : ∀ e, e ∈ (revertAll g p (rawOf c l m p)).2.2.2 ↔ g = true ∧
      ((e = .xiJacobian ∧ ∃ i, (rawOf c l m p).xiJacobian i = none) ∨
        (e = .microJacobian ∧ ∃ i, (rawOf c l m p).microJacobian i = none) ∨
        (e = .omegaJacobian ∧ ∃ i, (rawOf c l m p).omegaJacobian i = none)) := by
    intro e
    unfold revertAll
    cases g
    · simp
    · rw [if_pos rfl]
      simp only [List.mem_append, mem_revertErrors, true_and, or_assoc]
  have hall : ∀ e, e ∈ q.errors ↔ e ∈ (rawOf c l m p).errors ∨ (e = .delta ∧ ∃ i, (rawOf c l m p).delta i = none) ∨
      (e = .micro ∧ ∃ i, (rawOf c l m p).micro i = none) ∨ (e = .costs ∧ ∃ i, (rawOf c l m p).tildeCosts i = none) ∨
      e ∈ (revertAll g p (rawOf c l m p)).2.2.2 ∨
      e ∈ (placeObjective h p.objective (computedObjective (rawOf c l m p) p)).2.2 ∨
      e ∈ (placeGradient g p (computedGradient g (rawOf c l m p) p)).2 := by
    intro e
    rw [e8]
    unfold allErrors
    simp only [List.mem_append, mem_revertErrors, or_assoc]
  have hcomp : computedObjective (rawOf c l m p) p = (rawOf c l m p).objective q.delta q.micro q.tildeCosts := by
    rw [e1, e3, e4]
    rfl
  have hgn : ∀ e, e ≠ .gradient → e ∉ (placeGradient g p (computedGradient g (rawOf c l m p) p)).2 := fun e hne hm => hne (hgrad e hm)
  refine ⟨?_, ?_, ?_, ?_, ?_, ?_, ?_⟩
  · rw [hall, hjac, hobj]
    simp [hno .delta (by simp), hgn .delta (by simp)]
  · rw [hall, hjac, hobj]
    simp [hno .micro (by simp), hgn .micro (by simp)]
  · rw [hall, hjac, hobj]
    simp [hno .costs (by simp), hgn .costs (by simp)]
  · rw [hall, hjac, hobj]
    simp [hno .xiJacobian (by simp), hgn .xiJacobian (by simp)]
  · rw [hall, hjac, hobj]
    simp [hno .microJacobian (by simp), hgn .microJacobian (by simp)]
  · rw [hall, hjac, hobj]
    simp [hno .omegaJacobian (by simp), hgn .omegaJacobian (by simp)]
  · rw [hall, hjac, hobj, ← hcomp]
    simp [hno .objective (by simp), hgn .objective (by simp)]

/-- **C50, finding.** If some evaluations do not compute gradients, as with an optimizer that does not use them, then later failures
revert to NaN: an initially finite Jacobian and gradient are not finite after a clean evaluation without gradients and a failing
evaluation with gradients. -/
theorem C50_refuted :
    ∃ h' q q', evaluateAll ⟨.revert, 1, .last⟩ [(false, fun _ => none, fun _ => goodRaw), (true, fun _ => none, fun _ => badRaw)]
        initialHeap initialInfo = .ok (h', [q, q']) ∧
      Spec.Finite initialInfo.xiJacobian ∧ Spec.Finite initialInfo.gradient ∧ Spec.Clean false goodRaw ∧
      ¬ Spec.Finite q'.xiJacobian ∧ ¬ Spec.Finite q'.gradient := by
  obtain ⟨h1, q, hq, _⟩ := C49_clean ⟨.revert, 1, .last⟩ false (fun _ : Unit => none) (fun _ => goodRaw) initialHeap initialInfo
    (clean_goodRaw false)
  obtain ⟨_, _, _, _, ex, _, _, _, eg⟩ := evaluateObjective_ok _ _ _ _ _ _ _ _ hq
  have hxq : q.xiJacobian ((), ()) = none := by rw [ex]; rfl
  have hgq : q.gradient () = none := by
    unfold handleErrors at eg
    rw [if_pos (by
      rw [allErrors_nil]
      exact clean_goodRaw false)] at eg
    obtain ⟨_, e6⟩ := Prod.mk.inj (Except.ok.inj eg)
    rw [← (Prod.mk.inj e6).2]
    rfl
  obtain ⟨h2, q', hq', _, _, _, _, _, hj⟩ := C49_revert ⟨.revert, 1, .last⟩ rfl true (fun _ : Unit => none) (fun _ => badRaw) h1 q
    (not_clean_badRaw true)
  refine ⟨h2, q, q', ?_, fun _ => ⟨0, rfl⟩, fun _ => ⟨0, rfl⟩, clean_goodRaw false, ?_, ?_⟩
  · unfold evaluateAll
    rw [hq]
    dsimp only
    unfold evaluateAll
    rw [hq']
    rfl
  · rw [not_finite_iff]
    exact ⟨((), ()), by rw [((hj rfl).1 ((), ())).2 rfl]; exact hxq⟩
  · rw [not_finite_iff]
    exact ⟨(), by rw [((hj rfl).2.2.2 ()).2 rfl]; exact hgq⟩

/-! ## C51 -/

/-- Progress before evaluation `k` of a history. -/
def progressBefore (p : ProgressInfo N P M C) (qs : List (ProgressInfo N P M C)) (k : ℕ) : ProgressInfo N P M C :=
  match k with
  | 0 => p
  | k + 1 => qs.getD k p

theorem evaluateAll_get (c : EvalConfig) (evals : List (Bool × (N → Option ℝ) × ((N → Option ℝ) → RawEval N P M C))) (h h' : Heap)
    (p : ProgressInfo N P M C) (qs : List (ProgressInfo N P M C)) (hrun : evaluateAll c evals h p = .ok (h', qs)) (k : ℕ)
    (e : Bool × (N → Option ℝ) × ((N → Option ℝ) → RawEval N P M C)) (hk : evals[k]? = some e) :
    ∃ q h1 h2, qs[k]? = some q ∧ evaluateObjective c e.1 e.2.1 e.2.2 h1 (progressBefore p qs k) = .ok (h2, q) := by
  induction evals generalizing h p qs k with
  | nil => simp at hk
  | cons a rest ih =>
    obtain ⟨g, l, m⟩ := a
    unfold evaluateAll at hrun
    split at hrun
    · cases hrun
    · rename_i h1 q1 he
      split at hrun
      · cases hrun
      · rename_i h2 qs' hrest
        obtain ⟨rfl, rfl⟩ := Prod.mk.inj (Except.ok.inj hrun)
        cases k with
        | zero =>
          simp only [List.getElem?_cons_zero, Option.some.injEq] at hk
          subst hk
          exact ⟨q1, h, h1, rfl, he⟩
        | succ k =>
          rw [List.getElem?_cons_succ] at hk
          obtain ⟨q, a1, a2, hq, hev⟩ := ih h1 q1 qs' hrest k hk
          refine ⟨q, a1, a2, by rw [List.getElem?_cons_succ]; exact hq, ?_⟩
          have : progressBefore p (q1 :: qs') (k + 1) = progressBefore q1 qs' k := by
            cases k with
            | zero => rfl
            | succ j =>
              show (q1 :: qs').getD (j + 1) p = qs'.getD j q1
              have hlen : j < qs'.length := by
                obtain ⟨hl, _⟩ := List.getElem?_eq_some_iff.1 hq
                omega
              simp [List.getD_eq_getElem?_getD, hlen]
          rw [this]
          exact hev

/-- **C51.** In any history, evaluation `k` runs markets from the initial `delta` of the step with `'first'`, from the logit solution
at its own parameters with `'logit'`, and from the `delta` of the evaluation before with `'last'`, or the initial one if it is the
first. -/
theorem C51_start (c : EvalConfig) (evals : List (Bool × (N → Option ℝ) × ((N → Option ℝ) → RawEval N P M C))) (h h' : Heap)
    (p : ProgressInfo N P M C) (qs : List (ProgressInfo N P M C)) (hrun : evaluateAll c evals h p = .ok (h', qs)) (k : ℕ)
    (e : Bool × (N → Option ℝ) × ((N → Option ℝ) → RawEval N P M C)) (hk : evals[k]? = some e) :
    ∃ q start, qs[k]? = some q ∧ Spec.IsReverted q.delta (e.2.2 start).delta (progressBefore p qs k).delta ∧
      (c.deltaBehavior = .first → start = p.nextDelta) ∧ (c.deltaBehavior = .logit → start = e.2.1) ∧
      (c.deltaBehavior = .last → start = match k with | 0 => p.nextDelta | k + 1 => (progressBefore p qs (k + 1)).delta) := by
  obtain ⟨q, h1, h2, hq, hev⟩ := evaluateAll_get c evals h h' p qs hrun k e hk
  obtain ⟨e1, e2, _⟩ := evaluateObjective_ok _ _ _ _ _ _ _ _ hev
  refine ⟨q, startDelta c e.2.1 (progressBefore p qs k), hq, by rw [e1]; exact isReverted_revertVec _ _, ?_, ?_, ?_⟩
  · intro hf
    have hprev : ∀ j, j ≤ k → (progressBefore p qs j).nextDelta = p.nextDelta := by
      intro j
      induction j with
      | zero => intro _; rfl
      | succ j ihj =>
        intro hj
        have hjl : j < evals.length := by
          obtain ⟨hl, _⟩ := List.getElem?_eq_some_iff.1 hk
          omega
        obtain ⟨qj, a1, a2, hqj, hevj⟩ := evaluateAll_get c evals h h' p qs hrun j _ (List.getElem?_eq_getElem hjl)
        obtain ⟨_, n2, _⟩ := evaluateObjective_ok _ _ _ _ _ _ _ _ hevj
        rw [if_pos hf] at n2
        have : progressBefore p qs (j + 1) = qj := by
          show qs.getD j p = qj
          rw [List.getD_eq_getElem?_getD, hqj]
          rfl
        rw [this, n2]
        exact ihj (by omega)
    unfold startDelta
    rw [if_neg (by rw [hf]; simp)]
    exact hprev k le_rfl
  · intro hl
    unfold startDelta
    rw [if_pos hl]
  · intro hl
    unfold startDelta
    rw [if_neg (by rw [hl]; simp)]
    cases k with
    | zero => rfl
    | succ j =>
      have hjl : j < evals.length := by
        obtain ⟨hl, _⟩ := List.getElem?_eq_some_iff.1 hk
        omega
      obtain ⟨qj, a1, a2, hqj, hevj⟩ := evaluateAll_get c evals h h' p qs hrun j _ (List.getElem?_eq_getElem hjl)
      obtain ⟨n1, n2, _⟩ := evaluateObjective_ok _ _ _ _ _ _ _ _ hevj
      rw [if_neg (by rw [hl]; simp)] at n2
      have : progressBefore p qs (j + 1) = qj := by
        show qs.getD j p = qj
        rw [List.getD_eq_getElem?_getD, hqj]
        rfl
      dsimp only
      rw [this, n2, n1]

/-- Histories with failures exist for every `delta_behavior`: a failing evaluation after a clean one. -/
example (d : DeltaBehavior) : ∃ r, evaluateAll ⟨.revert, 2, d⟩ [(true, fun _ => some 7, fun _ => goodRaw), (true, fun _ => some 7, fun _ => badRaw)]
    initialHeap initialInfo = .ok r := by
  obtain ⟨h1, q, hq, _⟩ := C49_clean ⟨.revert, 2, d⟩ true (fun _ : Unit => some 7) (fun _ => goodRaw) initialHeap initialInfo
    (clean_goodRaw true)
  obtain ⟨h2, q', hq', _⟩ := C49_revert ⟨.revert, 2, d⟩ rfl true (fun _ : Unit => some 7) (fun _ => badRaw) h1 q
    (not_clean_badRaw true)
  refine ⟨(h2, [q, q']), ?_⟩
  unfold evaluateAll
  rw [hq]
  dsimp only
  unfold evaluateAll
  rw [hq']
  rfl

end Pyblp
