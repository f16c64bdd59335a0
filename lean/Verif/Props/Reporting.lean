import Mathlib.Data.List.GetD
import Verif.Model.Reporting

/-!
# Errors: C67, C71
-/

set_option linter.unusedSectionVars false

namespace Pyblp

/-! ## C67 -/

namespace Spec

/-- `shown` has each distinct element of `all` once, in order of first occurrence. -/
def FirstOccurrences {α : Type} [DecidableEq α] (shown all : List α) : Prop :=
  shown.Nodup ∧ (∀ a, a ∈ shown ↔ a ∈ all) ∧ shown.Pairwise fun a b => all.idxOf a < all.idxOf b

end Spec

theorem foldl_firstOccurrences {α : Type} [DecidableEq α] (l done d : List α) (hd : Spec.FirstOccurrences d done) :
    Spec.FirstOccurrences (l.foldl (fun d a => if a ∈ d then d else d ++ [a]) d) (done ++ l) := by
  induction l generalizing done d with
  | nil => simpa using hd
  | cons a l ih =>
    rw [List.foldl_cons]
    have e : done ++ a :: l = (done ++ [a]) ++ l := by simp
    rw [e]
    apply ih
    obtain ⟨h1, h2, h3⟩ := hd
    have hidx : ∀ x ∈ done, (done ++ [a]).idxOf x = done.idxOf x := fun x hx => List.idxOf_append_of_mem hx
    by_cases ha : a ∈ d
    · rw [if_pos ha]
      refine ⟨h1, fun b => ?_, ?_⟩
      · rw [h2, List.mem_append, List.mem_singleton]
        exact ⟨Or.inl, fun h => h.elim id fun hb => hb ▸ (h2 a).1 ha⟩
      · refine List.Pairwise.imp_of_mem ?_ h3
        intro x y hx hy hxy
        rw [hidx x ((h2 x).1 hx), hidx y ((h2 y).1 hy)]
        exact hxy
    · rw [if_neg ha]
      have hna : a ∉ done := fun h => ha ((h2 a).2 h)
      refine ⟨?_, fun b => ?_, ?_⟩
      · rw [List.nodup_append]
        refine ⟨h1, List.nodup_singleton a, ?_⟩
        intro x hx y hy hxy
        rw [List.mem_singleton] at hy
        exact ha (by rw [← hy, ← hxy]; exact hx)
      · rw [List.mem_append, List.mem_append, h2]
      · rw [List.pairwise_append]
        refine ⟨?_, List.pairwise_singleton _ _, ?_⟩
        · refine List.Pairwise.imp_of_mem ?_ h3
          intro x y hx hy hxy
          rw [hidx x ((h2 x).1 hx), hidx y ((h2 y).1 hy)]
          exact hxy
        · intro x hx y hy
          rw [List.mem_singleton] at hy
          subst hy
          have hxd := (h2 x).1 hx
          rw [hidx x hxd, List.idxOf_append_of_notMem hna]
          have := List.idxOf_lt_length_of_mem hxd
          omega

/-- **C67.** Reported errors are the distinct ones, once each, in order of first occurrence. -/
theorem C67_first_occurrences (errors : List ReportedError) : Spec.FirstOccurrences (multipleErrors errors).shown errors := by
  have hnil : Spec.FirstOccurrences ([] : List ReportedError) [] := ⟨List.nodup_nil, fun _ => Iff.rfl, List.Pairwise.nil⟩
  have h := foldl_firstOccurrences errors [] [] hnil
  rw [List.nil_append] at h
  match errors, h with
  | [], h => exact h
  | [e], _ => exact ⟨List.nodup_singleton e, fun _ => Iff.rfl, List.pairwise_singleton _ _⟩
  | e :: e' :: es, h => exact h

/-- **C67.** A single error is reported as itself, and only a single error is. -/
theorem C67_single (errors : List ReportedError) (e : ReportedError) : multipleErrors errors = .single e ↔ errors = [e] := by
  match errors with
  | [] => simp [multipleErrors]
  | [e'] => simp [multipleErrors]
  | e1 :: e2 :: es => simp [multipleErrors]

/-- **C67.** Errors collected in another order, as with several workers, are reported in another order but are the same. -/
theorem C67_schedule (errors errors' : List ReportedError) (h : errors.Perm errors') :
    (multipleErrors errors).shown.Perm (multipleErrors errors').shown := by
  obtain ⟨h1, h2, _⟩ := C67_first_occurrences errors
  obtain ⟨h1', h2', _⟩ := C67_first_occurrences errors'
  rw [List.perm_ext_iff_of_nodup h1 h1']
  intro a
  rw [h2, h2', h.mem_iff]

/-- Errors with the same message in different classes are different. -/
example : (multipleErrors [⟨"A", "m"⟩, ⟨"B", "m"⟩, ⟨"A", "m"⟩]).shown = [⟨"A", "m"⟩, ⟨"B", "m"⟩] := by decide

/-! ## C71 -/

namespace Spec

/-- Problems, other than underflow, in a computation itself. -/
def own : FpProgram → Finset FpProblem
  | .done => ∅
  | .problem p rest => if p = .under then own rest else insert p (own rest)
  | .call _ _ rest => own rest

/-- An error with all of a computation's own problems, if there are any. -/
def ownError (cls : String) (body : FpProgram) : List (String × Finset FpProblem) := if own body = ∅ then [] else [(cls, own body)]

/-- Errors that nested computations should report. -/
def nestedErrors : FpProgram → List (String × Finset FpProblem)
  | .done => []
  | .problem _ rest => nestedErrors rest
  | .call cls body rest => nestedErrors body ++ ownError cls body ++ nestedErrors rest

/-- No decorated computation is called. -/
def Flat : FpProgram → Prop
  | .done => True
  | .problem _ rest => Flat rest
  | .call _ _ _ => False

end Spec

/-- What running a body does, if handlers are restored. -/
structure BodySpec (prog : FpProgram) (s : FpState) (d : ℕ) (r : List (String × ℕ) × FpState) : Prop where
  handler : r.2.handler = some d
  length : s.detectors.length ≤ r.2.detectors.length
  kept : ∀ k < s.detectors.length, k ≠ d → r.2.detectors.getD k ∅ = s.detectors.getD k ∅
  own : r.2.detectors.getD d ∅ = s.detectors.getD d ∅ ∪ Spec.own prog
  ids : ∀ e ∈ r.1, s.detectors.length ≤ e.2 ∧ e.2 < r.2.detectors.length
  errors : (r.1.map fun e => (e.1, r.2.detectors.getD e.2 ∅)) = Spec.nestedErrors prog

theorem getD_modify (l : List (Finset FpProblem)) (f : Finset FpProblem → Finset FpProblem) (d k : ℕ) (hk : k < l.length) :
    (l.modify d f).getD k ∅ = if d = k then f (l.getD k ∅) else l.getD k ∅ := by
  rw [List.getD_eq_getElem _ _ (by simpa using hk), List.getD_eq_getElem _ _ hk, List.getElem_modify]

theorem bodySpec (prog : FpProgram) (s : FpState) (d : ℕ) (hh : s.handler = some d) (hd : d < s.detectors.length) :
    BodySpec prog s d (runBody true prog s) := by
  induction prog generalizing s d with
  | done =>
    rw [runBody]
    exact ⟨hh, le_rfl, fun _ _ _ => rfl, by simp [Spec.own], fun e he => (by cases he), rfl⟩
  | problem p rest ih =>
    rw [runBody]
    by_cases hp : p = .under
    · rw [if_pos hp]
      have h := ih s d hh hd
      exact ⟨h.handler, h.length, h.kept, by rw [h.own, Spec.own, if_pos hp], h.ids, h.errors⟩
    · rw [if_neg hp]
      have hs : s.detect p = ⟨some d, s.detectors.modify d (insert p)⟩ := by
        unfold FpState.detect
        rw [hh]
      rw [hs]
      have hl : (s.detectors.modify d (insert p)).length = s.detectors.length := List.length_modify ..
      have h := ih ⟨some d, s.detectors.modify d (insert p)⟩ d rfl (by rw [hl]; exact hd)
      refine ⟨h.handler, by rw [← hl]; exact h.length, ?_, ?_, ?_, h.errors⟩
      · intro k hk hkd
        rw [h.kept k (by rw [hl]; exact hk) hkd, getD_modify _ _ _ _ hk, if_neg (Ne.symm hkd)]
      · rw [h.own, getD_modify _ _ _ _ hd, if_pos rfl, Spec.own, if_neg hp]
        rw [Finset.insert_union, Finset.union_insert]
      · intro e he
        have := h.ids e he
        rw [hl] at this
        exact this
  | call cls body rest ihb ihr =>
    rw [runBody]
    rw [runDecorated]
    dsimp only
    have hb := ihb ⟨some s.detectors.length, s.detectors ++ [∅]⟩ s.detectors.length rfl (by simp)
    generalize hrb : runBody true body ⟨some s.detectors.length, s.detectors ++ [∅]⟩ = rb at hb
    have hlen : s.detectors.length + 1 ≤ rb.2.detectors.length := by
      have := hb.length
      simpa using this
    have hr := ihr ⟨s.handler, rb.2.detectors⟩ d hh (by
      show d < rb.2.detectors.length
      omega)
    rw [if_pos rfl]
    generalize hrr : runBody true rest ⟨s.handler, rb.2.detectors⟩ = rr at hr
    have hkept : ∀ k, s.detectors.length ≤ k → k < rb.2.detectors.length → rr.2.detectors.getD k ∅ = rb.2.detectors.getD k ∅ := by
      intro k h1 h2
      exact hr.kept k h2 (by omega)
    have hown : rb.2.detectors.getD s.detectors.length ∅ = Spec.own body := by
      rw [hb.own]
      simp
    refine ⟨hr.handler, ?_, ?_, ?_, ?_, ?_⟩
    · have := hr.length
      show s.detectors.length ≤ rr.2.detectors.length
      have h2 : rb.2.detectors.length ≤ rr.2.detectors.length := this
      omega
    · intro k hk hkd
      show rr.2.detectors.getD k ∅ = _
      rw [hr.kept k (show k < rb.2.detectors.length by omega) hkd]
      show rb.2.detectors.getD k ∅ = _
      rw [hb.kept k (by simp; omega) (by omega)]
      show (s.detectors ++ [∅]).getD k ∅ = _
      rw [List.getD_append _ _ _ _ hk]
    · show rr.2.detectors.getD d ∅ = _
      rw [hr.own]
      show rb.2.detectors.getD d ∅ ∪ _ = _
      rw [hb.kept d (by simp; omega) (by omega)]
      show (s.detectors ++ [∅]).getD d ∅ ∪ _ = _
      rw [List.getD_append _ _ _ _ hd]
      rfl
    · have hidb : ∀ e ∈ rb.1, s.detectors.length ≤ e.2 ∧ e.2 < rb.2.detectors.length := by
        intro e he
        have := hb.ids e he
        simp only [List.length_append, List.length_singleton] at this
        omega
      have h2 : rb.2.detectors.length ≤ rr.2.detectors.length := hr.length
      intro e he
      show s.detectors.length ≤ e.2 ∧ e.2 < rr.2.detectors.length
      rw [List.mem_append] at he
      rcases he with he | he
      · by_cases ho : rb.2.detectors.getD s.detectors.length ∅ = ∅
        · rw [if_pos ho] at he
          have := hidb e he
          omega
        · rw [if_neg ho, List.mem_append, List.mem_singleton] at he
          rcases he with he | he
          · have := hidb e he
            omega
          · subst he
            dsimp only
            omega
      · have : rb.2.detectors.length ≤ e.2 ∧ e.2 < rr.2.detectors.length := hr.ids e he
        omega
    · have hidb : ∀ e ∈ rb.1, s.detectors.length ≤ e.2 ∧ e.2 < rb.2.detectors.length := by
        intro e he
        have := hb.ids e he
        simp only [List.length_append, List.length_singleton] at this
        omega
      show ((_ ++ rr.1).map fun e => (e.1, rr.2.detectors.getD e.2 ∅)) = _
      rw [List.map_append, hr.errors, Spec.nestedErrors]
      congr 1
      have hbm : (rb.1.map fun e => (e.1, rr.2.detectors.getD e.2 ∅)) = Spec.nestedErrors body := by
        rw [← hb.errors]
        refine List.map_congr_left fun e he => ?_
        rw [hkept e.2 (hidb e he).1 (hidb e he).2]
      unfold Spec.ownError
      rw [hown]
      by_cases ho : Spec.own body = ∅
      · rw [if_pos ho, if_pos ho, hbm, List.append_nil]
      · rw [if_neg ho, if_neg ho, List.map_append, hbm, List.map_singleton]
        dsimp only
        rw [hkept s.detectors.length le_rfl (by omega), hown]

/-- **C71.** If the function called for floating point problems is restored at the end of a computation (NumPy 2.0 and later), then every
decorated computation, however nested, reports one error with exactly the kinds of problems that it encountered itself, or none if there
were none; errors are in the order in which computations ended. -/
theorem C71_reported (cls : String) (body : FpProgram) :
    reportOf true cls body = Spec.nestedErrors body ++ Spec.ownError cls body := by
  unfold reportOf
  dsimp only
  rw [runDecorated]
  dsimp only
  have hb := bodySpec body ⟨some 0, [] ++ [∅]⟩ 0 rfl (by simp)
  rw [List.length_nil]
  generalize runBody true body ⟨some 0, [] ++ [∅]⟩ = rb at hb
  have hown : rb.2.detectors.getD 0 ∅ = Spec.own body := by
    rw [hb.own]
    simp
  unfold Spec.ownError
  rw [hown]
  by_cases ho : Spec.own body = ∅
  · rw [if_pos ho, if_pos ho, List.append_nil]
    exact hb.errors
  · rw [if_neg ho, if_neg ho, List.map_append, List.map_singleton]
    dsimp only
    rw [hown]
    congr 1
    exact hb.errors

theorem flat_bodySpec (prog : FpProgram) (hf : Spec.Flat prog) (s : FpState) (d : ℕ) (hh : s.handler = some d)
    (hd : d < s.detectors.length) (restores : Bool) :
    (runBody restores prog s).1 = [] ∧ (runBody restores prog s).2.detectors.getD d ∅ = s.detectors.getD d ∅ ∪ Spec.own prog := by
  induction prog generalizing s with
  | done =>
    rw [runBody]
    simp [Spec.own]
  | problem p rest ih =>
    rw [runBody]
    by_cases hp : p = .under
    · rw [if_pos hp, Spec.own, if_pos hp]
      exact ih hf s hh hd
    · have hs : s.detect p = ⟨some d, s.detectors.modify d (insert p)⟩ := by
        unfold FpState.detect
        rw [hh]
      have hl : (s.detectors.modify d (insert p)).length = s.detectors.length := List.length_modify ..
      rw [if_neg hp, hs]
      have h := ih hf ⟨some d, s.detectors.modify d (insert p)⟩ rfl (by rw [hl]; exact hd)
      refine ⟨h.1, ?_⟩
      rw [h.2, getD_modify _ _ _ _ hd, if_pos rfl, Spec.own, if_neg hp, Finset.insert_union, Finset.union_insert]
  | call cls body rest => exact absurd hf id

/-- **C71.** A decorated computation that calls no others reports its problems with every version of NumPy. -/
theorem C71_flat (restores : Bool) (cls : String) (body : FpProgram) (hf : Spec.Flat body) :
    reportOf restores cls body = Spec.ownError cls body := by
  unfold reportOf
  dsimp only
  rw [runDecorated]
  dsimp only
  obtain ⟨h1, h2⟩ := flat_bodySpec body hf ⟨some 0, [] ++ [∅]⟩ 0 rfl (by simp) restores
  rw [List.length_nil, h1, h2]
  simp only [List.nil_append, List.getD_cons_zero, Finset.empty_union]
  unfold Spec.ownError
  by_cases ho : Spec.own body = ∅
  · rw [if_pos ho, if_pos ho]
    rfl
  · rw [if_neg ho, if_neg ho]
    simp only [List.map_singleton, List.nil_append] at h2 ⊢
    rw [h2]
    simp

/-- **C71, finding.** Before NumPy 2.0, which is allowed (`numpy>=1.17.0`), problems after a nested computation are lost: the nested
computation's detector stays in place. `ProblemMarket.solve` calls decorated computations like this. -/
theorem C71_old_numpy_refuted :
    Spec.ownError "GenericNumericalError" (.call "DeltaNumericalError" .done (.problem .divide .done)) =
        [("GenericNumericalError", {.divide})] ∧
      reportOf false "GenericNumericalError" (.call "DeltaNumericalError" .done (.problem .divide .done)) = [] := by
  constructor
  · simp [Spec.ownError, Spec.own]
  · unfold reportOf
    simp [runDecorated, runBody, FpState.detect]

/-- A computation with problems before and after a nested computation with problems. -/
example : reportOf true "A" (.problem .divide (.call "B" (.problem .over (.problem .over .done)) (.problem .under (.problem .invalid .done)))) =
    [("B", {.over}), ("A", {.divide, .invalid})] := by
  rw [C71_reported]
  simp [Spec.nestedErrors, Spec.ownError, Spec.own]

end Pyblp
