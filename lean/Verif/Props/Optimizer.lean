import Verif.Model.Optimizer
import Mathlib.Data.List.Destutter

/-!
# The optimizer's cache: C65
-/

set_option linter.unusedSectionVars false

namespace Pyblp

open Classical

variable {n : ℕ} {α β : Type}

namespace Spec

/-- The part of an evaluation that a request asks for. -/
def part (r : OptRequest n) (evaluation : α × β) : α ⊕ β :=
  match r with
  | .objective _ => .inl evaluation.1
  | .gradient _ => .inr evaluation.2

/-- No NaN. -/
def Proper (v : OptPoint n) : Prop := ∀ i, v i ≠ none

end Spec

theorem arrayEqual_iff (a b : OptPoint n) : arrayEqual a b ↔ a = b ∧ Spec.Proper a := by
  unfold arrayEqual Spec.Proper
  constructor
  · intro h
    refine ⟨funext fun i => ?_, fun i => ?_⟩
    · obtain ⟨x, h1, h2⟩ := h i
      rw [h1, h2]
    · obtain ⟨x, h1, _⟩ := h i
      rw [h1]
      simp
  · rintro ⟨rfl, h⟩ i
    obtain ⟨x, hx⟩ := Option.ne_none_iff_exists'.1 (h i)
    exact ⟨x, hx, hx⟩

/-- The cache holds the last evaluation. -/
def CacheLast (f : List (OptPoint n) → OptPoint n → α × β) (s : OptState n α β) : Prop :=
  (s.cache = none → s.log = []) ∧ ∀ v out, s.cache = some (v, out) → ∃ h, s.log = h ++ [v] ∧ out = f h v

theorem refresh_spec (f : List (OptPoint n) → OptPoint n → α × β) (s : OptState n α β) (hs : CacheLast f s) (v : OptPoint n) :
    ∃ h, (s.refresh f v).log = h ++ [v] ∧ (s.refresh f v).cache = some (v, f h v) := by
  unfold OptState.refresh
  cases hc : s.cache with
  | none => exact ⟨s.log, rfl, rfl⟩
  | some c =>
    obtain ⟨w, out⟩ := c
    dsimp only
    by_cases he : arrayEqual v w
    · rw [if_neg (not_not.2 he)]
      obtain ⟨h, h1, h2⟩ := hs.2 w out hc
      obtain ⟨rfl, _⟩ := (arrayEqual_iff v w).1 he
      exact ⟨h, h1, by rw [hc, h2]⟩
    · rw [if_pos he]
      exact ⟨s.log, rfl, rfl⟩

theorem serve_state (f : List (OptPoint n) → OptPoint n → α × β) (s : OptState n α β) (r : OptRequest n) :
    (s.serve f r).2 = s.refresh f r.point := by
  cases r <;> rfl

theorem cacheLast_serve (f : List (OptPoint n) → OptPoint n → α × β) (s : OptState n α β) (hs : CacheLast f s) (r : OptRequest n) :
    CacheLast f (s.serve f r).2 := by
  rw [serve_state]
  obtain ⟨h, h1, h2⟩ := refresh_spec f s hs r.point
  refine ⟨fun h' => by rw [h2] at h'; (exact absurd h' (by simp)), ?_⟩
  intro v out hv
  rw [h2] at hv
  obtain ⟨rfl, rfl⟩ := Prod.mk.inj (Option.some.inj hv)
  exact ⟨h, h1, rfl⟩

theorem cacheLast_serveAll (f : List (OptPoint n) → OptPoint n → α × β) (s : OptState n α β) (hs : CacheLast f s)
    (rs : List (OptRequest n)) : CacheLast f (s.serveAll f rs) := by
  induction rs generalizing s with
  | nil => exact hs
  | cons r rs ih => exact ih _ (cacheLast_serve f s hs r)

theorem cacheLast_initial (f : List (OptPoint n) → OptPoint n → α × β) : CacheLast f (OptState.initial : OptState n α β) :=
  ⟨fun _ => rfl, fun v out h => by cases h⟩

/-- **C65.** After any requests, what is handed over for a request is that part of the evaluation that was made last, at exactly the
requested point. -/
theorem C65_exact (f : List (OptPoint n) → OptPoint n → α × β) (rs : List (OptRequest n)) (r : OptRequest n) :
    ∃ earlier, (((OptState.initial.serveAll f rs).serve f r).2).log = earlier ++ [r.point] ∧
      ((OptState.initial.serveAll f rs).serve f r).1 = some (Spec.part r (f earlier r.point)) := by
  have hs := cacheLast_serveAll f _ (cacheLast_initial f) rs
  obtain ⟨h, h1, h2⟩ := refresh_spec f _ hs r.point
  refine ⟨h, by rw [serve_state]; exact h1, ?_⟩
  cases r with
  | objective v =>
    show ((OptState.serveAll f OptState.initial rs).refresh f v).cache.map _ = _
    rw [show ((OptState.serveAll f OptState.initial rs).refresh f v).cache = some (v, f h v) from h2]
    rfl
  | gradient v =>
    show ((OptState.serveAll f OptState.initial rs).refresh f v).cache.map _ = _
    rw [show ((OptState.serveAll f OptState.initial rs).refresh f v).cache = some (v, f h v) from h2]
    rfl

/-- **C65.** The objective and then the gradient at one point without NaN, or the other way around, come from a single evaluation, and
the second request does not evaluate anything. -/
theorem C65_pair (f : List (OptPoint n) → OptPoint n → α × β) (rs : List (OptRequest n)) (r r' : OptRequest n) (hp : r.point = r'.point)
    (hn : Spec.Proper r.point) :
    let s := OptState.initial.serveAll f rs
    let first := s.serve f r
    let second := first.2.serve f r'
    ∃ evaluation, first.1 = some (Spec.part r evaluation) ∧ second.1 = some (Spec.part r' evaluation) ∧ second.2.log = first.2.log := by
  intro s first second
  have hs := cacheLast_serveAll f _ (cacheLast_initial f) rs
  obtain ⟨h, h1, h2⟩ := refresh_spec f _ hs r.point
  have hfirst : first.2 = s.refresh f r.point := serve_state f s r
  have hc : first.2.cache = some (r.point, f h r.point) := by
    rw [hfirst]
    exact h2
  have hsecond : second.2 = first.2 := by
    rw [show second.2 = first.2.refresh f r'.point from serve_state f first.2 r']
    unfold OptState.refresh
    rw [hc]
    dsimp only
    rw [if_neg (not_not.2 ((arrayEqual_iff _ _).2 ⟨hp.symm, hp ▸ hn⟩))]
  refine ⟨f h r.point, ?_, ?_, by rw [hsecond]⟩
  · have : first.1 = (first.2.cache.map fun c => Spec.part r c.2) := by
      cases r <;> rfl
    rw [this, hc]
    rfl
  · have : second.1 = (second.2.cache.map fun c => Spec.part r' c.2) := by
      cases r' <;> rfl
    rw [this, hsecond, hc]
    rfl

/-- **C65.** The model is evaluated once for each stretch of consecutive requests at one point. -/
theorem C65_evaluations (f : List (OptPoint n) → OptPoint n → α × β) (rs : List (OptRequest n)) (hn : ∀ r ∈ rs, Spec.Proper r.point) :
    (OptState.initial.serveAll f rs).log = (rs.map OptRequest.point).destutter (· ≠ ·) := by
  have key : ∀ (rs : List (OptRequest n)) (s : OptState n α β) (h : List (OptPoint n)) (v : OptPoint n), CacheLast f s → s.log = h ++ [v] →
      (∀ r ∈ rs, Spec.Proper r.point) →
      (s.serveAll f rs).log = h ++ List.destutter' (· ≠ ·) v (rs.map OptRequest.point) := by
    intro rs
    induction rs with
    | nil =>
      intro s h v _ hl _
      exact hl
    | cons r rs ih =>
      intro s h v hs hl hn
      have hpr := hn r List.mem_cons_self
      show ((s.serve f r).2.serveAll f rs).log = _
      rw [List.map_cons, List.destutter']
      obtain ⟨out, hc⟩ : ∃ out, s.cache = some (v, out) := by
        cases hc : s.cache with
        | none =>
          have := hs.1 hc
          rw [hl] at this
          simp at this
        | some c =>
          obtain ⟨h', h1, _⟩ := hs.2 c.1 c.2 hc
          rw [hl] at h1
          have := (List.append_inj' h1 rfl).2
          exact ⟨c.2, by rw [List.cons.inj this |>.1]⟩
      by_cases he : v = r.point
      · rw [if_neg (not_not.2 he)]
        have hsame : (s.serve f r).2 = s := by
          rw [serve_state]
          unfold OptState.refresh
          rw [hc]
          dsimp only
          rw [if_neg (not_not.2 ((arrayEqual_iff _ _).2 ⟨he.symm, hpr⟩))]
        rw [hsame]
        exact ih s h v hs hl fun r' hr' => hn r' (List.mem_cons_of_mem _ hr')
      · rw [if_pos he]
        have hnew : (s.serve f r).2.log = (h ++ [v]) ++ [r.point] := by
          rw [serve_state]
          unfold OptState.refresh
          rw [hc]
          dsimp only
          rw [if_pos (fun h' => he ((arrayEqual_iff _ _).1 h').1.symm), hl]
        rw [ih _ (h ++ [v]) r.point (cacheLast_serve f s hs r) hnew fun r' hr' => hn r' (List.mem_cons_of_mem _ hr')]
        simp
  cases rs with
  | nil => rfl
  | cons r rs =>
    show ((OptState.initial.serve f r).2.serveAll f rs).log = _
    have hl : (OptState.initial.serve f r).2.log = [] ++ [r.point] := by
      rw [serve_state]
      rfl
    rw [key rs _ [] r.point (cacheLast_serve f _ (cacheLast_initial f) r) hl fun r' hr' => hn r' (List.mem_cons_of_mem _ hr')]
    rfl

/-- Four requests at two points take two evaluations. -/
example : (OptState.initial.serveAll (fun h v => (h.length, v)) [.objective (fun _ : Fin 1 => some 0), .gradient fun _ => some 0,
    .gradient fun _ => some 1, .objective fun _ => some 1]).log = [fun _ => some 0, fun _ => some 1] := by
  rw [C65_evaluations]
  · have h01 : (fun _ : Fin 1 => some (0 : ℝ)) ≠ fun _ => some 1 := by
      intro h
      have := congrFun h 0
      simp at this
    simp [OptRequest.point, List.destutter, List.destutter', h01]
  · intro r hr
    fin_cases hr <;> intro i <;> simp [OptRequest.point]

end Pyblp
