import Verif.Model.Solvers
import Verif.Props.Optimizer
import Mathlib.Data.List.Infix

/-!
# External solvers: C109
-/

set_option linter.unusedSectionVars false

namespace Pyblp

open Classical

variable {n : ℕ} {α β ι : Type}

namespace Spec

/-- What a solver did: where it stopped, what it reported, how often it called the callback for iterations, and the points it asked
about, each with the number of iterations when it did. -/
structure Played (P R : Type) where
  values : P
  report : R
  iterations : ℕ
  asked : List (P × ℕ)

/-- The optimizer works with the objective and the gradient themselves, with nothing in between. -/
def play (g : OptPoint n → α × β) : OptRoutine n α β → ℕ → Played (OptPoint n) Bool
  | .done values success, k => ⟨values, success, k, []⟩
  | .objective values next, k =>
    let rest := play g (next (g values).1) k
    { rest with asked := (values, k) :: rest.asked }
  | .gradient values next, k =>
    let rest := play g (next (g values).2) k
    { rest with asked := (values, k) :: rest.asked }
  | .callback next, k => play g next (k + 1)

/-- Points other than the previous one. A point with NaN is never the same. -/
noncomputable def changes : Option (OptPoint n) → List (OptPoint n × ℕ) → List (OptPoint n × ℕ)
  | _, [] => []
  | last, q :: rest => if last = some q.1 ∧ Proper q.1 then changes last rest else q :: changes (some q.1) rest

/-- Knitro works with the objective and the gradient themselves. Infinite values are replaced with very large ones. -/
noncomputable def bounded (x : Fl) : Fl := x.map fun a => max (-maxSize) (min a maxSize)

/-- How Knitro's iterations are known: with each request for the objective, and with those for the gradient only if `legacy`. -/
noncomputable def playKnitro (legacy : Bool) (g : OptPoint n → Fl × (Fin n → Fl)) : KnitroRoutine n → ℕ → Played (OptPoint n) ℤ
  | .done values code, k => ⟨values, code, k, []⟩
  | .objective values current next, k =>
    let rest := playKnitro legacy g (next (bounded (g values).1)) (max k current)
    { rest with asked := (values, max k current) :: rest.asked }
  | .gradient values current next, k =>
    let known := if legacy then max k current else k
    let rest := playKnitro legacy g (next fun i => bounded ((g values).2 i)) known
    { rest with asked := (values, known) :: rest.asked }

/-- `x - y`, for finite values. -/
def difference (x y : FVec ι) : FVec ι := fun i =>
  match x i, y i with
  | some a, some b => some (a - b)
  | _, _ => none

/-- The identity matrix minus another. -/
noncomputable def identityMinus [DecidableEq ι] (m : Matrix ι ι (Option ℝ)) : Matrix ι ι (Option ℝ) := fun i j =>
  match m i j with
  | some a => some ((1 : Matrix ι ι ℝ) i j - a)
  | none => none

/-- The root finder works with the function `x - g(x)` itself, the derivative of which is the identity minus that of `g`. Norms are of
vectors weighted by the last weights known. -/
noncomputable def playRoot [DecidableEq ι] (g : FVec ι → ContractionOutput ι) (supports : Bool) (norm : FVec ι → Option ℝ) :
    RootRoutine ι → FVec ι → ℕ → Played (FVec ι) Bool
  | .done values success, _, k => ⟨values, success, k, []⟩
  | .ask values next, w, k =>
    let rest := playRoot g supports norm (next (difference values (g values).values) ((g values).jacobian.map identityMinus))
      ((g values).weights.getD w) (if supports then k else k + 1)
    { rest with asked := (values, k) :: rest.asked }
  | .norm vector next, w, k => playRoot g supports norm (next (norm (w.mul vector))) w k
  | .callback next, w, k => playRoot g supports norm next w (if supports then k + 1 else k)

end Spec

/-- Evaluations are numbered from one, in order, and iterations never fall. -/
def Numbered (count iterations : ℕ) (told : List (ℕ × ℕ)) : Prop :=
  count = told.length ∧ (∀ k (h : k < told.length), (told[k]).2 = k + 1) ∧ (told.map Prod.fst).Pairwise (· ≤ ·) ∧
    ∀ q ∈ told, q.1 ≤ iterations

theorem numbered_add {count iterations : ℕ} {told : List (ℕ × ℕ)} (h : Numbered count iterations told) :
    Numbered (count + 1) iterations (told ++ [(iterations, count + 1)]) := by
  obtain ⟨h1, h2, h3, h4⟩ := h
  refine ⟨by simp [h1], ?_, ?_, ?_⟩
  · intro k hk
    rcases Nat.lt_or_ge k told.length with h | h
    · rw [List.getElem_append_left h]
      exact h2 k h
    · rw [List.getElem_append_right h]
      simp only [List.length_append, List.length_cons, List.length_nil] at hk
      have : k = told.length := by omega
      simp [this, h1]
  · rw [List.map_append, List.pairwise_append]
    refine ⟨h3, by simp, ?_⟩
    intro a ha b hb
    obtain ⟨q, hq, rfl⟩ := List.mem_map.1 ha
    simp only [List.map_cons, List.map_nil, List.mem_singleton] at hb
    rw [hb]
    exact h4 q hq
  · intro q hq
    rcases List.mem_append.1 hq with h | h
    · exact h4 q h
    · rw [List.mem_singleton.1 h]

theorem numbered_mono {count i j : ℕ} {told : List (ℕ × ℕ)} (h : Numbered count i told) (hij : i ≤ j) : Numbered count j told :=
  ⟨h.1, h.2.1, h.2.2.1, fun q hq => (h.2.2.2 q hq).trans hij⟩

/-- Numbers that the objective was given. -/
def toldNumbers (log : List (Told n)) : List (ℕ × ℕ) := log.map fun t => (t.iterations, t.evaluations)

theorem cached_numbered (f : List (Told n) → Told n → α × β) (s : OptRun n α β) (v : OptPoint n)
    (h : Numbered s.evaluations s.iterations (toldNumbers s.log)) :
    Numbered (s.cached f v).2.evaluations (s.cached f v).2.iterations (toldNumbers (s.cached f v).2.log) := by
  have hf : Numbered (s.evaluations + 1) s.iterations (toldNumbers (s.log ++ [⟨v, s.iterations, s.evaluations + 1⟩])) := by
    unfold toldNumbers
    rw [List.map_append]
    exact numbered_add h
  unfold OptRun.cached
  cases hc : s.cache with
  | none => exact hf
  | some c =>
    dsimp only
    by_cases he : arrayEqual v c.1
    · rw [if_pos he]
      exact h
    · rw [if_neg he]
      exact hf

theorem run_numbered (f : List (Told n) → Told n → α × β) (r : OptRoutine n α β) (s : OptRun n α β)
    (h : Numbered s.evaluations s.iterations (toldNumbers s.log)) :
    Numbered (r.run f s).2.evaluations (r.run f s).2.iterations (toldNumbers (r.run f s).2.log) := by
  induction r generalizing s with
  | done v b => exact h
  | objective v next ih => exact ih _ _ (cached_numbered f s v h)
  | gradient v next ih => exact ih _ _ (cached_numbered f s v h)
  | callback next ih => exact ih _ (numbered_mono h (Nat.le_succ _))

theorem numbered_nil : Numbered 0 0 [] :=
  ⟨rfl, fun k hk => absurd hk (by simp), by simp, by simp⟩

/-- **C109.** For any optimizer and any objective, even one that depends on what it was asked before: the number of evaluations that is
reported is how often the objective was evaluated, the k-th evaluation is told that it is the k-th, and the numbers of iterations
that evaluations are told never fall and are never more than what is reported. -/
theorem C109_optimizer_counts (f : List (Told n) → Told n → α × β) (supportsBounds : Bool) (bounds : Option (Fin n → EReal × EReal))
    (routine : OptPoint n → Option (Fin n → EReal × EReal) → OptRoutine n α β) (initial : OptPoint n) :
    let out := optimizeScipy f supportsBounds bounds routine initial
    out.2.1.evaluations = out.2.2.length ∧ (∀ k (h : k < out.2.2.length), (out.2.2[k]).evaluations = k + 1) ∧
      (out.2.2.map Told.iterations).Pairwise (· ≤ ·) ∧ ∀ t ∈ out.2.2, t.iterations ≤ out.2.1.iterations := by
  have h := run_numbered f (routine initial (rawBounds supportsBounds bounds)) .initial numbered_nil
  obtain ⟨h1, h2, h3, h4⟩ := h
  unfold toldNumbers at h1 h2 h3 h4
  unfold optimizeScipy
  refine ⟨by simpa using h1, ?_, ?_, ?_⟩
  · intro k hk
    have := h2 k (by simpa using hk)
    simpa using this
  · simpa [List.map_map, Function.comp_def] using h3
  · intro t ht
    exact h4 _ (List.mem_map.2 ⟨t, ht, rfl⟩)

/-- The cache holds the value at a point. -/
def CacheTrue (g : OptPoint n → α × β) (s : OptRun n α β) : Prop := ∀ v out, s.cache = some (v, out) → out = g v

theorem cached_spec (f : List (Told n) → Told n → α × β) (g : OptPoint n → α × β) (hf : ∀ h t, f h t = g t.values)
    (s : OptRun n α β) (hs : CacheTrue g s) (v : OptPoint n) (rest : List (OptPoint n × ℕ)) :
    let out := s.cached f v
    out.1 = g v ∧ CacheTrue g out.2 ∧ out.2.iterations = s.iterations ∧
      s.log.map (fun t => (t.values, t.iterations)) ++ Spec.changes (s.cache.map Prod.fst) ((v, s.iterations) :: rest) =
        out.2.log.map (fun t => (t.values, t.iterations)) ++ Spec.changes (out.2.cache.map Prod.fst) rest := by
  have hfresh : f s.log ⟨v, s.iterations, s.evaluations + 1⟩ = g v := hf _ _
  unfold OptRun.cached OptRun.evaluate
  cases hc : s.cache with
  | none =>
    refine ⟨hfresh, ?_, rfl, ?_⟩
    · intro w out h
      obtain ⟨rfl, rfl⟩ := Prod.mk.inj (Option.some.inj h)
      exact hfresh
    · simp [Spec.changes]
  | some c =>
    obtain ⟨w, out⟩ := c
    dsimp only
    by_cases he : arrayEqual v w
    · rw [if_pos he]
      obtain ⟨rfl, hp⟩ := (arrayEqual_iff v w).1 he
      refine ⟨hs v out hc, hs, rfl, ?_⟩
      rw [hc]
      simp [Spec.changes, hp]
    · rw [if_neg he]
      refine ⟨hfresh, ?_, rfl, ?_⟩
      · intro w out h
        obtain ⟨rfl, rfl⟩ := Prod.mk.inj (Option.some.inj h)
        exact hfresh
      · have : ¬ ((some w : Option (OptPoint n)) = some v ∧ Spec.Proper v) := by
          rintro ⟨h1, h2⟩
          exact he ((arrayEqual_iff v w).2 ⟨(Option.some.inj h1).symm, h2⟩)
        simp only [Spec.changes, Option.map_some, if_neg this, List.map_append, List.map_cons, List.map_nil, List.append_assoc,
          List.cons_append, List.nil_append]

theorem run_play (f : List (Told n) → Told n → α × β) (g : OptPoint n → α × β) (hf : ∀ h t, f h t = g t.values)
    (r : OptRoutine n α β) (s : OptRun n α β) (hs : CacheTrue g s) :
    let out := r.run f s
    let p := Spec.play g r s.iterations
    out.1 = (p.values, p.report) ∧ out.2.iterations = p.iterations ∧
      out.2.log.map (fun t => (t.values, t.iterations)) =
        s.log.map (fun t => (t.values, t.iterations)) ++ Spec.changes (s.cache.map Prod.fst) p.asked := by
  induction r generalizing s with
  | done v b => simp [OptRoutine.run, Spec.play, Spec.changes]
  | objective v next ih =>
    obtain ⟨h1, h2, h3, h4⟩ := cached_spec f g hf s hs v (Spec.play g (next (g v).1) s.iterations).asked
    have := ih (s.cached f v).1.1 (s.cached f v).2 h2
    rw [h3, h1] at this
    simp only [OptRoutine.run, Spec.play]
    rw [h4, h1]
    exact this
  | gradient v next ih =>
    obtain ⟨h1, h2, h3, h4⟩ := cached_spec f g hf s hs v (Spec.play g (next (g v).2) s.iterations).asked
    have := ih (s.cached f v).1.2 (s.cached f v).2 h2
    rw [h3, h1] at this
    simp only [OptRoutine.run, Spec.play]
    rw [h4, h1]
    exact this
  | callback next ih => exact ih s.callback hs

/-- **C109.** If the objective and its gradient depend only on parameters, then any optimizer returns and reports what it would with the
objective and gradient themselves: what is stored between requests changes nothing. It is given bounds if and only if it supports
them. Iterations are counted as they are completed, and the objective is evaluated where the optimizer asks about a point other than
the previous one, only there and in this order. -/
theorem C109_optimizer (f : List (Told n) → Told n → α × β) (g : OptPoint n → α × β) (hf : ∀ h t, f h t = g t.values)
    (supportsBounds : Bool) (bounds : Option (Fin n → EReal × EReal))
    (routine : OptPoint n → Option (Fin n → EReal × EReal) → OptRoutine n α β) (initial : OptPoint n) :
    let out := optimizeScipy f supportsBounds bounds routine initial
    let p := Spec.play g (routine initial (if supportsBounds = true then bounds else none)) 0
    out.1 = p.values ∧ out.2.1.converged = p.report ∧ out.2.1.iterations = p.iterations ∧
      out.2.1.evaluations = (Spec.changes none p.asked).length ∧
      out.2.2.map (fun t => (t.values, t.iterations)) = Spec.changes none p.asked := by
  have hb : rawBounds supportsBounds bounds = if supportsBounds = true then bounds else none := by
    unfold rawBounds
    cases bounds <;> cases supportsBounds <;> rfl
  have h := run_play f g hf (routine initial (rawBounds supportsBounds bounds)) .initial (fun v out h => absurd h (by simp [OptRun.initial]))
  have hc := (C109_optimizer_counts f supportsBounds bounds routine initial).1
  rw [hb] at h
  obtain ⟨h1, h2, h3⟩ := h
  intro out p
  have h4 : out.2.2.map (fun t => (t.values, t.iterations)) = Spec.changes none p.asked := by
    simp only [out, optimizeScipy, hb, p]
    simpa [OptRun.initial] using h3
  refine ⟨?_, ?_, ?_, ?_, h4⟩
  · simp only [out, optimizeScipy, hb]
    rw [h1]
    rfl
  · simp only [out, optimizeScipy, hb]
    rw [h1]
    rfl
  · simp only [out, optimizeScipy, hb]
    exact h2
  · rw [hc, ← h4, List.length_map]

/-- An optimizer that asks for the objective and then for the gradient, takes a step, and asks for the objective again. -/
noncomputable def stepper : OptRoutine 1 ℝ ℝ :=
  .objective (fun _ => some 1) fun _ => .gradient (fun _ => some 1) fun b => .callback
    (.objective (fun _ => some (1 - b)) fun c => .done (fun _ => some (1 - b)) (decide (c ≤ 0)))

/-- The hypotheses are met, and of three requests one is answered from what is stored. -/
example : let out := optimizeScipy (fun _ t => (((t.values 0).getD 0) ^ 2, (t.values 0).getD 0)) true none (fun _ _ => stepper) (fun _ => some 1)
    out.1 = (fun _ => some 0) ∧ out.2.1.converged = true ∧ out.2.1.iterations = 1 ∧ out.2.1.evaluations = 2 := by
  obtain ⟨h1, h2, h3, h4, _⟩ := C109_optimizer (n := 1) (fun _ t => (((t.values 0).getD 0) ^ 2, (t.values 0).getD 0))
    (fun v => (((v 0).getD 0) ^ 2, (v 0).getD 0)) (fun _ _ => rfl) true none (fun _ _ => stepper) (fun _ => some 1)
  refine ⟨h1.trans ?_, h2.trans ?_, h3.trans ?_, h4.trans ?_⟩
  · simp [Spec.play, stepper]
  · simp [Spec.play, stepper]
  · simp [Spec.play, stepper]
  · have hn : (fun _ : Fin 1 => some (1 : ℝ)) ≠ fun _ => some 0 := fun h => by simpa using congrFun h 0
    simp [Spec.play, stepper, Spec.changes, Spec.Proper, hn]

theorem catchUp_iterations (s : OptRun n α β) (current : ℕ) :
    (s.catchUp current).iterations = max s.iterations current ∧ (s.catchUp current).evaluations = s.evaluations ∧
      (s.catchUp current).cache = s.cache ∧ (s.catchUp current).log = s.log := by
  induction hk : current - s.iterations generalizing s with
  | zero =>
    unfold OptRun.catchUp
    rw [dif_neg (by omega)]
    exact ⟨by omega, rfl, rfl, rfl⟩
  | succ k ih =>
    unfold OptRun.catchUp
    rw [dif_pos (by omega)]
    obtain ⟨h1, h2, h3, h4⟩ := ih s.callback (by simp only [OptRun.callback]; omega)
    refine ⟨?_, h2, h3, h4⟩
    rw [h1]
    simp only [OptRun.callback]
    omega

theorem knitroNormalize_eq (x : Fl) : knitroNormalize x = Spec.bounded x := by
  unfold knitroNormalize Spec.bounded
  congr 1
  funext a
  have h : -maxSize ≤ maxSize := by
    unfold maxSize
    rw [← EReal.coe_neg, EReal.coe_le_coe_iff]
    norm_num
  rcases le_total a maxSize with h1 | h1
  · rw [min_eq_left h1, max_comm]
    exact min_eq_left (max_le h h1)
  · rw [min_eq_right h1, max_eq_right h, max_eq_left (h.trans h1), min_eq_right h1]

theorem knitro_play (legacy : Bool) (f : List (Told n) → Told n → Fl × (Fin n → Fl)) (g : OptPoint n → Fl × (Fin n → Fl))
    (hf : ∀ h t, f h t = g t.values) (r : KnitroRoutine n) (s : OptRun n Fl (Fin n → Fl)) (hs : CacheTrue g s)
    (hn : s.evaluations = s.log.length) :
    let out := r.run legacy f s
    let p := Spec.playKnitro legacy g r s.iterations
    out.1 = (p.values, p.report) ∧ out.2.iterations = p.iterations ∧ out.2.evaluations = out.2.log.length ∧
      out.2.log.map (fun t => (t.values, t.iterations)) =
        s.log.map (fun t => (t.values, t.iterations)) ++ Spec.changes (s.cache.map Prod.fst) p.asked := by
  have hlen : ∀ (s : OptRun n Fl (Fin n → Fl)) v, s.evaluations = s.log.length →
      (s.cached f v).2.evaluations = (s.cached f v).2.log.length := by
    intro s v h
    unfold OptRun.cached OptRun.evaluate
    cases hc : s.cache with
    | none => simp [h]
    | some c =>
      dsimp only
      by_cases he : arrayEqual v c.1
      · rw [if_pos he]
        exact h
      · rw [if_neg he]
        simp [h]
  induction r generalizing s with
  | done v b => simp [KnitroRoutine.run, Spec.playKnitro, Spec.changes, hn]
  | objective v current next ih =>
    obtain ⟨c1, c2, c3, c4⟩ := catchUp_iterations s current
    have hs' : CacheTrue g (s.catchUp current) := by
      unfold CacheTrue
      rw [c3]
      exact hs
    obtain ⟨h1, h2, h3, h4⟩ := cached_spec f g hf (s.catchUp current) hs' v
      (Spec.playKnitro legacy g (next (Spec.bounded (g v).1)) (max s.iterations current)).asked
    have := ih (knitroNormalize ((s.catchUp current).cached f v).1.1) ((s.catchUp current).cached f v).2 h2
      (hlen _ v (by rw [c2, c4, hn]))
    rw [h3, h1, c1, knitroNormalize_eq] at this
    rw [c1, c3, c4] at h4
    simp only [KnitroRoutine.run, Spec.playKnitro]
    rw [h4, h1, knitroNormalize_eq]
    exact this
  | gradient v current next ih =>
    obtain ⟨s', hs'⟩ : ∃ s', s' = if legacy then s.catchUp current else s := ⟨_, rfl⟩
    have hc : s'.iterations = (if legacy then max s.iterations current else s.iterations) ∧ s'.evaluations = s.evaluations ∧
        s'.cache = s.cache ∧ s'.log = s.log := by
      rw [hs']
      cases legacy
      · exact ⟨rfl, rfl, rfl, rfl⟩
      · exact catchUp_iterations s current
    obtain ⟨c1, c2, c3, c4⟩ := hc
    have ht : CacheTrue g s' := by
      unfold CacheTrue
      rw [c3]
      exact hs
    obtain ⟨h1, h2, h3, h4⟩ := cached_spec f g hf s' ht v
      (Spec.playKnitro legacy g (next fun i => Spec.bounded ((g v).2 i)) (if legacy then max s.iterations current else s.iterations)).asked
    have := ih (fun i => knitroNormalize ((s'.cached f v).1.2 i)) (s'.cached f v).2 h2 (hlen _ v (by rw [c2, c4, hn]))
    simp only [h3, h1, c1, knitroNormalize_eq] at this
    rw [c1, c3, c4] at h4
    simp only [KnitroRoutine.run, Spec.playKnitro]
    rw [← hs', h4]
    simp only [h1, knitroNormalize_eq]
    exact this

/-- **C109.** The same of Knitro, old and new: it returns what it would with the objective and gradient themselves, with infinite values
replaced by very large ones. The number of iterations reported is the largest that Knitro had completed at a request for the objective
(old: at any request), and convergence is reported if and only if Knitro's code is above -200. -/
theorem C109_knitro (legacy : Bool) (f : List (Told n) → Told n → Fl × (Fin n → Fl)) (g : OptPoint n → Fl × (Fin n → Fl))
    (hf : ∀ h t, f h t = g t.values) (supportsBounds : Bool) (bounds : Option (Fin n → EReal × EReal))
    (routine : OptPoint n → Option (Fin n → EReal × EReal) → KnitroRoutine n) (initial : OptPoint n) :
    let out := optimizeKnitro legacy f supportsBounds bounds routine initial
    let p := Spec.playKnitro legacy g (routine initial (if supportsBounds = true then bounds else none)) 0
    out.1 = p.values ∧ (out.2.1.converged = true ↔ -200 < p.report) ∧ out.2.1.iterations = p.iterations ∧
      out.2.1.evaluations = (Spec.changes none p.asked).length ∧
      out.2.2.map (fun t => (t.values, t.iterations)) = Spec.changes none p.asked := by
  have hb : rawBounds supportsBounds bounds = if supportsBounds = true then bounds else none := by
    unfold rawBounds
    cases bounds <;> cases supportsBounds <;> rfl
  have h := knitro_play legacy f g hf (routine initial (rawBounds supportsBounds bounds)) .initial
    (fun v out h => absurd h (by simp [OptRun.initial])) rfl
  rw [hb] at h
  obtain ⟨h1, h2, h3, h4⟩ := h
  intro out p
  have h5 : out.2.2.map (fun t => (t.values, t.iterations)) = Spec.changes none p.asked := by
    simp only [out, optimizeKnitro, hb, p]
    simpa [OptRun.initial] using h4
  refine ⟨?_, ?_, ?_, ?_, h5⟩
  · simp only [out, optimizeKnitro, hb]
    rw [h1]
    rfl
  · simp only [out, optimizeKnitro, hb]
    rw [h1]
    simp [p, OptRun.initial]
  · simp only [out, optimizeKnitro, hb]
    exact h2
  · rw [← h5, List.length_map]
    simp only [out, optimizeKnitro, hb]
    exact h3

/-- Knitro that completes two iterations and fails. -/
example : let r : KnitroRoutine 1 := .objective (fun _ => some 1) 0 fun _ => .gradient (fun _ => some 1) 1 fun _ =>
      .objective (fun _ => some 2) 2 fun _ => .done (fun _ => some 2) (-400)
    let out := optimizeKnitro false (fun _ _ => (some 0, fun _ => some 0)) true none (fun _ _ => r) (fun _ => some 1)
    out.2.1.converged = false ∧ out.2.1.iterations = 2 ∧ out.2.1.evaluations = 2 := by
  intro r out
  obtain ⟨_, h2, h3, h4, _⟩ := C109_knitro (n := 1) false (fun _ _ => (some 0, fun _ => some 0)) (fun _ => (some 0, fun _ => some 0))
    (fun _ _ => rfl) true none (fun _ _ => r) (fun _ => some 1)
  refine ⟨?_, h3.trans ?_, h4.trans ?_⟩
  · rw [← Bool.not_eq_true]
    intro h
    exact absurd (h2.1 h) (by simp [Spec.playKnitro, r])
  · simp [Spec.playKnitro, r]
  · have hn : (fun _ : Fin 1 => some (1 : ℝ)) ≠ fun _ => some 2 := fun h => by simpa using congrFun h 0
    simp [Spec.playKnitro, r, Spec.changes, Spec.Proper, hn]

theorem residualOf_eq (x y : FVec ι) : residualOf x y = Spec.difference x y := by
  funext i
  unfold residualOf FVec.sub Spec.difference
  cases x i <;> cases y i <;> rfl

theorem eyeMinus_eq [DecidableEq ι] (m : Matrix ι ι (Option ℝ)) : eyeMinus m = Spec.identityMinus m := by
  funext i j
  unfold eyeMinus Spec.identityMinus
  cases m i j with
  | none => rfl
  | some a => simp [Matrix.one_apply]

/-- Numbers that the contraction was given. -/
def rootNumbers (log : List (FVec ι × ℕ × ℕ)) : List (ℕ × ℕ) := log.map fun t => t.2

theorem rootRun_numbered [DecidableEq ι] (c : List (FVec ι × ℕ × ℕ) → FVec ι × ℕ × ℕ → ContractionOutput ι) (supports : Bool)
    (norm : FVec ι → Option ℝ) (r : RootRoutine ι) (s : RootRun ι) (h : Numbered s.evaluations s.iterations (rootNumbers s.log))
    (hs : supports = false → s.iterations = s.evaluations) :
    let out := (r.run c supports norm s).2
    Numbered out.evaluations out.iterations (rootNumbers out.log) ∧ (supports = false → out.iterations = out.evaluations) := by
  induction r generalizing s with
  | done v b => exact ⟨h, hs⟩
  | ask v next ih =>
    refine ih _ _ _ ?_ ?_
    · have h1 := numbered_add h
      have h2 : Numbered (s.evaluations + 1) (if supports then s.iterations else s.iterations + 1)
          (rootNumbers s.log ++ [(s.iterations, s.evaluations + 1)]) := numbered_mono h1 (by cases supports <;> simp)
      unfold rootNumbers at h2 ⊢
      rw [RootRun.evaluate]
      dsimp only
      rw [List.map_append]
      exact h2
    · intro h0
      simp [RootRun.evaluate, h0, hs h0]
  | norm v next ih => exact ih _ s h hs
  | callback next ih =>
    refine ih _ ?_ ?_
    · cases supports
      · exact h
      · exact numbered_mono h (Nat.le_succ _)
    · intro h0
      subst h0
      exact hs rfl

/-- **C109.** For any root finder and any contraction: evaluations are counted as they are made and iterations as they are completed,
and of methods that do not say when iterations are completed, every evaluation is one. -/
theorem C109_root_counts [DecidableEq ι] (c : List (FVec ι × ℕ × ℕ) → FVec ι × ℕ × ℕ → ContractionOutput ι) (supports : Bool)
    (norm : FVec ι → Option ℝ) (routine : FVec ι → RootRoutine ι) (initial : FVec ι) :
    let out := iterateScipy c supports norm routine initial
    out.2.1.evaluations = out.2.2.length ∧ (∀ k (h : k < out.2.2.length), (out.2.2[k]).2.2 = k + 1) ∧
      (out.2.2.map fun t => t.2.1).Pairwise (· ≤ ·) ∧ (∀ t ∈ out.2.2, t.2.1 ≤ out.2.1.iterations) ∧
      (supports = false → out.2.1.iterations = out.2.1.evaluations) := by
  obtain ⟨⟨h1, h2, h3, h4⟩, h5⟩ := rootRun_numbered c supports norm (routine initial) .initial numbered_nil (fun _ => rfl)
  unfold rootNumbers at h1 h2 h3 h4
  unfold iterateScipy
  refine ⟨by simpa using h1, ?_, ?_, ?_, h5⟩
  · intro k hk
    have := h2 k (by simpa using hk)
    simpa using this
  · simpa [List.map_map, Function.comp_def] using h3
  · intro t ht
    exact h4 _ (List.mem_map.2 ⟨t, ht, rfl⟩)

theorem evaluate_finite [DecidableEq ι] (c : List (FVec ι × ℕ × ℕ) → FVec ι × ℕ × ℕ → ContractionOutput ι)
    (g : FVec ι → ContractionOutput ι) (hc : ∀ h t, c h t = g t.1) (supports : Bool) (s : RootRun ι) (x : FVec ι)
    (hx : (g x).AllFinite) : s.evaluate c supports x =
      ((Spec.difference x (g x).values, (g x).jacobian.map Spec.identityMinus),
        ⟨if supports then s.iterations else s.iterations + 1, s.evaluations + 1, s.failed, (g x).weights.getD s.weights,
          s.log ++ [(x, s.iterations, s.evaluations + 1)]⟩) := by
  have h : c s.log (x, s.iterations, s.evaluations + 1) = g x := hc _ _
  unfold RootRun.evaluate
  simp only [h, if_pos hx, residualOf_eq, funext eyeMinus_eq]

theorem evaluate_failed [DecidableEq ι] (c : List (FVec ι × ℕ × ℕ) → FVec ι × ℕ × ℕ → ContractionOutput ι)
    (g : FVec ι → ContractionOutput ι) (hc : ∀ h t, c h t = g t.1) (supports : Bool) (s : RootRun ι) (x : FVec ι)
    (hx : ¬ (g x).AllFinite) : (s.evaluate c supports x).2.failed = true := by
  have h : c s.log (x, s.iterations, s.evaluations + 1) = g x := hc _ _
  unfold RootRun.evaluate
  simp only [h, if_neg hx]

theorem failed_stays [DecidableEq ι] (c : List (FVec ι × ℕ × ℕ) → FVec ι × ℕ × ℕ → ContractionOutput ι) (supports : Bool)
    (norm : FVec ι → Option ℝ) (r : RootRoutine ι) (s : RootRun ι) (h : s.failed = true) : (r.run c supports norm s).2.failed = true := by
  induction r generalizing s with
  | done v b => exact h
  | ask v next ih =>
    refine ih _ _ _ ?_
    unfold RootRun.evaluate
    simp [h]
  | norm v next ih => exact ih _ s h
  | callback next ih =>
    refine ih _ ?_
    cases supports <;> exact h

theorem rootRun_play [DecidableEq ι] (c : List (FVec ι × ℕ × ℕ) → FVec ι × ℕ × ℕ → ContractionOutput ι)
    (g : FVec ι → ContractionOutput ι) (hc : ∀ h t, c h t = g t.1) (supports : Bool) (norm : FVec ι → Option ℝ) (r : RootRoutine ι)
    (s : RootRun ι) (hs : s.failed = false) :
    let out := r.run c supports norm s
    let p := Spec.playRoot g supports norm r s.weights s.iterations
    (out.2.failed = false ↔ ∀ q ∈ p.asked, (g q.1).AllFinite) ∧ ((∀ q ∈ p.asked, (g q.1).AllFinite) →
      out.1 = (p.values, p.report) ∧ out.2.iterations = p.iterations ∧
        out.2.log.map (fun t => (t.1, t.2.1)) = s.log.map (fun t => (t.1, t.2.1)) ++ p.asked) := by
  induction r generalizing s with
  | done v b => simp [RootRoutine.run, Spec.playRoot, hs]
  | ask v next ih =>
    simp only [RootRoutine.run, Spec.playRoot, List.forall_mem_cons]
    by_cases hx : (g v).AllFinite
    · rw [evaluate_finite c g hc supports s v hx]
      have := ih (Spec.difference v (g v).values) ((g v).jacobian.map Spec.identityMinus)
        ⟨if supports then s.iterations else s.iterations + 1, s.evaluations + 1, s.failed, (g v).weights.getD s.weights,
          s.log ++ [(v, s.iterations, s.evaluations + 1)]⟩ hs
      dsimp only at this ⊢
      refine ⟨this.1.trans ⟨fun h => ⟨hx, h⟩, fun h => h.2⟩, fun h => ?_⟩
      obtain ⟨h1, h2, h3⟩ := this.2 h.2
      refine ⟨h1, h2, ?_⟩
      rw [h3]
      simp
    · have hf := evaluate_failed c g hc supports s v hx
      refine ⟨⟨fun h => ?_, fun h => absurd h.1 hx⟩, fun h => absurd h.1 hx⟩
      rw [failed_stays c supports norm _ _ hf] at h
      exact absurd h (by simp)
  | norm v next ih => exact ih _ s hs
  | callback next ih =>
    have := ih (if supports then { s with iterations := s.iterations + 1 } else s) (by cases supports <;> exact hs)
    cases supports <;> exact this

/-- **C109.** If the contraction depends only on values, convergence is reported by a root finder of SciPy if and only if it succeeds at
finding a root of `x - g(x)`, with all evaluations of `g`, weights and Jacobians being finite on the way. What is returned is then the
root that it found, and the contraction was evaluated where it asked, and only there. -/
theorem C109_root [DecidableEq ι] (c : List (FVec ι × ℕ × ℕ) → FVec ι × ℕ × ℕ → ContractionOutput ι)
    (g : FVec ι → ContractionOutput ι) (hc : ∀ h t, c h t = g t.1) (supports : Bool) (norm : FVec ι → Option ℝ)
    (routine : FVec ι → RootRoutine ι) (initial : FVec ι) :
    let out := iterateScipy c supports norm routine initial
    let p := Spec.playRoot g supports norm (routine initial) (fun _ => some 1) 0
    (out.2.1.converged = true ↔ p.report = true ∧ ∀ q ∈ p.asked, (g q.1).AllFinite) ∧
      (out.2.1.converged = true → out.1 = p.values ∧ out.2.1.iterations = p.iterations ∧
        out.2.2.map (fun t => (t.1, t.2.1)) = p.asked) := by
  obtain ⟨h1, h2⟩ := rootRun_play c g hc supports norm (routine initial) .initial rfl
  intro out p
  have hiff : out.2.1.converged = true ↔ p.report = true ∧ ∀ q ∈ p.asked, (g q.1).AllFinite := by
    simp only [out, iterateScipy, Bool.and_eq_true, Bool.not_eq_true']
    constructor
    · rintro ⟨h3, h4⟩
      have h5 := h1.1 h3
      rw [(h2 h5).1] at h4
      exact ⟨h4, h5⟩
    · rintro ⟨h3, h4⟩
      refine ⟨h1.2 h4, ?_⟩
      rw [(h2 h4).1]
      exact h3
  refine ⟨hiff, fun h => ?_⟩
  obtain ⟨h3, h4, h5⟩ := h2 (hiff.1 h).2
  refine ⟨?_, h4, ?_⟩
  · simp only [out, iterateScipy]
    rw [h3]
    rfl
  · simp only [out, iterateScipy, p]
    simpa [RootRun.initial] using h5

/-- **C109.** Finite roots of the function that root finders are given are exactly the fixed points. -/
theorem C109_root_fixed_point (x y : FVec ι) (hx : x.Finite) : (residualOf x y = fun _ => some 0) ↔ y = x := by
  rw [residualOf_eq]
  constructor
  · intro h
    funext i
    have := congrFun h i
    unfold Spec.difference at this
    have hi := hx i
    cases hxi : x i with
    | none => rw [hxi] at hi; exact absurd hi (by simp)
    | some a =>
      rw [hxi] at this
      cases hyi : y i with
      | none => rw [hyi] at this; exact absurd this (by simp)
      | some b =>
        rw [hyi] at this
        have := Option.some.inj this
        rw [sub_eq_zero] at this
        rw [this]
  · rintro rfl
    funext i
    unfold Spec.difference
    have hi := hx i
    cases hxi : y i with
    | none => rw [hxi] at hi; exact absurd hi (by simp)
    | some a => simp

/-- A root finder that takes one step of twice the function. -/
noncomputable def stepRoot : RootRoutine Unit :=
  .ask (fun _ => some 1) fun r _ => .callback (.ask (fun i => (r i).map fun a => 1 - 2 * a) fun r _ => .norm r fun e =>
    .done (fun _ => some 0) (decide (e = some 0)))

/-- A contraction the fixed point of which is zero. -/
noncomputable def halving (x : FVec Unit) : ContractionOutput Unit := ⟨fun i => (x i).map (· / 2), none, some fun _ _ => some (1 / 2)⟩

/-- The hypotheses are met, and convergence is reported. -/
example : let out := iterateScipy (fun _ t => halving t.1) true (fun x => (x ()).map abs) (fun _ => stepRoot) (fun _ => some 1)
    out.2.1.converged = true ∧ out.1 = (fun _ => some 0) ∧ out.2.1.iterations = 1 := by
  have h := C109_root (fun _ t => halving t.1) halving (fun _ _ => rfl) true (fun x => (x ()).map abs) (fun _ => stepRoot) (fun _ => some 1)
  have hp : Spec.playRoot halving true (fun x => (x ()).map abs) stepRoot (fun _ => some 1) 0 =
      ⟨fun _ => some 0, true, 1, [(fun _ => some 1, 0), (fun _ => some 0, 1)]⟩ := by
    have e : (1 : ℝ) - 2 * (1 - 2⁻¹) = 0 := by norm_num
    simp [Spec.playRoot, stepRoot, halving, Spec.difference, FVec.mul, e]
  have hcv := h.1.2 (by
    rw [hp]
    refine ⟨rfl, ?_⟩
    intro q hq
    have : q.1.Finite := by
      rcases List.mem_cons.1 hq with rfl | hq
      · exact fun _ => rfl
      · rw [List.mem_singleton.1 hq]
        exact fun _ => rfl
    refine ⟨fun i => by simpa [halving] using this i, fun w h => absurd h (by simp [halving]), fun m h => ?_⟩
    rw [← Option.some.inj h]
    exact fun _ _ => rfl)
  obtain ⟨h1, h2, _⟩ := h.2 hcv
  rw [hp] at h1 h2
  exact ⟨hcv, h1, h2⟩

/-- If the contraction overflows, the root finder sees a root and succeeds, but convergence is not reported. -/
example : (iterateScipy (fun _ _ => (⟨fun _ => none, none, none⟩ : ContractionOutput Unit)) true (fun x => (x ()).map abs)
    (fun x0 => .ask x0 fun r _ => .done x0 (decide (r = fun _ => some 0))) (fun _ => some 1)).2.1.converged = false := by
  rw [← Bool.not_eq_true]
  intro h
  have := ((C109_root (ι := Unit) (fun _ _ => ⟨fun _ => none, none, none⟩) (fun _ => ⟨fun _ => none, none, none⟩) (fun _ _ => rfl) true
    (fun x => (x ()).map abs) (fun x0 => .ask x0 fun r _ => .done x0 (decide (r = fun _ => some 0))) (fun _ => some 1)).1.1 h).2
  have := (this (fun _ => some 1, 0) (by simp [Spec.playRoot])).1 ()
  simp at this

end Pyblp
