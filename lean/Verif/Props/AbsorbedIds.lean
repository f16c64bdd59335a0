import Verif.Model.AbsorbedIds
import Verif.Props.Absorption

/-!
# Formulations and absorbed IDs: C111
-/

set_option linter.unusedSectionVars false

namespace Pyblp

namespace Formula

open Classical

variable {N : ℕ} {V : Type}

namespace Spec

/-- A factor is a categorical variable: marked, or a variable that is not a number. -/
inductive Categorical (numbers : Name → Bool) : Code → Name → Prop
  | marked (x : Name) : Categorical numbers (.mark x) x
  | variable (x : Name) (h : numbers x = false) : Categorical numbers (.expression (.sym x)) x

/-- A term is a constant: there are no variables in it. -/
def Constant (t : List Code) : Prop := ∀ c ∈ t, c.expr.symbols = []

/-- Two rows agree on all variables of a term. -/
def Agree (data : Name → Option (Fin N → V)) (t : List Code) (i j : Fin N) : Prop :=
  ∀ c ∈ t, ∀ x ∈ c.expr.symbols, ∀ column, data x = some column → column i = column j

end Spec

theorem codeSymbols_nil (t : List Code) : codeSymbols t = [] ↔ Spec.Constant t := by
  unfold codeSymbols Spec.Constant
  simp [List.flatMap_eq_nil_iff]

theorem filter_le_one {α : Type} (p : α → Prop) (l : List α) :
    ¬ (1 < (l.filter fun a => decide (p a)).length) ↔ l.Pairwise fun a b => ¬ (p a ∧ p b) := by
  rw [not_lt]
  induction l with
  | nil => simp
  | cons a l ih =>
    rw [List.pairwise_cons, ← ih]
    by_cases ha : p a
    · rw [List.filter_cons_of_pos (by simpa using ha), List.length_cons]
      constructor
      · intro h
        have h0 : (l.filter fun a => decide (p a)) = [] := List.length_eq_zero_iff.1 (by omega)
        refine ⟨fun b hb hab => ?_, by rw [h0]; simp⟩
        have := List.filter_eq_nil_iff.1 h0 b hb
        exact this (by simpa using hab.2)
      · rintro ⟨h, _⟩
        have h0 : (l.filter fun a => decide (p a)) = [] := List.filter_eq_nil_iff.2 fun b hb hpb => h b hb ⟨ha, by simpa using hpb⟩
        rw [h0]
        simp
    · rw [List.filter_cons_of_neg (by simpa using ha)]
      exact ⟨fun h => ⟨fun b _ hab => ha hab.1, h⟩, fun h => h.2⟩

/-- **C111.** A formulation is accepted if and only if it has at least one term, intercepts not counting if fixed effects are absorbed, at
most one constant, and no constant is absorbed. Terms are then those of the formula in its order, without intercepts if
fixed effects are absorbed. -/
theorem C111_accepted (terms absorbed : List (List Code)) (p : Parsed) :
    formulationInit terms absorbed = .ok p ↔
      p.absorbed = absorbed ∧ p.terms = (if absorbed = [] then terms else terms.filter fun t => decide (t ≠ [])) ∧ p.terms ≠ [] ∧
      p.terms.Pairwise (fun s t => ¬ (Spec.Constant s ∧ Spec.Constant t)) ∧ ∀ t ∈ absorbed, ¬ Spec.Constant t := by
  unfold formulationInit
  dsimp only
  have e : (if absorbed ≠ [] then terms.filter fun t => decide (t ≠ []) else terms) =
      if absorbed = [] then terms else terms.filter fun t => decide (t ≠ []) := by
    by_cases h : absorbed = [] <;> simp [h]
  rw [e]
  generalize (if absorbed = [] then terms else terms.filter fun t => decide (t ≠ [])) = kept
  have h2 : ¬ (1 < (kept.filter fun t => decide (codeSymbols t = [])).length) ↔
      kept.Pairwise fun s t => ¬ (Spec.Constant s ∧ Spec.Constant t) := by
    simp only [codeSymbols_nil]
    exact filter_le_one _ _
  have h3 : ¬ (absorbed ≠ [] ∧ ∃ t ∈ absorbed, codeSymbols t = []) ↔ ∀ t ∈ absorbed, ¬ Spec.Constant t := by
    simp only [codeSymbols_nil]
    constructor
    · intro h t ht hc
      exact h ⟨List.ne_nil_of_mem ht, t, ht, hc⟩
    · rintro h ⟨_, t, ht, hc⟩
      exact h t ht hc
  by_cases a1 : kept = []
  · rw [if_pos a1]
    simp only [reduceCtorEq, false_iff, not_and]
    rintro _ h
    rw [h]
    exact fun h => absurd a1 h
  · rw [if_neg a1]
    by_cases a2 : 1 < (kept.filter fun t => decide (codeSymbols t = [])).length
    · rw [if_pos a2]
      refine ⟨fun h => absurd h (by simp), ?_⟩
      rintro ⟨_, h, _, h', _⟩
      rw [h, ← h2] at h'
      exact absurd a2 h'
    · rw [if_neg a2]
      by_cases a3 : absorbed ≠ [] ∧ ∃ t ∈ absorbed, codeSymbols t = []
      · rw [if_pos a3]
        refine ⟨fun h => absurd h (by simp), ?_⟩
        rintro ⟨_, _, _, _, h'⟩
        exact absurd a3 (h3.2 h')
      · rw [if_neg a3, Except.ok.injEq]
        constructor
        · rintro rfl
          exact ⟨rfl, rfl, a1, h2.1 a2, h3.1 a3⟩
        · rintro ⟨b1, b2, _⟩
          rw [← b1, ← b2]

theorem interactIds_eq (columns : List (Fin N → V)) (i j : Fin N) :
    interactIds columns i = interactIds columns j ↔ ∀ c ∈ columns, c i = c j := by
  rcases columns with _ | ⟨c, _ | ⟨d, l⟩⟩
  · simp [interactIds]
  · simp [interactIds]
  · simp only [interactIds, ID.many.injEq]
    exact List.map_inj_left

theorem categoricalName_ok (numbers : Name → Bool) (c : Code) (x : Name) :
    categoricalName numbers c = .ok x ↔ Spec.Categorical numbers c x := by
  unfold categoricalName
  cases c with
  | mark y =>
    simp only [Code.factor, Except.ok.injEq]
    constructor
    · rintro rfl
      exact .marked y
    · rintro ⟨⟩
      rfl
  | expression e =>
    cases e with
    | sym y =>
      simp only [Code.factor]
      cases h : numbers y with
      | true =>
        simp only [if_true, reduceCtorEq, false_iff]
        rintro ⟨⟩
        rename_i h'
        rw [h] at h'
        exact absurd h' (by simp)
      | false =>
        simp only [Bool.false_eq_true, if_false, Except.ok.injEq]
        constructor
        · rintro rfl
          exact .variable y h
        · rintro ⟨⟩
          rfl
    | num c => simp only [Code.factor, reduceCtorEq, false_iff]; rintro ⟨⟩
    | add a b => simp only [Code.factor, reduceCtorEq, false_iff]; rintro ⟨⟩
    | mul a b => simp only [Code.factor, reduceCtorEq, false_iff]; rintro ⟨⟩
    | ipow a n => simp only [Code.factor, reduceCtorEq, false_iff]; rintro ⟨⟩
    | rpow a b => simp only [Code.factor, reduceCtorEq, false_iff]; rintro ⟨⟩
    | log a => simp only [Code.factor, reduceCtorEq, false_iff]; rintro ⟨⟩
    | exp a => simp only [Code.factor, reduceCtorEq, false_iff]; rintro ⟨⟩

theorem categorical_symbols {numbers : Name → Bool} {c : Code} {x : Name} (h : Spec.Categorical numbers c x) : c.expr.symbols = [x] := by
  cases h <;> rfl

theorem mapM_ok {α β : Type} (f : α → Except PyErr β) (l : List α) (ys : List β) :
    l.mapM f = .ok ys ↔ List.Forall₂ (fun a b => f a = .ok b) l ys := by
  induction l generalizing ys with
  | nil =>
    rw [List.mapM_nil]
    constructor
    · intro h
      rw [← Except.ok.inj h]
      exact .nil
    · rintro ⟨⟩
      rfl
  | cons a l ih =>
    rw [List.mapM_cons]
    cases ha : f a with
    | error e =>
      simp only [Bind.bind, Except.bind, reduceCtorEq, false_iff]
      intro h
      cases h with
      | cons h _ => rw [ha] at h; exact absurd h (by simp)
    | ok b =>
      cases hl : l.mapM f with
      | error e =>
        simp only [Bind.bind, Except.bind, reduceCtorEq, false_iff]
        intro h
        cases h with
        | cons _ h => rw [← ih, hl] at h; exact absurd h (by simp)
      | ok bs =>
        simp only [Bind.bind, Except.bind, pure, Except.pure, Except.ok.injEq]
        constructor
        · rintro rfl
          exact .cons ha ((ih bs).1 hl)
        · intro h
          cases h with
          | cons h1 h2 =>
            rw [ha] at h1
            rw [← ih, hl] at h2
            rw [Except.ok.inj h1, Except.ok.inj h2]

theorem termIds_ok (numbers : Name → Bool) (data : Name → Fin N → V) (t : List Code) (ids : Fin N → ID V)
    (h : termIds numbers data t = .ok ids) : (∀ c ∈ t, ∃ x, Spec.Categorical numbers c x) ∧
      ∀ i j, ids i = ids j ↔ ∀ c ∈ t, ∀ x ∈ c.expr.symbols, data x i = data x j := by
  unfold termIds at h
  cases hm : t.mapM (categoricalName numbers) with
  | error e => rw [hm] at h; exact absurd h (by simp [Except.map])
  | ok xs =>
    rw [hm] at h
    have h' : (fun i => interactIds (xs.map data) i) = ids := Except.ok.inj h
    rw [mapM_ok] at hm
    have h1 : ∀ c ∈ t, ∃ x ∈ xs, Spec.Categorical numbers c x := by
      intro c hc
      obtain ⟨hl, hg⟩ := List.forall₂_iff_get.1 hm
      obtain ⟨k, hk, rfl⟩ := List.mem_iff_getElem.1 hc
      exact ⟨xs[k]'(hl ▸ hk), List.getElem_mem _, (categoricalName_ok _ _ _).1 (hg k hk (hl ▸ hk))⟩
    have h2 : ∀ x ∈ xs, ∃ c ∈ t, Spec.Categorical numbers c x := by
      intro x hx
      obtain ⟨hl, hg⟩ := List.forall₂_iff_get.1 hm
      obtain ⟨k, hk, rfl⟩ := List.mem_iff_getElem.1 hx
      exact ⟨t[k]'(hl.symm ▸ hk), List.getElem_mem _, (categoricalName_ok _ _ _).1 (hg k (hl.symm ▸ hk) hk)⟩
    refine ⟨fun c hc => ?_, fun i j => ?_⟩
    · obtain ⟨x, _, hx⟩ := h1 c hc
      exact ⟨x, hx⟩
    · rw [← h']
      dsimp only
      rw [interactIds_eq]
      simp only [List.forall_mem_map]
      constructor
      · intro hx c hc x hxc
        obtain ⟨y, hy, hcy⟩ := h1 c hc
        rw [categorical_symbols hcy, List.mem_singleton] at hxc
        rw [hxc]
        exact hx y hy
      · intro hc x hx
        obtain ⟨c, hct, hcx⟩ := h2 x hx
        exact hc c hct x (by rw [categorical_symbols hcx]; exact List.mem_singleton_self x)

theorem termIds_exists (numbers : Name → Bool) (data : Name → Fin N → V) (t : List Code)
    (h : ∀ c ∈ t, ∃ x, Spec.Categorical numbers c x) : ∃ ids, termIds numbers data t = .ok ids := by
  have : ∃ xs, t.mapM (categoricalName numbers) = .ok xs := by
    induction t with
    | nil => exact ⟨[], rfl⟩
    | cons c t ih =>
      obtain ⟨x, hx⟩ := h c (List.mem_cons_self ..)
      obtain ⟨xs, hxs⟩ := ih fun c hc => h c (List.mem_cons_of_mem _ hc)
      refine ⟨x :: xs, ?_⟩
      rw [mapM_ok] at hxs ⊢
      exact .cons ((categoricalName_ok _ _ _).2 hx) hxs
  obtain ⟨xs, hxs⟩ := this
  unfold termIds
  rw [hxs]
  exact ⟨_, rfl⟩

/-- **C111.** Whatever the order in which Patsy has factors: fixed effects can be absorbed if and only if data for all their variables can be
loaded and all of them are categorical. -/
theorem C111_absorbable (numbers : Name → Bool) (data : Name → Option (Fin N → V)) (default : V) (factors : List Code → List Code)
    (hf : ∀ t, (factors t).Perm t) (absorbed : List (List Code)) :
    (∃ ids, buildIds numbers data default factors absorbed = .ok ids) ↔
      ∀ t ∈ absorbed, ∀ c ∈ t, (∀ x ∈ c.expr.symbols, data x ≠ none) ∧ ∃ x, Spec.Categorical numbers c x := by
  have hmiss : (∃ t ∈ absorbed, ∃ x ∈ codeSymbols t, data x = none) ↔ ¬ ∀ t ∈ absorbed, ∀ c ∈ t, ∀ x ∈ c.expr.symbols, data x ≠ none := by
    unfold codeSymbols
    push Not
    constructor
    · rintro ⟨t, ht, x, hx, h⟩
      obtain ⟨c, hc, hxc⟩ := List.mem_flatMap.1 hx
      exact ⟨t, ht, c, hc, x, hxc, h⟩
    · rintro ⟨t, ht, c, hc, x, hxc, h⟩
      exact ⟨t, ht, x, List.mem_flatMap.2 ⟨c, hc, hxc⟩, h⟩
  unfold buildIds
  by_cases hm : ∃ t ∈ absorbed, ∃ x ∈ codeSymbols t, data x = none
  · rw [if_pos hm]
    simp only [reduceCtorEq, exists_false, false_iff]
    exact fun h => hmiss.1 hm fun t ht c hc => (h t ht c hc).1
  · rw [if_neg hm]
    have hp : ∀ t ∈ absorbed, ∀ c ∈ t, ∀ x ∈ c.expr.symbols, data x ≠ none := by
      by_contra h
      exact hm (hmiss.2 h)
    constructor
    · rintro ⟨ids, h⟩ t ht c hc
      rw [mapM_ok] at h
      obtain ⟨hl, hg⟩ := List.forall₂_iff_get.1 h
      obtain ⟨k, hk, rfl⟩ := List.mem_iff_getElem.1 ht
      exact ⟨hp _ ht c hc, (termIds_ok _ _ _ _ (hg k hk (hl ▸ hk))).1 c ((hf _).mem_iff.2 hc)⟩
    · intro h
      have key : ∀ l : List (List Code), (∀ t ∈ l, ∀ c ∈ t, ∃ x, Spec.Categorical numbers c x) →
          ∃ ids, (l.mapM fun t => termIds numbers (fun x => (data x).getD fun _ => default) (factors t)) = .ok ids := by
        intro l
        induction l with
        | nil => exact fun _ => ⟨[], rfl⟩
        | cons t l ih =>
          intro hl
          obtain ⟨column, hc⟩ := termIds_exists numbers (fun x => (data x).getD fun _ => default) (factors t)
            fun c hc => hl t (List.mem_cons_self ..) c ((hf t).mem_iff.1 hc)
          obtain ⟨ids, hi⟩ := ih fun t ht => hl t (List.mem_cons_of_mem _ ht)
          refine ⟨column :: ids, ?_⟩
          rw [mapM_ok] at hi ⊢
          exact .cons hc hi
      exact key absorbed fun t ht c hc => (h t ht c hc).2

/-- **C111.** There is one column of IDs for each absorbed term, in the order of terms, and two products have the same ID if and only if they
agree on all of the term's variables: interacted fixed effects are one for each combination of values that occurs. -/
theorem C111_ids (numbers : Name → Bool) (data : Name → Option (Fin N → V)) (default : V) (factors : List Code → List Code)
    (hf : ∀ t, (factors t).Perm t) (absorbed : List (List Code)) (ids : List (Fin N → ID V))
    (h : buildIds numbers data default factors absorbed = .ok ids) :
    List.Forall₂ (fun t column => ∀ i j, column i = column j ↔ Spec.Agree data t i j) absorbed ids := by
  have hall := (C111_absorbable numbers data default factors hf absorbed).1 ⟨ids, h⟩
  unfold buildIds at h
  by_cases hm : ∃ t ∈ absorbed, ∃ x ∈ codeSymbols t, data x = none
  · rw [if_pos hm] at h
    exact absurd h (by simp)
  · rw [if_neg hm, mapM_ok] at h
    obtain ⟨hl, hg⟩ := List.forall₂_iff_get.1 h
    refine List.forall₂_iff_get.2 ⟨hl, fun k h1 h2 i j => ?_⟩
    rw [(termIds_ok _ _ _ _ (hg k h1 h2)).2 i j]
    unfold Spec.Agree
    constructor
    · intro h c hc x hx column hcol
      have := h c ((hf _).mem_iff.2 hc) x hx
      rw [hcol] at this
      exact this
    · intro h c hc x hx
      have hc' := (hf _).mem_iff.1 hc
      obtain ⟨column, hcol⟩ := Option.ne_none_iff_exists'.1 ((hall _ (List.getElem_mem h1) c hc').1 x hx)
      have := h c hc' x hx column hcol
      rw [hcol]
      exact this

/-- **C111.** Absorbing one term subtracts from each value the mean among products that agree with it on all of the term's variables. -/
theorem C111_demeaned (numbers : Name → Bool) (data : Name → Option (Fin N → V)) (default : V) (factors : List Code → List Code)
    (hf : ∀ t, (factors t).Perm t) (t : List Code) (ids : Fin N → ID V) (h : buildIds numbers data default factors [t] = .ok [ids])
    (v : Fin N → ℝ) (i : Fin N) :
    Pyblp.Spec.demeaned ids v i = v i - (∑ j with Spec.Agree data t j i, v j) / (Finset.univ.filter fun j => Spec.Agree data t j i).card := by
  have h' := C111_ids numbers data default factors hf [t] [ids] h
  cases h' with
  | cons h1 _ =>
    unfold Pyblp.Spec.demeaned
    simp only [h1]

/-- Two firms in two years: with the fixed effects of firms, those of years, and those of both. -/
example : ∃ ids, buildIds (N := 3) (fun _ => true) (fun x => if x = ['f'] then some ![1, 1, 2] else if x = ['y'] then some ![1, 2, 2] else none) 0
    List.reverse [[.mark ['f']], [.mark ['y']], [.mark ['f'], .mark ['y']]] = .ok ids ∧
    ∀ column ∈ ids[2]?, column 0 ≠ column 1 ∧ column 1 ≠ column 2 := by
  obtain ⟨ids, h⟩ := (C111_absorbable (N := 3) (fun _ => true)
    (fun x => if x = ['f'] then some ![1, 1, 2] else if x = ['y'] then some ![1, 2, 2] else none) 0
    List.reverse (fun t => List.reverse_perm t) [[.mark ['f']], [.mark ['y']], [.mark ['f'], .mark ['y']]]).2 (by
      intro t ht c hc
      simp only [List.mem_cons, List.not_mem_nil, or_false] at ht
      have : c = .mark ['f'] ∨ c = .mark ['y'] := by
        rcases ht with rfl | rfl | rfl <;> simp at hc <;> tauto
      rcases this with rfl | rfl
      · exact ⟨by simp [Code.expr, Expr.symbols], _, .marked _⟩
      · exact ⟨by simp [Code.expr, Expr.symbols], _, .marked _⟩)
  refine ⟨ids, h, fun column hcol => ?_⟩
  obtain ⟨hl, hg⟩ := List.forall₂_iff_get.1 (C111_ids _ _ _ _ (fun t => List.reverse_perm t) _ _ h)
  have hk : 2 < ids.length := by rw [← hl]; simp
  have hc : ids[2] = column := by
    have := Option.mem_def.1 hcol
    rw [List.getElem?_eq_getElem hk] at this
    exact Option.some.inj this
  have hi := hg 2 (by simp) hk
  simp only [List.get_eq_getElem, hc] at hi
  constructor
  · intro he
    have := (hi 0 1).1 he (.mark ['y']) (by simp) ['y'] (by simp [Code.expr, Expr.symbols]) ![1, 2, 2] (by simp)
    simp at this
  · intro he
    have := (hi 1 2).1 he (.mark ['f']) (by simp) ['f'] (by simp [Code.expr, Expr.symbols]) ![1, 1, 2] (by simp)
    simp at this

/-- With fixed effects to absorb, the intercept is dropped from `1 + x`, and `1` alone is not accepted. -/
example : (∃ p, formulationInit [[], [.expression (.sym ['x'])]] [[.mark ['f']]] = .ok p ∧ p.terms = [[.expression (.sym ['x'])]]) ∧
    ¬ ∃ p, formulationInit [[]] [[.mark ['f']]] = .ok p := by
  constructor
  · refine ⟨⟨[[.expression (.sym ['x'])]], [[.mark ['f']]]⟩, (C111_accepted _ _ _).2 ⟨rfl, by simp, by simp, by simp, ?_⟩, rfl⟩
    intro t ht hc
    rw [List.mem_singleton.1 ht] at hc
    have := hc (.mark ['f']) (by simp)
    simp [Code.expr, Expr.symbols] at this
  · rintro ⟨p, hp⟩
    obtain ⟨_, h1, h2, _⟩ := (C111_accepted _ _ _).1 hp
    rw [h1] at h2
    simp at h2

end Formula

end Pyblp
