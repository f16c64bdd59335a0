import Mathlib.Analysis.SpecialFunctions.Pow.Deriv
import Mathlib.Analysis.SpecialFunctions.Log.Deriv
import Mathlib.Analysis.Calculus.Deriv.ZPow
import Verif.Lemmas.Simplify
import Verif.Model.Formulation
import Verif.Tactics

/-!
# C100: a formula and the expressions that are kept for its columns agree

A formula is designed into a matrix once. Whenever a variable changes afterwards, because prices are solved for, differentiated, or
overridden, it is the expressions of columns that are evaluated.
-/

set_option linter.unusedSectionVars false

namespace Pyblp
namespace Formula

variable {L : Type} [DecidableEq L]

/-! ### Specification -/

namespace Spec

/-- Change one numeric variable. -/
def change (row : Row L) (v : Name) (w : ℝ) : Row L := { row with value := Function.update row.value v w }

/-- Data in which each variable that is categorical has the levels that are listed, each once, and in which different levels are written
differently. -/
structure Data (repr : L → List Char) (levels : Name → List L) (row : Row L) : Prop where
  once : ∀ x, (levels x).Nodup
  listed : ∀ x, row.level x ∈ levels x
  written : Function.Injective repr

/-- Names of variables are Python names, so there is no bracket in them. -/
def Named (terms : List Term) : Prop :=
  ∀ t ∈ terms, (∀ f ∈ categories t, '[' ∉ f.2) ∧ ∀ e ∈ numerics t, ∀ x ∈ e.symbols, '[' ∉ x

/-- No categorical variable of a term is in another factor of it. -/
def Separate (t : Term) : Prop :=
  ((categories t).map Prod.snd).Nodup ∧ ∀ e ∈ numerics t, ∀ f ∈ categories t, f.2 ∉ e.symbols

/-- The levels in the name of a column. -/
def namedLevels (levels : Name → List L) (c : Column) : List (Name × L) :=
  c.coded.filterMap fun f => ((codedLevels f.2.1 (levels f.1.2))[f.2.2]?).map fun l => (f.1.2, l)

/-- What the name of a column says: the product of the numeric factors of its term if the categorical variables have the levels in the name,
and zero if any has another level. -/
noncomputable def columnValue (levels : Name → List L) (row : Row L) (c : Column) : ℝ :=
  if ∀ p ∈ namedLevels levels c, row.level p.1 = p.2 then ((numerics c.term).map fun e => e.eval row.value).prod else 0

/-- Expressions are differentiable at values: arguments of logarithms and bases of powers with other than integer exponents are positive, and
nothing is divided by zero. -/
def Defined (env : Name → ℝ) : Expr → Prop
  | .num _ | .sym _ => True
  | .add a b | .mul a b => Defined env a ∧ Defined env b
  | .ipow a n => Defined env a ∧ (a.eval env ≠ 0 ∨ 0 ≤ n)
  | .rpow a b => Defined env a ∧ Defined env b ∧ 0 < a.eval env
  | .log a => Defined env a ∧ 0 < a.eval env
  | .exp a => Defined env a

/-- Terms are sets of factors and different from each other, as Patsy makes them, and there is no intercept if fixed effects are absorbed. -/
structure Terms (absorbed : Bool) (terms : List Term) : Prop where
  once : ∀ t ∈ terms, t.Nodup
  distinct : terms.Pairwise fun s t => ¬ (s ⊆ t ∧ t ⊆ s)
  intercept : absorbed = true → [] ∉ terms

/-- The terms that Patsy is given. -/
def designed (absorbed : Bool) (terms : List Term) : List Term := if absorbed then [] :: terms else terms

/-- Two terms have the same numeric factors. -/
def SameNumerics (s t : Term) : Prop := numerics s ⊆ numerics t ∧ numerics t ⊆ numerics s

/-- A term with the same numeric factors that Patsy codes before another: it has fewer factors, or as many and is written before. -/
def CodedBefore (absorbed : Bool) (terms : List Term) (s t : Term) : Prop :=
  s ∈ designed absorbed terms ∧ SameNumerics s t ∧ (s.length < t.length ∨ (s.length = t.length ∧ [s, t].Sublist (designed absorbed terms)))

/-- A term is nested in terms that are coded before it: there are some of its categorical factors that no other term has all of, and any
selection of its categorical factors without some of these is in another term. These are all of its categorical factors if all lower-order terms are
in the formula, and none if the term is alone. -/
def Nested (absorbed : Bool) (terms : List Term) (t : Term) : Prop :=
  ∃ own ⊆ categories t, ∀ u ⊆ categories t, (∃ s, CodedBefore absorbed terms s t ∧ u ⊆ categories s) ↔ ¬ own ⊆ u

/-- A term has at most one categorical factor, or it is included together with the terms in which some or all of its categorical factors are
missing, or it is the only term with its numeric factors. -/
def Hierarchical (absorbed : Bool) (terms : List Term) (t : Term) : Prop :=
  (categories t).length ≤ 1 ∨
    (∀ u, u.Sublist (categories t) → u ≠ categories t → ∃ s ∈ designed absorbed terms, SameNumerics s t ∧ u ⊆ categories s ∧ categories s ⊆ u) ∨
    ∀ s ∈ designed absorbed terms, SameNumerics s t → s = t

end Spec

/-! ### Expressions -/

theorem eval_congr {e : Expr} {d d' : Name → ℝ} (h : ∀ x ∈ e.symbols, d x = d' x) : e.eval d = e.eval d' := by
  induction e with
  | num c => rfl
  | sym n => exact h n (by simp [Expr.symbols])
  | add a b iha ihb => simp only [Expr.eval]; rw [iha fun x hx => h x (by simp [Expr.symbols, hx]), ihb fun x hx => h x (by simp [Expr.symbols, hx])]
  | mul a b iha ihb => simp only [Expr.eval]; rw [iha fun x hx => h x (by simp [Expr.symbols, hx]), ihb fun x hx => h x (by simp [Expr.symbols, hx])]
  | rpow a b iha ihb => simp only [Expr.eval]; rw [iha fun x hx => h x (by simp [Expr.symbols, hx]), ihb fun x hx => h x (by simp [Expr.symbols, hx])]
  | ipow a n iha => simp only [Expr.eval]; rw [iha fun x hx => h x hx]
  | log a iha => simp only [Expr.eval]; rw [iha fun x hx => h x hx]
  | exp a iha => simp only [Expr.eval]; rw [iha fun x hx => h x hx]

theorem eval_replace (e : Expr) (old new : Name) (d : Name → ℝ) :
    (e.replace old new).eval d = e.eval fun n => if n = old then d new else d n := by
  induction e with
  | num c => rfl
  | sym n => by_cases h : n = old <;> simp [Expr.replace, Expr.eval, h]
  | add a b iha ihb => simp only [Expr.replace, Expr.eval, iha, ihb]
  | mul a b iha ihb => simp only [Expr.replace, Expr.eval, iha, ihb]
  | rpow a b iha ihb => simp only [Expr.replace, Expr.eval, iha, ihb]
  | ipow a n iha => simp only [Expr.replace, Expr.eval, iha]
  | log a iha => simp only [Expr.replace, Expr.eval, iha]
  | exp a iha => simp only [Expr.replace, Expr.eval, iha]

theorem eval_termExpression (t : Term) (d : Name → ℝ) : (termExpression t).eval d = (t.map fun f => f.expression.eval d).prod := by
  have key : ∀ (l : Term) (e : Expr),
      (l.foldl (fun e f => Expr.mul e f.expression) e).eval d = e.eval d * (l.map fun f => f.expression.eval d).prod := by
    intro l
    induction l with
    | nil => intro e; simp
    | cons f l ih => intro e; rw [List.foldl_cons, ih]; simp [Expr.eval, mul_assoc]
  simp [termExpression, key, Expr.eval]

theorem prod_factors (t : Term) (d : Name → ℝ) :
    (t.map fun f => f.expression.eval d).prod = ((numerics t).map fun e => e.eval d).prod * ((categories t).map fun f => d f.2).prod := by
  induction t with
  | nil => simp [numerics, categories]
  | cons f t ih =>
    cases f with
    | numeric e =>
      have h1 : numerics (.numeric e :: t) = e :: numerics t := rfl
      have h2 : categories (.numeric e :: t) = categories t := rfl
      rw [List.map_cons, List.prod_cons, ih, h1, h2, List.map_cons, List.prod_cons, Factor.expression]
      ring
    | categorical m x =>
      have h1 : numerics (.categorical m x :: t) = numerics t := rfl
      have h2 : categories (.categorical m x :: t) = (m, x) :: categories t := rfl
      rw [List.map_cons, List.prod_cons, ih, h1, h2, List.map_cons, List.prod_cons, Factor.expression, Expr.eval]
      ring

theorem symbols_termExpression (t : Term) (x : Name) :
    x ∈ (termExpression t).symbols ↔ (∃ e ∈ numerics t, x ∈ e.symbols) ∨ ∃ f ∈ categories t, f.2 = x := by
  have key : ∀ (l : Term) (e : Expr),
      x ∈ (l.foldl (fun e f => Expr.mul e f.expression) e).symbols ↔ x ∈ e.symbols ∨ ∃ f ∈ l, x ∈ f.expression.symbols := by
    intro l
    induction l with
    | nil => intro e; simp
    | cons f l ih => intro e; rw [List.foldl_cons, ih]; simp [Expr.symbols, or_assoc]
  rw [termExpression, key]
  simp only [Expr.symbols, List.not_mem_nil, false_or]
  constructor
  · rintro ⟨f, hf, hx⟩
    cases f with
    | numeric e => exact Or.inl ⟨e, List.mem_filterMap.2 ⟨_, hf, rfl⟩, hx⟩
    | categorical m y =>
      refine Or.inr ⟨(m, y), List.mem_filterMap.2 ⟨_, hf, rfl⟩, ?_⟩
      simpa [Factor.expression, Expr.symbols, eq_comm] using hx
  · rintro (⟨e, he, hx⟩ | ⟨f, hf, hx⟩)
    · obtain ⟨g, hg, hge⟩ := List.mem_filterMap.1 he
      refine ⟨g, hg, ?_⟩
      cases g with
      | numeric e' => simp only [Option.some.injEq] at hge; subst hge; exact hx
      | categorical m y => simp at hge
    · obtain ⟨g, hg, hge⟩ := List.mem_filterMap.1 hf
      refine ⟨g, hg, ?_⟩
      cases g with
      | numeric e' => simp at hge
      | categorical m y => simp only [Option.some.injEq] at hge; subst hge; simpa [Factor.expression, Expr.symbols] using hx.symm

/-! ### Names of indicators -/

theorem bracket_mem_indicatorName (repr : L → List Char) (x : Name) (l : L) : '[' ∈ indicatorName repr x l := by
  simp [indicatorName, formatSuffix]

theorem removeSuffix_indicatorName (repr : L → List Char) {x : Name} (hx : '[' ∉ x) (l : L) : removeSuffix (indicatorName repr x l) = some x := by
  rw [removeSuffix, if_pos (bracket_mem_indicatorName repr x l), indicatorName, formatSuffix]
  rw [List.takeWhile_append_of_pos]
  · simp
  · intro a ha
    simp only [ne_eq, decide_not, Bool.not_eq_eq_eq_not, Bool.not_true, decide_eq_false_iff_not]
    rintro rfl
    exact hx ha

theorem extractSuffix_indicatorName (repr : L → List Char) {x : Name} (hx : '[' ∉ x) (l : L) :
    extractSuffix (indicatorName repr x l) = some (formatSuffix repr l) := by
  rw [extractSuffix, if_pos (bracket_mem_indicatorName repr x l), indicatorName, formatSuffix]
  rw [List.dropWhile_append_of_pos]
  · simp
  · intro a ha
    simp only [ne_eq, decide_not, Bool.not_eq_eq_eq_not, Bool.not_true, decide_eq_false_iff_not]
    rintro rfl
    exact hx ha

theorem indicatorName_injective {repr : L → List Char} (hrepr : Function.Injective repr) {x y : Name} (hx : '[' ∉ x) (hy : '[' ∉ y) {l m : L}
    (h : indicatorName repr x l = indicatorName repr y m) : x = y ∧ l = m := by
  have h1 := congrArg removeSuffix h
  have h2 := congrArg extractSuffix h
  rw [removeSuffix_indicatorName repr hx, removeSuffix_indicatorName repr hy] at h1
  rw [extractSuffix_indicatorName repr hx, extractSuffix_indicatorName repr hy] at h2
  refine ⟨by simpa using h1, hrepr ?_⟩
  simpa [formatSuffix] using h2

theorem replaceFactor_indicatorName (repr : L → List Char) {x : Name} (hx : '[' ∉ x) (l : L) (e : Expr) :
    replaceFactor e (indicatorName repr x l) = e.replace x (indicatorName repr x l) := by
  rw [replaceFactor, removeSuffix_indicatorName repr hx, extractSuffix_indicatorName repr hx]
  rfl

/-! ### Underlying data -/

theorem underlying_variable (repr : L → List Char) (levels : Name → List L) (terms : List Term) (row : Row L) {x : Name} (hx : '[' ∉ x) :
    underlying repr levels terms row x = row.value x := by
  have : ((indicators repr levels terms).reverse.find? fun i => decide (i.1 = x)) = none := by
    rw [List.find?_eq_none]
    intro i hi
    simp only [indicators, List.mem_reverse, List.mem_flatMap, List.mem_map] at hi
    obtain ⟨f, -, l, -, rfl⟩ := hi
    simp only [decide_eq_true_eq]
    rintro rfl
    exact hx (bracket_mem_indicatorName repr _ _)
  rw [underlying, this]

theorem underlying_indicator {repr : L → List Char} {levels : Name → List L} {terms : List Term} {row : Row L}
    (hrepr : Function.Injective repr) (hnamed : Spec.Named terms) {t : Term} (ht : t ∈ terms) {f : Category} (hf : f ∈ categories t) {l : L}
    (hl : l ∈ levels f.2) : underlying repr levels terms row (indicatorName repr f.2 l) = if row.level f.2 = l then 1 else 0 := by
  have hex : (indicatorName repr f.2 l, f.2, l) ∈ (indicators repr levels terms).reverse := by
    simp only [indicators, List.mem_reverse, List.mem_flatMap, List.mem_map]
    exact ⟨f, ⟨t, ht, hf⟩, l, hl, rfl⟩
  cases hfind : ((indicators repr levels terms).reverse.find? fun i => decide (i.1 = indicatorName repr f.2 l)) with
  | none =>
    rw [List.find?_eq_none] at hfind
    exact absurd (decide_eq_true rfl) (hfind _ hex)
  | some i =>
    have h1 := List.find?_some hfind
    have h2 := List.mem_of_find?_eq_some hfind
    simp only [indicators, List.mem_reverse, List.mem_flatMap, List.mem_map] at h2
    obtain ⟨g, ⟨s, hs, hg⟩, m, -, rfl⟩ := h2
    simp only [decide_eq_true_eq] at h1
    obtain ⟨e1, e2⟩ := indicatorName_injective hrepr ((hnamed s hs).1 g hg) ((hnamed t ht).1 f hf) h1
    rw [underlying, hfind]
    dsimp only
    rw [e1, e2]

/-! ### Contrasts -/

theorem contrast_eq {levels : List L} (hn : levels.Nodup) {l l' : L} (hl' : l' ∈ levels) {full : Bool} {k : ℕ}
    (hk : (codedLevels full levels)[k]? = some l) : contrast full (levels.idxOf l') k = if l' = l then 1 else 0 := by
  have hmain : ∀ j, levels[j]? = some l → (levels.idxOf l' = j ↔ l' = l) := by
    intro j hj
    obtain ⟨hlt, hget⟩ := List.getElem?_eq_some_iff.1 hj
    constructor
    · intro h
      have := List.getElem_idxOf (List.idxOf_lt_length_iff.2 hl')
      simp only [h] at this
      rw [← this, hget]
    · rintro rfl
      rw [← hget]
      exact List.Nodup.idxOf_getElem hn j hlt
  cases full with
  | true =>
    simp only [codedLevels, if_true] at hk
    simp only [contrast, if_true]
    exact if_congr (hmain k hk) rfl rfl
  | false =>
    simp only [codedLevels, Bool.false_eq_true, if_false, List.getElem?_tail] at hk
    have h1 := hmain (k + 1) hk
    cases hi : levels.idxOf l' with
    | zero =>
      rw [hi] at h1
      have : ¬ l' = l := fun h => by have := h1.2 h; omega
      simp [contrast, this]
    | succ i =>
      rw [hi] at h1
      simp only [contrast, Bool.false_eq_true, if_false]
      exact if_congr (by rw [← h1]; omega) rfl rfl

/-- The indexes of contrast columns in the names of columns. -/
theorem combinations_valid {levels : Name → List L} {coding : Coding} {k : List (Category × Bool × ℕ)} (hk : k ∈ combinations levels coding) :
    k.map Prod.fst = coding.map Prod.fst ∧ ∀ f ∈ k, ∃ l ∈ levels f.1.2, (codedLevels f.2.1 (levels f.1.2))[f.2.2]? = some l := by
  induction coding generalizing k with
  | nil => simp [combinations] at hk; subst hk; simp
  | cons f rest ih =>
    obtain ⟨f, full⟩ := f
    simp only [combinations, List.mem_flatMap, List.mem_map, List.mem_range] at hk
    obtain ⟨c, hc, j, hj, rfl⟩ := hk
    obtain ⟨h1, h2⟩ := ih hc
    refine ⟨by simp [h1], ?_⟩
    intro g hg
    rcases List.mem_cons.1 hg with rfl | hg
    · refine ⟨(codedLevels full (levels f.2))[j], ?_, List.getElem?_eq_getElem hj⟩
      have := List.getElem_mem hj
      cases full with
      | true => exact this
      | false => exact List.mem_of_mem_tail (by simpa [codedLevels] using this)
    · exact h2 g hg

theorem column_valid {absorbed : Bool} {terms : List Term} {levels : Name → List L} {c : Column} (hc : c ∈ columns absorbed terms levels) :
    c.term ∈ terms ∧ ∀ f ∈ c.coded, ∃ l ∈ levels f.1.2, (codedLevels f.2.1 (levels f.1.2))[f.2.2]? = some l := by
  simp only [columns, termColumns, List.mem_flatMap, List.mem_map] at hc
  obtain ⟨t, ht, k, -, j, hj, rfl⟩ := hc
  exact ⟨ht, (combinations_valid hj).2⟩

/-- **C100** (the matrix). Each column of a matrix that is built from a formula is what its name says. -/
theorem C100_matrix {repr : L → List Char} {levels : Name → List L} {row : Row L} (hd : Spec.Data repr levels row) {absorbed : Bool}
    {terms : List Term} {c : Column} (hc : c ∈ columns absorbed terms levels) : matrixEntry levels row c = Spec.columnValue levels row c := by
  have hv := (column_valid hc).2
  have key : ∀ l : List (Category × Bool × ℕ), (∀ f ∈ l, ∃ m ∈ levels f.1.2, (codedLevels f.2.1 (levels f.1.2))[f.2.2]? = some m) →
      (l.map fun f => contrast f.2.1 ((levels f.1.2).idxOf (row.level f.1.2)) f.2.2).prod =
        if ∀ p ∈ Spec.namedLevels levels ⟨c.term, l⟩, row.level p.1 = p.2 then 1 else 0 := by
    intro l
    induction l with
    | nil => intro _; simp [Spec.namedLevels]
    | cons f l ih =>
      intro h
      obtain ⟨m, -, hm⟩ := h f (List.mem_cons_self ..)
      rw [List.map_cons, List.prod_cons, ih fun g hg => h g (List.mem_cons_of_mem _ hg), contrast_eq (hd.once _) (hd.listed _) hm]
      simp only [Spec.namedLevels, List.filterMap_cons, hm, Option.map_some, List.forall_mem_cons]
      by_cases hl : row.level f.1.2 = m
      · rw [if_pos hl, one_mul]
        exact if_congr (by simp [hl]) rfl rfl
      · rw [if_neg hl, zero_mul, if_neg fun h => hl h.1]
  rw [matrixEntry, Spec.columnValue, key c.coded hv]
  split_ifs <;> simp

/-! ### Expressions of columns -/

/-- Replacing symbols one after the other looks up the indicators of the variables that are replaced. -/
theorem eval_replacements (repr : L → List Char) (l : List (Name × L)) (hl : ∀ p ∈ l, '[' ∉ p.1) (hn : (l.map Prod.fst).Nodup) (e : Expr)
    (d : Name → ℝ) :
    ((l.map fun p => indicatorName repr p.1 p.2).foldl replaceFactor e).eval d =
      e.eval fun x => ((l.find? fun p => decide (p.1 = x)).elim (d x) fun p => d (indicatorName repr p.1 p.2)) := by
  induction l generalizing e with
  | nil => simp
  | cons p l ih =>
    have hp := hl p (List.mem_cons_self ..)
    simp only [List.map_cons, List.nodup_cons] at hn
    rw [List.map_cons, List.foldl_cons, ih (fun q hq => hl q (List.mem_cons_of_mem _ hq)) hn.2, replaceFactor_indicatorName repr hp, eval_replace]
    apply eval_congr
    intro x _
    by_cases hx : x = p.1
    · subst hx
      have : (l.find? fun q => decide (q.1 = indicatorName repr p.1 p.2)) = none := by
        rw [List.find?_eq_none]
        intro q hq
        simp only [decide_eq_true_eq]
        intro h
        exact hl q (List.mem_cons_of_mem _ hq) (h ▸ bracket_mem_indicatorName repr p.1 p.2)
      simp [this]
    · rw [if_neg hx, List.find?_cons_of_neg (by simpa using Ne.symm hx)]

/-- The level in the name of a column for a coded factor. -/
theorem codedNames_eq (repr : L → List Char) {levels : Name → List L} {k : List (Category × Bool × ℕ)}
    (hk : ∀ f ∈ k, ∃ l ∈ levels f.1.2, (codedLevels f.2.1 (levels f.1.2))[f.2.2]? = some l) :
    ∃ p : List (Name × L), k.map (codedName repr levels) = p.map (fun q => indicatorName repr q.1 q.2) ∧
      p.map Prod.fst = k.map (fun f => f.1.2) ∧ (∀ q ∈ p, q.2 ∈ levels q.1) ∧
      (p = k.filterMap fun f => ((codedLevels f.2.1 (levels f.1.2))[f.2.2]?).map fun l => (f.1.2, l)) := by
  induction k with
  | nil => exact ⟨[], by simp⟩
  | cons f k ih =>
    obtain ⟨l, hl, hf⟩ := hk f (List.mem_cons_self ..)
    obtain ⟨p, h1, h2, h3, h4⟩ := ih fun g hg => hk g (List.mem_cons_of_mem _ hg)
    refine ⟨(f.1.2, l) :: p, ?_, ?_, ?_, ?_⟩
    · simp only [List.map_cons, h1]
      congr 1
      simp [codedName, hf]
    · simp [h2]
    · intro q hq
      rcases List.mem_cons.1 hq with rfl | hq
      · exact hl
      · exact h3 q hq
    · simp [hf, ← h4]

/-- A column has all the categorical factors of its term. -/
def Complete (c : Column) : Prop := c.coded.map Prod.fst = categories c.term

/-- The expression of a column with all the categorical factors of its term evaluates to what the name of the column says, also after a
variable has changed. -/
theorem evaluate_columnExpression {repr : L → List Char} {levels : Name → List L} {row : Row L} (hd : Spec.Data repr levels row)
    {absorbed : Bool} {terms : List Term} (hnamed : Spec.Named terms) {c : Column} (hc : c ∈ columns absorbed terms levels)
    (hs : Spec.Separate c.term) (hcomplete : Complete c) {v : Name} (hv : '[' ∉ v) (hcat : ∀ f ∈ categories c.term, f.2 ≠ v) (w : ℝ) :
    evaluate (columnExpression repr levels c) (underlying repr levels terms row) (some (v, w)) =
      Spec.columnValue levels (Spec.change row v w) c := by
  obtain ⟨hterm, hvalid⟩ := column_valid hc
  obtain ⟨p, h1, h2, h3, h4⟩ := codedNames_eq repr hvalid
  have hfst : p.map Prod.fst = (categories c.term).map Prod.snd := by
    rw [h2, ← hcomplete, List.map_map]; rfl
  have hbr : ∀ q ∈ p, '[' ∉ q.1 := by
    intro q hq
    have : q.1 ∈ (categories c.term).map Prod.snd := hfst ▸ List.mem_map_of_mem hq
    obtain ⟨f, hf, hfq⟩ := List.mem_map.1 this
    exact hfq ▸ (hnamed _ hterm).1 f hf
  have hnd : (p.map Prod.fst).Nodup := hfst ▸ hs.1
  rw [evaluate, columnExpression, h1, eval_replacements repr p hbr hnd, eval_termExpression, prod_factors, Spec.columnValue, Spec.namedLevels, ← h4]
  set env : Name → ℝ := fun x => (p.find? fun q => decide (q.1 = x)).elim (override (underlying repr levels terms row) (some (v, w)) x)
    fun q => override (underlying repr levels terms row) (some (v, w)) (indicatorName repr q.1 q.2) with henv
  -- numeric factors
  have hnum : ((numerics c.term).map fun e => e.eval env) = (numerics c.term).map fun e => e.eval (Spec.change row v w).value := by
    apply List.map_congr_left
    intro e he
    apply eval_congr
    intro x hx
    have hfind : (p.find? fun q => decide (q.1 = x)) = none := by
      rw [List.find?_eq_none]
      intro q hq
      simp only [decide_eq_true_eq]
      intro hqx
      have : q.1 ∈ (categories c.term).map Prod.snd := hfst ▸ List.mem_map_of_mem hq
      obtain ⟨f, hf, hfq⟩ := List.mem_map.1 this
      exact hs.2 e he f hf (by rw [hfq, hqx]; exact hx)
    simp only [henv, hfind, Option.elim_none, override, Spec.change]
    by_cases hxv : x = v
    · subst hxv; simp
    · rw [if_neg hxv, Function.update_of_ne hxv, underlying_variable _ _ _ _ ((hnamed _ hterm).2 e he x hx)]
  -- categorical factors
  have hcatv : ((categories c.term).map fun f => env f.2).prod = if ∀ q ∈ p, (Spec.change row v w).level q.1 = q.2 then 1 else 0 := by
    have e1 : ((categories c.term).map fun f => env f.2) = p.map fun q => env q.1 := by
      have := congrArg (List.map env) hfst
      rw [List.map_map, List.map_map] at this
      exact this.symm
    have e2 : (p.map fun q => env q.1) = p.map fun q => if row.level q.1 = q.2 then (1 : ℝ) else 0 := by
      apply List.map_congr_left
      intro q hq
      have hfind : (p.find? fun q' => decide (q'.1 = q.1)) = some q := by
        cases hf : (p.find? fun q' => decide (q'.1 = q.1)) with
        | none =>
          rw [List.find?_eq_none] at hf
          exact absurd (decide_eq_true rfl) (hf q hq)
        | some q' =>
          have a1 := List.find?_some hf
          have a2 := List.mem_of_find?_eq_some hf
          simp only [decide_eq_true_eq] at a1
          rw [List.inj_on_of_nodup_map hnd a2 hq a1]
      have hmem : q.1 ∈ (categories c.term).map Prod.snd := hfst ▸ List.mem_map_of_mem hq
      obtain ⟨f, hf, hfq⟩ := List.mem_map.1 hmem
      have hne : indicatorName repr q.1 q.2 ≠ v := fun h => hv (h ▸ bracket_mem_indicatorName repr q.1 q.2)
      simp only [henv, hfind, Option.elim_some, override, if_neg hne]
      have := underlying_indicator (row := row) hd.written hnamed hterm hf (l := q.2) (by rw [hfq]; exact h3 q hq)
      rw [hfq] at this
      exact this
    rw [e1, e2]
    clear_value env
    clear hnum e1 e2 henv h1 h2 h3 h4 hfst hbr hnd
    induction p with
    | nil => simp
    | cons q p ih =>
      rw [List.map_cons, List.prod_cons, ih]
      simp only [List.forall_mem_cons]
      by_cases hq : row.level q.1 = q.2
      · rw [if_pos hq, one_mul]
        exact if_congr (by simp [Spec.change, hq]) rfl rfl
      · rw [if_neg hq, zero_mul, if_neg fun h => hq h.1]
  rw [hnum, hcatv]
  split_ifs <;> simp

/-! ### Derivatives -/

theorem defined_diff {env : Name → ℝ} {v : Name} {e : Expr} (h : Spec.Defined env e) : Spec.Defined env (e.diff v) := by
  induction e with
  | num c => trivial
  | sym n => simp only [Expr.diff]; split_ifs <;> trivial
  | add a b iha ihb => exact ⟨iha h.1, ihb h.2⟩
  | mul a b iha ihb => exact ⟨⟨iha h.1, h.2⟩, ⟨h.1, ihb h.2⟩⟩
  | ipow a n iha =>
    simp only [Expr.diff]
    split_ifs with hn
    · trivial
    · refine ⟨⟨trivial, h.1, ?_⟩, iha h.1⟩
      rcases h.2 with h2 | h2
      · exact Or.inl h2
      · exact Or.inr (by omega)
  | rpow a b iha ihb => exact ⟨h, ⟨ihb h.2.1, h.1, h.2.2⟩, h.2.1, iha h.1, h.1, Or.inl h.2.2.ne'⟩
  | log a iha => exact ⟨iha h.1, h.1, Or.inl h.2.ne'⟩
  | exp a iha => exact ⟨h, iha h⟩

theorem hasDerivAt_eval {d : Name → ℝ} {v : Name} {e : Expr} (h : Spec.Defined d e) :
    HasDerivAt (fun w => e.eval (Function.update d v w)) ((e.diff v).eval d) (d v) := by
  have hup : Function.update d v (d v) = d := Function.update_eq_self v d
  induction e with
  | num c => simpa [Expr.eval, Expr.diff] using hasDerivAt_const (d v) (c : ℝ)
  | sym n =>
    by_cases hn : n = v
    · subst hn
      simp only [Expr.eval, Expr.diff, if_true, Function.update_self, Rat.cast_one]
      exact hasDerivAt_id' (d n)
    · simpa [Expr.eval, Expr.diff, hn] using hasDerivAt_const (d v) (d n)
  | add a b iha ihb => exact (iha h.1).add (ihb h.2)
  | mul a b iha ihb =>
    have := (iha h.1).mul (ihb h.2)
    rw [hup] at this
    exact this
  | ipow a n iha =>
    by_cases hn : n = 0
    · subst hn
      simpa [Expr.eval, Expr.diff] using hasDerivAt_const (d v) (1 : ℝ)
    · have h1 : HasDerivAt (fun y : ℝ => y ^ n) (n * a.eval d ^ (n - 1)) (a.eval (Function.update d v (d v))) := by
        rw [hup]; exact hasDerivAt_zpow n _ h.2
      have := h1.comp (d v) (iha h.1)
      simp only [Expr.diff, if_neg hn, Expr.eval]
      exact this.congr_deriv (by push_cast; ring)
  | rpow a b iha ihb =>
    have h0 : 0 < a.eval (Function.update d v (d v)) := by rw [hup]; exact h.2.2
    have := (iha h.1).rpow (ihb h.2.1) h0
    rw [hup] at this
    simp only [Expr.diff, Expr.eval]
    have hne : a.eval d ≠ 0 := h.2.2.ne'
    exact this.congr_deriv (by rw [Real.rpow_sub_one hne, zpow_neg_one]; ring)
  | log a iha =>
    have h0 : a.eval (Function.update d v (d v)) ≠ 0 := by rw [hup]; exact h.2.ne'
    have := (iha h.1).log h0
    rw [hup] at this
    simp only [Expr.diff, Expr.eval]
    exact this.congr_deriv (by rw [zpow_neg_one]; ring)
  | exp a iha =>
    have := (iha h).exp
    rw [hup] at this
    exact this

theorem override_some (data : Name → ℝ) (v : Name) (w : ℝ) : override data (some (v, w)) = Function.update data v w := by
  funext n
  simp only [override, Function.update_apply]

theorem defined_congr {e : Expr} {d d' : Name → ℝ} (h : ∀ x ∈ e.symbols, d x = d' x) (hd : Spec.Defined d e) : Spec.Defined d' e := by
  induction e with
  | num c => trivial
  | sym n => trivial
  | add a b iha ihb =>
    exact ⟨iha (fun x hx => h x (by simp [Expr.symbols, hx])) hd.1, ihb (fun x hx => h x (by simp [Expr.symbols, hx])) hd.2⟩
  | mul a b iha ihb =>
    exact ⟨iha (fun x hx => h x (by simp [Expr.symbols, hx])) hd.1, ihb (fun x hx => h x (by simp [Expr.symbols, hx])) hd.2⟩
  | rpow a b iha ihb =>
    refine ⟨iha (fun x hx => h x (by simp [Expr.symbols, hx])) hd.1, ihb (fun x hx => h x (by simp [Expr.symbols, hx])) hd.2.1, ?_⟩
    rw [← eval_congr (d := d) fun x hx => h x (by simp [Expr.symbols, hx])]
    exact hd.2.2
  | ipow a n iha =>
    refine ⟨iha (fun x hx => h x hx) hd.1, ?_⟩
    rw [← eval_congr (e := a) (d := d) fun x hx => h x hx]
    exact hd.2
  | log a iha =>
    refine ⟨iha (fun x hx => h x hx) hd.1, ?_⟩
    rw [← eval_congr (e := a) (d := d) fun x hx => h x hx]
    exact hd.2
  | exp a iha => exact iha (fun x hx => h x hx) hd

theorem defined_replace {e : Expr} {old new : Name} {d : Name → ℝ} (hd : Spec.Defined (fun n => if n = old then d new else d n) e) :
    Spec.Defined d (e.replace old new) := by
  induction e with
  | num c => trivial
  | sym n => simp only [Expr.replace]; split_ifs <;> trivial
  | add a b iha ihb => exact ⟨iha hd.1, ihb hd.2⟩
  | mul a b iha ihb => exact ⟨iha hd.1, ihb hd.2⟩
  | rpow a b iha ihb => exact ⟨iha hd.1, ihb hd.2.1, by rw [eval_replace]; exact hd.2.2⟩
  | ipow a n iha => exact ⟨iha hd.1, by rw [eval_replace]; exact hd.2⟩
  | log a iha => exact ⟨iha hd.1, by rw [eval_replace]; exact hd.2⟩
  | exp a iha => exact iha hd

theorem defined_termExpression {t : Term} {d : Name → ℝ} (h : ∀ e ∈ numerics t, Spec.Defined d e) : Spec.Defined d (termExpression t) := by
  have key : ∀ (l : Term) (e : Expr), Spec.Defined d e → (∀ f ∈ l, Spec.Defined d f.expression) →
      Spec.Defined d (l.foldl (fun e f => Expr.mul e f.expression) e) := by
    intro l
    induction l with
    | nil => intro e he _; exact he
    | cons f l ih =>
      intro e he hl
      exact ih _ ⟨he, hl f (List.mem_cons_self ..)⟩ fun g hg => hl g (List.mem_cons_of_mem _ hg)
  refine key t _ trivial ?_
  intro f hf
  cases f with
  | numeric e => exact h e (List.mem_filterMap.2 ⟨_, hf, rfl⟩)
  | categorical m x => trivial

theorem defined_replacements {repr : L → List Char} {l : List (Name × L)} (hl : ∀ p ∈ l, '[' ∉ p.1) {e : Expr} {d : Name → ℝ}
    (h : ∀ d', (∀ x, (∀ p ∈ l, p.1 ≠ x) → d' x = d x) → Spec.Defined d' e) :
    Spec.Defined d ((l.map fun p => indicatorName repr p.1 p.2).foldl replaceFactor e) := by
  induction l generalizing e with
  | nil => exact h d fun _ _ => rfl
  | cons p l ih =>
    rw [List.map_cons, List.foldl_cons]
    refine ih (fun q hq => hl q (List.mem_cons_of_mem _ hq)) ?_
    intro d' hd'
    rw [replaceFactor_indicatorName repr (hl p (List.mem_cons_self ..))]
    refine defined_replace (h _ ?_)
    intro x hx
    rw [if_neg (hx p (List.mem_cons_self ..)).symm]
    exact hd' x fun q hq => hx q (List.mem_cons_of_mem _ hq)

/-- The expression of a column is differentiable where the numeric factors of its term are. -/
theorem defined_columnExpression {repr : L → List Char} {levels : Name → List L} {row : Row L} {absorbed : Bool} {terms : List Term}
    (hnamed : Spec.Named terms) {c : Column} (hc : c ∈ columns absorbed terms levels) (hs : Spec.Separate c.term) (hcomplete : Complete c)
    (h : ∀ e ∈ numerics c.term, Spec.Defined row.value e) :
    Spec.Defined (underlying repr levels terms row) (columnExpression repr levels c) := by
  obtain ⟨hterm, hvalid⟩ := column_valid hc
  obtain ⟨p, h1, h2, -, -⟩ := codedNames_eq repr hvalid
  have hfst : p.map Prod.fst = (categories c.term).map Prod.snd := by
    rw [h2, ← hcomplete, List.map_map]; rfl
  have hin : ∀ q ∈ p, ∃ f ∈ categories c.term, f.2 = q.1 := by
    intro q hq
    have : q.1 ∈ (categories c.term).map Prod.snd := hfst ▸ List.mem_map_of_mem hq
    exact List.mem_map.1 this
  rw [columnExpression, h1]
  refine defined_replacements ?_ ?_
  · intro q hq
    obtain ⟨f, hf, hfq⟩ := hin q hq
    exact hfq ▸ (hnamed _ hterm).1 f hf
  · intro d' hd'
    refine defined_termExpression fun e he => defined_congr ?_ (h e he)
    intro x hx
    rw [hd' x, underlying_variable _ _ _ _ ((hnamed _ hterm).2 e he x hx)]
    intro q hq hqx
    obtain ⟨f, hf, hfq⟩ := hin q hq
    exact hs.2 e he f hf (by rw [hfq, hqx]; exact hx)

/-! ### Codings that Patsy picks -/

theorem sameSet_iff {α : Type} [DecidableEq α] {l m : List α} : sameSet l m = true ↔ l ⊆ m ∧ m ⊆ l := by
  simp only [sameSet, Bool.and_eq_true, List.all_eq_true, decide_eq_true_eq]
  exact Iff.rfl

theorem mem_unusedSubsets {t : Term} {used : List (List Category)} {u : List Category} :
    u ∈ unusedSubsets t used ↔ u.Sublist (categories t) ∧ ∀ u' ∈ used, ¬ (u ⊆ u' ∧ u' ⊆ u) := by
  simp only [unusedSubsets, List.mem_filter, mem_subsets, Bool.not_eq_eq_eq_not, Bool.not_true, List.any_eq_false, sameSet_iff]

/-- The subsets that are used before a term are those of the terms before it. -/
theorem codeBucket_mem {used : List (List Category)} {l : List Term} {p : Term × List Coding} (hp : p ∈ codeBucket used l) :
    ∃ l1 l2 used', l = l1 ++ p.1 :: l2 ∧ p.2 = pickContrasts p.1 used' ∧
      (∀ u ∈ used', u ∈ used ∨ ∃ s ∈ l1, u.Sublist (categories s)) ∧
      (∀ u, (u ∈ used ∨ ∃ s ∈ l1, u.Sublist (categories s)) → ∃ u' ∈ used', u ⊆ u' ∧ u' ⊆ u) := by
  induction l generalizing used with
  | nil => simp [codeBucket] at hp
  | cons t l ih =>
    rw [codeBucket, List.mem_cons] at hp
    rcases hp with rfl | hp
    · exact ⟨[], l, used, rfl, rfl, fun u hu => Or.inl hu, fun u hu => ⟨u, by simpa using hu, List.Subset.refl _, List.Subset.refl _⟩⟩
    · obtain ⟨l1, l2, used', h1, h2, h3, h4⟩ := ih hp
      refine ⟨t :: l1, l2, used', by rw [h1]; rfl, h2, ?_, ?_⟩
      · intro u hu
        rcases h3 u hu with h | ⟨s, hs, h⟩
        · rcases List.mem_append.1 h with h | h
          · exact Or.inl h
          · exact Or.inr ⟨t, List.mem_cons_self .., (mem_unusedSubsets.1 h).1⟩
        · exact Or.inr ⟨s, List.mem_cons_of_mem _ hs, h⟩
      · rintro u (h | ⟨s, hs, h⟩)
        · exact h4 u (Or.inl (List.mem_append_left _ h))
        · rcases List.mem_cons.1 hs with rfl | hs
          · by_cases hin : u ∈ unusedSubsets s used
            · exact h4 u (Or.inl (List.mem_append_right _ hin))
            · rw [mem_unusedSubsets] at hin
              push Not at hin
              obtain ⟨u', hu', e1, e2⟩ := hin h
              obtain ⟨u'', hu'', e3, e4⟩ := h4 u' (Or.inl (List.mem_append_left _ hu'))
              exact ⟨u'', hu'', fun _ ha => e3 (e1 ha), fun _ ha => e2 (e4 ha)⟩
          · exact h4 u (Or.inr ⟨s, hs, h⟩)

theorem mem_numerics {t : Term} {e : Expr} : e ∈ numerics t ↔ Factor.numeric e ∈ t := by
  simp only [numerics, List.mem_filterMap]
  constructor
  · rintro ⟨f, hf, h⟩
    cases f with
    | numeric e' => simp only [Option.some.injEq] at h; exact h ▸ hf
    | categorical m x => simp at h
  · exact fun h => ⟨_, h, rfl⟩

theorem mem_categories {t : Term} {f : Category} : f ∈ categories t ↔ Factor.categorical f.1 f.2 ∈ t := by
  simp only [categories, List.mem_filterMap]
  constructor
  · rintro ⟨g, hg, h⟩
    cases g with
    | numeric e' => simp at h
    | categorical m x => simp only [Option.some.injEq] at h; exact h ▸ hg
  · exact fun h => ⟨_, h, rfl⟩

theorem length_term (t : Term) : t.length = (numerics t).length + (categories t).length := by
  induction t with
  | nil => rfl
  | cons f t ih =>
    cases f with
    | numeric e =>
      have h1 : numerics (.numeric e :: t) = e :: numerics t := rfl
      have h2 : categories (.numeric e :: t) = categories t := rfl
      rw [h1, h2, List.length_cons, List.length_cons, ih]; omega
    | categorical m x =>
      have h1 : numerics (.categorical m x :: t) = numerics t := rfl
      have h2 : categories (.categorical m x :: t) = (m, x) :: categories t := rfl
      rw [h1, h2, List.length_cons, List.length_cons, ih]; omega

theorem nodup_numerics {t : Term} (h : t.Nodup) : (numerics t).Nodup := by
  refine List.Nodup.filterMap ?_ h
  intro a a' b hb hb'
  cases a <;> cases a' <;> simp_all

theorem nodup_categories {t : Term} (h : t.Nodup) : (categories t).Nodup := by
  refine List.Nodup.filterMap ?_ h
  intro a a' b hb hb'
  cases a with
  | numeric e => simp at hb
  | categorical m x =>
    cases a' with
    | numeric e => simp at hb'
    | categorical m' x' =>
      simp only [Option.mem_def, Option.some.injEq] at hb hb'
      have := hb.trans hb'.symm
      simp only [Prod.mk.injEq] at this
      rw [this.1, this.2]

theorem subset_of_parts {s t : Term} (h1 : numerics s ⊆ numerics t) (h2 : categories s ⊆ categories t) : s ⊆ t := by
  intro f hf
  cases f with
  | numeric e => exact mem_numerics.1 (h1 (mem_numerics.2 hf))
  | categorical m x => exact (mem_categories (f := (m, x))).1 (h2 ((mem_categories (f := (m, x))).2 hf))

theorem designed_terms {absorbed : Bool} {terms : List Term} (h : Spec.Terms absorbed terms) :
    (∀ t ∈ Spec.designed absorbed terms, t.Nodup) ∧ (Spec.designed absorbed terms).Pairwise fun s t => ¬ (s ⊆ t ∧ t ⊆ s) := by
  cases absorbed with
  | false => exact ⟨h.once, h.distinct⟩
  | true =>
    refine ⟨fun t ht => ?_, List.pairwise_cons.2 ⟨fun t ht hst => ?_, h.distinct⟩⟩
    · rcases List.mem_cons.1 ht with rfl | ht
      · exact List.nodup_nil
      · exact h.once t ht
    · have : t = [] := List.subset_nil.1 hst.2
      exact h.intercept rfl (this ▸ ht)

theorem bucket_sorted (terms : List Term) (t : Term) : (bucket terms t).Pairwise fun a b => a.length ≤ b.length := by
  have : Std.Total (fun a b : Term => a.length ≤ b.length) := ⟨fun a b => le_total a.length b.length⟩
  have : IsTrans Term (fun a b : Term => a.length ≤ b.length) := ⟨fun _ _ _ h h' => h.trans h'⟩
  exact List.pairwise_insertionSort _ _

/-- No term before a term of its bucket has all of its categorical factors. -/
theorem full_unused {terms : List Term} (honce : ∀ t ∈ terms, t.Nodup) (hdistinct : terms.Pairwise fun s t => ¬ (s ⊆ t ∧ t ⊆ s)) {t t' : Term}
    {l1 l2 : List Term} (hl : bucket terms t = l1 ++ t' :: l2) {s : Term} (hs : s ∈ l1) : ¬ (categories t' ⊆ categories s) := by
  intro hsub
  have hsorted := bucket_sorted terms t
  have hperm : (bucket terms t).Perm (terms.filter fun s => sameSet (numerics s) (numerics t)) := List.perm_insertionSort ..
  have hmem : ∀ r ∈ bucket terms t, r ∈ terms ∧ numerics r ⊆ numerics t ∧ numerics t ⊆ numerics r := by
    intro r hr
    have := hperm.mem_iff.1 hr
    rw [List.mem_filter, sameSet_iff] at this
    exact this
  have hpair : (bucket terms t).Pairwise fun s t => ¬ (s ⊆ t ∧ t ⊆ s) :=
    (hperm.pairwise_iff (fun h h' => h ⟨h'.2, h'.1⟩)).2 (hdistinct.filter _)
  rw [hl, List.pairwise_append] at hsorted hpair
  have hle := hsorted.2.2 s hs t' (List.mem_cons_self ..)
  have hne := hpair.2.2 s hs t' (List.mem_cons_self ..)
  obtain ⟨a1, a2, a3⟩ := hmem s (by rw [hl]; exact List.mem_append_left _ hs)
  obtain ⟨b1, b2, b3⟩ := hmem t' (by rw [hl]; simp)
  have hn1 : numerics s ⊆ numerics t' := fun _ h => b3 (a2 h)
  have hn2 : numerics t' ⊆ numerics s := fun _ h => a3 (b2 h)
  have hlen : (numerics s).length = (numerics t').length := by
    refine le_antisymm ?_ ?_
    · exact (List.subperm_of_subset (nodup_numerics (honce s a1)) hn1).length_le
    · exact (List.subperm_of_subset (nodup_numerics (honce t' b1)) hn2).length_le
  rw [length_term, length_term] at hle
  have hnd := nodup_categories (honce t' b1)
  have hperm' : (categories t').Perm (categories s) :=
    (List.subperm_of_subset hnd hsub).perm_of_length_le (by omega)
  exact hne ⟨subset_of_parts hn1 hperm'.symm.subset, subset_of_parts hn2 hperm'.subset⟩

theorem nodup_of_distinct {terms : List Term} (h : terms.Pairwise fun s t => ¬ (s ⊆ t ∧ t ⊆ s)) : terms.Nodup :=
  h.imp fun {a b} hab heq => hab (by rw [heq]; exact ⟨List.Subset.refl _, List.Subset.refl _⟩)

theorem before_iff {α : Type} {l l1 l2 : List α} {s t : α} (hl : l.Nodup) (h : l = l1 ++ t :: l2) : [s, t].Sublist l ↔ s ∈ l1 := by
  rw [h] at hl
  obtain ⟨-, h2, h3⟩ := List.nodup_append.1 hl
  constructor
  · intro hs
    rw [h] at hs
    obtain ⟨a, b, hab, ha, hb⟩ := List.sublist_append_iff.1 hs
    cases a with
    | nil =>
      rw [List.nil_append] at hab
      subst hab
      exfalso
      rcases List.sublist_cons_iff.1 hb with hb | ⟨r, hr, hb⟩
      · exact (List.nodup_cons.1 h2).1 (hb.subset (by simp))
      · rw [List.cons.injEq] at hr
        exact (List.nodup_cons.1 h2).1 (hb.subset (by rw [← hr.2]; simp))
    | cons x a =>
      rw [List.cons_append, List.cons.injEq] at hab
      exact ha.subset (by rw [hab.1]; simp)
  · intro hs
    rw [h]
    exact (List.singleton_sublist.2 hs).append (List.singleton_sublist.2 (List.mem_cons_self ..))

/-- The terms that come before a term of its bucket. -/
theorem bucket_before {absorbed : Bool} {terms : List Term} (h : Spec.Terms absorbed terms) {t : Term} (ht : t ∈ Spec.designed absorbed terms)
    {l1 l2 : List Term} (hl : bucket (Spec.designed absorbed terms) t = l1 ++ t :: l2) (s : Term) :
    s ∈ l1 ↔ Spec.CodedBefore absorbed terms s t := by
  obtain ⟨honce, hdistinct⟩ := designed_terms h
  have hperm : (bucket (Spec.designed absorbed terms) t).Perm
    ((Spec.designed absorbed terms).filter fun s => sameSet (numerics s) (numerics t)) := List.perm_insertionSort ..
  have hmem : ∀ s, s ∈ bucket (Spec.designed absorbed terms) t ↔ s ∈ Spec.designed absorbed terms ∧ Spec.SameNumerics s t := by
    intro s
    rw [hperm.mem_iff, List.mem_filter, sameSet_iff]
    exact Iff.rfl
  have hnd := nodup_of_distinct hdistinct
  have hndb : (bucket (Spec.designed absorbed terms) t).Nodup := hperm.nodup_iff.2 (hnd.filter _)
  have hsorted := bucket_sorted (Spec.designed absorbed terms) t
  have htf : sameSet (numerics t) (numerics t) = true := sameSet_iff.2 ⟨List.Subset.refl _, List.Subset.refl _⟩
  have : Std.Total (fun a b : Term => a.length ≤ b.length) := ⟨fun a b => le_total a.length b.length⟩
  have : IsTrans Term (fun a b : Term => a.length ≤ b.length) := ⟨fun _ _ _ h h' => h.trans h'⟩
  have hstable : ∀ a b : Term, a.length ≤ b.length → sameSet (numerics a) (numerics t) = true → sameSet (numerics b) (numerics t) = true →
      [a, b].Sublist (Spec.designed absorbed terms) → [a, b].Sublist (bucket (Spec.designed absorbed terms) t) := by
    intro a b hab ha hb hsub
    refine List.pair_sublist_insertionSort hab ?_
    have := hsub.filter fun s => sameSet (numerics s) (numerics t)
    rwa [List.filter_cons, if_pos ha, List.filter_cons, if_pos hb, List.filter_nil] at this
  constructor
  · intro hs
    have hsb := (hmem s).1 (by rw [hl]; exact List.mem_append_left _ hs)
    refine ⟨hsb.1, hsb.2, ?_⟩
    rw [hl, List.pairwise_append] at hsorted
    have hle := hsorted.2.2 s hs t (List.mem_cons_self ..)
    rcases hle.lt_or_eq with hlt | heq
    · exact Or.inl hlt
    · refine Or.inr ⟨heq, ?_⟩
      -- otherwise they would be in the other order
      have hne : s ≠ t := by
        rintro rfl
        rw [hl, List.nodup_append] at hndb
        exact hndb.2.2 s hs s (List.mem_cons_self ..) rfl
      obtain ⟨a, b, hab⟩ := List.append_of_mem ht
      rw [before_iff hnd hab]
      by_contra hsa
      have hsb' : s ∈ b := by
        have := hsb.1
        rw [hab, List.mem_append, List.mem_cons] at this
        rcases this with h | h | h
        · exact absurd h hsa
        · exact absurd h hne
        · exact h
      have hts : [t, s].Sublist (Spec.designed absorbed terms) := by
        rw [hab]
        exact ((List.singleton_sublist.2 hsb').cons_cons t).trans (List.sublist_append_right _ _)
      have hts' := hstable t s heq.ge htf (sameSet_iff.2 hsb.2) hts
      obtain ⟨c, d, hcd⟩ := List.append_of_mem hs
      rw [hcd, List.append_assoc, List.cons_append] at hl
      have := (before_iff hndb hl).1 hts'
      rw [hl, List.nodup_append] at hndb
      exact hndb.2.2 t this t (by simp) rfl
  · rintro ⟨hs, hsn, hlt | ⟨heq, hsub⟩⟩
    · have hsb := (hmem s).2 ⟨hs, hsn⟩
      rw [hl] at hsb hsorted
      rcases List.mem_append.1 hsb with h | h
      · exact h
      · exfalso
        rcases List.mem_cons.1 h with rfl | h
        · omega
        · have := (List.pairwise_cons.1 (List.pairwise_append.1 hsorted).2.1).1 s h
          omega
    · exact (before_iff hndb hl).1 (hstable s t heq.le (sameSet_iff.2 hsn) htf hsub)

theorem mem_bucket {terms : List Term} {t : Term} : t ∈ bucket terms t ↔ t ∈ terms := by
  rw [bucket, (List.perm_insertionSort _ _).mem_iff, List.mem_filter, sameSet_iff]
  exact ⟨fun h => h.1, fun h => ⟨h, List.Subset.refl _, List.Subset.refl _⟩⟩

theorem mem_codeBucket {used : List (List Category)} {l : List Term} {t : Term} (h : t ∈ l) : ∃ p ∈ codeBucket used l, p.1 = t := by
  induction l generalizing used with
  | nil => simp at h
  | cons a l ih =>
    rcases List.mem_cons.1 h with rfl | h
    · exact ⟨_, List.mem_cons_self .., rfl⟩
    · obtain ⟨p, hp, hpt⟩ := ih (used := used ++ unusedSubsets a used) h
      exact ⟨p, List.mem_cons_of_mem _ hp, hpt⟩

/-- The codings of a term are picked for the subsets of its factors that are in no term that is coded before it. -/
theorem codings_eq {absorbed : Bool} {terms : List Term} (h : Spec.Terms absorbed terms) {t : Term} (ht : t ∈ Spec.designed absorbed terms) :
    ∃ used, codings (Spec.designed absorbed terms) t = pickContrasts t used ∧
      (∀ u, u ∈ unusedSubsets t used ↔ u.Sublist (categories t) ∧ ¬ ∃ s, Spec.CodedBefore absorbed terms s t ∧ u ⊆ categories s) ∧
      categories t ∈ unusedSubsets t used := by
  obtain ⟨honce, hdistinct⟩ := designed_terms h
  rw [codings]
  cases hfind : (codeBucket [] (bucket (Spec.designed absorbed terms) t)).find? fun p => decide (p.1 = t) with
  | none =>
    exfalso
    rw [List.find?_eq_none] at hfind
    obtain ⟨p, hp, hpt⟩ := mem_codeBucket (used := []) (mem_bucket.2 ht)
    exact hfind p hp (by simpa using hpt)
  | some p =>
    have hpt : p.1 = t := by simpa using List.find?_some hfind
    obtain ⟨l1, l2, used, h1, h2, h3, h4⟩ := codeBucket_mem (List.mem_of_find?_eq_some hfind)
    rw [hpt] at h1 h2
    have hunused : ∀ u, u ∈ unusedSubsets t used ↔ u.Sublist (categories t) ∧ ¬ ∃ s, Spec.CodedBefore absorbed terms s t ∧ u ⊆ categories s := by
      intro u
      rw [mem_unusedSubsets]
      refine and_congr_right fun hu => ?_
      constructor
      · rintro hno ⟨s, hs, hus⟩
        -- the part of the term with these factors
        have hsl := (bucket_before h ht h1 s).2 hs
        obtain ⟨u', hu', e1, e2⟩ := h4 ((categories s).filter fun f => decide (f ∈ u)) (Or.inr ⟨s, hsl, List.filter_sublist⟩)
        refine hno u' hu' ⟨fun f hf => e1 (List.mem_filter.2 ⟨hus hf, by simpa using hf⟩), fun f hf => ?_⟩
        simpa using (List.mem_filter.1 (e2 hf)).2
      · rintro hno u' hu' ⟨e1, e2⟩
        rcases h3 u' hu' with h | ⟨s, hs, hsub⟩
        · simp at h
        · exact hno ⟨s, (bucket_before h ht h1 s).1 hs, fun f hf => hsub.subset (e1 hf)⟩
    refine ⟨used, h2, hunused, (hunused _).2 ⟨List.Sublist.refl _, ?_⟩⟩
    rintro ⟨s, hs, hsub⟩
    exact full_unused honce hdistinct h1 ((bucket_before h ht h1 s).2 hs) hsub

theorem filter_sameSet {l u : List Category} (hu : u ⊆ l) :
    (l.filter fun f => decide (f ∈ u)).Sublist l ∧ ∀ f, f ∈ (l.filter fun f => decide (f ∈ u)) ↔ f ∈ u :=
  ⟨List.filter_sublist, fun f => by
    rw [List.mem_filter, decide_eq_true_eq]
    exact ⟨fun h => h.2, fun h => ⟨hu h, h⟩⟩⟩

/-- A term that is nested in terms that are coded before it has one coding. -/
theorem codings_nested {absorbed : Bool} {terms : List Term} (h : Spec.Terms absorbed terms) {t : Term} (ht : t ∈ Spec.designed absorbed terms)
    {own : List Category} (hown : own ⊆ categories t)
    (hnested : ∀ u ⊆ categories t, (∃ s, Spec.CodedBefore absorbed terms s t ∧ u ⊆ categories s) ↔ ¬ own ⊆ u) :
    codings (Spec.designed absorbed terms) t = [(categories t).map fun f => (f, decide (f ∉ own))] := by
  obtain ⟨used, h1, h2, -⟩ := codings_eq h ht
  rw [h1, pickContrasts]
  refine simplify_nested (nodup_categories ((designed_terms h).1 t ht)) List.filter_sublist ?_ hown
  intro u
  rw [h2]
  refine and_congr_right fun hu => ?_
  rw [hnested u hu.subset, not_not]

/-- Terms are nested exactly if all of their codings have all of their categorical factors. -/
theorem codings_complete_iff {absorbed : Bool} {terms : List Term} (h : Spec.Terms absorbed terms) {t : Term} (ht : t ∈ Spec.designed absorbed terms) :
    (∀ k ∈ codings (Spec.designed absorbed terms) t, k.map Prod.fst = categories t) ↔ Spec.Nested absorbed terms t := by
  constructor
  · intro hk
    obtain ⟨used, h1, h2, h3⟩ := codings_eq h ht
    rw [h1, pickContrasts] at hk
    obtain ⟨own, hown, hmem⟩ := nested_of_complete (nodup_categories ((designed_terms h).1 t ht)) List.filter_sublist h3 hk
    refine ⟨own, hown, ?_⟩
    intro u hu
    obtain ⟨f1, f2⟩ := filter_sameSet hu
    have hiff := (h2 ((categories t).filter fun f => decide (f ∈ u))).symm.trans (hmem _)
    have e1 : (∃ s, Spec.CodedBefore absorbed terms s t ∧ (categories t).filter (fun f => decide (f ∈ u)) ⊆ categories s) ↔
        ∃ s, Spec.CodedBefore absorbed terms s t ∧ u ⊆ categories s :=
      exists_congr fun s => and_congr_right fun _ => ⟨fun hh f hf => hh ((f2 f).2 hf), fun hh f hf => hh ((f2 f).1 hf)⟩
    have e2 : own ⊆ (categories t).filter (fun f => decide (f ∈ u)) ↔ own ⊆ u :=
      ⟨fun hh f hf => (f2 f).1 (hh hf), fun hh f hf => (f2 f).2 (hh hf)⟩
    rw [e1, e2] at hiff
    constructor
    · intro hs ho
      exact (hiff.2 ⟨f1, ho⟩).2 hs
    · intro ho
      by_contra hs
      exact ho (hiff.1 ⟨f1, hs⟩).2
  · rintro ⟨own, hown, hnested⟩ k hk
    rw [codings_nested h ht hown hnested, List.mem_singleton] at hk
    rw [hk, List.map_map]
    simp [Function.comp_def]

theorem column_complete {absorbed : Bool} {terms : List Term} (h : Spec.Terms absorbed terms) {levels : Name → List L} {c : Column}
    (hc : c ∈ columns absorbed terms levels) (ht : Spec.Nested absorbed terms c.term) : Complete c := by
  have hin : c.term ∈ Spec.designed absorbed terms := by
    have := (column_valid hc).1
    unfold Spec.designed
    split_ifs
    · exact List.mem_cons_of_mem _ this
    · exact this
  simp only [columns, termColumns, List.mem_flatMap, List.mem_map] at hc
  obtain ⟨t, -, k, hk, j, hj, rfl⟩ := hc
  rw [Complete, (combinations_valid hj).1]
  exact (codings_complete_iff h hin).2 ht k hk

/-! ### The property -/

theorem data_change {repr : L → List Char} {levels : Name → List L} {row : Row L} (hd : Spec.Data repr levels row) (v : Name) (w : ℝ) :
    Spec.Data repr levels (Spec.change row v w) := ⟨hd.once, hd.listed, hd.written⟩

theorem change_self (row : Row L) (v : Name) : Spec.change row v (row.value v) = row := by
  simp [Spec.change]

/-- **C100** (changed variables). For every formula, data and column: after any change of a numeric variable, such as prices, the expression
that was kept for a column evaluates to the column that the formula would have designed with the changed data. This needs that no categorical
variable of its term is in another of its factors, and that its term is nested in those that are coded before it, such as when it is included with
all lower-order terms or without any, see `C100_nested`. `C100_refuted` and `C100_refuted_twice` are formulas without, and by `C100_exactly` the second
condition is needed for all formulas. -/
theorem C100_override_partial {repr : L → List Char} {levels : Name → List L} {row : Row L} (hd : Spec.Data repr levels row) {absorbed : Bool}
    {terms : List Term} (hterms : Spec.Terms absorbed terms) (hnamed : Spec.Named terms) {c : Column} (hc : c ∈ columns absorbed terms levels)
    (hs : Spec.Separate c.term) (hh : Spec.Nested absorbed terms c.term) {v : Name} (hv : '[' ∉ v)
    (hcat : ∀ f ∈ categories c.term, f.2 ≠ v) (w : ℝ) :
    evaluate (columnExpression repr levels c) (underlying repr levels terms row) (some (v, w)) = matrixEntry levels (Spec.change row v w) c := by
  rw [C100_matrix (data_change hd v w) hc]
  exact evaluate_columnExpression hd hnamed hc hs (column_complete hterms hc hh) hv hcat w

/-- **C100** (unchanged data). Under the same conditions, the expression that was kept for a column evaluates to the column. -/
theorem C100_evaluate_partial {repr : L → List Char} {levels : Name → List L} {row : Row L} (hd : Spec.Data repr levels row) {absorbed : Bool}
    {terms : List Term} (hterms : Spec.Terms absorbed terms) (hnamed : Spec.Named terms) {c : Column} (hc : c ∈ columns absorbed terms levels)
    (hs : Spec.Separate c.term) (hh : Spec.Nested absorbed terms c.term) :
    evaluate (columnExpression repr levels c) (underlying repr levels terms row) none = matrixEntry levels row c := by
  -- change a variable that is not in the term to its own value
  obtain ⟨v, hv, hcat⟩ : ∃ v : Name, '[' ∉ v ∧ ∀ f ∈ categories c.term, f.2 ≠ v := by
    refine ⟨List.replicate (((categories c.term).map fun f => f.2.length).sum + 1) 'x', by simp [List.mem_replicate], ?_⟩
    intro f hf h
    have h1 := congrArg List.length h
    rw [List.length_replicate] at h1
    have h2 : f.2.length ≤ ((categories c.term).map fun f => f.2.length).sum := List.single_le_sum (by simp) _ (List.mem_map_of_mem hf)
    omega
  have h := C100_override_partial hd hterms hnamed hc hs hh hv hcat (row.value v)
  rw [change_self] at h
  rw [← h, evaluate, evaluate, override_some]
  congr 1
  funext n
  simp only [override, Function.update_apply]
  split_ifs with hn
  · rw [hn, underlying_variable _ _ _ _ hv]
  · rfl

/-- **C100** (derivatives). Under the same conditions, and where the formula is differentiable, the derivative that is evaluated for a column is
the derivative of the column with respect to the variable, and the derivative of each order is that of the order before. -/
theorem C100_derivative_partial {repr : L → List Char} {levels : Name → List L} {row : Row L} (hd : Spec.Data repr levels row) {absorbed : Bool}
    {terms : List Term} (hterms : Spec.Terms absorbed terms) (hnamed : Spec.Named terms) {c : Column} (hc : c ∈ columns absorbed terms levels)
    (hs : Spec.Separate c.term) (hh : Spec.Nested absorbed terms c.term) {v : Name} (hv : '[' ∉ v)
    (hcat : ∀ f ∈ categories c.term, f.2 ≠ v) (hdefined : ∀ e ∈ numerics c.term, Spec.Defined row.value e) :
    HasDerivAt (fun w => matrixEntry levels (Spec.change row v w) c)
        (evaluateDerivative (columnExpression repr levels c) v (underlying repr levels terms row) none 1) (row.value v) ∧
      ∀ order, HasDerivAt (fun w => evaluateDerivative (columnExpression repr levels c) v (underlying repr levels terms row) (some (v, w)) order)
        (evaluateDerivative (columnExpression repr levels c) v (underlying repr levels terms row) none (order + 1)) (row.value v) := by
  have hdef := defined_columnExpression (repr := repr) (row := row) hnamed hc hs (column_complete hterms hc hh) hdefined
  have hval := underlying_variable repr levels terms row hv
  have hn : override (underlying repr levels terms row) none = underlying repr levels terms row := rfl
  have hall : ∀ order, HasDerivAt
      (fun w => evaluateDerivative (columnExpression repr levels c) v (underlying repr levels terms row) (some (v, w)) order)
      (evaluateDerivative (columnExpression repr levels c) v (underlying repr levels terms row) none (order + 1)) (row.value v) := by
    intro order
    have hd' : Spec.Defined (underlying repr levels terms row) (derivative (columnExpression repr levels c) v order) := by
      induction order with
      | zero => exact hdef
      | succ order ih => rw [derivative, Function.iterate_succ_apply']; exact defined_diff ih
    have := hasDerivAt_eval (v := v) hd'
    rw [hval] at this
    simp only [evaluateDerivative, evaluate, override_some, hn]
    rw [derivative, derivative, Function.iterate_succ_apply']
    exact this
  refine ⟨?_, hall⟩
  have h0 := hall 0
  have e : (fun w => matrixEntry levels (Spec.change row v w) c) =
      fun w => evaluateDerivative (columnExpression repr levels c) v (underlying repr levels terms row) (some (v, w)) 0 := by
    funext w
    exact (C100_override_partial hd hterms hnamed hc hs hh hv hcat w).symm
  rw [e]
  exact h0

/-- A column in whose names a variable is not does not depend on it. -/
theorem matrixEntry_change {levels : Name → List L} (row : Row L) {c : Column} {v : Name} (hv : v ∉ columnNames c) (w : ℝ) :
    matrixEntry levels (Spec.change row v w) c = matrixEntry levels row c := by
  have : ((numerics c.term).map fun e => e.eval (Spec.change row v w).value) = (numerics c.term).map fun e => e.eval row.value := by
    apply List.map_congr_left
    intro e he
    apply eval_congr
    intro x hx
    have hne : x ≠ v := by
      rintro rfl
      exact hv ((symbols_termExpression c.term x).2 (Or.inl ⟨e, he, hx⟩))
    simp [Spec.change, Function.update_of_ne hne]
  rw [matrixEntry, matrixEntry, this]
  rfl

/-- **C100** (mean utilities). Under the same conditions for all columns of a formula, when a variable changes, mean utilities change by the
change of the matrix that the formula designs times the linear parameters. -/
theorem C100_delta_partial {repr : L → List Char} {levels : Name → List L} {row : Row L} (hd : Spec.Data repr levels row) {absorbed : Bool}
    {terms : List Term} (hterms : Spec.Terms absorbed terms) (hnamed : Spec.Named terms) (hs : ∀ t ∈ terms, Spec.Separate t)
    (hh : ∀ t ∈ terms, Spec.Nested absorbed terms t) {v : Name} (hv : '[' ∉ v) (hcat : ∀ t ∈ terms, ∀ f ∈ categories t, f.2 ≠ v) (w : ℝ)
    (delta : ℝ) (beta : List ℝ) :
    updatedDelta delta ((columns absorbed terms levels).map fun c => (columnExpression repr levels c, columnNames c)) beta
        (underlying repr levels terms row) v w =
      delta + (((columns absorbed terms levels).zip beta).map fun p => p.2 * matrixEntry levels (Spec.change row v w) p.1).sum -
        (((columns absorbed terms levels).zip beta).map fun p => p.2 * matrixEntry levels row p.1).sum := by
  have key : ∀ (l : List Column), (∀ c ∈ l, c ∈ columns absorbed terms levels) → ∀ beta : List ℝ,
      (((l.map fun c => (columnExpression repr levels c, columnNames c)).zip beta).map fun p => if v ∈ p.1.2 then
        p.2 * (evaluate p.1.1 (underlying repr levels terms row) (some (v, w)) - evaluate p.1.1 (underlying repr levels terms row) none) else 0).sum =
      ((l.zip beta).map fun p => p.2 * matrixEntry levels (Spec.change row v w) p.1).sum -
        ((l.zip beta).map fun p => p.2 * matrixEntry levels row p.1).sum := by
    intro l
    induction l with
    | nil => intro _ beta; simp
    | cons c l ih =>
      intro hl beta
      cases beta with
      | nil => simp
      | cons b beta =>
        have hc := hl c (List.mem_cons_self ..)
        have hterm := (column_valid hc).1
        simp only [List.map_cons, List.zip_cons_cons, List.sum_cons]
        rw [ih (fun c' hc' => hl c' (List.mem_cons_of_mem _ hc')) beta]
        by_cases hin : v ∈ columnNames c
        · rw [if_pos hin, C100_override_partial hd hterms hnamed hc (hs _ hterm) (hh _ hterm) hv (hcat _ hterm) w,
            C100_evaluate_partial hd hterms hnamed hc (hs _ hterm) (hh _ hterm)]
          ring
        · rw [if_neg hin, matrixEntry_change row hin w]
          ring
  rw [updatedDelta, key _ (fun c hc => hc) beta]
  ring

/-- **C100** (histories). Derivatives are kept once computed. After any calls, the next call returns the same derivative as the first would
have. -/
theorem C100_cache (e : Expr) (calls : List (Name × ℕ)) (v : Name) (order : ℕ) :
    (differentiate e (calls.foldl (fun cache p => (differentiate e cache p.1 p.2).1) fun _ => none) v order).2 = (Expr.diff v)^[order] e := by
  have hinv : ∀ (calls : List (Name × ℕ)) (cache : Name × ℕ → Option Expr), (∀ p d, cache p = some d → d = derivative e p.1 p.2) →
      ∀ p d, (calls.foldl (fun cache p => (differentiate e cache p.1 p.2).1) cache) p = some d → d = derivative e p.1 p.2 := by
    intro calls
    induction calls with
    | nil => intro cache h; exact h
    | cons q calls ih =>
      intro cache h
      refine ih _ ?_
      intro p d hp
      unfold differentiate at hp
      dsimp only at hp
      cases hq : cache (q.1, q.2) with
      | some d' => rw [hq] at hp; exact h p d hp
      | none =>
        rw [hq] at hp
        simp only [Function.update_apply] at hp
        split_ifs at hp with hpq
        · subst hpq
          simpa using hp.symm
        · exact h p d hp
  unfold differentiate
  split
  · rename_i d hd
    exact hinv calls _ (by simp) _ d hd
  · rfl

/-- Codings have factors of the subsets that they are picked for. -/
theorem simplify_factors : ∀ (n : ℕ) (l : List Coding) (k : Coding), k ∈ simplify n l → ∃ k' ∈ l, k.map Prod.fst = k'.map Prod.fst := by
  intro n
  induction n with
  | zero => exact fun l k hk => ⟨k, hk, rfl⟩
  | succ n ih =>
    intro l k hk
    rw [simplify] at hk
    cases h : simplifyOne l with
    | none => rw [h] at hk; exact ⟨k, hk, rfl⟩
    | some l' =>
      rw [h] at hk
      obtain ⟨k1, hk1, e1⟩ := ih l' k hk
      rw [← List.map_id l] at h
      obtain ⟨A, T, B, S, C, h1, rfl, -, -, -⟩ := simplifyOne_some h
      simp only [List.map_id, id_eq, List.mem_append, List.mem_cons] at hk1
      rcases hk1 with h2 | h2 | h2 | h2
      · exact ⟨k1, by rw [h1]; simp [h2], e1⟩
      · exact ⟨k1, by rw [h1]; simp [h2], e1⟩
      · refine ⟨S, by rw [h1]; simp, ?_⟩
        rw [e1, h2, absorb, List.map_map]
        refine List.map_congr_left fun f _ => ?_
        rw [Function.comp_apply]
        split_ifs <;> rfl
      · exact ⟨k1, by rw [h1]; simp [h2], e1⟩

theorem combinations_exist {levels : Name → List L} (hlevels : ∀ x, 2 ≤ (levels x).length) (k : Coding) : ∃ j, j ∈ combinations levels k := by
  induction k with
  | nil => exact ⟨[], by simp [combinations]⟩
  | cons f k ih =>
    obtain ⟨f, full⟩ := f
    obtain ⟨j, hj⟩ := ih
    refine ⟨(f, full, 0) :: j, ?_⟩
    simp only [combinations, List.mem_flatMap, List.mem_map, List.mem_range]
    refine ⟨j, hj, 0, ?_, rfl⟩
    have := hlevels f.2
    cases full
    · simp only [codedLevels, Bool.false_eq_true, if_false, List.length_tail]; omega
    · simp only [codedLevels, if_true]; omega

/-- **C100** (exactly when). A term whose categorical variables are in no other of its factors and have at least two levels each, and whose
numeric factors are not always zero: the expressions of all of its columns evaluate to the columns, for all data, exactly if the term is nested in
the terms that are coded before it. So `C100_refuted` is an instance of a general failure, and `C100_override_partial` and the theorems after it
have no needless conditions on interactions. -/
theorem C100_exactly {repr : L → List Char} (hrepr : Function.Injective repr) {levels : Name → List L}
    (hlevels : ∀ x, (levels x).Nodup ∧ 2 ≤ (levels x).length) {absorbed : Bool} {terms : List Term} (hterms : Spec.Terms absorbed terms)
    (hnamed : Spec.Named terms) {t : Term} (ht : t ∈ terms) (hs : Spec.Separate t) {value : Name → ℝ} (hvalue : ∀ e ∈ numerics t, e.eval value ≠ 0) :
    (∀ c ∈ columns absorbed terms levels, c.term = t → ∀ row, Spec.Data repr levels row →
      evaluate (columnExpression repr levels c) (underlying repr levels terms row) none = matrixEntry levels row c) ↔
      Spec.Nested absorbed terms t := by
  constructor
  swap
  · rintro hh c hc rfl row hd
    exact C100_evaluate_partial hd hterms hnamed hc hs hh
  intro heq
  have hin : t ∈ Spec.designed absorbed terms := by
    unfold Spec.designed
    split_ifs
    · exact List.mem_cons_of_mem _ ht
    · exact ht
  have hnd : (categories t).Nodup := hs.1.of_map
  rw [← codings_complete_iff hterms hin]
  intro k hk
  by_contra hne
  -- a categorical factor that is not coded
  obtain ⟨used, hused, -, -⟩ := codings_eq hterms hin
  have hsub : (k.map Prod.fst).Sublist (categories t) := by
    have hk' := hk
    rw [hused, pickContrasts] at hk'
    obtain ⟨k', hk1, e⟩ := simplify_factors _ _ _ hk'
    obtain ⟨u, hu, rfl⟩ := List.mem_map.1 hk1
    rw [e, List.map_map]
    simpa [Function.comp_def] using (mem_unusedSubsets.1 hu).1
  obtain ⟨f, hf, hfk⟩ : ∃ f ∈ categories t, f ∉ k.map Prod.fst := by
    by_contra hall
    push Not at hall
    exact hne (hsub.eq_of_length_le (List.subperm_of_subset hnd hall).length_le)
  obtain ⟨j, hj⟩ := combinations_exist (fun x => (hlevels x).2) k
  have hc : (⟨t, j⟩ : Column) ∈ columns absorbed terms levels := by
    simp only [columns, termColumns, List.mem_flatMap, List.mem_map]
    exact ⟨t, ht, k, hk, j, hj, rfl⟩
  obtain ⟨p, h1, h2, h3, h4⟩ := codedNames_eq repr (column_valid hc).2
  have hjfst : j.map Prod.fst = k.map Prod.fst := (combinations_valid hj).1
  have hpfst : p.map Prod.fst = (k.map Prod.fst).map Prod.snd := by
    rw [h2, ← hjfst, List.map_map]; rfl
  have hpnd : (p.map Prod.fst).Nodup := by
    rw [hpfst]
    exact (hsub.map Prod.snd).nodup hs.1
  have hpcat : ∀ q ∈ p, ∃ g ∈ k.map Prod.fst, g.2 = q.1 := by
    intro q hq
    have : q.1 ∈ (k.map Prod.fst).map Prod.snd := hpfst ▸ List.mem_map_of_mem hq
    exact List.mem_map.1 this
  have hpf : ∀ q ∈ p, q.1 ≠ f.2 := by
    intro q hq hqf
    obtain ⟨g, hg, hgq⟩ := hpcat q hq
    have : g = f := List.inj_on_of_nodup_map hs.1 (hsub.subset hg) hf (hgq.trans hqf)
    exact hfk (this ▸ hg)
  have hlen : ∀ x, 0 < (levels x).length := fun x => by have := (hlevels x).2; omega
  -- data with the levels of the column, in which the categorical variable that is not coded is zero
  let row : Row L := ⟨Function.update value f.2 0, fun x => ((p.find? fun q => decide (q.1 = x)).elim ((levels x)[0]'(hlen x)) fun q => q.2)⟩
  have hlevel : ∀ q ∈ p, row.level q.1 = q.2 := by
    intro q hq
    have hfind : (p.find? fun q' => decide (q'.1 = q.1)) = some q := by
      cases hf : (p.find? fun q' => decide (q'.1 = q.1)) with
      | none =>
        rw [List.find?_eq_none] at hf
        exact absurd (decide_eq_true rfl) (hf q hq)
      | some q' =>
        have a1 := List.find?_some hf
        have a2 := List.mem_of_find?_eq_some hf
        simp only [decide_eq_true_eq] at a1
        rw [List.inj_on_of_nodup_map hpnd a2 hq a1]
    change ((p.find? fun q' => decide (q'.1 = q.1)).elim _ _) = _
    rw [hfind, Option.elim_some]
  have hd : Spec.Data repr levels row := by
    refine ⟨fun x => (hlevels x).1, fun x => ?_, hrepr⟩
    change ((p.find? fun q' => decide (q'.1 = x)).elim _ _) ∈ _
    cases hq : (p.find? fun q' => decide (q'.1 = x)) with
    | none => rw [Option.elim_none]; exact List.getElem_mem _
    | some q =>
      have a1 := List.find?_some hq
      simp only [decide_eq_true_eq] at a1
      rw [Option.elim_some, ← a1]
      exact h3 q (List.mem_of_find?_eq_some hq)
  have hnum : ∀ e ∈ numerics t, e.eval row.value ≠ 0 := by
    intro e he
    have : e.eval row.value = e.eval value := eval_congr fun x hx => Function.update_of_ne (fun h : x = f.2 => hs.2 e he f hf (h ▸ hx)) _ _
    rw [this]
    exact hvalue e he
  have hmatrix : matrixEntry levels row ⟨t, j⟩ ≠ 0 := by
    rw [C100_matrix hd hc, Spec.columnValue, Spec.namedLevels, ← h4, if_pos hlevel]
    rw [Ne, List.prod_eq_zero_iff, List.mem_map]
    rintro ⟨e, he, h0⟩
    exact hnum e he h0
  refine hmatrix ?_
  rw [← heq _ hc rfl row hd, evaluate, columnExpression, h1, eval_replacements repr p (fun q hq => ?_) hpnd, eval_termExpression, prod_factors]
  · refine mul_eq_zero_of_right _ (List.prod_eq_zero (List.mem_map.2 ⟨f, hf, ?_⟩))
    have hfind : (p.find? fun q => decide (q.1 = f.2)) = none := by
      rw [List.find?_eq_none]
      intro q hq
      simpa using hpf q hq
    rw [hfind, Option.elim_none, override, underlying_variable _ _ _ _ ((hnamed t ht).1 f hf)]
    exact Function.update_self _ _ _
  · obtain ⟨g, hg, hgq⟩ := hpcat q hq
    exact hgq ▸ (hnamed t ht).1 g (hsub.subset hg)

/-- **C100** (which terms are nested). Terms with at most one categorical factor, terms that are included with all lower-order terms, and terms that are
included without any, with any number of categorical factors, are nested. -/
theorem C100_nested {absorbed : Bool} {terms : List Term} (hterms : Spec.Terms absorbed terms) {t : Term} (ht : t ∈ terms)
    (hh : Spec.Hierarchical absorbed terms t) : Spec.Nested absorbed terms t := by
  obtain ⟨honce, hdistinct⟩ := designed_terms hterms
  have hin : t ∈ Spec.designed absorbed terms := by
    unfold Spec.designed
    split_ifs
    · exact List.mem_cons_of_mem _ ht
    · exact ht
  obtain ⟨used, -, hunused, hfull⟩ := codings_eq hterms hin
  have hfull : ¬ ∃ s, Spec.CodedBefore absorbed terms s t ∧ categories t ⊆ categories s := ((hunused _).1 hfull).2
  have hsuper : ∀ u, categories t ⊆ u → ¬ ∃ s, Spec.CodedBefore absorbed terms s t ∧ u ⊆ categories s := by
    rintro u hu ⟨s, hs, hus⟩
    exact hfull ⟨s, hs, fun f hf => hus (hu hf)⟩
  rcases hh with hlen | hier | honly
  · by_cases hex : ∃ s, Spec.CodedBefore absorbed terms s t
    · refine ⟨categories t, List.Subset.refl _, fun u hu => ⟨fun hs hsub => hsuper u hsub hs, fun hsub => ?_⟩⟩
      obtain ⟨s, hs⟩ := hex
      refine ⟨s, hs, fun f hf => absurd (fun g hg => ?_) hsub⟩
      have hlen1 : (categories t).length = 1 := by
        have := List.length_pos_of_mem (hu hf)
        omega
      obtain ⟨a, ha⟩ := List.length_eq_one_iff.1 hlen1
      have h1 : f = a := by simpa [ha] using hu hf
      have h2 : g = a := by simpa [ha] using hg
      rw [h2, ← h1]
      exact hf
    · refine ⟨[], List.nil_subset _, fun u _ => ⟨fun ⟨s, hs, _⟩ => absurd ⟨s, hs⟩ hex, fun h => absurd (List.nil_subset _) h⟩⟩
  · refine ⟨categories t, List.Subset.refl _, fun u hu => ⟨fun hs hsub => hsuper u hsub hs, fun hsub => ?_⟩⟩
    obtain ⟨f1, f2⟩ := filter_sameSet hu
    have hne : (categories t).filter (fun f => decide (f ∈ u)) ≠ categories t := by
      intro hh
      exact hsub fun f hf => (f2 f).1 (by rw [hh]; exact hf)
    obtain ⟨s, hs, hsn, e1, e2⟩ := hier _ f1 hne
    refine ⟨s, ⟨hs, hsn, Or.inl ?_⟩, fun f hf => e1 ((f2 f).2 hf)⟩
    have h7 : (numerics s).length ≤ (numerics t).length := (List.subperm_of_subset (nodup_numerics (honce s hs)) hsn.1).length_le
    have h8 := (List.subperm_of_subset (nodup_categories (honce s hs)) e2).length_le
    have h9 := f1.length_le
    have h10 : ((categories t).filter fun f => decide (f ∈ u)).length ≠ (categories t).length := fun hh => hne (f1.eq_of_length_le hh.ge)
    rw [length_term, length_term]
    omega
  · refine ⟨[], List.nil_subset _, fun u _ => ⟨?_, fun h => absurd (List.nil_subset _) h⟩⟩
    rintro ⟨s, ⟨hs, hsn, hbefore⟩, -⟩
    have hst := honly s hs hsn
    subst hst
    rcases hbefore with h | ⟨-, h⟩
    · omega
    · have := h.nodup (nodup_of_distinct hdistinct)
      simp at this

/-! ### Witnesses -/

/-- The formula `prices + log(size) + prices:C(region)`. -/
def hierarchicalTerms : List Term :=
  [[.numeric (.sym "prices".toList)], [.numeric (.log (.sym "size".toList))],
    [.numeric (.sym "prices".toList), .categorical true "region".toList]]

/-- Two levels. -/
def twoLevels : Name → List ℕ := fun _ => [1, 2]

/-- How levels are written. -/
def unary (n : ℕ) : List Char := List.replicate n '1'

/-- Levels and values of the witness are all two. -/
noncomputable def twoRow : Row ℕ := ⟨fun _ => 2, fun _ => 2⟩

theorem twoData : Spec.Data unary twoLevels twoRow :=
  ⟨fun _ => by simp [twoLevels], fun _ => by simp [twoLevels, twoRow], fun a b h => by simpa [unary] using congrArg List.length h⟩

example : Spec.Terms false hierarchicalTerms := ⟨by decide, by decide, by decide⟩
example : Spec.Named hierarchicalTerms := by unfold Spec.Named; decide
example : ∀ t ∈ hierarchicalTerms, Spec.Separate t := by unfold Spec.Separate; decide
example : ∀ t ∈ hierarchicalTerms, Spec.Nested false hierarchicalTerms t := fun t ht =>
  C100_nested ⟨by decide, by decide, by decide⟩ ht (Or.inl (by revert t; decide))
example : ((columns false hierarchicalTerms twoLevels).map fun c => c.coded) =
    [[], [], [((true, "region".toList), false, 0)]] := by decide

/-- The formula `prices:C(region):C(year):C(size)`, with three categorical factors and no lower-order terms. -/
def aloneTerms : List Term :=
  [[.numeric (.sym "prices".toList), .categorical true "region".toList, .categorical true "year".toList, .categorical true "size".toList]]

example : Spec.Terms false aloneTerms := ⟨by decide, by decide, by decide⟩
example : Spec.Named aloneTerms := by unfold Spec.Named; decide
example : ∀ t ∈ aloneTerms, Spec.Separate t := by unfold Spec.Separate; decide
example : ∀ t ∈ aloneTerms, Spec.Nested false aloneTerms t := fun t ht =>
  C100_nested ⟨by decide, by decide, by decide⟩ ht (Or.inr (Or.inr fun s hs _ => by
    exact (List.mem_singleton.1 (show s ∈ aloneTerms from hs)).trans (List.mem_singleton.1 ht).symm))

/-- The formula `0 + C(region) + C(region):C(year)`, with years within regions. -/
def withinTerms : List Term :=
  [[.categorical true "region".toList], [.categorical true "region".toList, .categorical true "year".toList]]

example : Spec.Terms false withinTerms := ⟨by decide, by decide, by decide⟩
example : Spec.Nested false withinTerms [.categorical true "region".toList, .categorical true "year".toList] := by
  refine ⟨[(true, "year".toList)], by decide, fun u hu => ⟨?_, fun hown => ?_⟩⟩
  · rintro ⟨s, ⟨hs, -, hbefore⟩, hus⟩ hown
    have hs' : s ∈ withinTerms := hs
    rcases List.mem_cons.1 hs' with rfl | hs'
    · exact absurd (hus (hown (List.mem_singleton.2 rfl))) (by decide)
    · rw [List.mem_singleton] at hs'
      subst hs'
      rcases hbefore with h | ⟨-, h⟩
      · exact absurd h (by decide)
      · exact absurd (h.nodup (by decide)) (by simp)
  · refine ⟨[.categorical true "region".toList], ⟨by decide, ⟨by decide, by decide⟩, Or.inl (by decide)⟩, fun f hf => ?_⟩
    rcases List.mem_cons.1 (hu hf) with h | h
    · exact h ▸ by decide
    · exact absurd (List.cons_subset.2 ⟨(List.mem_singleton.1 h) ▸ hf, List.nil_subset _⟩) hown
example : (columns false withinTerms twoLevels).map (fun c => c.coded) =
    [[((true, "region".toList), true, 0)], [((true, "region".toList), true, 1)],
      [((true, "region".toList), true, 0), ((true, "year".toList), false, 0)],
      [((true, "region".toList), true, 1), ((true, "year".toList), false, 0)]] := by decide

/-- The formula `1 + prices + prices:C(region):C(year)`. -/
def refutedTerms : List Term :=
  [[], [.numeric (.sym "prices".toList)],
    [.numeric (.sym "prices".toList), .categorical true "region".toList, .categorical true "year".toList]]

/-- The column `prices:C(year)[2]`. -/
def refutedColumn : Column := ⟨[.numeric (.sym "prices".toList), .categorical true "region".toList, .categorical true "year".toList],
  [((true, "year".toList), false, 0)]⟩

theorem refutedExpression : columnExpression unary twoLevels refutedColumn =
    .mul (.mul (.mul (.num 1) (.sym "prices".toList)) (.sym "region".toList)) (.sym (indicatorName unary "year".toList 2)) := by decide

theorem refutedNamed : Spec.Named refutedTerms := by unfold Spec.Named; decide

theorem refutedUnderlying : underlying unary twoLevels refutedTerms twoRow "region".toList = 2 ∧
    underlying unary twoLevels refutedTerms twoRow (indicatorName unary "year".toList 2) = 1 := by
  refine ⟨underlying_variable _ _ _ _ (by decide), ?_⟩
  have := underlying_indicator (row := twoRow) (levels := twoLevels) twoData.written refutedNamed (t := refutedColumn.term) (by decide)
    (f := (true, "year".toList)) (by decide) (l := 2) (by decide)
  exact this.trans (if_pos (show twoRow.level _ = 2 from rfl))

/-- **C100** fails for interactions without lower-order terms. In the formula `1 + prices + prices:C(region):C(year)`, Patsy codes the last term
into columns for years, `prices:C(year)[2]`, and into columns for regions and years. PyBLP replaces only variables that are in the name of a
column by indicators, so the region, which is a number that stands for a category, is left in the expression of the first. The column is the
price of products in year 2, but its expression is that price times the number of the region: its value, which is used when prices change or when fixed effects are
absorbed, and its derivative, which elasticities and markups are made of, are twice what they should be in region 2. With names of regions that
are not numbers, the data cannot be structured and an exception is raised instead. -/
theorem C100_refuted :
    ∃ (terms : List Term) (c : Column), Spec.Terms false terms ∧ Spec.Named terms ∧ (∀ t ∈ terms, Spec.Separate t) ∧
      c ∈ columns false terms twoLevels ∧ (∀ w, matrixEntry twoLevels (Spec.change twoRow "prices".toList w) c = w) ∧
      (∀ w, evaluate (columnExpression unary twoLevels c) (underlying unary twoLevels terms twoRow) (some ("prices".toList, w)) = w * 2) ∧
      evaluateDerivative (columnExpression unary twoLevels c) "prices".toList (underlying unary twoLevels terms twoRow) none 1 = 2 := by
  refine ⟨refutedTerms, refutedColumn, ⟨by decide, by decide, by decide⟩, by unfold Spec.Named; decide, by unfold Spec.Separate; decide, ?_, ?_, ?_, ?_⟩
  · exact List.mem_of_getElem? (i := 2) rfl
  · intro w
    simp [matrixEntry, refutedColumn, numerics, Spec.change, Expr.eval, contrast, twoLevels, twoRow]
  · intro w
    rw [refutedExpression, evaluate, override_some]
    simp only [Expr.eval, Function.update_self]
    rw [Function.update_of_ne (by decide), Function.update_of_ne (by decide), refutedUnderlying.1, refutedUnderlying.2]
    norm_num
  · have h : derivative (columnExpression unary twoLevels refutedColumn) "prices".toList 1 =
        .add (.mul (.add (.mul (.add (.mul (.num 0) (.sym "prices".toList)) (.mul (.num 1) (.num 1))) (.sym "region".toList))
          (.mul (.mul (.num 1) (.sym "prices".toList)) (.num 0))) (.sym (indicatorName unary "year".toList 2)))
          (.mul (.mul (.mul (.num 1) (.sym "prices".toList)) (.sym "region".toList)) (.num 0)) := by decide
    rw [evaluateDerivative, h, evaluate]
    simp only [Expr.eval, override]
    rw [refutedUnderlying.1, refutedUnderlying.2]
    norm_num

/-- The formula `size:C(size)`. -/
def twiceTerms : List Term := [[.numeric (.sym "size".toList), .categorical true "size".toList]]

/-- The column `size:C(size)[2]`. -/
def twiceColumn : Column := ⟨[.numeric (.sym "size".toList), .categorical true "size".toList], [((true, "size".toList), true, 1)]⟩

/-- **C100** fails for a variable that is both numeric and categorical in a term. In the formula `size:C(size)`, both are replaced by indicators,
so the expression of the column for size 2 is 1 where the column is 2. -/
theorem C100_refuted_twice :
    ∃ (terms : List Term) (c : Column), Spec.Terms false terms ∧ Spec.Named terms ∧ (∀ t ∈ terms, Spec.Nested false terms t) ∧
      c ∈ columns false terms twoLevels ∧ matrixEntry twoLevels twoRow c = 2 ∧
      evaluate (columnExpression unary twoLevels c) (underlying unary twoLevels terms twoRow) none = 1 := by
  have hnamed : Spec.Named twiceTerms := by unfold Spec.Named; decide
  refine ⟨twiceTerms, twiceColumn, ⟨by decide, by decide, by decide⟩, hnamed,
    fun t ht => C100_nested ⟨by decide, by decide, by decide⟩ ht (Or.inl (by revert t; decide)),
    List.mem_of_getElem? (i := 1) rfl, ?_, ?_⟩
  · simp [matrixEntry, twiceColumn, numerics, Expr.eval, contrast, twoLevels, twoRow]
  · have h : columnExpression unary twoLevels twiceColumn =
        .mul (.mul (.num 1) (.sym (indicatorName unary "size".toList 2))) (.sym (indicatorName unary "size".toList 2)) := by decide
    have hu := underlying_indicator (row := twoRow) (levels := twoLevels) twoData.written hnamed (t := twiceColumn.term) (by decide)
      (f := (true, "size".toList)) (by decide) (l := 2) (by decide)
    rw [if_pos (show twoRow.level _ = 2 from rfl)] at hu
    rw [h, evaluate]
    simp only [Expr.eval, override]
    rw [hu]
    norm_num

end Formula
end Pyblp
