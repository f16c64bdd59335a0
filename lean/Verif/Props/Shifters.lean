import Verif.Model.Shifters
import Verif.Props.OptimalProblem

/-!
# C153: shifters in problems with optimal instruments
-/

set_option linter.unusedSectionVars false

namespace Pyblp

namespace Formula

namespace Spec

/-- Terms are the same characteristic if they have the same factors: order does not matter for a product. -/
def SameTerm (t u : List NamedFactor) : Prop := ∀ n, n ∈ t.map NamedFactor.code ↔ n ∈ u.map NamedFactor.code

/-- A term that does not depend on a variable. -/
def Without (x : Name) (t : List NamedFactor) : Prop := ∀ f ∈ t, x ∉ f.expr.symbols

/-- What the documentation says shifters are: characteristics on one side, without the intercept, that are exogenous there and are not exogenous
characteristics on the other side. -/
def Shifter (endogenous : Name) (own : List (List NamedFactor)) (otherEndogenous : Name) (other : List (List NamedFactor)) (t : List NamedFactor) : Prop :=
  t ∈ own ∧ t ≠ [] ∧ Without endogenous t ∧ ∀ u ∈ other, Without otherEndogenous u → ¬SameTerm t u

/-- Codes of factors have no colons, and no term has the name of the intercept. -/
def Readable (t : List NamedFactor) : Prop :=
  (∀ f ∈ t, ':' ∉ f.code) ∧ [':'].intercalate (t.map NamedFactor.code) ≠ ['I', 'n', 't', 'e', 'r', 'c', 'e', 'p', 't']

end Spec

/-! ## Names of terms -/

lemma colon_split {a a' x y : Name} (ha : ':' ∉ a) (ha' : ':' ∉ a') (h : a ++ ':' :: x = a' ++ ':' :: y) : a = a' ∧ x = y := by
  induction a generalizing a' with
  | nil =>
    cases a' with
    | nil => simpa using h
    | cons c a' =>
      simp only [List.nil_append, List.cons_append, List.cons.injEq] at h
      exact absurd (by rw [← h.1]; exact List.mem_cons_self) ha'
  | cons b a ih =>
    cases a' with
    | nil =>
      simp only [List.nil_append, List.cons_append, List.cons.injEq] at h
      exact absurd (by simp [h.1]) ha
    | cons c a' =>
      simp only [List.cons_append, List.cons.injEq] at h
      obtain ⟨h1, h2⟩ := ih (fun hm => ha (List.mem_cons_of_mem _ hm)) (fun hm => ha' (List.mem_cons_of_mem _ hm)) h.2
      exact ⟨by rw [h.1, h1], h2⟩

lemma intercalate_cons₂ (a b : Name) (l : List Name) : [':'].intercalate (a :: b :: l) = a ++ ':' :: [':'].intercalate (b :: l) := by
  simp [List.intercalate, List.intersperse]

lemma intercalate_injective {l l' : List Name} (hl : ∀ a ∈ l, ':' ∉ a) (hl' : ∀ a ∈ l', ':' ∉ a) (hne : l ≠ []) (hne' : l' ≠ [])
    (h : [':'].intercalate l = [':'].intercalate l') : l = l' := by
  induction l generalizing l' with
  | nil => exact absurd rfl hne
  | cons a l ih =>
    cases l' with
    | nil => exact absurd rfl hne'
    | cons a' l' =>
      have ha := hl a (by simp)
      have ha' := hl' a' (by simp)
      cases l with
      | nil =>
        cases l' with
        | nil => simpa [List.intercalate] using h
        | cons b' l' =>
          rw [intercalate_cons₂] at h
          simp only [List.intercalate, List.intersperse, List.flatten_cons, List.flatten_nil, List.append_nil] at h
          exact absurd (by rw [h]; simp) ha
      | cons b l =>
        cases l' with
        | nil =>
          rw [intercalate_cons₂] at h
          simp only [List.intercalate, List.intersperse, List.flatten_cons, List.flatten_nil, List.append_nil] at h
          exact absurd (by rw [← h]; simp) ha'
        | cons b' l' =>
          rw [intercalate_cons₂, intercalate_cons₂] at h
          obtain ⟨h1, h2⟩ := colon_split ha ha' h
          rw [h1, ih (fun x hx => hl x (List.mem_cons_of_mem _ hx)) (fun x hx => hl' x (List.mem_cons_of_mem _ hx)) (by simp) (by simp) h2]

lemma termName_intercept {t : List NamedFactor} (ht : Spec.Readable t) : termName t = ['I', 'n', 't', 'e', 'r', 'c', 'e', 'p', 't'] ↔ t = [] := by
  unfold termName
  constructor
  · intro h
    by_contra hne
    rw [if_neg hne] at h
    exact ht.2 h
  · intro h
    rw [if_pos h]

lemma termName_same {t u : List NamedFactor} (ht : Spec.Readable t) (hu : Spec.Readable u) (hne : t ≠ []) (hne' : u ≠ []) (h : termName t = termName u) :
    t.map NamedFactor.code = u.map NamedFactor.code := by
  unfold termName at h
  rw [if_neg hne, if_neg hne'] at h
  refine intercalate_injective (fun a ha => ?_) (fun a ha => ?_) (by simpa using hne) (by simpa using hne') h
  · obtain ⟨f, hf, rfl⟩ := List.mem_map.mp ha
    exact ht.1 f hf
  · obtain ⟨f, hf, rfl⟩ := List.mem_map.mp ha
    exact hu.1 f hf

lemma without_iff (x : Name) (t : List NamedFactor) : x ∉ termSymbols t ↔ Spec.Without x t := by
  simp only [termSymbols, Spec.Without, List.mem_flatMap, not_exists, not_and]

lemma mem_shifterNames {x : Name} {terms : List (List NamedFactor)} (hr : ∀ t ∈ terms, Spec.Readable t) (n : Name) :
    n ∈ shifterNames x terms ↔ ∃ t ∈ terms, t ≠ [] ∧ Spec.Without x t ∧ termName t = n := by
  simp only [shifterNames, List.mem_map, List.mem_filter, Bool.and_eq_true, decide_eq_true_eq, without_iff]
  constructor
  · rintro ⟨t, ⟨ht, hw, hn⟩, rfl⟩
    exact ⟨t, ht, fun h0 => hn ((termName_intercept (hr t ht)).mpr h0), hw, rfl⟩
  · rintro ⟨t, ht, hne, hw, rfl⟩
    exact ⟨t, ⟨ht, hw, fun h0 => hne ((termName_intercept (hr t ht)).mp h0)⟩, rfl⟩

lemma mem_default (x y : Name) (own other : List (List NamedFactor)) (n : Name) :
    (∃ names, defaultShifters x own y other = some names ∧ n ∈ names) ↔ n ∈ shifterNames x own ∧ n ∉ shifterNames y other := by
  unfold defaultShifters
  set names := (((shifterNames x own).filter fun n => decide (n ∉ shifterNames y other)).dedup).mergeSort fun a b => decide (a ≤ b) with hnames
  have hmem : n ∈ names ↔ n ∈ shifterNames x own ∧ n ∉ shifterNames y other := by
    rw [hnames, List.mem_mergeSort, List.mem_dedup, List.mem_filter, decide_eq_true_eq]
  rw [← hmem]
  constructor
  · rintro ⟨l, hl, hn⟩
    dsimp only at hl
    split_ifs at hl
    cases hl
    exact hn
  · intro hn
    exact ⟨names, if_neg fun h0 => by rw [h0] at hn; simp at hn, hn⟩

/-! ## What shifters are -/

section

variable (x y : Name) (own other : List (List NamedFactor)) (hown : ∀ t ∈ own, Spec.Readable t) (hother : ∀ t ∈ other, Spec.Readable t)

include hown hother

/-- **C153, shifters.** If terms of both sides with the same factors are written in the same order, default shifters are what the documentation says. Missing: terms
that are written in different orders, see `C153_refuted`. -/
theorem C153_shifters_partial (horder : ∀ t ∈ own, ∀ u ∈ other, Spec.SameTerm t u → t.map NamedFactor.code = u.map NamedFactor.code) (n : Name) :
    (∃ names, defaultShifters x own y other = some names ∧ n ∈ names) ↔ ∃ t, Spec.Shifter x own y other t ∧ termName t = n := by
  rw [mem_default, mem_shifterNames hown, mem_shifterNames hother]
  constructor
  · rintro ⟨⟨t, ht, hne, hw, rfl⟩, hno⟩
    refine ⟨t, ⟨ht, hne, hw, fun u hu hwu hs => hno ⟨u, hu, ?_, hwu, ?_⟩⟩, rfl⟩
    · rintro rfl
      have := horder t ht [] hu hs
      exact hne (by simpa using this)
    · have := horder t ht u hu hs
      have hu0 : u ≠ [] := by
        rintro rfl
        exact hne (by simpa using this)
      unfold termName
      rw [if_neg hne, if_neg hu0, this]
  · rintro ⟨t, ⟨ht, hne, hw, hno⟩, rfl⟩
    refine ⟨⟨t, ht, hne, hw, rfl⟩, ?_⟩
    rintro ⟨u, hu, hne', hwu, he⟩
    refine hno u hu hwu fun n => ?_
    rw [termName_same (hown t ht) (hother u hu) hne hne' he.symm]

/-- **C153, shifters.** In any case, all characteristics that the documentation says are shifters are among default shifters. -/
theorem C153_all (t : List NamedFactor) (ht : Spec.Shifter x own y other t) : ∃ names, defaultShifters x own y other = some names ∧ termName t ∈ names := by
  rw [mem_default, mem_shifterNames hown, mem_shifterNames hother]
  obtain ⟨ht, hne, hw, hno⟩ := ht
  refine ⟨⟨t, ht, hne, hw, rfl⟩, ?_⟩
  rintro ⟨u, hu, hne', hwu, he⟩
  refine hno u hu hwu fun n => ?_
  rw [termName_same (hown t ht) (hother u hu) hne hne' he.symm]

omit hother in
/-- **C153, exogeneity.** If terms do not depend on the endogenous variable of the other side either, which is required of formulations, columns of default
shifters depend on neither variable. -/
theorem C153_exogenous {R : Type} (parse : Name → Expr) (hparse : ∀ t ∈ own, ∀ f ∈ t, f.expr = parse f.code) (hacc : ∀ t ∈ own, Spec.Without y t)
    (data data' : ColumnData R) (hsame : ∀ n, n ≠ x → n ≠ y → data n = data' n) :
    shifterColumns data own (defaultShifters x own y other) = shifterColumns data' own (defaultShifters x own y other) := by
  have hcol : ∀ t, Spec.Without x t → Spec.Without y t → termColumn data t = termColumn data' t := fun t hx hy => by
    funext r
    unfold termColumn
    congr 1
    refine List.map_congr_left fun f hf => ?_
    exact congrFun (evaluateColumn_congr (data := data) (data' := data') (e := f.expr) fun n hn =>
      hsame n (fun e => hx f hf (e ▸ hn)) (fun e => hy f hf (e ▸ hn))) r
  cases hd : defaultShifters x own y other with
  | none => rfl
  | some names =>
    unfold shifterColumns
    refine List.filterMap_congr fun n hn => ?_
    cases hf : own.find? fun t => decide (termName t = n) with
    | none => rfl
    | some t =>
      have ht : t ∈ own := List.mem_of_find?_eq_some hf
      have hname : termName t = n := by simpa using List.find?_some hf
      obtain ⟨u, hu, hne, hw, hun⟩ := (mem_shifterNames hown n).mp ((mem_default x y own other n).mp ⟨names, hd, hn⟩).1
      have hne' : t ≠ [] := by
        rintro rfl
        rw [← hun, eq_comm, show termName [] = _ from if_pos rfl] at hname
        exact hne ((termName_intercept (hown u hu)).mp (hname ▸ rfl))
      have hcodes := termName_same (hown t ht) (hown u hu) hne' hne (hname.trans hun.symm)
      have hx : Spec.Without x t := fun f hft => by
        have hm : f.code ∈ u.map NamedFactor.code := hcodes ▸ List.mem_map_of_mem hft
        obtain ⟨g, hg, hgf⟩ := List.mem_map.mp hm
        rw [hparse t ht f hft, ← hgf, ← hparse u hu g hg]
        exact hw g hg
      simp only [Option.map_some, hcol t hx (hacc t ht)]

omit hown hother in
/-- **C153, names.** No name is listed twice. -/
theorem C153_distinct (names : List Name) (h : defaultShifters x own y other = some names) : names.Nodup ∧ names ≠ [] := by
  unfold defaultShifters at h
  dsimp only at h
  split_ifs at h with h0
  cases h
  exact ⟨(List.mergeSort_perm _ _).nodup_iff.mpr (List.nodup_dedup _), h0⟩

end

section

variable (X1 X3 : List (List NamedFactor)) (h1 : ∀ t ∈ X1, Spec.Readable t) (h3 : ∀ t ∈ X3, Spec.Readable t)

include h1 h3

/-- **C153, supply shifters.** Default supply shifters are terms of X3 without shares, except for the intercept, that are not terms of X1 without prices. Missing: terms
that are written in different orders, see `C153_refuted`. -/
theorem C153_supply_partial (horder : ∀ t ∈ X3, ∀ u ∈ X1, Spec.SameTerm t u → t.map NamedFactor.code = u.map NamedFactor.code) (n : Name) :
    (∃ names, supplyShifterNames X1 X3 = some names ∧ n ∈ names) ↔ ∃ t ∈ X3, t ≠ [] ∧ Spec.Without "shares".toList t ∧
      (∀ u ∈ X1, Spec.Without "prices".toList u → ¬Spec.SameTerm t u) ∧ termName t = n := by
  have hs : "shares".toList = sharesName := by decide
  have hp : "prices".toList = pricesName := by decide
  rw [hs, hp]
  have h := C153_shifters_partial sharesName pricesName X3 X1 h3 h1 horder n
  unfold supplyShifterNames
  split_ifs with h0
  · simp [h0]
  · rw [h]
    constructor
    · rintro ⟨t, ⟨ht, hne, hw, hno⟩, rfl⟩
      exact ⟨t, ht, hne, hw, hno, rfl⟩
    · rintro ⟨t, ht, hne, hw, hno, rfl⟩
      exact ⟨t, ⟨ht, hne, hw, hno⟩, rfl⟩

/-- **C153, demand shifters.** With a supply side, default demand shifters are terms of X1 without prices, except for the intercept, that are not terms of X3 without
shares. Missing: terms that are written in different orders, see `C153_refuted`. -/
theorem C153_demand_partial (hsupply : X3 ≠ []) (horder : ∀ t ∈ X1, ∀ u ∈ X3, Spec.SameTerm t u → t.map NamedFactor.code = u.map NamedFactor.code)
    (n : Name) :
    (∃ names, demandShifterNames X1 X3 = some names ∧ n ∈ names) ↔ ∃ t ∈ X1, t ≠ [] ∧ Spec.Without "prices".toList t ∧
      (∀ u ∈ X3, Spec.Without "shares".toList u → ¬Spec.SameTerm t u) ∧ termName t = n := by
  have hs : "shares".toList = sharesName := by decide
  have hp : "prices".toList = pricesName := by decide
  rw [hs, hp]
  have h := C153_shifters_partial pricesName sharesName X1 X3 h1 h3 horder n
  unfold demandShifterNames
  rw [if_neg hsupply, h]
  constructor
  · rintro ⟨t, ⟨ht, hne, hw, hno⟩, rfl⟩
    exact ⟨t, ht, hne, hw, hno, rfl⟩
  · rintro ⟨t, ht, hne, hw, hno, rfl⟩
    exact ⟨t, ⟨ht, hne, hw, hno⟩, rfl⟩

/-- **C153, exogeneity.** If X1 has no shares and X3 has no prices, which is required, columns of both kinds of default shifters depend on neither. -/
theorem C153_columns {R : Type} (parse : Name → Expr) (hparse1 : ∀ t ∈ X1, ∀ f ∈ t, f.expr = parse f.code) (hparse3 : ∀ t ∈ X3, ∀ f ∈ t, f.expr = parse f.code)
    (hacc1 : ∀ t ∈ X1, Spec.Without "shares".toList t) (hacc3 : ∀ t ∈ X3, Spec.Without "prices".toList t) (data data' : ColumnData R)
    (hsame : ∀ n, n ≠ "prices".toList → n ≠ "shares".toList → data n = data' n) :
    shifterColumns data X3 (supplyShifterNames X1 X3) = shifterColumns data' X3 (supplyShifterNames X1 X3) ∧
      shifterColumns data X1 (demandShifterNames X1 X3) = shifterColumns data' X1 (demandShifterNames X1 X3) := by
  have hs : "shares".toList = sharesName := by decide
  have hp : "prices".toList = pricesName := by decide
  rw [hs] at hacc1
  rw [hp] at hacc3
  rw [hs, hp] at hsame
  unfold supplyShifterNames demandShifterNames
  split_ifs with h0
  · exact ⟨rfl, rfl⟩
  · exact ⟨C153_exogenous sharesName pricesName X3 X1 h3 parse hparse3 hacc3 data data' fun n a b => hsame n b a,
      C153_exogenous pricesName sharesName X1 X3 h1 parse hparse1 hacc1 data data' fun n a b => hsame n a b⟩

end

/-! ## The negation, for terms in different orders -/

/-- A variable as a factor. -/
def single (n : Name) : NamedFactor := ⟨n, .sym n⟩

/-- **C153, negation.** If X1 has `a:b` and X3 has `b:a`, a characteristic that is the same on both sides is nevertheless a default shifter for both: its columns are
among the instruments twice. -/
theorem C153_refuted :
    let a := single ['a']
    let b := single ['b']
    let X1 := [[single pricesName], [a, b]]
    let X3 := [[b, a]]
    supplyShifterNames X1 X3 = some [['b', ':', 'a']] ∧ demandShifterNames X1 X3 = some [['a', ':', 'b']] ∧ Spec.SameTerm [b, a] [a, b] ∧
      (¬∃ t, Spec.Shifter sharesName X3 pricesName X1 t) ∧
      ∀ (R : Type) (data : ColumnData R), shifterColumns data X3 (supplyShifterNames X1 X3) = [termColumn data [a, b]] := by
  have h1 : supplyShifterNames [[single pricesName], [single ['a'], single ['b']]] [[single ['b'], single ['a']]] = some [['b', ':', 'a']] := by
    simp [supplyShifterNames, defaultShifters, shifterNames, termName, termSymbols, single, Expr.symbols, pricesName, sharesName, List.intercalate]
  have h2 : demandShifterNames [[single pricesName], [single ['a'], single ['b']]] [[single ['b'], single ['a']]] = some [['a', ':', 'b']] := by
    simp [demandShifterNames, defaultShifters, shifterNames, termName, termSymbols, single, Expr.symbols, pricesName, sharesName, List.intercalate]
  have hsame : Spec.SameTerm [single ['b'], single ['a']] [single ['a'], single ['b']] := fun n => by
    simp [single, or_comm]
  refine ⟨h1, h2, hsame, ?_, fun R data => ?_⟩
  · rintro ⟨t, ht, -, -, hno⟩
    obtain rfl : t = [single ['b'], single ['a']] := by simpa using ht
    exact hno [single ['a'], single ['b']] (by simp) (by simp [Spec.Without, single, Expr.symbols, pricesName]) hsame
  · rw [h1]
    have : termColumn data [single ['b'], single ['a']] = termColumn data [single ['a'], single ['b']] := by
      funext r
      simp [termColumn, mul_comm]
    simp [shifterColumns, termName, single, List.intercalate] at this ⊢
    exact this

/-! ## Examples -/

/-- With X1 having an intercept, prices, and `x`, and X3 having an intercept, `x`, and `w`, the shifter of supply is `w`, and there is none of demand. -/
example : supplyShifterNames [[], [single pricesName], [single ['x']]] [[], [single ['x']], [single ['w']]] = some [['w']] ∧
    demandShifterNames [[], [single pricesName], [single ['x']]] [[], [single ['x']], [single ['w']]] = none := by
  constructor <;>
  simp [supplyShifterNames, demandShifterNames, defaultShifters, shifterNames, termName, termSymbols, single, Expr.symbols, pricesName, sharesName, List.intercalate]

/-- The hypotheses of `C153_shifters_partial` and `C153_exogenous` hold for these formulations. -/
example : (∀ t ∈ [[], [single ['x']], [single ['w']]], Spec.Readable t) ∧ (∀ t ∈ [[], [single pricesName], [single ['x']]], Spec.Readable t) ∧
    (∀ t ∈ [[], [single ['x']], [single ['w']]], ∀ u ∈ [[], [single pricesName], [single ['x']]], Spec.SameTerm t u →
      t.map NamedFactor.code = u.map NamedFactor.code) ∧
    (∀ t ∈ [[], [single ['x']], [single ['w']]], ∀ f ∈ t, f.expr = (Expr.sym f.code)) ∧
    (∀ t ∈ [[], [single ['x']], [single ['w']]], Spec.Without pricesName t) ∧
    Spec.Shifter sharesName [[], [single ['x']], [single ['w']]] pricesName [[], [single pricesName], [single ['x']]] [single ['w']] := by
  have h : ∀ a b : Name, Spec.SameTerm [single a] [single b] → a = b := fun a b h => by simpa [single] using (h a).mp (by simp [single])
  have h0 : ∀ a : Name, ¬Spec.SameTerm [single a] [] := fun a h => by simpa using (h a).mp (by simp [single])
  have h0' : ∀ a : Name, ¬Spec.SameTerm [] [single a] := fun a h => by simpa using (h a).mpr (by simp [single])
  refine ⟨?_, ?_, ?_, ?_, ?_, ?_⟩
  · simp [Spec.Readable, single, List.intercalate]
  · simp [Spec.Readable, single, pricesName, List.intercalate]
  · intro t ht u hu hs
    simp only [List.mem_cons, List.not_mem_nil, or_false] at ht hu
    rcases ht with rfl | rfl | rfl <;> rcases hu with rfl | rfl | rfl <;>
      first
      | rfl
      | exact absurd hs (h0 _)
      | exact absurd hs (h0' _)
      | exact absurd (h _ _ hs) (by simp [pricesName])
  · simp [single]
  · simp [Spec.Without, single, Expr.symbols, pricesName]
  · refine ⟨by simp, by simp, by simp [Spec.Without, single, Expr.symbols, sharesName], fun u hu _ hs => ?_⟩
    simp only [List.mem_cons, List.not_mem_nil, or_false] at hu
    rcases hu with rfl | rfl | rfl
    · exact h0 _ hs
    · exact absurd (h _ _ hs) (by simp [pricesName])
    · exact absurd (h _ _ hs) (by simp)

/-! ## Arguments -/

/-- **C153, arguments.** For any formulation that can be constructed, shifters that are passed are used without the intercept, or there are none if the formulation has
no variables. The call fails only if there is no supply side or the argument is not a formulation. -/
theorem C153_argument (terms : List (List Code)) (p : Parsed) (haccepted : formulationInit terms [] = .ok p) :
    (∀ has arg, chooseShifters has arg = .error .typeError ↔ arg = .other ∨ has = false ∧ arg ≠ .none) ∧
    ((∀ t ∈ terms, codeSymbols t = []) → chooseShifters true (.formulation terms) = .ok .nothing) ∧
    ((∃ t ∈ terms, codeSymbols t ≠ []) → chooseShifters true (.formulation terms) = .ok (.given (terms.filter fun t => decide (t ≠ [])))) := by
  have hinit : formulationInit terms [] = .ok p → terms ≠ [] ∧ ¬1 < (terms.filter fun t => decide (codeSymbols t = [])).length := fun h => by
    unfold formulationInit at h
    simp only [ne_eq, not_true_eq_false, if_false] at h
    split_ifs at h with h0 h1
    · exact ⟨h0, h1⟩
  obtain ⟨-, hcount⟩ := hinit haccepted
  refine ⟨fun has arg => ?_, fun h => ?_, fun h => ?_⟩
  · cases arg with
    | none => simp [chooseShifters]
    | other => simp [chooseShifters]
    | formulation ts =>
      cases has with
      | false => simp [chooseShifters]
      | true =>
        simp only [chooseShifters, formulationInit]
        split_ifs <;> simp_all
  · have h0 : terms.flatMap codeSymbols = [] := List.flatMap_eq_nil_iff.mpr h
    simp [chooseShifters, h0]
  · obtain ⟨t, ht, hne⟩ := h
    have h0 : terms.flatMap codeSymbols ≠ [] := fun e => hne (List.flatMap_eq_nil_iff.mp e t ht)
    have hfilter : (terms.filter fun t => !t.isEmpty) = terms.filter fun t => decide (t ≠ []) :=
      List.filter_congr fun t _ => by cases t <;> simp
    have hmem : t ∈ terms.filter fun t => decide (t ≠ []) := by
      refine List.mem_filter.mpr ⟨ht, decide_eq_true fun e => hne ?_⟩
      rw [e]; rfl
    have hk : (terms.filter fun t => decide (t ≠ [])) ≠ [] := List.ne_nil_of_mem hmem
    have hc : ¬1 < ((terms.filter fun t => decide (t ≠ [])).filter fun t => decide (codeSymbols t = [])).length := by
      have := (List.filter_sublist (l := terms) (p := fun t => decide (t ≠ []))).filter (fun t => decide (codeSymbols t = []))
      have := this.length_le
      omega
    have hok : formulationInit (terms.filter fun t => decide (t ≠ [])) [] = .ok ⟨terms.filter fun t => decide (t ≠ []), []⟩ := by
      unfold formulationInit
      simp only [ne_eq, not_true_eq_false, if_false, false_and]
      rw [if_neg hk, if_neg hc]
    simp only [chooseShifters, Bool.not_true, Bool.false_eq_true, if_false, if_neg h0, hfilter, hok]

/-- A formulation with an intercept and a variable is accepted. -/
example : formulationInit [[], [.expression (.sym ['x'])]] [] = .ok ⟨[[], [.expression (.sym ['x'])]], []⟩ := by
  simp [formulationInit, codeSymbols, Code.expr, Expr.symbols]

/-- **C153, arguments.** By default, shifters are default ones with a supply side, and there are none without. -/
theorem C153_default (X1 : List (List NamedFactor)) :
    chooseShifters true .none = .ok .default ∧ chooseShifters false .none = .ok .nothing ∧ supplyShifterNames X1 [] = none ∧ demandShifterNames X1 [] = none := by
  refine ⟨rfl, rfl, if_pos rfl, if_pos rfl⟩

end Formula

end Pyblp
