import Verif.Model.FormulationArguments
import Verif.Tactics

/-!
# C132: formulations that are accepted

Problems are created with formulations of the documented form only, whatever else is passed, and other arguments raise documented exceptions.
-/

namespace Pyblp
namespace Formula

/-! ## Specification -/

/-- What a formulation has to build: a finite matrix that does not depend on a variable. -/
def Spec.Usable (f : FormulationObject) (forbidden : Name) (X : Built) : Prop := f.build = some X ∧ X.finite = true ∧ forbidden ∉ X.names

/-- The formulation with an index in an argument, if there is one. -/
def Spec.At (a : FormulationsArgument) (n : ℕ) (f : Option FormulationObject) : Prop :=
  match a with
  | .one f' => f = if n = 0 then some f' else none
  | .sequence l => match f with
    | some f' => l[n]? = some (.formulation f')
    | none => l[n]? = none ∨ l[n]? = some .none
  | .other => False

/-- Not one formulation or a sequence of up to three formulations or `None`. -/
def Spec.WrongType (a : FormulationsArgument) : Prop := a = .other ∨ ∃ l, a = .sequence l ∧ (3 < l.length ∨ Element.other ∈ l)

/-- Arguments are valid, for product data from which formulations build `X1`, `X2` and `X3`. -/
structure Spec.Valid (a : FormulationsArgument) (f1 : FormulationObject) (f2 f3 : Option FormulationObject) (X1 : Built) (X2 X3 : Option Built) : Prop where
  type : ¬Spec.WrongType a
  first : Spec.At a 0 (some f1)
  second : Spec.At a 1 f2
  third : Spec.At a 2 f3
  /-- No fixed effects can be absorbed into nonlinear characteristics. -/
  absorbed : ∀ f, f2 = some f → f.absorbed = false
  usable1 : Spec.Usable f1 sharesName X1
  usable2 : (f2 = none ∧ X2 = none) ∨ ∃ f X, f2 = some f ∧ X2 = some X ∧ Spec.Usable f sharesName X
  usable3 : (f3 = none ∧ X3 = none) ∨ ∃ f X, f3 = some f ∧ X3 = some X ∧ Spec.Usable f pricesName X
  /-- Demand depends on prices. -/
  prices : pricesName ∈ X1.names ∨ ∃ X, X2 = some X ∧ pricesName ∈ X.names
  /-- Names of fields are not used for characteristics. -/
  reserved : ∀ n, (n ∈ X1.names ∨ (∃ X, X2 = some X ∧ n ∈ X.names) ∨ ∃ X, X3 = some X ∧ n ∈ X.names) → n ∈ reservedNames → n = sharesName

/-- Excluded instruments that are loaded are finite. -/
def Spec.FiniteInstruments (Z : InstrumentFields) (supply : Bool) : Prop :=
  Z.demand ≠ some false ∧ (supply = true → Z.supply ≠ some false ∧ Z.covariance ≠ some false)

/-! ## Lemmas -/

/-- An optional formulation as an element. -/
def ofOption : Option FormulationObject → Element
  | none => .none
  | some f => .formulation f

/-- Names of an optional matrix. -/
def optionalNames (X : Option Built) : List Name := X.elim [] Built.names

lemma checkMatrix_ok (f : FormulationObject) (forbidden : Name) (names : List Name) :
    checkMatrix f forbidden = .ok names ↔ ∃ X, Spec.Usable f forbidden X ∧ names = X.names := by
  unfold checkMatrix Spec.Usable
  cases h : f.build with
  | none => simp
  | some X =>
    dsimp only
    by_cases h1 : forbidden ∈ X.names
    · rw [if_pos h1]
      simp only [reduceCtorEq, false_iff]
      rintro ⟨X', ⟨h2, -, h3⟩, -⟩
      cases h2
      exact h3 h1
    · rw [if_neg h1]
      by_cases h2 : X.finite = false
      · rw [if_pos h2]
        simp only [reduceCtorEq, false_iff]
        rintro ⟨X', ⟨h3, h4, -⟩, -⟩
        cases h3
        rw [h2] at h4
        exact absurd h4 (by decide)
      · rw [if_neg h2]
        constructor
        · intro h3
          cases h3
          exact ⟨X, ⟨rfl, by simpa using h2, h1⟩, rfl⟩
        · rintro ⟨X', ⟨h3, -, -⟩, rfl⟩
          cases h3
          rfl

lemma checkOptional_ok (f : Option FormulationObject) (forbidden : Name) (names : List Name) :
    checkOptional (ofOption f) forbidden = .ok names ↔
      ∃ X : Option Built, ((f = none ∧ X = none) ∨ ∃ f' X', f = some f' ∧ X = some X' ∧ Spec.Usable f' forbidden X') ∧ names = optionalNames X := by
  cases f with
  | none =>
    change Except.ok [] = Except.ok names ↔ _
    constructor
    · intro h
      cases h
      exact ⟨none, .inl ⟨rfl, rfl⟩, rfl⟩
    · rintro ⟨X, (⟨-, rfl⟩ | ⟨f', X', h, -⟩), rfl⟩
      · rfl
      · cases h
  | some f =>
    change checkMatrix f forbidden = _ ↔ _
    rw [checkMatrix_ok]
    constructor
    · rintro ⟨X, hX, rfl⟩
      exact ⟨some X, .inr ⟨f, X, rfl, rfl, hX⟩, rfl⟩
    · rintro ⟨X, (⟨h, -⟩ | ⟨f', X', h, rfl, hX⟩), rfl⟩
      · cases h
      · cases h
        exact ⟨X', hX, rfl⟩

lemma checkReserved_ok (l names : List Name) :
    checkReserved l = .ok names ↔ (∀ n ∈ l, n ∈ reservedNames → n = sharesName) ∧ names = l.filter (· ≠ sharesName) := by
  unfold checkReserved
  by_cases h : (l.filter (· ≠ sharesName)).any (· ∈ reservedNames) = true
  · rw [if_pos h]
    simp only [reduceCtorEq, false_iff, not_and]
    intro h1
    obtain ⟨n, hn, hr⟩ := List.any_eq_true.mp h
    rw [List.mem_filter] at hn
    exact absurd (h1 n hn.1 (by simpa using hr)) (by simpa using hn.2)
  · rw [if_neg h]
    constructor
    · intro h1
      cases h1
      refine ⟨fun n hn hr => ?_, rfl⟩
      by_contra hne
      exact h (List.any_eq_true.mpr ⟨n, List.mem_filter.mpr ⟨hn, by simpa using hne⟩, by simpa using hr⟩)
    · rintro ⟨-, rfl⟩
      rfl

/-- What `newProducts` accepts. -/
lemma newProducts_ok (e1 e2 e3 : Element) (instruments : Bool) (Z : InstrumentFields) (fields : Except PyErr Unit) (names : List Name) :
    newProducts [e1, e2, e3] instruments Z fields = .ok names ↔
      ∃ f1 f2 f3 X1 X2 X3, e1 = .formulation f1 ∧ e2 = ofOption f2 ∧ e3 = ofOption f3 ∧ (∀ f, f2 = some f → f.absorbed = false) ∧
        Spec.Usable f1 sharesName X1 ∧
        ((f2 = none ∧ X2 = none) ∨ ∃ f X, f2 = some f ∧ X2 = some X ∧ Spec.Usable f sharesName X) ∧
        ((f3 = none ∧ X3 = none) ∨ ∃ f X, f3 = some f ∧ X3 = some X ∧ Spec.Usable f pricesName X) ∧
        (pricesName ∈ X1.names ∨ pricesName ∈ optionalNames X2) ∧
        (instruments = true → Spec.FiniteInstruments Z f3.isSome) ∧ fields = .ok () ∧
        (∀ n ∈ X1.names ++ optionalNames X2 ++ optionalNames X3, n ∈ reservedNames → n = sharesName) ∧
        names = (X1.names ++ optionalNames X2 ++ optionalNames X3).filter (· ≠ sharesName) := by
  have hof : ∀ e : Element, e.valid = true → ∃ f, e = ofOption f := fun e he => by
    cases e with
    | none => exact ⟨none, rfl⟩
    | formulation f => exact ⟨some f, rfl⟩
    | other => cases he
  have hval : ∀ f, (ofOption f).valid = true := fun f => by cases f <;> rfl
  have hinj : ∀ f f', ofOption f = ofOption f' → f = f' := fun f f' h => by
    cases f <;> cases f' <;> cases h <;> rfl
  unfold newProducts
  dsimp only
  by_cases hv : (e1.valid && e2.valid && e3.valid) = false
  · rw [if_pos hv]
    simp only [reduceCtorEq, false_iff]
    rintro ⟨f1, f2, f3, X1, X2, X3, rfl, rfl, rfl, -⟩
    rw [hval, hval] at hv
    cases hv
  rw [if_neg hv]
  have hv' : (e1.valid && e2.valid && e3.valid) = true := by rwa [Bool.not_eq_false] at hv
  simp only [Bool.and_eq_true] at hv'
  obtain ⟨f2, rfl⟩ := hof e2 hv'.1.2
  obtain ⟨f3, rfl⟩ := hof e3 hv'.2
  cases e1 with
  | other => cases hv'.1.1
  | none =>
    simp only [reduceCtorEq, false_iff]
    rintro ⟨f1, f2, f3, X1, X2, X3, h, -⟩
    cases h
  | formulation f1 =>
    dsimp only
    by_cases ha : (ofOption f2).absorbs = true
    · rw [if_pos ha]
      simp only [reduceCtorEq, false_iff]
      rintro ⟨f1', f2', f3', X1, X2, X3, -, h2, -, h, -⟩
      obtain rfl := hinj _ _ h2
      cases f2 with
      | none => cases ha
      | some f => exact absurd (h f rfl) (by simpa [ofOption, Element.absorbs] using ha)
    rw [if_neg ha]
    have ha' : ∀ f, f2 = some f → f.absorbed = false := fun f hf => by
      subst hf
      simpa [ofOption, Element.absorbs] using ha
    cases h1 : checkMatrix f1 sharesName with
    | error e =>
      simp only [reduceCtorEq, false_iff]
      rintro ⟨f1', f2', f3', X1, X2, X3, h, -, -, -, hX, -⟩
      cases h
      have := (checkMatrix_ok f1 sharesName X1.names).mpr ⟨X1, hX, rfl⟩
      rw [h1] at this
      cases this
    | ok n1 =>
      obtain ⟨X1, hX1, rfl⟩ := (checkMatrix_ok _ _ _).mp h1
      dsimp only
      cases h2 : checkOptional (ofOption f2) sharesName with
      | error e =>
        simp only [reduceCtorEq, false_iff]
        rintro ⟨f1', f2', f3', X1', X2, X3, -, h, -, -, -, hX, -⟩
        obtain rfl := hinj _ _ h
        have := (checkOptional_ok f2 sharesName (optionalNames X2)).mpr ⟨X2, hX, rfl⟩
        rw [h2] at this
        cases this
      | ok n2 =>
        obtain ⟨X2, hX2, rfl⟩ := (checkOptional_ok _ _ _).mp h2
        dsimp only
        have huniq1 : ∀ X, Spec.Usable f1 sharesName X → X = X1 := fun X hX => Option.some.inj (hX.1.symm.trans hX1.1)
        have huniq : ∀ (f : Option FormulationObject) (n : Name) (X X' : Option Built),
            ((f = none ∧ X = none) ∨ ∃ f' Y, f = some f' ∧ X = some Y ∧ Spec.Usable f' n Y) →
            ((f = none ∧ X' = none) ∨ ∃ f' Y, f = some f' ∧ X' = some Y ∧ Spec.Usable f' n Y) → X = X' := by
          rintro f n X X' (⟨rfl, rfl⟩ | ⟨f', Y, rfl, rfl, hY⟩) (⟨h, rfl⟩ | ⟨f'', Y', h, rfl, hY'⟩)
          · rfl
          · cases h
          · cases h
          · cases h
            exact hY.1.symm.trans hY'.1
        by_cases hp : pricesName ∉ X1.names ∧ pricesName ∉ optionalNames X2
        · rw [if_pos hp]
          simp only [reduceCtorEq, false_iff]
          rintro ⟨f1', f2', f3', X1', X2', X3, h, h', -, -, hX, hX', -, hp', -⟩
          cases h
          obtain rfl := hinj _ _ h'
          rw [huniq1 _ hX, huniq _ _ _ _ hX' hX2] at hp'
          exact hp'.elim hp.1 hp.2
        rw [if_neg hp]
        have hp' : pricesName ∈ X1.names ∨ pricesName ∈ optionalNames X2 := by
          by_contra h
          push Not at h
          exact hp h
        cases h3 : checkOptional (ofOption f3) pricesName with
        | error e =>
          simp only [reduceCtorEq, false_iff]
          rintro ⟨f1', f2', f3', X1', X2', X3, -, -, h, -, -, -, hX, -⟩
          obtain rfl := hinj _ _ h
          have := (checkOptional_ok f3 pricesName (optionalNames X3)).mpr ⟨X3, hX, rfl⟩
          rw [h3] at this
          cases this
        | ok n3 =>
          obtain ⟨X3, hX3, rfl⟩ := (checkOptional_ok _ _ _).mp h3
          dsimp only
          have hs : (ofOption f3).given = f3.isSome := by cases f3 <;> rfl
          rw [hs]
          have hz : ∀ o : Option Bool, finiteField o = false ↔ o = some false := fun o => by
            cases o with
            | none => simp [finiteField]
            | some v => simp [finiteField]
          simp only [hz]
          have hrest : (∃ f1' f2' f3' X1' X2' X3', Element.formulation f1 = .formulation f1' ∧ ofOption f2 = ofOption f2' ∧ ofOption f3 = ofOption f3' ∧
              (∀ f, f2' = some f → f.absorbed = false) ∧ Spec.Usable f1' sharesName X1' ∧
              ((f2' = none ∧ X2' = none) ∨ ∃ f X, f2' = some f ∧ X2' = some X ∧ Spec.Usable f sharesName X) ∧
              ((f3' = none ∧ X3' = none) ∨ ∃ f X, f3' = some f ∧ X3' = some X ∧ Spec.Usable f pricesName X) ∧
              (pricesName ∈ X1'.names ∨ pricesName ∈ optionalNames X2') ∧
              (instruments = true → Spec.FiniteInstruments Z f3'.isSome) ∧ fields = .ok () ∧
              (∀ n ∈ X1'.names ++ optionalNames X2' ++ optionalNames X3', n ∈ reservedNames → n = sharesName) ∧
              names = (X1'.names ++ optionalNames X2' ++ optionalNames X3').filter (· ≠ sharesName)) ↔
              (instruments = true → Spec.FiniteInstruments Z f3.isSome) ∧ fields = .ok () ∧
              checkReserved (X1.names ++ optionalNames X2 ++ optionalNames X3) = .ok names := by
            rw [checkReserved_ok]
            constructor
            · rintro ⟨f1', f2', f3', X1', X2', X3', h, h', h'', -, k1, k2, k3, -, hf, hfi, hr, hn⟩
              cases h
              obtain rfl := hinj _ _ h'
              obtain rfl := hinj _ _ h''
              rw [huniq1 _ k1, huniq _ _ _ _ k2 hX2, huniq _ _ _ _ k3 hX3] at hr hn
              exact ⟨hf, hfi, hr, hn⟩
            · rintro ⟨hf, hfi, hr, hn⟩
              exact ⟨f1, f2, f3, X1, X2, X3, rfl, rfl, rfl, ha', hX1, hX2, hX3, hp', hf, hfi, hr, hn⟩
          rw [hrest]
          by_cases k1 : instruments = true ∧ Z.demand = some false
          · rw [if_pos k1]
            simp only [reduceCtorEq, false_iff]
            rintro ⟨hf, -⟩
            exact (hf k1.1).1 k1.2
          rw [if_neg k1]
          by_cases k2 : instruments = true ∧ f3.isSome = true ∧ (Z.supply = some false ∨ Z.covariance = some false)
          · rw [if_pos k2]
            simp only [reduceCtorEq, false_iff]
            rintro ⟨hf, -⟩
            have := (hf k2.1).2 k2.2.1
            exact k2.2.2.elim this.1 this.2
          rw [if_neg k2]
          have hf : instruments = true → Spec.FiniteInstruments Z f3.isSome := fun hi =>
            ⟨fun h => k1 ⟨hi, h⟩, fun hs => ⟨fun h => k2 ⟨hi, hs, .inl h⟩, fun h => k2 ⟨hi, hs, .inr h⟩⟩⟩
          cases fields with
          | error e => simp
          | ok u => exact ⟨fun h => ⟨hf, rfl, h⟩, fun h => h.2.2⟩

/-- An element with an index in an argument of the right type. -/
lemma at_iff_getD (l : List Element) (n : ℕ) (f : Option FormulationObject) :
    Spec.At (.sequence l) n f ↔ l.getD n .none = ofOption f := by
  rw [List.getD_eq_getElem?_getD]
  cases f with
  | none =>
    change l[n]? = none ∨ l[n]? = some .none ↔ _
    cases h : l[n]? with
    | none => simp [ofOption]
    | some e => simp [ofOption]
  | some f =>
    change l[n]? = some (.formulation f) ↔ _
    cases h : l[n]? with
    | none => simp [ofOption]
    | some e => simp [ofOption]

/-- The three elements of sequences that are long enough. -/
lemma padded (l : List Element) (hl : l.length ≤ 3) :
    l ++ List.replicate (3 - l.length) .none = [l.getD 0 .none, l.getD 1 .none, l.getD 2 .none] := by
  match l, hl with
  | [], _ => rfl
  | [_], _ => rfl
  | [_, _], _ => rfl
  | [_, _, _], _ => rfl
  | _ :: _ :: _ :: _ :: _, h =>
    simp only [List.length_cons] at h
    omega

/-- An element that is not valid is one of three. -/
lemma other_mem (l : List Element) (hl : l.length ≤ 3) :
    Element.other ∈ l ↔ ((l.getD 0 .none).valid && (l.getD 1 .none).valid && (l.getD 2 .none).valid) = false := by
  have hv : ∀ e : Element, Element.other = e ↔ e.valid = false := fun e => by cases e <;> simp [Element.valid]
  match l, hl with
  | [], _ => simp [Element.valid]
  | [a], _ => simp [hv, Element.valid]
  | [a, b], _ =>
    simp only [List.mem_cons, hv, List.not_mem_nil, or_false, List.getD_cons_zero, List.getD_cons_succ, List.getD_nil]
    change _ ↔ (a.valid && b.valid && true) = false
    cases a.valid <;> cases b.valid <;> simp
  | [a, b, c], _ =>
    simp only [List.mem_cons, hv, List.not_mem_nil, or_false, List.getD_cons_zero, List.getD_cons_succ]
    cases a.valid <;> cases b.valid <;> cases c.valid <;> simp
  | _ :: _ :: _ :: _ :: _, h =>
    simp only [List.length_cons] at h
    omega

/-- Sequences of three elements, one of which is not valid. -/
lemma newProducts_typeError (e1 e2 e3 : Element) (instruments : Bool) (Z : InstrumentFields) (fields : Except PyErr Unit)
    (hfields : fields ≠ .error .typeError) :
    newProducts [e1, e2, e3] instruments Z fields = .error (.py .typeError) ↔ (e1.valid && e2.valid && e3.valid) = false := by
  have hm : ∀ f n, checkMatrix f n ≠ .error (.py .typeError) := fun f n => by
    unfold checkMatrix
    cases f.build with
    | none => simp
    | some X =>
      dsimp only
      split_ifs <;> simp
  have ho : ∀ e n, checkOptional e n ≠ .error (.py .typeError) := fun e n => by
    cases e with
    | formulation f => exact hm f n
    | none => simp [checkOptional]
    | other => simp [checkOptional]
  have hr : ∀ l, checkReserved l ≠ .error (.py .typeError) := fun l => by
    unfold checkReserved
    split_ifs <;> simp
  unfold newProducts
  dsimp only
  by_cases hv : (e1.valid && e2.valid && e3.valid) = false
  · rw [if_pos hv]
    exact ⟨fun _ => hv, fun _ => rfl⟩
  rw [if_neg hv]
  refine ⟨fun h => absurd h ?_, fun h => absurd h hv⟩
  cases e1 with
  | none => simp
  | other => simp
  | formulation f1 =>
    dsimp only
    by_cases h1 : e2.absorbs = true
    · rw [if_pos h1]
      simp
    rw [if_neg h1]
    cases k1 : checkMatrix f1 sharesName with
    | error e => exact fun h => hm _ _ (k1.trans h)
    | ok n1 =>
      dsimp only
      cases k2 : checkOptional e2 sharesName with
      | error e => exact fun h => ho _ _ (k2.trans h)
      | ok n2 =>
        dsimp only
        by_cases h2 : pricesName ∉ n1 ∧ pricesName ∉ n2
        · rw [if_pos h2]
          simp
        rw [if_neg h2]
        cases k3 : checkOptional e3 pricesName with
        | error e => exact fun h => ho _ _ (k3.trans h)
        | ok n3 =>
          dsimp only
          by_cases h3 : instruments = true ∧ finiteField Z.demand = false
          · rw [if_pos h3]
            simp
          rw [if_neg h3]
          by_cases h4 : instruments = true ∧ e3.given = true ∧ (finiteField Z.supply = false ∨ finiteField Z.covariance = false)
          · rw [if_pos h4]
            simp
          rw [if_neg h4]
          cases fields with
          | error e =>
            intro h
            cases h
            exact hfields rfl
          | ok u => exact hr _

/-- Names in matrices. -/
lemma mem_names (X1 : Built) (X2 X3 : Option Built) (n : Name) :
    n ∈ X1.names ++ optionalNames X2 ++ optionalNames X3 ↔ n ∈ X1.names ∨ (∃ X, X2 = some X ∧ n ∈ X.names) ∨ ∃ X, X3 = some X ∧ n ∈ X.names := by
  have h : ∀ X : Option Built, n ∈ optionalNames X ↔ ∃ Y, X = some Y ∧ n ∈ Y.names := fun X => by
    cases X <;> simp [optionalNames]
  rw [List.mem_append, List.mem_append, h, h, or_assoc]

/-- What `newProducts` accepts, for arguments after normalization. -/
lemma normalized_ok (a : FormulationsArgument) (instruments : Bool) (Z : InstrumentFields) (fields : Except PyErr Unit) (names : List Name) :
    (∃ l, normalizeFormulations a = .ok l ∧ newProducts l instruments Z fields = .ok names) ↔
      fields = .ok () ∧ ∃ f1 f2 f3 X1 X2 X3, Spec.Valid a f1 f2 f3 X1 X2 X3 ∧ (instruments = true → Spec.FiniteInstruments Z f3.isSome) ∧
        names = (X1.names ++ optionalNames X2 ++ optionalNames X3).filter (· ≠ sharesName) := by
  have hp : ∀ (X1 : Built) (X2 : Option Built), pricesName ∈ optionalNames X2 ↔ ∃ X, X2 = some X ∧ pricesName ∈ X.names := fun X1 X2 => by
    cases X2 <;> simp [optionalNames]
  cases a with
  | other =>
    constructor
    · rintro ⟨l, h, -⟩
      cases h
    · rintro ⟨-, f1, f2, f3, X1, X2, X3, h, -⟩
      exact absurd (.inl rfl) h.type
  | one f =>
    have : (∃ l, normalizeFormulations (.one f) = .ok l ∧ newProducts l instruments Z fields = .ok names) ↔
        newProducts [.formulation f, .none, .none] instruments Z fields = .ok names :=
      ⟨fun ⟨l, h, h'⟩ => by
        cases h
        exact h', fun h => ⟨_, rfl, h⟩⟩
    rw [this, newProducts_ok]
    constructor
    · rintro ⟨f1, f2, f3, X1, X2, X3, h1, h2, h3, ha, u1, u2, u3, hpr, hZ, hf, hr, hn⟩
      cases h1
      refine ⟨hf, f, f2, f3, X1, X2, X3, ⟨?_, rfl, ?_, ?_, ha, u1, u2, u3, ?_, fun n hn => hr n ((mem_names _ _ _ _).mpr hn)⟩, hZ, hn⟩
      · rintro (h | ⟨l, h, -⟩) <;> cases h
      · cases f2 with
        | none => rfl
        | some f => cases h2
      · cases f3 with
        | none => rfl
        | some f => cases h3
      · exact hpr.imp_right fun h => (hp X1 X2).mp h
    · rintro ⟨hf, f1, f2, f3, X1, X2, X3, h, hZ, hn⟩
      have h1 : f1 = f := Option.some.inj h.first
      have h2 : f2 = none := h.second
      have h3 : f3 = none := h.third
      subst h1 h2 h3
      exact ⟨f1, none, none, X1, X2, X3, rfl, rfl, rfl, h.absorbed, h.usable1, h.usable2, h.usable3, h.prices.imp_right fun h => (hp X1 X2).mpr h, hZ, hf,
        fun n hn => h.reserved n ((mem_names _ _ _ _).mp hn), hn⟩
  | sequence l =>
    by_cases hl : l.length ≤ 3
    · have : (∃ l', normalizeFormulations (.sequence l) = .ok l' ∧ newProducts l' instruments Z fields = .ok names) ↔
          newProducts [l.getD 0 .none, l.getD 1 .none, l.getD 2 .none] instruments Z fields = .ok names := by
        unfold normalizeFormulations
        dsimp only
        rw [if_pos hl, padded l hl]
        exact ⟨fun ⟨l, h, h'⟩ => by
          cases h
          exact h', fun h => ⟨_, rfl, h⟩⟩
      rw [this, newProducts_ok]
      have hval : ∀ f, (ofOption f).valid = true := fun f => by cases f <;> rfl
      constructor
      · rintro ⟨f1, f2, f3, X1, X2, X3, h1, h2, h3, ha, u1, u2, u3, hpr, hZ, hf, hr, hn⟩
        have hno : Element.other ∉ l := by
          rw [other_mem l hl, h1, h2, h3, hval, hval]
          exact Bool.true_eq_false.mp
        refine ⟨hf, f1, f2, f3, X1, X2, X3, ⟨?_, (at_iff_getD _ _ _).mpr h1, (at_iff_getD _ _ _).mpr h2, (at_iff_getD _ _ _).mpr h3, ha, u1, u2, u3,
          hpr.imp_right fun h => (hp X1 X2).mp h, fun n hn => hr n ((mem_names _ _ _ _).mpr hn)⟩, hZ, hn⟩
        rintro (h | ⟨l', h, h'⟩)
        · cases h
        · cases h
          exact h'.elim (fun h => absurd hl (by omega)) hno
      · rintro ⟨hf, f1, f2, f3, X1, X2, X3, h, hZ, hn⟩
        have hno : Element.other ∉ l := fun ho => h.type (.inr ⟨l, rfl, .inr ho⟩)
        exact ⟨f1, f2, f3, X1, X2, X3, (at_iff_getD _ _ _).mp h.first, (at_iff_getD _ _ _).mp h.second, (at_iff_getD _ _ _).mp h.third, h.absorbed,
          h.usable1, h.usable2, h.usable3, h.prices.imp_right fun h => (hp X1 X2).mpr h, hZ, hf, fun n hn => h.reserved n ((mem_names _ _ _ _).mp hn), hn⟩
    · constructor
      · rintro ⟨l', h, -⟩
        unfold normalizeFormulations at h
        dsimp only at h
        rw [if_neg hl] at h
        cases h
      · rintro ⟨-, f1, f2, f3, X1, X2, X3, h, -⟩
        exact absurd (.inr ⟨l, rfl, .inl (by omega)⟩) h.type

/-! ## Theorems -/

/-- A problem accepts exactly the formulations that are documented: up to three, the first of which is given, which build finite matrices from product data, with
prices in the first two, no shares in these, no prices in the third, and no names that are used for fields. Finite excluded instruments are required, and other
fields have to be valid. -/
theorem C132_accepted (a : FormulationsArgument) (Z : InstrumentFields) (fields : Except PyErr Unit) :
    (∃ names, problemFormulations a Z fields = .ok names) ↔
      fields = .ok () ∧ ∃ f1 f2 f3 X1 X2 X3, Spec.Valid a f1 f2 f3 X1 X2 X3 ∧ Spec.FiniteInstruments Z f3.isSome := by
  have key : ∀ names, problemFormulations a Z fields = .ok names ↔
      ∃ l, normalizeFormulations a = .ok l ∧ newProducts l true Z fields = .ok names := fun names => by
    unfold problemFormulations
    cases h : normalizeFormulations a with
    | error e => simp
    | ok l => simp
  simp only [key, normalized_ok]
  constructor
  · rintro ⟨names, hf, f1, f2, f3, X1, X2, X3, h, hZ, -⟩
    exact ⟨hf, f1, f2, f3, X1, X2, X3, h, hZ trivial⟩
  · rintro ⟨hf, f1, f2, f3, X1, X2, X3, h, hZ⟩
    exact ⟨_, hf, f1, f2, f3, X1, X2, X3, h, fun _ => hZ, rfl⟩

/-- A problem that is created has exactly the variables underlying its matrices, other than shares, as fields, and none of them replaces another field. -/
theorem C132_variables (a : FormulationsArgument) (Z : InstrumentFields) (fields : Except PyErr Unit) (names : List Name)
    (h : problemFormulations a Z fields = .ok names) (f1 : FormulationObject) (f2 f3 : Option FormulationObject) (X1 : Built) (X2 X3 : Option Built)
    (hv : Spec.Valid a f1 f2 f3 X1 X2 X3) (n : Name) :
    n ∈ names ↔ n ≠ sharesName ∧ n ∉ reservedNames ∧ (n ∈ X1.names ∨ (∃ X, X2 = some X ∧ n ∈ X.names) ∨ ∃ X, X3 = some X ∧ n ∈ X.names) := by
  have hZ : ∃ names, problemFormulations a Z fields = .ok names := ⟨names, h⟩
  have hw : (∃ l, normalizeFormulations a = .ok l ∧ newProducts l true Z fields = .ok names) := by
    unfold problemFormulations at h
    cases hl : normalizeFormulations a with
    | error e =>
      rw [hl] at h
      cases h
    | ok l =>
      rw [hl] at h
      exact ⟨l, rfl, h⟩
  obtain ⟨hf, g1, g2, g3, Y1, Y2, Y3, hg, -, hn⟩ := (normalized_ok _ _ _ _ _).mp hw
  -- formulations and matrices are determined by the argument
  have hat : ∀ k f g, Spec.At a k f → Spec.At a k g → f = g := fun k f g hf hg => by
    cases a with
    | other => exact hf.elim
    | one f' => exact hf.trans hg.symm
    | sequence l =>
      have hno : Element.other ∉ l := fun ho => hv.type (.inr ⟨l, rfl, .inr ho⟩)
      have := ((at_iff_getD _ _ _).mp hf).symm.trans ((at_iff_getD _ _ _).mp hg)
      cases f <;> cases g <;> cases this <;> rfl
  have e1 : f1 = g1 := Option.some.inj (hat 0 _ _ hv.first hg.first)
  have e2 := hat 1 _ _ hv.second hg.second
  have e3 := hat 2 _ _ hv.third hg.third
  subst e1 e2 e3
  have u1 : Y1 = X1 := Option.some.inj (hg.usable1.1.symm.trans hv.usable1.1)
  have huniq : ∀ (f : Option FormulationObject) (n : Name) (X X' : Option Built),
      ((f = none ∧ X = none) ∨ ∃ f' Y, f = some f' ∧ X = some Y ∧ Spec.Usable f' n Y) →
      ((f = none ∧ X' = none) ∨ ∃ f' Y, f = some f' ∧ X' = some Y ∧ Spec.Usable f' n Y) → X = X' := by
    rintro f n X X' (⟨rfl, rfl⟩ | ⟨f', Y, rfl, rfl, hY⟩) (⟨h, rfl⟩ | ⟨f'', Y', h, rfl, hY'⟩)
    · rfl
    · cases h
    · cases h
    · cases h
      exact hY.1.symm.trans hY'.1
  have u2 := huniq _ _ _ _ hg.usable2 hv.usable2
  have u3 := huniq _ _ _ _ hg.usable3 hv.usable3
  subst u1 u2 u3
  rw [hn, List.mem_filter, mem_names]
  constructor
  · rintro ⟨hm, hs⟩
    have hs' : n ≠ sharesName := by simpa using hs
    exact ⟨hs', fun hr => hs' (hv.reserved n hm hr), hm⟩
  · rintro ⟨hs, -, hm⟩
    exact ⟨hm, by simpa using hs⟩

/-- Arguments of the wrong type raise a `TypeError`, whatever the data are, and other arguments do not. -/
theorem C132_type_error (a : FormulationsArgument) (Z : InstrumentFields) (fields : Except PyErr Unit) (hfields : fields ≠ .error .typeError) :
    problemFormulations a Z fields = .error (.py .typeError) ↔ Spec.WrongType a := by
  cases a with
  | other => exact ⟨fun _ => .inl rfl, fun _ => rfl⟩
  | one f =>
    change newProducts [.formulation f, .none, .none] true Z fields = _ ↔ _
    rw [newProducts_typeError _ _ _ _ _ _ hfields]
    constructor
    · intro h
      cases h
    · rintro (h | ⟨l, h, -⟩) <;> cases h
  | sequence l =>
    unfold problemFormulations normalizeFormulations
    dsimp only
    by_cases hl : l.length ≤ 3
    · rw [if_pos hl, padded l hl]
      dsimp only
      rw [newProducts_typeError _ _ _ _ _ _ hfields, ← other_mem l hl]
      constructor
      · exact fun h => .inr ⟨l, rfl, .inr h⟩
      · rintro (h | ⟨l', h, h'⟩)
        · cases h
        · cases h
          exact h'.elim (fun h => absurd hl (by omega)) id
    · rw [if_neg hl]
      exact ⟨fun _ => .inr ⟨l, rfl, .inl (by omega)⟩, fun _ => rfl⟩

/-- Elements that have absorbed terms. -/
lemma anyAbsorbed_ok (l : List Element) :
    anyAbsorbed l = .ok false ↔ Element.other ∉ l ∧ ∀ f, Element.formulation f ∈ l → f.absorbed = false := by
  induction l with
  | nil => simp [anyAbsorbed]
  | cons e l ih =>
    cases e with
    | none =>
      change anyAbsorbed l = _ ↔ _
      rw [ih]
      simp
    | other => simp [anyAbsorbed]
    | formulation f =>
      change (if f.absorbed = true then Except.ok true else anyAbsorbed l) = _ ↔ _
      by_cases hf : f.absorbed = true
      · rw [if_pos hf]
        constructor
        · intro h
          cases h
        · intro h
          exact absurd (h.2 f (by simp)) (by simp [hf])
      · rw [if_neg hf, ih]
        have hf' : f.absorbed = false := by simpa using hf
        simp only [List.mem_cons, reduceCtorEq, false_or, Element.formulation.injEq]
        constructor
        · rintro ⟨h1, h2⟩
          exact ⟨h1, fun g hg => hg.elim (fun h => h ▸ hf') (h2 g)⟩
        · rintro ⟨h1, h2⟩
          exact ⟨h1, fun g hg => h2 g (.inr hg)⟩

/-- A simulation accepts exactly those formulations that a problem without excluded instruments would accept, if no fixed effects are absorbed, if the agent
formulation is of the right type, and if there are market and firm IDs. -/
theorem C132_simulation (a : FormulationsArgument) (agent : Element) (marketIds firmIds : IdField) (Z : InstrumentFields) (fields : Except PyErr Unit)
    (names : List Name) :
    simulationFormulations a agent marketIds firmIds Z fields = .ok names ↔
      (∀ k f, Spec.At a k (some f) → f.absorbed = false) ∧ (agent = .none ∨ ∃ g, agent = .formulation g ∧ g.absorbed = false) ∧
      (∃ m, marketIds = some m ∧ m ≤ 1) ∧ (∃ f, firmIds = some f ∧ f ≤ 1) ∧
      problemFormulations a ⟨none, none, none⟩ fields = .ok names := by
  have hagent : checkAgentFormulation agent = .ok () ↔ (agent = .none ∨ ∃ g, agent = .formulation g ∧ g.absorbed = false) := by
    cases agent with
    | none => simp [checkAgentFormulation]
    | other => simp [checkAgentFormulation]
    | formulation g =>
      unfold checkAgentFormulation
      dsimp only
      by_cases hg : g.absorbed = true
      · rw [if_pos hg]
        simp [hg]
      · rw [if_neg hg]
        simp [hg]
  have hids : simulationIds marketIds firmIds = .ok () ↔ (∃ m, marketIds = some m ∧ m ≤ 1) ∧ ∃ f, firmIds = some f ∧ f ≤ 1 := by
    cases marketIds with
    | none => simp [simulationIds]
    | some m =>
      cases firmIds with
      | none => simp [simulationIds]
      | some f =>
        unfold simulationIds
        dsimp only
        by_cases hm : m > 1
        · rw [if_pos hm]
          simp only [reduceCtorEq, false_iff]
          rintro ⟨⟨m', h, h'⟩, -⟩
          cases h
          omega
        rw [if_neg hm]
        by_cases hf : f > 1
        · rw [if_pos hf]
          simp only [reduceCtorEq, false_iff]
          rintro ⟨-, f', h, h'⟩
          cases h
          omega
        rw [if_neg hf]
        exact ⟨fun _ => ⟨⟨m, rfl, by omega⟩, f, rfl, by omega⟩, fun _ => rfl⟩
  have hrest : ∀ l, simulationFormulations.simulationRest agent marketIds firmIds Z fields l = .ok names ↔
      (agent = .none ∨ ∃ g, agent = .formulation g ∧ g.absorbed = false) ∧ (∃ m, marketIds = some m ∧ m ≤ 1) ∧ (∃ f, firmIds = some f ∧ f ≤ 1) ∧
        newProducts l false Z fields = .ok names := fun l => by
    unfold simulationFormulations.simulationRest
    rw [← hagent, ← and_assoc (a := ∃ m, _), ← hids]
    cases checkAgentFormulation agent with
    | error e => simp
    | ok u =>
      cases simulationIds marketIds firmIds with
      | error e => simp
      | ok u => simp
  have hinst : ∀ e1 e2 e3, newProducts [e1, e2, e3] false Z fields = .ok names ↔ newProducts [e1, e2, e3] true ⟨none, none, none⟩ fields = .ok names :=
    fun e1 e2 e3 => by
    rw [newProducts_ok, newProducts_ok]
    simp [Spec.FiniteInstruments]
  cases a with
  | other =>
    constructor
    · intro h
      cases h
    · rintro ⟨-, -, -, -, h⟩
      cases h
  | one f =>
    have hab : (∀ k g, Spec.At (.one f) k (some g) → g.absorbed = false) ↔ ¬f.absorbed = true := by
      constructor
      · intro h
        simpa using h 0 f rfl
      · intro h k g hg
        by_cases hk : k = 0
        · have : some g = some f := by
            have := hg
            unfold Spec.At at this
            dsimp only at this
            rwa [if_pos hk] at this
          cases this
          simpa using h
        · have := hg
          unfold Spec.At at this
          dsimp only at this
          rw [if_neg hk] at this
          cases this
    rw [hab]
    unfold simulationFormulations
    dsimp only
    by_cases hf : f.absorbed = true
    · rw [if_pos hf]
      simp [hf]
    · rw [if_neg hf, hrest]
      change _ ∧ _ ∧ _ ∧ newProducts [.formulation f, .none, .none] false Z fields = .ok names ↔
        _ ∧ _ ∧ _ ∧ _ ∧ newProducts [.formulation f, .none, .none] true ⟨none, none, none⟩ fields = .ok names
      rw [hinst]
      exact ⟨fun h => ⟨hf, h⟩, fun h => h.2⟩
  | sequence l =>
    have hab : (∀ k g, Spec.At (.sequence l) k (some g) → g.absorbed = false) ↔ ∀ g, Element.formulation g ∈ l → g.absorbed = false := by
      constructor
      · intro h g hg
        obtain ⟨k, hk⟩ := List.mem_iff_getElem?.mp hg
        exact h k g hk
      · intro h k g hg
        exact h g (List.mem_iff_getElem?.mpr ⟨k, hg⟩)
    rw [hab]
    unfold simulationFormulations problemFormulations normalizeFormulations
    dsimp only
    by_cases hl : l.length ≤ 3
    · rw [if_pos hl, if_pos hl, padded l hl]
      dsimp only
      rw [← hinst]
      have hother : newProducts [l.getD 0 .none, l.getD 1 .none, l.getD 2 .none] false Z fields = .ok names → Element.other ∉ l := by
        rw [newProducts_ok, other_mem l hl]
        rintro ⟨f1, f2, f3, X1, X2, X3, h1, h2, h3, -⟩
        rw [h1, h2, h3]
        cases f2 <;> cases f3 <;> exact Bool.true_eq_false.mp
      cases hb : anyAbsorbed l with
      | error e =>
        simp only [reduceCtorEq, false_iff]
        rintro ⟨h, -, -, -, hn⟩
        have := (anyAbsorbed_ok l).mpr ⟨hother hn, h⟩
        rw [hb] at this
        cases this
      | ok b =>
        cases b with
        | true =>
          simp only [reduceCtorEq, false_iff]
          rintro ⟨h, -, -, -, hn⟩
          have := (anyAbsorbed_ok l).mpr ⟨hother hn, h⟩
          rw [hb] at this
          cases this
        | false =>
          dsimp only
          rw [hrest]
          exact ⟨fun h => ⟨((anyAbsorbed_ok l).mp hb).2, h⟩, fun h => h.2⟩
    · rw [if_neg hl, if_neg hl]
      simp

/-- A formulation with given names of variables that builds a finite matrix. -/
def simpleFormulation (names : List Name) : FormulationObject := ⟨false, some ⟨names, true⟩⟩

/-- A simulation does not raise a documented `TypeError` for sequences that have elements of the wrong type, as a problem would: it raises an
`AttributeError`, because it first looks for absorbed terms in all elements. -/
theorem C132_simulation_type_refuted :
    ¬∀ (a : FormulationsArgument) (agent : Element) (marketIds firmIds : IdField) (Z : InstrumentFields) (fields : Except PyErr Unit), Spec.WrongType a →
      simulationFormulations a agent marketIds firmIds Z fields = .error (.py .typeError) := by
  intro h
  have := h (.sequence [.formulation (simpleFormulation [pricesName]), .other]) .none (some 1) (some 1) ⟨none, none, none⟩ (.ok ())
    (.inr ⟨_, rfl, .inr (by simp)⟩)
  have h' : simulationFormulations (.sequence [.formulation (simpleFormulation [pricesName]), .other]) .none (some 1) (some 1) ⟨none, none, none⟩ (.ok ()) =
      .error (.py .attributeError) := rfl
  rw [h'] at this
  cases this

/-- What simulations do instead: arguments of the wrong type raise a `TypeError` or an `AttributeError`, or a `ValueError` if a formulation before the element of
the wrong type absorbs fixed effects. -/
theorem C132_simulation_type (a : FormulationsArgument) (agent : Element) (marketIds firmIds : IdField) (Z : InstrumentFields) (fields : Except PyErr Unit)
    (h : Spec.WrongType a) :
    simulationFormulations a agent marketIds firmIds Z fields = .error (.py .typeError) ∨
      simulationFormulations a agent marketIds firmIds Z fields = .error (.py .attributeError) ∨
      simulationFormulations a agent marketIds firmIds Z fields = .error (.py .valueError) ∧ ∃ k f, Spec.At a k (some f) ∧ f.absorbed = true := by
  obtain rfl | ⟨l, rfl, h⟩ := h
  · exact .inl rfl
  unfold simulationFormulations
  dsimp only
  by_cases hl : l.length ≤ 3
  · rw [if_pos hl]
    have ho : Element.other ∈ l := h.resolve_left (by omega)
    have key : ∀ l : List Element, Element.other ∈ l →
        anyAbsorbed l = .error (.py .attributeError) ∨ anyAbsorbed l = .ok true ∧ ∃ f, Element.formulation f ∈ l ∧ f.absorbed = true := by
      intro l
      induction l with
      | nil => simp
      | cons e l ih =>
        intro ho
        cases e with
        | none =>
          obtain h | ⟨h, f, hf, hf'⟩ := ih (by simpa using ho)
          · exact .inl h
          · exact .inr ⟨h, f, List.mem_cons_of_mem _ hf, hf'⟩
        | other => exact .inl rfl
        | formulation f =>
          change (if f.absorbed = true then Except.ok true else anyAbsorbed l) = _ ∨ (if f.absorbed = true then Except.ok true else anyAbsorbed l) = _ ∧ _
          by_cases hf : f.absorbed = true
          · rw [if_pos hf]
            exact .inr ⟨rfl, f, by simp, hf⟩
          · rw [if_neg hf]
            obtain h | ⟨h, f, hf, hf'⟩ := ih (by simpa using ho)
            · exact .inl h
            · exact .inr ⟨h, f, List.mem_cons_of_mem _ hf, hf'⟩
    obtain h | ⟨h, f, hf, hf'⟩ := key l ho
    · rw [h]
      exact .inr (.inl rfl)
    · rw [h]
      obtain ⟨k, hk⟩ := List.mem_iff_getElem?.mp hf
      exact .inr (.inr ⟨rfl, k, f, hk, hf'⟩)
  · rw [if_neg hl]
    exact .inl rfl

/-! ## Examples -/

/-- A problem with random coefficients on a constant and prices, and with a supply side with shares, is accepted. -/
example : problemFormulations (.sequence [.formulation (simpleFormulation [pricesName, "x".toList]), .formulation (simpleFormulation [pricesName]),
    .formulation (simpleFormulation [sharesName, "w".toList])]) ⟨some true, some true, none⟩ (.ok ()) = .ok [pricesName, "x".toList, pricesName, "w".toList] := by
  decide

/-- It meets the hypotheses of `C132_variables`. -/
example : Spec.Valid (.sequence [.formulation (simpleFormulation [pricesName, "x".toList]), .formulation (simpleFormulation [pricesName]),
    .formulation (simpleFormulation [sharesName, "w".toList])]) (simpleFormulation [pricesName, "x".toList]) (some (simpleFormulation [pricesName]))
    (some (simpleFormulation [sharesName, "w".toList])) ⟨[pricesName, "x".toList], true⟩ (some ⟨[pricesName], true⟩)
    (some ⟨[sharesName, "w".toList], true⟩) where
  type := by
    rintro (h | ⟨l, h, h'⟩)
    · cases h
    · cases h
      simp at h'
  first := rfl
  second := rfl
  third := rfl
  absorbed f hf := by
    cases hf
    rfl
  usable1 := ⟨rfl, rfl, by decide⟩
  usable2 := .inr ⟨_, _, rfl, rfl, rfl, rfl, by decide⟩
  usable3 := .inr ⟨_, _, rfl, rfl, rfl, rfl, by decide⟩
  prices := .inl (by decide)
  reserved n hn hr := by
    have : n ∈ [pricesName, "x".toList, sharesName, "w".toList] := by
      obtain h | ⟨X, hX, h⟩ | ⟨X, hX, h⟩ := hn
      · revert h
        simp only [List.mem_cons, List.not_mem_nil, or_false]
        rintro (rfl | rfl) <;> simp
      · cases hX
        revert h
        simp only [List.mem_cons, List.not_mem_nil, or_false]
        rintro rfl
        simp
      · cases hX
        revert h
        simp only [List.mem_cons, List.not_mem_nil, or_false]
        rintro (rfl | rfl) <;> simp
    revert n
    simp only [List.mem_cons, List.not_mem_nil, or_false]
    rintro n - hr (rfl | rfl | rfl | rfl)
    · exact absurd hr (by decide)
    · exact absurd hr (by decide)
    · rfl
    · exact absurd hr (by decide)

/-- A simulation accepts a formulation. -/
example : simulationFormulations (.one (simpleFormulation [pricesName])) .none (some 1) (some 1) ⟨some false, none, none⟩ (.ok ()) = .ok [pricesName] := by
  decide

/-- Names of fields are rejected. -/
example : problemFormulations (.one (simpleFormulation [pricesName, "market_ids".toList])) ⟨none, none, none⟩ (.ok ()) = .error .nameError := by
  decide

end Formula
end Pyblp
