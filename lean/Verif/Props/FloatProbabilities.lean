import Verif.Model.FloatProbabilities
import Verif.Props.Probabilities

set_option linter.unusedSectionVars false

/-!
# C122: floating point problems in choice probabilities
-/

namespace Pyblp

open Classical FloatFormat

/-! ## Bookkeeping -/

theorem Noted.bind_events {α β : Type} {x : Noted α} {f : α → Noted β} :
    (x.bind f).events = ∅ ↔ x.events = ∅ ∧ (f x.val).events = ∅ := by
  unfold Noted.bind
  exact Set.union_empty_iff

theorem Noted.each_events {ι α : Type} {f : ι → Noted α} : (Noted.each f).events = ∅ ↔ ∀ k, (f k).events = ∅ := by
  unfold Noted.each
  simp only [Set.eq_empty_iff_forall_notMem, Set.mem_ofPred_eq, not_exists]
  exact ⟨fun h k p => h p k, fun h p k => h k p⟩

theorem Noted.pure_events {α : Type} (x : α) : (Noted.pure x).events = ∅ := rfl

theorem Noted.bind_val {α β : Type} (x : Noted α) (f : α → Noted β) : (x.bind f).val = (f x.val).val := rfl

theorem Noted.each_val {ι α : Type} (f : ι → Noted α) (k : ι) : (Noted.each f).val k = (f k).val := rfl

theorem Noted.pure_val {α : Type} (x : α) : (Noted.pure x).val = x := rfl

theorem Noted.bind_nonempty_left {α β : Type} {x : Noted α} {f : α → Noted β} (h : x.events.Nonempty) : (x.bind f).events.Nonempty :=
  h.mono Set.subset_union_left

theorem Noted.bind_nonempty_right {α β : Type} {x : Noted α} {f : α → Noted β} (h : (f x.val).events.Nonempty) :
    (x.bind f).events.Nonempty :=
  h.mono Set.subset_union_right

theorem Noted.each_nonempty {ι α : Type} {f : ι → Noted α} (k : ι) (h : (f k).events.Nonempty) : (Noted.each f).events.Nonempty :=
  h.mono fun _ hp => ⟨k, hp⟩

/-- A computation with this result and without problems. -/
theorem Noted.ext' {α : Type} {x : Noted α} {v : α} (h : x.val = v) (h' : x.events = ∅) : x = ⟨v, ∅⟩ := by
  cases x
  simp_all

theorem Noted.mk_bind {α β : Type} (v : α) (f : α → Noted β) : (Noted.bind ⟨v, ∅⟩ f) = f v := by
  unfold Noted.bind
  simp

theorem Noted.each_mk {ι α : Type} {f : ι → Noted α} {v : ι → α} (h : ∀ k, f k = ⟨v k, ∅⟩) : Noted.each f = ⟨v, ∅⟩ := by
  refine Noted.ext' ?_ (Noted.each_events.mpr fun k => by rw [h k])
  funext k
  rw [Noted.each_val, h k]

/-- A number. -/
def Flo.IsNumber (x : Flo) : Prop := ∃ r : ℝ, x = .fin r

/-- Not a number, or infinite in the direction that makes a utility the best there is. -/
def Flo.Bad (x : Flo) : Prop := x = .nan ∨ x = .pinf

/-! ## Results without problems are numbers -/

variable {F : FloatFormat}

theorem finish_number {x : ℝ} (h : (F.finish x).events = ∅) : F.finish x = ⟨.fin (F.round x), ∅⟩ := by
  unfold FloatFormat.finish at h ⊢
  by_cases h1 : F.largest < F.round x
  · rw [if_pos h1] at h
    exact absurd h (Set.singleton_ne_empty _)
  · rw [if_neg h1] at h ⊢
    by_cases h2 : F.round x < -F.largest
    · rw [if_pos h2] at h
      exact absurd h (Set.singleton_ne_empty _)
    · rw [if_neg h2]

theorem finish_isNumber {x : ℝ} (h : (F.finish x).events = ∅) : (F.finish x).val.IsNumber := by
  rw [finish_number h]
  exact ⟨_, rfl⟩

theorem finish_within {x : ℝ} (h : |F.round x| ≤ F.largest) : F.finish x = ⟨.fin (F.round x), ∅⟩ := by
  unfold FloatFormat.finish
  rw [if_neg (not_lt.mpr (le_of_abs_le h)), if_neg (not_lt.mpr (neg_le_of_abs_le h))]

theorem add_isNumber {a b : Flo} (ha : a.IsNumber) (hb : b.IsNumber) (h : (F.add a b).events = ∅) : (F.add a b).val.IsNumber := by
  obtain ⟨x, rfl⟩ := ha
  obtain ⟨y, rfl⟩ := hb
  exact finish_isNumber h

theorem sub_isNumber {a b : Flo} (ha : a.IsNumber) (hb : b.IsNumber) (h : (F.sub a b).events = ∅) : (F.sub a b).val.IsNumber := by
  obtain ⟨y, rfl⟩ := hb
  exact add_isNumber ha ⟨-y, rfl⟩ h

theorem mul_isNumber {a b : Flo} (ha : a.IsNumber) (hb : b.IsNumber) (h : (F.mul a b).events = ∅) : (F.mul a b).val.IsNumber := by
  obtain ⟨x, rfl⟩ := ha
  obtain ⟨y, rfl⟩ := hb
  exact finish_isNumber h

theorem div_isNumber {a b : Flo} (ha : a.IsNumber) (hb : b.IsNumber) (h : (F.div a b).events = ∅) : (F.div a b).val.IsNumber := by
  obtain ⟨x, rfl⟩ := ha
  obtain ⟨y, rfl⟩ := hb
  unfold FloatFormat.div at h ⊢
  by_cases hy : y = 0
  · exfalso
    simp only [hy, if_true] at h
    by_cases hx : x = 0
    · rw [if_pos hx] at h
      exact Set.singleton_ne_empty _ h
    · rw [if_neg hx] at h
      exact Set.singleton_ne_empty _ h
  · simp only [hy, if_false] at h ⊢
    exact finish_isNumber h

theorem exp_isNumber {a : Flo} (ha : a.IsNumber) (h : (F.exp a).events = ∅) : (F.exp a).val.IsNumber := by
  obtain ⟨x, rfl⟩ := ha
  exact finish_isNumber h

theorem larger_isNumber {a b : Flo} (ha : a.IsNumber ∨ a = .ninf) (hb : b.IsNumber) : (larger a b).IsNumber := by
  obtain ⟨y, rfl⟩ := hb
  rcases ha with ⟨x, rfl⟩ | rfl
  · exact ⟨_, rfl⟩
  · exact ⟨_, rfl⟩

theorem sum_isNumber {ι : Type} {x : ι → Flo} {l : List ι} (hx : ∀ k ∈ l, (x k).IsNumber) (h : (F.sum x l).events = ∅) :
    (F.sum x l).val.IsNumber := by
  induction l with
  | nil => exact ⟨0, rfl⟩
  | cons k l ih =>
    rw [FloatFormat.sum, Noted.bind_events] at h
    exact add_isNumber (ih (fun j hj => hx j (List.mem_cons_of_mem _ hj)) h.1) (hx k List.mem_cons_self) h.2

theorem zeroed_isNumber (x : Flo) : (zeroed x).IsNumber := by
  cases x <;> exact ⟨_, rfl⟩

theorem neg_isNumber {a : Flo} (ha : a.IsNumber) : (neg a).IsNumber := by
  obtain ⟨x, rfl⟩ := ha
  exact ⟨_, rfl⟩

variable {J A G : Type} [DecidableEq J] [DecidableEq G]

theorem reduction_isNumber {rows : List J} {u : J → Flo} (h : ∀ j, (u j).IsNumber) : (flReduction rows u).IsNumber := by
  unfold flReduction
  refine larger_isNumber ?_ ⟨0, rfl⟩
  induction rows with
  | nil => exact Or.inr rfl
  | cons k l ih =>
    rw [List.foldr_cons]
    obtain ⟨x, hx⟩ := h k
    rw [hx]
    rcases ih with ⟨y, hy⟩ | hy
    · rw [hy]
      exact Or.inl ⟨_, rfl⟩
    · rw [hy]
      exact Or.inl ⟨_, rfl⟩

theorem utilities_isNumber {m : Market J A G} {delta : J → Flo} {mu : J → A → Flo} {i : A} {j : J} (hd : (delta j).IsNumber)
    (hm : (mu j i).IsNumber) (h : (flUtilities F m delta mu i j).events = ∅) : (flUtilities F m delta mu i j).val.IsNumber := by
  unfold flUtilities at h ⊢
  rw [Noted.bind_events] at h
  rw [Noted.bind_val]
  have hx := add_isNumber hd hm h.1
  obtain ⟨-, h2⟩ := h
  cases hn : m.nesting with
  | none =>
    simp only [hn] at h2 ⊢
    by_cases he : m.epsilonScale ≠ 1
    · rw [if_pos he] at h2 ⊢
      exact div_isNumber hx ⟨_, rfl⟩ h2
    · rw [if_neg he] at h2 ⊢
      exact hx
  | some n =>
    simp only [hn] at h2 ⊢
    rw [Noted.bind_events] at h2
    exact div_isNumber hx (sub_isNumber ⟨_, rfl⟩ ⟨_, rfl⟩ h2.1) h2.2

theorem exponentiated_isNumber {safe : Bool} {rows : List J} {u : J → Flo} (hu : ∀ j, (u j).IsNumber)
    (h : (flExponentiated F safe rows u).events = ∅) :
    (∀ j, ((flExponentiated F safe rows u).val.2 j).IsNumber) ∧ ∀ r, (flExponentiated F safe rows u).val.1 = some r → r.IsNumber := by
  unfold flExponentiated at h ⊢
  cases safe with
  | true =>
    simp only [if_true] at h ⊢
    have hr := reduction_isNumber (rows := rows) hu
    rw [Noted.bind_events, Noted.each_events] at h
    refine ⟨fun j => ?_, fun r hr' => ?_⟩
    · have h1 := h.1 j
      rw [Noted.bind_events] at h1
      exact exp_isNumber (sub_isNumber (hu j) hr h1.1) h1.2
    · rw [← Option.some.inj hr']
      exact hr
  | false =>
    simp only [Bool.false_eq_true, if_false] at h ⊢
    rw [Noted.bind_events, Noted.each_events] at h
    refine ⟨fun j => exp_isNumber (hu j) (h.1 j), fun r hr => ?_⟩
    exact absurd hr (by simp [Noted.bind, Noted.pure])

theorem restrict_isNumber {m : Market J A G} {o : ProbOpts J A} {e : J → Flo} {i : A} (he : ∀ j, (e j).IsNumber)
    (h : (flRestrict F m o e i).events = ∅) (j : J) : ((flRestrict F m o e i).val j).IsNumber := by
  unfold flRestrict at h ⊢
  rw [Noted.each_events] at h
  have h1 := h j
  rw [Noted.bind_events] at h1
  rw [Noted.each_val, Noted.bind_val, Noted.pure_val]
  by_cases hel : o.eliminateProduct = some j ∨ o.eliminateMask j = true
  · rw [if_pos hel]
    exact ⟨0, rfl⟩
  · rw [if_neg hel]
    cases ha : (o.availability <|> m.availability) with
    | none => exact he j
    | some a =>
      simp only [ha] at h1
      exact mul_isNumber (he j) ⟨_, rfl⟩ h1.1

theorem plain_isNumber {eo : Bool} {rows : List J} {r : Option Flo} {e : J → Flo} (hr : ∀ x, r = some x → x.IsNumber)
    (he : ∀ j, (e j).IsNumber) (h : (flPlain F eo rows r e).events = ∅) (j : J) : ((flPlain F eo rows r e).val j).IsNumber := by
  unfold flPlain at h ⊢
  rw [Noted.bind_events, Noted.bind_events, Noted.bind_events, Noted.each_events] at h
  obtain ⟨h1, h2, h3, h4⟩ := h
  have hs : (flPlainScale F eo r).val.IsNumber := by
    unfold flPlainScale at h1 ⊢
    rw [Noted.bind_events] at h1
    rw [Noted.bind_val, Noted.pure_val]
    cases eo with
    | true => exact ⟨0, rfl⟩
    | false =>
      simp only [Bool.false_eq_true, if_false]
      cases r with
      | none => exact ⟨1, rfl⟩
      | some x => exact exp_isNumber (neg_isNumber (hr x rfl)) h1.1
  exact div_isNumber (he j) (add_isNumber hs (sum_isNumber (fun k _ => he k) h2) h3) (h4 j)

theorem nestedScale_isNumber {n : Nesting J G} {eo : Bool} {r : Option Flo} {g : G} (hr : ∀ x, r = some x → x.IsNumber)
    (h : (flNestedScale F n eo r g).events = ∅) : (flNestedScale F n eo r g).val.IsNumber := by
  unfold flNestedScale at h ⊢
  rw [Noted.bind_events] at h
  rw [Noted.bind_val, Noted.pure_val]
  cases eo with
  | true => exact ⟨0, rfl⟩
  | false =>
    simp only [Bool.false_eq_true, if_false]
    cases r with
    | none => exact ⟨1, rfl⟩
    | some x =>
      have h1 := h.1
      simp only at h1 ⊢
      rw [Noted.bind_events, Noted.bind_events] at h1
      exact exp_isNumber (mul_isNumber (neg_isNumber (hr x rfl)) (sub_isNumber ⟨_, rfl⟩ ⟨_, rfl⟩ h1.1) h1.2.1) h1.2.2

theorem scaleWeight_isNumber {n : Nesting J G} {r : Option Flo} {a b : G} (hr : ∀ x, r = some x → x.IsNumber)
    (h : (flScaleWeight F n r a b).events = ∅) : (flScaleWeight F n r a b).val.IsNumber := by
  unfold flScaleWeight at h ⊢
  cases r with
  | none => exact ⟨1, rfl⟩
  | some x =>
    simp only at h ⊢
    by_cases hs : n.rho.sizeGtOne = true
    · rw [if_pos hs] at h ⊢
      rw [Noted.bind_events, Noted.bind_events] at h
      exact exp_isNumber (mul_isNumber (neg_isNumber (hr x rfl)) (sub_isNumber ⟨_, rfl⟩ ⟨_, rfl⟩ h.1) h.2.1) h.2.2
    · rw [if_neg hs]
      exact ⟨1, rfl⟩

theorem nested_isNumber {n : Nesting J G} {eo : Bool} {rows : List J} {groups : List G} {r : Option Flo} {e : J → Flo}
    (hr : ∀ x, r = some x → x.IsNumber) (h : (flNested F n eo rows groups r e).events = ∅) (j : J) :
    ((flNested F n eo rows groups r e).val.1 j).IsNumber := by
  unfold flNested at h ⊢
  rw [Noted.bind_events, Noted.bind_events, Noted.bind_events, Noted.bind_events, Noted.bind_events, Noted.each_events] at h
  obtain ⟨-, -, -, h4, h5, -⟩ := h
  have h5j := Noted.each_events.mp h5 j
  refine mul_isNumber (zeroed_isNumber _) ?_ h5j
  unfold flMarginals at h4 ⊢
  have h6 := Noted.each_events.mp h4 (n.group j)
  rw [Noted.bind_events, Noted.bind_events, Noted.bind_events, Noted.bind_events] at h6
  obtain ⟨h7, h8, h9, h10, h11⟩ := h6
  refine div_isNumber (zeroed_isNumber _) (add_isNumber (nestedScale_isNumber hr h7) (sum_isNumber (fun k _ => ?_) h9) h10) h11
  have h12 := Noted.each_events.mp h8 k
  rw [Noted.bind_events] at h12
  exact mul_isNumber (scaleWeight_isNumber hr h12.1) (zeroed_isNumber _) h12.2

/-- **C122.** Numbers in, numbers out: if mean utilities and taste terms are numbers and nothing was noticed, then all probabilities are
numbers, however they are computed and however the machine rounds. -/
theorem C122_noticed (F : FloatFormat) (m : Market J A G) (o : ProbOpts J A) (rows : List J) (groups : List G) (delta : J → Flo)
    (mu : J → A → Flo) (i : A) (hd : ∀ j, (delta j).IsNumber) (hm : ∀ j, (mu j i).IsNumber)
    (h : (flProbabilities F m o rows groups delta mu i).events = ∅) (j : J) :
    ((flProbabilities F m o rows groups delta mu i).val j).IsNumber := by
  unfold flProbabilities at h ⊢
  rw [Noted.bind_events, Noted.each_events, Noted.bind_events, Noted.bind_events] at h
  obtain ⟨h1, h2, h3, h4⟩ := h
  have hu : ∀ k, ((Noted.each fun j => flUtilities F m delta mu i j).val k).IsNumber := fun k =>
    utilities_isNumber (hd k) (hm k) (h1 k)
  obtain ⟨he, hr⟩ := exponentiated_isNumber hu h2
  have he' := restrict_isNumber he h3
  cases hn : m.nesting with
  | none =>
    simp only [hn] at h4
    simp only [Noted.bind_val]
    exact plain_isNumber hr he' h4 j
  | some n =>
    simp only [hn] at h4
    simp only [Noted.bind_val]
    rw [Noted.bind_events] at h4
    exact nested_isNumber hr h4.1 j

/-! ## Utilities that are not numbers -/

/-- A problem was noticed, or every result is NaN. -/
def Spec.Revealed (x : Noted (J → Flo)) : Prop := x.events.Nonempty ∨ ∀ j, x.val j = .nan

/-- What rounding never does: turn a number that is not negative into a negative one, or zero into something else. -/
structure FloatFormat.Proper (F : FloatFormat) : Prop where
  mono : Monotone F.round
  zero : F.round 0 = 0
  largest : 0 ≤ F.largest

theorem add_nan_left (b : Flo) : F.add .nan b = ⟨.nan, ∅⟩ := by cases b <;> rfl

theorem add_nan_right (a : Flo) : F.add a .nan = ⟨.nan, ∅⟩ := by cases a <;> rfl

theorem add_pinf {a : Flo} : (F.add a .pinf).events.Nonempty ∨ (F.add a .pinf).val.Bad := by
  cases a with
  | nan => exact Or.inr (Or.inl rfl)
  | pinf => exact Or.inr (Or.inr rfl)
  | ninf => exact Or.inl ⟨_, rfl⟩
  | fin x => exact Or.inr (Or.inr rfl)

theorem pinf_add {a : Flo} : (F.add .pinf a).events.Nonempty ∨ (F.add .pinf a).val.Bad := by
  cases a with
  | nan => exact Or.inr (Or.inl rfl)
  | pinf => exact Or.inr (Or.inr rfl)
  | ninf => exact Or.inl ⟨_, rfl⟩
  | fin x => exact Or.inr (Or.inr rfl)

theorem bad_add {a b : Flo} (h : a.Bad) : (F.add a b).events.Nonempty ∨ (F.add a b).val.Bad := by
  rcases h with rfl | rfl
  · rw [add_nan_left]
    exact Or.inr (Or.inl rfl)
  · exact pinf_add

theorem add_bad {a b : Flo} (h : b.Bad) : (F.add a b).events.Nonempty ∨ (F.add a b).val.Bad := by
  rcases h with rfl | rfl
  · rw [add_nan_right]
    exact Or.inr (Or.inl rfl)
  · exact add_pinf

theorem div_nan_left (b : Flo) : F.div .nan b = ⟨.nan, ∅⟩ := by cases b <;> rfl

theorem div_nan_right (a : Flo) : F.div a .nan = ⟨.nan, ∅⟩ := by cases a <;> rfl

theorem mul_nan_left (b : Flo) : F.mul .nan b = ⟨.nan, ∅⟩ := by cases b <;> rfl

theorem mul_nan_right (a : Flo) : F.mul a .nan = ⟨.nan, ∅⟩ := by cases a <;> rfl

theorem bad_div {a : Flo} {y : ℝ} (h : a.Bad) (hy : 0 ≤ y) : (F.div a (.fin y)).val.Bad := by
  rcases h with rfl | rfl
  · rw [div_nan_left]
    exact Or.inl rfl
  · unfold FloatFormat.div FloatFormat.infinite
    simp only [if_pos hy, if_true]
    exact Or.inr rfl

theorem bad_mul {a : Flo} {y : ℝ} (h : a.Bad) (hy : 0 ≤ y) : (F.mul a (.fin y)).events.Nonempty ∨ (F.mul a (.fin y)).val.Bad := by
  rcases h with rfl | rfl
  · rw [mul_nan_left]
    exact Or.inr (Or.inl rfl)
  · unfold FloatFormat.mul FloatFormat.infinite
    by_cases h0 : y = 0
    · simp only [h0, if_true]
      exact Or.inl ⟨_, rfl⟩
    · simp only [h0, hy, if_true, if_false]
      exact Or.inr (Or.inr rfl)

theorem bad_exp {a : Flo} (h : a.Bad) : (F.exp a).val.Bad := by
  rcases h with rfl | rfl
  · exact Or.inl rfl
  · exact Or.inr rfl

theorem sum_nan {ι : Type} {x : ι → Flo} {l : List ι} {k : ι} (hk : k ∈ l) (h : x k = .nan) : (F.sum x l).val = .nan := by
  induction l with
  | nil => exact absurd hk List.not_mem_nil
  | cons j l ih =>
    rw [FloatFormat.sum, Noted.bind_val]
    rcases List.mem_cons.mp hk with rfl | hk
    · rw [h, add_nan_right]
    · rw [ih hk, add_nan_left]

theorem sum_bad {ι : Type} {x : ι → Flo} {l : List ι} {k : ι} (hk : k ∈ l) (h : (x k).Bad) :
    (F.sum x l).events.Nonempty ∨ (F.sum x l).val.Bad := by
  induction l with
  | nil => exact absurd hk List.not_mem_nil
  | cons j l ih =>
    rw [FloatFormat.sum]
    rcases List.mem_cons.mp hk with rfl | hk
    · rcases add_bad (F := F) (a := (F.sum x l).val) h with h1 | h1
      · exact Or.inl (Noted.bind_nonempty_right h1)
      · exact Or.inr h1
    · rcases ih hk with h1 | h1
      · exact Or.inl (Noted.bind_nonempty_left h1)
      · rcases bad_add (F := F) (b := x j) h1 with h2 | h2
        · exact Or.inl (Noted.bind_nonempty_right h2)
        · exact Or.inr h2

theorem larger_nan_right (a : Flo) : larger a .nan = .nan := by cases a <;> rfl

theorem larger_nan_left (a : Flo) : larger .nan a = .nan := by cases a <;> rfl

theorem bad_larger {a b : Flo} (h : a.Bad) : (larger a b).Bad := by
  rcases h with rfl | rfl
  · rw [larger_nan_left]
    exact Or.inl rfl
  · cases b with
    | nan => exact Or.inl rfl
    | pinf => exact Or.inr rfl
    | ninf => exact Or.inr rfl
    | fin x => exact Or.inr rfl

theorem larger_bad {a b : Flo} (h : b.Bad) : (larger a b).Bad := by
  rcases h with rfl | rfl
  · rw [larger_nan_right]
    exact Or.inl rfl
  · cases a with
    | nan => exact Or.inl rfl
    | pinf => exact Or.inr rfl
    | ninf => exact Or.inr rfl
    | fin x => exact Or.inr rfl

theorem reduction_bad {rows : List J} {u : J → Flo} {k : J} (hk : k ∈ rows) (h : (u k).Bad) : (flReduction rows u).Bad := by
  unfold flReduction
  refine bad_larger ?_
  induction rows with
  | nil => exact absurd hk List.not_mem_nil
  | cons j l ih =>
    rw [List.foldr_cons]
    rcases List.mem_cons.mp hk with rfl | hk
    · exact bad_larger h
    · exact larger_bad (ih hk)

/-- If the largest utility is infinite, one of the utilities is or there are NaN. -/
theorem reduction_pinf {rows : List J} {u : J → Flo} (h : flReduction rows u = .pinf) : ∃ k ∈ rows, u k = .pinf := by
  unfold flReduction at h
  have h' : rows.foldr (fun j r => larger (u j) r) .ninf = .pinf := by
    cases hx : rows.foldr (fun j r => larger (u j) r) .ninf with
    | nan => rw [hx] at h; exact absurd h (by simp [larger])
    | pinf => rfl
    | ninf => rw [hx] at h; exact absurd h (by simp [larger])
    | fin x => rw [hx] at h; exact absurd h (by simp [larger])
  clear h
  induction rows with
  | nil => exact absurd h' (by simp)
  | cons j l ih =>
    rw [List.foldr_cons] at h'
    by_cases hj : u j = .pinf
    · exact ⟨j, List.mem_cons_self, hj⟩
    · have h2 : l.foldr (fun j r => larger (u j) r) .ninf = .pinf := by
        cases hx : l.foldr (fun j r => larger (u j) r) .ninf with
        | pinf => rfl
        | nan => rw [hx, larger_nan_right] at h'; exact absurd h' (by simp)
        | ninf =>
          rw [hx] at h'
          cases hu : u j <;> rw [hu] at h' hj <;> simp_all [larger]
        | fin x =>
          rw [hx] at h'
          cases hu : u j <;> rw [hu] at h' hj <;> simp_all [larger]
      obtain ⟨k, hk, hk'⟩ := ih h2
      exact ⟨k, List.mem_cons_of_mem _ hk, hk'⟩

/-- Utilities are bad, or that was noticed, if mean utilities or taste terms are bad. -/
theorem utilities_bad (hF : F.Proper) {m : Market J A G} {delta : J → Flo} {mu : J → A → Flo} {i : A} {k : J}
    (heps : 0 < m.epsilonScale) (hrho : RhoBelowOne m) (h : (delta k).Bad ∨ (mu k i).Bad) :
    (flUtilities F m delta mu i k).events.Nonempty ∨ (flUtilities F m delta mu i k).val.Bad := by
  unfold flUtilities
  have hadd : (F.add (delta k) (mu k i)).events.Nonempty ∨ (F.add (delta k) (mu k i)).val.Bad := h.elim bad_add add_bad
  rcases hadd with h1 | h1
  · exact Or.inl (Noted.bind_nonempty_left h1)
  · cases hn : m.nesting with
    | none =>
      right
      rw [Noted.bind_val]
      by_cases he : m.epsilonScale ≠ 1
      · simp only [if_pos he]
        exact bad_div h1 heps.le
      · simp only [if_neg he]
        exact h1
    | some n =>
      rw [Noted.bind_val]
      by_cases hs : (F.sub (.fin 1) (.fin (n.productRho k))).events = ∅
      · right
        have hs' : F.sub (.fin 1) (.fin (n.productRho k)) = ⟨.fin (F.round (1 + -n.productRho k)), ∅⟩ := finish_number hs
        have hpos : 0 ≤ F.round (1 + -n.productRho k) := by
          rw [← hF.zero]
          refine hF.mono ?_
          have := hrho n hn (n.group k)
          unfold Nesting.productRho
          linarith
        simp only [hs', Noted.mk_bind]
        exact bad_div h1 hpos
      · left
        refine Noted.bind_nonempty_right ?_
        exact Noted.bind_nonempty_left (Set.nonempty_iff_ne_empty.mpr hs)

theorem sub_pinf_pinf : F.sub .pinf .pinf = ⟨.nan, {.invalid}⟩ := rfl

theorem sub_nan_right (a : Flo) : F.sub a .nan = ⟨.nan, ∅⟩ := add_nan_right a

theorem neg_fin_mul_nan (a : Flo) : F.mul (neg .nan) a = ⟨.nan, ∅⟩ := mul_nan_left a

/-- With the reduction, bad utilities are noticed at once or make the reduction NaN. -/
theorem exponentiated_bad {rows : List J} {u : J → Flo} {k : J} (hk : k ∈ rows) (h : (u k).Bad) :
    (flExponentiated F true rows u).events.Nonempty ∨
      ((flExponentiated F true rows u).val.1 = some .nan ∧ ∀ j, (flExponentiated F true rows u).val.2 j = .nan) := by
  unfold flExponentiated
  simp only [if_true]
  rcases reduction_bad hk h with hr | hr
  · right
    rw [hr]
    refine ⟨rfl, fun j => ?_⟩
    change (Noted.each fun j => (F.sub (u j) Flo.nan).bind F.exp).val j = Flo.nan
    rw [Noted.each_val, sub_nan_right]
    rfl
  · left
    obtain ⟨j, -, hj⟩ := reduction_pinf hr
    refine Noted.bind_nonempty_left (Noted.each_nonempty j (Noted.bind_nonempty_left ?_))
    rw [hr, hj, sub_pinf_pinf]
    exact ⟨_, rfl⟩

theorem plain_nan {eo : Bool} {rows : List J} {r : Option Flo} {e : J → Flo} {k : J} (hk : k ∈ rows) (h : e k = .nan) :
    Spec.Revealed (flPlain F eo rows r e) := by
  right
  intro j
  unfold flPlain
  rw [Noted.bind_val, Noted.bind_val, Noted.bind_val, Noted.each_val, sum_nan hk h, add_nan_right, div_nan_right]

theorem plain_bad {eo : Bool} {rows : List J} {r : Option Flo} {e : J → Flo} {k : J} (hk : k ∈ rows) (h : (e k).Bad) :
    Spec.Revealed (flPlain F eo rows r e) := by
  rcases h with h | h
  · exact plain_nan hk h
  · unfold flPlain
    have hs := sum_bad (F := F) hk (x := e) (Or.inr h)
    rcases hs with hs | hs
    · exact Or.inl (Noted.bind_nonempty_right (Noted.bind_nonempty_left hs))
    · have ha := add_bad (F := F) (a := (flPlainScale F eo r).val) hs
      rcases ha with ha | ha
      · exact Or.inl (Noted.bind_nonempty_right (Noted.bind_nonempty_right (Noted.bind_nonempty_left ha)))
      · rcases ha with ha | ha
        · right
          intro j
          rw [Noted.bind_val, Noted.bind_val, Noted.bind_val, Noted.each_val, ha, div_nan_right]
        · left
          refine Noted.bind_nonempty_right (Noted.bind_nonempty_right (Noted.bind_nonempty_right (Noted.each_nonempty k ?_)))
          rw [h, ha]
          exact ⟨_, rfl⟩

theorem restrict_bad {m : Market J A G} {o : ProbOpts J A} {e : J → Flo} {i : A} {k : J} (h : (e k).Bad)
    (ha : AvailabilityNonneg m o i) (h1 : o.eliminateProduct ≠ some k) (h2 : o.eliminateMask k = false) :
    (flRestrict F m o e i).events.Nonempty ∨ ((flRestrict F m o e i).val k).Bad := by
  unfold flRestrict
  have hel : ¬ (o.eliminateProduct = some k ∨ o.eliminateMask k = true) := by simp [h1, h2]
  rw [Noted.each_val, Noted.bind_val, Noted.pure_val, if_neg hel]
  cases hav : (o.availability <|> m.availability) with
  | none => exact Or.inr h
  | some a =>
    rcases bad_mul (F := F) h (ha a hav k) with h3 | h3
    · left
      refine Noted.each_nonempty k (Noted.bind_nonempty_left ?_)
      exact h3
    · exact Or.inr h3

/-- **C122.** Without nests, a product whose mean utility or taste term is NaN or infinite makes all of the agent's probabilities NaN, or
is noticed: the agent is never taken to choose something. -/
theorem C122_bad_plain (F : FloatFormat) (hF : F.Proper) (m : Market J A G) (o : ProbOpts J A) (rows : List J) (groups : List G)
    (delta : J → Flo) (mu : J → A → Flo) (i : A) (hn : m.nesting = none) (heps : 0 < m.epsilonScale) (ha : AvailabilityNonneg m o i)
    (k : J) (hk : k ∈ rows) (h1 : o.eliminateProduct ≠ some k) (h2 : o.eliminateMask k = false)
    (h : (delta k).Bad ∨ (mu k i).Bad) : Spec.Revealed (flProbabilities F m o rows groups delta mu i) := by
  unfold flProbabilities
  rcases utilities_bad hF heps (fun n h' => by rw [hn] at h'; cases h') h with hu | hu
  · exact Or.inl (Noted.bind_nonempty_left (Noted.each_nonempty k hu))
  · have he : (flExponentiated F o.safe rows (Noted.each fun j => flUtilities F m delta mu i j).val).events.Nonempty ∨
        ((flExponentiated F o.safe rows (Noted.each fun j => flUtilities F m delta mu i j).val).val.2 k).Bad := by
      cases o.safe with
      | true =>
        rcases exponentiated_bad (F := F) hk (u := (Noted.each fun j => flUtilities F m delta mu i j).val) hu with h3 | h3
        · exact Or.inl h3
        · exact Or.inr (Or.inl (h3.2 k))
      | false =>
        right
        unfold flExponentiated
        simp only [Bool.false_eq_true, if_false]
        exact bad_exp hu
    rcases he with he | he
    · exact Or.inl (Noted.bind_nonempty_right (Noted.bind_nonempty_left he))
    · rcases restrict_bad (F := F) he ha h1 h2 with h3 | h3
      · exact Or.inl (Noted.bind_nonempty_right (Noted.bind_nonempty_right (Noted.bind_nonempty_left h3)))
      · simp only [hn]
        rcases plain_bad (F := F) (eo := o.eliminateOutside)
          (r := (flExponentiated F o.safe rows (Noted.each fun j => flUtilities F m delta mu i j).val).val.1) hk h3 with h4 | h4
        · exact Or.inl (Noted.bind_nonempty_right (Noted.bind_nonempty_right (Noted.bind_nonempty_right h4)))
        · exact Or.inr h4

theorem finish_zero (hF : F.Proper) : F.finish 0 = ⟨.fin 0, ∅⟩ := by
  have := finish_within (F := F) (x := 0) (by rw [hF.zero, abs_zero]; exact hF.largest)
  rw [this, hF.zero]

theorem sum_zero (hF : F.Proper) {ι : Type} {x : ι → Flo} {l : List ι} (h : ∀ k ∈ l, x k = .fin 0) : F.sum x l = ⟨.fin 0, ∅⟩ := by
  induction l with
  | nil => rfl
  | cons k l ih =>
    rw [FloatFormat.sum, ih fun j hj => h j (List.mem_cons_of_mem _ hj), Noted.mk_bind, h k List.mem_cons_self]
    change F.finish (0 + 0) = _
    rw [add_zero, finish_zero hF]

theorem sum_nan_or_zero (hF : F.Proper) {ι : Type} {x : ι → Flo} {l : List ι} (h : ∀ k ∈ l, x k = .nan ∨ x k = .fin 0) :
    (F.sum x l).val = .nan ∨ (F.sum x l).val = .fin 0 := by
  by_cases h' : ∃ k ∈ l, x k = .nan
  · obtain ⟨k, hk, hk'⟩ := h'
    exact Or.inl (sum_nan hk hk')
  · right
    rw [sum_zero hF fun k hk => (h k hk).resolve_left fun h1 => h' ⟨k, hk, h1⟩]

/-- `1 - rho` is a number that is not negative, or a problem that is not ignored. -/
theorem oneMinus (hF : F.Proper) {n : Nesting J G} {g : G} (hg : n.rho.groupRho g < 1) :
    F.sub (.fin 1) (.fin (n.rho.groupRho g)) = ⟨.fin (F.round (1 + -n.rho.groupRho g)), ∅⟩ ∧ 0 ≤ F.round (1 + -n.rho.groupRho g) ∨
      FpProblem.over ∈ (F.sub (.fin 1) (.fin (n.rho.groupRho g))).events := by
  have hpos : 0 ≤ F.round (1 + -n.rho.groupRho g) := by
    rw [← hF.zero]
    refine hF.mono ?_
    linarith
  change F.finish (1 + -n.rho.groupRho g) = _ ∧ _ ∨ FpProblem.over ∈ (F.finish (1 + -n.rho.groupRho g)).events
  by_cases h : (F.finish (1 + -n.rho.groupRho g)).events = ∅
  · exact Or.inl ⟨finish_number h, hpos⟩
  · right
    unfold FloatFormat.finish at h ⊢
    by_cases h1 : F.largest < F.round (1 + -n.rho.groupRho g)
    · rw [if_pos h1]
      rfl
    · rw [if_neg h1] at h ⊢
      by_cases h2 : F.round (1 + -n.rho.groupRho g) < -F.largest
      · rw [if_pos h2]
        rfl
      · rw [if_neg h2] at h
        exact absurd rfl h

/-- Nests whose inclusive value is NaN or zero get no weight. -/
theorem weightedInclusives_zero (hF : F.Proper) {n : Nesting J G} (hrho : ∀ g, n.rho.groupRho g < 1) {I : G → Flo} {g : G}
    (h : I g = .nan ∨ I g = .fin 0) :
    (flWeightedInclusives F n I).events.Nonempty ∨ (flWeightedInclusives F n I).val g = .fin 0 := by
  unfold flWeightedInclusives
  rcases oneMinus hF (hrho g) with ⟨hd, hpos⟩ | hov
  · right
    change zeroed ((F.log (I g)).bind fun l => (F.sub (.fin 1) (.fin (n.rho.groupRho g))).bind fun d => (F.mul l d).bind F.exp).val = _
    rw [hd]
    rcases h with h | h
    · rw [h]
      rfl
    · rw [h]
      unfold FloatFormat.log
      simp only [if_true]
      rw [Noted.bind_val, Noted.bind_val]
      dsimp only
      by_cases h0 : F.round (1 + -n.rho.groupRho g) = 0
      · rw [h0]
        simp [FloatFormat.mul, Noted.bind, FloatFormat.exp, zeroed]
      · simp [FloatFormat.mul, Noted.bind, FloatFormat.exp, zeroed, h0, FloatFormat.infinite, hpos]
  · left
    refine Noted.bind_nonempty_left ⟨.over, ?_, by simp⟩
    refine ⟨g, ?_⟩
    exact Or.inr (Or.inl hov)

theorem marginals_nan_scale {n : Nesting J G} {groups : List G} {w : G → Flo} {g : G} :
    (flMarginals F n false groups (some .nan) w).val g = .nan := by
  unfold flMarginals
  rw [Noted.each_val, Noted.bind_val, Noted.bind_val, Noted.bind_val, Noted.bind_val]
  have hs : (flNestedScale F n false (some .nan) g).val = .nan := by
    unfold flNestedScale
    simp only [Bool.false_eq_true, if_false]
    rw [Noted.bind_val, Noted.bind_val, Noted.bind_val, neg_fin_mul_nan]
    rfl
  rw [hs, add_nan_left, div_nan_right]

/-- **C122.** With nests and overflow protection (`safe=True`, `fp_type='safe_linear'`, which is the default), a product whose mean utility
or taste term is NaN or infinite makes all of the agent's probabilities NaN, or is noticed, even if the product is eliminated. -/
theorem C122_bad_nested_safe (F : FloatFormat) (hF : F.Proper) (m : Market J A G) (o : ProbOpts J A) (rows : List J) (groups : List G)
    (delta : J → Flo) (mu : J → A → Flo) (i : A) (n : Nesting J G) (hn : m.nesting = some n) (hsafe : o.safe = true)
    (heps : 0 < m.epsilonScale) (hrho : RhoBelowOne m) (k : J) (hk : k ∈ rows) (hg : n.group k ∈ groups)
    (h : (delta k).Bad ∨ (mu k i).Bad) : Spec.Revealed (flProbabilities F m o rows groups delta mu i) := by
  unfold flProbabilities
  rcases utilities_bad hF heps hrho h with hu | hu
  · exact Or.inl (Noted.bind_nonempty_left (Noted.each_nonempty k hu))
  · rw [hsafe]
    rcases exponentiated_bad (F := F) hk (u := (Noted.each fun j => flUtilities F m delta mu i j).val) hu with h3 | ⟨hr, he⟩
    · exact Or.inl (Noted.bind_nonempty_right (Noted.bind_nonempty_left h3))
    · generalize hE : flExponentiated F true rows (Noted.each fun j => flUtilities F m delta mu i j).val = E at hr he
      have hres : ∀ j, (flRestrict F m o E.val.2 i).val j = .nan ∨ (flRestrict F m o E.val.2 i).val j = .fin 0 := by
        intro j
        unfold flRestrict
        rw [Noted.each_val, Noted.bind_val, Noted.pure_val]
        by_cases hel : o.eliminateProduct = some j ∨ o.eliminateMask j = true
        · rw [if_pos hel]
          exact Or.inr rfl
        · rw [if_neg hel]
          left
          cases hav : (o.availability <|> m.availability) with
          | none => exact he j
          | some a =>
            change (F.mul (E.val.2 j) _).val = _
            rw [he j, mul_nan_left]
      have hnested : Spec.Revealed ((flNested F n o.eliminateOutside rows groups E.val.1 (flRestrict F m o E.val.2 i).val).bind
          fun pc => .pure pc.1) := by
        rw [hr]
        generalize (flRestrict F m o E.val.2 i).val = e at hres
        cases heo : o.eliminateOutside with
        | false =>
          right
          intro j
          change (F.mul _ ((flMarginals F n false groups (some .nan) _).val (n.group j))).val = _
          rw [marginals_nan_scale, mul_nan_right]
        | true =>
          have hI : ∀ g, (Noted.each fun g => F.sum e (rows.filter fun k => n.group k = g)).val g = .nan ∨
              (Noted.each fun g => F.sum e (rows.filter fun k => n.group k = g)).val g = .fin 0 := fun g =>
            sum_nan_or_zero hF fun j _ => hres j
          unfold flNested
          generalize (Noted.each fun g => F.sum e (rows.filter fun k => n.group k = g)) = I at hI
          by_cases hw : (flWeightedInclusives F n I.val).events = ∅
          · have hw0 : ∀ g, (flWeightedInclusives F n I.val).val g = .fin 0 := fun g =>
              (weightedInclusives_zero hF (hrho n hn) (hI g)).resolve_left fun h' => (Set.nonempty_iff_ne_empty.mp h') hw
            generalize hW : flWeightedInclusives F n I.val = W at hw0
            have hM : (flMarginals F n true groups (some .nan) W.val).events.Nonempty ∨
                ∀ g, (flMarginals F n true groups (some .nan) W.val).val g = .nan := by
              cases hsz : n.rho.sizeGtOne with
              | false =>
                left
                unfold flMarginals
                refine Noted.each_nonempty (n.group k) (Noted.bind_nonempty_right (Noted.bind_nonempty_right
                  (Noted.bind_nonempty_right (Noted.bind_nonempty_right ?_))))
                have hx : ∀ h, ((flScaleWeight F n (some .nan) (n.group k) h).bind fun s => F.mul s (W.val h)) = ⟨.fin 0, ∅⟩ := by
                  intro h
                  unfold flScaleWeight
                  simp only [hsz, Bool.false_eq_true, if_false]
                  rw [Noted.pure, Noted.mk_bind, hw0 h]
                  change F.finish (1 * 0) = _
                  rw [mul_zero, finish_zero hF]
                rw [Noted.each_mk hx, sum_zero hF fun _ _ => rfl, hw0]
                have hs : (flNestedScale F n true (some .nan) (n.group k)).val = .fin 0 := rfl
                rw [hs]
                change (F.div (.fin 0) (F.finish (0 + 0)).val).events.Nonempty
                rw [add_zero, finish_zero hF]
                unfold FloatFormat.div
                simp only [if_true]
                exact ⟨_, rfl⟩
              | true =>
                right
                intro g
                unfold flMarginals
                rw [Noted.each_val, Noted.bind_val, Noted.bind_val, Noted.bind_val, Noted.bind_val]
                have hx : (Noted.each fun h => (flScaleWeight F n (some .nan) g h).bind fun s => F.mul s (W.val h)).val (n.group k) = .nan := by
                  rw [Noted.each_val, Noted.bind_val]
                  unfold flScaleWeight
                  simp only [hsz, if_true]
                  rw [Noted.bind_val, Noted.bind_val, neg_fin_mul_nan]
                  exact congrArg Noted.val (mul_nan_left _)
                rw [sum_nan hg hx, add_nan_right, div_nan_right]
            subst hW
            rcases hM with hM | hM
            · exact Or.inl (Noted.bind_nonempty_left (Noted.bind_nonempty_right (Noted.bind_nonempty_right
                (Noted.bind_nonempty_right (Noted.bind_nonempty_left hM)))))
            · right
              intro j
              change (F.mul _ ((flMarginals F n true groups (some .nan) (flWeightedInclusives F n I.val).val).val (n.group j))).val = _
              rw [hM, mul_nan_right]
          · exact Or.inl (Noted.bind_nonempty_left (Noted.bind_nonempty_right (Noted.bind_nonempty_left
              (Set.nonempty_iff_ne_empty.mpr hw))))
      subst hE
      simp only [hn]
      rcases hnested with h4 | h4
      · exact Or.inl (Noted.bind_nonempty_right (Noted.bind_nonempty_right (Noted.bind_nonempty_right h4)))
      · exact Or.inr h4

theorem weightedInclusives_bad (hF : F.Proper) {n : Nesting J G} (hrho : ∀ g, n.rho.groupRho g < 1) {I : G → Flo} {g : G}
    (h : (I g).Bad) : (flWeightedInclusives F n I).events.Nonempty ∨ (flWeightedInclusives F n I).val g = .fin 0 := by
  rcases h with h | h
  · exact weightedInclusives_zero hF hrho (Or.inl h)
  · unfold flWeightedInclusives
    rcases oneMinus hF (hrho g) with ⟨hd, hpos⟩ | hov
    · right
      change zeroed ((F.log (I g)).bind fun l => (F.sub (.fin 1) (.fin (n.rho.groupRho g))).bind fun d => (F.mul l d).bind F.exp).val = _
      rw [hd, h, Noted.bind_val, Noted.bind_val]
      by_cases h0 : F.round (1 + -n.rho.groupRho g) = 0
      · rw [h0]
        simp [FloatFormat.log, FloatFormat.mul, Noted.bind, FloatFormat.exp, zeroed]
      · simp [FloatFormat.log, FloatFormat.mul, Noted.bind, FloatFormat.exp, zeroed, h0, FloatFormat.infinite, hpos]
    · left
      refine Noted.bind_nonempty_left ⟨.over, ?_, by simp⟩
      refine ⟨g, ?_⟩
      exact Or.inr (Or.inl hov)

/-- Weights do not depend on inclusive values of other nests. -/
theorem weightedInclusives_congr {n : Nesting J G} {I I' : G → Flo} {g : G} (h : I g = I' g) :
    (flWeightedInclusives F n I).val g = (flWeightedInclusives F n I').val g := by
  unfold flWeightedInclusives
  rw [Noted.bind_val, Noted.bind_val, Noted.pure_val, Noted.pure_val]
  change zeroed ((F.log (I g)).bind fun l => (F.sub (.fin 1) (.fin (n.rho.groupRho g))).bind fun d => (F.mul l d).bind F.exp).val =
    zeroed ((F.log (I' g)).bind fun l => (F.sub (.fin 1) (.fin (n.rho.groupRho g))).bind fun d => (F.mul l d).bind F.exp).val
  rw [h]

theorem conditionals_val {n : Nesting J G} {e : J → Flo} {I : G → Flo} (j : J) :
    (flConditionals F n e I).val j = zeroed (F.div (e j) (I (n.group j))).val := rfl

theorem zeroed_div_bad {a b : Flo} (h : b.Bad) : zeroed (F.div a b).val = .fin 0 := by
  rcases h with rfl | rfl
  · rw [div_nan_right]
    rfl
  · cases a <;> rfl

theorem zeroed_zero_div_zero : zeroed (F.div (.fin 0) (.fin 0)).val = .fin 0 := by
  unfold FloatFormat.div
  simp only [if_true]
  rfl

/-- Without overflow protection, a nest whose inclusive value is NaN or infinite is treated as if all exponentiated utilities in it were
zero. -/
theorem nested_ignored (hF : F.Proper) {n : Nesting J G} (hrho : ∀ g, n.rho.groupRho g < 1) {eo : Bool} {rows : List J} {groups : List G}
    {e e' : J → Flo} {g : G} (hin : ∀ j, n.group j = g → e' j = .fin 0) (hout : ∀ j, n.group j ≠ g → e' j = e j)
    (hbad : ((F.sum e (rows.filter fun k => n.group k = g)).val).Bad) :
    (flNested F n eo rows groups none e).events.Nonempty ∨
      (flNested F n eo rows groups none e).val = (flNested F n eo rows groups none e').val := by
  have hI' : (Noted.each fun g => F.sum e' (rows.filter fun k => n.group k = g)).val g = .fin 0 := by
    rw [Noted.each_val, sum_zero hF]
    intro k hk
    exact hin k (by simpa using (List.mem_filter.mp hk).2)
  have hII : ∀ h, h ≠ g → (Noted.each fun g => F.sum e' (rows.filter fun k => n.group k = g)).val h =
      (Noted.each fun g => F.sum e (rows.filter fun k => n.group k = g)).val h := by
    intro h hh
    rw [Noted.each_val, Noted.each_val]
    have : ∀ l : List J, (∀ k ∈ l, n.group k = h) → F.sum e' l = F.sum e l := by
      intro l hl
      induction l with
      | nil => rfl
      | cons k l ih =>
        rw [FloatFormat.sum, FloatFormat.sum, ih fun j hj => hl j (List.mem_cons_of_mem _ hj),
          hout k (by rw [hl k List.mem_cons_self]; exact hh)]
    rw [this _ fun k hk => by simpa using (List.mem_filter.mp hk).2]
  have hI : ((Noted.each fun g => F.sum e (rows.filter fun k => n.group k = g)).val g).Bad := hbad
  unfold flNested
  generalize (Noted.each fun g => F.sum e' (rows.filter fun k => n.group k = g)) = I' at hI' hII
  generalize (Noted.each fun g => F.sum e (rows.filter fun k => n.group k = g)) = I at hI hII
  rcases weightedInclusives_bad hF hrho hI with h1 | h1
  · exact Or.inl (Noted.bind_nonempty_right (Noted.bind_nonempty_left h1))
  · rcases oneMinus hF (hrho g) with ⟨hd, -⟩ | hov
    · right
      have hw : (flWeightedInclusives F n I.val).val = (flWeightedInclusives F n I'.val).val := by
        funext h
        by_cases hh : h = g
        · rw [hh, h1]
          symm
          unfold flWeightedInclusives
          change zeroed ((F.log (I'.val g)).bind fun l => (F.sub (.fin 1) (.fin (n.rho.groupRho g))).bind fun d =>
            (F.mul l d).bind F.exp).val = _
          rw [hd, hI', Noted.bind_val, Noted.bind_val]
          have hlog : (F.log (.fin 0)).val = .ninf := by
            unfold FloatFormat.log
            simp only [if_true]
          rw [hlog]
          have hpos : 0 ≤ F.round (1 + -n.rho.groupRho g) := by
            rw [← hF.zero]
            exact hF.mono (by linarith [hrho g])
          by_cases h0 : F.round (1 + -n.rho.groupRho g) = 0
          · rw [h0]
            simp [FloatFormat.mul, Noted.bind, FloatFormat.exp, zeroed]
          · simp [FloatFormat.mul, Noted.bind, FloatFormat.exp, zeroed, h0, FloatFormat.infinite, hpos]
        · exact weightedInclusives_congr (hII h hh).symm
      have hc : (flConditionals F n e I.val).val = (flConditionals F n e' I'.val).val := by
        funext j
        rw [conditionals_val, conditionals_val]
        by_cases hj : n.group j = g
        · rw [hj, zeroed_div_bad hI, hI', hin j hj, zeroed_zero_div_zero]
        · rw [hII _ hj, hout j hj]
      simp only [Noted.bind_val, Noted.pure_val]
      rw [hw, hc]
    · refine Or.inl (Noted.bind_nonempty_right (Noted.bind_nonempty_left ?_))
      unfold flWeightedInclusives
      refine Noted.bind_nonempty_left ⟨.over, ?_, by simp⟩
      refine ⟨g, ?_⟩
      exact Or.inr (Or.inl hov)

/-- **C122, finding.** With nests and without overflow protection (`fp_type='linear'`), a product whose mean utility or taste term is NaN or
infinite need not be noticed: unless it is, probabilities are those of an agent who is not offered any product in its nest. -/
theorem C122_bad_nested_unsafe (F : FloatFormat) (hF : F.Proper) (m : Market J A G) (o : ProbOpts J A) (rows : List J) (groups : List G)
    (delta : J → Flo) (mu : J → A → Flo) (i : A) (n : Nesting J G) (hn : m.nesting = some n) (hsafe : o.safe = false)
    (heps : 0 < m.epsilonScale) (hrho : RhoBelowOne m) (ha : AvailabilityNonneg m o i) (k : J) (hk : k ∈ rows)
    (h1 : o.eliminateProduct ≠ some k) (h2 : o.eliminateMask k = false) (h : (delta k).Bad ∨ (mu k i).Bad) :
    (flProbabilities F m o rows groups delta mu i).events.Nonempty ∨
      (flProbabilities F m o rows groups delta mu i).val =
        (flProbabilities F m { o with eliminateMask := fun j => o.eliminateMask j || decide (n.group j = n.group k) } rows groups delta mu i).val := by
  unfold flProbabilities
  rcases utilities_bad hF heps hrho h with hu | hu
  · exact Or.inl (Noted.bind_nonempty_left (Noted.each_nonempty k hu))
  · have he : ((flExponentiated F o.safe rows (Noted.each fun j => flUtilities F m delta mu i j).val).val.2 k).Bad := by
      rw [hsafe]
      unfold flExponentiated
      simp only [Bool.false_eq_true, if_false]
      exact bad_exp hu
    have hr : (flExponentiated F o.safe rows (Noted.each fun j => flUtilities F m delta mu i j).val).val.1 = none := by
      rw [hsafe]
      rfl
    generalize hE : flExponentiated F o.safe rows (Noted.each fun j => flUtilities F m delta mu i j).val = E at he hr
    rcases restrict_bad (F := F) he ha h1 h2 with h3 | h3
    · subst hE
      exact Or.inl (Noted.bind_nonempty_right (Noted.bind_nonempty_right (Noted.bind_nonempty_left h3)))
    · have hkf : k ∈ rows.filter fun j => n.group j = n.group k := List.mem_filter.mpr ⟨hk, by simp⟩
      rcases sum_bad (F := F) hkf h3 with h4 | h4
      · subst hE
        refine Or.inl (Noted.bind_nonempty_right (Noted.bind_nonempty_right (Noted.bind_nonempty_right ?_)))
        simp only [hn]
        unfold flNested
        exact Noted.bind_nonempty_left (Noted.bind_nonempty_left (Noted.each_nonempty (n.group k) h4))
      · have hq := nested_ignored (eo := o.eliminateOutside) (groups := groups) hF (hrho n hn) (e := (flRestrict F m o E.val.2 i).val)
          (e' := (flRestrict F m { o with eliminateMask := fun j => o.eliminateMask j || decide (n.group j = n.group k) } E.val.2 i).val)
          (g := n.group k) (fun j hj => by
            unfold flRestrict
            rw [Noted.each_val, Noted.bind_val, Noted.pure_val, if_pos (by right; simp [hj])]) (fun j hj => by
            unfold flRestrict
            rw [Noted.each_val, Noted.each_val, Noted.bind_val, Noted.bind_val, Noted.pure_val, Noted.pure_val]
            simp [hj]) h4
        rw [← hr] at hq
        subst hE
        simp only [hn]
        rcases hq with h5 | h5
        · exact Or.inl (Noted.bind_nonempty_right (Noted.bind_nonempty_right (Noted.bind_nonempty_right (Noted.bind_nonempty_left h5))))
        · right
          simp only [Noted.bind_val, Noted.pure_val]
          exact congrArg Prod.fst h5

/-- Exact arithmetic with numbers up to 1000. -/
noncomputable def exactFormat : FloatFormat := ⟨id, 1000⟩

theorem exactFormat_proper : exactFormat.Proper := ⟨monotone_id, rfl, by norm_num [exactFormat]⟩

theorem exact_finish {x : ℝ} (h : |x| ≤ 1000) : exactFormat.finish x = ⟨.fin x, ∅⟩ := finish_within (F := exactFormat) h

/-- Two products in nests of their own, and one agent. -/
noncomputable def twoFlNests : Market (Fin 2) Unit (Fin 2) where
  nesting := some ⟨id, .single (1 / 2)⟩
  epsilonScale := 1
  weights := fun _ => 1
  availability := none

/-- **C122 is false** of nested logit without overflow protection: an agent for whom a product's utility is NaN or infinite is taken to
choose the other product half of the time and the outside option the other half, and nothing is noticed. Taste terms overflow to infinity
without notice when random coefficients are lognormal (pyblp/markets/market.py:162-163). -/
theorem C122_unsafe_nested_refuted (v : Flo) (hv : v.Bad) :
    flProbabilities exactFormat twoFlNests { safe := false } [0, 1] [0, 1] (fun _ => .fin 0) (fun j _ => if j = 0 then v else .fin 0) () =
      ⟨fun j => if j = 0 then .fin 0 else .fin (1 / 2), ∅⟩ := by
  have hu : (Noted.each fun j => flUtilities exactFormat twoFlNests (fun _ => .fin 0) (fun j _ => if j = 0 then v else .fin 0) () j) =
      ⟨fun j => if j = 0 then v else .fin 0, ∅⟩ := by
    refine Noted.each_mk fun j => ?_
    unfold flUtilities
    have hd : exactFormat.sub (.fin 1) (.fin (1 / 2)) = ⟨.fin (1 / 2), ∅⟩ := by
      change exactFormat.finish (1 + -(1 / 2)) = _
      rw [exact_finish (by norm_num [abs_le])]
      norm_num
    have hadd : exactFormat.add (.fin 0) (if j = 0 then v else .fin 0) = ⟨if j = 0 then v else .fin 0, ∅⟩ := by
      by_cases hj : j = 0
      · rw [if_pos hj]
        rcases hv with rfl | rfl <;> rfl
      · rw [if_neg hj]
        change exactFormat.finish (0 + 0) = _
        rw [exact_finish (by norm_num)]
        norm_num
    rw [hadd, Noted.mk_bind]
    change (Noted.bind (exactFormat.sub (.fin 1) (.fin (1 / 2))) _) = _
    rw [hd, Noted.mk_bind]
    by_cases hj : j = 0
    · rw [if_pos hj]
      rcases hv with rfl | rfl
      · rfl
      · simp [FloatFormat.div, FloatFormat.infinite]
    · rw [if_neg hj]
      simp only [FloatFormat.div]
      rw [if_neg (by norm_num), exact_finish (by norm_num)]
      norm_num
  have he : flExponentiated exactFormat false [0, 1] (fun j : Fin 2 => if j = 0 then v else .fin 0) =
      ⟨(none, fun j => if j = 0 then v else .fin 1), ∅⟩ := by
    unfold flExponentiated
    simp only [Bool.false_eq_true, if_false]
    rw [Noted.each_mk (v := fun j : Fin 2 => if j = 0 then v else .fin 1), Noted.mk_bind]
    · rfl
    · intro j
      by_cases hj : j = 0
      · rw [if_pos hj, if_pos hj]
        rcases hv with rfl | rfl <;> rfl
      · rw [if_neg hj, if_neg hj]
        change exactFormat.finish (Real.exp 0) = _
        rw [Real.exp_zero, exact_finish (by norm_num)]
  have hr : flRestrict exactFormat twoFlNests ({ safe := false } : ProbOpts (Fin 2) Unit) (fun j => if j = 0 then v else .fin 1) () =
      ⟨fun j => if j = 0 then v else .fin 1, ∅⟩ := by
    unfold flRestrict
    refine Noted.each_mk fun j => ?_
    simp [twoFlNests, Noted.pure, Noted.bind]
  have h1 : (1 : Fin 2) ≠ 0 := by decide
  have hI : (Noted.each fun g : Fin 2 => exactFormat.sum (fun j : Fin 2 => if j = 0 then v else .fin 1) ([0, 1].filter fun k => id k = g)) =
      ⟨fun g => if g = 0 then v else .fin 1, ∅⟩ := by
    refine Noted.each_mk fun g => ?_
    by_cases hg : g = 0
    · have hl : ([0, 1] : List (Fin 2)).filter (fun k => id k = g) = [0] := by rw [hg]; decide
      rw [hl, if_pos hg, FloatFormat.sum, FloatFormat.sum, Noted.pure, Noted.mk_bind, if_pos rfl]
      rcases hv with rfl | rfl <;> rfl
    · have hg' : g = 1 := by omega
      have hl : ([0, 1] : List (Fin 2)).filter (fun k => id k = g) = [1] := by rw [hg']; decide
      rw [hl, if_neg hg, FloatFormat.sum, FloatFormat.sum, Noted.pure, Noted.mk_bind, if_neg h1]
      change exactFormat.finish (0 + 1) = _
      rw [exact_finish (by norm_num)]
      norm_num
  have hd : ∀ g : Fin 2, exactFormat.sub (.fin 1) (.fin ((RhoParam.single (1 / 2) : RhoParam (Fin 2)).groupRho g)) = ⟨.fin (1 / 2), ∅⟩ := by
    intro g
    change exactFormat.finish (1 + -(1 / 2)) = _
    rw [exact_finish (by norm_num [abs_le])]
    norm_num
  have hw : flWeightedInclusives exactFormat (⟨id, .single (1 / 2)⟩ : Nesting (Fin 2) (Fin 2)) (fun g => if g = 0 then v else .fin 1) =
      ⟨fun g => if g = 0 then .fin 0 else .fin 1, ∅⟩ := by
    unfold flWeightedInclusives
    simp only [hd, Noted.mk_bind]
    rw [Noted.each_mk (v := fun g : Fin 2 => if g = 0 then v else .fin 1)]
    · have : (Noted.quietly ⟨fun g : Fin 2 => if g = 0 then v else .fin 1, ∅⟩) = ⟨fun g : Fin 2 => if g = 0 then v else .fin 1, ∅⟩ := by
        unfold Noted.quietly
        rw [Set.empty_sdiff]
      rw [this, Noted.mk_bind]
      unfold Noted.pure
      congr 1
      funext g
      by_cases hg : g = 0
      · simp only [hg, if_true]
        rcases hv with rfl | rfl <;> rfl
      · simp only [hg, if_false]
        rfl
    · intro g
      by_cases hg : g = 0
      · rw [if_pos hg]
        rcases hv with rfl | rfl
        · simp [FloatFormat.log, FloatFormat.mul, FloatFormat.exp, Noted.bind]
        · simp [FloatFormat.log, FloatFormat.mul, FloatFormat.exp, Noted.bind, FloatFormat.infinite]
      · rw [if_neg hg]
        have hlog : exactFormat.log (.fin 1) = ⟨.fin 0, ∅⟩ := by
          simp only [FloatFormat.log]
          rw [if_neg one_ne_zero, if_neg (by norm_num), Real.log_one, exact_finish (by norm_num)]
        rw [hlog, Noted.mk_bind]
        have hmul : exactFormat.mul (.fin 0) (.fin (1 / 2)) = ⟨.fin 0, ∅⟩ := by
          change exactFormat.finish (0 * (1 / 2)) = _
          rw [zero_mul, exact_finish (by norm_num)]
        rw [hmul, Noted.mk_bind]
        change exactFormat.finish (Real.exp 0) = _
        rw [Real.exp_zero, exact_finish (by norm_num)]
  have hc : flConditionals exactFormat (⟨id, .single (1 / 2)⟩ : Nesting (Fin 2) (Fin 2)) (fun j => if j = 0 then v else .fin 1)
      (fun g => if g = 0 then v else .fin 1) = ⟨fun j => if j = 0 then .fin 0 else .fin 1, ∅⟩ := by
    refine Noted.ext' ?_ ?_
    · funext j
      rw [conditionals_val]
      by_cases hj : j = 0
      · simp only [id, hj, if_true]
        rcases hv with rfl | rfl <;> rfl
      · simp only [id, hj, if_false]
        simp only [FloatFormat.div, one_ne_zero, if_false]
        rw [exact_finish (by norm_num)]
        norm_num [zeroed]
    · unfold flConditionals
      rw [Noted.bind_events]
      refine ⟨?_, rfl⟩
      ext p
      simp only [Noted.quietly, Noted.each, Set.mem_sdiff, Set.mem_ofPred_eq, Set.mem_insert_iff, Set.mem_singleton_iff, Set.mem_empty_iff_false,
        iff_false, not_and, not_not]
      rintro ⟨j, hj⟩
      by_cases hj0 : j = 0
      · simp only [id, hj0, if_true] at hj
        rcases hv with rfl | rfl
        · exact absurd hj (by simp [FloatFormat.div])
        · right
          simpa [FloatFormat.div] using hj
      · simp only [id, hj0, if_false] at hj
        simp only [FloatFormat.div, one_ne_zero, if_false] at hj
        rw [exact_finish (by norm_num)] at hj
        exact absurd hj (by simp)
  have hm : flMarginals exactFormat (⟨id, .single (1 / 2)⟩ : Nesting (Fin 2) (Fin 2)) false [0, 1] none
      (fun g => if g = 0 then .fin 0 else .fin 1) = ⟨fun g => if g = 0 then .fin 0 else .fin (1 / 2), ∅⟩ := by
    unfold flMarginals
    refine Noted.each_mk fun g => ?_
    have hs : flNestedScale exactFormat (⟨id, .single (1 / 2)⟩ : Nesting (Fin 2) (Fin 2)) false none g = ⟨.fin 1, ∅⟩ := by
      simp [flNestedScale, Noted.bind, Noted.pure]
    rw [hs, Noted.mk_bind]
    have hx : (Noted.each fun h : Fin 2 => (flScaleWeight exactFormat (⟨id, .single (1 / 2)⟩ : Nesting (Fin 2) (Fin 2)) none g h).bind fun s =>
        exactFormat.mul s (if h = 0 then .fin 0 else .fin 1)) = ⟨fun h => if h = 0 then .fin 0 else .fin 1, ∅⟩ := by
      refine Noted.each_mk fun h => ?_
      unfold flScaleWeight
      rw [Noted.pure, Noted.mk_bind]
      by_cases hh : h = 0
      · rw [if_pos hh]
        change exactFormat.finish (1 * 0) = _
        rw [mul_zero, exact_finish (by norm_num)]
      · rw [if_neg hh]
        change exactFormat.finish (1 * 1) = _
        rw [mul_one, exact_finish (by norm_num)]
    rw [hx, Noted.mk_bind]
    have hsum : exactFormat.sum (fun h : Fin 2 => if h = 0 then Flo.fin 0 else .fin 1) [0, 1] = ⟨.fin 1, ∅⟩ := by
      rw [FloatFormat.sum, FloatFormat.sum, FloatFormat.sum, Noted.pure, Noted.mk_bind, if_pos rfl, if_neg h1]
      have : exactFormat.add (.fin 0) (.fin 1) = ⟨.fin 1, ∅⟩ := by
        change exactFormat.finish (0 + 1) = _
        rw [zero_add, exact_finish (by norm_num)]
      rw [this, Noted.mk_bind]
      change exactFormat.finish (1 + 0) = _
      rw [add_zero, exact_finish (by norm_num)]
    rw [hsum, Noted.mk_bind]
    have hadd : exactFormat.add (.fin 1) (.fin 1) = ⟨.fin 2, ∅⟩ := by
      change exactFormat.finish (1 + 1) = _
      rw [exact_finish (by norm_num [abs_le])]
      norm_num
    rw [hadd, Noted.mk_bind]
    dsimp only
    by_cases hg : g = 0
    · rw [if_pos hg, if_pos hg]
      simp only [FloatFormat.div]
      rw [if_neg two_ne_zero, zero_div, exact_finish (by norm_num)]
    · rw [if_neg hg, if_neg hg]
      simp only [FloatFormat.div]
      rw [if_neg two_ne_zero, exact_finish (by norm_num [abs_le])]
  unfold flProbabilities
  rw [hu, Noted.mk_bind]
  dsimp only
  rw [he, Noted.mk_bind]
  dsimp only
  rw [hr, Noted.mk_bind]
  have hnest : twoFlNests.nesting = some ⟨id, .single (1 / 2)⟩ := rfl
  rw [hnest]
  dsimp only
  unfold flNested
  rw [hI, Noted.mk_bind, hw, Noted.mk_bind, hc, Noted.mk_bind, hm, Noted.mk_bind]
  rw [Noted.each_mk (v := fun j : Fin 2 => if j = 0 then .fin 0 else .fin (1 / 2))]
  · rw [Noted.mk_bind, Noted.pure, Noted.mk_bind, Noted.pure]
  · intro j
    by_cases hj : j = 0
    · simp only [id, hj, if_true]
      change exactFormat.finish (0 * 0) = _
      rw [mul_zero, exact_finish (by norm_num)]
    · simp only [id, hj, if_false]
      change exactFormat.finish (1 * (1 / 2)) = _
      rw [one_mul, exact_finish (by norm_num [abs_le])]

end Pyblp
