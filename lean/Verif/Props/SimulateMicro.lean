import Verif.Model.SimulateMicro
import Verif.Props.ScoresWitness
import Mathlib.MeasureTheory.Measure.Lebesgue.Basic

/-!
# C89: simulated micro data
-/

set_option linter.unusedSectionVars false

namespace Pyblp

namespace Spec

/-- Documented meaning of indices of first and second choices. -/
def MeansCell {J : ℕ} (shape : MicroShape) (j : ℕ) (k : Option ℕ) (c : MicroCell (Fin J)) : Prop :=
  match shape, c with
  | .first o, .first c => Means o j c ∧ k = none
  | .second o o2, .second c c2 => Means o j c ∧ ∃ k' : ℕ, k = some k' ∧ Means o2 k' c2
  | _, _ => False

/-- A row of micro data stands for agent `i` in market `t` with choices `c`. -/
def StandsFor {Mk : Type} (arrays : Mk → WeightsArray) (row : SimulatedRow Mk) (t : Mk) (i : ℕ) (c : MicroCell (Fin (arrays t).J)) : Prop :=
  row.market = t ∧ row.agent = i ∧ MeansCell (arrays t).shape row.choice row.second c

/-- Row `n` of what was simulated stands for agent `i` in market `t` with choices `c`. -/
def RowStandsFor {Mk : Type} (arrays : Mk → WeightsArray) (result : Except PyErr (List (SimulatedRow Mk))) (n : ℕ) (t : Mk) (i : ℕ)
    (c : MicroCell (Fin (arrays t).J)) : Prop :=
  ∃ rows row, result = .ok rows ∧ rows[n]? = some row ∧ StandsFor arrays row t i c

/-- Weights of markets in a dataset: the array is not negative, and there are second choices either in all markets or in none. Sizes of markets
are at most `maxI` and `maxJ`. -/
structure ValidArrays {Mk : Type} (order : List Mk) (arrays : Mk → WeightsArray) (maxI maxJ : ℕ) : Prop where
  nodup : order.Nodup
  nonneg : ∀ t ∈ order, ∀ i < (arrays t).I, ∀ c ∈ (arrays t).shape.cells, 0 ≤ (arrays t).weight i c
  second : ∀ t ∈ order, ∀ t2 ∈ order, (arrays t).shape.hasSecond = (arrays t2).shape.hasSecond
  agents : ∀ t ∈ order, (arrays t).I ≤ maxI
  products : ∀ t ∈ order, (arrays t).J ≤ maxJ
  agentsFit : maxI < 2 ^ 64
  productsFit : maxJ < 2 ^ 64

/-- Sum of weights of all markets, agents and choices. -/
noncomputable def totalWeight {Mk : Type} (order : List Mk) (arrays : Mk → WeightsArray) : ℝ :=
  (order.map fun t => ∑ i ∈ Finset.range (arrays t).I, ∑ c ∈ (arrays t).shape.cells, (arrays t).weight i c).sum

end Spec

/-! ## Positions -/

lemma means_unique {J : ℕ} {o : Bool} {n n2 : ℕ} {c : Option (Fin J)} (h : Spec.Means o n c) (h2 : Spec.Means o n2 c) : n = n2 := by
  unfold Spec.Means at h h2
  cases c with
  | none => have := h.2.trans h2.2.symm; exact_mod_cast this
  | some p => have := h.trans h2.symm; exact_mod_cast this

lemma means_choice {J : ℕ} {o : Bool} {n : ℕ} {c c2 : Option (Fin J)} (h : Spec.Means o n c) (h2 : Spec.Means o n c2) : c = c2 := by
  unfold Spec.Means at h h2
  cases c with
  | none =>
    cases c2 with
    | none => rfl
    | some p => rw [if_pos h.1] at h2; omega
  | some p =>
    cases c2 with
    | none => rw [if_pos h2.1] at h; omega
    | some p2 => congr 1; ext; have := h.symm.trans h2; omega

lemma mem_axisPositions {J : ℕ} {o : Bool} {n : ℕ} {c : Option (Fin J)} : (n, c) ∈ axisPositions J o ↔ Spec.Means o n c := by
  unfold axisPositions Spec.Means
  cases o with
  | true =>
    simp only [if_true, List.mem_cons, Prod.mk.injEq, List.mem_map, List.mem_finRange, true_and]
    cases c with
    | none => simp
    | some p =>
      simp only [reduceCtorEq, and_false, Option.some.injEq, false_or]
      constructor
      · rintro ⟨a, rfl, rfl⟩
        simp
      · intro h
        exact ⟨p, by omega, rfl⟩
  | false =>
    simp only [Bool.false_eq_true, if_false, List.mem_map, List.mem_finRange, true_and, Prod.mk.injEq]
    cases c with
    | none => simp
    | some p =>
      simp only [Option.some.injEq]
      constructor
      · rintro ⟨a, rfl, rfl⟩
        simp
      · intro h
        exact ⟨p, by omega, rfl⟩

lemma nodup_axisPositions (J : ℕ) (o : Bool) : (axisPositions J o).Nodup := by
  unfold axisPositions
  cases o with
  | true =>
    rw [if_pos rfl]
    refine List.nodup_cons.mpr ⟨by simp, (List.nodup_finRange J).map fun a b h => ?_⟩
    simpa using (Prod.mk.inj h).2
  | false =>
    rw [if_neg (by decide)]
    refine (List.nodup_finRange J).map fun a b h => ?_
    simpa using (Prod.mk.inj h).2

lemma mem_rowPositions {J : ℕ} {shape : MicroShape} {p : ℕ × Option ℕ × MicroCell (Fin J)} :
    p ∈ rowPositions J shape ↔ Spec.MeansCell shape p.1 p.2.1 p.2.2 := by
  obtain ⟨j, k, c⟩ := p
  cases shape with
  | first o =>
    simp only [rowPositions, List.mem_map, Prod.exists, mem_axisPositions, Prod.mk.injEq, Spec.MeansCell]
    constructor
    · rintro ⟨a, b, h, rfl, rfl, rfl⟩
      exact ⟨h, rfl⟩
    · intro h
      cases c with
      | first c => exact ⟨j, c, h.1, rfl, h.2.symm, rfl⟩
      | second c c2 => exact h.elim
  | second o o2 =>
    simp only [rowPositions, List.mem_flatMap, List.mem_map, Prod.exists, mem_axisPositions, Prod.mk.injEq, Spec.MeansCell]
    constructor
    · rintro ⟨a, b, h, a2, b2, h2, rfl, rfl, rfl⟩
      exact ⟨h, a2, rfl, h2⟩
    · intro h
      cases c with
      | first c => exact h.elim
      | second c c2 =>
        obtain ⟨h1, k', hk, h2⟩ := h
        exact ⟨j, c, h1, k', c2, h2, rfl, hk.symm, rfl⟩

lemma meansCell_unique {J : ℕ} {shape : MicroShape} {j j2 : ℕ} {k k2 : Option ℕ} {c : MicroCell (Fin J)} (h : Spec.MeansCell shape j k c)
    (h2 : Spec.MeansCell shape j2 k2 c) : j = j2 ∧ k = k2 := by
  unfold Spec.MeansCell at h h2
  cases shape with
  | first o =>
    cases c with
    | first c => exact ⟨means_unique h.1 h2.1, h.2.trans h2.2.symm⟩
    | second c c2 => exact h.elim
  | second o o2 =>
    cases c with
    | first c => exact h.elim
    | second c c2 =>
      obtain ⟨a, k', rfl, b⟩ := h
      obtain ⟨a2, k2', rfl, b2⟩ := h2
      exact ⟨means_unique a a2, by rw [means_unique b b2]⟩

lemma meansCell_choice {J : ℕ} {shape : MicroShape} {j : ℕ} {k : Option ℕ} {c c2 : MicroCell (Fin J)} (h : Spec.MeansCell shape j k c)
    (h2 : Spec.MeansCell shape j k c2) : c = c2 := by
  unfold Spec.MeansCell at h h2
  cases shape with
  | first o =>
    cases c with
    | first c =>
      cases c2 with
      | first c2 => rw [means_choice h.1 h2.1]
      | second c2 c3 => exact h2.elim
    | second c c2 => exact h.elim
  | second o o2 =>
    cases c with
    | first c => exact h.elim
    | second c d =>
      cases c2 with
      | first c2 => exact h2.elim
      | second c2 d2 =>
        obtain ⟨a, k', rfl, b⟩ := h
        obtain ⟨a2, k2', hk, b2⟩ := h2
        cases hk
        rw [means_choice a a2, means_choice b b2]

lemma exists_means {J : ℕ} {o : Bool} {c : Option (Fin J)} : c ∈ (choices o : Finset (Option (Fin J))) ↔ ∃ n : ℕ, Spec.Means o n c := by
  unfold choices Spec.Means
  cases c with
  | none => cases o <;> simp
  | some p =>
    cases o with
    | true => simp only [if_true, Finset.mem_univ, true_iff]; exact ⟨p + 1, by push_cast; rfl⟩
    | false =>
      simp only [Bool.false_eq_true, if_false, Finset.mem_image, Finset.mem_univ, true_and, Option.some.injEq, exists_eq, true_iff]
      exact ⟨p, by simp⟩

lemma exists_meansCell {J : ℕ} {shape : MicroShape} {c : MicroCell (Fin J)} :
    c ∈ shape.cells ↔ ∃ j k, Spec.MeansCell shape j k c := by
  cases shape with
  | first o =>
    simp only [MicroShape.cells, Finset.mem_image, Spec.MeansCell]
    constructor
    · rintro ⟨c, h, rfl⟩
      obtain ⟨n, hn⟩ := exists_means.mp h
      exact ⟨n, none, hn, rfl⟩
    · rintro ⟨j, k, h⟩
      cases c with
      | first c => exact ⟨c, exists_means.mpr ⟨j, h.1⟩, rfl⟩
      | second c c2 => exact h.elim
  | second o o2 =>
    simp only [MicroShape.cells, Finset.mem_image, Finset.mem_product, Spec.MeansCell]
    constructor
    · rintro ⟨c, ⟨h, h2⟩, rfl⟩
      obtain ⟨n, hn⟩ := exists_means.mp h
      obtain ⟨n2, hn2⟩ := exists_means.mp h2
      exact ⟨n, some n2, hn, n2, rfl, hn2⟩
    · rintro ⟨j, k, h⟩
      cases c with
      | first c => exact h.elim
      | second c c2 =>
        obtain ⟨h, k', rfl, h2⟩ := h
        exact ⟨(c, c2), ⟨exists_means.mpr ⟨j, h⟩, exists_means.mpr ⟨k', h2⟩⟩, rfl⟩

lemma nodup_rowPositions (J : ℕ) (shape : MicroShape) : (rowPositions J shape).Nodup := by
  cases shape with
  | first o =>
    refine (nodup_axisPositions J o).map fun a b h => ?_
    simp only [Prod.mk.injEq, MicroCell.first.injEq, true_and] at h
    exact Prod.ext h.1 h.2
  | second o o2 =>
    refine List.nodup_flatMap.mpr ⟨fun a _ => (nodup_axisPositions J o2).map fun x y h => ?_, ?_⟩
    · simp only [Prod.mk.injEq, MicroCell.second.injEq, true_and, Option.some.injEq] at h
      exact Prod.ext h.1 h.2
    · refine (nodup_axisPositions J o).imp fun {a b} hab => ?_
      intro x hx hy
      obtain ⟨y, -, rfl⟩ := List.mem_map.mp hx
      obtain ⟨z, -, hz⟩ := List.mem_map.mp hy
      simp only [Prod.mk.injEq, MicroCell.second.injEq] at hz
      exact hab (Prod.ext hz.1.symm hz.2.2.1.symm)

/-! ## Entries -/

section entries

variable {Mk : Type}

/-- Entries of all markets. -/
noncomputable def allEntries (order : List Mk) (arrays : Mk → WeightsArray) : List (Mk × WeightsEntry) :=
  order.flatMap fun t => (nonzeroEntries (arrays t)).map fun x => (t, x)

lemma flatMap_entries {β : Type} (order : List Mk) (arrays : Mk → WeightsArray) (f : Mk → WeightsEntry → β) :
    (order.flatMap fun t => (nonzeroEntries (arrays t)).map (f t)) = (allEntries order arrays).map fun x => f x.1 x.2 := by
  unfold allEntries
  rw [List.map_flatMap]
  simp only [List.map_map]
  rfl

lemma mem_allEntries {order : List Mk} {arrays : Mk → WeightsArray} {t : Mk} {x : WeightsEntry} :
    (t, x) ∈ allEntries order arrays ↔ t ∈ order ∧ x.agent < (arrays t).I ∧ ∃ c, Spec.MeansCell (arrays t).shape x.choice x.second c ∧
      x.weight = (arrays t).weight x.agent c ∧ x.weight ≠ 0 := by
  unfold allEntries nonzeroEntries
  simp only [List.mem_flatMap, List.mem_map, List.mem_filterMap, List.mem_range, Prod.mk.injEq]
  constructor
  · rintro ⟨t', ht, y, ⟨i, hi, p, hp, hy⟩, rfl, rfl⟩
    split_ifs at hy with hz
    simp only [Option.some.injEq] at hy
    subst hy
    exact ⟨ht, hi, p.2.2, mem_rowPositions.mp hp, rfl, hz⟩
  · rintro ⟨ht, hi, c, hc, hw, hz⟩
    refine ⟨t, ht, x, ⟨x.agent, hi, (x.choice, x.second, c), mem_rowPositions.mpr hc, ?_⟩, rfl, rfl⟩
    rw [if_neg (by rw [← hw]; exact hz), ← hw]

lemma sum_filterMap_nonzero {α : Type} (l : List α) (f : α → ℝ) (g : α → WeightsEntry) (hg : ∀ a, (g a).weight = f a) :
    ((l.filterMap fun a => if f a = 0 then none else some (g a)).map (·.weight)).sum = (l.map f).sum := by
  induction l with
  | nil => rfl
  | cons a l ih =>
    by_cases h : f a = 0
    · simp only [List.filterMap_cons, List.map_cons, List.sum_cons, h, zero_add]
      exact ih
    · simp only [List.filterMap_cons, if_neg h, List.map_cons, List.sum_cons, hg]
      rw [ih]

lemma sum_rowPositions {J : ℕ} (shape : MicroShape) (f : MicroCell (Fin J) → ℝ) :
    ((rowPositions J shape).map fun p => f p.2.2).sum = ∑ c ∈ shape.cells, f c := by
  have hnd : ((rowPositions J shape).map fun p => p.2.2).Nodup := by
    refine List.Nodup.map_on (fun x hx y hy h => ?_) (nodup_rowPositions J shape)
    have h1 := mem_rowPositions.mp hx
    have h2 := mem_rowPositions.mp hy
    rw [h] at h1
    obtain ⟨a, b⟩ := meansCell_unique h1 h2
    exact Prod.ext a (Prod.ext b h)
  have hset : ((rowPositions J shape).map fun p => p.2.2).toFinset = shape.cells := by
    ext c
    rw [List.mem_toFinset, List.mem_map, exists_meansCell]
    constructor
    · rintro ⟨p, hp, rfl⟩
      exact ⟨_, _, mem_rowPositions.mp hp⟩
    · rintro ⟨j, k, h⟩
      exact ⟨(j, k, c), mem_rowPositions.mpr h, rfl⟩
  rw [← hset, List.sum_toFinset f hnd, List.map_map]
  rfl

lemma sum_allEntries (order : List Mk) (arrays : Mk → WeightsArray) :
    ((allEntries order arrays).map fun x => x.2.weight).sum = Spec.totalWeight order arrays := by
  unfold Spec.totalWeight
  rw [← flatMap_entries order arrays fun _ x => x.weight, List.flatMap_def, List.sum_flatten, List.map_map]
  congr 1
  refine List.map_congr_left fun t _ => ?_
  simp only [Function.comp]
  unfold nonzeroEntries
  rw [List.map_flatMap, List.flatMap_def, List.sum_flatten, List.map_map, ← List.sum_toFinset _ List.nodup_range, List.toFinset_range]
  refine Finset.sum_congr rfl fun i _ => ?_
  simp only [Function.comp]
  rw [← sum_rowPositions]
  exact sum_filterMap_nonzero (rowPositions (arrays t).J (arrays t).shape) (fun p => (arrays t).weight i p.2.2) (fun p => ⟨i, p.1, p.2.1, (arrays t).weight i p.2.2⟩) fun _ => rfl

lemma nodup_filterMap_entries {J : ℕ} (l : List (ℕ × Option ℕ × MicroCell (Fin J))) (hl : l.Nodup) (i : ℕ) (f : MicroCell (Fin J) → ℝ)
    (shape : MicroShape) (hm : ∀ p ∈ l, Spec.MeansCell shape p.1 p.2.1 p.2.2) :
    ((l.filterMap fun p => if f p.2.2 = 0 then none else some (⟨i, p.1, p.2.1, f p.2.2⟩ : WeightsEntry)).map fun x =>
      (x.choice, x.second)).Nodup := by
  induction l with
  | nil => exact List.nodup_nil
  | cons p l ih =>
    have ih' := ih (List.nodup_cons.mp hl).2 fun p hp => hm p (List.mem_cons_of_mem _ hp)
    by_cases h : f p.2.2 = 0
    · simp only [List.filterMap_cons, if_pos h]
      exact ih'
    · simp only [List.filterMap_cons, if_neg h, List.map_cons]
      refine List.nodup_cons.mpr ⟨fun hmem => ?_, ih'⟩
      obtain ⟨x, hx, hxe⟩ := List.mem_map.mp hmem
      obtain ⟨p2, hp2, hpx⟩ := List.mem_filterMap.mp hx
      split_ifs at hpx
      simp only [Option.some.injEq] at hpx
      subst hpx
      simp only [Prod.mk.injEq] at hxe
      have h1 := hm p List.mem_cons_self
      have h2 := hm p2 (List.mem_cons_of_mem _ hp2)
      rw [hxe.1, hxe.2] at h2
      have : p2 = p := Prod.ext hxe.1 (Prod.ext hxe.2 (meansCell_choice h2 h1))
      rw [this] at hp2
      exact (List.nodup_cons.mp hl).1 hp2

/-- No two entries have the same market and the same indices. -/
lemma nodup_allEntries (order : List Mk) (arrays : Mk → WeightsArray) (hnd : order.Nodup) :
    ((allEntries order arrays).map fun x => (x.1, x.2.agent, x.2.choice, x.2.second)).Nodup := by
  rw [← flatMap_entries order arrays fun t x => (t, x.agent, x.choice, x.second)]
  refine List.nodup_flatMap.mpr ⟨fun t _ => ?_, ?_⟩
  · unfold nonzeroEntries
    rw [List.map_flatMap]
    refine List.nodup_flatMap.mpr ⟨fun i _ => ?_, ?_⟩
    · have h := nodup_filterMap_entries (rowPositions (arrays t).J (arrays t).shape) (nodup_rowPositions _ _) i ((arrays t).weight i)
        (arrays t).shape fun p hp => mem_rowPositions.mp hp
      rw [← List.nodup_map_iff (f := fun y : ℕ × Option ℕ => (t, i, y.1, y.2)) (fun a b h => by
        simp only [Prod.mk.injEq, true_and] at h
        exact Prod.ext h.1 h.2), List.map_map] at h
      refine (congrArg List.Nodup (List.map_congr_left fun x hx => ?_)).mp h
      obtain ⟨p, -, hp⟩ := List.mem_filterMap.mp hx
      split_ifs at hp
      simp only [Option.some.injEq] at hp
      subst hp
      rfl
    · refine (List.nodup_range).imp fun {a b} hab => ?_
      intro x hx hy
      have hag : ∀ i, x ∈ (List.filterMap (fun p => if (arrays t).weight i p.2.2 = 0 then none else
          some (⟨i, p.1, p.2.1, (arrays t).weight i p.2.2⟩ : WeightsEntry)) (rowPositions (arrays t).J (arrays t).shape)).map
            (fun x => (t, x.agent, x.choice, x.second)) → x.2.1 = i := by
        intro i hi
        obtain ⟨y, hy', rfl⟩ := List.mem_map.mp hi
        obtain ⟨p, -, hp⟩ := List.mem_filterMap.mp hy'
        split_ifs at hp
        simp only [Option.some.injEq] at hp
        subst hp
        rfl
      exact hab ((hag a hx).symm.trans (hag b hy))
  · refine hnd.imp fun {a b} hab => ?_
    intro x hx hy
    obtain ⟨y, -, rfl⟩ := List.mem_map.mp hx
    obtain ⟨z, -, hz⟩ := List.mem_map.mp hy
    exact hab (Prod.mk.inj hz).1.symm

end entries

/-! ## Draws -/

lemma sum_map_div (w : List ℝ) (T : ℝ) : (w.map (· / T)).sum = w.sum / T := by
  induction w with
  | nil => simp
  | cons a w ih => simp only [List.map_cons, List.sum_cons, ih, add_div]

lemma sum_take_mono (w : List ℝ) (hw : ∀ x ∈ w, 0 ≤ x) {a b : ℕ} (h : a ≤ b) : (w.take a).sum ≤ (w.take b).sum := by
  induction w generalizing a b with
  | nil => simp
  | cons x w ih =>
    cases a with
    | zero =>
      simp only [List.take_zero, List.sum_nil]
      exact List.sum_nonneg fun y hy => hw y (List.mem_of_mem_take hy)
    | succ a =>
      cases b with
      | zero => omega
      | succ b =>
        simp only [List.take_succ_cons, List.sum_cons]
        have := ih (fun y hy => hw y (List.mem_cons_of_mem _ hy)) (Nat.le_of_succ_le_succ h)
        linarith

lemma count_below (n k : ℕ) (hk : k ≤ n) (f : ℕ → ℝ) (u : ℝ) (h : ∀ m < n, f m ≤ u ↔ m < k) :
    (((List.range n).map f).filter fun x => x ≤ u).length = k := by
  rw [List.filter_map, List.length_map]
  have h1 : (List.range n).filter ((fun x => decide (x ≤ u)) ∘ f) = (List.range n).filter fun m => decide (m < k) := by
    refine List.filter_congr fun m hm => ?_
    simp only [Function.comp, h m (List.mem_range.mp hm)]
  rw [h1, ← List.toFinset_card_of_nodup (List.nodup_range.filter _), List.toFinset_filter, List.toFinset_range]
  have h2 : (Finset.range n).filter (fun m => decide (m < k) = true) = Finset.range k := by
    ext m
    simp only [decide_eq_true_eq, Finset.mem_filter, Finset.mem_range]
    omega
  rw [h2, Finset.card_range]

/-- Which draws select an element. -/
lemma drawIndex_iff (w : List ℝ) (hw : ∀ x ∈ w, 0 < x) (hne : w ≠ []) (u : ℝ) (h0 : 0 ≤ u) (h1 : u < 1) :
    0 < w.sum ∧ (∃ k < w.length, drawIndex w u = .ok k) ∧
      ∀ k < w.length, drawIndex w u = .ok k ↔ (w.take k).sum / w.sum ≤ u ∧ u < (w.take (k + 1)).sum / w.sum := by
  have hpos : 0 < w.sum := List.sum_pos w hw hne
  have hw' : ∀ x ∈ w, 0 ≤ x := fun x hx => (hw x hx).le
  have hd : drawIndex w u = .ok ((cumulative (w.map (· / w.sum))).filter fun x => x ≤ u).length := by
    unfold drawIndex
    rw [if_neg hne, if_neg]
    rintro ⟨x, hx, hlt⟩
    exact absurd (div_pos (hw x hx) hpos) (not_lt.mpr hlt.le)
  have hcum : cumulative (w.map (· / w.sum)) = (List.range w.length).map fun k => (w.take (k + 1)).sum / w.sum := by
    unfold cumulative
    rw [List.length_map]
    refine List.map_congr_left fun k _ => ?_
    rw [← List.map_take, sum_map_div]
  have hsel : ∀ k < w.length, (w.take k).sum / w.sum ≤ u → u < (w.take (k + 1)).sum / w.sum → drawIndex w u = .ok k := by
    intro k hk ha hb
    rw [hd, hcum, count_below w.length k hk.le]
    intro m hm
    constructor
    · intro hle
      by_contra hnot
      have := div_le_div_of_nonneg_right (sum_take_mono w hw' (show k + 1 ≤ m + 1 by omega)) hpos.le
      linarith
    · intro hlt
      exact (div_le_div_of_nonneg_right (sum_take_mono w hw' (show m + 1 ≤ k by omega)) hpos.le).trans ha
  have hex : ∃ k, k < w.length ∧ u < (w.take (k + 1)).sum / w.sum := by
    have hl : 0 < w.length := List.length_pos_iff.mpr hne
    refine ⟨w.length - 1, by omega, ?_⟩
    rw [List.take_of_length_le (by omega), div_self hpos.ne']
    exact h1
  classical
  have hfirst : ∃ k < w.length, (w.take k).sum / w.sum ≤ u ∧ u < (w.take (k + 1)).sum / w.sum := by
    obtain ⟨hlt, hu⟩ := Nat.find_spec hex
    refine ⟨Nat.find hex, hlt, ?_, hu⟩
    cases hf : Nat.find hex with
    | zero => simpa using h0
    | succ m =>
      have := Nat.find_min hex (m := m) (by omega)
      by_contra hnot
      exact this ⟨by omega, not_le.mp hnot⟩
  obtain ⟨k0, hk0, ha, hb⟩ := hfirst
  have hk0' := hsel k0 hk0 ha hb
  refine ⟨hpos, ⟨k0, hk0, hk0'⟩, fun k hk => ⟨fun h => ?_, fun h => hsel k hk h.1 h.2⟩⟩
  rw [hk0'] at h
  rw [← Except.ok.inj h]
  exact ⟨ha, hb⟩

lemma volume_draw (w : List ℝ) (hw : ∀ x ∈ w, 0 < x) (k : ℕ) (hk : k < w.length) :
    MeasureTheory.volume {u : ℝ | u ∈ Set.Ico 0 1 ∧ drawIndex w u = .ok k} = ENNReal.ofReal (w[k] / w.sum) := by
  have hne : w ≠ [] := by rintro rfl; simp at hk
  have hpos : 0 < w.sum := List.sum_pos w hw hne
  have hw' : ∀ x ∈ w, 0 ≤ x := fun x hx => (hw x hx).le
  have hset : {u : ℝ | u ∈ Set.Ico 0 1 ∧ drawIndex w u = .ok k} = Set.Ico ((w.take k).sum / w.sum) ((w.take (k + 1)).sum / w.sum) := by
    ext u
    simp only [Set.mem_ofPred_eq, Set.mem_Ico]
    constructor
    · rintro ⟨⟨h0, h1⟩, h⟩
      exact ((drawIndex_iff w hw hne u h0 h1).2.2 k hk).mp h
    · rintro ⟨ha, hb⟩
      have h0 : 0 ≤ u := (div_nonneg (List.sum_nonneg fun y hy => hw' y (List.mem_of_mem_take hy)) hpos.le).trans ha
      have h1 : u < 1 := by
        refine hb.trans_le ((div_le_one hpos).mpr ?_)
        have := sum_take_mono w hw' (show k + 1 ≤ w.length from hk)
        rwa [List.take_length] at this
      exact ⟨⟨h0, h1⟩, ((drawIndex_iff w hw hne u h0 h1).2.2 k hk).mpr ⟨ha, hb⟩⟩
  rw [hset, Real.volume_Ico, ← sub_div, List.sum_take_succ w k hk]
  congr 2
  ring

lemma castBits_of_le (maximum n : ℕ) (h : n ≤ maximum) (hm : maximum < 2 ^ 64) : castBits (chooseBits maximum) n = n := by
  unfold castBits chooseBits
  refine Nat.mod_eq_of_lt ?_
  simp only [List.foldl_cons, List.foldl_nil]
  split_ifs <;> omega

/-! ## Rows -/

section rows

variable {Mk : Type} {order : List Mk} {arrays : Mk → WeightsArray} {maxI maxJ : ℕ}

lemma meansCell_le {J : ℕ} {shape : MicroShape} {j : ℕ} {k : Option ℕ} {c : MicroCell (Fin J)} (h : Spec.MeansCell shape j k c) :
    j ≤ J ∧ ∀ k', k = some k' → k' ≤ J := by
  have hm : ∀ (o : Bool) (n : ℕ) (c : Option (Fin J)), Spec.Means o n c → n ≤ J := by
    intro o n c h
    unfold Spec.Means at h
    cases c with
    | none => have := h.2; omega
    | some p => have := p.isLt; split_ifs at h <;> omega
  unfold Spec.MeansCell at h
  cases shape with
  | first o =>
    cases c with
    | first c => exact ⟨hm o j c h.1, fun k' hk => by rw [h.2] at hk; cases hk⟩
    | second c c2 => exact h.elim
  | second o o2 =>
    cases c with
    | first c => exact h.elim
    | second c c2 =>
      obtain ⟨h1, k2, rfl, h2⟩ := h
      exact ⟨hm o j c h1, fun k' hk => by cases hk; exact hm o2 _ c2 h2⟩

lemma allEntries_pos (hv : Spec.ValidArrays order arrays maxI maxJ) : ∀ x ∈ (allEntries order arrays).map fun x => x.2.weight, 0 < x := by
  intro x hx
  obtain ⟨⟨t, y⟩, hy, rfl⟩ := List.mem_map.mp hx
  obtain ⟨ht, hi, c, hc, hw, hz⟩ := mem_allEntries.mp hy
  refine lt_of_le_of_ne ?_ (Ne.symm hz)
  change 0 ≤ y.weight
  rw [hw]
  exact hv.nonneg t ht _ hi c (exists_meansCell.mpr ⟨_, _, hc⟩)

/-- A row in terms of the entry that is drawn. -/
lemma simulateRow_eq (hv : Spec.ValidArrays order arrays maxI maxJ) (hne : allEntries order arrays ≠ []) (n : ℕ) (u : ℝ) (h0 : 0 ≤ u) (h1 : u < 1) :
    ∃ (k : ℕ) (hk : k < (allEntries order arrays).length), drawIndex ((allEntries order arrays).map fun x => x.2.weight) u = .ok k ∧
      simulateRow order arrays maxI maxJ n u = .ok ⟨n, (allEntries order arrays)[k].1, (allEntries order arrays)[k].2.agent,
        (allEntries order arrays)[k].2.choice, (allEntries order arrays)[k].2.second⟩ := by
  obtain ⟨-, ⟨k, hk, hd⟩, -⟩ := drawIndex_iff _ (allEntries_pos hv) (by simpa using hne) u h0 h1
  have hk' : k < (allEntries order arrays).length := by simpa using hk
  refine ⟨k, hk', hd, ?_⟩
  obtain ⟨ht, hi, c, hc, -, -⟩ := mem_allEntries.mp (List.getElem_mem hk' : (allEntries order arrays)[k] ∈ allEntries order arrays)
  have hm : (order.flatMap fun t => List.replicate (nonzeroEntries (arrays t)).length t) = (allEntries order arrays).map fun x => x.1 := by
    rw [← flatMap_entries order arrays fun t _ => t]
    simp only [List.map_const']
  unfold simulateRow
  simp only [hm, flatMap_entries order arrays fun _ x => x.weight, flatMap_entries order arrays fun _ x => castBits (chooseBits maxI) x.agent,
    flatMap_entries order arrays fun _ x => castBits (chooseBits maxJ) x.choice,
    flatMap_entries order arrays fun _ x => x.second.map (castBits (chooseBits maxJ)), hd]
  have hJ := hv.products _ ht
  have hle := meansCell_le hc
  have hsec : (allEntries order arrays)[k].2.second.map (castBits (chooseBits maxJ)) = (allEntries order arrays)[k].2.second := by
    cases hs : (allEntries order arrays)[k].2.second with
    | none => rfl
    | some k2 => simp only [Option.map_some]; rw [castBits_of_le maxJ k2 ((hle.2 k2 hs).trans hJ) hv.productsFit]
  have hag : castBits (chooseBits maxI) (allEntries order arrays)[k].2.agent = (allEntries order arrays)[k].2.agent :=
    castBits_of_le maxI _ (hi.le.trans (hv.agents _ ht)) hv.agentsFit
  have hch : castBits (chooseBits maxJ) (allEntries order arrays)[k].2.choice = (allEntries order arrays)[k].2.choice :=
    castBits_of_le maxJ _ (hle.1.trans hJ) hv.productsFit
  unfold entryAt
  simp only [List.getElem?_map, List.getElem?_eq_getElem hk', Option.map_some, hsec, hag, hch]

lemma mixed_false (hv : Spec.ValidArrays order arrays maxI maxJ) :
    ¬((order.any fun t => (arrays t).shape.hasSecond) ∧ ¬(order.all fun t => (arrays t).shape.hasSecond)) := by
  rintro ⟨ha, hb⟩
  apply hb
  rw [List.any_eq_true] at ha
  obtain ⟨t, ht, hs⟩ := ha
  rw [List.all_eq_true]
  intro t2 ht2
  rw [← hv.second t ht t2 ht2]
  exact hs

lemma collect_get {α β : Type} {f : α → Except PyErr β} {l : List α} {r : List β} (h : collect f l = .ok r) (n : ℕ) (b : β) (hb : r[n]? = some b) :
    ∃ a, l[n]? = some a ∧ f a = .ok b := by
  obtain ⟨hlen, hget⟩ := forall₂_get (collect_ok h)
  have hn : n < r.length := (List.getElem?_eq_some_iff.mp hb).1
  obtain ⟨b', hb', hf⟩ := hget n l[n] (List.getElem?_eq_getElem (by omega))
  rw [hb] at hb'
  cases hb'
  exact ⟨_, List.getElem?_eq_getElem (by omega), hf⟩

lemma simulate_get (hv : Spec.ValidArrays order arrays maxI maxJ) (observations : ℕ) (uniform : ℕ → ℝ)
    (rows : List (SimulatedRow Mk)) (h : simulateMicroData order arrays maxI maxJ observations uniform = .ok rows) :
    rows.length = observations ∧ ∀ n row, rows[n]? = some row → simulateRow order arrays maxI maxJ n (uniform n) = .ok row := by
  unfold simulateMicroData at h
  rw [if_neg (mixed_false hv)] at h
  refine ⟨?_, fun n row hr => ?_⟩
  · have := (forall₂_get (collect_ok h)).1
    simpa using this.symm
  · obtain ⟨a, ha, hf⟩ := collect_get h n row hr
    have : a = n := by
      rw [List.getElem?_range (by have := (List.getElem?_eq_some_iff.mp ha).1; simpa using this)] at ha
      exact (Option.some.inj ha).symm
    rw [this] at hf
    exact hf

/-- Data can be simulated if and only if some weight is not zero. -/
theorem C89_succeeds (hv : Spec.ValidArrays order arrays maxI maxJ) (observations : ℕ) (hobs : 0 < observations) (uniform : ℕ → ℝ)
    (hu : ∀ n, 0 ≤ uniform n ∧ uniform n < 1) :
    (0 < Spec.totalWeight order arrays → ∃ rows, simulateMicroData order arrays maxI maxJ observations uniform = .ok rows) ∧
    (Spec.totalWeight order arrays = 0 → simulateMicroData order arrays maxI maxJ observations uniform = .error .valueError) := by
  rw [← sum_allEntries]
  constructor
  · intro hpos
    have hne : allEntries order arrays ≠ [] := by
      intro h
      rw [h] at hpos
      simp at hpos
    unfold simulateMicroData
    rw [if_neg (mixed_false hv)]
    have : ∀ n, ∃ row, simulateRow order arrays maxI maxJ n (uniform n) = .ok row := fun n => by
      obtain ⟨k, hk, -, h⟩ := simulateRow_eq (maxI := maxI) (maxJ := maxJ) hv hne n (uniform n) (hu n).1 (hu n).2
      exact ⟨_, h⟩
    choose f hf using this
    exact ⟨_, collect_of fun n _ => hf n⟩
  · intro hz
    have hnil : allEntries order arrays = [] := by
      by_contra hne
      exact absurd hz (List.sum_pos _ (allEntries_pos hv) (by simpa using hne)).ne'
    unfold simulateMicroData
    rw [if_neg (mixed_false hv)]
    have hrow : ∀ n u, simulateRow order arrays maxI maxJ n u = .error .valueError := fun n u => by
      unfold simulateRow
      simp only [flatMap_entries order arrays fun _ x => x.weight, hnil, List.map_nil]
      unfold drawIndex
      rw [if_pos rfl]
    obtain ⟨m, rfl⟩ := Nat.exists_eq_succ_of_ne_zero hobs.ne'
    rw [List.range_succ_eq_map]
    unfold collect
    simp only [hrow]

/-- **C89.** There are as many rows as observations, each with its own ID. A row stands for an agent of one of the dataset's markets and for choices
whose weight is not zero, in terms of indices that mean what they are documented to mean (and what `compute_micro_scores` takes them to
mean, C88). -/
theorem C89_support (hv : Spec.ValidArrays order arrays maxI maxJ) (observations : ℕ) (uniform : ℕ → ℝ)
    (hu : ∀ n, 0 ≤ uniform n ∧ uniform n < 1) (rows : List (SimulatedRow Mk))
    (h : simulateMicroData order arrays maxI maxJ observations uniform = .ok rows) :
    rows.length = observations ∧ ∀ n row, rows[n]? = some row → row.id = n ∧ row.market ∈ order ∧ row.agent < (arrays row.market).I ∧
      ∃ c ∈ (arrays row.market).shape.cells, Spec.StandsFor arrays row row.market row.agent c ∧ 0 < (arrays row.market).weight row.agent c := by
  obtain ⟨hlen, hget⟩ := simulate_get hv observations uniform rows h
  refine ⟨hlen, fun n row hr => ?_⟩
  have hrow := hget n row hr
  have hne : allEntries order arrays ≠ [] := by
    intro hnil
    unfold simulateRow at hrow
    simp only [flatMap_entries order arrays fun _ x => x.weight, hnil, List.map_nil] at hrow
    unfold drawIndex at hrow
    rw [if_pos rfl] at hrow
    cases hrow
  obtain ⟨k, hk, -, heq⟩ := simulateRow_eq (maxI := maxI) (maxJ := maxJ) hv hne n (uniform n) (hu n).1 (hu n).2
  rw [hrow] at heq
  have heq' := Except.ok.inj heq
  obtain ⟨ht, hi, c, hc, hw, hz⟩ := mem_allEntries.mp (List.getElem_mem hk : (allEntries order arrays)[k] ∈ allEntries order arrays)
  subst heq'
  refine ⟨rfl, ht, hi, c, exists_meansCell.mpr ⟨_, _, hc⟩, ⟨rfl, rfl, hc⟩, lt_of_le_of_ne ?_ ?_⟩
  · exact hv.nonneg _ ht _ hi c (exists_meansCell.mpr ⟨_, _, hc⟩)
  · exact fun h0 => hz (hw.trans h0.symm)

/-- **C89.** The probability with which an observation is of an agent with some choices is the weight of this agent and these choices, divided by
the sum of all weights. Here the draw for observation `n` is uniform and draws for other observations are whatever they are. -/
theorem C89_probability (hv : Spec.ValidArrays order arrays maxI maxJ) (observations : ℕ) (uniform : ℕ → ℝ)
    (hu : ∀ n, 0 ≤ uniform n ∧ uniform n < 1) (n : ℕ) (hn : n < observations) (t : Mk) (ht : t ∈ order) (i : ℕ) (hi : i < (arrays t).I)
    (c : MicroCell (Fin (arrays t).J)) (hc : c ∈ (arrays t).shape.cells) :
    MeasureTheory.volume {u : ℝ | u ∈ Set.Ico 0 1 ∧
        Spec.RowStandsFor arrays (simulateMicroData order arrays maxI maxJ observations (Function.update uniform n u)) n t i c} =
      ENNReal.ofReal ((arrays t).weight i c / Spec.totalWeight order arrays) := by
  have hobs : 0 < observations := by omega
  have hup : ∀ u : ℝ, u ∈ Set.Ico (0 : ℝ) 1 → ∀ m, 0 ≤ Function.update uniform n u m ∧ Function.update uniform n u m < 1 := by
    intro u hu' m
    by_cases hm : m = n
    · subst hm
      simpa using hu'
    · rw [Function.update_of_ne hm]
      exact hu m
  obtain ⟨j, k, hjk⟩ := exists_meansCell.mp hc
  by_cases hz : (arrays t).weight i c = 0
  · -- never drawn
    rw [hz, zero_div, ENNReal.ofReal_zero]
    convert MeasureTheory.measure_empty (μ := MeasureTheory.volume)
    rw [Set.eq_empty_iff_forall_notMem]
    rintro u ⟨hu', rows, row, hok, hr, h1, h2, h3⟩
    obtain ⟨-, -, -, c2, -, hs, hpos⟩ := (C89_support hv observations _ (hup u hu') rows hok).2 n row hr
    subst h1 h2
    rw [meansCell_choice hs.2.2 h3, hz] at hpos
    exact lt_irrefl _ hpos
  · have hmem : (t, (⟨i, j, k, (arrays t).weight i c⟩ : WeightsEntry)) ∈ allEntries order arrays :=
      mem_allEntries.mpr ⟨ht, hi, c, hjk, rfl, hz⟩
    have hne : allEntries order arrays ≠ [] := List.ne_nil_of_mem hmem
    obtain ⟨k0, hk0, hget⟩ := List.getElem_of_mem hmem
    have hk0' : k0 < ((allEntries order arrays).map fun x => x.2.weight).length := by simpa using hk0
    have hpos : 0 < Spec.totalWeight order arrays := by
      rw [← sum_allEntries]
      exact List.sum_pos _ (allEntries_pos hv) (by simpa using hne)
    have hset : {u : ℝ | u ∈ Set.Ico 0 1 ∧
        Spec.RowStandsFor arrays (simulateMicroData order arrays maxI maxJ observations (Function.update uniform n u)) n t i c} =
        {u : ℝ | u ∈ Set.Ico 0 1 ∧ drawIndex ((allEntries order arrays).map fun x => x.2.weight) u = .ok k0} := by
      ext u
      simp only [Set.mem_ofPred_eq]
      refine and_congr_right fun hu' => ?_
      obtain ⟨k1, hk1, hd, hrow⟩ := simulateRow_eq (maxI := maxI) (maxJ := maxJ) hv hne n u hu'.1 hu'.2
      constructor
      · rintro ⟨rows, row, hok, hr, h1, h2, h3⟩
        have hr' := (simulate_get hv observations _ rows hok).2 n row hr
        rw [Function.update_self, hrow] at hr'
        have hrow' := Except.ok.inj hr'
        subst hrow'
        simp only at h1 h2 h3
        have hkey : ((allEntries order arrays).map fun x => (x.1, x.2.agent, x.2.choice, x.2.second))[k1]'(by simpa using hk1) =
            ((allEntries order arrays).map fun x => (x.1, x.2.agent, x.2.choice, x.2.second))[k0]'(by simpa using hk0) := by
          obtain ⟨ha, hb⟩ := meansCell_unique h3 hjk
          simp only [List.getElem_map, hget, h1, h2, ha, hb]
        rw [hd, (nodup_allEntries order arrays hv.nodup).getElem_inj_iff.mp hkey]
      · intro hd0
        rw [hd] at hd0
        have hk : k1 = k0 := Except.ok.inj hd0
        subst hk
        obtain ⟨rows, hok⟩ := (C89_succeeds (maxI := maxI) (maxJ := maxJ) hv observations hobs _ (hup u hu')).1 hpos
        obtain ⟨hlen, hg⟩ := simulate_get hv observations _ rows hok
        have hn' : n < rows.length := by omega
        have hr := hg n _ (List.getElem?_eq_getElem hn')
        rw [Function.update_self, hrow] at hr
        refine ⟨rows, rows[n], hok, List.getElem?_eq_getElem hn', ?_⟩
        rw [← Except.ok.inj hr]
        simp only [hget]
        exact ⟨rfl, rfl, hjk⟩
    rw [hset, volume_draw _ (allEntries_pos hv) k0 hk0', sum_allEntries]
    simp only [List.getElem_map, hget]

end rows

/-- **C89.** Indices of simulated data select the choices for which rows stand when scores are computed from them. -/
theorem C89_selected {Mk : Type} (arrays : Mk → WeightsArray) (row : SimulatedRow Mk) (t : Mk) (i : ℕ) (c : MicroCell (Fin (arrays t).J))
    (h : Spec.StandsFor arrays row t i c) : selectCell (arrays t).shape row.choice (row.second.map fun k => (k : ℤ)) = .ok c := by
  obtain ⟨-, -, h⟩ := h
  rw [C88_choices_partial _ _ (Int.natCast_nonneg _) _ (fun k' hk => by
    cases hs : row.second with
    | none => rw [hs] at hk; cases hk
    | some k => rw [hs] at hk; cases hk; exact Int.natCast_nonneg _)]
  unfold Spec.MeansCell at h
  cases hs : (arrays t).shape with
  | first o =>
    rw [hs] at h
    cases c with
    | first c => exact h.1
    | second c c2 => exact h
  | second o o2 =>
    rw [hs] at h
    cases c with
    | first c => exact h
    | second c c2 =>
      obtain ⟨h1, k, hk, h2⟩ := h
      exact ⟨h1, k, by rw [hk]; rfl, h2⟩

section economy

variable {Mk G K2 N D Q : Type} [Fintype G] [DecidableEq G] [Fintype K2] [DecidableEq K2] [Fintype N] [DecidableEq N] [Fintype D] [DecidableEq D]

/-- **C89.** Weights of a market are integration weights times survey weights times probabilities of choices (see C81 for second choices). They
are not negative, so that data can be simulated from them. (Missing: datasets in which products are removed by ID, see C81.) -/
theorem C89_weights_partial (e : ScoreEconomy Mk G K2 N D Q) (t : Mk) (xi : Q → Fin ((e.products t).J + 1) → ℝ)
    (hr : Spec.ValidAgents e t e.agentAvailability (e.agents t)) (x : DatasetChunk MicroShape (MicroCell (Fin ((e.products t).J + 1))) Q)
    (hx : datasetContributions (microOf e t e.agentAvailability (e.agents t) xi) (weightsOf e t (e.agents t)) () (List.range (e.agentCount t + 1)) =
      .ok x) :
    ∃ w, e.weights t (List.ofFn (e.agents t)) = some w ∧ x.shape = w.shape ∧ ∀ (i : Fin (e.agentCount t + 1)) (c : MicroCell (Fin ((e.products t).J + 1))),
      c ∈ w.shape.cells → (weightsArray (e.agentCount t + 1) x).weight i c = (e.agents t i).weight * w.rows.getD i (fun _ => 0) c *
        Spec.observation (Spec.surveyMarket e t e.agentAvailability (e.agents t)) (e.products t).delta
          (computeMu (Spec.surveyTastes e t (e.agents t)) e.sigma e.pi) i c ∧
      0 ≤ (weightsArray (e.agentCount t + 1) x).weight i c := by
  obtain ⟨w, hu, hlen, hneg, hx⟩ := datasetContributions_ok hx
  rw [microOf_row, weightsOf_all] at hu
  rw [microOf_cells] at hneg
  have hlen' : w.rows.length = e.agentCount t + 1 := by simpa using hlen
  refine ⟨w, hu, by rw [hx], fun i c hc => ?_⟩
  have hi : (i : ℕ) < w.rows.length := by rw [hlen']; exact i.isLt
  have hrow : 0 ≤ w.rows[(i : ℕ)] c := hneg _ (List.getElem_mem hi) c hc
  have hobs := (cellProbability_eq (B := Unit) _ hr.wellFormed hr.offered (e.products t).delta
    (computeMu (tastesOf e t (e.agents t)) e.sigma e.pi) c i).2
  have hval : (weightsArray (e.agentCount t + 1) x).weight i c = max (w.rows[(i : ℕ)] c *
      (microOf e t e.agentAvailability (e.agents t) xi).factor () i c) 0 := by
    unfold weightsArray
    rw [hx]
    have hz : (i : ℕ) < (List.zipWith (fun i r c => max (r c * (microOf e t e.agentAvailability (e.agents t) xi).factor () i c) 0)
        (List.range (e.agentCount t + 1)) w.rows).length := by
      rw [List.length_zipWith, List.length_range, hlen', min_self]
      exact i.isLt
    simp only [List.getD_eq_getElem?_getD, List.getElem?_eq_getElem hz, Option.getD_some, List.getElem_zipWith, List.getElem_range]
  refine ⟨?_, by rw [hval]; exact le_max_right _ _⟩
  rw [hval, microOf_factor e t e.agentAvailability (e.agents t) xi hr, max_eq_left (mul_nonneg hrow (mul_nonneg (hr.weights i) hobs)),
    List.getD_eq_getElem?_getD, List.getElem?_eq_getElem hi]
  simp only [Option.getD_some, surveyMarket_eq, surveyTastes_eq]
  ring

end economy

/-- Two markets with an agent who chooses between two products and the outside option. -/
noncomputable def twoArrays : Fin 2 → WeightsArray := fun t =>
  { I := 1, J := 2, shape := .first true, weight := fun _ c => if t = 0 then (if c = .first none then 0 else 1 / 4) else 1 / 6 }

lemma twoArrays_valid (order : List (Fin 2)) (h : order.Nodup) : Spec.ValidArrays order twoArrays 1 2 where
  nodup := h
  nonneg := fun t _ i _ c _ => by
    simp only [twoArrays]
    split_ifs <;> norm_num
  second := fun _ _ _ _ => rfl
  agents := fun _ _ => le_rfl
  products := fun _ _ => le_rfl
  agentsFit := by norm_num
  productsFit := by norm_num

/-- **C89** fails for reproducibility: data are documented to be determined by the seed, but a dataset for some markets stores them in a set, over which
they are iterated in an order that is not determined by data or seed (for strings, Python changes it from one process to the next). With the
same draws, another order gives other data. -/
theorem C89_seed_refuted : ∃ (order order2 : List (Fin 2)) (uniform : ℕ → ℝ) (rows rows2 : List (SimulatedRow (Fin 2))),
    order.Perm order2 ∧ Spec.ValidArrays order twoArrays 1 2 ∧ (∀ n, 0 ≤ uniform n ∧ uniform n < 1) ∧
    simulateMicroData order twoArrays 1 2 1 uniform = .ok rows ∧ simulateMicroData order2 twoArrays 1 2 1 uniform = .ok rows2 ∧
    rows.map (·.market) ≠ rows2.map (·.market) := by
  have hpos : rowPositions 2 (.first true) = [(0, none, .first none), (1, none, .first (some 0)), (2, none, .first (some 1))] := by
    decide
  have he : ∀ t, ∃ x l, nonzeroEntries (twoArrays t) = x :: l := by
    intro t
    fin_cases t <;> simp [nonzeroEntries, twoArrays, hpos]
  have hr : ∀ order : List (Fin 2), order.Nodup → ∀ t rest, order = t :: rest →
      ∃ rows, simulateMicroData order twoArrays 1 2 1 (fun _ => 0) = .ok rows ∧ rows.map (·.market) = [t] := by
    intro order hnd t rest ho
    have hv := twoArrays_valid order hnd
    obtain ⟨x, l, hx⟩ := he t
    have hall : ∃ l', allEntries order twoArrays = (t, x) :: l' := by
      unfold allEntries
      rw [ho, List.flatMap_cons, hx]
      exact ⟨_, rfl⟩
    obtain ⟨l', hall⟩ := hall
    have hne : allEntries order twoArrays ≠ [] := by simp [hall]
    obtain ⟨k, hk, hd, hrow⟩ := simulateRow_eq hv hne 0 0 le_rfl one_pos
    have hw := allEntries_pos hv
    obtain ⟨hsum, -, hiff⟩ := drawIndex_iff _ hw (by simpa using hne) 0 le_rfl one_pos
    have h0 := (hiff 0 (by simp [hall])).mpr (by
      refine ⟨by simp, div_pos ?_ hsum⟩
      have := hw x.weight (by simp [hall])
      simpa [hall] using this)
    rw [hd] at h0
    have hk0 : k = 0 := Except.ok.inj h0
    subst hk0
    refine ⟨[⟨0, (allEntries order twoArrays)[0].1, (allEntries order twoArrays)[0].2.agent, (allEntries order twoArrays)[0].2.choice,
      (allEntries order twoArrays)[0].2.second⟩], ?_, ?_⟩
    · unfold simulateMicroData
      rw [if_neg (mixed_false hv)]
      simp only [List.range_one, collect, hrow]
    · simp [hall]
  obtain ⟨rows, h1, hm1⟩ := hr [0, 1] (by decide) 0 _ rfl
  obtain ⟨rows2, h2, hm2⟩ := hr [1, 0] (by decide) 1 _ rfl
  exact ⟨[0, 1], [1, 0], fun _ => 0, rows, rows2, List.Perm.swap _ _ _, twoArrays_valid _ (by decide), fun _ => by norm_num, h1, h2,
    by rw [hm1, hm2]; decide⟩

/-- The theorems are about something: weights in this example add up to one. -/
example : Spec.ValidArrays [0, 1] twoArrays 1 2 ∧ Spec.totalWeight [0, 1] twoArrays = 1 := by
  refine ⟨twoArrays_valid _ (by decide), ?_⟩
  have hcells : (MicroShape.first true).cells = ({.first none, .first (some 0), .first (some 1)} : Finset (MicroCell (Fin 2))) := by decide
  change (∑ i ∈ Finset.range 1, ∑ c ∈ ((MicroShape.first true).cells : Finset (MicroCell (Fin 2))),
      (if (0 : Fin 2) = 0 then (if c = .first none then (0 : ℝ) else 1 / 4) else 1 / 6)) +
    ((∑ i ∈ Finset.range 1, ∑ c ∈ ((MicroShape.first true).cells : Finset (MicroCell (Fin 2))),
      (if (1 : Fin 2) = 0 then (if c = .first none then (0 : ℝ) else 1 / 4) else 1 / 6)) + 0) = 1
  rw [hcells]
  simp
  norm_num

end Pyblp
