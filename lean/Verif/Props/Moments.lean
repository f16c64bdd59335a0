import Verif.Model.Moments
import Verif.Props.Micro
import Mathlib.Analysis.Calculus.Deriv.Inv
import Mathlib.Analysis.Calculus.Deriv.Mul
import Mathlib.Data.List.GetD
import Mathlib.Data.List.Nodup

/-!
# Micro moments: C57, C58
-/

set_option linter.unusedSectionVars false

namespace Pyblp

section parts

variable {M P D : Type} [DecidableEq M] [DecidableEq P] [DecidableEq D]

/-! ## C58 -/

/-- Add an element that is not there yet. -/
def addNew (acc : List P) (p : P) : List P := if p ∈ acc then acc else acc ++ [p]

theorem collectParts_eq (parts : M → List P) (moments : List M) : collectParts parts moments = (moments.flatMap parts).foldl addNew [] := by
  unfold collectParts
  rw [List.foldl_flatMap]
  rfl

theorem mem_addNew (l : List P) (p : P) : p ∈ l.foldl addNew [] ↔ p ∈ l := by
  induction l using List.reverseRecOn with
  | nil => rfl
  | append_singleton l a ih =>
    rw [List.foldl_append, List.foldl_cons, List.foldl_nil, List.mem_append, List.mem_singleton]
    unfold addNew
    split
    · rename_i h
      change p ∈ l.foldl addNew [] ↔ _
      change a ∈ l.foldl addNew [] at h
      rw [ih]
      constructor
      · exact Or.inl
      · rintro (h' | rfl)
        · exact h'
        · exact ih.1 h
    · change p ∈ l.foldl addNew [] ++ [a] ↔ _
      rw [List.mem_append, List.mem_singleton, ih]

theorem nodup_addNew (l : List P) : (l.foldl addNew []).Nodup := by
  induction l using List.reverseRecOn with
  | nil => exact List.nodup_nil
  | append_singleton l a ih =>
    rw [List.foldl_append, List.foldl_cons, List.foldl_nil]
    unfold addNew
    split
    · exact ih
    · rename_i h
      exact List.Nodup.append ih (List.nodup_singleton a) (by simpa using h)

theorem order_addNew (l : List P) (p q : P) (hp : p ∈ l) (hq : q ∈ l) :
    (l.foldl addNew []).idxOf p < (l.foldl addNew []).idxOf q ↔ l.idxOf p < l.idxOf q := by
  induction l using List.reverseRecOn with
  | nil => cases hp
  | append_singleton l a ih =>
    rw [List.foldl_append, List.foldl_cons, List.foldl_nil]
    have hr : ∀ x, x ∈ l.foldl addNew [] ↔ x ∈ l := mem_addNew l
    generalize hR : l.foldl addNew [] = r at ih hr
    unfold addNew
    by_cases ha : a ∈ l
    · rw [if_pos ((hr a).2 ha)]
      have hin : ∀ x, x ∈ l ++ [a] → x ∈ l := by
        intro x hx
        rcases List.mem_append.1 hx with h | h
        · exact h
        · rw [List.mem_singleton.1 h]
          exact ha
      rw [List.idxOf_append_of_mem (hin p hp), List.idxOf_append_of_mem (hin q hq)]
      exact ih (hin p hp) (hin q hq)
    · rw [if_neg (fun h => ha ((hr a).1 h))]
      rcases List.mem_append.1 hp with hp | hp
      · rw [List.idxOf_append_of_mem hp, List.idxOf_append_of_mem ((hr p).2 hp)]
        rcases List.mem_append.1 hq with hq | hq
        · rw [List.idxOf_append_of_mem hq, List.idxOf_append_of_mem ((hr q).2 hq)]
          exact ih hp hq
        · rw [List.mem_singleton.1 hq, List.idxOf_append_of_notMem ha, List.idxOf_append_of_notMem (fun h => ha ((hr a).1 h))]
          have h1 := List.idxOf_lt_length_of_mem hp
          have h2 := List.idxOf_lt_length_of_mem ((hr p).2 hp)
          constructor <;> intro <;> omega
      · rw [List.mem_singleton.1 hp, List.idxOf_append_of_notMem ha, List.idxOf_append_of_notMem (fun h => ha ((hr a).1 h))]
        have h0 : List.idxOf a [a] = 0 := by simp
        rcases List.mem_append.1 hq with hq | hq
        · rw [List.idxOf_append_of_mem hq, List.idxOf_append_of_mem ((hr q).2 hq)]
          have h1 := List.idxOf_lt_length_of_mem hq
          have h2 := List.idxOf_lt_length_of_mem ((hr q).2 hq)
          constructor <;> intro <;> omega
        · rw [List.mem_singleton.1 hq, List.idxOf_append_of_notMem ha, List.idxOf_append_of_notMem (fun h => ha ((hr a).1 h))]
          simp

theorem buildMoments_ok {c : MicroConfig M P D} {moments : List M} {l : List P} (h : c.buildMoments moments = .ok l) :
    l = (moments.flatMap c.parts).foldl addNew [] ∧ hasClash c.partClash l = false ∧
      hasClash (fun x y => decide (x = y) || decide (c.momentName x = c.momentName y)) moments = false := by
  unfold MicroConfig.buildMoments at h
  dsimp only at h
  generalize hg : hasClash (fun x y => decide (x = y) || decide (c.momentName x = c.momentName y)) moments = g at h
  cases g with
  | true => cases h
  | false =>
    rw [if_neg (by simp)] at h
    split at h
    · cases h
    · split at h
      · cases h
      · rename_i h2
        have := Except.ok.inj h
        rw [← this, ← collectParts_eq]
        exact ⟨rfl, by simpa using h2, rfl⟩

/-- **C58.** Every part that a moment uses is in the list of parts exactly once, and nothing else is. -/
theorem C58_once {c : MicroConfig M P D} {moments : List M} {l : List P} (h : c.buildMoments moments = .ok l) :
    l.Nodup ∧ ∀ p, p ∈ l ↔ ∃ m ∈ moments, p ∈ c.parts m := by
  obtain ⟨rfl, _⟩ := buildMoments_ok h
  refine ⟨nodup_addNew _, fun p => ?_⟩
  rw [mem_addNew, List.mem_flatMap]

/-- **C58.** Parts are numbered by first appearance. -/
theorem C58_order {c : MicroConfig M P D} {moments : List M} {l : List P} (h : c.buildMoments moments = .ok l) (p q : P) (hp : p ∈ l)
    (hq : q ∈ l) : l.idxOf p < l.idxOf q ↔ (moments.flatMap c.parts).idxOf p < (moments.flatMap c.parts).idxOf q := by
  obtain ⟨rfl, _⟩ := buildMoments_ok h
  exact order_addNew _ p q ((mem_addNew _ _).1 hp) ((mem_addNew _ _).1 hq)

theorem hasClash_false {α : Type} {bad : α → α → Bool} {l : List α} (h : hasClash bad l = false) (i j : ℕ) (hj : j < l.length)
    (hij : i < j) : bad l[j] l[i] = false := by
  unfold hasClash at h
  rw [List.any_eq_false] at h
  have h1 := h j (List.mem_range.2 hj)
  rw [Bool.not_eq_true, List.any_eq_false] at h1
  have h2 := h1 l[i] (by
    rw [List.mem_take_iff_getElem]
    exact ⟨i, by omega, rfl⟩)
  rw [List.getElem?_eq_getElem hj] at h2
  simpa using h2

/-- **C58.** Accepted parts have different names, accepted moments are different and have different names, and parts whose datasets
have the same name share the dataset. -/
theorem C58_names {c : MicroConfig M P D} {moments : List M} {l : List P} (h : c.buildMoments moments = .ok l) :
    (∀ p ∈ l, ∀ q ∈ l, c.partName p = c.partName q → p = q) ∧ moments.Nodup ∧ (moments.map c.momentName).Nodup ∧
      ∀ p ∈ l, ∀ q ∈ l, c.datasetName (c.dataset p) = c.datasetName (c.dataset q) → c.dataset p = c.dataset q := by
  obtain ⟨_, h1, h2⟩ := buildMoments_ok h
  have key : ∀ p ∈ l, ∀ q ∈ l, p ≠ q → c.partName p ≠ c.partName q ∧
      (c.dataset p ≠ c.dataset q → c.datasetName (c.dataset p) ≠ c.datasetName (c.dataset q)) := by
    intro p hp q hq hpq
    obtain ⟨i, hi, rfl⟩ := List.getElem_of_mem hp
    obtain ⟨j, hj, rfl⟩ := List.getElem_of_mem hq
    rcases lt_trichotomy i j with hij | rfl | hij
    · have := hasClash_false h1 i j hj hij
      unfold MicroConfig.partClash at this
      simp only [Bool.or_eq_false_iff, Bool.and_eq_false_iff, decide_eq_false_iff_not, not_not] at this
      refine ⟨fun h => this.1 h.symm, fun hne h => ?_⟩
      rcases this.2 with h' | h'
      · exact hne h'.symm
      · exact h' h.symm
    · exact absurd rfl hpq
    · have := hasClash_false h1 j i hi hij
      unfold MicroConfig.partClash at this
      simp only [Bool.or_eq_false_iff, Bool.and_eq_false_iff, decide_eq_false_iff_not, not_not] at this
      refine ⟨this.1, fun hne h => ?_⟩
      rcases this.2 with h' | h'
      · exact hne h'
      · exact h' h
  refine ⟨fun p hp q hq hn => ?_, ?_, ?_, fun p hp q hq hn => ?_⟩
  · by_contra hne
    exact (key p hp q hq hne).1 hn
  · unfold List.Nodup
    rw [List.pairwise_iff_getElem]
    intro i j hi hj hij heq
    have := hasClash_false h2 i j hj hij
    simp [heq] at this
  · unfold List.Nodup
    rw [List.pairwise_map, List.pairwise_iff_getElem]
    intro i j hi hj hij heq
    have := hasClash_false h2 i j hj hij
    simp [heq] at this
  · by_contra hne
    exact (key p hp q hq (fun h => hne (by rw [h]))).2 hne hn

/-- **C58.** The functions of each moment receive the values of its own parts in its own order, where a part has one value, whichever
moment uses it. -/
theorem C58_arguments {c : MicroConfig M P D} {moments : List M} {l : List P} (h : c.buildMoments moments = .ok l) (m : M)
    (hm : m ∈ moments) (value : P → ℝ) : partArguments c.parts l (l.map value) m = (c.parts m).map value := by
  unfold partArguments partIndices
  rw [List.map_map]
  apply List.map_congr_left
  intro p hp
  have hpl : p ∈ l := ((C58_once h).2 p).2 ⟨m, hm, hp⟩
  have hlt := List.idxOf_lt_length_of_mem hpl
  show (l.map value).getD (l.idxOf p) 0 = value p
  rw [List.getD_eq_getElem _ _ (by rw [List.length_map]; exact hlt), List.getElem_map, List.getElem_idxOf]

theorem foldl_scatter_not (l : List (ℕ × ℝ)) (row : ℕ → ℝ) (k : ℕ) (h : k ∉ l.map Prod.fst) :
    l.foldl (fun row a => fun k => if k = a.1 then a.2 else row k) row k = row k := by
  induction l generalizing row with
  | nil => rfl
  | cons a l ih =>
    rw [List.map_cons, List.mem_cons, not_or] at h
    rw [List.foldl_cons, ih _ h.2]
    exact if_neg h.1

theorem foldl_scatter_mem (l : List (ℕ × ℝ)) (hn : (l.map Prod.fst).Nodup) (row : ℕ → ℝ) (a : ℕ × ℝ) (h : a ∈ l) :
    l.foldl (fun row a => fun k => if k = a.1 then a.2 else row k) row a.1 = a.2 := by
  induction l generalizing row with
  | nil => cases h
  | cons b l ih =>
    rw [List.map_cons, List.nodup_cons] at hn
    rw [List.foldl_cons]
    rcases List.mem_cons.1 h with rfl | h
    · rw [foldl_scatter_not _ _ _ hn.1]
      exact if_pos rfl
    · exact ih hn.2 _ h

theorem validateMoment_ok {c : MicroConfig M P D} {m : M} (h : c.validateMoment m = .ok ()) : (c.parts m).Nodup ∧ c.parts m ≠ [] := by
  unfold MicroConfig.validateMoment at h
  split at h
  · cases h
  · rename_i h1
    generalize hg : hasClash (fun x y => decide (x = y) || c.partClash x y) (c.parts m) = g at h
    cases g with
    | true => cases h
    | false =>
      refine ⟨?_, fun h0 => h1 (by rw [h0]; simp)⟩
      unfold List.Nodup
      rw [List.pairwise_iff_getElem]
      intro i j hi hj hij heq
      have := hasClash_false hg i j hj hij
      simp [heq] at this

theorem nodup_indices {c : MicroConfig M P D} {moments : List M} {l : List P} (h : c.buildMoments moments = .ok l) (m : M)
    (hm : m ∈ moments) (hv : c.validateMoment m = .ok ()) : (partIndices c.parts l m).Nodup := by
  unfold partIndices
  refine List.Nodup.map_on ?_ (validateMoment_ok hv).1
  intro x hx y hy hxy
  have hxl : x ∈ l := ((C58_once h).2 x).2 ⟨m, hm, hx⟩
  exact (List.idxOf_inj hxl).1 hxy

/-- **C58.** The gradient of a moment with respect to parts has the `k`-th derivative at the position of the moment's `k`-th part and
zeros for parts that the moment does not use. -/
theorem C58_gradient {c : MicroConfig M P D} {moments : List M} {l : List P} (h : c.buildMoments moments = .ok l) (m : M)
    (hm : m ∈ moments) (hv : c.validateMoment m = .ok ()) (gradient : List ℝ) (hg : gradient.length = (c.parts m).length) :
    (∀ k (hk : k < (c.parts m).length),
      scatterGradient (partIndices c.parts l m) gradient (l.idxOf (c.parts m)[k]) = gradient[k]'(by omega)) ∧
      ∀ p ∈ l, p ∉ c.parts m → scatterGradient (partIndices c.parts l m) gradient (l.idxOf p) = 0 := by
  have hlen : (partIndices c.parts l m).length = (c.parts m).length := List.length_map _
  have hfst : ((partIndices c.parts l m).zip gradient).map Prod.fst = partIndices c.parts l m :=
    List.map_fst_zip (by omega)
  constructor
  · intro k hk
    unfold scatterGradient
    refine foldl_scatter_mem _ (by rw [hfst]; exact nodup_indices h m hm hv) _ (l.idxOf (c.parts m)[k], gradient[k]'(by omega)) ?_
    rw [List.mem_iff_getElem]
    refine ⟨k, by rw [List.length_zip]; omega, ?_⟩
    rw [List.getElem_zip]
    unfold partIndices
    rw [List.getElem_map]
  · intro p hp hn
    unfold scatterGradient
    rw [foldl_scatter_not]
    rw [hfst]
    unfold partIndices
    rintro hmem
    obtain ⟨x, hx, hxy⟩ := List.mem_map.1 hmem
    have hxl : x ∈ l := ((C58_once h).2 x).2 ⟨m, hm, hx⟩
    rw [(List.idxOf_inj hxl).1 hxy] at hx
    exact hn hx

theorem sum_scatter (PM : ℕ) (J : ℕ → ℝ) (l : List (ℕ × ℝ)) (row : ℕ → ℝ) (hn : (l.map Prod.fst).Nodup)
    (hrow : ∀ a ∈ l, row a.1 = 0) (hlt : ∀ a ∈ l, a.1 < PM) :
    ∑ k ∈ Finset.range PM, l.foldl (fun row a => fun k => if k = a.1 then a.2 else row k) row k * J k =
      ∑ k ∈ Finset.range PM, row k * J k + (l.map fun a => a.2 * J a.1).sum := by
  induction l generalizing row with
  | nil => simp
  | cons a l ih =>
    rw [List.map_cons, List.nodup_cons] at hn
    rw [List.foldl_cons, ih _ hn.2, List.map_cons, List.sum_cons, ← add_assoc]
    · congr 1
      have h1 : ∀ k ∈ Finset.range PM, (if k = a.1 then a.2 else row k) * J k = row k * J k + if k = a.1 then a.2 * J k else 0 := by
        intro k _
        by_cases hk : k = a.1
        · rw [if_pos hk, if_pos hk, hk, hrow a (by simp)]
          ring
        · rw [if_neg hk, if_neg hk, add_zero]
      rw [Finset.sum_congr rfl h1, Finset.sum_add_distrib, Finset.sum_ite_eq' (Finset.range PM) a.1,
        if_pos (Finset.mem_range.2 (hlt a (by simp)))]
    · intro b hb
      have hne : b.1 ≠ a.1 := fun h => hn.1 (h ▸ List.mem_map.2 ⟨b, hb, rfl⟩)
      rw [if_neg hne]
      exact hrow b (List.mem_cons_of_mem _ hb)
    · exact fun b hb => hlt b (List.mem_cons_of_mem _ hb)

/-- **C58.** The derivative of a micro moment with respect to a parameter is minus the sum over the moment's own parts of the part's
derivative times its element of the gradient. -/
theorem C58_jacobian {c : MicroConfig M P D} {moments : List M} {l : List P} (h : c.buildMoments moments = .ok l) (m : M)
    (hm : m ∈ moments) (hv : c.validateMoment m = .ok ()) (gradient : List ℝ) (hg : gradient.length = (c.parts m).length)
    (derivative : P → ℝ) (partsJacobian : ℕ → ℝ) (hJ : ∀ p ∈ l, partsJacobian (l.idxOf p) = derivative p) :
    microJacobian l.length (scatterGradient (partIndices c.parts l m) gradient) partsJacobian =
      -(((c.parts m).zip gradient).map fun a => a.2 * derivative a.1).sum := by
  have hlen : (partIndices c.parts l m).length = (c.parts m).length := List.length_map _
  have hfst : ((partIndices c.parts l m).zip gradient).map Prod.fst = partIndices c.parts l m :=
    List.map_fst_zip (by omega)
  unfold microJacobian
  rw [sum_range_list]
  have h1 : ∀ k ∈ Finset.range l.length, -scatterGradient (partIndices c.parts l m) gradient k * partsJacobian k =
      -(scatterGradient (partIndices c.parts l m) gradient k * partsJacobian k) := fun k _ => by ring
  rw [Finset.sum_congr rfl h1, Finset.sum_neg_distrib]
  congr 1
  unfold scatterGradient
  rw [sum_scatter _ _ _ _ (by rw [hfst]; exact nodup_indices h m hm hv) (fun _ _ => rfl)]
  · simp only [zero_mul, Finset.sum_const_zero, zero_add]
    unfold partIndices
    rw [List.zip_map_left, List.map_map]
    congr 1
    apply List.map_congr_left
    intro a ha
    have hp : a.1 ∈ c.parts m := (List.of_mem_zip ha).1
    have hpl : a.1 ∈ l := ((C58_once h).2 a.1).2 ⟨m, hm, hp⟩
    show a.2 * partsJacobian (l.idxOf a.1) = _
    rw [hJ _ hpl]
  · intro a ha
    have hmem : a.1 ∈ partIndices c.parts l m := by
      rw [← hfst]
      exact List.mem_map.2 ⟨a, ha, rfl⟩
    unfold partIndices at hmem
    obtain ⟨x, hx, hxy⟩ := List.mem_map.1 hmem
    rw [← hxy]
    exact List.idxOf_lt_length_of_mem (((C58_once h).2 x).2 ⟨m, hm, hx⟩)

/-- **C58.** The derivative of a part is the derivative of its numerator over its denominator. -/
theorem C58_part_derivative (numerator denominator : ℝ → ℝ) (numerator' denominator' x : ℝ) (h1 : HasDerivAt numerator numerator' x)
    (h2 : HasDerivAt denominator denominator' x) (h0 : denominator x ≠ 0) :
    HasDerivAt (fun y => numerator y / denominator y)
      (partsJacobianEntry (numerator x) (denominator x) numerator' denominator') x := by
  have := h1.div h2 h0
  have h : partsJacobianEntry (numerator x) (denominator x) numerator' denominator' =
      (numerator' * denominator x - numerator x * denominator') / denominator x ^ 2 := by
    unfold partsJacobianEntry
    field_simp
  rw [h]
  exact this

/-- Two moments that share a part: the second receives the shared part second. -/
example : ∃ c : MicroConfig ℕ ℕ ℕ, c.buildMoments [0, 1] = .ok [7, 8, 9] ∧ c.validateMoment 1 = .ok () ∧
    partArguments c.parts [7, 8, 9] [70, 80, 90] 1 = [90, 70] := by
  refine ⟨⟨fun m => if m = 0 then "a" else "b", fun m => if m = 0 then [7, 8] else [9, 7],
    fun p => if p = 7 then "x" else if p = 8 then "y" else "z", fun _ => 0, fun _ => "d", fun _ => true⟩, ?_, ?_, ?_⟩
  · decide +kernel
  · decide +kernel
  · simp [partArguments, partIndices, List.idxOf, List.findIdx, List.findIdx.go]

end parts

/-! ## C57 -/

section covariances

variable {T A S C D Q : Type} [Fintype T] [DecidableEq D]

namespace Spec

/-- A sum over a dataset: over agents and cells of all markets in the dataset, where cells count by their weights. -/
noncomputable def overDataset (m : T → MicroMarket A S C D Q) (shape : T → D → S) (weight : T → D → A → C → ℝ) (d : D)
    (f : T → ℕ → C → ℝ) : ℝ :=
  ∑ t, if (m t).included d = true then overMarket (m t) (shape t d) (fun i c => cellWeight (m t) (weight t) d i c * f t i c) else 0

/-- An average over a dataset. -/
noncomputable def average (m : T → MicroMarket A S C D Q) (shape : T → D → S) (weight : T → D → A → C → ℝ) (d : D)
    (f : T → ℕ → C → ℝ) : ℝ :=
  overDataset m shape weight d f / overDataset m shape weight d fun _ _ _ => 1

/-- The covariance of averages of independent observations from a dataset: the covariance of values over the number of observations, and
zero for parts of different datasets. -/
noncomputable def partCovariance {n : ℕ} (m : T → MicroMarket A S C D Q) (shape : T → D → S) (weight : T → D → A → C → ℝ)
    (value : Fin n → T → ℕ → C → ℝ) (dataset : Fin n → D) (observations : D → ℕ) (a b : Fin n) : ℝ :=
  if dataset a = dataset b then
    (average m shape weight (dataset a) (fun t i c => value a t i c * value b t i c) -
      average m shape weight (dataset a) (value a) * average m shape weight (dataset a) (value b)) / observations (dataset a)
  else 0

end Spec

variable {m : T → MicroMarket A S C D Q} {shape : T → D → S} {weight : T → D → A → C → ℝ}

theorem overDataset_add (d : D) (f g : T → ℕ → C → ℝ) : Spec.overDataset m shape weight d (fun t i c => f t i c + g t i c) =
    Spec.overDataset m shape weight d f + Spec.overDataset m shape weight d g := by
  unfold Spec.overDataset Spec.overMarket
  rw [← Finset.sum_add_distrib]
  apply Finset.sum_congr rfl
  intro t _
  split
  · rw [← Finset.sum_add_distrib]
    apply Finset.sum_congr rfl
    intro i _
    rw [← Finset.sum_add_distrib]
    apply Finset.sum_congr rfl
    intro c _
    ring
  · rw [add_zero]

theorem overDataset_smul (d : D) (x : ℝ) (f : T → ℕ → C → ℝ) : Spec.overDataset m shape weight d (fun t i c => x * f t i c) =
    x * Spec.overDataset m shape weight d f := by
  unfold Spec.overDataset Spec.overMarket
  rw [Finset.mul_sum]
  apply Finset.sum_congr rfl
  intro t _
  split
  · rw [Finset.mul_sum]
    apply Finset.sum_congr rfl
    intro i _
    rw [Finset.mul_sum]
    apply Finset.sum_congr rfl
    intro c _
    ring
  · rw [mul_zero]

theorem overDataset_nonneg (d : D) (f : T → ℕ → C → ℝ) (hf : ∀ t i c, 0 ≤ f t i c) : 0 ≤ Spec.overDataset m shape weight d f := by
  unfold Spec.overDataset Spec.overMarket
  apply Finset.sum_nonneg
  intro t _
  split
  · apply Finset.sum_nonneg
    intro i _
    apply Finset.sum_nonneg
    intro c _
    exact mul_nonneg (le_max_right _ _) (hf t i c)
  · exact le_rfl

theorem overDataset_sum {ι : Type} (s : Finset ι) (d : D) (f : ι → T → ℕ → C → ℝ) :
    Spec.overDataset m shape weight d (fun t i c => ∑ k ∈ s, f k t i c) = ∑ k ∈ s, Spec.overDataset m shape weight d (f k) := by
  classical
  induction s using Finset.induction_on with
  | empty =>
    simp only [Finset.sum_empty]
    have := overDataset_smul (m := m) (shape := shape) (weight := weight) d 0 fun _ _ _ => 0
    simpa using this
  | insert k s hk ih =>
    simp only [Finset.sum_insert hk]
    rw [overDataset_add, ih]

/-- Variances are not negative. -/
theorem variance_nonneg (d : D) (f : T → ℕ → C → ℝ) (hd : 0 < Spec.overDataset m shape weight d fun _ _ _ => 1) :
    Spec.average m shape weight d f ^ 2 ≤ Spec.average m shape weight d fun t i c => f t i c * f t i c := by
  set a := Spec.average m shape weight d f with ha
  have h1 : 0 ≤ Spec.overDataset m shape weight d fun t i c => (f t i c - a) ^ 2 := overDataset_nonneg d _ fun t i c => sq_nonneg _
  have h2 : (fun t i c => (f t i c - a) ^ 2) = fun t i c => f t i c * f t i c + ((-2 * a) * f t i c + a ^ 2 * 1) := by
    funext t i c
    ring
  rw [h2, overDataset_add, overDataset_add, overDataset_smul, overDataset_smul] at h1
  have h3 : Spec.overDataset m shape weight d f = a * Spec.overDataset m shape weight d fun _ _ _ => 1 := by
    rw [ha]
    unfold Spec.average
    field_simp
  rw [h3] at h1
  unfold Spec.average
  rw [le_div_iff₀ hd]
  nlinarith

/-- Covariances of parts, if contributions are what they should be. -/
theorem covariances_of_sums {n : ℕ} (value : Fin n → T → ℕ → C → ℝ) (dataset : Fin n → D) (observations : D → ℕ)
    (numerator : Fin n → Fin n → ℝ) (denominator values : Fin n → ℝ)
    (hcov : ∀ p2 p, numerator p2 p = if p2 ≤ p ∧ dataset p2 = dataset p then
      Spec.overDataset m shape weight (dataset p) (fun t i c => value p t i c * value p2 t i c) else 0)
    (hden : ∀ p, denominator p = Spec.overDataset m shape weight (dataset p) fun _ _ _ => 1)
    (hval : ∀ p, values p = Spec.average m shape weight (dataset p) (value p)) (a b : Fin n) :
    partsCovariances numerator denominator values dataset observations a b =
      Spec.partCovariance m shape weight value dataset observations a b := by
  have hscaled : ∀ p2 p1 : Fin n, p2 ≤ p1 →
      (if p2 ≤ p1 ∧ dataset p1 = dataset p2 then
        (numerator p2 p1 / denominator p2 - values p1 * values p2) / (observations (dataset p1) : ℝ)
      else numerator p2 p1 / denominator p2) = Spec.partCovariance m shape weight value dataset observations p1 p2 := by
    intro p2 p1 hle
    unfold Spec.partCovariance
    by_cases hd : dataset p1 = dataset p2
    · rw [if_pos ⟨hle, hd⟩, if_pos hd, hcov, if_pos ⟨hle, hd.symm⟩, hden, hval, hval, ← hd]
      rfl
    · rw [if_neg (fun h => hd h.2), if_neg hd, hcov, if_neg (fun h => hd h.2.symm), zero_div]
  have hsymm : Spec.partCovariance m shape weight value dataset observations b a =
      Spec.partCovariance m shape weight value dataset observations a b := by
    unfold Spec.partCovariance
    by_cases hd : dataset a = dataset b
    · rw [if_pos hd, if_pos hd.symm, ← hd]
      congr 1
      rw [mul_comm (Spec.average m shape weight (dataset a) (value b))]
      congr 3
      funext t i c
      ring
    · rw [if_neg hd, if_neg (fun h => hd h.symm)]
  unfold partsCovariances
  dsimp only
  by_cases hab : b < a
  · rw [if_pos hab, hscaled b a hab.le]
  · rw [if_neg hab, hscaled a b (not_lt.1 hab), hsymm]

/-- **C57.** The covariance matrix of parts is positive semidefinite. -/
theorem C57_parts_psd {n : ℕ} (value : Fin n → T → ℕ → C → ℝ) (dataset : Fin n → D) (observations : D → ℕ)
    (hd : ∀ p, 0 < Spec.overDataset m shape weight (dataset p) fun _ _ _ => 1) (x : Fin n → ℝ) :
    0 ≤ ∑ a, ∑ b, x a * Spec.partCovariance m shape weight value dataset observations a b * x b := by
  classical
  have hgroup : ∑ a, ∑ b, x a * Spec.partCovariance m shape weight value dataset observations a b * x b =
      ∑ d ∈ Finset.univ.image dataset, ∑ a with dataset a = d, ∑ b with dataset b = d,
        x a * ((Spec.average m shape weight d (fun t i c => value a t i c * value b t i c) -
          Spec.average m shape weight d (value a) * Spec.average m shape weight d (value b)) / observations d) * x b := by
    rw [← Finset.sum_fiberwise_of_maps_to (s := Finset.univ) (t := Finset.univ.image dataset) (g := dataset)
      (fun a _ => Finset.mem_image_of_mem _ (Finset.mem_univ a))]
    apply Finset.sum_congr rfl
    intro d _
    apply Finset.sum_congr rfl
    intro a ha
    rw [Finset.sum_filter]
    apply Finset.sum_congr rfl
    intro b _
    have had : dataset a = d := (Finset.mem_filter.1 ha).2
    unfold Spec.partCovariance
    by_cases hb : dataset b = d
    · rw [if_pos (had.trans hb.symm), if_pos hb, had]
    · rw [if_neg (fun h => hb (h.symm.trans had)), if_neg hb]
      ring
  rw [hgroup]
  apply Finset.sum_nonneg
  intro d hdm
  obtain ⟨p, _, rfl⟩ := Finset.mem_image.1 hdm
  set d := dataset p
  set s : Finset (Fin n) := Finset.univ.filter fun a => dataset a = d
  have hvar := variance_nonneg (m := m) (shape := shape) (weight := weight) d (fun t i c => ∑ a ∈ s, x a * value a t i c) (hd p)
  have hmean : Spec.average m shape weight d (fun t i c => ∑ a ∈ s, x a * value a t i c) =
      ∑ a ∈ s, x a * Spec.average m shape weight d (value a) := by
    unfold Spec.average
    rw [overDataset_sum, Finset.sum_div]
    apply Finset.sum_congr rfl
    intro a _
    rw [overDataset_smul, mul_div_assoc]
  have hsquare : Spec.average m shape weight d
      (fun t i c => (∑ a ∈ s, x a * value a t i c) * ∑ a ∈ s, x a * value a t i c) =
      ∑ a ∈ s, ∑ b ∈ s, x a * x b * Spec.average m shape weight d (fun t i c => value a t i c * value b t i c) := by
    have h1 : (fun t i c => (∑ a ∈ s, x a * value a t i c) * ∑ a ∈ s, x a * value a t i c) =
        fun t i c => ∑ a ∈ s, ∑ b ∈ s, x a * x b * (value a t i c * value b t i c) := by
      funext t i c
      rw [Finset.sum_mul_sum]
      apply Finset.sum_congr rfl
      intro a _
      apply Finset.sum_congr rfl
      intro b _
      ring
    unfold Spec.average
    rw [h1, overDataset_sum, Finset.sum_div]
    apply Finset.sum_congr rfl
    intro a _
    rw [overDataset_sum, Finset.sum_div]
    apply Finset.sum_congr rfl
    intro b _
    rw [overDataset_smul, mul_div_assoc]
  rw [hmean, hsquare, sq, Finset.sum_mul_sum] at hvar
  have hfinal : (∑ a ∈ s, ∑ b ∈ s, x a * ((Spec.average m shape weight d (fun t i c => value a t i c * value b t i c) -
      Spec.average m shape weight d (value a) * Spec.average m shape weight d (value b)) / observations d) * x b) =
      (∑ a ∈ s, ∑ b ∈ s, x a * x b * Spec.average m shape weight d (fun t i c => value a t i c * value b t i c) -
        ∑ a ∈ s, ∑ b ∈ s, x a * Spec.average m shape weight d (value a) * (x b * Spec.average m shape weight d (value b))) /
        observations d := by
    rw [← Finset.sum_sub_distrib, Finset.sum_div]
    apply Finset.sum_congr rfl
    intro a _
    rw [← Finset.sum_sub_distrib, Finset.sum_div]
    apply Finset.sum_congr rfl
    intro b _
    ring
  rw [hfinal]
  exact div_nonneg (sub_nonneg.2 hvar) (Nat.cast_nonneg _)

/-- **C57.** The covariance matrix of micro moments is symmetric and positive semidefinite if that of parts is. -/
theorem C57_moments {n k : ℕ} (gradients : Fin k → Fin n → ℝ) (covariances : Fin n → Fin n → ℝ)
    (hs : ∀ a b, covariances a b = covariances b a) (hp : ∀ x : Fin n → ℝ, 0 ≤ ∑ a, ∑ b, x a * covariances a b * x b) :
    (∀ x y, microCovariances gradients covariances x y = microCovariances gradients covariances y x) ∧
      ∀ z : Fin k → ℝ, 0 ≤ ∑ x, ∑ y, z x * microCovariances gradients covariances x y * z y := by
  have hexp : ∀ x y, microCovariances gradients covariances x y = ∑ a, ∑ b, gradients x a * covariances a b * gradients y b := by
    intro x y
    unfold microCovariances
    rw [Finset.sum_comm]
    apply Finset.sum_congr rfl
    intro b _
    rw [Finset.sum_mul]
  constructor
  · intro x y
    rw [hexp, hexp, Finset.sum_comm]
    apply Finset.sum_congr rfl
    intro a _
    apply Finset.sum_congr rfl
    intro b _
    rw [hs b a]
    ring
  · intro z
    have h := hp fun a => ∑ x, z x * gradients x a
    have heq : ∑ x, ∑ y, z x * microCovariances gradients covariances x y * z y =
        ∑ a, ∑ b, (∑ x, z x * gradients x a) * covariances a b * ∑ y, z y * gradients y b := by
      have h1 : ∀ x y, z x * microCovariances gradients covariances x y * z y =
          ∑ a, ∑ b, (z x * gradients x a) * covariances a b * (z y * gradients y b) := by
        intro x y
        rw [hexp, Finset.mul_sum, Finset.sum_mul]
        apply Finset.sum_congr rfl
        intro a _
        rw [Finset.mul_sum, Finset.sum_mul]
        apply Finset.sum_congr rfl
        intro b _
        ring
      have h2 : ∀ a b, (∑ x, z x * gradients x a) * covariances a b * ∑ y, z y * gradients y b =
          ∑ x, ∑ y, (z x * gradients x a) * covariances a b * (z y * gradients y b) := by
        intro a b
        rw [Finset.sum_mul, Finset.sum_mul]
        apply Finset.sum_congr rfl
        intro x _
        rw [Finset.mul_sum]
      simp only [h1, h2]
      rw [Finset.sum_comm' (t' := Finset.univ) (s' := fun _ => Finset.univ) (by simp)]
      calc ∑ y, ∑ x, ∑ a, ∑ b, (z x * gradients x a) * covariances a b * (z y * gradients y b)
          = ∑ y, ∑ a, ∑ x, ∑ b, (z x * gradients x a) * covariances a b * (z y * gradients y b) :=
            Finset.sum_congr rfl fun y _ => Finset.sum_comm
        _ = ∑ a, ∑ y, ∑ x, ∑ b, (z x * gradients x a) * covariances a b * (z y * gradients y b) := Finset.sum_comm
        _ = ∑ a, ∑ y, ∑ b, ∑ x, (z x * gradients x a) * covariances a b * (z y * gradients y b) :=
            Finset.sum_congr rfl fun a _ => Finset.sum_congr rfl fun y _ => Finset.sum_comm
        _ = ∑ a, ∑ b, ∑ y, ∑ x, (z x * gradients x a) * covariances a b * (z y * gradients y b) :=
            Finset.sum_congr rfl fun a _ => Finset.sum_comm
        _ = ∑ a, ∑ b, ∑ x, ∑ y, (z x * gradients x a) * covariances a b * (z y * gradients y b) :=
            Finset.sum_congr rfl fun a _ => Finset.sum_congr rfl fun b _ => Finset.sum_comm
    rw [heq]
    exact h

theorem microContributions_excluded {n : ℕ} (m : MicroMarket A S C D Q) (u : MicroFunctions A S C D (Fin n)) (dataset : Fin n → D)
    (earlier : List (Fin n)) (p : Fin n) (chunks : ℤ) (h : m.included (dataset p) = false) (x : PartContribution (Fin n) Q)
    (hx : microContributions m u dataset earlier p chunks = .ok x) : x = PartContribution.zero := by
  have hloop : ∀ l : List (List ℕ), loopChunks m u dataset earlier p PartContribution.zero l = .ok PartContribution.zero := by
    intro l
    induction l with
    | nil => rfl
    | cons c l ih =>
      unfold loopChunks partContribution
      rw [if_pos h]
      show loopChunks m u dataset earlier p (PartContribution.zero.add PartContribution.zero) l = _
      have : (PartContribution.zero : PartContribution (Fin n) Q).add PartContribution.zero = PartContribution.zero := by
        simp [PartContribution.add, PartContribution.zero]
      rw [this, ih]
  unfold microContributions at hx
  split at hx
  · cases hx
  · rw [hloop] at hx
    exact (Except.ok.inj hx).symm

/-- What a part contributes in a market. -/
theorem contribution_eq {n : ℕ} {u : T → MicroFunctions A S C D (Fin n)} {dataset : Fin n → D} {value : Fin n → T → A → C → ℝ}
    (hu : ∀ t, Spec.RowByRow (m t) (u t) dataset (shape t) (weight t) (fun p => value p t)) (chunks : ℤ) (hc : 1 ≤ chunks) (t : T)
    (p : Fin n) (x : PartContribution (Fin n) Q)
    (hx : microContributions (m t) (u t) dataset ((List.finRange n).filter fun p2 => decide (p2 ≤ p)) p chunks = .ok x) :
    x.numerator = (if (m t).included (dataset p) = true then Spec.overMarket (m t) (shape t (dataset p))
      (fun i c => Spec.cellWeight (m t) (weight t) (dataset p) i c * value p t ((m t).row i) c) else 0) ∧
    x.denominator = (if (m t).included (dataset p) = true then Spec.overMarket (m t) (shape t (dataset p))
      (fun i c => Spec.cellWeight (m t) (weight t) (dataset p) i c * 1) else 0) ∧
    ∀ p2, x.covariances p2 = if p2 ≤ p ∧ dataset p2 = dataset p then
      (if (m t).included (dataset p) = true then Spec.overMarket (m t) (shape t (dataset p))
        (fun i c => Spec.cellWeight (m t) (weight t) (dataset p) i c * (value p t ((m t).row i) c * value p2 t ((m t).row i) c))
        else 0) else 0 := by
  by_cases hi : (m t).included (dataset p) = true
  · obtain ⟨y, hy, h1, h2, _, h4⟩ := C56_contributions_partial (hu t) ((List.finRange n).filter fun p2 => decide (p2 ≤ p))
      ((List.nodup_finRange n).filter _) p hi chunks hc
    rw [hx] at hy
    obtain rfl := Except.ok.inj hy
    refine ⟨?_, ?_, fun p2 => ?_⟩
    · rw [if_pos hi, h1]
    · rw [if_pos hi, h2]
      simp only [mul_one]
    · rw [h4, if_pos hi]
      have hmem : p2 ∈ (List.finRange n).filter (fun p2 => decide (p2 ≤ p)) ↔ p2 ≤ p := by simp
      simp only [hmem, mul_assoc]
  · have hf : (m t).included (dataset p) = false := by simpa using hi
    rw [microContributions_excluded (m t) (u t) dataset _ p chunks hf x hx]
    refine ⟨?_, ?_, fun p2 => ?_⟩
    · rw [if_neg hi]; rfl
    · rw [if_neg hi]; rfl
    · rw [if_neg hi]; simp [PartContribution.zero]

/-- **C57.** Covariances of parts, computed from what markets contribute to the upper triangle whatever the number of chunks, are
covariances of averages over independent datasets. In particular they are zero for parts of different datasets. -/
theorem C57_parts {n : ℕ} {u : T → MicroFunctions A S C D (Fin n)} {dataset : Fin n → D} {value : Fin n → T → A → C → ℝ}
    (hu : ∀ t, Spec.RowByRow (m t) (u t) dataset (shape t) (weight t) (fun p => value p t)) (observations : D → ℕ)
    (chunks : ℤ) (hc : 1 ≤ chunks) (x : T → Fin n → PartContribution (Fin n) Q)
    (hx : ∀ t p, microContributions (m t) (u t) dataset ((List.finRange n).filter fun p2 => decide (p2 ≤ p)) p chunks = .ok (x t p))
    (a b : Fin n) :
    partsCovariances (fun p2 p => ∑ t, (x t p).covariances p2) (fun p => ∑ t, (x t p).denominator)
        (fun p => (∑ t, (x t p).numerator) / ∑ t, (x t p).denominator) dataset observations a b =
      Spec.partCovariance m shape weight (fun p t i c => value p t ((m t).row i) c) dataset observations a b := by
  apply covariances_of_sums
  · intro p2 p
    rw [Finset.sum_congr rfl fun t _ => (contribution_eq hu chunks hc t p (x t p) (hx t p)).2.2 p2]
    by_cases h : p2 ≤ p ∧ dataset p2 = dataset p
    · rw [if_pos h]
      simp only [if_pos h]
      rfl
    · rw [if_neg h]
      simp only [if_neg h, Finset.sum_const_zero]
  · intro p
    rw [Finset.sum_congr rfl fun t _ => (contribution_eq hu chunks hc t p (x t p) (hx t p)).2.1]
    rfl
  · intro p
    rw [Finset.sum_congr rfl fun t _ => (contribution_eq hu chunks hc t p (x t p) (hx t p)).2.1,
      Finset.sum_congr rfl fun t _ => (contribution_eq hu chunks hc t p (x t p) (hx t p)).1]
    rfl

/-- **C57.** Covariances of micro moments are symmetric and positive semidefinite, whatever their gradients. -/
theorem C57_covariances {n k : ℕ} {u : T → MicroFunctions A S C D (Fin n)} {dataset : Fin n → D} {value : Fin n → T → A → C → ℝ}
    (hu : ∀ t, Spec.RowByRow (m t) (u t) dataset (shape t) (weight t) (fun p => value p t)) (observations : D → ℕ)
    (chunks : ℤ) (hc : 1 ≤ chunks) (x : T → Fin n → PartContribution (Fin n) Q)
    (hx : ∀ t p, microContributions (m t) (u t) dataset ((List.finRange n).filter fun p2 => decide (p2 ≤ p)) p chunks = .ok (x t p))
    (hd : ∀ p, 0 < ∑ t, (x t p).denominator) (gradients : Fin k → Fin n → ℝ) :
    let covariances := partsCovariances (fun p2 p => ∑ t, (x t p).covariances p2) (fun p => ∑ t, (x t p).denominator)
        (fun p => (∑ t, (x t p).numerator) / ∑ t, (x t p).denominator) dataset observations
    (∀ a b, microCovariances gradients covariances a b = microCovariances gradients covariances b a) ∧
      ∀ z : Fin k → ℝ, 0 ≤ ∑ a, ∑ b, z a * microCovariances gradients covariances a b * z b := by
  intro covariances
  have heq : ∀ a b, covariances a b =
      Spec.partCovariance m shape weight (fun p t i c => value p t ((m t).row i) c) dataset observations a b :=
    C57_parts hu observations chunks hc x hx
  refine C57_moments gradients covariances ?_ ?_
  · intro a b
    show partsCovariances _ _ _ _ _ a b = partsCovariances _ _ _ _ _ b a
    unfold partsCovariances
    dsimp only
    rcases lt_trichotomy a b with h | h | h
    · rw [if_neg (asymm h), if_pos h]
    · rw [h]
    · rw [if_pos h, if_neg (asymm h)]
  · intro z
    simp only [heq]
    apply C57_parts_psd
    intro p
    have := hd p
    rw [Finset.sum_congr rfl fun t _ => (contribution_eq hu chunks hc t p (x t p) (hx t p)).2.1] at this
    exact this

end covariances

/-- Values of two parts in the example. -/
noncomputable def exampleParts (p : Fin 2) (i : ℕ) : ℝ := if p = 0 then exampleValue i else exampleValue i ^ 2

/-- The hypotheses of `C57_covariances` hold for two parts of one dataset in the market of C56 with two agents, split into two chunks. -/
example : ∃ (u : Unit → MicroFunctions ℕ Unit Unit Unit (Fin 2)) (x : Unit → Fin 2 → PartContribution (Fin 2) Unit),
    (∀ t, Spec.RowByRow exampleMicro (u t) (fun _ => ()) (fun _ => ()) (fun _ _ _ => 1) (fun p i _ => exampleParts p i)) ∧
    (∀ t p, microContributions exampleMicro (u t) (fun _ => ()) ((List.finRange 2).filter fun p2 => decide (p2 ≤ p)) p 2 =
      .ok (x t p)) ∧ ∀ p, 0 < ∑ t, (x t p).denominator := by
  have hu : Spec.RowByRow exampleMicro ⟨fun _ l => some ⟨(), l.map fun _ _ => 1⟩, fun p l => some ⟨(), l.map fun i _ => exampleParts p i⟩⟩
      (fun _ : Fin 2 => ()) (fun _ => ()) (fun _ _ _ => 1) (fun p i _ => exampleParts p i) :=
    ⟨fun _ _ => rfl, fun _ _ => rfl, fun _ _ _ _ _ => zero_le_one⟩
  have h := fun p => C56_contributions_partial hu ((List.finRange 2).filter fun p2 => decide (p2 ≤ p)) ((List.nodup_finRange 2).filter _) p rfl 2
    (by norm_num)
  choose x hx h1 h2 h3 h4 using h
  refine ⟨fun _ => _, fun _ p => x p, fun _ => hu, fun _ p => hx p, fun p => ?_⟩
  rw [Fintype.sum_unique, h2 p]
  simp [Spec.overMarket, Spec.cellWeight, exampleMicro, Finset.sum_range_succ]

end Pyblp
