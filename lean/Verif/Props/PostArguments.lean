import Verif.Model.PostArguments
import Verif.Props.Parallel
import Verif.Props.Groups
import Mathlib.Data.List.GetD

/-!
# C107: post-estimation methods for one market and for all markets agree
-/

set_option linter.unusedSectionVars false

namespace Pyblp

open Spec

variable {ι α : Type} [LinearOrder ι] {N D : ℕ}

namespace Spec

/-- Rows of an argument that belong to products of market `t`, in the order of product data. -/
def rowsOfMarket (ids : Fin N → ι) (t : ι) (a : Argument α) : Argument α :=
  ((List.finRange N).filter fun i => decide (ids i = t)).map fun i : Fin N => a.getD i []

/-- The number of products of a market. -/
def marketSize (ids : Fin N → ι) (t : ι) : ℕ := (Finset.univ.filter fun i => ids i = t).card

/-- The number of products of the largest market. -/
def largestMarket (ids : Fin N → ι) : ℕ := Finset.univ.sup fun i => marketSize ids (ids i)

end Spec

/-! ## Selection and shapes -/

lemma length_indicesOf (ids : Fin N → ι) (t : ι) : (indicesOf ids t).length = marketSize ids t := by
  rw [indicesOf_eq, ← List.toFinset_card_of_nodup ((List.nodup_finRange N).filter _)]
  unfold marketSize
  congr 1
  ext j; simp

/-- **C107.** Without a market ID, all markets are selected, each once and in order; with one, only that market, if it has products. -/
theorem C107_select (ids : Fin N → ι) :
    (∃ l, selectMarketIds ids none = .ok l ∧ l.Nodup ∧ l.Pairwise (· ≤ ·) ∧ ∀ t, t ∈ l ↔ ∃ i, ids i = t) ∧
      ∀ t, (selectMarketIds ids (some t) = .ok [t] ↔ ∃ i, ids i = t) ∧ (selectMarketIds ids (some t) = .error .valueError ↔ ∀ i, ids i ≠ t) := by
  refine ⟨⟨_, rfl, nodup_uniqueIds ids, Finset.pairwise_sort _ _, mem_uniqueIds ids⟩, fun t => ?_⟩
  unfold selectMarketIds
  simp only
  by_cases h : t ∈ uniqueIds ids
  · rw [if_pos h]
    have h' := (mem_uniqueIds ids t).1 h
    refine ⟨iff_of_true rfl h', iff_of_false (fun h => by cases h) ?_⟩
    push Not
    exact h'
  · rw [if_neg h]
    have h' := fun hh => h ((mem_uniqueIds ids t).2 hh)
    refine ⟨iff_of_false (fun h => by cases h) h', iff_of_true rfl ?_⟩
    simpa using h'

lemma selectedSizes_eq (ids : Fin N → ι) (marketIds : List ι) :
    selectedSizes ids marketIds = ((uniqueIds ids).filter fun t => decide (t ∈ marketIds)).map fun t => (indicesOf ids t).length := by
  unfold selectedSizes
  rw [C07_get_indices]
  change (((uniqueIds ids).map fun u => (u, (List.finRange N).filter fun i => decide (ids i = u))).filter _).map _ = _
  rw [List.filter_map, List.map_map]
  simp only [Function.comp_def, indicesOf_eq]

lemma selectedSizes_all (ids : Fin N → ι) :
    selectedSizes ids (uniqueIds ids) = (uniqueIds ids).map fun t => (indicesOf ids t).length := by
  rw [selectedSizes_eq, List.filter_eq_self.2]
  intro t ht
  simpa using ht

lemma selectedSizes_one (ids : Fin N → ι) (t : ι) (ht : t ∈ uniqueIds ids) : selectedSizes ids [t] = [(indicesOf ids t).length] := by
  rw [selectedSizes_eq]
  have : (uniqueIds ids).filter (fun u => decide (u ∈ [t])) = [t] := by
    have hp : ((uniqueIds ids).filter fun u => decide (u ∈ [t])).Perm [t] := by
      rw [List.perm_ext_iff_of_nodup ((nodup_uniqueIds ids).filter _) (by simp)]
      intro u
      simp only [List.mem_filter, List.mem_singleton, decide_eq_true_eq]
      exact ⟨fun h => h.2, fun h => ⟨h ▸ ht, h⟩⟩
    exact List.perm_singleton.1 hp
  rw [this]
  rfl

lemma foldr_max_eq_sup (l : List ℕ) : l.foldr max 0 = l.toFinset.sup id := by
  induction l with
  | nil => rfl
  | cons a l ih => rw [List.foldr_cons, ih, List.toFinset_cons, Finset.sup_insert]; rfl

lemma largest_eq (ids : Fin N → ι) : ((uniqueIds ids).map fun t => (indicesOf ids t).length).foldr max 0 = largestMarket ids := by
  rw [foldr_max_eq_sup]
  apply le_antisymm
  · refine Finset.sup_le fun n hn => ?_
    rw [List.mem_toFinset, List.mem_map] at hn
    obtain ⟨t, ht, rfl⟩ := hn
    obtain ⟨i, rfl⟩ := (mem_uniqueIds ids t).1 ht
    rw [length_indicesOf]
    exact Finset.le_sup (f := fun i => marketSize ids (ids i)) (Finset.mem_univ i)
  · refine Finset.sup_le fun i _ => ?_
    rw [← length_indicesOf]
    refine Finset.le_sup (f := id) ?_
    rw [List.mem_toFinset, List.mem_map]
    exact ⟨ids i, (mem_uniqueIds ids _).2 ⟨i, rfl⟩, rfl⟩

lemma hasShape_iff (a : Argument α) (r c : ℕ) : hasShape a r c = true ↔ a.length = r ∧ ∀ row ∈ a, row.length = c := by
  unfold hasShape
  simp

lemma foldl_shape (f : ι → ℕ) (l : List ι) (s : ℕ × ℕ) :
    l.foldl (fun s t => (s.1 + f t, max s.2 (f t))) s = (s.1 + (l.map f).sum, max s.2 ((l.map f).foldr max 0)) := by
  induction l generalizing s with
  | nil => simp
  | cons t l ih =>
    rw [List.foldl_cons, ih]
    simp only [List.map_cons, List.sum_cons, List.foldr_cons]
    rw [max_assoc, add_assoc]

/-- **C107.** If all markets are selected, vectors are accepted if and only if they have one number for each product, and stacked matrices if and only if
they have as many columns as the largest market has products. -/
theorem C107_shapes_all (ids : Fin N → ι) (a : Argument α) :
    (vectorAccepted ids (uniqueIds ids) a = true ↔ a.length = N ∧ ∀ r ∈ a, r.length = 1) ∧
      (matricesAccepted ids (uniqueIds ids) a = true ↔ a.length = N ∧ ∀ r ∈ a, r.length = largestMarket ids) ∧
      (ownershipAccepted ids (uniqueIds ids) a = true ↔ a.length = N ∧ ∀ r ∈ a, r.length = largestMarket ids) := by
  unfold vectorAccepted matricesAccepted ownershipAccepted
  simp only [foldl_shape (fun t => (indicesOf ids t).length), selectedSizes_all, hasShape_iff, sum_market_sizes, largest_eq, zero_add,
    Nat.zero_max, and_self, iff_self]

/-- **C107.** If one market is selected, they are accepted if and only if they have a row for each of its products, and stacked matrices if and only if
they are square. -/
theorem C107_shapes_one (ids : Fin N → ι) (t : ι) (ht : ∃ i, ids i = t) (a : Argument α) :
    (vectorAccepted ids [t] a = true ↔ a.length = marketSize ids t ∧ ∀ r ∈ a, r.length = 1) ∧
      (matricesAccepted ids [t] a = true ↔ a.length = marketSize ids t ∧ ∀ r ∈ a, r.length = marketSize ids t) ∧
      (ownershipAccepted ids [t] a = true ↔ a.length = marketSize ids t ∧ ∀ r ∈ a, r.length = marketSize ids t) := by
  have ht' := (mem_uniqueIds ids t).2 ht
  unfold vectorAccepted matricesAccepted ownershipAccepted
  simp only [selectedSizes_one ids t ht', hasShape_iff, length_indicesOf, List.foldl_cons, List.foldl_nil,
    List.sum_cons, List.sum_nil, List.foldr_cons, List.foldr_nil, zero_add, add_zero, Nat.max_zero, Nat.zero_max]
  exact ⟨trivial, trivial, trivial⟩

/-! ## Arguments -/

lemma rowsAt_eq (ids : Fin N → ι) (t : ι) (a : Argument α) (ha : a.length = N) : rowsAt a (indicesOf ids t) = rowsOfMarket ids t a := by
  unfold rowsAt rowsOfMarket
  rw [indicesOf_eq]
  generalize (List.finRange N).filter (fun i => decide (ids i = t)) = l
  induction l with
  | nil => rfl
  | cons i l ih =>
    have hi : (i : ℕ) < a.length := by rw [ha]; exact i.2
    rw [List.filterMap_cons, List.getElem?_eq_getElem hi, List.map_cons, ih]
    rw [List.getD_eq_getElem?_getD, List.getElem?_eq_getElem hi]
    rfl

lemma rowsOfMarket_single (ids : Fin N → ι) (t : ι) (ht : uniqueIds ids = [t]) (a : Argument α) (ha : a.length = N) :
    rowsOfMarket ids t a = a := by
  unfold rowsOfMarket
  have hall : ∀ i, ids i = t := fun i => by
    have := (mem_uniqueIds ids (ids i)).2 ⟨i, rfl⟩
    rw [ht] at this
    simpa using this
  rw [List.filter_eq_self.2 (fun i _ => by simpa using hall i)]
  subst ha
  apply List.ext_getElem
  · simp
  · intro k h1 h2
    rw [List.getElem_map, List.getD_eq_getElem?_getD]
    simp [h2]

/-- **C107.** If all markets are selected, what a method of market `t` is given are rows of products of the market. -/
theorem C107_arguments (ids : Fin N → ι) (t : ι) (ht : ∃ i, ids i = t) (a : Argument α) (ha : a.length = N) :
    restrictArgument ids (uniqueIds ids) t a = rowsOfMarket ids t a := by
  unfold restrictArgument
  by_cases h : (uniqueIds ids).length = 1
  · rw [if_pos h]
    obtain ⟨u, hu⟩ := List.length_eq_one_iff.1 h
    have : t = u := by simpa [hu] using (mem_uniqueIds ids t).2 ht
    subst this
    exact (rowsOfMarket_single ids t hu a ha).symm
  · rw [if_neg h, rowsAt_eq ids t a ha]

/-- **C107.** If one market is selected, it is given arguments as they are. -/
theorem C107_argument_one (ids : Fin N → ι) (t : ι) (a : Argument α) : restrictArgument ids [t] t a = a := rfl

/-- What is returned for one market is what the method of the market returns. -/
lemma combine_one (ids : Fin N → ι) (t : ι) (A : MarketArray) (hA : A.rows = marketSize ids t) (k c : ℕ) (hk : k < A.rows) (hc : c < A.cols) :
    (combineArrays ids [t] [(t, A)]).rows = A.rows ∧ (combineArrays ids [t] [(t, A)]).cols = A.cols ∧
      (combineArrays ids [t] [(t, A)]).entry k c = A.entry k c := by
  unfold combineArrays
  simp only [List.map_cons, List.map_nil, List.sum_cons, List.sum_nil, List.foldr_cons, List.foldr_nil, List.foldl_cons, List.foldl_nil, add_zero,
    List.length_cons, List.length_nil, zero_add, Nat.max_zero]
  by_cases h1 : A.rows = 1
  · rw [if_pos h1]
    refine ⟨rfl, rfl, ?_⟩
    have hk0 : k = 0 := by omega
    subst hk0
    unfold writeSelected
    simp [hc]
  · rw [if_neg h1]
    by_cases hN : A.rows = N
    · rw [if_pos hN]
      refine ⟨rfl, rfl, ?_⟩
      have hall : ∀ i, ids i = t := by
        have : (Finset.univ.filter fun i => ids i = t) = Finset.univ := by
          apply Finset.eq_univ_of_card
          rw [Fintype.card_fin]
          exact hA.symm.trans hN
        intro i
        have h := Finset.mem_univ i
        rw [← this, Finset.mem_filter] at h
        exact h.2
      have hidx : (indicesOf ids t).map (fun i : Fin N => (i : ℕ)) = List.range N := by
        rw [indicesOf_eq, List.filter_eq_self.2 (fun i _ => by simpa using hall i)]
        exact List.map_coe_finRange_eq_range
      simp only [hidx]
      unfold writeSelected
      rw [if_pos ⟨List.mem_range.2 (by omega), hc⟩]
      congr 1
      have := List.Nodup.idxOf_getElem (List.nodup_range (n := N)) k (by rw [List.length_range]; omega)
      rw [List.getElem_range] at this
      exact this
    · rw [if_neg hN]
      exact ⟨rfl, rfl, rfl⟩


lemma combine_one_shape (ids : Fin N → ι) (t : ι) (A : MarketArray) (_hA : A.rows = marketSize ids t) :
    (combineArrays ids [t] [(t, A)]).rows = A.rows := by
  unfold combineArrays
  simp only [List.map_cons, List.map_nil, List.sum_cons, List.sum_nil, List.foldr_cons, List.foldr_nil, List.foldl_cons, List.foldl_nil, add_zero]
  split_ifs <;> rfl

lemma combine_one_cols (ids : Fin N → ι) (t : ι) (A : MarketArray) (_hA : A.rows = marketSize ids t) :
    (combineArrays ids [t] [(t, A)]).cols = A.cols := by
  unfold combineArrays
  simp only [List.map_cons, List.map_nil, List.sum_cons, List.sum_nil, List.foldr_cons, List.foldr_nil, List.foldl_cons, List.foldl_nil, add_zero,
    Nat.max_zero]
  split_ifs <;> rfl

lemma combine_one_row (ids : Fin N → ι) (t : ι) (A : MarketArray) (hA : A.rows = 1) :
    (combineArrays ids [t] [(t, A)]).rows = 1 ∧ (combineArrays ids [t] [(t, A)]).cols = A.cols ∧
      ∀ k, k < A.cols → (combineArrays ids [t] [(t, A)]).entry 0 k = A.entry 0 k := by
  unfold combineArrays
  simp only [List.map_cons, List.map_nil, List.sum_cons, List.sum_nil, List.foldr_cons, List.foldr_nil, List.foldl_cons, List.foldl_nil, add_zero,
    List.length_cons, List.length_nil, zero_add, Nat.max_zero]
  rw [if_pos hA]
  refine ⟨hA, rfl, fun k hk => ?_⟩
  unfold writeSelected
  simp [hk]

/-! ## One market and all markets -/

lemma generated_one (pool : Option ℕ) (t : ι) {β : Type} (work : ι → β) (items : List (ι × β)) (h : Generated pool [t] work items) :
    items = [(t, work t)] := by
  have := generated_perm _ _ _ _ h
  simpa using this

lemma position_lt (ids : Fin N → ι) (i : Fin N) : position ids i < marketSize ids (ids i) := by
  rw [← length_indicesOf, ← idxOf_indices]
  exact List.idxOf_lt_length_iff.2 ((mem_indicesOf _ _ _).2 rfl)

lemma arguments_eq (ids : Fin N → ι) (t : ι) (ht : ∃ i, ids i = t) (args : List (Option (Argument α)))
    (hargs : ∀ a, some a ∈ args → a.length = N) :
    args.map (fun a => a.map (restrictArgument ids (uniqueIds ids) t)) =
      (args.map fun a => a.map (rowsOfMarket ids t)).map fun a => a.map (restrictArgument ids [t] t) := by
  rw [List.map_map]
  apply List.map_congr_left
  intro a ha
  cases a with
  | none => rfl
  | some a => exact congrArg some (C107_arguments ids t ht a (hargs a ha))

/-- **C107.** What a method that returns a row for each product returns for one market, if it is given rows of arguments for that market, are rows of
what it returns for all markets, in the order of product data. Other columns of all markets are not numbers.
Missing: products that are as many as markets and not sorted by market (see C09). -/
theorem C107_one_market_partial (pool pool' : Option ℕ) (ids : Fin N → ι) (hN : N ≠ (uniqueIds ids).length)
    (work : ι → List (Option (Argument α)) → MarketArray) (hrows : ∀ t args, (work t args).rows = marketSize ids t)
    (args : List (Option (Argument α))) (hargs : ∀ a, some a ∈ args → a.length = N) (t : ι) {all one : Combined}
    (hall : CombineArrays pool ids work (uniqueIds ids) args all)
    (hone : CombineArrays pool' ids work [t] (args.map fun a => a.map (rowsOfMarket ids t)) one) (ht : ∃ i, ids i = t) :
    all.rows = N ∧ one.rows = marketSize ids t ∧
      ∀ i : Fin N, ids i = t → ∀ k : ℕ, all.entry i k = if k < one.cols then one.entry (position ids i) k else none := by
  obtain ⟨items, hitems, rfl⟩ := hall
  obtain ⟨items', hitems', rfl⟩ := hone
  have ha := C09_product_partial pool ids hN _ (fun t _ => by rw [hrows, length_indicesOf]) items hitems
  rw [generated_one _ _ _ _ hitems']
  refine ⟨ha.1, ?_, ?_⟩
  · rw [combine_one_shape ids t _ (hrows _ _)]
    exact hrows _ _
  · rintro i rfl k
    rw [ha.2 i k]
    beta_reduce
    rw [arguments_eq ids (ids i) ⟨i, rfl⟩ args hargs, combine_one_cols ids (ids i) _ (hrows _ _)]
    by_cases hk : k < (work (ids i) ((args.map fun a => a.map (rowsOfMarket ids (ids i))).map fun a => a.map (restrictArgument ids [ids i] (ids i)))).cols
    · rw [if_pos hk, if_pos hk]
      exact (combine_one ids (ids i) _ (hrows _ _) _ k (by rw [hrows]; exact position_lt ids i) hk).2.2.symm
    · rw [if_neg hk, if_neg hk]

/-- **C107.** What a method that returns one row for each market returns for one market is the row of this market of what it returns for all markets,
which are sorted. -/
theorem C107_one_market_row (pool pool' : Option ℕ) (ids : Fin N → ι)
    (work : ι → List (Option (Argument α)) → MarketArray) (hrows : ∀ t args, (work t args).rows = 1)
    (args : List (Option (Argument α))) (hargs : ∀ a, some a ∈ args → a.length = N) (n : ℕ) (hn : n < (uniqueIds ids).length) {all one : Combined}
    (hall : CombineArrays pool ids work (uniqueIds ids) args all)
    (hone : CombineArrays pool' ids work [(uniqueIds ids)[n]] (args.map fun a => a.map (rowsOfMarket ids (uniqueIds ids)[n])) one) :
    all.rows = (uniqueIds ids).length ∧ one.rows = 1 ∧ ∀ k : ℕ, all.entry n k = if k < one.cols then one.entry 0 k else none := by
  obtain ⟨items, hitems, rfl⟩ := hall
  obtain ⟨items', hitems', rfl⟩ := hone
  have ha := C09_market pool ids _ (fun t _ => hrows t _) items hitems
  rw [generated_one _ _ _ _ hitems']
  have ht : ∃ i, ids i = (uniqueIds ids)[n] := (mem_uniqueIds ids _).1 (List.getElem_mem hn)
  refine ⟨ha.1, ?_, fun k => ?_⟩
  · rw [(combine_one_row ids _ _ (hrows _ _)).1]
  · rw [ha.2 n hn k, arguments_eq ids _ ht args hargs, (combine_one_row ids _ _ (hrows _ _)).2.1]
    by_cases hk : k < (work (uniqueIds ids)[n] ((args.map fun a => a.map (rowsOfMarket ids (uniqueIds ids)[n])).map fun a =>
        a.map (restrictArgument ids [(uniqueIds ids)[n]] (uniqueIds ids)[n]))).cols
    · rw [if_pos hk, if_pos hk, (combine_one_row ids _ _ (hrows _ _)).2.2 k hk]
    · rw [if_neg hk, if_neg hk]

/-! ## Draws -/

/-- The argument of draw `d`. -/
def Spec.argumentOf (d : Fin D) : DrawArgument D α → Argument α
  | .shared a => a
  | .each a => a d

lemma filter_product (d : Fin D) (l : List ι) : ((List.finRange D) ×ˢ l).filter (fun p => decide (p.1 = d)) = l.map fun t => (d, t) := by
  have h : ∀ m : List (Fin D), m.Nodup → (m ×ˢ l).filter (fun p => decide (p.1 = d)) = if d ∈ m then l.map fun t => (d, t) else [] := by
    intro m hm
    induction m with
    | nil => rfl
    | cons c m ih =>
      rw [List.nodup_cons] at hm
      rw [List.product_cons, List.filter_append, ih hm.2]
      by_cases hc : c = d
      · subst hc
        rw [if_neg hm.1, if_pos (by simp), List.append_nil, List.filter_eq_self.2]
        intro p hp
        rw [List.mem_map] at hp
        obtain ⟨t, _, rfl⟩ := hp
        simp
      · rw [List.filter_eq_nil_iff.2, List.nil_append]
        · congr 1
          simp [Ne.symm hc]
        · intro p hp
          rw [List.mem_map] at hp
          obtain ⟨t, _, rfl⟩ := hp
          simpa using hc
  rw [h _ (List.nodup_finRange D), if_pos (List.mem_finRange d)]

/-- Items of draw `d`. -/
def itemsOf (d : Fin D) (items : List ((Fin D × ι) × MarketArray)) : List (ι × MarketArray) :=
  (items.filter fun p => decide (p.1.1 = d)).map fun p => (p.1.2, p.2)

lemma itemsOf_generated (pool : Option ℕ) (marketIds : List ι) (w : Fin D × ι → MarketArray) (items : List ((Fin D × ι) × MarketArray))
    (h : Generated pool ((List.finRange D) ×ˢ marketIds) w items) (d : Fin D) :
    Generated pool marketIds (fun t => w (d, t)) (itemsOf d items) := by
  have hf : itemsOf d (((List.finRange D) ×ˢ marketIds).map fun k => (k, w k)) = marketIds.map fun t => (t, w (d, t)) := by
    unfold itemsOf
    rw [List.filter_map, List.map_map]
    have := filter_product d marketIds
    change List.map _ (((List.finRange D) ×ˢ marketIds).filter fun p => decide (p.1 = d)) = _
    rw [this, List.map_map]
    rfl
  unfold Generated at h ⊢
  cases pool with
  | none => rw [h, hf]
  | some _ =>
    rw [← hf]
    exact (h.filter _).map _

lemma foldl_if_filter {β γ : Type} (p : β → Bool) (f : γ → β → γ) (l : List β) (c : γ) :
    l.foldl (fun c x => if p x = true then f c x else c) c = (l.filter p).foldl f c := by
  induction l generalizing c with
  | nil => rfl
  | cons x l ih =>
    rw [List.foldl_cons, List.filter_cons]
    by_cases h : p x = true
    · rw [if_pos h, if_pos h, List.foldl_cons, ih]
    · rw [if_neg h, if_neg h, ih]

lemma firstDraw_eq (pool : Option ℕ) (marketIds : List ι) (w : Fin D × ι → MarketArray) (items : List ((Fin D × ι) × MarketArray))
    (h : Generated pool ((List.finRange D) ×ˢ marketIds) w items) (hD : 0 < D) (t : ι) (ht : t ∈ marketIds) :
    firstDraw items t = w (⟨0, hD⟩, t) := by
  have hperm : items.Perm (((List.finRange D) ×ˢ marketIds).map fun k => (k, w k)) := by
    unfold Generated at h
    cases pool with
    | none => rw [h]
    | some _ => exact h
  have hmem : ((⟨0, hD⟩, t), w (⟨0, hD⟩, t)) ∈ items := by
    rw [hperm.mem_iff, List.mem_map]
    exact ⟨(⟨0, hD⟩, t), List.mem_product.2 ⟨List.mem_finRange _, ht⟩, rfl⟩
  unfold firstDraw
  cases hf : items.find? fun p => decide (p.1.1.val = 0 ∧ p.1.2 = t) with
  | none =>
    rw [List.find?_eq_none] at hf
    exact absurd (by simp) (hf _ hmem)
  | some q =>
    have hq := List.find?_some hf
    have hq' := List.mem_of_find?_eq_some hf
    rw [hperm.mem_iff, List.mem_map] at hq'
    obtain ⟨k, _, rfl⟩ := hq'
    simp only [decide_eq_true_eq] at hq
    have hk : k = (⟨0, hD⟩, t) := Prod.ext (Fin.ext hq.1) hq.2
    subst hk
    rfl

lemma foldl_last {β γ : Type} (f : β → γ) (l : List β) (c : γ) : l.foldl (fun _ x => f x) c = (l.getLast?.map f).getD c := by
  induction l using List.reverseRecOn with
  | nil => rfl
  | append_singleton l x _ => simp

/-- **C107.** What bootstrapped results return for a draw is what results with the parameters, prices, and shares of the draw return for arguments of the
draw. Arguments without draws are those of each draw. This holds for methods that return as many rows and columns for each draw, which all do. -/
theorem C107_draws (pool : Option ℕ) (ids : Fin N → ι) (work : Fin D → ι → List (Option (Argument α)) → MarketArray) (marketId : Option ι)
    {marketIds : List ι} (hids : selectMarketIds ids marketId = .ok marketIds) (rows cols : ι → ℕ)
    (hrows : ∀ d t args, (work d t args).rows = rows t ∧ (work d t args).cols = cols t)
    (hcase : (∀ t, rows t = 1) ∨ ∀ t, rows t = marketSize ids t)
    (args : List (Option (DrawArgument D α))) {combined : Fin D → Combined} (h : CombineDraws pool ids work marketIds args combined) (d : Fin D) :
    CombineArrays pool ids (work d) marketIds (args.map fun a => a.map (argumentOf d)) (combined d) := by
  obtain ⟨items, hitems, rfl⟩ := h
  have hD : 0 < D := lt_of_le_of_lt (Nat.zero_le _) d.2
  have hgen := itemsOf_generated pool marketIds _ items hitems d
  have hargs : ∀ t, (args.map fun a => a.map (restrictDrawArgument ids marketIds d t)) =
      (args.map fun a => a.map (argumentOf d)).map fun a => a.map (restrictArgument ids marketIds t) := by
    intro t
    rw [List.map_map]
    apply List.map_congr_left
    intro a _
    cases a with
    | none => rfl
    | some a => cases a <;> rfl
  simp only [hargs] at hgen
  refine ⟨itemsOf d items, hgen, ?_⟩
  have hperm := generated_perm _ _ _ _ hgen
  have htotal : ((itemsOf d items).map fun p => p.2.rows).sum = (marketIds.map rows).sum := by
    rw [(hperm.map fun p => p.2.rows).sum_eq, List.map_map]
    congr 1
    exact List.map_congr_left fun t _ => (hrows d t _).1
  have hwidth : ((itemsOf d items).map fun p => p.2.cols).foldr max 0 = (marketIds.map cols).foldr max 0 := by
    rw [(hperm.map fun p => p.2.cols).foldr_eq' (fun a _ b _ c => by simp only [max_left_comm]), List.map_map]
    congr 1
    exact List.map_congr_left fun t _ => (hrows d t _).2
  have htotal' : (marketIds.map fun t => (firstDraw items t).rows).sum = (marketIds.map rows).sum := by
    congr 1
    refine List.map_congr_left fun t ht => ?_
    rw [firstDraw_eq pool marketIds _ items hitems hD t ht]
    exact (hrows _ t _).1
  have hwidth' : (marketIds.map fun t => (firstDraw items t).cols).foldr max 0 = (marketIds.map cols).foldr max 0 := by
    congr 1
    refine List.map_congr_left fun t ht => ?_
    rw [firstDraw_eq pool marketIds _ items hitems hD t ht]
    exact (hrows _ t _).2
  have hfold : ∀ f : (ℕ → ℕ → Option ℝ) → ι × MarketArray → ℕ → ℕ → Option ℝ, ∀ c,
      items.foldl (fun c p => if p.1.1 = d then f c (p.1.2, p.2) else c) c = (itemsOf d items).foldl f c := by
    intro f c
    unfold itemsOf
    rw [List.foldl_map, ← foldl_if_filter (fun p : (Fin D × ι) × MarketArray => decide (p.1.1 = d))]
    simp only [decide_eq_true_eq]
  unfold combineDraws combineArrays
  simp only [htotal, hwidth, htotal', hwidth']
  by_cases h1 : (marketIds.map rows).sum = marketIds.length
  · simp only [if_pos h1]
    congr 1
    exact hfold (fun c p => writeSelected c ((List.range marketIds.length).filter fun i => decide (marketIds[i]? = some p.1)) p.2) _
  · simp only [if_neg h1]
    by_cases h2 : (marketIds.map rows).sum = N
    · simp only [if_pos h2]
      congr 1
      exact hfold (fun c p => writeSelected c ((indicesOf ids p.1).map fun i : Fin N => (i : ℕ)) p.2) _
    · simp only [if_neg h2]
      rw [hfold (fun _ p => p.2.entry)]
      cases marketId with
      | none =>
        exfalso
        cases hids
        rcases hcase with hc | hc
        · apply h1
          rw [show rows = fun _ => 1 from funext hc]
          simp
        · apply h2
          rw [show rows = fun t => (indicesOf ids t).length from funext fun t => (hc t).trans (length_indicesOf ids t).symm]
          exact sum_market_sizes ids
      | some t =>
        unfold selectMarketIds at hids
        simp only at hids
        by_cases ht : t ∈ uniqueIds ids
        · rw [if_pos ht] at hids
          cases hids
          rw [generated_one _ _ _ _ hgen]
          simp only [List.foldl_cons, List.foldl_nil, List.map_cons, List.map_nil, List.sum_cons, List.sum_nil, List.foldr_cons, List.foldr_nil,
            add_zero, Nat.max_zero]
          rw [(hrows d t _).1, (hrows d t _).2]
        · rw [if_neg ht] at hids
          cases hids

/-! ## Diagonals -/

lemma exists_position (ids : Fin N → ι) (t : ι) (k : ℕ) (hk : k < marketSize ids t) :
    ∃ i, ids i = t ∧ position ids i = k ∧ (indicesOf ids t)[k]? = some i := by
  rw [← length_indicesOf] at hk
  have hmem := (mem_indicesOf ids t (indicesOf ids t)[k]).1 (List.getElem_mem hk)
  refine ⟨(indicesOf ids t)[k], hmem, ?_, List.getElem?_eq_getElem hk⟩
  rw [← idxOf_indices]
  have hnd : (indicesOf ids t).Nodup := by
    rw [indicesOf_eq]
    exact (List.nodup_finRange N).filter _
  conv_lhs => rw [hmem]
  exact hnd.idxOf_getElem k hk

lemma rowsOfMarket_getElem (ids : Fin N → ι) (a : Argument α) (i : Fin N) :
    (rowsOfMarket ids (ids i) a)[position ids i]? = some (a.getD i []) := by
  unfold rowsOfMarket
  rw [← indicesOf_eq, List.getElem?_map]
  have h : (indicesOf ids (ids i))[position ids i]? = some i := by
    rw [← idxOf_indices]
    have h : i ∈ indicesOf ids (ids i) := (mem_indicesOf _ _ _).2 rfl
    rw [List.getElem?_eq_getElem (List.idxOf_lt_length_iff.mpr h), List.getElem_idxOf]
  rw [h]
  rfl

lemma length_rowsOfMarket (ids : Fin N → ι) (t : ι) (a : Argument α) : (rowsOfMarket ids t a).length = marketSize ids t := by
  unfold rowsOfMarket
  rw [List.length_map, ← indicesOf_eq, length_indicesOf]

/-- Diagonals of rows of stacked matrices that belong to a market are diagonals of the market's matrix. -/
lemma diagonalOf_stacked (ids : Fin N → ι) (a : Argument (Option ℝ)) (t : ι) (width : ℕ)
    (hwidth : ∀ i : Fin N, (a.getD i []).length = width) (ht : marketSize ids t ≤ width) (value : ℕ → Option ℝ)
    (hvalue : ∀ i : Fin N, ids i = t → ((a.getD i [])[position ids i]?).join = value (position ids i)) :
    diagonalOf (marketSize ids t) (rowsOfMarket ids t a) = (List.range (marketSize ids t)).map value := by
  unfold diagonalOf
  rw [length_rowsOfMarket]
  have hmin : min (marketSize ids t) (min (columnCount (rowsOfMarket ids t a)) (marketSize ids t)) = marketSize ids t := by
    rcases Nat.eq_zero_or_pos (marketSize ids t) with h0 | h0
    · rw [h0, Nat.zero_min]
    · obtain ⟨i, hi, hp, _⟩ := exists_position ids t 0 h0
      have hc : columnCount (rowsOfMarket ids t a) = width := by
        unfold columnCount
        have := rowsOfMarket_getElem ids a i
        rw [hi, hp] at this
        rw [List.head?_eq_getElem?, this]
        exact hwidth i
      rw [hc]
      omega
  rw [hmin]
  apply List.map_congr_left
  intro k hk
  obtain ⟨i, hi, hp, _⟩ := exists_position ids t k (List.mem_range.1 hk)
  have h1 := rowsOfMarket_getElem ids a i
  rw [hi, hp] at h1
  rw [h1]
  have h2 := hvalue i hi
  rw [hp] at h2
  exact h2

/-- Stacked matrices, as arguments of another method. -/
lemma toArgument_row (c : Combined) (i : Fin N) (hc : c.rows = N) :
    c.toArgument.getD i [] = (List.range c.cols).map fun k => c.entry i k := by
  unfold Combined.toArgument
  rw [List.getD_eq_getElem _ _ (by simp [hc])]
  simp

section diagonals

variable (pool pool' : Option ℕ) (ids : Fin N → ι) (hN : N ≠ (uniqueIds ids).length) (A : ι → MarketArray)
  (hrows : ∀ t, (A t).rows = marketSize ids t) (hcols : ∀ t, (A t).cols = marketSize ids t) {items : List (ι × MarketArray)}
  (h : Generated pool (uniqueIds ids) A items)

include hN hrows hcols h in
lemma diagonal_restricted (t : ι) (ht : ∃ i, ids i = t) :
    (combineArrays ids (uniqueIds ids) items).toArgument.length = N ∧
    diagonalOf (marketSize ids t) (rowsOfMarket ids t (combineArrays ids (uniqueIds ids) items).toArgument) =
      (List.range (marketSize ids t)).map fun k => (A t).entry k k := by
  have hal := C09_product_partial pool ids hN A (fun t _ => by rw [hrows, length_indicesOf]) items h
  have hw := C09_width pool ids A (fun t _ => by rw [hrows, length_indicesOf]) items h
  refine ⟨by unfold Combined.toArgument; simp [hal.1], ?_⟩
  refine diagonalOf_stacked ids _ t (combineArrays ids (uniqueIds ids) items).cols (fun i => ?_) ?_ _ fun i hi => ?_
  · rw [toArgument_row _ i hal.1]
    simp
  · rw [← hcols t]
    exact hw.1 t ((mem_uniqueIds ids t).2 ht)
  · have hp : position ids i < (combineArrays ids (uniqueIds ids) items).cols := by
      refine lt_of_lt_of_le (position_lt ids i) ?_
      rw [← hcols]
      exact hw.1 _ ((mem_uniqueIds ids _).2 ⟨i, rfl⟩)
    rw [toArgument_row _ i hal.1, List.getElem?_map, List.getElem?_range hp]
    change (combineArrays ids (uniqueIds ids) items).entry i (position ids i) = _
    rw [hal.2, hcols, if_pos (position_lt ids i), hi]

include hN hrows hcols h in
/-- **C107.** Diagonals of matrices of all markets, which another method returned, have for each product the diagonal element of its market's matrix.
Missing: products that are as many as markets and not sorted by market (see C09). -/
theorem C107_diagonals_partial {combined : Combined}
    (hd : CombineArrays pool' ids (fun t args => extractDiagonal (marketSize ids t) ((args.head?.bind id).getD [])) (uniqueIds ids)
      [some (combineArrays ids (uniqueIds ids) items).toArgument] combined) :
    combined.rows = N ∧ ∀ i : Fin N, combined.entry i 0 = (A (ids i)).entry (position ids i) (position ids i) := by
  obtain ⟨items', hitems', rfl⟩ := hd
  have hlen : ∀ t ∈ uniqueIds ids, diagonalOf (marketSize ids t) (restrictArgument ids (uniqueIds ids) t
      (combineArrays ids (uniqueIds ids) items).toArgument) = (List.range (marketSize ids t)).map fun k => (A t).entry k k := by
    intro t ht
    have ht' := (mem_uniqueIds ids t).1 ht
    have := diagonal_restricted pool ids hN A hrows hcols h t ht'
    rw [C107_arguments ids t ht' _ this.1]
    exact this.2
  have hal := C09_product_partial pool' ids hN _ (fun t ht => by
    change (diagonalOf (marketSize ids t) (restrictArgument ids (uniqueIds ids) t
      (combineArrays ids (uniqueIds ids) items).toArgument)).length = _
    rw [hlen t ht, List.length_map, List.length_range, length_indicesOf]) items' hitems'
  refine ⟨hal.1, fun i => ?_⟩
  rw [hal.2 i 0, if_pos (by exact Nat.one_pos)]
  change ((diagonalOf (marketSize ids (ids i)) (restrictArgument ids (uniqueIds ids) (ids i)
      (combineArrays ids (uniqueIds ids) items).toArgument))[position ids i]?).join = _
  rw [hlen _ ((mem_uniqueIds ids _).2 ⟨i, rfl⟩), List.getElem?_map, List.getElem?_range (position_lt ids i)]
  rfl

include hN hrows hcols h in
/-- **C107.** Means of diagonals of matrices of all markets have for each market, in sorted order, the mean over its products.
Missing: products that are as many as markets and not sorted by market (see C09). -/
theorem C107_diagonal_means_partial (value : ι → ℕ → ℝ) (hvalue : ∀ t k, (A t).entry k k = some (value t k)) {combined : Combined}
    (hd : CombineArrays pool' ids (fun t args => extractDiagonalMean (marketSize ids t) ((args.head?.bind id).getD [])) (uniqueIds ids)
      [some (combineArrays ids (uniqueIds ids) items).toArgument] combined) :
    combined.rows = (uniqueIds ids).length ∧ ∀ (n : ℕ) (hn : n < (uniqueIds ids).length),
      combined.entry n 0 = some ((∑ k ∈ Finset.range (marketSize ids (uniqueIds ids)[n]), value (uniqueIds ids)[n] k) /
        marketSize ids (uniqueIds ids)[n]) := by
  obtain ⟨items', hitems', rfl⟩ := hd
  have hal := C09_market pool' ids _ (fun t ht => by rfl) items' hitems'
  refine ⟨hal.1, fun n hn => ?_⟩
  have ht := List.getElem_mem hn
  generalize htn : (uniqueIds ids)[n] = t at ht
  have ht' := (mem_uniqueIds ids t).1 ht
  have hr := diagonal_restricted pool ids hN A hrows hcols h t ht'
  rw [hal.2 n hn 0, if_pos (by exact Nat.one_pos), htn]
  change meanOf (diagonalOf (marketSize ids t) (restrictArgument ids (uniqueIds ids) t (combineArrays ids (uniqueIds ids) items).toArgument)) = _
  rw [C107_arguments ids t ht' _ hr.1, hr.2]
  unfold meanOf
  simp only [hvalue, List.length_map, List.length_range]
  have hsum : ∀ l : List ℕ, (l.map fun k => some (value t k)).foldr (fun x s => x.bind fun y => s.map fun z => y + z) (some 0) =
      some (l.map (value t)).sum := by
    intro l
    induction l with
    | nil => rfl
    | cons k l ih => rw [List.map_cons, List.foldr_cons, ih]; rfl
  rw [hsum]
  simp only [Option.map_some]
  congr 2

end diagonals

/-! ## A case that meets hypotheses -/

/-- Two markets: one with products 0 and 2, and one with product 1. -/
def twoMarketIds : Fin 3 → ℕ := ![7, 3, 7]

lemma uniqueIds_twoMarketIds : uniqueIds twoMarketIds = [3, 7] := by
  refine List.Perm.eq_of_pairwise (fun a b _ _ h1 h2 => le_antisymm h1 h2) (Finset.pairwise_sort _ _) (by simp) ?_
  rw [List.perm_ext_iff_of_nodup (nodup_uniqueIds _) (by simp)]
  intro t
  rw [mem_uniqueIds]
  unfold twoMarketIds
  constructor
  · rintro ⟨i, rfl⟩
    fin_cases i <;> simp
  · intro h
    simp only [List.mem_cons, List.not_mem_nil, or_false] at h
    rcases h with rfl | rfl
    · exact ⟨1, rfl⟩
    · exact ⟨0, rfl⟩

/-- A market is selected, and a market without products is not. -/
example : selectMarketIds twoMarketIds (some 7) = .ok [7] ∧ selectMarketIds twoMarketIds (some 5) = .error .valueError := by
  constructor
  · exact ((C107_select twoMarketIds).2 7).1.2 ⟨0, rfl⟩
  · refine ((C107_select twoMarketIds).2 5).2.2 fun i => ?_
    fin_cases i <;> decide

/-- Stacked matrices have three rows and two columns if all markets are selected. -/
example : matricesAccepted twoMarketIds (uniqueIds twoMarketIds) [[1, 2], [3, 0], [4, 5]] = true ∧
    matricesAccepted twoMarketIds (uniqueIds twoMarketIds) [[1, 2], [4, 5]] = false := by
  constructor
  · rw [(C107_shapes_all twoMarketIds _).2.1]
    decide
  · rw [Bool.eq_false_iff, ne_eq, (C107_shapes_all twoMarketIds _).2.1]
    decide

/-- The rows of the first market. -/
example : restrictArgument twoMarketIds (uniqueIds twoMarketIds) 7 [[1, 2], [3, 0], [4, 5]] = [[1, 2], [4, 5]] := by
  rw [C107_arguments twoMarketIds 7 ⟨0, rfl⟩ _ rfl]
  rfl

/-- There are not as many products as markets. -/
example : 3 ≠ (uniqueIds twoMarketIds).length := by
  rw [uniqueIds_twoMarketIds]
  decide

/-- Methods return something for any arguments. -/
lemma exists_combineArrays (ids : Fin N → ι) (work : ι → List (Option (Argument α)) → MarketArray) (marketIds : List ι)
    (args : List (Option (Argument α))) : ∃ c, CombineArrays none ids work marketIds args c :=
  ⟨_, _, rfl, rfl⟩

/-- Elasticities of two markets: their diagonals are those of products in the order of product data. -/
example : ∃ c, (∃ items, Generated none (uniqueIds twoMarketIds)
        (fun t => ⟨marketSize twoMarketIds t, marketSize twoMarketIds t, fun j k => some (100 * (t : ℝ) + 10 * j + k)⟩) items ∧
      CombineArrays none twoMarketIds (fun t args => extractDiagonal (marketSize twoMarketIds t) ((args.head?.bind id).getD [])) (uniqueIds twoMarketIds)
        [some (combineArrays twoMarketIds (uniqueIds twoMarketIds) items).toArgument] c) ∧
    c.entry 0 0 = some 700 ∧ c.entry 1 0 = some 300 ∧ c.entry 2 0 = some 711 := by
  obtain ⟨c, hc⟩ := exists_combineArrays (α := Option ℝ) twoMarketIds
    (fun t args => extractDiagonal (marketSize twoMarketIds t) ((args.head?.bind id).getD [])) (uniqueIds twoMarketIds)
    [some (combineArrays twoMarketIds (uniqueIds twoMarketIds) ((uniqueIds twoMarketIds).map fun t : ℕ =>
      (t, (⟨marketSize twoMarketIds t, marketSize twoMarketIds t, fun j k => some (100 * (t : ℝ) + 10 * j + k)⟩ : MarketArray)))).toArgument]
  refine ⟨c, ⟨_, rfl, hc⟩, ?_⟩
  have h := (C107_diagonals_partial none none twoMarketIds (by rw [uniqueIds_twoMarketIds]; decide)
    (fun t : ℕ => (⟨marketSize twoMarketIds t, marketSize twoMarketIds t, fun j k => some (100 * (t : ℝ) + 10 * j + k)⟩ : MarketArray))
    (fun _ => rfl) (fun _ => rfl) rfl hc).2
  have h0 := h 0
  have h1 := h 1
  have h2 := h 2
  have hp0 : position twoMarketIds 0 = 0 := by decide
  have hp1 : position twoMarketIds 1 = 0 := by decide
  have hp2 : position twoMarketIds 2 = 1 := by decide
  rw [hp0] at h0
  rw [hp1] at h1
  rw [hp2] at h2
  refine ⟨h0.trans ?_, h1.trans ?_, h2.trans ?_⟩
  all_goals
    simp only [twoMarketIds, Matrix.cons_val]
    norm_num

end Pyblp
