import Verif.Model.Parallel
import Verif.Props.Groups

set_option linter.unusedSectionVars false

/-!
# Schedules, alignment and the process pool (C08, C09, C10, C13)
-/

namespace Pyblp

variable {ι α β : Type} [LinearOrder ι] {N : ℕ}

namespace Spec

/-- The position of row `i` among the rows with the same ID. -/
def position (ids : Fin N → ι) (i : Fin N) : ℕ := (Finset.univ.filter fun j => ids j = ids i ∧ j < i).card

end Spec

open Spec

/-! ## Indices -/

theorem lookup_map_pair (l : List ι) (f : ι → β) (t : ι) (h : t ∈ l) : (l.map fun u => (u, f u)).lookup t = some (f t) := by
  induction l with
  | nil => simp at h
  | cons a l ih =>
    rw [List.map_cons, List.lookup_cons]
    by_cases hta : t = a
    · subst hta; simp
    · rw [show (t == a) = false from beq_eq_false_iff_ne.2 hta]
      exact ih ((List.mem_cons.1 h).resolve_left hta)

theorem lookup_map_none (l : List ι) (f : ι → β) (t : ι) (h : t ∉ l) : (l.map fun u => (u, f u)).lookup t = none := by
  induction l with
  | nil => rfl
  | cons a l ih =>
    rw [List.mem_cons, not_or] at h
    rw [List.map_cons, List.lookup_cons, show (t == a) = false from beq_eq_false_iff_ne.2 h.1]
    exact ih h.2

theorem mem_uniqueIds (ids : Fin N → ι) (t : ι) : t ∈ uniqueIds ids ↔ ∃ i, ids i = t := by
  unfold uniqueIds; simp

theorem nodup_uniqueIds (ids : Fin N → ι) : (uniqueIds ids).Nodup := Finset.sort_nodup _ _

theorem indicesOf_eq (ids : Fin N → ι) (t : ι) : indicesOf ids t = (List.finRange N).filter fun i => decide (ids i = t) := by
  unfold indicesOf
  rw [C07_get_indices]
  change ((((uniqueIds ids).map fun u => (u, (List.finRange N).filter fun i => decide (ids i = u))).lookup t).getD [] = _)
  by_cases h : t ∈ uniqueIds ids
  · rw [lookup_map_pair _ _ _ h]; rfl
  · rw [lookup_map_none _ _ _ h, Option.getD_none, eq_comm, List.filter_eq_nil_iff]
    intro i _ hi
    exact h ((mem_uniqueIds ids t).2 ⟨i, by simpa using hi⟩)

theorem mem_indicesOf (ids : Fin N → ι) (t : ι) (i : Fin N) : i ∈ indicesOf ids t ↔ ids i = t := by
  rw [indicesOf_eq]; simp

theorem idxOf_sorted (l : List (Fin N)) (hl : l.Pairwise (· < ·)) (i : Fin N) (hi : i ∈ l) :
    l.idxOf i = (l.filter fun j => decide (j < i)).length := by
  induction l with
  | nil => simp at hi
  | cons a l ih =>
    rw [List.pairwise_cons] at hl
    by_cases ha : a = i
    · subst ha
      rw [List.idxOf_cons_self]
      have : (a :: l).filter (fun j => decide (j < a)) = [] := by
        rw [List.filter_eq_nil_iff]
        intro j hj
        rcases List.mem_cons.1 hj with rfl | hj
        · simp
        · simpa using (hl.1 j hj).le
      rw [this]; rfl
    · have hi' : i ∈ l := (List.mem_cons.1 hi).resolve_left (Ne.symm ha)
      rw [List.idxOf_cons_ne _ ha, ih hl.2 hi', List.filter_cons_of_pos (by simpa using hl.1 i hi')]
      rfl

theorem idxOf_indices (ids : Fin N → ι) (i : Fin N) : (indicesOf ids (ids i)).idxOf i = position ids i := by
  have hs : (indicesOf ids (ids i)).Pairwise (· < ·) := by
    rw [indicesOf_eq]; exact (List.pairwise_lt_finRange N).filter _
  rw [idxOf_sorted _ hs i ((mem_indicesOf _ _ _).2 rfl), indicesOf_eq, List.filter_filter]
  unfold position
  have hnd : ((List.finRange N).filter fun j => decide (j < i) && decide (ids j = ids i)).Nodup :=
    (List.nodup_finRange N).filter _
  rw [← List.toFinset_card_of_nodup hnd]
  congr 1
  ext j
  simp [and_comm]

/-! ## C08 -/

theorem foldl_writeRows (ids : Fin N → ι) (items : List (ι × (ℕ → α))) (a : Fin N → α) (i : Fin N)
    (hnd : (items.map Prod.fst).Nodup) :
    (∀ v, (ids i, v) ∈ items →
      items.foldl (fun array p => writeRows array (indicesOf ids p.1) p.2) a i = v (position ids i)) ∧
    (ids i ∉ items.map Prod.fst → items.foldl (fun array p => writeRows array (indicesOf ids p.1) p.2) a i = a i) := by
  induction items generalizing a with
  | nil => simp
  | cons p items ih =>
    rw [List.map_cons, List.nodup_cons] at hnd
    obtain ⟨ih1, ih2⟩ := ih (writeRows a (indicesOf ids p.1) p.2) hnd.2
    constructor
    · intro v hv
      rw [List.foldl_cons]
      rcases List.mem_cons.1 hv with h | h
      · rw [← h] at hnd ⊢
        subst h
        rw [ih2 hnd.1]
        unfold writeRows
        rw [if_pos ((mem_indicesOf _ _ _).2 rfl), idxOf_indices]
      · exact ih1 v h
    · intro hn
      rw [List.map_cons, List.mem_cons, not_or] at hn
      rw [List.foldl_cons, ih2 hn.2]
      unfold writeRows
      rw [if_neg]
      rw [mem_indicesOf]
      exact hn.1

/-- **C08.** Let `work t` be the rows that the work for market `t` returns. For every order in which the results can arrive,
with or without a pool, the row `i` of the assembled array is the row of `work` for the market of `i` at the position of `i`
among the rows of its market. -/
theorem C08_assembled (pool : Option ℕ) (ids : Fin N → ι) (initial : Fin N → α) (work : ι → ℕ → α)
    (items : List (ι × (ℕ → α))) (h : Generated pool (uniqueIds ids) work items) (i : Fin N) :
    assemble ids initial items i = work (ids i) (position ids i) := by
  have hperm : items.Perm ((uniqueIds ids).map fun k => (k, work k)) := by
    unfold Generated at h
    cases pool with
    | none => rw [h]
    | some _ => exact h
  have hnd : (items.map Prod.fst).Nodup := by
    rw [(hperm.map Prod.fst).nodup_iff, List.map_map]
    simpa [Function.comp_def] using nodup_uniqueIds ids
  refine (foldl_writeRows ids items initial i hnd).1 (work (ids i)) ?_
  rw [hperm.mem_iff, List.mem_map]
  exact ⟨ids i, (mem_uniqueIds _ _).2 ⟨i, rfl⟩, rfl⟩

/-- **C08.** So the assembled array with a pool is the serial one. -/
theorem C08_schedule (pool : Option ℕ) (ids : Fin N → ι) (initial initial' : Fin N → α) (work : ι → ℕ → α)
    (items serial : List (ι × (ℕ → α))) (h : Generated pool (uniqueIds ids) work items)
    (hs : Generated none (uniqueIds ids) work serial) :
    assemble ids initial items = assemble ids initial' serial := by
  funext i
  rw [C08_assembled pool ids initial work items h, C08_assembled none ids initial' work serial hs]

/-- Positions count within markets: rows of interleaved markets. -/
example : (Finset.univ : Finset (Fin 4)).image (position (![7, 3, 7, 3] : Fin 4 → ℕ)) = {0, 1} ∧
    position (![7, 3, 7, 3] : Fin 4 → ℕ) 2 = 1 := by decide

/-! ## C10 -/

theorem foldl_update (items : List (ι × β)) (m : ι → Option β) (t : ι) (hnd : (items.map Prod.fst).Nodup) :
    (∀ v, (t, v) ∈ items → items.foldl (fun (mapping : ι → Option β) p => Function.update mapping p.1 (some p.2)) m t = some v) ∧
    (t ∉ items.map Prod.fst → items.foldl (fun (mapping : ι → Option β) p => Function.update mapping p.1 (some p.2)) m t = m t) := by
  induction items generalizing m with
  | nil => simp
  | cons p items ih =>
    rw [List.map_cons, List.nodup_cons] at hnd
    obtain ⟨ih1, ih2⟩ := ih (Function.update m p.1 (some p.2)) hnd.2
    constructor
    · intro v hv
      rw [List.foldl_cons]
      rcases List.mem_cons.1 hv with h | h
      · subst h
        rw [ih2 hnd.1]; simp
      · exact ih1 v h
    · intro hn
      rw [List.map_cons, List.mem_cons, not_or] at hn
      rw [List.foldl_cons, ih2 hn.2, Function.update_of_ne hn.1]

/-- **C10.** Whatever the order in which markets finish, the aggregate is the sum in the fixed order of market IDs, term by
term: this holds for any addition, so also for one that rounds. -/
theorem C10_order (pool : Option ℕ) (add : β → β → β) (zero : β) (ids : Fin N → ι) (work : ι → β) (items : List (ι × β))
    (h : Generated pool (uniqueIds ids) work items) :
    aggregate add zero (uniqueIds ids) (buildMapping items) =
      some ((uniqueIds ids).foldl (fun total t => add total (work t)) zero) := by
  have hperm : items.Perm ((uniqueIds ids).map fun k => (k, work k)) := by
    unfold Generated at h
    cases pool with
    | none => rw [h]
    | some _ => exact h
  have hnd : (items.map Prod.fst).Nodup := by
    rw [(hperm.map Prod.fst).nodup_iff, List.map_map]
    simpa [Function.comp_def] using nodup_uniqueIds ids
  have hmap : ∀ t ∈ uniqueIds ids, buildMapping items t = some (work t) := by
    intro t ht
    refine (foldl_update items _ t hnd).1 (work t) ?_
    rw [hperm.mem_iff, List.mem_map]
    exact ⟨t, ht, rfl⟩
  unfold aggregate
  generalize uniqueIds ids = l at hmap
  generalize zero = z
  induction l generalizing z with
  | nil => rfl
  | cons t l ih =>
    rw [List.foldl_cons, List.foldl_cons, hmap t (by simp)]
    exact ih (fun u hu => hmap u (List.mem_cons_of_mem _ hu)) (add z (work t))

/-- Adding in the order of completion would depend on the order for an addition that rounds (here down to even numbers). -/
example : [1, 1, 2].foldl (fun a b => (a + b) / 2 * 2) 1 ≠ [2, 1, 1].foldl (fun a b => (a + b) / 2 * 2) 1 := by decide

/-! ## C09 -/

theorem foldl_writeSelected (sel : ι → List ℕ) (items : List (ι × MarketArray)) (c : ℕ → ℕ → Option ℝ) (i : ℕ) (t : ι)
    (hnd : (items.map Prod.fst).Nodup) (hsel : ∀ u, i ∈ sel u ↔ u = t) (k : ℕ) :
    (∀ A, (t, A) ∈ items → items.foldl (fun c p => writeSelected c (sel p.1) p.2) c i k =
      if k < A.cols then A.entry ((sel t).idxOf i) k else c i k) ∧
    (t ∉ items.map Prod.fst → items.foldl (fun c p => writeSelected c (sel p.1) p.2) c i k = c i k) := by
  induction items generalizing c with
  | nil => simp
  | cons p items ih =>
    rw [List.map_cons, List.nodup_cons] at hnd
    obtain ⟨ih1, ih2⟩ := ih (writeSelected c (sel p.1) p.2) hnd.2
    constructor
    · intro A hA
      rw [List.foldl_cons]
      rcases List.mem_cons.1 hA with h | h
      · subst h
        rw [ih2 hnd.1]
        unfold writeSelected
        by_cases hk : k < A.cols
        · rw [if_pos ⟨(hsel t).2 rfl, hk⟩, if_pos hk]
        · rw [if_neg (fun h => hk h.2), if_neg hk]
      · rw [ih1 A h]
        have hne : p.1 ≠ t := by
          intro he
          exact hnd.1 (he ▸ List.mem_map_of_mem (f := Prod.fst) h)
        have : writeSelected c (sel p.1) p.2 i k = c i k := by
          unfold writeSelected
          rw [if_neg (fun h => hne ((hsel p.1).1 h.1))]
        rw [this]
    · intro hn
      rw [List.map_cons, List.mem_cons, not_or] at hn
      rw [List.foldl_cons, ih2 hn.2]
      unfold writeSelected
      rw [if_neg (fun h => hn.1 ((hsel p.1).1 h.1).symm)]

theorem sum_market_sizes (ids : Fin N → ι) : ((uniqueIds ids).map fun t => (indicesOf ids t).length).sum = N := by
  have h1 : ∀ t, (indicesOf ids t).length = (Finset.univ.filter fun i => ids i = t).card := by
    intro t
    rw [indicesOf_eq, ← List.toFinset_card_of_nodup ((List.nodup_finRange N).filter _)]
    congr 1
    ext j; simp
  simp only [h1]
  rw [← List.sum_toFinset _ (nodup_uniqueIds ids)]
  unfold uniqueIds
  rw [Finset.sort_toFinset, ← Finset.card_eq_sum_card_image]
  simp

theorem sum_rows (ids : Fin N → ι) (A : ι → MarketArray) (f : ι → ℕ) (hrows : ∀ t ∈ uniqueIds ids, (A t).rows = f t)
    (items : List (ι × MarketArray)) (hperm : items.Perm ((uniqueIds ids).map fun k => (k, A k))) :
    (items.map fun p => p.2.rows).sum = ((uniqueIds ids).map f).sum := by
  rw [(hperm.map fun p : ι × MarketArray => p.2.rows).sum_eq, List.map_map]
  congr 1
  apply List.map_congr_left
  intro t ht
  exact hrows t ht

theorem generated_perm (pool : Option ℕ) (keys : List ι) (work : ι → β) (items : List (ι × β))
    (h : Generated pool keys work items) : items.Perm (keys.map fun k => (k, work k)) := by
  unfold Generated at h
  cases pool with
  | none => rw [h]
  | some _ => exact h

theorem items_nodup (ids : Fin N → ι) (work : ι → β) (items : List (ι × β))
    (hperm : items.Perm ((uniqueIds ids).map fun k => (k, work k))) : (items.map Prod.fst).Nodup := by
  rw [(hperm.map Prod.fst).nodup_iff, List.map_map]
  simpa [Function.comp_def] using nodup_uniqueIds ids

namespace Spec

/-- Row `i` is the value for row `i` of the product data: the row of its market's array at the position of `i` in its market,
followed by NaN up to the width of the output. -/
def Aligned (ids : Fin N → ι) (A : ι → MarketArray) (c : Combined) : Prop :=
  c.rows = N ∧ ∀ (i : Fin N) (k : ℕ),
    c.entry i k = if k < (A (ids i)).cols then (A (ids i)).entry (position ids i) k else none

end Spec

theorem combine_product (ids : Fin N → ι) (A : ι → MarketArray) (items : List (ι × MarketArray))
    (hperm : items.Perm ((uniqueIds ids).map fun k => (k, A k))) (i : Fin N) (k : ℕ) :
    items.foldl (fun c p => writeSelected c ((indicesOf ids p.1).map fun i : Fin N => (i : ℕ)) p.2) (fun _ _ => none) i k =
      if k < (A (ids i)).cols then (A (ids i)).entry (position ids i) k else none := by
  have hnd := items_nodup ids A items hperm
  have hmem : (ids i, A (ids i)) ∈ items := by
    rw [hperm.mem_iff, List.mem_map]
    exact ⟨ids i, (mem_uniqueIds _ _).2 ⟨i, rfl⟩, rfl⟩
  have hsel : ∀ u, (i : ℕ) ∈ (indicesOf ids u).map (fun i : Fin N => (i : ℕ)) ↔ u = ids i := by
    intro u
    rw [List.mem_map]
    constructor
    · rintro ⟨j, hj, hji⟩
      rw [← (mem_indicesOf ids u j).1 hj, Fin.ext hji]
    · rintro rfl
      exact ⟨i, (mem_indicesOf _ _ _).2 rfl, rfl⟩
  have := (foldl_writeSelected (fun u => (indicesOf ids u).map fun i : Fin N => (i : ℕ)) items (fun _ _ => none) i (ids i)
    hnd hsel k).1 _ hmem
  rw [this]
  have hidx : ((indicesOf ids (ids i)).map fun i : Fin N => (i : ℕ)).idxOf (i : ℕ) = position ids i := by
    rw [← idxOf_indices]
    generalize indicesOf ids (ids i) = l
    induction l with
    | nil => rfl
    | cons a l ih =>
      rw [List.map_cons]
      by_cases ha : a = i
      · subst ha; rw [List.idxOf_cons_self, List.idxOf_cons_self]
      · rw [List.idxOf_cons_ne _ ha, List.idxOf_cons_ne _ (fun h => ha (Fin.ext h)), ih]
  rw [hidx]

/-- **C09 (partial).** If the number of products is not the number of markets, product-level outputs computed in all markets
(arrays with as many rows as the market has products) are aligned with the product data, for every order in which markets
finish. What is missing is the case with as many products as markets, where this fails in general (`C09_refuted`). -/
theorem C09_product_partial (pool : Option ℕ) (ids : Fin N → ι) (hN : N ≠ (uniqueIds ids).length) (A : ι → MarketArray)
    (hrows : ∀ t ∈ uniqueIds ids, (A t).rows = (indicesOf ids t).length) (items : List (ι × MarketArray))
    (h : Generated pool (uniqueIds ids) A items) : Aligned ids A (combineArrays ids (uniqueIds ids) items) := by
  have hperm := generated_perm _ _ _ _ h
  have htot : (items.map fun p => p.2.rows).sum = N := by
    rw [sum_rows ids A _ hrows items hperm]; exact sum_market_sizes ids
  unfold combineArrays
  simp only [htot]
  rw [if_neg hN, if_pos trivial]
  exact ⟨rfl, fun i k => combine_product ids A items hperm i k⟩

/-- Where market `t` is found among the market IDs. -/
theorem filter_marketIds (l : List ι) (i : ℕ) (hi : i < l.length) (u : ι) :
    (i ∈ (List.range l.length).filter fun i => decide (l[i]? = some u)) ↔ u = l[i] := by
  rw [List.mem_filter, List.mem_range, decide_eq_true_eq, List.getElem?_eq_getElem hi, Option.some.injEq]
  exact ⟨fun h => h.2.symm, fun h => ⟨hi, h.symm⟩⟩

theorem filter_marketIds_eq (l : List ι) (hnd : l.Nodup) (i : ℕ) (hi : i < l.length) :
    ((List.range l.length).filter fun j => decide (l[j]? = some l[i])) = [i] := by
  have hperm : ((List.range l.length).filter fun j => decide (l[j]? = some l[i])).Perm [i] := by
    rw [List.perm_ext_iff_of_nodup (List.nodup_range.filter _) (by simp)]
    intro j
    rw [List.mem_filter, List.mem_range, decide_eq_true_eq, List.mem_singleton]
    constructor
    · rintro ⟨hj, he⟩
      rw [List.getElem?_eq_getElem hj, Option.some.injEq] at he
      exact (List.Nodup.getElem_inj_iff hnd).1 he
    · rintro rfl
      exact ⟨hi, List.getElem?_eq_getElem hi⟩
  exact List.perm_singleton.1 hperm

theorem combine_market (ids : Fin N → ι) (A : ι → MarketArray) (items : List (ι × MarketArray))
    (hperm : items.Perm ((uniqueIds ids).map fun k => (k, A k))) (i : ℕ) (hi : i < (uniqueIds ids).length) (k : ℕ) :
    items.foldl (fun c p => writeSelected c
      ((List.range (uniqueIds ids).length).filter fun i => decide ((uniqueIds ids)[i]? = some p.1)) p.2) (fun _ _ => none) i k =
      if k < (A (uniqueIds ids)[i]).cols then (A (uniqueIds ids)[i]).entry 0 k else none := by
  have hnd := items_nodup ids A items hperm
  have hmem : ((uniqueIds ids)[i], A (uniqueIds ids)[i]) ∈ items := by
    rw [hperm.mem_iff, List.mem_map]
    exact ⟨_, List.getElem_mem hi, rfl⟩
  have := (foldl_writeSelected
    (fun u => (List.range (uniqueIds ids).length).filter fun i => decide ((uniqueIds ids)[i]? = some u)) items
    (fun _ _ => none) i (uniqueIds ids)[i] hnd (filter_marketIds _ i hi) k).1 _ hmem
  rw [this, filter_marketIds_eq _ (nodup_uniqueIds ids) i hi]
  simp

/-- **C09.** Market-level outputs (one row for each market) are in the order of the sorted market IDs. -/
theorem C09_market (pool : Option ℕ) (ids : Fin N → ι) (A : ι → MarketArray)
    (hrows : ∀ t ∈ uniqueIds ids, (A t).rows = 1) (items : List (ι × MarketArray))
    (h : Generated pool (uniqueIds ids) A items) :
    let c := combineArrays ids (uniqueIds ids) items
    c.rows = (uniqueIds ids).length ∧ ∀ (i : ℕ) (hi : i < (uniqueIds ids).length) (k : ℕ),
      c.entry i k = if k < (A (uniqueIds ids)[i]).cols then (A (uniqueIds ids)[i]).entry 0 k else none := by
  have hperm := generated_perm _ _ _ _ h
  have htot : (items.map fun p => p.2.rows).sum = (uniqueIds ids).length := by
    rw [sum_rows ids A (fun _ => 1) hrows items hperm]; simp
  intro c
  have hc : c = combineArrays ids (uniqueIds ids) items := rfl
  unfold combineArrays at hc
  simp only [htot] at hc
  rw [if_pos trivial] at hc
  rw [hc]
  exact ⟨rfl, fun i hi k => combine_market ids A items hperm i hi k⟩

/-- The output is as wide as the widest market. -/
theorem C09_width (pool : Option ℕ) (ids : Fin N → ι) (A : ι → MarketArray)
    (hrows : ∀ t ∈ uniqueIds ids, (A t).rows = (indicesOf ids t).length) (items : List (ι × MarketArray))
    (h : Generated pool (uniqueIds ids) A items) :
    let c := combineArrays ids (uniqueIds ids) items
    (∀ t ∈ uniqueIds ids, (A t).cols ≤ c.cols) ∧ (0 < N → ∃ t ∈ uniqueIds ids, (A t).cols = c.cols) := by
  have hperm := generated_perm _ _ _ _ h
  have htot : (items.map fun p => p.2.rows).sum = N := by
    rw [sum_rows ids A _ hrows items hperm]; exact sum_market_sizes ids
  intro c
  have hc : c.cols = (items.map fun p => p.2.cols).foldr max 0 := by
    change (combineArrays ids (uniqueIds ids) items).cols = _
    unfold combineArrays
    simp only [htot]
    split
    · rfl
    · rw [if_pos trivial]
  rw [hc]
  have hle : ∀ (l : List ℕ), ∀ x ∈ l, x ≤ l.foldr max 0 := by
    intro l
    induction l with
    | nil => simp
    | cons a l ih =>
      intro x hx
      rw [List.foldr_cons]
      rcases List.mem_cons.1 hx with rfl | hx
      · exact le_max_left _ _
      · exact (ih x hx).trans (le_max_right _ _)
  have hmem : ∀ (l : List ℕ), l ≠ [] → l.foldr max 0 ∈ l := by
    intro l
    induction l with
    | nil => simp
    | cons a l ih =>
      intro _
      rw [List.foldr_cons]
      by_cases hl : l = []
      · subst hl; simp
      · rcases max_choice a (l.foldr max 0) with h' | h'
        · rw [h']; simp
        · rw [h']; exact List.mem_cons_of_mem _ (ih hl)
  have hcols : ∀ x, x ∈ (items.map fun p => p.2.cols) ↔ ∃ t ∈ uniqueIds ids, (A t).cols = x := by
    intro x
    rw [(hperm.map fun p : ι × MarketArray => p.2.cols).mem_iff, List.map_map, List.mem_map]
    rfl
  refine ⟨fun t ht => hle _ _ ((hcols _).2 ⟨t, ht, rfl⟩), fun hN => ?_⟩
  apply (hcols _).1
  apply hmem
  have : (ids ⟨0, hN⟩, A (ids ⟨0, hN⟩)) ∈ items := by
    rw [hperm.mem_iff, List.mem_map]
    exact ⟨ids ⟨0, hN⟩, (mem_uniqueIds _ _).2 ⟨_, rfl⟩, rfl⟩
  intro h0
  have := List.mem_map_of_mem (f := fun p : ι × MarketArray => p.2.cols) this
  rw [h0] at this
  simp at this

/-- **C09.** With as many products as markets, product-level outputs are aligned if the product data are sorted by market. -/
theorem C09_sorted (pool : Option ℕ) (ids : Fin N → ι) (hN : N = (uniqueIds ids).length) (hmono : Monotone ids)
    (A : ι → MarketArray) (hrows : ∀ t ∈ uniqueIds ids, (A t).rows = (indicesOf ids t).length)
    (items : List (ι × MarketArray)) (h : Generated pool (uniqueIds ids) A items) :
    Aligned ids A (combineArrays ids (uniqueIds ids) items) := by
  have hperm := generated_perm _ _ _ _ h
  have htot : (items.map fun p => p.2.rows).sum = N := by
    rw [sum_rows ids A _ hrows items hperm]; exact sum_market_sizes ids
  have hinj : Function.Injective ids := by
    have hcard : (Finset.univ.image ids).card = (Finset.univ : Finset (Fin N)).card := by
      have : (uniqueIds ids).length = (Finset.univ.image ids).card := by unfold uniqueIds; simp
      rw [← this, ← hN]; simp
    have := Finset.card_image_iff.1 hcard
    exact fun a b hab => this (by simp) (by simp) hab
  have hstrict : StrictMono ids := hmono.strictMono_of_injective hinj
  have huniq : uniqueIds ids = (List.finRange N).map ids := by
    apply List.Perm.eq_of_pairwise (le := (· ≤ ·))
    · intro a b _ _ h1 h2; exact le_antisymm h1 h2
    · exact Finset.pairwise_sort _ _
    · rw [List.pairwise_map]
      exact (List.pairwise_lt_finRange N).imp fun h => (hstrict h).le
    · rw [List.perm_ext_iff_of_nodup (nodup_uniqueIds ids) ((List.nodup_finRange N).map hinj)]
      intro t
      rw [mem_uniqueIds, List.mem_map]
      simp
  have hpos : ∀ i, position ids i = 0 := by
    intro i
    unfold position
    rw [Finset.card_eq_zero, Finset.filter_eq_empty_iff]
    rintro j - ⟨h1, h2⟩
    exact h2.ne (hinj h1)
  unfold combineArrays
  simp only [htot]
  rw [if_pos hN]
  refine ⟨rfl, fun i k => ?_⟩
  have hi : (i : ℕ) < (uniqueIds ids).length := by rw [← hN]; exact i.2
  have hget : (uniqueIds ids)[(i : ℕ)] = ids i := by
    simp only [huniq, List.getElem_map, List.getElem_finRange]
    rfl
  have := combine_market ids A items hperm i hi k
  refine this.trans ?_
  rw [hget, hpos]

/-- Two markets with one product each, whose rows are not in the order of the market IDs. -/
def swappedIds : Fin 2 → ℕ := ![2, 1]

/-- A product-level output: the ID of the market. -/
def idArray (t : ℕ) : MarketArray := ⟨1, 1, fun _ _ => some t⟩

theorem uniqueIds_swapped : uniqueIds swappedIds = [1, 2] := by
  apply List.Perm.eq_of_pairwise (le := (· ≤ ·))
  · intro a b _ _ h1 h2; exact le_antisymm h1 h2
  · exact Finset.pairwise_sort _ _
  · decide
  · rw [List.perm_ext_iff_of_nodup (nodup_uniqueIds _) (by decide)]
    intro t
    rw [mem_uniqueIds]
    simp only [Fin.exists_fin_two, swappedIds]
    simp; tauto

/-- **C09, refutation.** With as many products as markets and rows not sorted by market, product-level outputs are returned in
the order of the markets and not of the rows: row 0 is a product of market 2 and gets the value for market 1. -/
theorem C09_refuted : ∃ items, Generated none (uniqueIds swappedIds) idArray items ∧
    (∀ t ∈ uniqueIds swappedIds, (idArray t).rows = (indicesOf swappedIds t).length) ∧
    ¬ Aligned swappedIds idArray (combineArrays swappedIds (uniqueIds swappedIds) items) := by
  refine ⟨(uniqueIds swappedIds).map fun k => (k, idArray k), rfl, ?_, ?_⟩
  · intro t ht
    rw [uniqueIds_swapped] at ht
    rw [indicesOf_eq]
    revert t
    decide
  · intro hal
    have h0 := hal.2 0 0
    rw [uniqueIds_swapped] at h0
    simp [combineArrays, idArray, swappedIds, writeSelected, List.range_succ] at h0

/-- The hypotheses of `C09_product_partial` are met: three products, two markets. -/
example : (3 : ℕ) ≠ (uniqueIds (![7, 3, 7] : Fin 3 → ℕ)).length := by
  unfold uniqueIds; rw [Finset.length_sort]; decide

/-! ## C13 -/

/-- **C13.** After leaving a `parallel` context of more than one process, in whatever state it was entered and whether it was
left normally or by an exception (from the body or from starting the pool), there is no pool: computation is serial. -/
theorem C13_released (processes : ℕ) (h : 1 < processes) (starts : Bool) (body : Program) (s : PoolState) :
    ((Program.parallel processes starts body).run s).1.pool = none := by
  unfold Program.run
  rw [if_neg (by omega), if_neg (by omega)]
  cases starts <;> rfl

theorem run_serial (p : Program) (s : PoolState) (h : s.pool = none) : (p.run s).1.pool = none := by
  induction p generalizing s with
  | work label => exact h
  | raise => exact h
  | seq a b iha ihb =>
    unfold Program.run
    simp only
    split
    · exact iha s h
    · exact ihb _ (iha s h)
  | attempt a b iha ihb =>
    unfold Program.run
    simp only
    split
    · exact ihb _ (iha s h)
    · exact iha s h
  | parallel n st body ih =>
    unfold Program.run
    split
    · exact h
    · split
      · exact ih s h
      · split <;> rfl

/-- **C13.** A program that starts without a pool ends without one, whatever contexts it nests, wherever exceptions are raised
and caught, and whichever pools fail to start: any `with` statement (including one with a single process or with an invalid
number of processes) followed by work does this work serially. -/
theorem C13_serial_after (p : Program) (label : ℕ) (s : PoolState) (h : s.pool = none) (hok : (p.run s).2 = false) :
    ((Program.seq p (.work label)).run s).1.log = (p.run s).1.log ++ [(label, none)] := by
  have he : (Program.seq p (.work label)).run s =
      if (p.run s).2 then p.run s else (Program.work label).run (p.run s).1 := rfl
  rw [he, hok, if_neg (by simp)]
  show (p.run s).1.log ++ [(label, (p.run s).1.pool)] = _
  rw [run_serial p s h]

/-- **C13.** An exception that is caught outside the context finds no pool, so the handler works serially. -/
theorem C13_serial_handler (p : Program) (label : ℕ) (s : PoolState) (h : s.pool = none) (herr : (p.run s).2 = true) :
    ((Program.attempt p (.work label)).run s).1.log = (p.run s).1.log ++ [(label, none)] := by
  have he : (Program.attempt p (.work label)).run s =
      if (p.run s).2 then (Program.work label).run (p.run s).1 else p.run s := rfl
  rw [he, herr, if_pos rfl]
  show (p.run s).1.log ++ [(label, (p.run s).1.pool)] = _
  rw [run_serial p s h]

/-- Inside a context, work directly in the body uses the context's pool. -/
theorem C13_used_inside (processes : ℕ) (h : 1 < processes) (label : ℕ) (s : PoolState) :
    ((Program.parallel processes true (.work label)).run s).1.log = s.log ++ [(label, some s.started)] := by
  unfold Program.run
  rw [if_neg (by omega), if_neg (by omega)]
  rfl

/-- Leaving an inner context also ends the use of the outer context's pool: work after it is serial although it is still inside
the outer context. -/
theorem C13_nested_clears_outer :
    ((Program.parallel 4 true (.seq (.work 0) (.seq (.parallel 2 true (.work 1)) (.work 2)))).run ⟨none, 0, []⟩).1.log =
      [(0, some 0), (1, some 1), (2, none)] := rfl

/-- A body that raises inside a nested context. -/
example : ((Program.attempt (.parallel 3 true (.seq (.work 0) .raise)) (.work 1)).run ⟨none, 0, []⟩).1.log =
    [(0, some 0), (1, none)] := rfl

end Pyblp
