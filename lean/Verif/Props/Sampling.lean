import Verif.Model.Sampling
import Verif.Props.Parallel

set_option linter.unusedSectionVars false

/-!
# Importance sampling (C11, C12)
-/

namespace Pyblp

open Spec Classical

variable {ι σ : Type} [LinearOrder ι] {N : ℕ}

theorem getD_getElem (l : List ℝ) (i : ℕ) (h : i < l.length) : l.getD i 0 = l[i] := by
  rw [List.getD, List.getElem?_eq_getElem h, Option.getD_some]

/-! ## C12 -/

/-- **C12.** In a market with inside share `share > 0`, if the procedure does not raise then: exactly `draws` agents get a
positive weight and all others get zero; each of them was accepted, that is, its cutoff is below its inside probability divided
by the accept-reject constant; its weight is the documented `(1 / draws) * share / probability`; and the weighted sum of inside
probabilities is the inside share. -/
theorem C12_market (g : Generator σ) (hg : g.Valid) (draws : ℕ) (hd : 1 ≤ draws) (M : ℝ) (hM : 1 ≤ M) (share : ℝ)
    (hshare : 0 < share) (inside : List ℝ) (s s' : σ) (w : List ℝ)
    (h : importanceMarket g draws M share inside s = .ok (w, s')) :
    w.length = inside.length ∧
    ((Finset.range inside.length).filter fun i => 0 < w.getD i 0).card = draws ∧
    (∀ i < inside.length, w.getD i 0 ≠ 0 →
      0 < w.getD i 0 ∧ w.getD i 0 = 1 / draws * (share / inside.getD i 0) ∧
      (g.uniform s inside.length).1.getD i 0 < inside.getD i 0 / M) ∧
    ∑ i ∈ Finset.range inside.length, w.getD i 0 * inside.getD i 0 = share := by
  unfold importanceMarket at h
  simp only at h
  set cutoffs := g.uniform s inside.length with hcut
  set accepted := (List.range inside.length).filter fun i =>
    decide (cutoffs.1.getD i 0 < inside.getD i 0 / M) with hacc
  by_cases hlen : accepted.length < draws
  · rw [if_pos hlen] at h; simp at h
  · rw [if_neg hlen] at h
    set sampled := (g.choice cutoffs.2 accepted draws).1 with hsam
    simp only [Except.ok.injEq, Prod.mk.injEq] at h
    have hw := h.1
    have hnodup : accepted.Nodup := List.nodup_range.filter _
    have hsn : sampled.Nodup := hg.choice_nodup _ _ _ hnodup
    have hsl : sampled.length = draws := hg.choice_length _ _ _ (by omega)
    have hsub : sampled ⊆ accepted := hg.choice_subset _ _ _
    have hmem : ∀ i ∈ sampled, i < inside.length ∧ cutoffs.1.getD i 0 < inside.getD i 0 / M := by
      intro i hi
      have := hsub hi
      rw [hacc, List.mem_filter] at this
      exact ⟨by simpa using this.1, by simpa using this.2⟩
    have hcut0 : ∀ i < inside.length, 0 ≤ cutoffs.1.getD i 0 := by
      intro i hi
      have hl : i < cutoffs.1.length := by rw [hcut, hg.uniform_length]; exact hi
      rw [getD_getElem _ _ hl]
      exact (hg.uniform_range s inside.length _ (List.getElem_mem hl)).1
    have hp : ∀ i ∈ sampled, 0 < inside.getD i 0 := by
      intro i hi
      obtain ⟨h1, h2⟩ := hmem i hi
      have h3 := lt_of_le_of_lt (hcut0 i h1) h2
      by_contra hneg
      exact absurd h3 (not_lt.2 (div_nonpos_of_nonpos_of_nonneg (not_lt.1 hneg) (by linarith)))
    have hwi : ∀ i < inside.length, w.getD i 0 = if i ∈ sampled then share / inside.getD i 0 / draws else 0 := by
      intro i hi
      rw [← hw, getD_getElem _ _ (by simpa using hi), List.getElem_map, List.getElem_range]
    have hd' : (0 : ℝ) < draws := by exact_mod_cast hd
    have hpos : ∀ i ∈ sampled, 0 < share / inside.getD i 0 / draws := fun i hi =>
      div_pos (div_pos hshare (hp i hi)) hd'
    have hfilter : (Finset.range inside.length).filter (fun i => 0 < w.getD i 0) = sampled.toFinset := by
      ext i
      rw [Finset.mem_filter, Finset.mem_range, List.mem_toFinset]
      constructor
      · rintro ⟨h1, h2⟩
        by_contra hn
        rw [hwi i h1, if_neg hn] at h2
        exact lt_irrefl _ h2
      · intro hi
        exact ⟨(hmem i hi).1, by rw [hwi i (hmem i hi).1, if_pos hi]; exact hpos i hi⟩
    refine ⟨by rw [← hw]; simp, ?_, ?_, ?_⟩
    · rw [hfilter, List.toFinset_card_of_nodup hsn, hsl]
    · intro i hi hne
      have his : i ∈ sampled := by
        by_contra hn
        rw [hwi i hi, if_neg hn] at hne
        exact hne rfl
      rw [hwi i hi, if_pos his]
      refine ⟨hpos i his, ?_, (hmem i his).2⟩
      have := (hp i his).ne'
      field_simp
    · have hterm : ∀ i ∈ Finset.range inside.length, w.getD i 0 * inside.getD i 0 =
          if i ∈ sampled.toFinset then share / draws else 0 := by
        intro i hi
        rw [hwi i (Finset.mem_range.1 hi)]
        by_cases his : i ∈ sampled
        · rw [if_pos his, if_pos (List.mem_toFinset.2 his)]
          have := (hp i his).ne'
          field_simp
        · rw [if_neg his, if_neg (fun h' => his (List.mem_toFinset.1 h')), zero_mul]
      rw [Finset.sum_congr rfl hterm, ← Finset.sum_filter]
      have hf2 : (Finset.range inside.length).filter (fun i => i ∈ sampled.toFinset) = sampled.toFinset := by
        ext i
        rw [Finset.mem_filter, Finset.mem_range, List.mem_toFinset]
        exact ⟨fun h => h.2, fun h => ⟨(hmem i h).1, h⟩⟩
      rw [hf2, Finset.sum_const, List.toFinset_card_of_nodup hsn, hsl, nsmul_eq_mul]
      field_simp

theorem importanceLoop_spec (g : Generator σ) (draws : ℕ) (M : ℝ) (items : List (ι × (ℝ × List ℝ))) (s : σ)
    (ws : List (ι × List ℝ)) (h : importanceLoop g draws M items s = .ok ws) :
    ws.map Prod.fst = items.map Prod.fst ∧
      ∀ p ∈ items, ∃ w, (p.1, w) ∈ ws ∧ ∃ s₁ s₂, importanceMarket g draws M p.2.1 p.2.2 s₁ = .ok (w, s₂) := by
  induction items generalizing s ws with
  | nil => simp [importanceLoop] at h; subst h; simp
  | cons p items ih =>
    obtain ⟨t, share, inside⟩ := p
    unfold importanceLoop at h
    cases hm : importanceMarket g draws M share inside s with
    | error e => rw [hm] at h; simp at h
    | ok q =>
      obtain ⟨w, s'⟩ := q
      rw [hm] at h
      simp only at h
      cases hl : importanceLoop g draws M items s' with
      | error e => rw [hl] at h; simp at h
      | ok ws' =>
        rw [hl] at h
        simp only [Except.ok.injEq] at h
        subst h
        obtain ⟨h1, h2⟩ := ih s' ws' hl
        refine ⟨by simp [h1], ?_⟩
        intro p hp
        rcases List.mem_cons.1 hp with rfl | hp
        · exact ⟨w, by simp, s, s', hm⟩
        · obtain ⟨w', hw', hs⟩ := h2 p hp
          exact ⟨w', List.mem_cons_of_mem _ hw', hs⟩

theorem sum_position {β : Type} [AddCommMonoid β] (ids : Fin N → ι) (t : ι) (f : ℕ → β) :
    ∑ i with ids i = t, f (position ids i) = ∑ r ∈ Finset.range (indicesOf ids t).length, f r := by
  have hset : (Finset.univ.filter fun i => ids i = t) = (indicesOf ids t).toFinset := by
    ext i; simp [mem_indicesOf]
  have hnd : (indicesOf ids t).Nodup := by rw [indicesOf_eq]; exact (List.nodup_finRange N).filter _
  rw [hset]
  have hpos : ∀ i ∈ (indicesOf ids t).toFinset, f (position ids i) = f ((indicesOf ids t).idxOf i) := by
    intro i hi
    have := (mem_indicesOf ids t i).1 (List.mem_toFinset.1 hi)
    subst this
    rw [idxOf_indices]
  rw [Finset.sum_congr rfl hpos]
  generalize indicesOf ids t = l at hnd
  refine Finset.sum_bij (fun i _ => l.idxOf i) ?_ ?_ ?_ ?_
  · intro i hi
    exact Finset.mem_range.2 (List.idxOf_lt_length_iff.2 (List.mem_toFinset.1 hi))
  · intro i hi j hj hij
    exact List.idxOf_inj (List.mem_toFinset.1 hi) |>.1 hij
  · intro r hr
    have hr' := Finset.mem_range.1 hr
    exact ⟨l[r], List.mem_toFinset.2 (List.getElem_mem hr'), hnd.idxOf_getElem r hr'⟩
  · intro i _; rfl

/-- **C12.** For every order in which markets finish: if importance sampling returns, then in every market exactly `draws`
agents get a positive weight (these are the ones that are kept) and the others get zero, and the weighted sum of the inside
probabilities over the agents of the market is the market's inside share. Here `inside t` lists the inside probabilities of
the candidate agents of market `t`. -/
theorem C12_weights (g : Generator σ) (hg : g.Valid) (seed : σ) (draws : ℕ) (hd : 1 ≤ draws) (M : ℝ) (hM : 1 ≤ M)
    (pool : Option ℕ) (agentIds : Fin N → ι) (share : ι → ℝ) (inside : ι → List ℝ) (hshare : ∀ t, 0 < share t)
    (hinside : ∀ t, (inside t).length = (Finset.univ.filter fun i => agentIds i = t).card)
    (items : List (ι × (ℝ × List ℝ))) (h : Generated pool (uniqueIds agentIds) (fun t => (share t, inside t)) items)
    (w : Fin N → ℝ) (hw : importanceWeights g seed draws M agentIds items = .ok w) :
    ∀ t ∈ uniqueIds agentIds,
      (Finset.univ.filter fun i => agentIds i = t ∧ 0 < w i).card = draws ∧
      (∀ i, agentIds i = t → w i ≠ 0 → 0 < w i ∧ 0 < (inside t).getD (position agentIds i) 0) ∧
      ∑ i with agentIds i = t, w i * (inside t).getD (position agentIds i) 0 = share t := by
  have hperm := generated_perm _ _ _ _ h
  have hnd := items_nodup agentIds _ items hperm
  unfold importanceWeights at hw
  cases hl : importanceLoop g draws M items seed with
  | error e => rw [hl] at hw; simp [Except.map] at hw
  | ok ws =>
    rw [hl] at hw
    simp only [Except.map, Except.ok.injEq] at hw
    obtain ⟨hkeys, hws⟩ := importanceLoop_spec g draws M items seed ws hl
    intro t ht
    have hmem : (t, share t, inside t) ∈ items := by
      rw [hperm.mem_iff, List.mem_map]; exact ⟨t, ht, rfl⟩
    obtain ⟨wt, hwt, s₁, s₂, hmk⟩ := hws _ hmem
    obtain ⟨-, hcard, hne, hsum⟩ := C12_market g hg draws hd M hM (share t) (hshare t) (inside t) s₁ s₂ wt hmk
    have hrow : ∀ i, agentIds i = t → w i = wt.getD (position agentIds i) 0 := by
      intro i hi
      rw [← hw]
      unfold assemble
      subst hi
      refine (foldl_writeRows agentIds (ws.map fun p => (p.1, fun r => p.2.getD r 0)) (fun _ => 0) i ?_).1
        (fun r => wt.getD r 0) ?_
      · rw [List.map_map]
        have : (Prod.fst ∘ fun p : ι × List ℝ => (p.1, fun r => p.2.getD r 0)) = Prod.fst := rfl
        rw [this, hkeys]
        exact hnd
      · exact List.mem_map.2 ⟨_, hwt, rfl⟩
    have hlen : (indicesOf agentIds t).length = (inside t).length := by
      rw [hinside, indicesOf_eq, ← List.toFinset_card_of_nodup ((List.nodup_finRange N).filter _)]
      congr 1
      ext j; simp
    have hposlt : ∀ i, agentIds i = t → position agentIds i < (inside t).length := by
      intro i hi
      rw [← hlen]
      subst hi
      rw [← idxOf_indices]
      exact List.idxOf_lt_length_iff.2 ((mem_indicesOf _ _ _).2 rfl)
    refine ⟨?_, ?_, ?_⟩
    · have h1 : (Finset.univ.filter fun i => agentIds i = t ∧ 0 < w i).card =
          ∑ i with agentIds i = t, if 0 < wt.getD (position agentIds i) 0 then 1 else 0 := by
        rw [← Finset.filter_filter, Finset.card_filter]
        apply Finset.sum_congr rfl
        intro i hi
        rw [hrow i (Finset.mem_filter.1 hi).2]
      rw [h1, sum_position agentIds t (fun r => if 0 < wt.getD r 0 then 1 else 0), hlen, ← Finset.card_filter, hcard]
    · intro i hi hwi
      rw [hrow i hi] at hwi ⊢
      obtain ⟨ha, hb, hc⟩ := hne _ (hposlt i hi) hwi
      refine ⟨ha, ?_⟩
      by_contra hn
      have hdpos : (0 : ℝ) < 1 / draws := by positivity
      rw [hb] at ha
      have := (pos_iff_pos_of_mul_pos ha).1 hdpos
      exact absurd this (not_lt.2 (div_nonpos_of_nonneg_of_nonpos (hshare t).le (not_lt.1 hn)))
    · have h1 : ∑ i with agentIds i = t, w i * (inside t).getD (position agentIds i) 0 =
          ∑ i with agentIds i = t, wt.getD (position agentIds i) 0 * (inside t).getD (position agentIds i) 0 := by
        apply Finset.sum_congr rfl
        intro i hi
        rw [hrow i (Finset.mem_filter.1 hi).2]
      rw [h1, sum_position agentIds t (fun r => wt.getD r 0 * (inside t).getD r 0), hlen, hsum]

/-- The procedure raises exactly when fewer than `draws` agents are accepted. -/
theorem C12_raises (g : Generator σ) (draws : ℕ) (M share : ℝ) (inside : List ℝ) (s : σ) :
    importanceMarket g draws M share inside s = .error .runtimeError ↔
      ((Finset.range inside.length).filter fun i =>
        (g.uniform s inside.length).1.getD i 0 < inside.getD i 0 / M).card < draws := by
  have hcard : ((Finset.range inside.length).filter fun i =>
      (g.uniform s inside.length).1.getD i 0 < inside.getD i 0 / M).card =
      ((List.range inside.length).filter fun i =>
        decide ((g.uniform s inside.length).1.getD i 0 < inside.getD i 0 / M)).length := by
    rw [← List.toFinset_card_of_nodup (List.nodup_range.filter _)]
    congr 1
    ext i; simp
  rw [hcard]
  unfold importanceMarket
  simp only
  split
  · rename_i h; simp only [true_iff]; exact h
  · rename_i h; simp only [reduceCtorEq, false_iff]; exact h

/-! ## C11 -/

/-- A generator whose state counts the calls: cutoffs are zero, and choices are from the front or the back in turn. -/
noncomputable def turnGenerator : Generator ℕ where
  uniform s n := (List.replicate n 0, s)
  choice s a k := (if s % 2 = 0 then a.take k else a.reverse.take k, s + 1)

theorem turnGenerator_valid : turnGenerator.Valid where
  uniform_length s n := by simp [turnGenerator]
  uniform_range s n u hu := by
    simp only [turnGenerator, List.mem_replicate] at hu
    rw [hu.2]; norm_num
  choice_length s a k hk := by simp only [turnGenerator]; split <;> simp [hk]
  choice_nodup s a k ha := by
    simp only [turnGenerator]
    split
    · exact ha.sublist (List.take_sublist _ _)
    · exact (List.nodup_reverse.2 ha).sublist (List.take_sublist _ _)
  choice_subset s a k := by
    simp only [turnGenerator]
    split
    · exact (List.take_sublist _ _).subset
    · intro x hx; exact List.mem_reverse.1 ((List.take_sublist _ _).subset hx)

/-- Two markets with two candidate agents each, all with inside probability one half. -/
noncomputable def pairItem (t : ℕ) : ℕ × (ℝ × List ℝ) := (t, 1 / 2, [1 / 2, 1 / 2])

/-- The market IDs of the four candidate agents. -/
def pairIds : Fin 4 → ℕ := ![0, 0, 1, 1]

theorem uniqueIds_pair : uniqueIds pairIds = [0, 1] := by
  apply List.Perm.eq_of_pairwise (le := (· ≤ ·))
  · intro a b _ _ h1 h2; exact le_antisymm h1 h2
  · exact Finset.pairwise_sort _ _
  · decide
  · rw [List.perm_ext_iff_of_nodup (nodup_uniqueIds _) (by decide)]
    intro t
    rw [mem_uniqueIds]
    simp only [pairIds]
    constructor
    · rintro ⟨i, rfl⟩; fin_cases i <;> simp
    · intro h
      rcases List.mem_cons.1 h with rfl | h
      · exact ⟨0, rfl⟩
      · rw [List.mem_singleton.1 h]; exact ⟨2, rfl⟩

theorem turn_market (s : ℕ) : importanceMarket turnGenerator 1 1 (1 / 2) [1 / 2, 1 / 2] s =
    .ok (if s % 2 = 0 then [1, 0] else [0, 1], s + 1) := by
  unfold importanceMarket
  have h1 : (turnGenerator.uniform s ([1 / 2, 1 / 2] : List ℝ).length) = ([0, 0], s) := rfl
  have h2 : ((List.range ([1 / 2, 1 / 2] : List ℝ).length).filter fun i =>
      decide (([0, 0] : List ℝ).getD i 0 < ([1 / 2, 1 / 2] : List ℝ).getD i 0 / 1)) = [0, 1] := by
    rw [show List.range ([1 / 2, 1 / 2] : List ℝ).length = [0, 1] from rfl]
    norm_num [List.filter]
  simp only [h1, h2]
  rw [if_neg (by simp)]
  simp only [turnGenerator]
  by_cases hs : s % 2 = 0
  · simp only [if_pos hs]
    norm_num [List.range_succ]
  · simp only [if_neg hs]
    norm_num [List.range_succ]

/-- **C11, refutation.** There are a valid generator, a seed, and two orders in which the same two markets can finish, for which
importance sampling selects different agents: the draws are taken from one stream in the order of completion. -/
theorem C11_refuted : ∃ (items items' : List (ℕ × (ℝ × List ℝ))) (w w' : Fin 4 → ℝ),
    turnGenerator.Valid ∧
    Generated (some 0) (uniqueIds pairIds) (fun t => (pairItem t).2) items ∧
    Generated (some 0) (uniqueIds pairIds) (fun t => (pairItem t).2) items' ∧
    importanceWeights turnGenerator 0 1 1 pairIds items = .ok w ∧
    importanceWeights turnGenerator 0 1 1 pairIds items' = .ok w' ∧
    0 < w 0 ∧ w' 0 = 0 := by
  have hl : ∀ a b : ℕ, importanceLoop turnGenerator 1 1 [pairItem a, pairItem b] 0 = .ok [(a, [1, 0]), (b, [0, 1])] := by
    intro a b
    simp only [importanceLoop, pairItem, turn_market]
    norm_num
  refine ⟨[pairItem 0, pairItem 1], [pairItem 1, pairItem 0], _, _, turnGenerator_valid, ?_, ?_,
    by unfold importanceWeights; rw [hl]; rfl, by unfold importanceWeights; rw [hl]; rfl, ?_, ?_⟩
  · rw [uniqueIds_pair]; exact List.Perm.refl _
  · rw [uniqueIds_pair]; exact List.Perm.swap _ _ _
  · have h0 := (foldl_writeRows pairIds [(0, fun r => ([1, 0] : List ℝ).getD r 0), (1, fun r => ([0, 1] : List ℝ).getD r 0)]
      (fun _ => 0) 0 (by simp)).1 (fun r => ([1, 0] : List ℝ).getD r 0) (List.mem_cons_self)
    refine lt_of_lt_of_eq ?_ h0.symm
    have : position pairIds 0 = 0 := by decide
    rw [this]; simp
  · have h0 := (foldl_writeRows pairIds [(1, fun r => ([1, 0] : List ℝ).getD r 0), (0, fun r => ([0, 1] : List ℝ).getD r 0)]
      (fun _ => 0) 0 (by simp)).1 (fun r => ([0, 1] : List ℝ).getD r 0)
      (List.mem_cons_of_mem _ List.mem_cons_self)
    refine h0.trans ?_
    have : position pairIds 0 = 0 := by decide
    rw [this]; simp

/-- **C11 (partial).** Without a pool the outcome is determined by the seed: any two runs give the same weights. With a pool
this fails (`C11_refuted`). -/
theorem C11_serial_partial (g : Generator σ) (seed : σ) (draws : ℕ) (M : ℝ) (agentIds : Fin N → ι)
    (work : ι → ℝ × List ℝ) (items items' : List (ι × (ℝ × List ℝ)))
    (h : Generated none (uniqueIds agentIds) work items) (h' : Generated none (uniqueIds agentIds) work items') :
    importanceWeights g seed draws M agentIds items = importanceWeights g seed draws M agentIds items' := by
  rw [show items = items' from h.trans h'.symm]

/-- **C11 (partial).** With a pool, the outcome depends on the schedule only through the order of completion: with a single
market there is nothing to reorder. -/
theorem C11_single_partial (g : Generator σ) (seed : σ) (draws : ℕ) (M : ℝ) (pool pool' : Option ℕ) (agentIds : Fin N → ι)
    (hone : ∃ t, uniqueIds agentIds = [t]) (work : ι → ℝ × List ℝ) (items items' : List (ι × (ℝ × List ℝ)))
    (h : Generated pool (uniqueIds agentIds) work items) (h' : Generated pool' (uniqueIds agentIds) work items') :
    importanceWeights g seed draws M agentIds items = importanceWeights g seed draws M agentIds items' := by
  obtain ⟨t, ht⟩ := hone
  have h1 := generated_perm _ _ _ _ h
  have h2 := generated_perm _ _ _ _ h'
  rw [ht] at h1 h2
  have e1 : items = [(t, work t)] := List.perm_singleton.1 (by simpa using h1)
  have e2 : items' = [(t, work t)] := List.perm_singleton.1 (by simpa using h2)
  rw [e1, e2]

/-- The hypotheses of `C12_market` are met by this generator. -/
example (s : ℕ) : ∃ w s', importanceMarket turnGenerator 1 1 (1 / 2) [1 / 2, 1 / 2] s = .ok (w, s') ∧
    ∑ i ∈ Finset.range 2, w.getD i 0 * ([1 / 2, 1 / 2] : List ℝ).getD i 0 = 1 / 2 :=
  ⟨_, _, turn_market s, (C12_market turnGenerator turnGenerator_valid 1 le_rfl 1 le_rfl (1 / 2) (by norm_num)
    [1 / 2, 1 / 2] s _ _ (turn_market s)).2.2.2⟩

end Pyblp
