import Verif.Model.ImportanceResults
import Verif.Props.Sampling
import Verif.Props.Groups
import Mathlib.Algebra.Order.Chebyshev

set_option linter.unusedSectionVars false

/-!
# Importance sampling results (C113)
-/

namespace Pyblp

open Spec Classical

variable {ι σ D P : Type} [LinearOrder ι]

namespace Spec

/-- Weights of the agents of a market. -/
noncomputable def weightsOf (agents : List (SamplingAgent ι D)) (t : ι) : List ℝ :=
  (agents.filter fun a => decide (a.market = t)).map fun a => a.weight.getD 0

/-- The predicted inside share of a market: choice probabilities of its products integrated over its agents. -/
noncomputable def predictedInside (agents : List (SamplingAgent ι D)) (prob : ι → D → List ℝ) (t : ι) : ℝ :=
  ((agents.filter fun a => decide (a.market = t)).map fun a => a.weight.getD 0 * (prob t a.data).sum).sum

/-- The observed inside share of a market. -/
noncomputable def inside (products : List (ι × ℝ)) (t : ι) : ℝ :=
  ((products.filter fun p => decide (p.1 = t)).map Prod.snd).sum

/-- The sum of powers of numbers. -/
noncomputable def powerSum (k : ℕ) (w : List ℝ) : ℝ := (w.map (· ^ k)).sum

end Spec

/-! ## Rows that are kept -/

theorem keepSampled_eq (agents : List (SamplingAgent ι D)) (w : Fin agents.length → ℝ) :
    keepSampled agents w = ((List.finRange agents.length).filter fun i => decide (0 < w i)).map
      fun i => { agents.get i with weight := some (w i) } := by
  unfold keepSampled
  rw [List.filter_map]
  rfl

theorem sum_keepSampled (agents : List (SamplingAgent ι D)) (w : Fin agents.length → ℝ) (t : ι) (φ : SamplingAgent ι D → ℝ) :
    (((keepSampled agents w).filter fun a => decide (a.market = t)).map φ).sum =
      ∑ i with (agents.get i).market = t ∧ 0 < w i, φ { agents.get i with weight := some (w i) } := by
  rw [keepSampled_eq, List.filter_map, List.filter_filter, List.map_map,
    ← sum_filter_list (fun i : Fin agents.length => (agents.get i).market = t ∧ 0 < w i)]
  congr 1
  congr 1
  apply List.filter_congr
  intro i _
  simp

theorem length_keepSampled (agents : List (SamplingAgent ι D)) (w : Fin agents.length → ℝ) (t : ι) :
    ((keepSampled agents w).filter fun a => decide (a.market = t)).length =
      (Finset.univ.filter fun i : Fin agents.length => (agents.get i).market = t ∧ 0 < w i).card := by
  rw [keepSampled_eq, List.filter_map, List.filter_filter, List.length_map,
    ← List.toFinset_card_of_nodup ((List.nodup_finRange _).filter _)]
  congr 1
  ext i
  simp

/-! ## Power sums -/

theorem powerSum_eq (k : ℕ) (w : List ℝ) : powerSum k w = ∑ i : Fin w.length, w.get i ^ k := by
  unfold powerSum
  simp only [List.get_eq_getElem]
  rw [← List.sum_ofFn]
  congr 1
  apply List.ext_getElem
  · simp
  · intro n h1 h2
    simp

theorem powerSum_bounds (w : List ℝ) (hw : ∀ x ∈ w, 0 < x) (hne : w ≠ []) :
    0 < powerSum 1 w ∧ 0 < powerSum 2 w ∧ 0 < powerSum 3 w ∧ 0 < powerSum 4 w ∧
    powerSum 2 w ≤ powerSum 1 w ^ 2 ∧ powerSum 1 w ^ 2 ≤ w.length * powerSum 2 w ∧
    powerSum 4 w ≤ powerSum 2 w ^ 2 ∧ powerSum 2 w ^ 2 ≤ w.length * powerSum 4 w ∧
    powerSum 3 w ^ 2 ≤ powerSum 2 w ^ 3 ∧ powerSum 2 w ^ 3 ≤ w.length * powerSum 3 w ^ 2 := by
  have hpos : ∀ i : Fin w.length, 0 < w.get i := fun i => hw _ (List.get_mem _ _)
  have : Nonempty (Fin w.length) := ⟨⟨0, List.length_pos_iff.2 hne⟩⟩
  have hS : ∀ k, 0 < powerSum k w := fun k => by
    rw [powerSum_eq]
    exact Finset.sum_pos (fun i _ => pow_pos (hpos i) k) Finset.univ_nonempty
  have hle : ∀ k, powerSum (2 * k) w ≤ powerSum k w ^ 2 := fun k => by
    rw [powerSum_eq, powerSum_eq]
    calc ∑ i, w.get i ^ (2 * k) = ∑ i, (w.get i ^ k) ^ 2 := by
          refine Finset.sum_congr rfl fun i _ => ?_
          rw [← pow_mul, mul_comm]
      _ ≤ _ := Finset.sum_sq_le_sq_sum_of_nonneg fun i _ => (pow_pos (hpos i) k).le
  have hge : ∀ k, powerSum k w ^ 2 ≤ w.length * powerSum (2 * k) w := fun k => by
    rw [powerSum_eq, powerSum_eq]
    calc (∑ i, w.get i ^ k) ^ 2 ≤ (Finset.univ : Finset (Fin w.length)).card * ∑ i, (w.get i ^ k) ^ 2 := sq_sum_le_card_mul_sum_sq
      _ = _ := by
          rw [Finset.card_univ, Fintype.card_fin]
          congr 1
          refine Finset.sum_congr rfl fun i _ => ?_
          rw [← pow_mul, mul_comm]
  have h13 : powerSum 2 w ^ 2 ≤ powerSum 1 w * powerSum 3 w := by
    rw [powerSum_eq, powerSum_eq, powerSum_eq]
    refine Finset.sum_sq_le_sum_mul_sum_of_sq_le_mul _ (fun i _ => (pow_pos (hpos i) 1).le) (fun i _ => (pow_pos (hpos i) 3).le) ?_
    intro i _
    exact le_of_eq (by ring)
  have h24 : powerSum 3 w ^ 2 ≤ powerSum 2 w * powerSum 4 w := by
    rw [powerSum_eq, powerSum_eq, powerSum_eq]
    refine Finset.sum_sq_le_sum_mul_sum_of_sq_le_mul _ (fun i _ => (pow_pos (hpos i) 2).le) (fun i _ => (pow_pos (hpos i) 4).le) ?_
    intro i _
    exact le_of_eq (by ring)
  refine ⟨hS 1, hS 2, hS 3, hS 4, hle 1, hge 1, hle 2, hge 2, ?_, ?_⟩
  · calc _ ≤ powerSum 2 w * powerSum 4 w := h24
      _ ≤ powerSum 2 w * powerSum 2 w ^ 2 := mul_le_mul_of_nonneg_left (hle 2) (hS 2).le
      _ = _ := by ring
  · have h1 : powerSum 2 w ^ 4 ≤ powerSum 2 w * (w.length * powerSum 3 w ^ 2) := by
      calc powerSum 2 w ^ 4 = (powerSum 2 w ^ 2) ^ 2 := by ring
        _ ≤ (powerSum 1 w * powerSum 3 w) ^ 2 := pow_le_pow_left₀ (by positivity) h13 2
        _ = powerSum 1 w ^ 2 * powerSum 3 w ^ 2 := by ring
        _ ≤ (w.length * powerSum 2 w) * powerSum 3 w ^ 2 := mul_le_mul_of_nonneg_right (hge 1) (by positivity)
        _ = _ := by ring
    have h2 : powerSum 2 w * powerSum 2 w ^ 3 ≤ powerSum 2 w * (w.length * powerSum 3 w ^ 2) := by
      calc _ = powerSum 2 w ^ 4 := by ring
        _ ≤ _ := h1
    exact le_of_mul_le_mul_left h2 (hS 2)

/-! ## C113 -/

theorem inside_getD (agents : List (SamplingAgent ι D)) (prob : ι → D → List ℝ) (products : List (ι × ℝ)) (i : Fin agents.length) :
    (importanceItem agents prob products (agents.get i).market).2.getD
      (position (fun i : Fin agents.length => (agents.get i).market) i) 0 = (prob (agents.get i).market (agents.get i).data).sum := by
  unfold importanceItem
  set ids := fun i : Fin agents.length => (agents.get i).market with hids
  have hmem : i ∈ indicesOf ids (ids i) := (mem_indicesOf ids (ids i) i).2 rfl
  have hlt := List.idxOf_lt_length_iff.2 hmem
  have hget : (indicesOf ids (ids i))[(indicesOf ids (ids i)).idxOf i]? = some i := by
    rw [List.getElem?_eq_getElem hlt, List.getElem_idxOf]
  change (((indicesOf ids (ids i)).map fun j => (prob (ids i) (agents.get j).data).sum).getD (position ids i) 0) = _
  rw [← idxOf_indices, List.getD, List.getElem?_map, hget]
  rfl

/-- What a successful call implies, in terms of the weights. -/
theorem importance_ok (g : Generator σ) (seed : σ) (argsort : Argsort ι) (K2 N : ℕ) (draws : ℤ) (M : ℝ)
    (estimated : List ℝ) (delta : Option (List ℝ)) (agents : Except PyErr (List (SamplingAgent ι D)))
    (prob : List ℝ → ι → D → List ℝ) (products : List (ι × ℝ)) (order : List ι) (r : ImportanceResults ι D)
    (h : importanceSampling g seed argsort K2 N draws M estimated delta agents prob products order = .ok r) :
    K2 ≠ 0 ∧ 1 ≤ draws ∧ 1 ≤ M ∧ (∀ d, delta = some d → d.length = N) ∧
    ∃ rows w, agents = .ok rows ∧ r = importanceResults argsort (keepSampled rows w) draws ∧
      importanceWeights g seed draws.toNat M (fun i : Fin rows.length => (rows.get i).market)
        (order.map fun t => (t, importanceItem rows (prob (delta.getD estimated)) products t)) = .ok w := by
  unfold importanceSampling at h
  by_cases h1 : K2 = 0
  · rw [if_pos h1] at h; exact absurd h (by simp)
  rw [if_neg h1] at h
  by_cases h2 : draws < 1
  · rw [if_pos h2] at h; exact absurd h (by simp)
  rw [if_neg h2] at h
  by_cases h3 : M < 1
  · rw [if_pos h3] at h; exact absurd h (by simp)
  rw [if_neg h3] at h
  by_cases h4 : (delta.any fun d => decide (d.length ≠ N)) = true
  · rw [if_pos h4] at h; exact absurd h (by simp)
  rw [if_neg h4] at h
  refine ⟨h1, not_lt.1 h2, not_lt.1 h3, ?_, ?_⟩
  · rintro d rfl
    simpa using h4
  · cases agents with
    | error e => simp at h
    | ok rows =>
      simp only at h
      cases hw : importanceWeights g seed draws.toNat M (fun i : Fin rows.length => (rows.get i).market)
          (order.map fun t => (t, importanceItem rows (prob (delta.getD estimated)) products t)) with
      | error e => rw [hw] at h; exact absurd h (by simp [Except.map])
      | ok w =>
        rw [hw] at h
        exact ⟨rows, w, rfl, (Except.ok.inj h).symm, hw⟩

/-- Every market that is done has its `draws` agents. -/
theorem importance_market (g : Generator σ) (hg : g.Valid) (seed : σ) (draws : ℤ) (hd : 1 ≤ draws) (M : ℝ) (hM : 1 ≤ M)
    (rows : List (SamplingAgent ι D)) (prob : ι → D → List ℝ) (products : List (ι × ℝ)) (order : List ι) (hnd : order.Nodup)
    (horder : ∀ t, t ∈ order ↔ ∃ p ∈ products, p.1 = t) (hmarkets : ∀ t, (∃ p ∈ products, p.1 = t) ↔ ∃ a ∈ rows, a.market = t)
    (hshares : ∀ p ∈ products, 0 < p.2) (w : Fin rows.length → ℝ)
    (hw : importanceWeights g seed draws.toNat M (fun i : Fin rows.length => (rows.get i).market)
      (order.map fun t => (t, importanceItem rows prob products t)) = .ok w) (t : ι) (ht : ∃ p ∈ products, p.1 = t) :
    ((keepSampled rows w).filter fun a => decide (a.market = t)).length = draws.toNat ∧
    (∀ i, (rows.get i).market = t → w i ≠ 0 → 0 < w i ∧ 0 < (prob t (rows.get i).data).sum) ∧
    predictedInside (keepSampled rows w) prob t = Spec.inside products t := by
  set ids := fun i : Fin rows.length => (rows.get i).market with hids
  have hex : ∀ t, (∃ p ∈ products, p.1 = t) ↔ ∃ i, ids i = t := by
    intro t
    rw [hmarkets]
    constructor
    · rintro ⟨a, ha, rfl⟩
      obtain ⟨i, rfl⟩ := List.get_of_mem ha
      exact ⟨i, rfl⟩
    · rintro ⟨i, rfl⟩
      exact ⟨rows.get i, List.get_mem _ _, rfl⟩
  have hperm : order.Perm (uniqueIds ids) := by
    rw [List.perm_ext_iff_of_nodup hnd (nodup_uniqueIds _)]
    intro t
    rw [horder, hex, mem_uniqueIds]
  -- markets without products do not matter, and others have positive shares
  have hobs : ∀ t, (∃ p ∈ products, p.1 = t) → 0 < observedInside products t := by
    rintro t ⟨p, hp, rfl⟩
    unfold observedInside
    refine List.sum_pos _ ?_ ?_
    · intro x hx
      obtain ⟨q, hq, rfl⟩ := List.mem_map.1 hx
      exact hshares q (List.mem_filter.1 hq).1
    · intro hnil
      have : p.2 ∈ (products.filter fun q => decide (q.1 = p.1)).map Prod.snd :=
        List.mem_map.2 ⟨p, List.mem_filter.2 ⟨hp, by simp⟩, rfl⟩
      rw [hnil] at this
      simp at this
  have hgen : Generated (some 0) (uniqueIds ids)
      (fun t => ((fun t => if ∃ p ∈ products, p.1 = t then observedInside products t else 1) t, (importanceItem rows prob products t).2))
      (order.map fun t => (t, importanceItem rows prob products t)) := by
    refine List.Perm.trans (List.Perm.of_eq ?_) (hperm.map _)
    apply List.map_congr_left
    intro t ht
    have : ∃ p ∈ products, p.1 = t := (horder t).1 ht
    simp only [if_pos this]
    rfl
  have hC := C12_weights g hg seed draws.toNat (by omega) M hM (some 0) ids
    (fun t => if ∃ p ∈ products, p.1 = t then observedInside products t else 1) (fun t => (importanceItem rows prob products t).2)
    (by
      intro t
      by_cases ht : ∃ p ∈ products, p.1 = t
      · simp only [if_pos ht]; exact hobs t ht
      · simp only [if_neg ht]; exact one_pos)
    (by
      intro t
      unfold importanceItem
      rw [List.length_map, indicesOf_eq, ← List.toFinset_card_of_nodup ((List.nodup_finRange _).filter _)]
      congr 1
      ext i
      simp [hids])
    _ hgen w hw t ((mem_uniqueIds _ _).2 ((hex t).1 ht))
  obtain ⟨hcard, hpos, hsum⟩ := hC
  have hget : ∀ i, ids i = t → (importanceItem rows prob products t).2.getD (position ids i) 0 = (prob t (rows.get i).data).sum := by
    rintro i rfl
    exact inside_getD rows prob products i
  refine ⟨?_, ?_, ?_⟩
  · rw [length_keepSampled]
    exact hcard
  · intro i hi hwi
    have := hpos i hi hwi
    rw [hget i hi] at this
    exact this
  · unfold predictedInside
    rw [sum_keepSampled]
    simp only [if_pos ht] at hsum
    change _ = observedInside products t
    rw [← hsum, ← Finset.filter_filter, Finset.sum_filter]
    apply Finset.sum_congr rfl
    intro i hi
    have hi' : ids i = t := (Finset.mem_filter.1 hi).2
    rw [hget i hi']
    by_cases hwi : 0 < w i
    · rw [if_pos hwi]; rfl
    · rw [if_neg hwi]
      have : w i = 0 := by
        by_contra hne
        exact hwi (hpos i hi' hne).1
      rw [this, zero_mul]

/-- **C113.** A call with positive shares and agents for the markets of products, for every order in which markets finish. If it
returns, then: sampled agents are candidate ones in their order, with everything but weights unchanged; every weight is positive;
in every market there are exactly `draws` of them; and with them, at the mean utilities that are used, the predicted inside share of
every market is the observed one. -/
theorem C113_sampled (g : Generator σ) (hg : g.Valid) (seed : σ) (argsort : Argsort ι) (K2 N : ℕ) (draws : ℤ) (M : ℝ)
    (estimated : List ℝ) (delta : Option (List ℝ)) (rows : List (SamplingAgent ι D)) (prob : List ℝ → ι → D → List ℝ)
    (products : List (ι × ℝ)) (order : List ι) (hnd : order.Nodup) (horder : ∀ t, t ∈ order ↔ ∃ p ∈ products, p.1 = t)
    (hmarkets : ∀ t, (∃ p ∈ products, p.1 = t) ↔ ∃ a ∈ rows, a.market = t) (hshares : ∀ p ∈ products, 0 < p.2)
    (r : ImportanceResults ι D)
    (h : importanceSampling g seed argsort K2 N draws M estimated delta (.ok rows) prob products order = .ok r) :
    (r.sampled.map fun a => (a.market, a.data)).Sublist (rows.map fun a => (a.market, a.data)) ∧
    (∀ a ∈ r.sampled, ∃ w, a.weight = some w ∧ 0 < w) ∧
    ∀ t, (∃ p ∈ products, p.1 = t) →
      ((r.sampled.filter fun a => decide (a.market = t)).length : ℤ) = draws ∧
      predictedInside r.sampled (prob (delta.getD estimated)) t = Spec.inside products t := by
  obtain ⟨-, hd, hM, -, rows', w, hrows, rfl, hw⟩ := importance_ok g seed argsort K2 N draws M estimated delta (.ok rows) prob
    products order r h
  cases hrows
  refine ⟨?_, ?_, ?_⟩
  · change ((keepSampled rows w).map fun a => (a.market, a.data)).Sublist _
    rw [keepSampled_eq, List.map_map]
    have : rows.map (fun a => (a.market, a.data)) = (List.finRange rows.length).map
        fun i => ((rows.get i).market, (rows.get i).data) := by
      conv_lhs => rw [← List.map_get_finRange rows, List.map_map]
      rfl
    rw [this]
    exact List.filter_sublist.map _
  · intro a ha
    change a ∈ keepSampled rows w at ha
    rw [keepSampled_eq] at ha
    obtain ⟨i, hi, rfl⟩ := List.mem_map.1 ha
    exact ⟨w i, rfl, of_decide_eq_true (List.mem_filter.1 hi).2⟩
  · intro t ht
    obtain ⟨h1, -, h3⟩ := importance_market g hg seed draws hd M hM rows (prob (delta.getD estimated)) products order hnd horder
      hmarkets hshares w hw t ht
    refine ⟨?_, h3⟩
    change (((keepSampled rows w).filter fun a => decide (a.market = t)).length : ℤ) = draws
    rw [h1]
    omega

/-- **C113.** There are as many sampled agents as `draws` times the number of markets. -/
theorem C113_total (g : Generator σ) (hg : g.Valid) (seed : σ) (argsort : Argsort ι) (K2 N : ℕ) (draws : ℤ) (M : ℝ)
    (estimated : List ℝ) (delta : Option (List ℝ)) (rows : List (SamplingAgent ι D)) (prob : List ℝ → ι → D → List ℝ)
    (products : List (ι × ℝ)) (order : List ι) (hnd : order.Nodup) (horder : ∀ t, t ∈ order ↔ ∃ p ∈ products, p.1 = t)
    (hmarkets : ∀ t, (∃ p ∈ products, p.1 = t) ↔ ∃ a ∈ rows, a.market = t) (hshares : ∀ p ∈ products, 0 < p.2)
    (r : ImportanceResults ι D)
    (h : importanceSampling g seed argsort K2 N draws M estimated delta (.ok rows) prob products order = .ok r) :
    (r.sampled.length : ℤ) = order.length * draws := by
  obtain ⟨hsub, -, hcount⟩ := C113_sampled g hg seed argsort K2 N draws M estimated delta rows prob products order hnd horder
    hmarkets hshares r h
  have hin : ∀ a ∈ r.sampled, a.market ∈ order := by
    intro a ha
    have : (a.market, a.data) ∈ rows.map fun a => (a.market, a.data) := hsub.subset (List.mem_map.2 ⟨a, ha, rfl⟩)
    obtain ⟨b, hb, hab⟩ := List.mem_map.1 this
    rw [horder, hmarkets]
    exact ⟨b, hb, congrArg Prod.fst hab⟩
  have key : ∀ (l : List ι), l.Nodup → (∀ t ∈ l, t ∈ order) → ∀ s : List (SamplingAgent ι D), (∀ a ∈ s, a.market ∈ l) →
      (∀ t ∈ l, ((s.filter fun a => decide (a.market = t)).length : ℤ) = draws) → (s.length : ℤ) = l.length * draws := by
    intro l
    induction l with
    | nil =>
      intro _ _ s hs _
      have : s = [] := List.eq_nil_iff_forall_not_mem.2 fun a ha => by simpa using hs a ha
      simp [this]
    | cons t l ih =>
      intro hl hlo s hs hc
      obtain ⟨htl, hl'⟩ := List.nodup_cons.1 hl
      have h1 := ih hl' (fun u hu => hlo u (List.mem_cons_of_mem _ hu)) (s.filter fun a => !decide (a.market = t))
        (by
          intro a ha
          obtain ⟨ha1, ha2⟩ := List.mem_filter.1 ha
          exact (List.mem_cons.1 (hs a ha1)).resolve_left (by simpa using ha2))
        (by
          intro u hu
          rw [← hc u (List.mem_cons_of_mem _ hu), List.filter_filter]
          congr 2
          apply List.filter_congr
          intro a _
          by_cases hau : a.market = u
          · have : ¬ a.market = t := fun hat => htl (by rw [← hat, hau]; exact hu)
            simp [hau]
            rintro rfl
            exact htl hu
          · simp [hau])
      have h2 := hc t List.mem_cons_self
      have h3 : s.length = (s.filter fun a => decide (a.market = t)).length + (s.filter fun a => !decide (a.market = t)).length :=
        List.length_eq_length_filter_add _
      rw [h3]
      push_cast
      rw [h1, h2, List.length_cons]
      push_cast
      ring
  exact key order hnd (fun t ht => ht) r.sampled hin fun t ht => (hcount t ((horder t).1 ht)).1

theorem group_sum (argsort : Argsort ι) (ha : ∀ n ids, IsArgsort ids (argsort n ids)) (l : List (SamplingAgent ι D)) (k : ℕ) :
    (Groups.mk' (fun i : Fin l.length => (l.get i).market) (argsort l.length fun i : Fin l.length => (l.get i).market)).sum
      (fun i : Fin l.length => (l.get i).value ^ k) =
      ((l.map fun a => a.market).toFinset.sort (· ≤ ·)).map fun t => powerSum k (weightsOf l t) := by
  rw [C06_sum _ _ (ha _ _)]
  have himg : Finset.univ.image (fun i : Fin l.length => (l.get i).market) = (l.map fun a => a.market).toFinset := by
    ext t
    simp only [Finset.mem_image, Finset.mem_univ, true_and, List.mem_toFinset, List.mem_map]
    constructor
    · rintro ⟨i, rfl⟩
      exact ⟨l.get i, List.get_mem _ _, rfl⟩
    · rintro ⟨a, ha, rfl⟩
      obtain ⟨i, rfl⟩ := List.get_of_mem ha
      exact ⟨i, rfl⟩
  rw [himg]
  apply List.map_congr_left
  intro t _
  rw [← sum_filter_list (fun i : Fin l.length => (l.get i).market = t)]
  unfold powerSum weightsOf
  rw [List.map_map]
  conv_rhs => rw [← List.map_get_finRange l, List.filter_map, List.map_map]
  rfl

theorem group_unique (argsort : Argsort ι) (ha : ∀ n ids, IsArgsort ids (argsort n ids)) (l : List (SamplingAgent ι D)) :
    (Groups.mk' (fun i : Fin l.length => (l.get i).market) (argsort l.length fun i : Fin l.length => (l.get i).market)).unique =
      (l.map fun a => a.market).toFinset.sort (· ≤ ·) := by
  rw [C06_unique _ _ (ha _ _)]
  congr 1
  ext t
  simp only [Finset.mem_image, Finset.mem_univ, true_and, List.mem_toFinset, List.mem_map]
  constructor
  · rintro ⟨i, rfl⟩
    exact ⟨l.get i, List.get_mem _ _, rfl⟩
  · rintro ⟨a, ha, rfl⟩
    obtain ⟨i, rfl⟩ := List.get_of_mem ha
    exact ⟨i, rfl⟩

/-- **C113.** Diagnostics: their markets are those of products in order; weight sums and numbers of effective draws are the
documented functions of weights of sampled agents in each market; numbers of effective draws are at least one and at most `draws`;
and if probabilities of each agent sum to no more than one, weights sum to no less than the inside share. -/
theorem C113_diagnostics (g : Generator σ) (hg : g.Valid) (seed : σ) (argsort : Argsort ι)
    (ha : ∀ n ids, IsArgsort ids (argsort n ids)) (K2 N : ℕ) (draws : ℤ) (M : ℝ)
    (estimated : List ℝ) (delta : Option (List ℝ)) (rows : List (SamplingAgent ι D)) (prob : List ℝ → ι → D → List ℝ)
    (products : List (ι × ℝ)) (order : List ι) (hnd : order.Nodup) (horder : ∀ t, t ∈ order ↔ ∃ p ∈ products, p.1 = t)
    (hmarkets : ∀ t, (∃ p ∈ products, p.1 = t) ↔ ∃ a ∈ rows, a.market = t) (hshares : ∀ p ∈ products, 0 < p.2)
    (r : ImportanceResults ι D)
    (h : importanceSampling g seed argsort K2 N draws M estimated delta (.ok rows) prob products order = .ok r) :
    r.draws = draws ∧
    r.marketIds = (products.map Prod.fst).toFinset.sort (· ≤ ·) ∧
    r.weightSums = r.marketIds.map (fun t => (weightsOf r.sampled t).sum) ∧
    r.effective = r.marketIds.map (fun t => (weightsOf r.sampled t).sum ^ 2 / powerSum 2 (weightsOf r.sampled t)) ∧
    r.forVariance = r.marketIds.map
      (fun t => powerSum 2 (weightsOf r.sampled t) ^ 2 / powerSum 4 (weightsOf r.sampled t)) ∧
    r.forSkewness = r.marketIds.map
      (fun t => powerSum 2 (weightsOf r.sampled t) ^ 3 / powerSum 3 (weightsOf r.sampled t) ^ 2) ∧
    (∀ x, x ∈ r.effective ∨ x ∈ r.forVariance ∨ x ∈ r.forSkewness → 1 ≤ x ∧ x ≤ draws) ∧
    ((∀ t d, (prob (delta.getD estimated) t d).sum ≤ 1) →
      ∀ t ∈ r.marketIds, Spec.inside products t ≤ (weightsOf r.sampled t).sum) := by
  obtain ⟨hsub, hpos, hcount⟩ := C113_sampled g hg seed argsort K2 N draws M estimated delta rows prob products order hnd horder
    hmarkets hshares r h
  obtain ⟨-, hd, hM, -, rows', w, hrows, hr, hw⟩ := importance_ok g seed argsort K2 N draws M estimated delta (.ok rows) prob
    products order r h
  cases hrows
  set l := keepSampled rows w with hl
  have hsam : r.sampled = l := by rw [hr]; rfl
  have hp1 : ∀ t, powerSum 1 (weightsOf l t) = (weightsOf l t).sum := by
    intro t
    unfold powerSum
    congr 1
    conv_rhs => rw [← List.map_id (weightsOf l t)]
    exact List.map_congr_left fun x _ => pow_one x
  have hids : r.marketIds = (l.map fun a => a.market).toFinset.sort (· ≤ ·) := by
    rw [hr]; exact group_unique argsort ha l
  have hsum : ∀ k, _ := fun k => group_sum argsort ha l k
  have hw1 : r.weightSums = r.marketIds.map fun t => (weightsOf r.sampled t).sum := by
    rw [hids, hsam, hr]
    have := hsum 1
    simp only [pow_one] at this
    refine this.trans (List.map_congr_left fun t _ => hp1 t)
  have hmem : ∀ t, t ∈ r.marketIds ↔ ∃ p ∈ products, p.1 = t := by
    intro t
    rw [hids, Finset.mem_sort, List.mem_toFinset, List.mem_map]
    constructor
    · rintro ⟨a, hal, rfl⟩
      rw [hmarkets]
      have : (a.market, a.data) ∈ rows.map fun a => (a.market, a.data) := by
        refine hsub.subset (List.mem_map.2 ⟨a, ?_, rfl⟩)
        rw [hsam]; exact hal
      obtain ⟨b, hb, hab⟩ := List.mem_map.1 this
      exact ⟨b, hb, congrArg Prod.fst hab⟩
    · intro ht
      have h1 := (hcount t ht).1
      rw [hsam] at h1
      have hne : (l.filter fun a => decide (a.market = t)) ≠ [] := by
        intro hnil
        rw [hnil] at h1
        simp at h1
        omega
      obtain ⟨a, ha⟩ := List.exists_mem_of_ne_nil _ hne
      exact ⟨a, (List.mem_filter.1 ha).1, of_decide_eq_true (List.mem_filter.1 ha).2⟩
  have heff : r.effective = r.marketIds.map
      (fun t => (weightsOf r.sampled t).sum ^ 2 / powerSum 2 (weightsOf r.sampled t)) := by
    have : r.effective = List.zipWith (fun a b => a ^ 2 / b) r.weightSums (r.marketIds.map fun t => powerSum 2 (weightsOf l t)) := by
      rw [hids, ← hsum 2, hr]; rfl
    rw [this, hw1, hsam, List.zipWith_map, List.zipWith_self]
  have hvar : r.forVariance = r.marketIds.map
      (fun t => powerSum 2 (weightsOf r.sampled t) ^ 2 / powerSum 4 (weightsOf r.sampled t)) := by
    have : r.forVariance = List.zipWith (fun a b => a ^ 2 / b) (r.marketIds.map fun t => powerSum 2 (weightsOf l t))
        (r.marketIds.map fun t => powerSum 4 (weightsOf l t)) := by
      rw [hids, ← hsum 2, ← hsum 4, hr]; rfl
    rw [this, hsam, List.zipWith_map, List.zipWith_self]
  have hskew : r.forSkewness = r.marketIds.map
      (fun t => powerSum 2 (weightsOf r.sampled t) ^ 3 / powerSum 3 (weightsOf r.sampled t) ^ 2) := by
    have : r.forSkewness = List.zipWith (fun a b => a ^ 3 / b ^ 2) (r.marketIds.map fun t => powerSum 2 (weightsOf l t))
        (r.marketIds.map fun t => powerSum 3 (weightsOf l t)) := by
      rw [hids, ← hsum 2, ← hsum 3, hr]; rfl
    rw [this, hsam, List.zipWith_map, List.zipWith_self]
  have hposw : ∀ t, ∀ x ∈ weightsOf r.sampled t, 0 < x := by
    intro t x hx
    obtain ⟨a, ha, rfl⟩ := List.mem_map.1 hx
    obtain ⟨v, hv, hv0⟩ := hpos a (List.mem_filter.1 ha).1
    rw [hv]; exact hv0
  have hlen : ∀ t ∈ r.marketIds, ((weightsOf r.sampled t).length : ℤ) = draws := by
    intro t ht
    unfold weightsOf
    rw [List.length_map]
    exact (hcount t ((hmem t).1 ht)).1
  have hbounds : ∀ t ∈ r.marketIds, _ := fun t ht => powerSum_bounds (weightsOf r.sampled t) (hposw t) (by
    intro hnil
    have := hlen t ht
    rw [hnil] at this
    simp at this
    omega)
  have hlenR : ∀ t ∈ r.marketIds, ((weightsOf r.sampled t).length : ℝ) = (draws : ℝ) := by
    intro t ht
    exact_mod_cast congrArg (fun z : ℤ => (z : ℝ)) (hlen t ht)
  refine ⟨by rw [hr]; rfl, ?_, hw1, heff, hvar, hskew, ?_, ?_⟩
  · rw [hids]
    congr 1
    ext t
    have := hmem t
    rw [hids, Finset.mem_sort] at this
    rw [this, List.mem_toFinset, List.mem_map]
  · intro x hx
    rcases hx with hx | hx | hx
    · rw [heff] at hx
      obtain ⟨t, ht, rfl⟩ := List.mem_map.1 hx
      obtain ⟨-, p2, -, -, h1, h2, -⟩ := hbounds t ht
      have hp := hp1 t
      rw [← hsam] at hp
      rw [hp, hlenR t ht] at h2
      rw [hp] at h1
      exact ⟨(one_le_div p2).2 h1, (div_le_iff₀ p2).2 h2⟩
    · rw [hvar] at hx
      obtain ⟨t, ht, rfl⟩ := List.mem_map.1 hx
      obtain ⟨-, -, -, p4, -, -, h1, h2, -⟩ := hbounds t ht
      rw [hlenR t ht] at h2
      exact ⟨(one_le_div p4).2 h1, (div_le_iff₀ p4).2 h2⟩
    · rw [hskew] at hx
      obtain ⟨t, ht, rfl⟩ := List.mem_map.1 hx
      obtain ⟨-, -, p3, -, -, -, -, -, h1, h2⟩ := hbounds t ht
      rw [hlenR t ht] at h2
      have p3' : 0 < powerSum 3 (weightsOf r.sampled t) ^ 2 := by positivity
      exact ⟨(one_le_div p3').2 h1, (div_le_iff₀ p3').2 h2⟩
  · intro hprob t ht
    rw [← (hcount t ((hmem t).1 ht)).2]
    unfold predictedInside weightsOf
    apply List.sum_le_sum
    intro a ha
    obtain ⟨v, hv, hv0⟩ := hpos a (List.mem_filter.1 ha).1
    rw [hv]
    exact (mul_le_mul_of_nonneg_left (hprob t a.data) hv0.le).trans_eq (mul_one _)

/-- **C113.** What is accepted: without random coefficients, with fewer than one draw, with an accept-reject constant below one or
with mean utilities of the wrong length there is a `ValueError`. Otherwise, errors are those of constructing agents, or there are
too few accepted agents. -/
theorem C113_accepts (g : Generator σ) (seed : σ) (argsort : Argsort ι) (K2 N : ℕ) (draws : ℤ) (M : ℝ)
    (estimated : List ℝ) (delta : Option (List ℝ)) (agents : Except PyErr (List (SamplingAgent ι D)))
    (prob : List ℝ → ι → D → List ℝ) (products : List (ι × ℝ)) (order : List ι) :
    ((K2 = 0 ∨ draws < 1 ∨ M < 1 ∨ ∃ d, delta = some d ∧ d.length ≠ N) →
      importanceSampling g seed argsort K2 N draws M estimated delta agents prob products order = .error .valueError) ∧
    (¬ (K2 = 0 ∨ draws < 1 ∨ M < 1 ∨ ∃ d, delta = some d ∧ d.length ≠ N) →
      (∀ e, agents = .error e →
        importanceSampling g seed argsort K2 N draws M estimated delta agents prob products order = .error e) ∧
      (∀ rows, agents = .ok rows →
        importanceSampling g seed argsort K2 N draws M estimated delta agents prob products order = .error .runtimeError ∨
        ∃ r, importanceSampling g seed argsort K2 N draws M estimated delta agents prob products order = .ok r)) := by
  have hany : (delta.any fun d => decide (d.length ≠ N)) = true ↔ ∃ d, delta = some d ∧ d.length ≠ N := by
    cases delta <;> simp
  constructor
  · intro hbad
    unfold importanceSampling
    by_cases h1 : K2 = 0
    · rw [if_pos h1]
    rw [if_neg h1]
    by_cases h2 : draws < 1
    · rw [if_pos h2]
    rw [if_neg h2]
    by_cases h3 : M < 1
    · rw [if_pos h3]
    rw [if_neg h3, if_pos]
    rw [hany]
    exact ((hbad.resolve_left h1).resolve_left h2).resolve_left h3
  · intro hok
    rw [not_or, not_or, not_or, ← hany] at hok
    obtain ⟨h1, h2, h3, h4⟩ := hok
    unfold importanceSampling
    rw [if_neg h1, if_neg h2, if_neg h3, if_neg h4]
    refine ⟨?_, ?_⟩
    · rintro e rfl; rfl
    · rintro rows rfl
      simp only
      have hloop : ∀ (items : List (ι × (ℝ × List ℝ))) (s : σ), importanceLoop g draws.toNat M items s = .error .runtimeError ∨
          ∃ ws, importanceLoop g draws.toNat M items s = .ok ws := by
        intro items
        induction items with
        | nil => intro s; exact Or.inr ⟨_, rfl⟩
        | cons p items ih =>
          intro s
          obtain ⟨t, share, ins⟩ := p
          unfold importanceLoop
          cases hm : importanceMarket g draws.toNat M share ins s with
          | error e =>
            left
            unfold importanceMarket at hm
            dsimp only at hm
            split at hm
            · cases hm; rfl
            · exact absurd hm (by simp)
          | ok q =>
            obtain ⟨w, s'⟩ := q
            simp only
            rcases ih s' with h | ⟨ws, h⟩
            · left; rw [h]
            · right; rw [h]; exact ⟨_, rfl⟩
      unfold importanceWeights
      rcases hloop (order.map fun t => (t, importanceItem rows (prob (delta.getD estimated)) products t)) seed with h | ⟨ws, h⟩
      · left; rw [h]; rfl
      · right; rw [h]; exact ⟨_, rfl⟩

/-- What importance sampling does with `n` candidate agents. -/
noncomputable def importanceAux (g : Generator σ) (seed : σ) (argsort : Argsort ι) (draws : ℤ) (M : ℝ) (n : ℕ)
    (f : Fin n → SamplingAgent ι D) (prob : ι → D → List ℝ) (products : List (ι × ℝ)) (order : List ι) :
    Except PyErr (ImportanceResults ι D) :=
  (importanceWeights g seed draws.toNat M (fun i => (f i).market) (order.map fun t => (t, (observedInside products t,
    (indicesOf (fun i => (f i).market) t).map fun i => (prob t (f i).data).sum)))).map
    fun weights => importanceResults argsort (((List.finRange n).map fun i =>
      { f i with weight := some (weights i) }).filter fun a => decide (0 < a.value)) draws

theorem importanceAux_congr (g : Generator σ) (seed : σ) (argsort : Argsort ι) (draws : ℤ) (M : ℝ) (n m : ℕ) (h : n = m)
    (f : Fin n → SamplingAgent ι D) (f' : Fin m → SamplingAgent ι D) (prob : ι → D → List ℝ) (products : List (ι × ℝ))
    (order : List ι) (hf : ∀ i, (f i).market = (f' (Fin.cast h i)).market ∧ (f i).data = (f' (Fin.cast h i)).data) :
    importanceAux g seed argsort draws M n f prob products order = importanceAux g seed argsort draws M m f' prob products order := by
  subst h
  have h1 : (fun i => (f i).market) = fun i => (f' i).market := funext fun i => (hf i).1
  have h2 : ∀ t, (fun i => (prob t (f i).data).sum) = fun i => (prob t (f' i).data).sum := fun t =>
    funext fun i => by rw [(hf i).2]; rfl
  have h3 : ∀ (w : Fin n → ℝ), (fun i => ({ f i with weight := some (w i) } : SamplingAgent ι D)) =
      fun i => { f' i with weight := some (w i) } := fun w => funext fun i => by
    obtain ⟨ha, hb⟩ := hf i
    change SamplingAgent.mk _ _ _ = SamplingAgent.mk _ _ _
    rw [ha, hb]
    rfl
  unfold importanceAux
  simp only [h1, h2, h3]

/-- **C113.** The weights of candidate agents do not matter: sampled agents and diagnostics are the same for candidate agents that
differ only in weights, missing ones included. -/
theorem C113_weights (g : Generator σ) (seed : σ) (argsort : Argsort ι) (K2 N : ℕ) (draws : ℤ) (M : ℝ)
    (estimated : List ℝ) (delta : Option (List ℝ)) (rows : List (SamplingAgent ι D)) (weight : SamplingAgent ι D → Option ℝ)
    (prob : List ℝ → ι → D → List ℝ) (products : List (ι × ℝ)) (order : List ι) :
    importanceSampling g seed argsort K2 N draws M estimated delta (.ok (rows.map fun a => { a with weight := weight a })) prob
      products order =
    importanceSampling g seed argsort K2 N draws M estimated delta (.ok rows) prob products order := by
  have haux : ∀ l : List (SamplingAgent ι D), (importanceWeights g seed draws.toNat M
      (fun i : Fin l.length => (l.get i).market)
      (order.map fun t => (t, importanceItem l (prob (delta.getD estimated)) products t))).map
      (fun weights => importanceResults argsort (keepSampled l weights) draws) =
      importanceAux g seed argsort draws M l.length l.get (prob (delta.getD estimated)) products order := fun l => rfl
  unfold importanceSampling
  simp only
  rw [haux, haux, importanceAux_congr g seed argsort draws M _ _ (List.length_map _) _ rows.get]
  intro i
  simp

/-- **C113.** The re-created problem has sampled agents in place of the original ones and everything else of the original problem,
and with its agents, at the mean utilities that were used, predicted inside shares are observed ones. -/
theorem C113_problem (g : Generator σ) (hg : g.Valid) (seed : σ) (argsort : Argsort ι) (K2 N : ℕ) (draws : ℤ) (M : ℝ)
    (estimated : List ℝ) (delta : Option (List ℝ)) (problem : SamplingProblem ι D P) (prob : List ℝ → ι → D → List ℝ)
    (products : List (ι × ℝ)) (order : List ι) (hnd : order.Nodup) (horder : ∀ t, t ∈ order ↔ ∃ p ∈ products, p.1 = t)
    (hmarkets : ∀ t, (∃ p ∈ products, p.1 = t) ↔ ∃ a ∈ problem.agents, a.market = t) (hshares : ∀ p ∈ products, 0 < p.2)
    (r : ImportanceResults ι D)
    (h : importanceSampling g seed argsort K2 N draws M estimated delta (.ok problem.agents) prob products order = .ok r) :
    (importanceProblem problem r).other = problem.other ∧
    (∀ a ∈ (importanceProblem problem r).agents, ∃ b ∈ problem.agents, a.market = b.market ∧ a.data = b.data) ∧
    ∀ t, (∃ p ∈ products, p.1 = t) →
      predictedInside (importanceProblem problem r).agents (prob (delta.getD estimated)) t = Spec.inside products t := by
  obtain ⟨hsub, -, hcount⟩ := C113_sampled g hg seed argsort K2 N draws M estimated delta problem.agents prob products order hnd
    horder hmarkets hshares r h
  refine ⟨rfl, ?_, fun t ht => (hcount t ht).2⟩
  intro a ha
  obtain ⟨b, hb, hab⟩ := List.mem_map.1 (hsub.subset (List.mem_map.2 ⟨a, ha, rfl⟩))
  exact ⟨b, hb, (congrArg Prod.fst hab).symm, (congrArg Prod.snd hab).symm⟩

/-- Four candidate agents in two markets, without weights. -/
def pairRows : List (SamplingAgent ℕ ℕ) := [⟨0, none, 5⟩, ⟨0, none, 6⟩, ⟨1, none, 7⟩, ⟨1, none, 8⟩]

/-- Three products in these two markets. -/
noncomputable def pairProducts : List (ℕ × ℝ) := [(0, 1 / 4), (0, 1 / 4), (1, 1 / 2)]

theorem pair_item (t : ℕ) (ht : t = 0 ∨ t = 1) : importanceItem pairRows (fun _ _ => [1 / 4, 1 / 4]) pairProducts t = (pairItem t).2 := by
  have h1 : observedInside pairProducts t = 1 / 2 := by
    unfold observedInside pairProducts
    rcases ht with rfl | rfl <;> norm_num [List.filter]
  have h2 : (indicesOf (fun i : Fin pairRows.length => (pairRows.get i).market) t).length = 2 := by
    rw [indicesOf_eq]
    rcases ht with rfl | rfl <;> rfl
  unfold importanceItem pairItem
  rw [h1]
  congr 1
  rw [List.map_const', h2]
  norm_num [List.replicate]

/-- Non-vacuity: a call that returns, for markets that finish in reverse order. -/
example : turnGenerator.Valid ∧ [1, 0].Nodup ∧ (∀ t : ℕ, t ∈ [1, 0] ↔ ∃ p ∈ pairProducts, p.1 = t) ∧
    (∀ t, (∃ p ∈ pairProducts, p.1 = t) ↔ ∃ a ∈ pairRows, a.market = t) ∧ (∀ p ∈ pairProducts, 0 < p.2) ∧
    ∃ (argsort : Argsort ℕ) (r : ImportanceResults ℕ ℕ), (∀ n ids, IsArgsort ids (argsort n ids)) ∧
      importanceSampling turnGenerator 0 argsort 1 3 1 1 [0, 0, 0] none (.ok pairRows) (fun _ _ _ => [1 / 4, 1 / 4]) pairProducts [1, 0] =
        .ok r := by
  refine ⟨turnGenerator_valid, by decide, ?_, ?_, ?_, fun n ids => stableArgsort ids, ?_⟩
  · intro t
    simp only [pairProducts, List.mem_cons, List.not_mem_nil, or_false, exists_eq_or_imp, exists_eq_left]
    tauto
  · intro t
    simp only [pairProducts, pairRows, List.mem_cons, List.not_mem_nil, or_false, exists_eq_or_imp, exists_eq_left]
    tauto
  · intro p hp
    simp only [pairProducts, List.mem_cons, List.not_mem_nil, or_false] at hp
    rcases hp with rfl | rfl | rfl <;> norm_num
  · have hl : importanceLoop turnGenerator 1 1 [pairItem 1, pairItem 0] 0 = .ok [(1, [1, 0]), (0, [0, 1])] := by
      simp only [importanceLoop, pairItem, turn_market]
      norm_num
    unfold importanceSampling
    rw [if_neg (by norm_num), if_neg (by norm_num), if_neg (by norm_num), if_neg (by simp)]
    simp only [List.map_cons, List.map_nil]
    rw [pair_item 1 (Or.inr rfl), pair_item 0 (Or.inl rfl)]
    unfold importanceWeights
    change ∃ r, _ ∧ Except.map _ (Except.map _ (importanceLoop turnGenerator 1 1 [pairItem 1, pairItem 0] 0)) = _
    rw [hl]
    exact ⟨_, fun n ids => stableArgsort_isArgsort ids, rfl⟩

end Pyblp
