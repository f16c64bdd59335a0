import Verif.Model.Agents
import Mathlib.Data.List.Basic

/-!
# Alignment of agent data (C68)
-/

set_option linter.unusedSectionVars false

namespace Pyblp

variable {M A B D V : Type} [LinearOrder M]

namespace Spec

/-- The agent in a row of agent data: everything in one row of the data. -/
def agentAt (d : AgentData M A B D V) (i : ℕ) : Option (AgentRow M A B D V) :=
  (d.markets[i]?).map fun t => ⟨t, d.agentIds.bind fun l => l[i]?, d.weights.bind fun l => l[i]?, d.nodes.bind fun l => l[i]?,
    d.demographics.bind fun l => l[i]?, d.availability.bind fun l => l[i]?⟩

/-- All fields have as many rows as market IDs. -/
structure SameLength (d : AgentData M A B D V) : Prop where
  agentIds : ∀ l ∈ d.agentIds, l.length = d.markets.length
  availability : ∀ l ∈ d.availability, l.length = d.markets.length
  demographics : ∀ l ∈ d.demographics, l.length = d.markets.length
  nodes : ∀ l ∈ d.nodes, l.length = d.markets.length
  weights : ∀ l ∈ d.weights, l.length = d.markets.length

/-- Elements of a column that are in rows of a market, in the order of the data. -/
def ofMarket {α : Type} (markets : List M) (column : List α) (t : M) : List α :=
  ((markets.zip column).filter fun p => decide (p.1 = t)).map Prod.snd

end Spec

/-! ## Structuring -/

theorem assignField_length {α : Type} {n : ℕ} {x : Option (List α)} {l : List (Option α)} (h : assignField n x = .ok l) :
    l.length = n := by
  unfold assignField at h
  split at h
  · cases h
    simp
  · split at h
    · cases h
      simpa
    · split at h
      · cases h
        simp
      · cases h

theorem assignField_same {α : Type} {n : ℕ} (x : Option (List α)) (h : ∀ l ∈ x, l.length = n) :
    ∃ l, assignField n x = .ok l ∧ ∀ i, i < n → (l[i]?).join = x.bind fun l => l[i]? := by
  cases x with
  | none => exact ⟨_, rfl, fun i hi => by simp [hi]⟩
  | some l =>
    have hl := h l rfl
    refine ⟨l.map some, ?_, fun i hi => ?_⟩
    · show (if l.length = n then _ else _) = _
      rw [if_pos hl]
    · rw [List.getElem?_map, List.getElem?_eq_getElem (by omega)]
      simp [List.getElem?_eq_getElem (show i < l.length by omega)]

theorem assignField_other {α : Type} {n : ℕ} (l : List α) (h : l.length ≠ n) (h1 : l.length ≠ 1) :
    assignField n (some l) = .error .valueError := by
  show (if l.length = n then _ else _) = _
  rw [if_neg h]
  split
  · exact absurd rfl h1
  · rfl

theorem structureAgents_get {markets : List M} {a : Option (List A)} {w : Option (List ℚ)} {v : Option (List V)}
    {d : Option (List D)} {b : Option (List B)} (ha : ∀ l ∈ a, l.length = markets.length) (hw : ∀ l ∈ w, l.length = markets.length)
    (hv : ∀ l ∈ v, l.length = markets.length) (hd : ∀ l ∈ d, l.length = markets.length)
    (hb : ∀ l ∈ b, l.length = markets.length) :
    ∃ rows, structureAgents markets a w v d b = .ok rows ∧
      ∀ i : ℕ, rows[i]? = (markets[i]?).map fun t => ⟨t, a.bind fun l => l[i]?, w.bind fun l => l[i]?, v.bind fun l => l[i]?,
        d.bind fun l => l[i]?, b.bind fun l => l[i]?⟩ := by
  obtain ⟨la, hla, ga⟩ := assignField_same a ha
  obtain ⟨lw, hlw, gw⟩ := assignField_same w hw
  obtain ⟨lv, hlv, gv⟩ := assignField_same v hv
  obtain ⟨ld, hld, gd⟩ := assignField_same d hd
  obtain ⟨lb, hlb, gb⟩ := assignField_same b hb
  unfold structureAgents
  rw [hla, hlw, hlv, hld, hlb]
  refine ⟨_, rfl, fun i => ?_⟩
  by_cases hi : i < markets.length
  · have hz : ((List.range markets.length).zip markets)[i]? = some (i, markets[i]) := by
      rw [List.getElem?_eq_getElem (by simp [hi])]
      simp
    rw [List.getElem?_map, hz, List.getElem?_eq_getElem hi, Option.map_some, Option.map_some, ga i hi, gw i hi, gv i hi, gd i hi,
      gb i hi]
  · rw [List.getElem?_eq_none (by simp; omega), List.getElem?_eq_none (by omega)]
    rfl

theorem structureAgents_ok {markets : List M} {a : Option (List A)} {w : List ℚ} {v : List V}
    {d : List D} {b : Option (List B)} {rows : List (AgentRow M A B D V)} (hw : w.length = markets.length)
    (hv : v.length = markets.length) (hd : d.length = markets.length)
    (h : structureAgents markets a (some w) (some v) (some d) b = .ok rows) :
    ∃ (x : ℕ → Option A) (y : ℕ → Option B), ∀ i : ℕ, rows[i]? = (markets[i]?).map fun t => ⟨t, x i, w[i]?, v[i]?, d[i]?, y i⟩ := by
  obtain ⟨lw, hlw, gw⟩ := assignField_same (some w) (n := markets.length) (by rintro l ⟨⟩; exact hw)
  obtain ⟨lv, hlv, gv⟩ := assignField_same (some v) (n := markets.length) (by rintro l ⟨⟩; exact hv)
  obtain ⟨ld, hld, gd⟩ := assignField_same (some d) (n := markets.length) (by rintro l ⟨⟩; exact hd)
  unfold structureAgents at h
  rw [hlw, hlv, hld] at h
  generalize assignField markets.length a = p at h
  generalize assignField markets.length b = q at h
  cases p with
  | error e => cases h
  | ok la =>
    cases q with
    | error e => cases h
    | ok lb =>
      refine ⟨fun i => (la[i]?).join, fun i => (lb[i]?).join, fun i => ?_⟩
      obtain rfl := Except.ok.inj h
      by_cases hi : i < markets.length
      · have hz : ((List.range markets.length).zip markets)[i]? = some (i, markets[i]) := by
          rw [List.getElem?_eq_getElem (by simp [hi])]
          simp
        rw [List.getElem?_map, hz, List.getElem?_eq_getElem hi, Option.map_some, Option.map_some, gw i hi, gv i hi, gd i hi]
        rfl
      · rw [List.getElem?_eq_none (by simp; omega), List.getElem?_eq_none (l := markets) (by omega)]
        rfl

theorem structureAgents_error_ids {markets : List M} {a : List A} {w : Option (List ℚ)} {v : Option (List V)}
    {d : Option (List D)} {b : Option (List B)} (h : a.length ≠ markets.length) (h1 : a.length ≠ 1) :
    structureAgents markets (some a) w v d b = .error .valueError := by
  unfold structureAgents
  rw [assignField_other a h h1]

theorem structureAgents_error_availability {markets : List M} {a : Option (List A)} {w : Option (List ℚ)} {v : Option (List V)}
    {d : Option (List D)} {b : List B} (h : b.length ≠ markets.length) (h1 : b.length ≠ 1) :
    structureAgents markets a w v d (some b) = .error .valueError := by
  unfold structureAgents
  rw [assignField_other b h h1]
  generalize assignField markets.length a = x1
  generalize assignField markets.length w = x2
  generalize assignField markets.length v = x3
  generalize assignField markets.length d = x4
  cases x1 <;> cases x2 <;> cases x3 <;> cases x4 <;> rfl

/-! ## Without an integration configuration -/

/-- **C68.** Without an integration configuration, each agent is a row of agent data: all of its fields are from the same row. -/
theorem C68_data (products : List M) (d : AgentData M A B D V) (check : Bool) (hl : Spec.SameLength d)
    (hm : ∀ t, t ∈ products ↔ t ∈ d.markets) (hn : d.nodes.isSome) (hw : check = true → d.weights.isSome) :
    ∃ rows, agentsNew products true (some d) none check = .ok rows ∧ ∀ i : ℕ, rows[i]? = Spec.agentAt d i := by
  have hu : uniqueMarkets products = uniqueMarkets d.markets := by
    unfold uniqueMarkets
    congr 1
    ext t
    simp [hm]
  unfold agentsNew
  rw [if_neg (by simp), if_neg (by simp [hu])]
  obtain ⟨nodes, hnodes⟩ := Option.isSome_iff_exists.1 hn
  obtain ⟨rows, h1, h2⟩ := structureAgents_get hl.agentIds hl.weights hl.nodes hl.demographics hl.availability
  refine ⟨rows, ?_, h2⟩
  rw [← h1]
  dsimp only
  rw [hnodes]
  cases hweights : d.weights with
  | some w => rfl
  | none =>
    dsimp only
    rw [if_neg]
    intro hc
    have := hw hc
    rw [hweights] at this
    cases this

/-- **C68.** Markets that do not match those of products are a `ValueError`, with or without an integration configuration. -/
theorem C68_markets (products : List M) (d : AgentData M A B D V) (integration : Option (M → List (V × ℚ))) (check : Bool)
    (hm : ¬∀ t, t ∈ products ↔ t ∈ d.markets) : agentsNew products true (some d) integration check = .error .valueError := by
  have hu : uniqueMarkets products ≠ uniqueMarkets d.markets := by
    intro h
    apply hm
    intro t
    have h1 : t ∈ uniqueMarkets products ↔ t ∈ uniqueMarkets d.markets := by rw [h]
    unfold uniqueMarkets at h1
    simpa using h1
  unfold agentsNew
  rw [if_neg (by simp), if_pos (by simp [hu])]

/-! ## With an integration configuration -/

theorem mem_uniqueMarkets (l : List M) (t : M) : t ∈ uniqueMarkets l ↔ t ∈ l := by
  unfold uniqueMarkets
  simp

theorem nodup_uniqueMarkets (l : List M) : (uniqueMarkets l).Nodup := Finset.sort_nodup _ _

theorem buildMany_markets (build : M → List (V × ℚ)) (ids : List M) :
    (buildMany build ids).map (fun p => p.1) = ids.flatMap fun t => List.replicate (build t).length t := by
  unfold buildMany
  rw [List.map_flatMap]
  congr 1
  funext t
  rw [List.map_map]
  exact List.map_const

theorem count_markets (build : M → List (V × ℚ)) (ids : List M) (hn : ids.Nodup) (t : M) (ht : t ∈ ids) :
    (ids.flatMap fun t => List.replicate (build t).length t).count t = (build t).length := by
  induction ids with
  | nil => cases ht
  | cons s ids ih =>
    rw [List.flatMap_cons, List.count_append, List.count_replicate]
    rw [List.nodup_cons] at hn
    rcases List.mem_cons.1 ht with h | h
    · subst h
      have h0 : (ids.flatMap fun t => List.replicate (build t).length t).count t = 0 := by
        rw [List.count_eq_zero]
        intro h
        obtain ⟨s, hs, hts⟩ := List.mem_flatMap.1 h
        rw [(List.mem_replicate.1 hts).2] at hn
        exact hn.1 hs
      simp [h0]
    · have hne : s ≠ t := fun h' => hn.1 (h' ▸ h)
      simp [hne, ih hn.2 h]

theorem unique_built (build : M → List (V × ℚ)) (hb : ∀ t, build t ≠ []) (products : List M) :
    uniqueMarkets ((uniqueMarkets products).flatMap fun t => List.replicate (build t).length t) = uniqueMarkets products := by
  have : ((uniqueMarkets products).flatMap fun t => List.replicate (build t).length t).toFinset = products.toFinset := by
    ext t
    rw [List.mem_toFinset, List.mem_flatMap, List.mem_toFinset]
    constructor
    · rintro ⟨s, hs, hts⟩
      rw [(List.mem_replicate.1 hts).2]
      exact (mem_uniqueMarkets _ _).1 hs
    · intro h
      exact ⟨t, (mem_uniqueMarkets _ _).2 h, List.mem_replicate.2 ⟨by simp [hb t], rfl⟩⟩
  unfold uniqueMarkets at this ⊢
  rw [this]

theorem length_ofMarket {α : Type} (markets : List M) (column : List α) (h : column.length = markets.length) (t : M) :
    (Spec.ofMarket markets column t).length = markets.count t := by
  unfold Spec.ofMarket
  induction markets generalizing column with
  | nil => simp
  | cons s markets ih =>
    cases column with
    | nil => simp at h
    | cons a column =>
      have ih' := ih column (by simpa using h)
      rw [List.length_map] at ih' ⊢
      rw [List.zip_cons_cons, List.filter_cons, List.count_cons]
      by_cases hs : s = t
      · simp [hs, ih']
      · simp [hs, ih']

theorem trimDemographics_ok (built loaded : List M) (column : List D) (l : List M) (h : ∀ t ∈ l, built.count t ≤ loaded.count t) :
    trimDemographics built loaded column l = .ok (l.flatMap fun t => (Spec.ofMarket loaded column t).take (built.count t)) := by
  induction l with
  | nil => rfl
  | cons t l ih =>
    unfold trimDemographics
    rw [if_neg (by have := h t (by simp); omega), ih fun s hs => h s (List.mem_cons_of_mem _ hs)]
    rfl

theorem trimDemographics_error (built loaded : List M) (column : List D) (l : List M) (t : M) (ht : t ∈ l)
    (h : loaded.count t < built.count t) : trimDemographics built loaded column l = .error .valueError := by
  induction l with
  | nil => cases ht
  | cons s l ih =>
    unfold trimDemographics
    by_cases hs : built.count s > loaded.count s
    · rw [if_pos hs]
    · rw [if_neg hs]
      rcases List.mem_cons.1 ht with h' | h'
      · subst h'
        exact absurd h hs
      · rw [ih h']

theorem flatMap_congr_mem {α β : Type} {l : List α} {f g : α → List β} (h : ∀ a ∈ l, f a = g a) : l.flatMap f = l.flatMap g := by
  induction l with
  | nil => rfl
  | cons a l ih => rw [List.flatMap_cons, List.flatMap_cons, h a (by simp), ih fun b hb => h b (List.mem_cons_of_mem _ hb)]

/-- Lists of the same lengths market by market are zipped market by market. -/
theorem zip_flatMap {α β γ : Type} (l : List γ) (f : γ → List α) (g : γ → List β) (h : ∀ c ∈ l, (f c).length = (g c).length) :
    (l.flatMap f).zip (l.flatMap g) = l.flatMap fun c => (f c).zip (g c) := by
  induction l with
  | nil => rfl
  | cons c l ih =>
    rw [List.flatMap_cons, List.flatMap_cons, List.flatMap_cons, List.zip_append (h c (by simp)),
      ih fun d hd => h d (List.mem_cons_of_mem _ hd)]

theorem length_flatMap_congr {α β γ : Type} (l : List γ) (f : γ → List α) (g : γ → List β) (h : ∀ c ∈ l, (f c).length = (g c).length) :
    (l.flatMap f).length = (l.flatMap g).length := by
  induction l with
  | nil => rfl
  | cons c l ih =>
    rw [List.flatMap_cons, List.flatMap_cons, List.length_append, List.length_append, h c (by simp),
      ih fun d hd => h d (List.mem_cons_of_mem _ hd)]

/-- What is computed with an integration configuration. -/
theorem agents_integration (products : List M) (d : AgentData M A B D V) (column : List D) (hcol : d.demographics = some column)
    (hm : ∀ t, t ∈ products ↔ t ∈ d.markets) (build : M → List (V × ℚ))
    (hb : ∀ t, build t ≠ []) (hc : ∀ t ∈ products, (build t).length ≤ d.markets.count t) (check : Bool) :
    agentsNew products true (some d) (some build) check =
      structureAgents ((uniqueMarkets products).flatMap fun t => List.replicate (build t).length t) d.agentIds
        (some ((uniqueMarkets products).flatMap fun t => (build t).map Prod.snd))
        (some ((uniqueMarkets products).flatMap fun t => (build t).map Prod.fst))
        (some ((uniqueMarkets products).flatMap fun t => (Spec.ofMarket d.markets column t).take (build t).length))
        d.availability := by
  have hu : uniqueMarkets products = uniqueMarkets d.markets := by
    unfold uniqueMarkets
    congr 1
    ext t
    simp [hm]
  unfold agentsNew
  rw [if_neg (by simp), if_neg (by simp [hu])]
  dsimp only
  rw [hcol]
  dsimp only
  rw [buildMany_markets, unique_built build hb, trimDemographics_ok]
  · dsimp only
    have h1 : (buildMany build (uniqueMarkets products)).map (fun p => p.2.2) =
        (uniqueMarkets products).flatMap fun t => (build t).map Prod.snd := by
      unfold buildMany
      rw [List.map_flatMap]
      congr 1
      funext t
      rw [List.map_map]
      rfl
    have h2 : (buildMany build (uniqueMarkets products)).map (fun p => p.2.1) =
        (uniqueMarkets products).flatMap fun t => (build t).map Prod.fst := by
      unfold buildMany
      rw [List.map_flatMap]
      congr 1
      funext t
      rw [List.map_map]
      rfl
    rw [h1, h2]
    congr 2
    apply flatMap_congr_mem
    intro t ht
    rw [count_markets build _ (nodup_uniqueMarkets _) t ht]
  · intro t ht
    rw [count_markets build _ (nodup_uniqueMarkets _) t ht]
    exact hc t ((mem_uniqueMarkets _ _).1 ht)

/-- **C68.** With an integration configuration, agents of each market, market after market, have the nodes and weights built for that
market, and demographics of the first agents of that market in the data, in the order of the data. This holds for unsorted data too. -/
theorem C68_demographics_partial (products : List M) (d : AgentData M A B D V) (column : List D) (hcol : d.demographics = some column)
    (hlen : column.length = d.markets.length) (hm : ∀ t, t ∈ products ↔ t ∈ d.markets) (build : M → List (V × ℚ))
    (hb : ∀ t, build t ≠ []) (hc : ∀ t ∈ products, (build t).length ≤ d.markets.count t) (check : Bool)
    (rows : List (AgentRow M A B D V)) (h : agentsNew products true (some d) (some build) check = .ok rows) :
    rows.map (fun r => (r.market, r.node, r.weight, r.demographic)) =
      (uniqueMarkets products).flatMap fun t => ((build t).zip ((Spec.ofMarket d.markets column t).take (build t).length)).map
        fun p => (t, some p.1.1, some p.1.2, some p.2) := by
  rw [agents_integration products d column hcol hm build hb hc check] at h
  have hlt : ∀ t ∈ uniqueMarkets products, ((Spec.ofMarket d.markets column t).take (build t).length).length = (build t).length := by
    intro t ht
    rw [List.length_take, length_ofMarket _ _ hlen]
    exact min_eq_left (hc t ((mem_uniqueMarkets _ _).1 ht))
  obtain ⟨x, y, hxy⟩ := structureAgents_ok (length_flatMap_congr _ _ _ fun t _ => by simp) (length_flatMap_congr _ _ _ fun t _ => by simp)
    (length_flatMap_congr _ _ _ fun t ht => by rw [hlt t ht, List.length_replicate]) h
  set us := uniqueMarkets products with hus
  have hz : (us.flatMap fun t => ((build t).zip ((Spec.ofMarket d.markets column t).take (build t).length)).map
      fun p => (t, some p.1.1, some p.1.2, some p.2)) =
      ((us.flatMap fun t => List.replicate (build t).length t).zip
        (us.flatMap fun t => (build t).zip ((Spec.ofMarket d.markets column t).take (build t).length))).map
        fun q => (q.1, some q.2.1.1, some q.2.1.2, some q.2.2) := by
    rw [zip_flatMap, List.map_flatMap]
    · apply flatMap_congr_mem
      intro t ht
      have hl : ((build t).zip ((Spec.ofMarket d.markets column t).take (build t).length)).length = (build t).length := by
        rw [List.length_zip, hlt t ht, min_self]
      have hgen : ∀ (l : List ((V × ℚ) × D)) (k : ℕ), l.length = k → l.map (fun p => (t, some p.1.1, some p.1.2, some p.2)) =
          ((List.replicate k t).zip l).map fun q => (q.1, some q.2.1.1, some q.2.1.2, some q.2.2) := by
        intro l
        induction l with
        | nil => intro k _; simp
        | cons p l ih =>
          rintro k rfl
          rw [List.length_cons, List.replicate_succ, List.zip_cons_cons, List.map_cons, List.map_cons, ih _ rfl]
      exact hgen _ _ hl
    · intro t ht
      rw [List.length_zip, hlt t ht, List.length_replicate, min_self]
  rw [hz, ← zip_flatMap us build _ fun t ht => (hlt t ht).symm]
  have hw : (us.flatMap fun t => (build t).map Prod.snd) = (us.flatMap build).map Prod.snd := by rw [List.map_flatMap]
  have hv : (us.flatMap fun t => (build t).map Prod.fst) = (us.flatMap build).map Prod.fst := by rw [List.map_flatMap]
  apply List.ext_getElem?
  intro i
  rw [List.getElem?_map, hxy, hw, hv, List.getElem?_map, List.getElem?_map, List.getElem?_map, List.zip, List.getElem?_zipWith,
    List.zip, List.getElem?_zipWith]
  have hlen1 : (us.flatMap fun t => List.replicate (build t).length t).length = (us.flatMap build).length :=
    length_flatMap_congr _ _ _ fun t _ => by simp
  have hlen2 : (us.flatMap fun t => (Spec.ofMarket d.markets column t).take (build t).length).length = (us.flatMap build).length :=
    length_flatMap_congr _ _ _ hlt
  by_cases hi : i < (us.flatMap build).length
  · rw [List.getElem?_eq_getElem hi, List.getElem?_eq_getElem (show i < (us.flatMap fun t => List.replicate (build t).length t).length by omega),
      List.getElem?_eq_getElem (show i < (us.flatMap fun t => (Spec.ofMarket d.markets column t).take (build t).length).length by omega)]
    rfl
  · rw [List.getElem?_eq_none (show (us.flatMap fun t => List.replicate (build t).length t).length ≤ i by omega)]
    rfl

/-- **C68.** With an integration configuration, too few rows of agent data in some market are a `ValueError`. -/
theorem C68_too_few (products : List M) (d : AgentData M A B D V) (column : List D) (hcol : d.demographics = some column)
    (build : M → List (V × ℚ)) (hb : ∀ t, build t ≠ []) (t : M) (ht : t ∈ products) (h : d.markets.count t < (build t).length)
    (check : Bool) : agentsNew products true (some d) (some build) check = .error .valueError := by
  unfold agentsNew
  rw [if_neg (by simp)]
  dsimp only
  by_cases hd : decide (uniqueMarkets products ≠ uniqueMarkets d.markets) = true
  · rw [if_pos hd]
  · rw [if_neg hd, hcol]
    dsimp only
    rw [buildMany_markets, unique_built build hb, trimDemographics_error _ _ _ _ t ((mem_uniqueMarkets _ _).2 ht)]
    rw [count_markets build _ (nodup_uniqueMarkets _) t ((mem_uniqueMarkets _ _).2 ht)]
    exact h

theorem ofMarket_flatMap {α : Type} (us : List M) (hn : us.Nodup) (n : M → ℕ) (column : List α)
    (hlen : column.length = (us.flatMap fun t => List.replicate (n t) t).length) :
    (us.flatMap fun t => (Spec.ofMarket (us.flatMap fun t => List.replicate (n t) t) column t).take (n t)) = column := by
  induction us generalizing column with
  | nil =>
    symm
    simpa using hlen
  | cons s us ih =>
    rw [List.nodup_cons] at hn
    rw [List.flatMap_cons, List.length_append, List.length_replicate] at hlen
    have hsplit : (List.replicate (n s) s ++ us.flatMap fun t => List.replicate (n t) t).zip column =
        (List.replicate (n s) s).zip (column.take (n s)) ++ (us.flatMap fun t => List.replicate (n t) t).zip (column.drop (n s)) := by
      conv_lhs => rw [← List.take_append_drop (n s) column]
      rw [List.zip_append]
      rw [List.length_replicate, List.length_take]
      omega
    have hfirst : ∀ (k : ℕ) (l : List α), l.length = k → ((List.replicate k s).zip l).filter (fun p => decide (p.1 = s)) =
        (List.replicate k s).zip l := by
      intro k l _
      rw [List.filter_eq_self]
      intro p hp
      simpa using (List.mem_replicate.1 (List.of_mem_zip hp).1).2
    have hrest : ∀ l : List α, ((us.flatMap fun t => List.replicate (n t) t).zip l).filter (fun p => decide (p.1 = s)) = [] := by
      intro l
      rw [List.filter_eq_nil_iff]
      intro p hp
      obtain ⟨t, ht, hpt⟩ := List.mem_flatMap.1 (List.of_mem_zip hp).1
      rw [(List.mem_replicate.1 hpt).2]
      simp only [decide_eq_true_eq]
      rintro rfl
      exact hn.1 ht
    have h1 : (Spec.ofMarket ((s :: us).flatMap fun t => List.replicate (n t) t) column s) = column.take (n s) := by
      unfold Spec.ofMarket
      rw [List.flatMap_cons, hsplit, List.filter_append, hrest, List.append_nil, hfirst _ _ (by rw [List.length_take]; omega)]
      exact List.map_snd_zip (by rw [List.length_take, List.length_replicate]; omega)
    have h2 : ∀ t ∈ us, Spec.ofMarket ((s :: us).flatMap fun t => List.replicate (n t) t) column t =
        Spec.ofMarket (us.flatMap fun t => List.replicate (n t) t) (column.drop (n s)) t := by
      intro t ht
      unfold Spec.ofMarket
      rw [List.flatMap_cons, hsplit, List.filter_append]
      have : ((List.replicate (n s) s).zip (column.take (n s))).filter (fun p => decide (p.1 = t)) = [] := by
        rw [List.filter_eq_nil_iff]
        intro p hp
        rw [(List.mem_replicate.1 (List.of_mem_zip hp).1).2]
        simp only [decide_eq_true_eq]
        rintro rfl
        exact hn.1 ht
      rw [this, List.nil_append]
    rw [show ∀ f : M → List α, (s :: us).flatMap f = f s ++ us.flatMap f from fun f => List.flatMap_cons, h1, List.take_take, min_self, flatMap_congr_mem fun t ht => by rw [h2 t ht], ih hn.2 _ (by rw [List.length_drop]; omega),
      List.take_append_drop]

/-- **C68**, for data that are already sorted and have exactly as many agents in each market as nodes are built: each agent's IDs,
availability and demographics are from the same row of agent data, and nodes and weights are those built for its market. -/
theorem C68_sorted_partial (products : List M) (d : AgentData M A B D V) (column : List D) (hcol : d.demographics = some column)
    (hl : Spec.SameLength d) (build : M → List (V × ℚ)) (hb : ∀ t, build t ≠ [])
    (hsorted : d.markets = (uniqueMarkets products).flatMap fun t => List.replicate (build t).length t) (check : Bool) :
    ∃ rows, agentsNew products true (some d) (some build) check = .ok rows ∧
      ∀ i : ℕ, rows[i]? = (Spec.agentAt d i).map fun r =>
        { r with
          node := ((uniqueMarkets products).flatMap fun t => (build t).map Prod.fst)[i]?,
          weight := ((uniqueMarkets products).flatMap fun t => (build t).map Prod.snd)[i]? } := by
  have hm : ∀ t, t ∈ products ↔ t ∈ d.markets := by
    intro t
    rw [hsorted, List.mem_flatMap]
    constructor
    · exact fun h => ⟨t, (mem_uniqueMarkets _ _).2 h, List.mem_replicate.2 ⟨by simp [hb t], rfl⟩⟩
    · rintro ⟨s, hs, hts⟩
      rw [(List.mem_replicate.1 hts).2]
      exact (mem_uniqueMarkets _ _).1 hs
  have hc : ∀ t ∈ products, (build t).length ≤ d.markets.count t := by
    intro t ht
    rw [hsorted, count_markets build _ (nodup_uniqueMarkets _) t ((mem_uniqueMarkets _ _).2 ht)]
  rw [agents_integration products d column hcol hm build hb hc check]
  have hcolumn := hl.demographics column hcol
  have hdem : ((uniqueMarkets products).flatMap fun t => (Spec.ofMarket d.markets column t).take (build t).length) = column := by
    conv_lhs => rw [hsorted]
    exact ofMarket_flatMap _ (nodup_uniqueMarkets _) (fun t => (build t).length) column (by rw [← hsorted]; exact hcolumn)
  rw [hdem, ← hsorted]
  obtain ⟨rows, h1, h2⟩ := structureAgents_get (markets := d.markets) (a := d.agentIds)
    (w := some ((uniqueMarkets products).flatMap fun t => (build t).map Prod.snd))
    (v := some ((uniqueMarkets products).flatMap fun t => (build t).map Prod.fst)) (d := some column) (b := d.availability)
    hl.agentIds (by rintro l ⟨⟩; rw [hsorted]; exact length_flatMap_congr _ _ _ fun t _ => by simp)
    (by rintro l ⟨⟩; rw [hsorted]; exact length_flatMap_congr _ _ _ fun t _ => by simp)
    (by rintro l ⟨⟩; exact hcolumn) hl.availability
  refine ⟨rows, h1, fun i => ?_⟩
  rw [h2, Spec.agentAt, hcol, Option.map_map]
  rfl

/-- **C68 does not hold** with an integration configuration for data that are not sorted by market: demographics are sorted but agent
IDs and availability are not. Here, the first agent is in market 0 and has that market's demographic, 20, but the ID and availability of
the agent in market 1. -/
theorem C68_ids_refuted :
    let d : AgentData ℕ ℕ ℕ ℕ ℕ := ⟨[1, 0], some [11, 22], some [1, 2], some [10, 20], none, none⟩
    ∃ rows, agentsNew [0, 1] true (some d) (some fun _ => [(5, 1)]) true = .ok rows ∧
      rows.map (fun r => (r.market, r.demographic)) = [(0, some 20), (1, some 10)] ∧
      rows.map (fun r => (r.market, r.agentId)) = [(0, some 11), (1, some 22)] ∧
      rows.map (fun r => (r.market, r.availability)) = [(0, some 1), (1, some 2)] ∧
      Spec.ofMarket d.markets [11, 22] 0 = [22] ∧ Spec.ofMarket d.markets [1, 2] 0 = [2] := by
  refine ⟨[⟨0, some 11, some 1, some 5, some 20, some 1⟩, ⟨1, some 22, some 1, some 5, some 10, some 2⟩], ?_, ?_, ?_, ?_, ?_, ?_⟩
  · have hu : uniqueMarkets [0, 1] = [0, 1] := (List.toFinset_sort (· ≤ ·) (by decide)).2 (by decide)
    rw [agents_integration [0, 1] _ [10, 20] rfl (by intro t; simp; tauto) _ (by simp) (by decide), hu]
    decide +kernel
  all_goals decide +kernel

/-- **C68.** With an integration configuration and more agents than nodes, agent IDs are a `ValueError` unless there is only one. -/
theorem C68_ids_error (products : List M) (d : AgentData M A B D V) (column : List D) (hcol : d.demographics = some column)
    (ids : List A) (hids : d.agentIds = some ids) (hm : ∀ t, t ∈ products ↔ t ∈ d.markets) (build : M → List (V × ℚ))
    (hb : ∀ t, build t ≠ []) (hc : ∀ t ∈ products, (build t).length ≤ d.markets.count t) (check : Bool)
    (h : ids.length ≠ ((uniqueMarkets products).flatMap build).length) (h1 : ids.length ≠ 1) :
    agentsNew products true (some d) (some build) check = .error .valueError := by
  rw [agents_integration products d column hcol hm build hb hc check, hids]
  apply structureAgents_error_ids _ h1
  rwa [length_flatMap_congr _ (fun t => List.replicate (build t).length t) build fun t _ => by simp]

/-- **C68.** Without nonlinear characteristics there is one agent in each market, and its weight is one. -/
theorem C68_linear (products : List M) (check : Bool) :
    ∃ rows : List (AgentRow M A B D V), agentsNew products false none none check = .ok rows ∧
      rows.map (fun r => (r.market, r.weight)) = (uniqueMarkets products).map fun t => (t, some 1) := by
  obtain ⟨rows, h1, h2⟩ := structureAgents_get (markets := uniqueMarkets products) (a := (none : Option (List A)))
    (w := some (List.replicate (uniqueMarkets products).length 1)) (v := (none : Option (List V))) (d := (none : Option (List D)))
    (b := (none : Option (List B))) (by rintro l ⟨⟩) (by rintro l ⟨⟩; simp) (by rintro l ⟨⟩) (by rintro l ⟨⟩) (by rintro l ⟨⟩)
  refine ⟨rows, ?_, ?_⟩
  · unfold agentsNew
    rw [if_pos rfl, if_neg (by simp)]
    exact h1
  · apply List.ext_getElem?
    intro i
    rw [List.getElem?_map, h2, List.getElem?_map]
    by_cases hi : i < (uniqueMarkets products).length
    · rw [List.getElem?_eq_getElem hi]
      simp [hi]
    · rw [List.getElem?_eq_none (by omega)]
      rfl

/-- Unsorted agent data without an integration configuration. -/
example : let d : AgentData ℕ ℕ ℕ ℕ ℕ := ⟨[1, 0], some [11, 22], some [1, 2], some [10, 20], some [5, 6], some [1, 1]⟩
    Spec.SameLength d ∧ ∀ t, t ∈ [0, 1, 1] ↔ t ∈ d.markets := by
  refine ⟨⟨?_, ?_, ?_, ?_, ?_⟩, ?_⟩
  · rintro l ⟨⟩; rfl
  · rintro l ⟨⟩; rfl
  · rintro l ⟨⟩; rfl
  · rintro l ⟨⟩; rfl
  · rintro l ⟨⟩; rfl
  · intro t
    simp
    tauto

end Pyblp
