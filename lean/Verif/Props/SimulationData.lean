import Mathlib.Data.Set.Function
import Verif.Model.SimulationData
import Verif.Props.Agents

/-!
# C103: data of simulations
-/

set_option linter.unusedSectionVars false

namespace Pyblp

section

variable {S ν V : Type} [LinearOrder ν]

/-! ### Specification -/

namespace Spec

/-- The draws of a generator after a seed, one after the other. -/
def drawAt (uniform : S → V × S) (seed : S) (k : ℕ) : V := (uniform ((fun s => (uniform s).2)^[k] seed)).1

/-- A value of a variable is what is given, or else a draw. -/
def GivenOrDrawn (uniform : S → V × S) (divide : V → V) (data : ν → Option V) (reserved : VariableMapping ν V) (shares : ν) (seed : S)
    (call : ν → ℕ) (n : ν) (v : V) : Prop :=
  if n ∈ reserved.map Prod.fst then (n, v) ∈ reserved
  else
    match data n with
    | some given => v = given
    | none => v = if n = shares then divide (drawAt uniform seed (call n)) else drawAt uniform seed (call n)

end Spec

/-! ### Independence of the order of sets -/

theorem newNames_perm {names names' : List ν} (h : names.Perm names') (m : VariableMapping ν V) : newNames names m = newNames names' m := by
  unfold newNames
  apply List.Perm.eq_of_pairwise (le := (· ≤ ·)) (fun a b _ _ h1 h2 => le_antisymm h1 h2) (List.pairwise_insertionSort _ _) (List.pairwise_insertionSort _ _)
  exact ((List.perm_insertionSort _ _).trans (h.filter _)).trans (List.perm_insertionSort _ _).symm

theorem loadFormulations_perm (uniform : S → V × S) (data : ν → Option V) {formulations formulations' : List (List ν)}
    (h : List.Forall₂ List.Perm formulations formulations') (s : S × VariableMapping ν V) :
    loadFormulations uniform data formulations s = loadFormulations uniform data formulations' s := by
  induction h generalizing s with
  | nil => rfl
  | cons hp _ ih =>
    rw [loadFormulations, loadFormulations, newNames_perm hp]
    exact ih _

/-- **C103** (order). Product data of a simulation do not depend on the order in which sets of names are iterated over, which differs between
Python processes, so that a seed always gives the same data. -/
theorem C103_order (uniform : S → V × S) (divide : V → V) (data : ν → Option V) (reserved : VariableMapping ν V) (shares prices : ν)
    (formulations formulations' : List (List ν)) (h : List.Forall₂ List.Perm formulations formulations') (seed : S) :
    simulateProducts uniform divide data reserved shares prices formulations seed =
      simulateProducts uniform divide data reserved shares prices formulations' seed := by
  unfold simulateProducts
  dsimp only
  rw [loadFormulations_perm uniform data h]

/-- The two orders of each of two sets of names give the same data. -/
example : simulateProducts (S := ℕ) (ν := ℕ) (V := ℕ) (fun s => (s * s, s + 1)) (fun v => v / 2) (fun _ => none) [] 1 2 [[4, 3], [3, 4, 9]] 10 =
    simulateProducts (fun s => (s * s, s + 1)) (fun v => v / 2) (fun _ => none) [] 1 2 [[3, 4], [9, 4, 3]] 10 :=
  C103_order _ _ _ _ _ _ _ _ (.cons (by decide) (.cons (by decide) .nil)) _

/-! ### Contents -/

theorem keys_append (m m' : VariableMapping ν V) : keys (m ++ m') = keys m ++ keys m' := List.map_append

/-- What is true of the state of the generator and of the mapping while variables are loaded or drawn. -/
structure LoadInvariant (uniform : S → V × S) (divide : V → V) (data : ν → Option V) (reserved : VariableMapping ν V) (shares : ν) (seed : S)
    (s : S × VariableMapping ν V) (j : ℕ) (call : ν → ℕ) : Prop where
  state : s.1 = (fun s => (uniform s).2)^[j] seed
  nodup : (keys s.2).Nodup
  below : ∀ n ∈ keys s.2, n ∉ keys reserved → data n = none → call n < j
  once : Set.InjOn call {n | n ∈ keys s.2 ∧ n ∉ keys reserved ∧ data n = none}
  values : ∀ p ∈ s.2, Spec.GivenOrDrawn uniform divide data reserved shares seed call p.1 p.2
  reservedKeys : ∀ n ∈ keys reserved, n ∈ keys s.2
  sharesKey : shares ∈ keys s.2

theorem LoadInvariant.given {uniform : S → V × S} {divide : V → V} {data : ν → Option V} {reserved : VariableMapping ν V} {shares : ν} {seed : S}
    {s : S × VariableMapping ν V} {j : ℕ} {call : ν → ℕ} (h : LoadInvariant uniform divide data reserved shares seed s j call) {n : ν} {v : V}
    (hn : n ∉ keys s.2) (hv : data n = some v) : LoadInvariant uniform divide data reserved shares seed (s.1, s.2 ++ [(n, v)]) j call where
  state := h.state
  nodup := by
    rw [keys_append]
    refine List.nodup_append'.2 ⟨h.nodup, by simp [keys], ?_⟩
    simpa [keys] using hn
  below := by
    intro m hm hr hd
    rw [keys_append, List.mem_append] at hm
    rcases hm with hm | hm
    · exact h.below m hm hr hd
    · obtain rfl : m = n := by simpa [keys] using hm
      rw [hv] at hd; simp at hd
  once := by
    refine h.once.mono ?_
    rintro m ⟨hm, hr, hd⟩
    refine ⟨?_, hr, hd⟩
    rw [keys_append, List.mem_append] at hm
    rcases hm with hm | hm
    · exact hm
    · obtain rfl : m = n := by simpa [keys] using hm
      rw [hv] at hd; simp at hd
  values := by
    intro p hp
    rw [List.mem_append] at hp
    rcases hp with hp | hp
    · exact h.values p hp
    · obtain rfl : p = (n, v) := by simpa using hp
      have hr : n ∉ reserved.map Prod.fst := fun hr => hn (h.reservedKeys n hr)
      unfold Spec.GivenOrDrawn
      dsimp only
      rw [if_neg hr, hv]
  reservedKeys := fun m hm => by rw [keys_append]; exact List.mem_append_left _ (h.reservedKeys m hm)
  sharesKey := by rw [keys_append]; exact List.mem_append_left _ h.sharesKey

theorem LoadInvariant.drawn {uniform : S → V × S} {divide : V → V} {data : ν → Option V} {reserved : VariableMapping ν V} {shares : ν} {seed : S}
    {s : S × VariableMapping ν V} {j : ℕ} {call : ν → ℕ} (h : LoadInvariant uniform divide data reserved shares seed s j call) {n : ν}
    (hn : n ∉ keys s.2) (hv : data n = none) :
    LoadInvariant uniform divide data reserved shares seed ((uniform s.1).2, s.2 ++ [(n, (uniform s.1).1)]) (j + 1) (Function.update call n j) where
  state := by rw [Function.iterate_succ_apply', ← h.state]
  nodup := by
    rw [keys_append]
    refine List.nodup_append'.2 ⟨h.nodup, by simp [keys], ?_⟩
    simpa [keys] using hn
  below := by
    intro m hm hr hd
    rw [keys_append, List.mem_append] at hm
    by_cases hmn : m = n
    · subst hmn; simp
    · rw [Function.update_of_ne hmn]
      rcases hm with hm | hm
      · exact Nat.lt_succ_of_lt (h.below m hm hr hd)
      · exact absurd (by simpa [keys] using hm) hmn
  once := by
    rintro m ⟨hm, hmr, hmd⟩ m' ⟨hm', hmr', hmd'⟩ heq
    rw [keys_append, List.mem_append] at hm hm'
    have hlt : ∀ q, q ≠ n → (q ∈ keys s.2 ∨ q ∈ keys [(n, (uniform s.1).1)]) → q ∉ keys reserved → data q = none → q ∈ keys s.2 ∧ call q < j := by
      intro q hq hqk hqr hqd
      rcases hqk with hqk | hqk
      · exact ⟨hqk, h.below q hqk hqr hqd⟩
      · exact absurd (by simpa [keys] using hqk) hq
    by_cases h1 : m = n
    · by_cases h2 : m' = n
      · rw [h1, h2]
      · have := (hlt m' h2 hm' hmr' hmd').2
        rw [h1, Function.update_self, Function.update_of_ne h2] at heq
        omega
    · by_cases h2 : m' = n
      · have := (hlt m h1 hm hmr hmd).2
        rw [h2, Function.update_self, Function.update_of_ne h1] at heq
        omega
      · rw [Function.update_of_ne h1, Function.update_of_ne h2] at heq
        exact h.once ⟨(hlt m h1 hm hmr hmd).1, hmr, hmd⟩ ⟨(hlt m' h2 hm' hmr' hmd').1, hmr', hmd'⟩ heq
  values := by
    intro p hp
    rw [List.mem_append] at hp
    rcases hp with hp | hp
    · have hne : p.1 ≠ n := fun h' => hn (h' ▸ List.mem_map_of_mem hp)
      have := h.values p hp
      unfold Spec.GivenOrDrawn at this ⊢
      rwa [Function.update_of_ne hne]
    · obtain rfl : p = (n, (uniform s.1).1) := by simpa using hp
      have hs : n ≠ shares := fun h' => hn (h' ▸ h.sharesKey)
      have hr : n ∉ reserved.map Prod.fst := fun hr => hn (h.reservedKeys n hr)
      unfold Spec.GivenOrDrawn
      dsimp only
      rw [if_neg hr, hv]
      dsimp only
      rw [if_neg hs, Function.update_self, Spec.drawAt, h.state]
  reservedKeys := fun m hm => by rw [keys_append]; exact List.mem_append_left _ (h.reservedKeys m hm)
  sharesKey := by rw [keys_append]; exact List.mem_append_left _ h.sharesKey

theorem loadOrDraw_invariant {uniform : S → V × S} {divide : V → V} {data : ν → Option V} {reserved : VariableMapping ν V} {shares : ν} {seed : S}
    (l : List ν) {s : S × VariableMapping ν V} {j : ℕ} {call : ν → ℕ} (h : LoadInvariant uniform divide data reserved shares seed s j call)
    (hl : l.Nodup) (hnew : ∀ n ∈ l, n ∉ keys s.2) :
    (∃ j' call', LoadInvariant uniform divide data reserved shares seed (loadOrDraw uniform data l s) j' call') ∧
      ∀ n, n ∈ keys (loadOrDraw uniform data l s).2 ↔ n ∈ keys s.2 ∨ n ∈ l := by
  induction l generalizing s j call with
  | nil => exact ⟨⟨j, call, h⟩, fun n => by simp [loadOrDraw]⟩
  | cons n l ih =>
    obtain ⟨state, mapping⟩ := s
    rw [List.nodup_cons] at hl
    have hn := hnew n List.mem_cons_self
    have hrest : ∀ v : V, ∀ m ∈ l, m ∉ keys (mapping ++ [(n, v)]) := by
      intro v m hm hk
      rw [keys_append, List.mem_append] at hk
      rcases hk with hk | hk
      · exact hnew m (List.mem_cons_of_mem _ hm) hk
      · obtain rfl : m = n := by simpa [keys] using hk
        exact hl.1 hm
    rw [loadOrDraw]
    cases hv : data n with
    | some v =>
      obtain ⟨h1, h2⟩ := ih (h.given hn hv) hl.2 (hrest v)
      refine ⟨h1, fun m => ?_⟩
      rw [h2 m, keys_append, List.mem_append]
      simp [keys, or_assoc]
    | none =>
      obtain ⟨h1, h2⟩ := ih (h.drawn hn hv) hl.2 (hrest _)
      refine ⟨h1, fun m => ?_⟩
      rw [h2 m, keys_append, List.mem_append]
      simp [keys, or_assoc]

theorem loadFormulations_invariant {uniform : S → V × S} {divide : V → V} {data : ν → Option V} {reserved : VariableMapping ν V} {shares : ν}
    {seed : S} (formulations : List (List ν)) (hf : ∀ names ∈ formulations, names.Nodup) {s : S × VariableMapping ν V} {j : ℕ} {call : ν → ℕ}
    (h : LoadInvariant uniform divide data reserved shares seed s j call) :
    (∃ j' call', LoadInvariant uniform divide data reserved shares seed (loadFormulations uniform data formulations s) j' call') ∧
      ∀ n, n ∈ keys (loadFormulations uniform data formulations s).2 ↔ n ∈ keys s.2 ∨ ∃ names ∈ formulations, n ∈ names := by
  induction formulations generalizing s j call with
  | nil => exact ⟨⟨j, call, h⟩, fun n => by simp [loadFormulations]⟩
  | cons names rest ih =>
    have hmem : ∀ n, n ∈ newNames names s.2 ↔ n ∈ names ∧ n ∉ keys s.2 := by
      intro n
      rw [newNames, List.mem_insertionSort, List.mem_filter, decide_eq_true_eq]
    have hnodup : (newNames names s.2).Nodup :=
      (List.perm_insertionSort _ _).nodup_iff.2 ((hf names List.mem_cons_self).filter _)
    obtain ⟨⟨j', call', h'⟩, hk⟩ := loadOrDraw_invariant (newNames names s.2) h hnodup fun n hn => ((hmem n).1 hn).2
    obtain ⟨h1, h2⟩ := ih (fun m hm => hf m (List.mem_cons_of_mem _ hm)) h'
    rw [loadFormulations]
    refine ⟨h1, fun n => ?_⟩
    rw [h2 n, hk n, hmem n]
    simp only [List.mem_cons, exists_eq_or_imp]
    tauto

/-- **C103** (contents). Product data of a simulation have each variable once: IDs, shares, prices, and all variables in formulations. A variable
that is given is used as it is. The others are draws, and no two variables share a draw. -/
theorem C103_products (uniform : S → V × S) (divide : V → V) (data : ν → Option V) (reserved : VariableMapping ν V) (shares prices : ν)
    (hreserved : (reserved.map Prod.fst ++ [shares, prices]).Nodup) (formulations : List (List ν)) (hf : ∀ names ∈ formulations, names.Nodup)
    (seed : S) :
    let m := simulateProducts uniform divide data reserved shares prices formulations seed
    (m.map Prod.fst).Nodup ∧
    (∀ n, n ∈ m.map Prod.fst ↔ n ∈ reserved.map Prod.fst ∨ n = shares ∨ n = prices ∨ ∃ names ∈ formulations, n ∈ names) ∧
    ∃ call : ν → ℕ, Set.InjOn call {n | n ∈ m.map Prod.fst ∧ n ∉ reserved.map Prod.fst ∧ data n = none} ∧
      ∀ p ∈ m, Spec.GivenOrDrawn uniform divide data reserved shares seed call p.1 p.2 := by
  have hs : shares ∉ keys reserved := by
    intro h
    exact List.disjoint_of_nodup_append hreserved h (by simp)
  have hp : prices ∉ keys reserved := by
    intro h
    exact List.disjoint_of_nodup_append hreserved h (by simp)
  have hsp : shares ≠ prices := by
    have := (List.nodup_append'.1 hreserved).2.1
    simpa using this
  -- shares
  obtain ⟨js, hjs⟩ : ∃ j call, LoadInvariant uniform divide data reserved shares seed
      ((loadShares uniform divide data shares seed).2,
       reserved ++ [(shares, (loadShares uniform divide data shares seed).1)]) j call := by
    have hnodup : ∀ v : V, (keys (reserved ++ [(shares, v)])).Nodup := by
      intro v
      rw [keys_append]
      refine List.nodup_append'.2 ⟨(List.nodup_append'.1 hreserved).1, by simp [keys], ?_⟩
      simpa [keys] using hs
    have hsharesKey : ∀ v : V, shares ∈ keys (reserved ++ [(shares, v)]) := by
      intro v; rw [keys_append]; simp [keys]
    have honly : ∀ (v : V) (n : ν), n ∈ keys (reserved ++ [(shares, v)]) → n ∉ keys reserved → n = shares := by
      intro v n hn hr
      rw [keys_append, List.mem_append] at hn
      rcases hn with hn | hn
      · exact absurd hn hr
      · simpa [keys] using hn
    have hvalue : ∀ (v : V) (call : ν → ℕ), Spec.GivenOrDrawn uniform divide data reserved shares seed call shares v →
        ∀ p ∈ reserved ++ [(shares, v)], Spec.GivenOrDrawn uniform divide data reserved shares seed call p.1 p.2 := by
      intro v call hv p hp'
      rw [List.mem_append] at hp'
      rcases hp' with hp' | hp'
      · rw [Spec.GivenOrDrawn, if_pos (List.mem_map_of_mem hp')]
        exact hp'
      · obtain rfl : p = (shares, v) := by simpa using hp'
        exact hv
    unfold loadShares
    cases hd : data shares with
    | some v =>
      refine ⟨0, fun _ => 0, rfl, hnodup v, ?_, ?_, ?_, ?_, hsharesKey v⟩
      · intro n hn hr hnd
        rw [honly v n hn hr, hd] at hnd
        simp at hnd
      · rintro n ⟨hn, hr, hnd⟩
        rw [honly v n hn hr, hd] at hnd
        simp at hnd
      · refine hvalue v _ ?_
        rw [Spec.GivenOrDrawn, if_neg (show shares ∉ reserved.map Prod.fst from hs), hd]
      · exact fun n hn => by rw [keys_append]; exact List.mem_append_left _ hn
    | none =>
      refine ⟨1, fun _ => 0, rfl, hnodup _, fun n _ _ _ => Nat.zero_lt_one, ?_, ?_, ?_, hsharesKey _⟩
      · rintro n ⟨hn, hr, -⟩ m ⟨hm, hmr, -⟩ -
        rw [honly _ n hn hr, honly _ m hm hmr]
      · refine hvalue _ _ ?_
        rw [Spec.GivenOrDrawn, if_neg (show shares ∉ reserved.map Prod.fst from hs), hd]
        dsimp only
        rw [if_pos rfl]
        rfl
      · exact fun n hn => by rw [keys_append]; exact List.mem_append_left _ hn
  obtain ⟨cs, hjs⟩ := hjs
  -- prices
  have hpn : prices ∉ keys (reserved ++ [(shares, (loadShares uniform divide data shares seed).1)]) := by
    rw [keys_append, List.mem_append]
    rintro (h | h)
    · exact hp h
    · exact hsp (by simpa [keys, eq_comm] using h)
  intro m
  have hm : m = simulateProducts uniform divide data reserved shares prices formulations seed := rfl
  unfold simulateProducts at hm
  dsimp only at hm
  generalize (loadShares uniform divide data shares seed) = s at hjs hpn hm
  obtain ⟨jp, cp, hjp⟩ : ∃ j call, LoadInvariant uniform divide data reserved shares seed
      ((loadPrices uniform data prices s.2).2,
       reserved ++ [(shares, s.1), (prices, (loadPrices uniform data prices s.2).1)]) j call := by
    unfold loadPrices
    cases hd : data prices with
    | some v =>
      have := hjs.given hpn hd
      rw [List.append_assoc] at this
      exact ⟨_, _, this⟩
    | none =>
      have := hjs.drawn hpn hd
      rw [List.append_assoc] at this
      exact ⟨_, _, this⟩
  generalize (loadPrices uniform data prices s.2) = q at hjp hm
  obtain ⟨⟨j', call', h'⟩, hk⟩ := loadFormulations_invariant formulations hf hjp
  rw [← hm] at hk
  have hnodup := h'.nodup
  have honce := h'.once
  have hvalues := h'.values
  rw [← hm] at hnodup honce hvalues
  refine ⟨hnodup, fun n => ?_, call', honce, hvalues⟩
  have := hk n
  rw [keys_append, List.mem_append] at this
  rw [show m.map Prod.fst = keys m from rfl, this]
  simp [keys, or_assoc]

/-- Two names are reserved, shares are given, and prices and one characteristic are drawn: the characteristic in both formulations is drawn once. -/
example : simulateProducts (S := ℕ) (ν := ℕ) (V := ℕ) (fun s => (s * s, s + 1)) (fun v => v / 2) (fun n => if n = 1 then some 70 else none)
    [(0, 5)] 1 2 [[4, 3], [3, 4, 9]] 10 = [(0, 5), (1, 70), (2, 100), (3, 121), (4, 144), (9, 169)] := by decide

end

/-! ### Agents -/

section

variable {M A B D V : Type} [LinearOrder M]

/-- **C103** (agents). Without an integration configuration, each agent of a simulation is a row of agent data: all of its fields are from the same
row. Missing: integration configurations, see `C103_refuted_agents`. -/
theorem C103_agents_partial (products : List M) (d : AgentData M A B D V) (hl : Spec.SameLength d) (hm : ∀ t, t ∈ products ↔ t ∈ d.markets)
    (hn : d.nodes.isSome) (hw : d.weights.isSome) :
    ∃ rows, simulationAgents products (some d) none = .ok rows ∧ ∀ i : ℕ, rows[i]? = Spec.agentAt d i :=
  C68_data products d true hl hm hn fun _ => hw

/-- **C103** (agents, continued). With an integration configuration, agents are built for each market in sorted order. Demographics are of the right
agents if market IDs of agent data are exactly those of what is built, in the same order. Missing: other orders and numbers of agents, see
`C103_refuted_agents` and `C103_refuted_rows`. -/
theorem C103_integration_partial (products : List M) (d : AgentData M A B D V) (build : M → List (V × ℚ)) (hb : ∀ t, build t ≠ [])
    (hm : d.markets = (buildMany build (uniqueMarkets products)).map fun p => p.1) (hd : ∀ l ∈ d.demographics, l.length = d.markets.length) :
    ∃ rows, simulationAgents products (some d) (some build) = .ok rows ∧
      rows.map (fun r => (r.market, r.node, r.weight)) = (buildMany build (uniqueMarkets products)).map (fun p => (p.1, some p.2.1, some p.2.2)) ∧
      ∀ i : ℕ, (rows[i]?).map (fun r => (r.market, r.demographic)) = (d.markets[i]?).map fun t => (t, d.demographics.bind fun l => l[i]?) := by
  have hs : structureDemographics (buildMany build (uniqueMarkets products)).length d.demographics = .ok d.demographics := by
    cases h : d.demographics with
    | none => rfl
    | some l =>
      have := hd l (by rw [h]; rfl)
      rw [hm, List.length_map] at this
      unfold structureDemographics
      dsimp only
      rw [if_pos this]
  have hmem : ∀ t, t ∈ products ↔ t ∈ d.markets := by
    intro t
    rw [hm, List.mem_map]
    constructor
    · intro ht
      obtain ⟨p, l, hp⟩ := List.exists_cons_of_ne_nil (hb t)
      refine ⟨(t, p.1, p.2), ?_, rfl⟩
      rw [buildMany, List.mem_flatMap]
      exact ⟨t, (mem_uniqueMarkets _ _).2 ht, by rw [hp]; simp⟩
    · rintro ⟨p, hp, rfl⟩
      rw [buildMany, List.mem_flatMap] at hp
      obtain ⟨t, ht, hp⟩ := hp
      obtain ⟨q, -, rfl⟩ := List.mem_map.1 hp
      exact (mem_uniqueMarkets _ _).1 ht
  obtain ⟨rows, h1, h2⟩ := C68_data products (⟨(buildMany build (uniqueMarkets products)).map fun p => p.1, none, none, d.demographics,
    some ((buildMany build (uniqueMarkets products)).map fun p => p.2.1), some ((buildMany build (uniqueMarkets products)).map fun p => p.2.2)⟩ :
    AgentData M A B D V) true ⟨by simp, by simp, by simpa [hm] using hd, by simp, by simp⟩ (by simpa [hm] using hmem) rfl (fun _ => rfl)
  refine ⟨rows, ?_, ?_, ?_⟩
  · unfold simulationAgents
    dsimp only [Option.elim_some]
    rw [hs]
    exact h1
  · apply List.ext_getElem?
    intro i
    rw [List.getElem?_map, h2 i, List.getElem?_map, Spec.agentAt]
    dsimp only
    rw [List.getElem?_map]
    cases h : (buildMany build (uniqueMarkets products))[i]? with
    | none => rfl
    | some p => simp [h]
  · intro i
    rw [h2 i, Spec.agentAt, hm]
    dsimp only
    rw [Option.map_map]
    rfl

end

theorem uniqueMarkets_two : uniqueMarkets [0, 1] = [0, 1] := (List.toFinset_sort (· ≤ ·) (by decide)).2 (by decide)

/-- **C103** fails for agents with an integration configuration. Market IDs of agent data, which are documented to associate agents with markets, are
ignored, so that demographics are of the wrong markets unless agent data are sorted. Here, the agent of market 1 has a demographic of 10 and
that of market 0 has 20; the simulation swaps them, although a problem with the same data does not. Agent IDs and availability are ignored too. -/
theorem C103_refuted_agents :
    let d : AgentData ℕ ℕ ℕ ℕ ℕ := ⟨[1, 0], some [11, 22], some [1, 2], some [10, 20], none, none⟩
    (∃ rows, simulationAgents [0, 1] (some d) (some fun _ => [(5, 1)]) = .ok rows ∧
      rows.map (fun r => (r.market, r.demographic)) = [(0, some 10), (1, some 20)] ∧
      rows.map (fun r => (r.agentId, r.availability)) = [(none, none), (none, none)]) ∧
    ∃ rows, agentsNew [0, 1] true (some d) (some fun _ => [(5, 1)]) true = .ok rows ∧
      rows.map (fun r => (r.market, r.demographic)) = [(0, some 20), (1, some 10)] := by
  refine ⟨⟨[⟨0, none, some 1, some 5, some 10, none⟩, ⟨1, none, some 1, some 5, some 20, none⟩], ?_, rfl, rfl⟩, ?_⟩
  · unfold simulationAgents
    dsimp only
    rw [uniqueMarkets_two]
    have hrows : buildMany (fun _ : ℕ => [((5 : ℕ), (1 : ℚ))]) [0, 1] = [(0, 5, 1), (1, 5, 1)] := rfl
    rw [hrows]
    have hd : structureDemographics (D := ℕ) 2 (some [10, 20]) = .ok (some [10, 20]) := rfl
    simp only [List.length_cons, List.length_nil, Option.elim_some, Nat.zero_add, Nat.reduceAdd, hd, List.map_cons, List.map_nil]
    unfold agentsNew
    rw [if_neg (by simp)]
    dsimp only
    rw [if_neg (by simp)]
    decide +kernel
  · obtain ⟨rows, h1, h2, -⟩ := C68_ids_refuted
    exact ⟨rows, h1, h2⟩

/-- **C103** fails for agents with an integration configuration in another way: it is documented that there must be at least as many agents in each
market as nodes that are built, but if there are more, a simulation is not possible, although a problem with the same data is. -/
theorem C103_refuted_rows :
    let d : AgentData ℕ ℕ ℕ ℕ ℕ := ⟨[0, 0, 1], none, none, some [10, 15, 20], none, none⟩
    simulationAgents [0, 1] (some d) (some fun _ => [(5, 1)]) = .error .valueError ∧
    ∃ rows, agentsNew [0, 1] true (some d) (some fun _ => [(5, 1)]) true = .ok rows ∧
      rows.map (fun r => (r.market, r.demographic)) = [(0, some 10), (1, some 20)] := by
  refine ⟨?_, [⟨0, none, some 1, some 5, some 10, none⟩, ⟨1, none, some 1, some 5, some 20, none⟩], ?_, rfl⟩
  · unfold simulationAgents
    dsimp only
    rw [uniqueMarkets_two]
    rfl
  · rw [agents_integration [0, 1] _ [10, 15, 20] rfl (by intro t; simp) _ (by simp) (by decide), uniqueMarkets_two]
    decide +kernel

/-- Sorted agent data with an integration configuration: demographics are of the right agents. -/
example : ∃ rows, simulationAgents [1, 0] (some (⟨[0, 0, 1, 1], none, none, some [10, 15, 20, 25], none, none⟩ : AgentData ℕ ℕ ℕ ℕ ℕ))
    (some fun _ => [(5, 1 / 2), (6, 1 / 2)]) = .ok rows ∧ (rows[2]?).map (fun r => (r.market, r.demographic)) = some (1, some 20) := by
  have hu : uniqueMarkets [1, 0] = [0, 1] := by
    rw [← uniqueMarkets_two]
    unfold uniqueMarkets
    congr 1
    decide
  obtain ⟨rows, h1, -, h2⟩ := C103_integration_partial [1, 0] (⟨[0, 0, 1, 1], none, none, some [10, 15, 20, 25], none, none⟩ : AgentData ℕ ℕ ℕ ℕ ℕ)
    (fun _ => [(5, 1 / 2), (6, 1 / 2)]) (by simp) (by rw [hu]; rfl) (by simp)
  exact ⟨rows, h1, h2 2⟩

example : ∃ rows, simulationAgents [1, 0, 1] (some (⟨[1, 0, 1], some [3, 4, 5], none, some [10, 20, 30], some [7, 8, 9], some [1, 1, 1]⟩ : AgentData ℕ ℕ ℕ ℕ ℕ))
    none = .ok rows ∧ rows[1]? = some ⟨0, some 4, some 1, some 8, some 20, none⟩ := by
  obtain ⟨rows, h1, h2⟩ := C103_agents_partial [1, 0, 1] (⟨[1, 0, 1], some [3, 4, 5], none, some [10, 20, 30], some [7, 8, 9], some [1, 1, 1]⟩ :
    AgentData ℕ ℕ ℕ ℕ ℕ) ⟨by simp, by simp, by simp, by simp, by simp⟩ (by simp) rfl rfl
  exact ⟨rows, h1, h2 1⟩

end Pyblp
