import Verif.Model.Realizations
import Verif.Props.BootstrapDraws
import Verif.Props.OptimalInstruments
import Verif.Props.Implicit
import Verif.Lemmas.Sampling
import Mathlib.Probability.UniformOn
import Mathlib.Probability.Independence.InfinitePi

/-!
# C147: realizations behind optimal instruments

For every schedule, prices, shares, mean utilities and Jacobians of a realization are those of the model at estimated parameters and drawn
errors, and averages over draws converge to expectations.
-/

set_option linter.unusedSectionVars false

namespace Pyblp

open Filter Topology MeasureTheory ProbabilityTheory Pyblp.Sampling

variable {ι : Type} [LinearOrder ι] {N : ℕ} {G K1 K2 : Type} {K3 : ℕ} [Fintype G] [DecidableEq G] [Fintype K1] [Fintype K2]

/-! ## Schedules -/

section schedules

variable {e : BootstrapEconomy ι N 1 G K1 K2 K3} {expected : Option (Fin N → ℝ)} {constantCosts : Bool} {solve : DrawSolver e}

/-- A market reads only its own rows of mean utilities. -/
lemma realizationRows_congr (e : BootstrapEconomy ι N 1 G K1 K2 K3) (solve : DrawSolver e) (d d' : Fin N → ℝ) (t : ι)
    (h : ∀ i, e.ids i = t → d i = d' i) :
    realizationRows { e with delta := d } expected constantCosts solve t = realizationRows { e with delta := d' } expected constantCosts solve t := by
  have hc : drawCharacteristic { e with delta := d } 0 t = drawCharacteristic { e with delta := d' } 0 t := by
    unfold drawCharacteristic drawDelta
    congr 1
    funext j
    simp only [h j.1 j.2]
  have hp : ∀ [Nonempty (MarketRows e.ids t)], realizationPrices { e with delta := d } expected constantCosts solve t =
      realizationPrices { e with delta := d' } expected constantCosts solve t := by
    intro _
    unfold realizationPrices
    cases expected with
    | some p => rfl
    | none =>
      have : drawContraction { e with delta := d } 0 t constantCosts = drawContraction { e with delta := d' } 0 t constantCosts := by
        unfold drawContraction
        rw [hc]
        rfl
      simp only
      rw [this]
  funext k
  unfold realizationRows
  simp only
  cases (indicesOf e.ids t)[k]? with
  | none => rfl
  | some i =>
    by_cases hi : e.ids i = t
    · simp only [hi, dif_pos]
      have : Nonempty (MarketRows e.ids t) := ⟨⟨i, hi⟩⟩
      rw [hp, hc]
    · simp only [hi, dif_neg, not_false_iff]

/-- What a market sees of the arrays. -/
def RealizationAgree (e : BootstrapEconomy ι N 1 G K1 K2 K3) (t : ι) (s s' : RealizationState ι N) : Prop :=
  (∀ i, e.ids i = t → s.delta i = s'.delta i ∧ s.prices i = s'.prices i ∧ s.shares i = s'.shares i) ∧ s.jobs t = s'.jobs t

lemma agree_refl (t : ι) (s : RealizationState ι N) : RealizationAgree e t s s := ⟨fun _ _ => ⟨rfl, rfl, rfl⟩, rfl⟩

lemma agree_step (t : ι) {s s' : RealizationState ι N} (h : RealizationAgree e t s s') (v : RealizationEvent ι) (hv : v.market = t) :
    RealizationAgree e t (realizationStep e expected constantCosts solve s v) (realizationStep e expected constantCosts solve s' v) := by
  cases v with
  | build u =>
    have hu : u = t := hv
    subst hu
    refine ⟨h.1, ?_⟩
    simp only [realizationStep, Function.update_self]
    rw [realizationRows_congr e solve s.delta s'.delta u fun i hi => (h.1 i hi).1]
  | write u =>
    have hu : u = t := hv
    subst hu
    simp only [realizationStep]
    rw [h.2]
    cases hj : s'.jobs u with
    | none => simpa only [hj] using h
    | some rows =>
      refine ⟨fun i hi => ?_, h.2⟩
      have hm : i ∈ indicesOf e.ids u := (mem_indicesOf _ _ _).2 hi
      simp only [writeRows, if_pos hm, and_self]

lemma agree_other (t : ι) (s : RealizationState ι N) (v : RealizationEvent ι) (hv : v.market ≠ t) :
    RealizationAgree e t (realizationStep e expected constantCosts solve s v) s := by
  cases v with
  | build u =>
    refine ⟨fun _ _ => ⟨rfl, rfl, rfl⟩, ?_⟩
    have hu : t ≠ u := Ne.symm hv
    simp only [realizationStep]
    rw [Function.update_of_ne hu]
  | write u =>
    simp only [realizationStep]
    cases hj : s.jobs u with
    | none => exact agree_refl t s
    | some rows =>
      refine ⟨fun i hi => ?_, rfl⟩
      have hm : i ∉ indicesOf e.ids u := fun hi' => hv (((mem_indicesOf _ _ _).1 hi').symm.trans hi)
      simp only [writeRows, if_neg hm, and_self]

lemma RealizationAgree.trans {t : ι} {s s' s'' : RealizationState ι N} (h : RealizationAgree e t s s') (h' : RealizationAgree e t s' s'') : RealizationAgree e t s s'' :=
  ⟨fun i hi => ⟨(h.1 i hi).1.trans (h'.1 i hi).1, (h.1 i hi).2.1.trans (h'.1 i hi).2.1, (h.1 i hi).2.2.trans (h'.1 i hi).2.2⟩, h.2.trans h'.2⟩

/-- Only events of a market matter for it. -/
lemma agree_foldl (t : ι) (events : List (RealizationEvent ι)) {s s' : RealizationState ι N} (h : RealizationAgree e t s s') :
    RealizationAgree e t (events.foldl (realizationStep e expected constantCosts solve) s)
      ((events.filter fun v => decide (v.market = t)).foldl (realizationStep e expected constantCosts solve) s') := by
  induction events generalizing s s' with
  | nil => exact h
  | cons v events ih =>
    by_cases hv : v.market = t
    · rw [List.filter_cons_of_pos (by simpa using hv), List.foldl_cons, List.foldl_cons]
      exact ih (agree_step t h v hv)
    · rw [List.filter_cons_of_neg (by simpa using hv), List.foldl_cons]
      exact ih ((agree_other t s v hv).trans h)

lemma filter_pairs (keys : List ι) (hk : keys.Nodup) (t : ι) (ht : t ∈ keys) :
    (keys.flatMap fun t => [RealizationEvent.build t, .write t]).filter (fun v => decide (v.market = t)) = [.build t, .write t] := by
  have hnone : ∀ l : List ι, t ∉ l → (l.flatMap fun t => [RealizationEvent.build t, .write t]).filter (fun v => decide (v.market = t)) = [] := by
    intro l hl
    rw [List.filter_eq_nil_iff]
    intro v hv
    rw [List.mem_flatMap] at hv
    obtain ⟨u, hu, hv⟩ := hv
    have : v.market = u := by
      simp only [List.mem_cons, List.not_mem_nil, or_false] at hv
      rcases hv with rfl | rfl <;> rfl
    simp only [decide_eq_true_eq, this]
    rintro rfl
    exact hl hu
  induction keys with
  | nil => cases ht
  | cons u keys ih =>
    rw [List.nodup_cons] at hk
    rw [List.flatMap_cons, List.filter_append]
    rcases List.mem_cons.1 ht with rfl | ht
    · rw [hnone keys hk.1]
      simp [RealizationEvent.market]
    · have hne : u ≠ t := fun h => hk.1 (h ▸ ht)
      rw [ih hk.2 ht]
      simp [RealizationEvent.market, hne]

lemma serial_order (keys : List ι) (before after : List (RealizationEvent ι)) (t : ι)
    (h : (keys.flatMap fun t => [RealizationEvent.build t, .write t]) = before ++ .write t :: after) : .build t ∈ before := by
  induction keys generalizing before with
  | nil => cases before <;> cases h
  | cons u keys ih =>
    rw [List.flatMap_cons] at h
    match before, h with
    | [], h => injection h with h1 _; cases h1
    | [v], h =>
      injection h with h1 h2
      injection h2 with h3 _
      injection h3 with h4
      rw [← h1, h4]
      exact List.mem_cons_self
    | v :: v' :: before, h =>
      injection h with h1 h2
      injection h2 with h3 h4
      exact List.mem_cons_of_mem _ (List.mem_cons_of_mem _ (ih before h4))

/-- In every schedule, a market is built and then its results are written. -/
lemma filter_schedule {pool : Option ℕ} {keys : List ι} (hk : keys.Nodup) {events : List (RealizationEvent ι)}
    (h : RealizationSchedule pool keys events) (t : ι) (ht : t ∈ keys) :
    events.filter (fun v => decide (v.market = t)) = [.build t, .write t] := by
  unfold RealizationSchedule at h
  cases pool with
  | none => rw [h]; exact filter_pairs keys hk t ht
  | some _ =>
    obtain ⟨hperm, horder⟩ := h
    have hf := hperm.filter fun v => decide (v.market = t)
    rw [filter_pairs keys hk t ht] at hf
    obtain ⟨before, after, rfl⟩ : ∃ before after, events = before ++ .write t :: after := List.append_of_mem (by
      have : RealizationEvent.write t ∈ events.filter fun v => decide (v.market = t) := hf.mem_iff.2 (by simp)
      exact (List.mem_filter.1 this).1)
    have hb := horder before after t rfl
    have hlen := hf.length_eq
    rw [List.filter_append, List.filter_cons_of_pos (by simp [RealizationEvent.market])] at hf hlen ⊢
    have hmem : RealizationEvent.build t ∈ before.filter fun v => decide (v.market = t) := List.mem_filter.2 ⟨hb, by simp [RealizationEvent.market]⟩
    match hbf : before.filter (fun v => decide (v.market = t)), haf : after.filter (fun v => decide (v.market = t)) with
    | [], _ => rw [hbf] at hmem; cases hmem
    | [v], [] =>
      rw [hbf, List.mem_singleton] at hmem
      rw [hbf, haf, ← hmem]; rfl
    | [v], _ :: _ => rw [hbf, haf] at hlen; simp at hlen
    | _ :: _ :: _, _ => rw [hbf] at hlen; simp at hlen

/-- For every schedule, results of a product are those of its market, built with mean utilities from before any results were written. -/
lemma realization_row {pool : Option ℕ} {events : List (RealizationEvent ι)} (h : RealizationSchedule pool (uniqueIds e.ids) events) (t : ι)
    [Nonempty (MarketRows e.ids t)] (j : MarketRows e.ids t) :
    let s := computeRealization e expected constantCosts solve events
    s.prices j = realizationPrices e expected constantCosts solve t j ∧
      s.shares j = sharesAt (e.market 0 t) (drawCharacteristic e 0 t) (realizationPrices e expected constantCosts solve t) j ∧
      s.delta j = updateDelta (drawCharacteristic e 0 t) (realizationPrices e expected constantCosts solve t) j := by
  obtain ⟨i, rfl⟩ := j
  have hf := filter_schedule (nodup_uniqueIds e.ids) h (e.ids i) ((mem_uniqueIds _ _).2 ⟨i, rfl⟩)
  have ha := agree_foldl (e := e) (expected := expected) (constantCosts := constantCosts) (solve := solve) (e.ids i) events
    (agree_refl (e := e) (e.ids i) ⟨e.delta, fun _ => 0, fun _ => 0, fun _ => none⟩)
  rw [hf] at ha
  have hm : i ∈ indicesOf e.ids (e.ids i) := (mem_indicesOf _ _ _).2 rfl
  obtain ⟨h1, h2, h3⟩ := ha.1 i rfl
  simp only [List.foldl_cons, List.foldl_nil, realizationStep, Function.update_self, writeRows, if_pos hm, idxOf_indices] at h1 h2 h3
  have hrow : realizationRows e expected constantCosts solve (e.ids i) (Spec.position e.ids i) =
      ⟨realizationPrices e expected constantCosts solve (e.ids i) ⟨i, rfl⟩,
        sharesAt (e.market 0 (e.ids i)) (drawCharacteristic e 0 (e.ids i)) (realizationPrices e expected constantCosts solve (e.ids i)) ⟨i, rfl⟩,
        updateDelta (drawCharacteristic e 0 (e.ids i)) (realizationPrices e expected constantCosts solve (e.ids i)) ⟨i, rfl⟩⟩ := by
    unfold realizationRows
    simp only [getElem_position]
    rw [dif_pos trivial]
  refine ⟨h2.trans ?_, h3.trans ?_, h1.trans ?_⟩ <;> exact congrArg _ hrow

end schedules

/-! ## The model at drawn errors -/

namespace Spec

/-- The mean utility of a product with price `p` when its unobserved characteristic is `draw` and not the estimated one, `xi`. -/
def realizedUtility (e : BootstrapEconomy ι N 1 G K1 K2 K3) (xi draw : Fin N → ℝ) (i : Fin N) (p : ℝ) : ℝ :=
  (∑ k, e.beta k * e.x1 k i p) + (e.delta i - xi i - ∑ k, e.beta k * e.x1 k i (e.prices i)) + draw i

/-- Market shares as a function of prices when unobserved characteristics are `draw`. -/
noncomputable def realizedShares (e : BootstrapEconomy ι N 1 G K1 K2 K3) (xi draw : Fin N → ℝ) (t : ι) [Nonempty (MarketRows e.ids t)]
    (p : MarketRows e.ids t → ℝ) : MarketRows e.ids t → ℝ :=
  computeShares (e.market 0 t) {} (fun j => realizedUtility e xi draw j (p j)) fun j a => ∑ k, e.x2 k j (p j) * e.coef 0 t k a j

/-- The marginal cost of a product when its unobserved part is `draw` and not the estimated one, `omega`. -/
noncomputable def realizedCost (e : BootstrapEconomy ι N 1 G K1 K2 K3) (omega draw : Fin N → ℝ) (i : Fin N) : ℝ :=
  if e.logCosts then Real.exp (e.tildeCosts i - omega i + draw i) else e.tildeCosts i - omega i + draw i

end Spec

section realizations

variable {e : BootstrapEconomy ι N 1 G K1 K2 K3} {xi omega xiDraw omegaDraw : Fin N → ℝ} {expected : Option (Fin N → ℝ)} {constantCosts : Bool}
  {solve : DrawSolver e} {pool : Option ℕ} {events : List (RealizationEvent ι)}

instance (t : ι) [h : Nonempty (MarketRows e.ids t)] : Nonempty (MarketRows (realizationEconomy e xi omega xiDraw omegaDraw).ids t) := h

lemma realization_valid (hv : Spec.DrawFormulasValid e) : Spec.DrawFormulasValid (realizationEconomy e xi omega xiDraw omegaDraw) :=
  ⟨hv.x1, hv.x2, hv.x3⟩

lemma realization_utility (i : Fin N) (p : ℝ) :
    Spec.drawUtility (realizationEconomy e xi omega xiDraw omegaDraw) 0 i p = Spec.realizedUtility e xi xiDraw i p := by
  unfold Spec.drawUtility Spec.unexplainedUtility Spec.realizedUtility realizationEconomy realizationDelta
  ring

lemma realization_shares (t : ι) [Nonempty (MarketRows e.ids t)] :
    Spec.drawShares (realizationEconomy e xi omega xiDraw omegaDraw) 0 t = Spec.realizedShares e xi xiDraw t := by
  funext p j
  unfold Spec.drawShares Spec.realizedShares
  simp only [realization_utility]
  rfl

/-- **C147.** Whatever the order in which markets are built and results are written, mean utilities of a realization are those of the model at
estimated parameters, drawn errors and prices of the realization, and shares are market shares at these prices. -/
theorem C147_demand (hv : Spec.DrawFormulasValid e) (h : RealizationSchedule pool (uniqueIds e.ids) events) (t : ι)
    [Nonempty (MarketRows e.ids t)] (j : MarketRows e.ids t) :
    let s := computeRealization (realizationEconomy e xi omega xiDraw omegaDraw) expected constantCosts solve events
    s.delta j = Spec.realizedUtility e xi xiDraw j (s.prices j) ∧ s.shares j = Spec.realizedShares e xi xiDraw t (fun k => s.prices k) j := by
  intro s
  have hrow := fun k => realization_row (e := realizationEconomy e xi omega xiDraw omegaDraw) (expected := expected) (constantCosts := constantCosts)
    (solve := solve) h t k
  have hp : (fun k : MarketRows e.ids t => s.prices k) =
      realizationPrices (realizationEconomy e xi omega xiDraw omegaDraw) expected constantCosts solve t := funext fun k => (hrow k).1
  obtain ⟨h1, h2, h3⟩ := hrow j
  constructor
  · have := updateDelta_draw (realization_valid (xi := xi) (omega := omega) (xiDraw := xiDraw) (omegaDraw := omegaDraw) hv) 0 t
      (realizationPrices (realizationEconomy e xi omega xiDraw omegaDraw) expected constantCosts solve t) j
    rw [realization_utility, ← h1] at this
    exact h3.trans this
  · have hs := sharesAt_draw (realization_valid (xi := xi) (omega := omega) (xiDraw := xiDraw) (omegaDraw := omegaDraw) hv) 0 t
    rw [realization_shares] at hs
    rw [hp, ← hs]
    exact h2

/-- **C147.** Expected prices are used as they are. -/
theorem C147_prices (prices : Fin N → ℝ) (h : RealizationSchedule pool (uniqueIds e.ids) events) (i : Fin N) :
    (computeRealization (realizationEconomy e xi omega xiDraw omegaDraw) (some prices) constantCosts solve events).prices i = prices i := by
  have : Nonempty (MarketRows e.ids (e.ids i)) := ⟨⟨i, rfl⟩⟩
  exact (realization_row (e := realizationEconomy e xi omega xiDraw omegaDraw) (solve := solve) h (e.ids i) ⟨i, rfl⟩).1

/-- **C147.** Prices are solved for if and only if none are given, and there is a supply side in which shares are not formulated. -/
theorem C147_plan (given : Option (Fin N → ℝ)) (k3 : ℕ) (has3 : Fin k3 → Bool) (fitted : Fin N → ℝ) :
    (plannedPrices given k3 has3 fitted = none ↔ given = none ∧ 0 < k3 ∧ ∀ k, has3 k = false) ∧
      (∀ p, given = some p → plannedPrices given k3 has3 fitted = some p) ∧
      (given = none → ∀ p, plannedPrices given k3 has3 fitted = some p → p = fitted) := by
  refine ⟨?_, ?_, ?_⟩
  · cases given with
    | some p => simp [plannedPrices]
    | none =>
      unfold plannedPrices
      simp only
      split_ifs with h
      · simp only [true_and, true_iff]
        exact ⟨h.1, fun k => by simpa using fun hk => h.2 ⟨k, hk⟩⟩
      · simp only [true_and, false_iff]
        rintro ⟨h1, h2⟩
        exact h ⟨h1, fun ⟨k, hk⟩ => by rw [h2 k] at hk; cases hk⟩
  · rintro p rfl
    rfl
  · rintro rfl p hp
    unfold plannedPrices at hp
    simp only at hp
    split_ifs at hp
    exact (Option.some.inj hp).symm

/-- **C147.** If prices are solved for and the iteration of a market has arrived at a fixed point, then every price is optimal for the firm that
sells the product: it satisfies the first order condition at market shares with drawn unobserved characteristics and drawn marginal costs. -/
theorem C147_supply (hv : Spec.DrawFormulasValid e) (h : RealizationSchedule pool (uniqueIds e.ids) events) {given : Option (Fin N → ℝ)}
    {fitted : Fin N → ℝ} (hplan : plannedPrices given K3 e.has3 fitted = none) (t : ι) [Nonempty (MarketRows e.ids t)]
    (hm : WellFormed (e.market 0 t)) (hs : (drawCharacteristic e 0 t).Smooth) (hO : ∀ j, e.ownership t j j = 1)
    (p : MarketRows e.ids t → ℝ) (hsolve : p = solve 0 t (drawContraction (realizationEconomy e xi omega xiDraw omegaDraw) 0 t constantCosts) fun j => e.prices j)
    (hfixed : drawContraction (realizationEconomy e xi omega xiDraw omegaDraw) 0 t constantCosts p = p)
    (hl : ∀ j, capitalLamda (e.market 0 t)
      (probabilitiesAt (e.market 0 t) (drawCharacteristic (realizationEconomy e xi omega xiDraw omegaDraw) 0 t) p)
      (utilityDerivatives (e.market 0 t) (drawCharacteristic (realizationEconomy e xi omega xiDraw omegaDraw) 0 t) p) j ≠ 0)
    (j : MarketRows e.ids t) :
    Spec.FirstOrderCondition (Spec.realizedShares e xi xiDraw t) (fun k => e.ownership t k j) (fun k => Spec.realizedCost e omega omegaDraw k)
      (fun k => (computeRealization (realizationEconomy e xi omega xiDraw omegaDraw) none constantCosts solve events).prices k) j := by
  have hp : (fun k : MarketRows e.ids t =>
      (computeRealization (realizationEconomy e xi omega xiDraw omegaDraw) none constantCosts solve events).prices k) = p := by
    rw [hsolve]
    exact funext fun k => (realization_row (e := realizationEconomy e xi omega xiDraw omegaDraw) (expected := none) (constantCosts := constantCosts)
      (solve := solve) h t k).1
  rw [hp]
  have hv' := realization_valid (xi := xi) (omega := omega) (xiDraw := xiDraw) (omegaDraw := omegaDraw) hv
  obtain ⟨-, -, h3⟩ := ((C147_plan given K3 e.has3 fitted).1.mp hplan)
  have hcost : ∀ (i : Fin N) (s : ℝ), Spec.drawCost (realizationEconomy e xi omega xiDraw omegaDraw) 0 i s = Spec.realizedCost e omega omegaDraw i := by
    intro i s
    have hx : ∑ k, e.gamma k * e.x3 k i s = ∑ k, e.gamma k * e.x3 k i (e.shares i) :=
      Finset.sum_congr rfl fun k _ => by rw [hv.x3 k (h3 k) i s (e.shares i)]
    have : (∑ k, e.gamma k * e.x3 k i s) + (e.tildeCosts i - omega i + omegaDraw i - ∑ k, e.gamma k * e.x3 k i (e.shares i)) =
        e.tildeCosts i - omega i + omegaDraw i := by rw [hx]; ring
    unfold Spec.drawCost Spec.unexplainedCost Spec.realizedCost realizationEconomy
    simp only [this]
  rw [drawContraction_eq hv'] at hfixed
  have hs' : (drawCharacteristic (realizationEconomy e xi omega xiDraw omegaDraw) 0 t).Smooth := ⟨hs.x1, hs.d1, hs.x2, hs.d2⟩
  have := (C31_fixed_point_iff_foc (e.market 0 t) hm _ hs' (e.ownership t) hO _ _ hl).mp hfixed j
  have hsh : sharesAt (e.market 0 t) (drawCharacteristic (realizationEconomy e xi omega xiDraw omegaDraw) 0 t) = Spec.realizedShares e xi xiDraw t :=
    (sharesAt_draw hv' 0 t).trans (realization_shares t)
  simp only [hcost] at this
  rw [hsh] at this
  exact this

/-- **C147.** Results are the same for all schedules, with a pool or without. -/
theorem C147_schedules {pool' : Option ℕ} {events' : List (RealizationEvent ι)} (h : RealizationSchedule pool (uniqueIds e.ids) events)
    (h' : RealizationSchedule pool' (uniqueIds e.ids) events') (i : Fin N) :
    let s := computeRealization (realizationEconomy e xi omega xiDraw omegaDraw) expected constantCosts solve events
    let s' := computeRealization (realizationEconomy e xi omega xiDraw omegaDraw) expected constantCosts solve events'
    s.prices i = s'.prices i ∧ s.shares i = s'.shares i ∧ s.delta i = s'.delta i := by
  intro s s'
  have : Nonempty (MarketRows e.ids (e.ids i)) := ⟨⟨i, rfl⟩⟩
  obtain ⟨h1, h2, h3⟩ := realization_row (e := realizationEconomy e xi omega xiDraw omegaDraw) (expected := expected) (constantCosts := constantCosts)
    (solve := solve) h (e.ids i) ⟨i, rfl⟩
  obtain ⟨h1', h2', h3'⟩ := realization_row (e := realizationEconomy e xi omega xiDraw omegaDraw) (expected := expected) (constantCosts := constantCosts)
    (solve := solve) h' (e.ids i) ⟨i, rfl⟩
  exact ⟨h1.trans h1'.symm, h2.trans h2'.symm, h3.trans h3'.symm⟩

variable {V W : Type} [Fintype V] [DecidableEq V] [Fintype W] [DecidableEq W] [DecidableEq K2]

/-- **C147.** The Jacobian of a realization is how mean utilities have to change with a parameter so that the model continues to explain shares of
the realization at its prices. -/
theorem C147_jacobian (hv : Spec.DrawFormulasValid e) (h : RealizationSchedule pool (uniqueIds e.ids) events) (t : ι) [Nonempty (MarketRows e.ids t)]
    (hm : WellFormed (e.market 0 t)) (hw : ∀ a, 0 ≤ (e.market 0 t).weights a)
    (hoff : ∀ j, ∃ a, 0 < (e.market 0 t).weights a ∧ Offered (e.market 0 t) {} a j)
    (T : Tastes (MarketRows e.ids t) (Fin (e.agents t)) K2 V W) (sigma : K2 → V → ℝ) (pi : K2 → W → ℝ)
    (hcoef : ∀ k a j, e.coef 0 t k a j = randomCoefficient T sigma pi k a j) (p : TangentParam (MarketRows e.ids t) G K2 V W)
    (hp : Spec.Fits p (e.market 0 t)) (hint : RhoInterior (e.market 0 t) p) (inverse : MarketRows e.ids t → MarketRows e.ids t → ℝ) :
    let s := computeRealization (realizationEconomy e xi omega xiDraw omegaDraw) expected constantCosts solve events
    let T' : Tastes (MarketRows e.ids t) (Fin (e.agents t)) K2 V W := { T with X2 := fun (j : MarketRows e.ids t) k => e.x2 k j (s.prices j) }
    let delta := fun j : MarketRows e.ids t => s.delta j
    (∀ j l, ∑ k, inverse j k * sharesByXiJacobian (e.market 0 t) (computeShares (e.market 0 t) {} delta (computeMu T' sigma pi))
      (computeProbabilities (e.market 0 t) {} delta (computeMu T' sigma pi)) (computeConditionals (e.market 0 t) {} delta (computeMu T' sigma pi)) k l =
      if j = l then 1 else 0) →
    ∀ d : ℝ → MarketRows e.ids t → ℝ, d 0 = delta →
      (∀ᶠ x in 𝓝 (0 : ℝ), Spec.sharesOf (e.market 0 t) T' sigma pi {} p (x, d x) = fun j : MarketRows e.ids t => s.shares j) → ∀ j,
        HasDerivAt (fun x => d x j) (realizationXiJacobian (realizationEconomy e xi omega xiDraw omegaDraw) s t T sigma pi inverse p j) 0 := by
  intro s T' delta hinv d hd0 hd j
  have hT : realizationTastes (realizationEconomy e xi omega xiDraw omegaDraw) t T s.prices = T' := by
    unfold realizationTastes
    have hX : (fun (j : MarketRows e.ids t) k => if e.has2 k = true then e.x2 k j (s.prices j) else e.x2 k j (e.prices j)) =
        fun (j : MarketRows e.ids t) k => e.x2 k j (s.prices j) := by
      funext j k
      split_ifs with hk
      · rfl
      · exact hv.x2 k (by simpa using hk) _ _ _
    exact congrArg (fun X => ({ T with X2 := X } : Tastes (MarketRows e.ids t) (Fin (e.agents t)) K2 V W)) hX
  have hs : (fun j : MarketRows e.ids t => s.shares j) = computeShares (e.market 0 t) {} delta (computeMu T' sigma pi) := by
    funext k
    have h1 := (C147_demand (xi := xi) (omega := omega) (xiDraw := xiDraw) (omegaDraw := omegaDraw) (expected := expected)
      (constantCosts := constantCosts) (solve := solve) hv h t)
    refine (h1 k).2.trans ?_
    unfold Spec.realizedShares
    congr 1
    · funext l; exact (h1 l).1.symm
    · funext l a
      unfold computeMu
      exact Finset.sum_congr rfl fun q _ => by rw [hcoef]; rfl
  rw [hs] at hd
  have := C84_xi_by_theta (e.market 0 t) hm T' sigma pi true delta p hp hw hoff hint inverse hinv d ⟨hd0, hd⟩ j
  refine this.congr_deriv ?_
  unfold realizationXiJacobian
  simp only [hT]
  rfl

end realizations

/-- **C147.** Elements of Jacobians that are not finite are replaced by estimated ones, and no others. -/
theorem C147_reversion {α : Type} (estimated : α → ℝ) (computed : α → Option ℝ) (a : α) :
    (computed a = none → revertJacobian estimated computed a = estimated a) ∧ ∀ x, computed a = some x → revertJacobian estimated computed a = x := by
  unfold revertJacobian
  exact ⟨fun h => by rw [h]; rfl, fun x h => by rw [h]; rfl⟩

/-! ## Averages over draws -/

section averages

variable {Ω E : Type} [MeasurableSpace Ω] [MeasurableSpace E] {μ : Measure Ω} {law : Measure E} {w : ℕ → Ω → E}

/-- **C147.** Averages of an output over independent draws of errors have the output's expectation, for every number of draws. -/
theorem C147_unbiased (hw : Draws μ law w) (g : E → ℝ) (hg : Measurable g) (hi : Integrable g law) (draws : ℕ) (hd : 0 < draws) :
    ∫ ω, averageRealizations draws (fun d (_ : Unit) => g (w d ω)) () ∂μ = ∫ x, g x ∂law := by
  simp only [C80_average]
  rw [integral_div, integral_finsetSum _ fun d _ => hw.integrable g hg hi d]
  simp only [hw.integral g hg]
  rw [Finset.sum_const, Finset.card_range, nsmul_eq_mul]
  have : (draws : ℝ) ≠ 0 := by positivity
  field_simp

/-- **C147.** Their variance is that of the output divided by the number of draws. -/
theorem C147_variance [IsProbabilityMeasure μ] (hw : Draws μ law w) (g : E → ℝ) (hg : Measurable g) (hi : MemLp g 2 law) (draws : ℕ) (hd : 0 < draws) :
    Var[fun ω => averageRealizations draws (fun d (_ : Unit) => g (w d ω)) (); μ] = Var[g; law] / draws := by
  have hmem : ∀ d, MemLp (fun ω => g (w d ω)) 2 μ := fun d => by
    have := hi
    rw [← hw.law d] at this
    exact (memLp_map_measure_iff hg.aestronglyMeasurable (hw.measurable d).aemeasurable).mp this
  have hvar : ∀ d, Var[fun ω => g (w d ω); μ] = Var[g; law] := fun d => by
    rw [← hw.law d, variance_map hg.aemeasurable (hw.measurable d).aemeasurable]
    rfl
  have h1 : (fun ω => averageRealizations draws (fun d (_ : Unit) => g (w d ω)) ()) =
      fun ω => (draws : ℝ)⁻¹ * (∑ d ∈ Finset.range draws, fun ω => g (w d ω)) ω := by
    funext ω
    rw [C80_average, Finset.sum_apply]
    ring
  rw [h1, variance_const_mul, IndepFun.variance_sum (fun d _ => hmem d) fun a _ b _ hab => (hw.indep hab).comp hg hg]
  simp only [hvar]
  rw [Finset.sum_const, Finset.card_range, nsmul_eq_mul]
  have : (draws : ℝ) ≠ 0 := by positivity
  field_simp

variable {M P : Type} [Fintype M] [Fintype P]

lemma average_limit (hw : Draws μ law w) (g : E → M → P → ℝ) (hg : ∀ i p, Measurable fun x => g x i p) (hi : ∀ i p, Integrable (fun x => g x i p) law) :
    ∀ᵐ ω ∂μ, ∀ i p, Tendsto (fun draws => averageRealizations draws (fun d (a : M × P) => g (w d ω) a.1 a.2) (i, p)) atTop (𝓝 (∫ x, g x i p ∂law)) := by
  rw [ae_all_iff]
  intro i
  rw [ae_all_iff]
  intro p
  filter_upwards [hw.strong_law _ (hg i p) (hi i p)] with ω h
  exact h.congr fun draws => by rw [C80_average]

/-- **C147.** Without a supply side, instruments converge with probability one, as the number of draws grows, to expected Jacobians divided by the
variance of estimated errors. -/
theorem C147_instruments (hw : Draws μ law w) (xi : M → ℝ) (jacobian : E → M → P → ℝ) (hm : ∀ i p, Measurable fun x => jacobian x i p)
    (hi : ∀ i p, Integrable (fun x => jacobian x i p) law) :
    ∀ᵐ ω ∂μ, ∀ i p, Tendsto (fun draws => demandInstruments xi
      (fun i p => averageRealizations draws (fun d (a : M × P) => jacobian (w d ω) a.1 a.2) (i, p)) i p) atTop
      (𝓝 ((∫ x, jacobian x i p ∂law) / npVar xi)) := by
  filter_upwards [average_limit hw jacobian hm hi] with ω h i p
  have := (h i p).const_mul (1 / npVar xi)
  rw [one_div, ← div_eq_inv_mul] at this
  unfold demandInstruments
  simpa only [one_div] using this

/-- **C147.** With a supply side, they converge to what the covariance matrix of estimated errors has to be multiplied with to give expected demand-
and supply-side Jacobians. -/
theorem C147_joint {n : ℕ} (hw : Draws μ law w) (xi omega : M → ℝ) (inverse : Matrix (Fin 2) (Fin 2) ℝ) (hinv : errorCovariance xi omega * inverse = 1)
    (jx jo : E → M → Fin n → ℝ) (hmx : ∀ i p, Measurable fun x => jx x i p) (hix : ∀ i p, Integrable (fun x => jx x i p) law)
    (hmo : ∀ i p, Measurable fun x => jo x i p) (hio : ∀ i p, Integrable (fun x => jo x i p) law) :
    ∀ᵐ ω ∂μ, ∃ ZD ZS : M → Fin n → ℝ, (∀ i p, npCov xi xi * ZD i p + npCov xi omega * ZS i p = ∫ x, jx x i p ∂law ∧
        npCov omega xi * ZD i p + npCov omega omega * ZS i p = ∫ x, jo x i p ∂law) ∧
      ∀ i p, Tendsto (fun draws => (splitInstruments (jointInstruments inverse
          (fun i p => averageRealizations draws (fun d (a : M × Fin n) => jx (w d ω) a.1 a.2) (i, p))
          (fun i p => averageRealizations draws (fun d (a : M × Fin n) => jo (w d ω) a.1 a.2) (i, p)))).1 i p) atTop (𝓝 (ZD i p)) ∧
        Tendsto (fun draws => (splitInstruments (jointInstruments inverse
          (fun i p => averageRealizations draws (fun d (a : M × Fin n) => jx (w d ω) a.1 a.2) (i, p))
          (fun i p => averageRealizations draws (fun d (a : M × Fin n) => jo (w d ω) a.1 a.2) (i, p)))).2 i p) atTop (𝓝 (ZS i p)) := by
  filter_upwards [average_limit hw jx hmx hix, average_limit hw jo hmo hio] with ω h1 h2
  refine ⟨_, _, fun i p => C80_joint xi omega inverse hinv (fun i p => ∫ x, jx x i p ∂law) (fun i p => ∫ x, jo x i p ∂law) i p, fun i p => ?_⟩
  rw [splitInstruments_eq]
  have key : ∀ a, Tendsto (fun draws => jointInstruments inverse
      (fun i p => averageRealizations draws (fun d (a : M × Fin n) => jx (w d ω) a.1 a.2) (i, p))
      (fun i p => averageRealizations draws (fun d (a : M × Fin n) => jo (w d ω) a.1 a.2) (i, p)) i a p) atTop
      (𝓝 (jointInstruments inverse (fun i p => ∫ x, jx x i p ∂law) (fun i p => ∫ x, jo x i p ∂law) i a p)) := by
    intro a
    unfold jointInstruments
    refine tendsto_finsetSum _ fun b _ => Tendsto.const_mul _ ?_
    split_ifs
    · exact h1 i p
    · exact h2 i p
  constructor
  · simpa only [splitInstruments_eq] using key 0
  · simpa only [splitInstruments_eq] using key 1

/-- **C147.** With the empirical method, if all assignments of estimated errors to products are equally likely, averages of an output converge with
probability one to its average over all these assignments. -/
theorem C147_empirical [DecidableEq M] [Nonempty M] [MeasurableSpace (M → M)] [MeasurableSingletonClass (M → M)] {uniform : Measure (M → M)} [IsProbabilityMeasure uniform]
    (hu : ∀ c, uniform.real {c} = 1 / Fintype.card (M → M)) {choice : ℕ → Ω → M → M} (hc : Draws μ uniform choice) (xi omega : M → ℝ)
    (normal : (M → ℝ) × (M → ℝ)) (g : (M → ℝ) × (M → ℝ) → ℝ) :
    ∀ᵐ ω ∂μ, Tendsto (fun draws => averageRealizations draws (fun d (_ : Unit) => g (sampleErrors .empirical xi omega normal (choice d ω))) ()) atTop
      (𝓝 ((∑ c : M → M, g (fun i => xi (c i), fun i => omega (c i))) / Fintype.card (M → M))) := by
  have hm : Measurable fun c : M → M => g (fun i => xi (c i), fun i => omega (c i)) := measurable_of_finite _
  have hi : Integrable (fun c : M → M => g (fun i => xi (c i), fun i => omega (c i))) uniform := Integrable.of_finite
  filter_upwards [hc.strong_law _ hm hi] with ω h
  rw [integral_fintype hi] at h
  simp only [hu, smul_eq_mul] at h
  rw [← Finset.mul_sum, one_div, ← div_eq_inv_mul] at h
  exact h.congr fun draws => by rw [C80_average]; rfl

end averages

/-- **C147.** With the approximate method, averages are outputs at errors of zero, whatever number of draws is given. -/
theorem C147_approximate {M : Type} (draws : ℤ) (xi omega : M → ℝ) (normal : (M → ℝ) × (M → ℝ)) (choice : M → M) (g : (M → ℝ) × (M → ℝ) → ℝ) :
    ∃ n, errorDraws .approximate draws = some n ∧
      averageRealizations n (fun _ (_ : Unit) => g (sampleErrors .approximate xi omega normal choice)) () = g (fun _ => 0, fun _ => 0) := by
  refine ⟨1, by simp [errorDraws], ?_⟩
  rw [C80_average]
  simp [sampleErrors]

/-- **C147.** Other numbers of draws are rejected if and only if they are not positive. -/
theorem C147_draws (method : DrawMethod) (draws : ℤ) (h : method ≠ .approximate) :
    (errorDraws method draws = none ↔ draws < 1) ∧ ∀ n, errorDraws method draws = some n → (n : ℤ) = draws := by
  unfold errorDraws
  simp only [if_neg h]
  constructor
  · split_ifs with h1 <;> simp [h1]
  · intro n hn
    split_ifs at hn with h1
    have := Option.some.inj hn
    omega

/-! ## A monopolist -/

/-- Estimates for a monopolist with a price of one whose marginal cost does not depend on its share. -/
noncomputable def estimatedMonopolist : BootstrapEconomy Unit 1 1 Unit Unit (Fin 0) 1 :=
  { drawnMonopolist 3 1 (1 / 4) (-1) 0 with
    delta := fun _ => 5
    tildeCosts := fun _ => 2
    has3 := fun _ => false
    x3 := fun _ _ _ => 1
    d3 := fun _ _ _ => 0 }

/-- Its estimated errors are two and three, and drawn ones are minus one and two. -/
noncomputable def realizedMonopolist : BootstrapEconomy Unit 1 1 Unit Unit (Fin 0) 1 :=
  realizationEconomy estimatedMonopolist (fun _ => 2) (fun _ => 3) (fun _ => -1) fun _ => 2

instance : Nonempty (MarketRows estimatedMonopolist.ids ()) := ⟨⟨0, rfl⟩⟩

instance : Nonempty (MarketRows realizedMonopolist.ids ()) := ⟨⟨0, rfl⟩⟩

lemma estimatedMonopolist_valid : Spec.DrawFormulasValid estimatedMonopolist where
  x1 := fun k h => by cases h
  x2 := fun k => k.elim0
  x3 := fun _ _ _ _ _ => rfl

lemma realizedMonopolist_updates :
    updateDelta (drawCharacteristic realizedMonopolist 0 ()) (fun _ => 3) = updateDelta (characteristicOf (monopolist 3) ()) (fun _ => 3) ∧
      updateMu (drawCharacteristic realizedMonopolist 0 ()) (fun _ => 3) = updateMu (characteristicOf (monopolist 3) ()) (fun _ => 3) := by
  refine ⟨?_, ?_⟩
  · funext k
    rw [updateDelta_characteristicOf (monopolist_valid 3)]
    refine (updateDelta_draw (realization_valid estimatedMonopolist_valid) 0 () (fun _ => 3) k).trans ?_
    rw [realization_utility]
    simp [Spec.realizedUtility, estimatedMonopolist, drawnMonopolist, Spec.meanUtility, monopolist]
    norm_num
  · funext k a
    unfold updateMu
    rw [Finset.univ_eq_empty, Finset.sum_empty, Finset.sum_empty]

lemma realizedMonopolist_probabilities :
    probabilitiesAt (realizedMonopolist.market 0 ()) (drawCharacteristic realizedMonopolist 0 ()) (fun _ => 3) =
      probabilitiesAt ((monopolist 3).market ()) (characteristicOf (monopolist 3) ()) fun _ => 3 := by
  unfold probabilitiesAt
  rw [realizedMonopolist_updates.1, realizedMonopolist_updates.2]
  rfl

lemma realizedMonopolist_lamda (j : MarketRows realizedMonopolist.ids ()) :
    capitalLamda (realizedMonopolist.market 0 ()) (probabilitiesAt (realizedMonopolist.market 0 ()) (drawCharacteristic realizedMonopolist 0 ()) fun _ => 3)
      (utilityDerivatives (realizedMonopolist.market 0 ()) (drawCharacteristic realizedMonopolist 0 ()) fun _ => 3) j ≠ 0 := by
  rw [realizedMonopolist_probabilities]
  have := monopolist_lamda 3 j
  intro h
  rw [show (0 : ℝ) = 0 from rfl] at h
  exact absurd (h.symm.trans this) (by norm_num)

lemma realizedMonopolist_fixed (constantCosts : Bool) : drawContraction realizedMonopolist 0 () constantCosts (fun _ => 3) = fun _ => 3 := by
  rw [drawContraction_eq (e := realizedMonopolist) (realization_valid estimatedMonopolist_valid)]
  refine Eq.trans ?_ (monopolist_fixed 3
    (fun j y => Spec.drawCost realizedMonopolist 0 j (if constantCosts then realizedMonopolist.shares j else y)) fun j => ?_)
  · exact priceContraction_congr _ _ _ _ _ _ realizedMonopolist_updates.1 realizedMonopolist_updates.2 rfl
  · simp [Spec.drawCost, Spec.unexplainedCost, realizedMonopolist, realizationEconomy, estimatedMonopolist, drawnMonopolist]
    norm_num

/-- The only schedule of one market. -/
lemma soleSchedule : RealizationSchedule none (uniqueIds estimatedMonopolist.ids) ((uniqueIds estimatedMonopolist.ids).flatMap fun t => [.build t, .write t]) :=
  rfl

/-- Non-vacuity of C147: at drawn errors the price is three, the mean utility zero and the share one half, and the price is optimal at a marginal cost of one. -/
example : let s := computeRealization realizedMonopolist none true (fun _ _ _ _ _ => 3) ((uniqueIds estimatedMonopolist.ids).flatMap fun t => [.build t, .write t])
    s.prices 0 = 3 ∧ s.delta 0 = 0 ∧ s.shares 0 = 1 / 2 ∧ Spec.realizedCost estimatedMonopolist (fun _ => 3) (fun _ => 2) 0 = 1 ∧
      Spec.FirstOrderCondition (Spec.realizedShares estimatedMonopolist (fun _ => 2) (fun _ => -1) ()) (fun k => estimatedMonopolist.ownership () k ⟨0, rfl⟩)
        (fun k => Spec.realizedCost estimatedMonopolist (fun _ => 3) (fun _ => 2) k) (fun k => s.prices k) ⟨0, rfl⟩ := by
  intro s
  obtain ⟨h1, h2, h3⟩ := realization_row (e := realizedMonopolist) (expected := none) (constantCosts := true) (solve := fun _ _ _ _ _ => 3) soleSchedule ()
    ⟨0, rfl⟩
  have hd := (C147_demand (xi := fun _ => 2) (omega := fun _ => 3) (xiDraw := fun _ => -1) (omegaDraw := fun _ => 2) (expected := none)
    (constantCosts := true) (solve := fun _ _ _ _ _ => 3) estimatedMonopolist_valid soleSchedule () ⟨0, rfl⟩).1
  have hp : s.prices 0 = 3 := h1
  refine ⟨hp, ?_, ?_, ?_, ?_⟩
  · refine hd.trans ?_
    rw [show (computeRealization (realizationEconomy estimatedMonopolist (fun _ => 2) (fun _ => 3) (fun _ => -1) fun _ => 2) none true
      (fun _ _ _ _ _ => 3) ((uniqueIds estimatedMonopolist.ids).flatMap fun t => [.build t, .write t])).prices 0 = 3 from hp]
    simp [Spec.realizedUtility, estimatedMonopolist, drawnMonopolist, monopolist]
    norm_num
  · refine h2.trans ?_
    change sharesAt (realizedMonopolist.market 0 ()) (drawCharacteristic realizedMonopolist 0 ()) (fun _ => 3) ⟨0, rfl⟩ = 1 / 2
    unfold sharesAt
    rw [realizedMonopolist_probabilities]
    exact monopolist_share 3 ⟨0, rfl⟩
  · simp [Spec.realizedCost, estimatedMonopolist, drawnMonopolist]
    norm_num
  · exact C147_supply estimatedMonopolist_valid soleSchedule (given := none) (fitted := fun _ => 0) (by simp [plannedPrices, estimatedMonopolist]) ()
      (monopolist_wellFormed 3) ⟨fun _ _ _ t => hasDerivAt_id t, fun _ _ _ t => hasDerivAt_const t 1, fun k => k.elim0, fun k => k.elim0⟩ (fun _ => rfl)
      (fun _ => 3) rfl (realizedMonopolist_fixed true) realizedMonopolist_lamda ⟨0, rfl⟩

/-- Non-vacuity of schedules with a pool: two markets are built before results of either are written. -/
example : RealizationSchedule (some 2) [0, 1] [.build (0 : ℕ), .build 1, .write 1, .write 0] := by
  refine ⟨by decide, fun before after t h => ?_⟩
  match before, h with
  | [], h => cases h
  | [_], h => injection h with _ h; cases h
  | [_, _], h => injection h with h1 h; injection h with h2 h; injection h with h3 h; cases h3; subst h2; simp
  | [_, _, _], h => injection h with h1 h; injection h with h2 h; injection h with h3 h; injection h with h4 h; cases h4; subst h1; simp
  | _ :: _ :: _ :: _ :: before, h => injection h with _ h; injection h with _ h; injection h with _ h; injection h with _ h; cases before <;> cases h

/-- Non-vacuity of `C147_jacobian`: for the parameter on a characteristic `x`, mean utilities have to change by minus `x` in the realization. -/
example (x : MarketRows estimatedMonopolist.ids () → ℝ) : ∃ inverse,
    HasDerivAt (fun y : ℝ => 0 - y * x ⟨0, rfl⟩) (realizationXiJacobian realizedMonopolist
      (computeRealization realizedMonopolist none true (fun _ _ _ _ _ => 3) ((uniqueIds estimatedMonopolist.ids).flatMap fun t => [.build t, .write t])) ()
      (⟨fun _ k => k.elim0, fun _ v => v.elim, fun _ v => v.elim, fun k => k.elim0⟩ :
        Tastes (MarketRows realizedMonopolist.ids ()) (Fin (realizedMonopolist.agents ())) (Fin 0) Empty Empty)
      (fun k => k.elim0) (fun k => k.elim0) inverse (.beta x) ⟨0, rfl⟩) 0 := by
  set T : Tastes (MarketRows estimatedMonopolist.ids ()) (Fin (estimatedMonopolist.agents ())) (Fin 0) Empty Empty :=
    ⟨fun _ k => k.elim0, fun _ v => v.elim, fun _ v => v.elim, fun k => k.elim0⟩ with hT
  set s := computeRealization realizedMonopolist none true (fun _ _ _ _ _ => 3) ((uniqueIds estimatedMonopolist.ids).flatMap fun t => [.build t, .write t]) with hs
  have hoff : ∀ j, ∃ a, 0 < (estimatedMonopolist.market 0 ()).weights a ∧ Offered (estimatedMonopolist.market 0 ()) {} a j := fun j =>
    ⟨soleAgent 3, one_pos, ⟨by simp, rfl, by intro a ha; cases ha⟩⟩
  have hw : ∀ a, 0 ≤ (estimatedMonopolist.market 0 ()).weights a := fun _ => zero_le_one
  set T' : Tastes (MarketRows estimatedMonopolist.ids ()) (Fin (estimatedMonopolist.agents ())) (Fin 0) Empty Empty :=
    { T with X2 := fun (j : MarketRows estimatedMonopolist.ids ()) k => estimatedMonopolist.x2 k j (s.prices j) } with hT'
  have hdet := C84_nonsingular (estimatedMonopolist.market 0 ()) (monopolist_wellFormed 3) true (fun j => s.delta j)
    (computeMu T' (fun k => k.elim0) (fun k => k.elim0)) hw hoff
  set M := Matrix.of (sharesByXiJacobian (estimatedMonopolist.market 0 ())
    (computeShares (estimatedMonopolist.market 0 ()) {} (fun j => s.delta j) (computeMu T' (fun k => k.elim0) (fun k => k.elim0)))
    (computeProbabilities (estimatedMonopolist.market 0 ()) {} (fun j => s.delta j) (computeMu T' (fun k => k.elim0) (fun k => k.elim0)))
    (computeConditionals (estimatedMonopolist.market 0 ()) {} (fun j => s.delta j) (computeMu T' (fun k => k.elim0) (fun k => k.elim0)))) with hM
  have hdelta : s.delta 0 = 0 := by
    have hd := (C147_demand (xi := fun _ => 2) (omega := fun _ => 3) (xiDraw := fun _ => -1) (omegaDraw := fun _ => 2) (expected := none)
      (constantCosts := true) (solve := fun _ _ _ _ _ => 3) estimatedMonopolist_valid soleSchedule () ⟨0, rfl⟩).1
    refine hd.trans ?_
    have h1 := (realization_row (e := realizedMonopolist) (expected := none) (constantCosts := true) (solve := fun _ _ _ _ _ => 3) soleSchedule ()
      ⟨0, rfl⟩).1
    rw [show (computeRealization (realizationEconomy estimatedMonopolist (fun _ => 2) (fun _ => 3) (fun _ => -1) fun _ => 2) none true
      (fun _ _ _ _ _ => 3) ((uniqueIds estimatedMonopolist.ids).flatMap fun t => [.build t, .write t])).prices 0 = 3 from h1]
    simp [Spec.realizedUtility, estimatedMonopolist, drawnMonopolist, monopolist]
    norm_num
  obtain ⟨I, hI⟩ : ∃ I : Matrix (MarketRows estimatedMonopolist.ids ()) (MarketRows estimatedMonopolist.ids ()) ℝ, I * M = 1 :=
    ⟨_, Matrix.nonsing_inv_mul M (isUnit_iff_ne_zero.mpr hdet)⟩
  refine ⟨I, ?_⟩
  have := C147_jacobian (xi := fun _ => 2) (omega := fun _ => 3) (xiDraw := fun _ => -1) (omegaDraw := fun _ => 2) (expected := none)
    (constantCosts := true) (solve := fun _ _ _ _ _ => 3) estimatedMonopolist_valid soleSchedule () (monopolist_wellFormed 3) hw hoff T (fun k => k.elim0)
    (fun k => k.elim0) (fun k => k.elim0) (.beta x) (fun n hn => by cases hn) (fun n hn => by cases hn) I (fun j l => by
      have h := congrFun (congrFun hI j) l
      rw [Matrix.mul_apply, Matrix.one_apply] at h
      exact h) (fun y j => s.delta j - y * x j) (by funext j; simp; rfl) (Eventually.of_forall fun y => by
        have hsh : (fun j : MarketRows estimatedMonopolist.ids () => s.shares j) =
            computeShares (estimatedMonopolist.market 0 ()) {} (fun j => s.delta j) (computeMu T' (fun k => k.elim0) (fun k => k.elim0)) := by
          funext k
          have h1 := (C147_demand (xi := fun _ => 2) (omega := fun _ => 3) (xiDraw := fun _ => -1) (omegaDraw := fun _ => 2) (expected := none)
            (constantCosts := true) (solve := fun _ _ _ _ _ => 3) estimatedMonopolist_valid soleSchedule ())
          refine (h1 k).2.trans ?_
          unfold Spec.realizedShares
          congr 1
          · funext l; exact (h1 l).1.symm
        refine Eq.trans ?_ hsh.symm
        funext k
        unfold Spec.sharesOf
        congr 1
        funext l
        simp [Spec.shiftDelta]) ⟨0, rfl⟩
  rw [hdelta] at this
  exact this

/-- Non-vacuity of averages over draws: with two products, assignments are independent and uniform. -/
example : ∃ (μ : Measure (ℕ → Fin 2 → Fin 2)) (uniform : Measure (Fin 2 → Fin 2)), IsProbabilityMeasure uniform ∧
    (∀ c, uniform.real {c} = 1 / Fintype.card (Fin 2 → Fin 2)) ∧ Draws μ uniform fun d ω => ω d := by
  refine ⟨Measure.infinitePi fun _ => uniformOn Set.univ, uniformOn Set.univ, inferInstance, fun c => ?_, fun i => measurable_pi_apply i, ?_,
    fun i => Measure.infinitePi_map_eval _ i⟩
  · simp [Measure.real, uniformOn_univ]
  · intro i k hik
    exact (iIndepFun_infinitePi (P := fun _ : ℕ => uniformOn (Set.univ : Set (Fin 2 → Fin 2))) (X := fun _ x => x) fun _ => measurable_id).indepFun hik

end Pyblp
