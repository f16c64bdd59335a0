import Verif.Model.BootstrapDraws
import Verif.Props.ReplaceEndogenous

/-!
# C106: bootstrapped draws are equilibria of the model

Prices, shares and mean utilities of each draw of `ProblemResults.bootstrap` are those of the model at the parameters of the draw, with what
estimates leave unexplained held fixed, and post-estimation methods of `BootstrappedResults` start from them.
-/

set_option linter.unusedSectionVars false

namespace Pyblp

open Spec

variable {ι : Type} [LinearOrder ι] {N D : ℕ} {G K1 K2 : Type} {K3 : ℕ} [Fintype G] [DecidableEq G] [Fintype K1] [Fintype K2]

namespace Spec

/-- The part of an estimated mean utility that characteristics do not explain: the unobserved characteristic and fixed effects. -/
def unexplainedUtility (e : BootstrapEconomy ι N D G K1 K2 K3) (i : Fin N) : ℝ := e.delta i - ∑ k, e.beta k * e.x1 k i (e.prices i)

/-- The mean utility of a product with price `p` at the parameters of a draw. -/
def drawUtility (e : BootstrapEconomy ι N D G K1 K2 K3) (d : Fin D) (i : Fin N) (p : ℝ) : ℝ :=
  (∑ k, e.drawnBeta d k * e.x1 k i p) + unexplainedUtility e i

/-- Deviations from mean utilities at the parameters of a draw when prices are `p`. -/
def drawDeviation (e : BootstrapEconomy ι N D G K1 K2 K3) (d : Fin D) (t : ι) (p : MarketRows e.ids t → ℝ) (j : MarketRows e.ids t)
    (a : Fin (e.agents t)) : ℝ :=
  ∑ k, e.x2 k j (p j) * e.coef d t k a j

/-- The part of an estimated marginal cost that characteristics do not explain. -/
def unexplainedCost (e : BootstrapEconomy ι N D G K1 K2 K3) (i : Fin N) : ℝ := e.tildeCosts i - ∑ k, e.gamma k * e.x3 k i (e.shares i)

/-- The marginal cost of a product with share `s` at the parameters of a draw. -/
noncomputable def drawCost (e : BootstrapEconomy ι N D G K1 K2 K3) (d : Fin D) (i : Fin N) (s : ℝ) : ℝ :=
  if e.logCosts then Real.exp ((∑ k, e.drawnGamma d k * e.x3 k i s) + unexplainedCost e i)
  else (∑ k, e.drawnGamma d k * e.x3 k i s) + unexplainedCost e i

/-- Market shares at the parameters of a draw as a function of prices. -/
noncomputable def drawShares (e : BootstrapEconomy ι N D G K1 K2 K3) (d : Fin D) (t : ι) [Nonempty (MarketRows e.ids t)]
    (p : MarketRows e.ids t → ℝ) : MarketRows e.ids t → ℝ :=
  computeShares (e.market d t) {} (fun j => drawUtility e d j (p j)) (drawDeviation e d t p)

/-- Formulas that do not mention a variable do not depend on it. -/
structure DrawFormulasValid (e : BootstrapEconomy ι N D G K1 K2 K3) : Prop where
  x1 : ∀ k, e.has1 k = false → ∀ i p p', e.x1 k i p = e.x1 k i p'
  x2 : ∀ k, e.has2 k = false → ∀ i p p', e.x2 k i p = e.x2 k i p'
  x3 : ∀ k, e.has3 k = false → ∀ i s s', e.x3 k i s = e.x3 k i s'

end Spec

/-! ## Rows of the results -/

theorem foldl_assembleDraws {α : Type} (ids : Fin N → ι) (items : List ((Fin D × ι) × (ℕ → α))) (a : Fin D → Fin N → α) (d : Fin D) (i : Fin N)
    (hnd : (items.map Prod.fst).Nodup) :
    (∀ v, ((d, ids i), v) ∈ items → assembleDraws ids a items d i = v (position ids i)) ∧
      ((d, ids i) ∉ items.map Prod.fst → assembleDraws ids a items d i = a d i) := by
  unfold assembleDraws
  induction items generalizing a with
  | nil => simp
  | cons p items ih =>
    rw [List.map_cons, List.nodup_cons] at hnd
    obtain ⟨ih1, ih2⟩ := ih (Function.update a p.1.1 (writeRows (a p.1.1) (indicesOf ids p.1.2) p.2)) hnd.2
    constructor
    · intro v hv
      rw [List.foldl_cons]
      rcases List.mem_cons.1 hv with h | h
      · subst h
        rw [ih2 hnd.1]
        simp only [Function.update_self]
        unfold writeRows
        rw [if_pos ((mem_indicesOf _ _ _).2 rfl), idxOf_indices]
      · exact ih1 v h
    · intro hn
      rw [List.map_cons, List.mem_cons, not_or] at hn
      rw [List.foldl_cons, ih2 hn.2]
      by_cases hd : d = p.1.1
      · subst hd
        simp only [Function.update_self]
        unfold writeRows
        rw [if_neg]
        rw [mem_indicesOf]
        exact fun h => hn.1 (Prod.ext rfl h)
      · rw [Function.update_of_ne hd]

lemma nodup_drawPairs (ids : Fin N → ι) : (drawPairs D ids).Nodup := (List.nodup_finRange D).product (nodup_uniqueIds ids)

section

variable {pool : Option ℕ} {e : BootstrapEconomy ι N D G K1 K2 K3} {constantCosts : Bool} {solve : DrawSolver e}
  {results : Fin D → Fin N → DrawRow}

/-- Each row of each draw is the row of its own draw and market. -/
lemma draw_row (h : BootstrapRealizations pool e constantCosts solve results) (d : Fin D) (t : ι) [Nonempty (MarketRows e.ids t)]
    (j : MarketRows e.ids t) : results d j = solveRealization e constantCosts solve d t j := by
  obtain ⟨items, hitems, rfl⟩ := h
  obtain ⟨i, rfl⟩ := j
  have hperm : items.Perm ((drawPairs D e.ids).map fun k => (k, drawRows e constantCosts solve k)) := by
    unfold Generated at hitems
    cases pool with
    | none => rw [hitems]
    | some _ => exact hitems
  have hnd : (items.map Prod.fst).Nodup := by
    rw [(hperm.map Prod.fst).nodup_iff, List.map_map]
    simpa [Function.comp_def] using nodup_drawPairs (D := D) e.ids
  rw [(foldl_assembleDraws e.ids items _ d i hnd).1 (drawRows e constantCosts solve (d, e.ids i))
    (by
      rw [hperm.mem_iff, List.mem_map]
      exact ⟨(d, e.ids i), List.mem_product.2 ⟨List.mem_finRange d, (mem_uniqueIds _ _).2 ⟨i, rfl⟩⟩, rfl⟩)]
  unfold drawRows
  simp only [getElem_position]
  rw [dif_pos trivial]

lemma draw_prices (h : BootstrapRealizations pool e constantCosts solve results) (d : Fin D) (t : ι) [Nonempty (MarketRows e.ids t)] :
    (fun j : MarketRows e.ids t => (results d j).price) = realizedPrices e constantCosts solve d t :=
  funext fun j => by rw [draw_row h d t j]; rfl

/-! ## The model at parameters of a draw -/

lemma updateDelta_draw (hv : Spec.DrawFormulasValid e) (d : Fin D) (t : ι) (p : MarketRows e.ids t → ℝ) (j : MarketRows e.ids t) :
    updateDelta (drawCharacteristic e d t) p j = Spec.drawUtility e d j (p j) := by
  unfold updateDelta Spec.drawUtility Spec.unexplainedUtility drawCharacteristic drawDelta
  simp only
  rw [Finset.sum_filter]
  have : (∑ k, e.x1 k j (e.prices j) * (e.drawnBeta d k - e.beta k)) +
      ∑ k, (if e.has1 k = true then e.drawnBeta d k * (e.x1 k j (p j) - e.x1 k j (e.prices j)) else 0) =
      (∑ k, e.drawnBeta d k * e.x1 k j (p j)) - ∑ k, e.beta k * e.x1 k j (e.prices j) := by
    rw [← Finset.sum_add_distrib, ← Finset.sum_sub_distrib]
    refine Finset.sum_congr rfl fun k _ => ?_
    by_cases hk : e.has1 k = true
    · rw [if_pos hk]; ring
    · rw [if_neg hk, hv.x1 k (by simpa using hk) j (p j) (e.prices j)]; ring
  linarith

lemma updateMu_draw (hv : Spec.DrawFormulasValid e) (d : Fin D) (t : ι) (p : MarketRows e.ids t → ℝ) :
    updateMu (drawCharacteristic e d t) p = Spec.drawDeviation e d t p := by
  funext j a
  unfold updateMu Spec.drawDeviation drawCharacteristic
  refine Finset.sum_congr rfl fun k _ => ?_
  by_cases hk : e.has2 k = true
  · simp only [hk, if_true]
  · simp only [hk]
    rw [hv.x2 k (by simpa using hk) j (p j) (e.prices j)]
    rfl

lemma sharesAt_draw (hv : Spec.DrawFormulasValid e) (d : Fin D) (t : ι) [Nonempty (MarketRows e.ids t)] :
    sharesAt (e.market d t) (drawCharacteristic e d t) = Spec.drawShares e d t := by
  funext p j
  unfold sharesAt Spec.drawShares computeShares probabilitiesAt
  rw [updateMu_draw hv, show updateDelta (drawCharacteristic e d t) p = fun j : MarketRows e.ids t => Spec.drawUtility e d j (p j) from
    funext fun j => updateDelta_draw hv d t p j]

/-- **C106.** In each row of each draw, for every schedule, the bootstrapped mean utility is the one of the model at the parameters and the price
of the draw, with what estimates leave unexplained unchanged, and the bootstrapped share is the market share at the parameters and the prices of
the draw. -/
theorem C106_demand (hv : Spec.DrawFormulasValid e) (h : BootstrapRealizations pool e constantCosts solve results) (d : Fin D) (t : ι)
    [Nonempty (MarketRows e.ids t)] (j : MarketRows e.ids t) :
    (results d j).delta = Spec.drawUtility e d j (results d j).price ∧
      (results d j).share = Spec.drawShares e d t (fun k => (results d k).price) j := by
  refine ⟨?_, ?_⟩
  · rw [draw_row h d t j]
    exact updateDelta_draw hv d t _ j
  · rw [draw_prices h d t, draw_row h d t j, ← sharesAt_draw hv]
    rfl

/-- **C106.** Without a supply side, prices of all draws are observed ones. -/
theorem C106_prices (h : BootstrapRealizations pool e constantCosts solve results) (h3 : K3 = 0) (d : Fin D) (i : Fin N) :
    (results d i).price = e.prices i := by
  have : Nonempty (MarketRows e.ids (e.ids i)) := ⟨⟨i, rfl⟩⟩
  have := draw_row h d (e.ids i) ⟨i, rfl⟩
  rw [this]
  unfold solveRealization realizedPrices
  simp only
  rw [if_pos h3]

/-- **C106.** Without a supply side, a draw at which parameters are the estimates has estimated mean utilities, and observed shares if estimated
mean utilities match these. -/
theorem C106_estimates (hv : Spec.DrawFormulasValid e) (h : BootstrapRealizations pool e constantCosts solve results) (h3 : K3 = 0) (d : Fin D)
    (hd : e.drawnBeta d = e.beta) (t : ι) [Nonempty (MarketRows e.ids t)] (j : MarketRows e.ids t) :
    (results d j).delta = e.delta j ∧
      ((∀ k : MarketRows e.ids t, computeShares (e.market d t) {} (fun k => e.delta k) (Spec.drawDeviation e d t fun k => e.prices k) k =
        e.shares k) → (results d j).share = e.shares j) := by
  have hu : ∀ k : MarketRows e.ids t, Spec.drawUtility e d k (e.prices k) = e.delta k := fun k => by
    unfold Spec.drawUtility Spec.unexplainedUtility
    rw [hd]; ring
  obtain ⟨h1, h2⟩ := C106_demand hv h d t j
  refine ⟨by rw [h1, C106_prices h h3, hu], fun hs => ?_⟩
  rw [h2, ← hs j]
  unfold Spec.drawShares
  simp only [C106_prices h h3, hu]

/-! ## Supply -/

lemma drawCosts_eq (d : Fin D) (i : Fin N) : drawCosts e d i = Spec.drawCost e d i (e.shares i) := by
  unfold drawCosts Spec.drawCost Spec.unexplainedCost
  have : e.tildeCosts i + ∑ k, e.x3 k i (e.shares i) * (e.drawnGamma d k - e.gamma k) =
      (∑ k, e.drawnGamma d k * e.x3 k i (e.shares i)) + (e.tildeCosts i - ∑ k, e.gamma k * e.x3 k i (e.shares i)) := by
    have : ∑ k, e.x3 k i (e.shares i) * (e.drawnGamma d k - e.gamma k) =
        (∑ k, e.drawnGamma d k * e.x3 k i (e.shares i)) - ∑ k, e.gamma k * e.x3 k i (e.shares i) := by
      rw [← Finset.sum_sub_distrib]
      exact Finset.sum_congr rfl fun k _ => by ring
    rw [this]; ring
  simp only [this]

lemma updateCosts_shift (hv : Spec.DrawFormulasValid e) (d : Fin D) (t : ι) (q : CostSide (MarketRows e.ids t) (Fin K3))
    (hq : q = { drawCostSide e d t with s0 := q.s0 }) (s : MarketRows e.ids t → ℝ) (j : MarketRows e.ids t) :
    updateCosts q (fun k => Spec.drawCost e d k (q.s0 k)) s j = Spec.drawCost e d j (s j) := by
  have hsum : (∑ k, e.drawnGamma d k * e.x3 k j (q.s0 j)) +
      ∑ k with e.has3 k = true, e.drawnGamma d k * (e.x3 k j (s j) - e.x3 k j (q.s0 j)) = ∑ k, e.drawnGamma d k * e.x3 k j (s j) := by
    rw [Finset.sum_filter, ← Finset.sum_add_distrib]
    refine Finset.sum_congr rfl fun k _ => ?_
    by_cases hk : e.has3 k = true
    · rw [if_pos hk]; ring
    · rw [if_neg hk, hv.x3 k (by simpa using hk) j (s j) (q.s0 j)]; ring
  rw [hq]
  unfold updateCosts Spec.drawCost drawCostSide
  simp only
  by_cases hl : e.logCosts = true
  · simp only [hl, if_true]
    rw [← Real.exp_sum, ← Real.exp_add, ← hsum]
    congr 1
    ring
  · simp only [hl, Bool.false_eq_true, if_false]
    rw [← hsum]
    ring

lemma drawContraction_eq (hv : Spec.DrawFormulasValid e) (d : Fin D) (t : ι) [Nonempty (MarketRows e.ids t)] :
    drawContraction e d t constantCosts = priceContraction (e.market d t) (drawCharacteristic e d t) (e.ownership t)
      fun j s => Spec.drawCost e d j (if constantCosts then e.shares j else s) := by
  unfold drawContraction
  have key : (if (constantCosts || !decide (∃ k, e.has3 k = true)) = true then fun (j : MarketRows e.ids t) (_ : ℝ) => drawCosts e d j else
      fun j s => updateCosts (drawCostSide e d t) (fun j : MarketRows e.ids t => drawCosts e d j) (fun _ => s) j : MarketRows e.ids t → ℝ → ℝ) =
      fun (j : MarketRows e.ids t) s => Spec.drawCost e d j (if constantCosts then e.shares j else s) := by
    funext j s
    by_cases hcc : constantCosts = true
    · simp only [hcc, Bool.true_or, if_true]
      exact drawCosts_eq d j.1
    · by_cases hany : ∃ k, e.has3 k = true
      · simp only [hcc, hany, decide_true, Bool.not_true, Bool.or_self, Bool.false_eq_true, if_false]
        have := updateCosts_shift hv d t (drawCostSide e d t) rfl (fun _ => s) j
        rw [← this]
        simp only [drawCosts_eq]
        rfl
      · push Not at hany
        have hall : ∀ k, e.has3 k = false := fun k => by simpa using hany k
        have hnone : ¬∃ k, e.has3 k = true := by simpa using hall
        simp only [hcc, hnone, decide_false, Bool.not_false, Bool.or_true, Bool.false_eq_true, if_true, if_false]
        rw [drawCosts_eq]
        unfold Spec.drawCost
        simp only [fun k => hv.x3 k (hall k) j (e.shares j) s]
  simp only [key]


/-- The marginal cost that belongs to a row of a draw: at the share of the draw, or at the observed share if costs are said to be constant. -/
noncomputable def Spec.rowCost (e : BootstrapEconomy ι N D G K1 K2 K3) (constantCosts : Bool) (results : Fin D → Fin N → DrawRow) (d : Fin D)
    (i : Fin N) : ℝ :=
  Spec.drawCost e d i (if constantCosts then e.shares i else (results d i).share)

lemma draw_share (h : BootstrapRealizations pool e constantCosts solve results) (d : Fin D) (t : ι) [Nonempty (MarketRows e.ids t)] :
    (fun j : MarketRows e.ids t => (results d j).share) =
      sharesAt (e.market d t) (drawCharacteristic e d t) fun j => (results d j).price := by
  rw [draw_prices h d t]
  funext j
  rw [draw_row h d t j]
  rfl

/-- **C106.** If the iteration of a draw has arrived at a fixed point, then its prices satisfy first order conditions of all firms, at the
parameters of the draw and at the marginal costs of the model at these parameters. -/
theorem C106_supply (hv : Spec.DrawFormulasValid e) (h : BootstrapRealizations pool e constantCosts solve results) (d : Fin D) (t : ι)
    [Nonempty (MarketRows e.ids t)] (hm : WellFormed (e.market d t)) (hs : (drawCharacteristic e d t).Smooth) (hO : ∀ j, e.ownership t j j = 1)
    (hl : ∀ j, capitalLamda (e.market d t) (probabilitiesAt (e.market d t) (drawCharacteristic e d t) fun j => (results d j).price)
      (utilityDerivatives (e.market d t) (drawCharacteristic e d t) fun j => (results d j).price) j ≠ 0)
    (hfixed : drawContraction e d t constantCosts (fun j => (results d j).price) = fun j : MarketRows e.ids t => (results d j).price)
    (j : MarketRows e.ids t) :
    Spec.FirstOrderCondition (Spec.drawShares e d t) (fun k => e.ownership t k j) (fun k => Spec.rowCost e constantCosts results d k)
      (fun k => (results d k).price) j := by
  rw [drawContraction_eq hv] at hfixed
  have := (C31_fixed_point_iff_foc (e.market d t) hm _ hs (e.ownership t) hO _ _ hl).mp hfixed j
  rw [← draw_share h d t, sharesAt_draw hv] at this
  exact this

/-! ## Markets of bootstrapped results -/

lemma resultsCharacteristic_eq (h : BootstrapRealizations pool e constantCosts solve results) (d : Fin D) (t : ι) [Nonempty (MarketRows e.ids t)] :
    resultsCharacteristic e results d t = (drawCharacteristic e d t).moveTo fun j => (results d j).price := by
  have hd : (fun k : MarketRows e.ids t => (results d k).delta) =
      updateDelta (drawCharacteristic e d t) fun k : MarketRows e.ids t => (results d k).price := by
    funext k
    rw [draw_prices h d t, draw_row h d t k]
    rfl
  unfold resultsCharacteristic Characteristic.moveTo
  rw [hd]

/-- **C106.** In a market with which post-estimation methods of bootstrapped results compute, shares that are computed are bootstrapped ones, and
at any other prices, mean utilities, deviations and marginal costs are those of the model at the parameters of the draw. -/
theorem C106_results (hv : Spec.DrawFormulasValid e) (h : BootstrapRealizations pool e constantCosts solve results) (d : Fin D) (t : ι)
    [Nonempty (MarketRows e.ids t)] :
    (∀ j, computeShares (e.market d t) {} (resultsCharacteristic e results d t).delta (resultsMu e results d t) j = (results d j).share) ∧
      (∀ p j, updateDelta (resultsCharacteristic e results d t) p j = Spec.drawUtility e d j (p j)) ∧
      (∀ p, updateMu (resultsCharacteristic e results d t) p = Spec.drawDeviation e d t p) ∧
      ∀ s j, updateCosts (resultsCostSide e results d t) (fun k => Spec.drawCost e d k (results d k).share) s j = Spec.drawCost e d j (s j) := by
  have hmu : ∀ p, updateMu (resultsCharacteristic e results d t) p = Spec.drawDeviation e d t p := fun p => by
    rw [← updateMu_draw hv]
    funext j a
    unfold updateMu resultsCharacteristic drawCharacteristic
    refine Finset.sum_congr rfl fun k _ => ?_
    by_cases hk : e.has2 k = true
    · simp only [hk, if_true]
    · simp only [hk]
      rw [hv.x2 k (by simpa using hk) j (results d j).price (e.prices j)]
  refine ⟨fun j => ?_, fun p j => ?_, hmu, fun s j => updateCosts_shift hv d t (resultsCostSide e results d t) rfl s j⟩
  · rw [(C106_demand hv h d t j).2]
    unfold Spec.drawShares
    have h1 : (resultsCharacteristic e results d t).delta = fun j : MarketRows e.ids t => Spec.drawUtility e d j (results d j).price :=
      funext fun k => (C106_demand hv h d t k).1
    have h2 : resultsMu e results d t = Spec.drawDeviation e d t fun j => (results d j).price := by
      funext k a
      unfold resultsMu Spec.drawDeviation
      refine Finset.sum_congr rfl fun c _ => ?_
      by_cases hk : e.has2 c = true
      · simp only [hk, if_true]
      · simp only [hk]
        rw [hv.x2 c (by simpa using hk) k (results d k).price (e.prices k)]
        rfl
    rw [h1, h2]
  · have h1 := (C106_demand hv h d t j).1
    rw [← updateDelta_draw hv d t p j]
    rw [← updateDelta_draw hv d t (fun k => (results d k).price) j] at h1
    unfold updateDelta at h1 ⊢
    unfold resultsCharacteristic
    simp only
    rw [h1, add_assoc]
    congr 1
    rw [← Finset.sum_add_distrib]
    refine Finset.sum_congr rfl fun k _ => ?_
    unfold drawCharacteristic
    ring

/-- **C106.** If the iteration of a draw has arrived at a fixed point, the marginal costs that bootstrapped results compute for the draw are those
of the model at its parameters. (Missing: ownership that is not symmetric, see `C31_asymmetric_refuted`.) -/
theorem C106_costs_partial (hv : Spec.DrawFormulasValid e) (h : BootstrapRealizations pool e constantCosts solve results) (d : Fin D) (t : ι)
    [Nonempty (MarketRows e.ids t)] (hm : WellFormed (e.market d t)) (hs : (drawCharacteristic e d t).Smooth) (hO : ∀ j, e.ownership t j j = 1)
    (hsymm : ∀ j k, e.ownership t j k = e.ownership t k j)
    (hl : ∀ j, capitalLamda (e.market d t) (probabilitiesAt (e.market d t) (drawCharacteristic e d t) fun j => (results d j).price)
      (utilityDerivatives (e.market d t) (drawCharacteristic e d t) fun j => (results d j).price) j ≠ 0)
    (hdet : IsUnit (capitalDelta (e.market d t) (resultsCharacteristic e results d t) (e.ownership t)).det)
    (hfixed : drawContraction e d t constantCosts (fun j => (results d j).price) = fun j : MarketRows e.ids t => (results d j).price)
    (j : MarketRows e.ids t) :
    computeCosts (e.market d t) (resultsCharacteristic e results d t) (e.ownership t) (fun k => (results d k).share) j =
      Spec.rowCost e constantCosts results d j := by
  have hconst : ∀ k, (drawCharacteristic e d t).has2 k = false → ∀ j x x', (drawCharacteristic e d t).x2 k j x = (drawCharacteristic e d t).x2 k j x' :=
    fun k hk j x x' => hv.x2 k hk j x x'
  rw [resultsCharacteristic_eq h d t] at hdet ⊢
  rw [draw_share h d t]
  refine congrFun ((C31_fixed_point_iff_costs_partial (e.market d t) hm _ hs hconst (e.ownership t) hO hsymm
    (fun k => Spec.rowCost e constantCosts results d k) _ hl hdet).mp ?_) j
  rw [drawContraction_eq hv] at hfixed
  refine Eq.trans ?_ hfixed
  unfold priceContraction
  funext k
  simp only [← draw_share h d t]
  rfl

/-- **C106.** Observed prices are a fixed point of the iteration of a draw at which parameters are the estimates, if estimated mean utilities match
shares and estimated marginal costs are those that the model implies, without bounds: from there, a draw at the estimates has observed prices. (Missing:
ownership that is not symmetric, see `C31_asymmetric_refuted`.) -/
theorem C106_observed_partial (hv : Spec.DrawFormulasValid e) (d : Fin D) (hb : e.drawnBeta d = e.beta) (hg : e.drawnGamma d = e.gamma) (t : ι)
    [Nonempty (MarketRows e.ids t)] (hm : WellFormed (e.market d t)) (hs : (drawCharacteristic e d t).Smooth) (hO : ∀ j, e.ownership t j j = 1)
    (hsymm : ∀ j k, e.ownership t j k = e.ownership t k j)
    (hl : ∀ j, capitalLamda (e.market d t) (probabilitiesAt (e.market d t) (drawCharacteristic e d t) fun j => e.prices j)
      (utilityDerivatives (e.market d t) (drawCharacteristic e d t) fun j => e.prices j) j ≠ 0)
    (hdet : IsUnit (capitalDelta (e.market d t) (drawCharacteristic e d t) (e.ownership t)).det)
    (hshares : ∀ k : MarketRows e.ids t, computeShares (e.market d t) {} (fun k => e.delta k) (Spec.drawDeviation e d t fun k => e.prices k) k = e.shares k)
    (hcosts : ∀ k : MarketRows e.ids t, computeCosts (e.market d t) (drawCharacteristic e d t) (e.ownership t) (fun k => e.shares k) k =
      if e.logCosts then Real.exp (e.tildeCosts k) else e.tildeCosts k) :
    drawContraction e d t constantCosts (fun j => e.prices j) = fun j : MarketRows e.ids t => e.prices j := by
  have hconst : ∀ k, (drawCharacteristic e d t).has2 k = false → ∀ j x x', (drawCharacteristic e d t).x2 k j x = (drawCharacteristic e d t).x2 k j x' :=
    fun k hk j x x' => hv.x2 k hk j x x'
  have hu : ∀ k : MarketRows e.ids t, Spec.drawUtility e d k (e.prices k) = e.delta k := fun k => by
    unfold Spec.drawUtility Spec.unexplainedUtility
    rw [hb]; ring
  have hsh : sharesAt (e.market d t) (drawCharacteristic e d t) (fun j => e.prices j) = fun k : MarketRows e.ids t => e.shares k := by
    rw [sharesAt_draw hv]
    unfold Spec.drawShares
    simp only [hu]
    exact funext hshares
  have hmove : (drawCharacteristic e d t).moveTo (fun j => e.prices j) = drawCharacteristic e d t := by
    unfold Characteristic.moveTo
    have : updateDelta (drawCharacteristic e d t) (fun j : MarketRows e.ids t => e.prices j) = (drawCharacteristic e d t).delta := by
      funext j
      simp [updateDelta, drawCharacteristic]
    rw [this]
    rfl
  have hfix := (C31_fixed_point_iff_costs_partial (e.market d t) hm _ hs hconst (e.ownership t) hO hsymm
    (fun k : MarketRows e.ids t => Spec.drawCost e d k (e.shares k)) (fun j => e.prices j) hl (by rw [hmove]; exact hdet)).mpr (by
      rw [hmove, hsh]
      funext k
      rw [hcosts k]
      unfold Spec.drawCost Spec.unexplainedCost
      rw [hg]
      by_cases hlog : e.logCosts = true
      · simp only [hlog, if_true]; congr 1; ring
      · simp only [hlog, Bool.false_eq_true, if_false]; ring)
  rw [drawContraction_eq hv]
  refine Eq.trans ?_ hfix
  unfold priceContraction
  funext k
  simp only [hsh]
  cases constantCosts <;> rfl

end

/-! ## A monopolist -/

lemma priceContraction_congr {J A : Type} [Fintype J] [DecidableEq J] [Nonempty J] [Fintype A] (m : Market J A G) (c c' : Characteristic J A K1 K2)
    (O : J → J → ℝ) (costOf : J → ℝ → ℝ) (x : J → ℝ) (h1 : updateDelta c x = updateDelta c' x) (h2 : updateMu c x = updateMu c' x)
    (h3 : utilityDerivatives m c x = utilityDerivatives m c' x) : priceContraction m c O costOf x = priceContraction m c' O costOf x := by
  unfold priceContraction zeta capitalLamdaInverse sharesAt probabilitiesAt conditionalsAt
  rw [h1, h2, h3]

/-- The monopolist of C90 with estimates `b` and `g` from data with price `p` and share `s`, and a draw that has other parameters unless these are
minus one and one. -/
noncomputable def drawnMonopolist (x p s b g : ℝ) : BootstrapEconomy Unit 1 1 Unit Unit (Fin 0) 1 where
  ids := (monopolist x).ids
  agents := (monopolist x).agents
  market := fun _ => (monopolist x).market
  ownership := (monopolist x).ownership
  coef := fun _ => (monopolist x).coef
  prices := fun _ => p
  shares := fun _ => s
  delta := fun _ => x + b * p
  tildeCosts := fun _ => x - 5 / 2 + g * s
  beta := fun _ => b
  drawnBeta := fun _ => (monopolist x).beta
  has1 := (monopolist x).has1
  x1 := (monopolist x).x1
  d1 := (monopolist x).d1
  dd1 := (monopolist x).dd1
  has2 := (monopolist x).has2
  x2 := (monopolist x).x2
  d2 := (monopolist x).d2
  dd2 := (monopolist x).dd2
  logCosts := false
  gamma := fun _ => g
  drawnGamma := fun _ => (monopolist x).gamma
  has3 := (monopolist x).has3
  x3 := (monopolist x).x3
  d3 := (monopolist x).d3

section monopolist

variable (x p s b g : ℝ)

instance : Nonempty (MarketRows (drawnMonopolist x p s b g).ids ()) := ⟨⟨0, rfl⟩⟩

lemma drawnMonopolist_valid : Spec.DrawFormulasValid (drawnMonopolist x p s b g) where
  x1 := fun k h => by cases h
  x2 := fun k => k.elim0
  x3 := fun k h => by cases h

lemma drawnMonopolist_utility (y : ℝ) : Spec.drawUtility (drawnMonopolist x p s b g) 0 0 y = x - y := by
  simp [Spec.drawUtility, Spec.unexplainedUtility, drawnMonopolist, monopolist]
  ring

lemma drawnMonopolist_cost (y : ℝ) : Spec.drawCost (drawnMonopolist x p s b g) 0 0 y = y + x - 5 / 2 := by
  simp [Spec.drawCost, Spec.unexplainedCost, drawnMonopolist, monopolist]
  ring

lemma drawnMonopolist_updates :
    updateDelta (drawCharacteristic (drawnMonopolist x p s b g) 0 ()) (fun _ => x) =
        updateDelta (characteristicOf (monopolist x) ()) (fun _ => x) ∧
      updateMu (drawCharacteristic (drawnMonopolist x p s b g) 0 ()) (fun _ => x) =
        updateMu (characteristicOf (monopolist x) ()) (fun _ => x) := by
  refine ⟨?_, ?_⟩
  · funext k
    rw [updateDelta_characteristicOf (monopolist_valid x)]
    refine (updateDelta_draw (drawnMonopolist_valid x p s b g) 0 () (fun _ => x) k).trans ?_
    rw [show (k : Fin 1) = 0 from Subsingleton.elim _ _]
    refine (drawnMonopolist_utility x p s b g x).trans ?_
    simp [Spec.meanUtility, monopolist]
  · funext k a
    unfold updateMu
    rw [Finset.univ_eq_empty, Finset.sum_empty, Finset.sum_empty]

lemma drawnMonopolist_probabilities :
    probabilitiesAt ((drawnMonopolist x p s b g).market 0 ()) (drawCharacteristic (drawnMonopolist x p s b g) 0 ()) (fun _ => x) =
      probabilitiesAt ((monopolist x).market ()) (characteristicOf (monopolist x) ()) fun _ => x := by
  unfold probabilitiesAt
  rw [(drawnMonopolist_updates x p s b g).1, (drawnMonopolist_updates x p s b g).2]
  rfl

lemma drawnMonopolist_share (j : MarketRows (drawnMonopolist x p s b g).ids ()) :
    sharesAt ((drawnMonopolist x p s b g).market 0 ()) (drawCharacteristic (drawnMonopolist x p s b g) 0 ()) (fun _ => x) j = 1 / 2 := by
  unfold sharesAt
  rw [drawnMonopolist_probabilities]
  exact monopolist_share x j

lemma drawnMonopolist_fixed (constantCosts : Bool) (h : constantCosts = true → s = 1 / 2) :
    drawContraction (drawnMonopolist x p s b g) 0 () constantCosts (fun _ => x) = fun _ => x := by
  rw [drawContraction_eq (drawnMonopolist_valid x p s b g)]
  refine Eq.trans ?_ (monopolist_fixed x
    (fun j y => Spec.drawCost (drawnMonopolist x p s b g) 0 j (if constantCosts then s else y)) fun j => ?_)
  · exact priceContraction_congr _ _ _ _ _ _ (drawnMonopolist_updates x p s b g).1 (drawnMonopolist_updates x p s b g).2 rfl
  · rw [show (j : Fin 1) = 0 from Subsingleton.elim _ _]
    refine (drawnMonopolist_cost x p s b g _).trans ?_
    cases constantCosts with
    | true => rw [if_pos rfl, h rfl]; ring
    | false => rw [if_neg Bool.false_ne_true]; ring

lemma drawnMonopolist_wellFormed : WellFormed ((drawnMonopolist x p s b g).market 0 ()) := monopolist_wellFormed x

lemma drawnMonopolist_smooth : (drawCharacteristic (drawnMonopolist x p s b g) 0 ()).Smooth where
  x1 := fun _ _ _ t => hasDerivAt_id t
  d1 := fun _ _ _ t => hasDerivAt_const t 1
  x2 := fun k => k.elim0
  d2 := fun k => k.elim0

lemma drawnMonopolist_lamda (j : MarketRows (drawnMonopolist x p s b g).ids ()) :
    capitalLamda ((drawnMonopolist x p s b g).market 0 ())
      (probabilitiesAt ((drawnMonopolist x p s b g).market 0 ()) (drawCharacteristic (drawnMonopolist x p s b g) 0 ()) fun _ => x)
      (utilityDerivatives ((drawnMonopolist x p s b g).market 0 ()) (drawCharacteristic (drawnMonopolist x p s b g) 0 ()) fun _ => x) j ≠ 0 := by
  rw [drawnMonopolist_probabilities]
  have := monopolist_lamda x j
  intro h
  rw [show (0 : ℝ) = 0 from rfl] at h
  exact absurd (h.symm.trans this) (by norm_num)

/-- Results of a bootstrap in which the iteration returns `x`. -/
lemma drawnMonopolist_results (constantCosts : Bool) :
    ∃ results, BootstrapRealizations none (drawnMonopolist x p s b g) constantCosts (fun _ _ _ _ _ => x) results ∧
      ∀ d i, (results d i).price = x := by
  refine ⟨_, ⟨_, rfl, rfl⟩, fun d i => ?_⟩
  have h := draw_row (e := drawnMonopolist x p s b g) (constantCosts := constantCosts) (solve := fun _ _ _ _ _ => x) (pool := none)
    ⟨_, rfl, rfl⟩ d () ⟨i, rfl⟩
  rw [h]
  rfl

/-- Non-vacuity of C106: estimates are minus two and zero, from data with price one and share one fourth, and in the draw, in which parameters are
minus one and one and the price is three, the share is one half and the first order condition is satisfied at a marginal cost of one. -/
example : ∃ (results : Fin 1 → Fin 1 → DrawRow),
    BootstrapRealizations none (drawnMonopolist 3 1 (1 / 4) (-2) 0) false (fun _ _ _ _ _ => 3) results ∧ (results 0 0).price = 3 ∧
      (results 0 0).share = 1 / 2 ∧ (results 0 0).delta = 0 ∧
      Spec.rowCost (drawnMonopolist 3 1 (1 / 4) (-2) 0) false results 0 0 = 1 ∧
      Spec.FirstOrderCondition (Spec.drawShares (drawnMonopolist 3 1 (1 / 4) (-2) 0) 0 ())
        (fun k => (drawnMonopolist 3 1 (1 / 4) (-2) 0).ownership () k ⟨0, rfl⟩)
        (fun k => Spec.rowCost (drawnMonopolist 3 1 (1 / 4) (-2) 0) false results 0 k) (fun k => (results 0 k).price) ⟨0, rfl⟩ := by
  obtain ⟨results, hr, hp⟩ := drawnMonopolist_results 3 1 (1 / 4) (-2) 0 false
  have hpf : (fun j : MarketRows (drawnMonopolist 3 1 (1 / 4) (-2) 0).ids () => (results 0 j).price) = fun _ => 3 := funext fun j => hp 0 j
  have hshare : (results 0 0).share = 1 / 2 := by
    have := congrFun (draw_share hr 0 ()) ⟨0, rfl⟩
    rw [hpf] at this
    exact this.trans (drawnMonopolist_share 3 1 (1 / 4) (-2) 0 ⟨0, rfl⟩)
  have hcost : Spec.rowCost (drawnMonopolist 3 1 (1 / 4) (-2) 0) false results 0 0 = 1 := by
    unfold Spec.rowCost
    rw [if_neg Bool.false_ne_true, hshare, drawnMonopolist_cost]
    norm_num
  refine ⟨results, hr, hp 0 0, hshare, ?_, hcost, ?_⟩
  · have := (C106_demand (drawnMonopolist_valid 3 1 (1 / 4) (-2) 0) hr 0 () ⟨0, rfl⟩).1
    rw [this]
    refine (drawnMonopolist_utility 3 1 (1 / 4) (-2) 0 _).trans ?_
    rw [hp 0]
    norm_num
  · refine C106_supply (drawnMonopolist_valid 3 1 (1 / 4) (-2) 0) hr 0 () (monopolist_wellFormed 3) (drawnMonopolist_smooth 3 1 (1 / 4) (-2) 0)
      (fun _ => rfl) ?_ ?_ ⟨0, rfl⟩
    · rw [hpf]
      exact drawnMonopolist_lamda 3 1 (1 / 4) (-2) 0
    · rw [hpf]
      exact drawnMonopolist_fixed 3 1 (1 / 4) (-2) 0 false (by simp)

/-- The intra-firm Jacobian at the estimates. -/
lemma drawnMonopolist_det : IsUnit (capitalDelta ((drawnMonopolist x x s b g).market 0 ()) (drawCharacteristic (drawnMonopolist x x s b g) 0 ())
    ((drawnMonopolist x x s b g).ownership ())).det := by
  have hC : conditionalsAt ((drawnMonopolist x x s b g).market 0 ()) (drawCharacteristic (drawnMonopolist x x s b g) 0 ()) (fun _ => x) =
      conditionalsAt ((monopolist x).market ()) (characteristicOf (monopolist x) ()) fun _ => x := by
    unfold conditionalsAt
    rw [(drawnMonopolist_updates x x s b g).1, (drawnMonopolist_updates x x s b g).2]
    rfl
  have hU : utilityDerivatives ((drawnMonopolist x x s b g).market 0 ()) (drawCharacteristic (drawnMonopolist x x s b g) 0 ()) (fun _ => x) =
      utilityDerivatives ((monopolist x).market ()) (characteristicOf (monopolist x) ()) fun _ => x := rfl
  have : Subsingleton (MarketRows (drawnMonopolist x x s b g).ids ()) := inferInstanceAs (Subsingleton (MarketRows (monopolist x).ids ()))
  rw [Matrix.det_eq_elem_of_subsingleton _ (⟨0, rfl⟩ : MarketRows (drawnMonopolist x x s b g).ids ())]
  unfold capitalDelta
  rw [Matrix.of_apply, show (drawCharacteristic (drawnMonopolist x x s b g) 0 ()).x0 = fun _ => x from rfl, drawnMonopolist_probabilities, hC, hU]
  have h1 := monopolist_lamda x ⟨0, rfl⟩
  have h2 := monopolist_gamma x ⟨0, rfl⟩ ⟨0, rfl⟩
  rw [if_pos rfl]
  erw [h1, h2]
  simp [drawnMonopolist, monopolist]
  norm_num

lemma drawnMonopolist_move : (drawCharacteristic (drawnMonopolist x x s b g) 0 ()).moveTo (fun _ => x) =
    drawCharacteristic (drawnMonopolist x x s b g) 0 () := by
  unfold Characteristic.moveTo
  have : updateDelta (drawCharacteristic (drawnMonopolist x x s b g) 0 ()) (fun _ => x) =
      (drawCharacteristic (drawnMonopolist x x s b g) 0 ()).delta := by
    funext j
    simp [updateDelta, drawCharacteristic, drawnMonopolist]
  rw [this]
  rfl

/-- Non-vacuity of `C106_observed_partial` and `C106_costs_partial`: estimates at which the observed price of three is an equilibrium. -/
example : (∀ constantCosts, drawContraction (drawnMonopolist 3 3 (1 / 2) (-1) 1) 0 () constantCosts (fun _ => 3) = fun _ => 3) ∧
    ∃ results, BootstrapRealizations none (drawnMonopolist 3 3 (1 / 2) (-1) 1) false (fun _ _ _ start => start) results ∧
      computeCosts ((drawnMonopolist 3 3 (1 / 2) (-1) 1).market 0 ()) (resultsCharacteristic (drawnMonopolist 3 3 (1 / 2) (-1) 1) results 0 ())
        ((drawnMonopolist 3 3 (1 / 2) (-1) 1).ownership ()) (fun k => (results 0 k).share) ⟨0, rfl⟩ = 1 := by
  have hfix := fun constantCosts => drawnMonopolist_fixed 3 3 (1 / 2) (-1) 1 constantCosts fun _ => rfl
  have hobserved : ∀ constantCosts, drawContraction (drawnMonopolist 3 3 (1 / 2) (-1) 1) 0 () constantCosts (fun _ => 3) = fun _ => 3 := by
    intro constantCosts
    refine C106_observed_partial (drawnMonopolist_valid 3 3 (1 / 2) (-1) 1) 0 rfl rfl () (monopolist_wellFormed 3)
      (drawnMonopolist_smooth 3 3 (1 / 2) (-1) 1) (fun _ => rfl) (fun _ _ => rfl) (drawnMonopolist_lamda 3 3 (1 / 2) (-1) 1)
      (drawnMonopolist_det 3 (1 / 2) (-1) 1) (fun k => ?_) (fun k => ?_)
    · refine Eq.trans ?_ (drawnMonopolist_share 3 3 (1 / 2) (-1) 1 k)
      unfold sharesAt computeShares probabilitiesAt
      rw [updateMu_draw (drawnMonopolist_valid 3 3 (1 / 2) (-1) 1)]
      have : updateDelta (drawCharacteristic (drawnMonopolist 3 3 (1 / 2) (-1) 1) 0 ()) (fun _ => 3) =
          fun k : MarketRows (drawnMonopolist 3 3 (1 / 2) (-1) 1).ids () => (drawnMonopolist 3 3 (1 / 2) (-1) 1).delta k := by
        funext k
        rw [updateDelta_draw (drawnMonopolist_valid 3 3 (1 / 2) (-1) 1), show (k : Fin 1) = 0 from Subsingleton.elim _ _,
          drawnMonopolist_utility]
        simp [drawnMonopolist]
      rw [this]
      rfl
    · have hmove := drawnMonopolist_move 3 (1 / 2) (-1) 1
      have h := hfix true
      rw [drawContraction_eq (drawnMonopolist_valid 3 3 (1 / 2) (-1) 1)] at h
      have h' := (C31_fixed_point_iff_costs_partial _ (drawnMonopolist_wellFormed 3 3 (1 / 2) (-1) 1) _ (drawnMonopolist_smooth 3 3 (1 / 2) (-1) 1) (fun k => k.elim0) _
        (fun _ => rfl) (fun _ _ => rfl) _ _ (drawnMonopolist_lamda 3 3 (1 / 2) (-1) 1) (by
          rw [hmove]; exact drawnMonopolist_det 3 (1 / 2) (-1) 1)).mp h
      rw [hmove] at h'
      have hs : sharesAt ((drawnMonopolist 3 3 (1 / 2) (-1) 1).market 0 ()) (drawCharacteristic (drawnMonopolist 3 3 (1 / 2) (-1) 1) 0 ())
          (fun _ => 3) = fun k : MarketRows (drawnMonopolist 3 3 (1 / 2) (-1) 1).ids () => (drawnMonopolist 3 3 (1 / 2) (-1) 1).shares k :=
        funext (drawnMonopolist_share 3 3 (1 / 2) (-1) 1)
      rw [hs] at h'
      refine (congrFun h' k).trans ?_
      rw [show (k : Fin 1) = 0 from Subsingleton.elim _ _, if_pos rfl]
      refine (drawnMonopolist_cost 3 3 (1 / 2) (-1) 1 _).trans ?_
      simp [drawnMonopolist]
      norm_num
  refine ⟨hobserved, ?_⟩
  have hr : BootstrapRealizations none (drawnMonopolist 3 3 (1 / 2) (-1) 1) false (fun _ _ _ start => start) _ := ⟨_, rfl, rfl⟩
  refine ⟨_, hr, ?_⟩
  have hpf := draw_prices hr 0 ()
  have hpf' : realizedPrices (drawnMonopolist 3 3 (1 / 2) (-1) 1) false (fun _ _ _ start => start) 0 () = fun _ => 3 := rfl
  rw [hpf'] at hpf
  refine (C106_costs_partial (drawnMonopolist_valid 3 3 (1 / 2) (-1) 1) hr 0 () (monopolist_wellFormed 3)
    (drawnMonopolist_smooth 3 3 (1 / 2) (-1) 1) (fun _ => rfl) (fun _ _ => rfl) ?_ ?_ ?_ ⟨0, rfl⟩).trans ?_
  · rw [hpf]
    exact drawnMonopolist_lamda 3 3 (1 / 2) (-1) 1
  · rw [resultsCharacteristic_eq hr 0 (), hpf, drawnMonopolist_move]
    exact drawnMonopolist_det 3 (1 / 2) (-1) 1
  · rw [hpf]
    exact hobserved false
  · have hs := congrFun (draw_share hr 0 ()) ⟨0, rfl⟩
    rw [hpf] at hs
    unfold Spec.rowCost
    rw [if_neg Bool.false_ne_true]
    refine (drawnMonopolist_cost 3 3 (1 / 2) (-1) 1 _).trans ?_
    have hs' := hs.trans (drawnMonopolist_share 3 3 (1 / 2) (-1) 1 ⟨0, rfl⟩)
    rw [hs']
    norm_num

end monopolist

end Pyblp
