import Verif.Props.Scores

/-!
# C87: an economy with scores, and a dataset with a market that does not appear in micro data
-/

set_option linter.unusedSectionVars false

namespace Pyblp

variable {Mk G K2 N D Q : Type} [Fintype G] [DecidableEq G] [Fintype K2] [DecidableEq K2] [Fintype N] [DecidableEq N] [Fintype D] [DecidableEq D]

section existence

variable (e : ScoreEconomy Mk G K2 N D Q) (t : Mk)

lemma rowsContributions_of (availability : Bool) {n : ℕ} (rows : Fin (n + 1) → ScoreRow N D) (x : Q → Fin ((e.products t).J + 1) → ℝ)
    (w : UserArray MicroShape (MicroCell (Fin ((e.products t).J + 1)))) (hw : e.weights t (List.ofFn rows) = some w)
    (hlen : w.rows.length = n + 1) (hneg : ∀ r ∈ w.rows, ∀ c ∈ w.shape.cells, 0 ≤ r c) :
    ∃ y, datasetContributions (microOf e t availability rows x) (weightsOf e t rows) () (List.range (n + 1)) = .ok y ∧ y.shape = w.shape := by
  have hc : computeMicroWeights (microOf e t availability rows x) (weightsOf e t rows) () (List.range (n + 1)) = .ok w := by
    unfold computeMicroWeights
    rw [microOf_row, weightsOf_all, hw]
    simp only []
    rw [if_neg (by simpa using hlen), if_neg]
    rintro ⟨r, hr, c, hc, hlt⟩
    rw [microOf_cells] at hc
    exact absurd (hneg r hr c hc) (not_le.mpr hlt)
  unfold datasetContributions
  rw [hc]
  exact ⟨_, rfl, rfl⟩

lemma denominator_of (hinc : e.included t = true) (w : UserArray MicroShape (MicroCell (Fin ((e.products t).J + 1))))
    (hw : e.weights t (List.ofFn (e.agents t)) = some w) (hlen : w.rows.length = e.agentCount t + 1)
    (hneg : ∀ r ∈ w.rows, ∀ c ∈ w.shape.cells, 0 ≤ r c) : ∃ x, (methodsOf e 1).denominator t = .ok x := by
  obtain ⟨y, hy, -⟩ := rowsContributions_of e t e.agentAvailability (e.agents t) (xiOf e t) w hw hlen hneg
  unfold methodsOf
  simp only []
  unfold scoreDenominator
  rw [generateChunks_one, microOf_I]
  simp only [loopScore]
  unfold denominatorChunk
  have hin : (microOf e t e.agentAvailability (e.agents t) (xiOf e t)).included () = true := hinc
  rw [if_pos hin, hy]
  exact ⟨_, rfl⟩

lemma numerator_of (hinc : e.included t = true) (a : ScoreRow N D) (rest : List (ScoreRow N D))
    (w : UserArray MicroShape (MicroCell (Fin ((e.products t).J + 1)))) (hw : e.weights t (a :: rest) = some w)
    (hlen : w.rows.length = rest.length + 1) (hneg : ∀ r ∈ w.rows, ∀ c ∈ w.shape.cells, 0 ≤ r c) (j : ℤ) (k : Option ℤ)
    (c : MicroCell (Fin ((e.products t).J + 1))) (hc : selectCell w.shape j k = .ok c) (xi : Q → ℕ → ℝ) :
    ∃ x, (methodsOf e 1).numerator t (a :: rest) j k xi = .ok x := by
  have hof : List.ofFn (fun i : Fin (rest.length + 1) => (a :: rest).get i) = a :: rest := List.ofFn_get (a :: rest)
  obtain ⟨y, hy, hs⟩ := rowsContributions_of e t e.microAvailability (fun i : Fin (rest.length + 1) => (a :: rest).get i)
    (fun q j => xi q j) w (by rw [hof]; exact hw) hlen hneg
  unfold methodsOf
  simp only []
  unfold scoreNumerator
  rw [generateChunks_one, microOf_I]
  simp only [loopScore]
  unfold numeratorChunk
  have hin : (microOf e t e.microAvailability (fun i : Fin (rest.length + 1) => (a :: rest).get i) (fun q j => xi q j)).included () = true := hinc
  rw [if_pos hin, hy]
  simp only [hs, hc]
  exact ⟨_, rfl⟩

/-- Scores can be computed if weights can. -/
lemma computeMicroScores_of {ι : Type} [LinearOrder ι] [LinearOrder Mk] (data : MicroData ι Mk (ScoreRow N D))
    (hv : validateMicroData data = .ok ()) (hch : data.hasChoice = true) (hinc : ∀ r ∈ data.rows, e.included r.market = true)
    (hden : ∀ r ∈ data.rows, ∃ w, e.weights r.market (List.ofFn (e.agents r.market)) = some w ∧ w.rows.length = e.agentCount r.market + 1 ∧
      ∀ x ∈ w.rows, ∀ c ∈ w.shape.cells, 0 ≤ x c)
    (hnum : ∀ r ∈ data.rows, ∀ a rest, (rowsOf data r.id).map (·.agent) = a :: rest → ∃ w, e.weights r.market (a :: rest) = some w ∧
      w.rows.length = rest.length + 1 ∧ (∀ x ∈ w.rows, ∀ c ∈ w.shape.cells, 0 ≤ x c) ∧
      ∃ c, (selectCell w.shape r.choice (if data.hasSecond then some r.second else none) :
        Except PyErr (MicroCell (Fin ((e.products r.market).J + 1)))) = .ok c) :
    ∃ scores, computeMicroScores (methodsOf e 1) data = .ok scores ∧ scores.length = (uniqueSorted (data.rows.map (·.id))).length := by
  have hall : ∀ t ∈ uniqueSorted (data.rows.map (·.market)), ∃ x, (methodsOf e 1).denominator t = .ok x := by
    intro t ht
    rw [mem_uniqueSorted, List.mem_map] at ht
    obtain ⟨r, hr, rfl⟩ := ht
    obtain ⟨w, hw, hl, hn⟩ := hden r hr
    exact denominator_of e _ (hinc r hr) w hw hl hn
  choose! f hf using hall
  have hcd := collect_of hf
  have hcn : ∀ n ∈ uniqueSorted (data.rows.map (·.id)), ∃ x, observationNumerator (methodsOf e 1) data (fun t =>
      (lookupIn (uniqueSorted (data.rows.map (·.market))) ((uniqueSorted (data.rows.map (·.market))).map f) t).map (·.1)) n = .ok x := by
    intro n hn
    rw [mem_uniqueSorted, List.mem_map] at hn
    obtain ⟨r0, hr0, rfl⟩ := hn
    unfold observationNumerator
    cases hrows : rowsOf data r0.id with
    | nil =>
      have : r0 ∈ rowsOf data r0.id := List.mem_filter.mpr ⟨hr0, by simp⟩
      rw [hrows] at this
      simp at this
    | cons r rest =>
      have hr : r ∈ data.rows ∧ r.id = r0.id := by
        have : r ∈ rowsOf data r0.id := by rw [hrows]; exact List.mem_cons_self
        simpa [rowsOf] using this
      obtain ⟨b, hb, -⟩ := lookupIn_of (collect_ok hcd) r.market ((mem_uniqueSorted _ _).mpr (List.mem_map_of_mem hr.1))
      simp only [hb, Option.map_some]
      obtain ⟨w, hw, hl, hneg, c, hc⟩ := hnum r hr.1 r.agent (rest.map (·.agent)) (by rw [hr.2, hrows]; rfl)
      exact numerator_of e _ (hinc r hr.1) _ _ w hw hl hneg _ _ c hc _
  choose! g hg using hcn
  refine ⟨(uniqueSorted (data.rows.map (·.id))).map fun n q => scoreOf (g n).1 ((g n).2 q)
    ((uniqueSorted (data.rows.map (·.market))).map fun t => (f t).2.1).sum ((uniqueSorted (data.rows.map (·.market))).map fun t => (f t).2.2 q).sum,
    ?_, by simp⟩
  unfold computeMicroScores
  rw [hv]
  simp only [hch, Bool.true_eq_false, if_false]
  rw [if_neg, hcd]
  · simp only [collect_of hg, List.map_map]
    rfl
  · rintro ⟨t, ht, hs⟩
    rw [mem_uniqueSorted, List.mem_map] at ht
    obtain ⟨r, hr, rfl⟩ := ht
    have := hinc r hr
    rw [show (methodsOf e 1).supported r.market = e.included r.market from rfl, this] at hs
    cases hs

end existence

/-- A product that is chosen with probability one half. -/
noncomputable def surveyProducts : ScoreProducts Unit Unit Unit Unit Unit where
  J := 0
  nesting := none
  epsilonScale := 1
  X2 := fun _ _ => 1
  delta := fun _ => 0
  param := fun _ => .sigma () ()
  inverse := fun _ _ => 4

/-- Two markets with one product and two agents, who have opposite draws of a random coefficient on a constant. The survey in the second market
covers all who choose the product. In the first one it covers only those with a positive draw. -/
noncomputable def surveyEconomy : ScoreEconomy (Fin 2) Unit Unit Unit Unit Unit where
  products := fun _ => surveyProducts
  agentCount := fun _ => 1
  agents := fun _ i => { weight := 1 / 2, nodes := fun _ => if i = 0 then 1 else -1, demographics := fun _ _ => 0, availability := fun _ => 0 }
  rcType := fun _ => .linear
  sigma := fun _ _ => 0
  pi := fun _ _ => 0
  agentAvailability := false
  microAvailability := false
  included := fun _ => true
  weights := fun t l => some ⟨.first false, l.map fun a _ => if t = 0 ∧ a.nodes () < 0 then 0 else 1⟩

/-- An agent with a positive draw. -/
noncomputable def surveyedAgent : ScoreRow Unit Unit :=
  { weight := 1 / 2, nodes := fun _ => 1, demographics := fun _ _ => 0, availability := fun _ => 0 }

/-- One observation of such an agent, in the first market. -/
noncomputable def surveyData : MicroData ℕ (Fin 2) (ScoreRow Unit Unit) where
  rows := [{ id := 7, market := 0, choice := 0, second := 0, agent := surveyedAgent }]
  hasChoice := true
  hasSecond := false

/-- Such an observation in each of the markets. -/
noncomputable def surveyDataBoth : MicroData ℕ (Fin 2) (ScoreRow Unit Unit) where
  rows := [{ id := 7, market := 0, choice := 0, second := 0, agent := surveyedAgent },
    { id := 8, market := 1, choice := 0, second := 0, agent := surveyedAgent }]
  hasChoice := true
  hasSecond := false

lemma survey_valid (t : Fin 2) {n : ℕ} (rows : Fin (n + 1) → ScoreRow Unit Unit) (hw : ∀ i, 0 ≤ (rows i).weight) (a : Bool) (ha : a = false) :
    Spec.ValidAgents surveyEconomy t a rows where
  wellFormed := {
    regular := { rho := by intro n hn; simp [marketOf, surveyEconomy, surveyProducts] at hn, eps := one_pos }
    scale := fun _ => rfl
    avail := by intro a h; simp [marketOf, ha] at h }
  weights := hw
  offered := fun i => ⟨0, by simp [Offered, marketOf, ha]⟩

lemma survey_mu (t : Fin 2) {n : ℕ} (rows : Fin (n + 1) → ScoreRow Unit Unit) (i : Fin (n + 1)) (s : ℝ) (sigma pi : Unit → Unit → ℝ)
    (hs : sigma () () = s) (hp : pi () () = 0) (j : Fin ((surveyEconomy.products t).J + 1)) :
    computeMu (tastesOf surveyEconomy t rows) sigma pi j i = s * (rows i).nodes () := by
  simp [computeMu, randomCoefficient, coefficientIndex, tastesOf, surveyEconomy, surveyProducts, transformCoefficient, hs, hp]

/-- Choice probabilities of an agent after the parameter has increased. -/
lemma survey_probability (t : Fin 2) {n : ℕ} (rows : Fin (n + 1) → ScoreRow Unit Unit) (i : Fin (n + 1)) (s : ℝ) (sigma pi : Unit → Unit → ℝ)
    (hs : sigma () () = s) (hp : pi () () = 0) (j : Fin ((surveyEconomy.products t).J + 1)) :
    computeProbabilities (marketOf surveyEconomy t false rows) {} (fun _ => 0) (computeMu (tastesOf surveyEconomy t rows) sigma pi) j i =
      Real.exp (s * (rows i).nodes ()) / (1 + Real.exp (s * (rows i).nodes ())) := by
  rw [computeProbabilities_plain _ _ _ _ rfl]
  unfold Spec.logit multiplier
  have hJ : Fintype.card (Fin ((surveyEconomy.products t).J + 1)) = 1 := rfl
  have he : (marketOf surveyEconomy t false rows).epsilonScale = 1 := rfl
  have ha : (marketOf surveyEconomy t false rows).availability = none := rfl
  simp [survey_mu t rows i s sigma pi hs hp, he, ha]
  rw [show (surveyEconomy.products t).J = 0 from rfl]
  simp

lemma survey_shares (t : Fin 2) (s : ℝ) (sigma pi : Unit → Unit → ℝ) (hs : sigma () () = s) (hp : pi () () = 0)
    (j : Fin ((surveyEconomy.products t).J + 1)) :
    computeShares (marketOf surveyEconomy t false (surveyEconomy.agents t)) {} (fun _ => 0)
      (computeMu (tastesOf surveyEconomy t (surveyEconomy.agents t)) sigma pi) j = 1 / 2 := by
  unfold computeShares
  simp only [survey_probability t (surveyEconomy.agents t) _ s sigma pi hs hp]
  have hc : surveyEconomy.agentCount t = 1 := rfl
  have h1 : (1 : ℝ) + Real.exp s ≠ 0 := by positivity
  change ∑ i : Fin 2, _ = _
  rw [Fin.sum_univ_two]
  simp [marketOf, surveyEconomy, Real.exp_neg]
  field_simp
  ring

lemma survey_offered (t : Fin 2) (j : Fin ((surveyEconomy.products t).J + 1)) (i : Fin (surveyEconomy.agentCount t + 1)) :
    Offered (marketOf surveyEconomy t surveyEconomy.agentAvailability (surveyEconomy.agents t)) {} i j := by
  refine ⟨by simp, rfl, fun a h => ?_⟩
  cases h

/-- Mean utilities do not have to change for shares to stay what they are. -/
lemma survey_market (t : Fin 2) : Spec.ValidMarket surveyEconomy t () (fun _ _ => 0) where
  agents := survey_valid t _ (fun i => by simp [surveyEconomy]) _ rfl
  products := fun j => ⟨0, by simp [surveyEconomy], survey_offered t j 0⟩
  fits := by intro n hn; simp [marketOf, surveyEconomy, surveyProducts] at hn
  interior := by intro n hn; simp [marketOf, surveyEconomy, surveyProducts] at hn
  inverse := by
    intro j l
    have hjl : j = l := Subsingleton.elim (α := Fin 1) j l
    rw [if_pos hjl]
    have hP := fun i j => survey_probability t (surveyEconomy.agents t) i 0 surveyEconomy.sigma surveyEconomy.pi rfl rfl j
    have hS := fun j => survey_shares t 0 surveyEconomy.sigma surveyEconomy.pi rfl rfl j
    subst hjl
    rw [Finset.sum_eq_single j (fun k _ hk => absurd (Subsingleton.elim (α := Fin 1) k j) hk) (fun h => absurd (Finset.mem_univ j) h)]
    unfold sharesByXiJacobian
    have hn : (marketOf surveyEconomy t surveyEconomy.agentAvailability (surveyEconomy.agents t)).nesting = none := rfl
    have he : (marketOf surveyEconomy t surveyEconomy.agentAvailability (surveyEconomy.agents t)).epsilonScale = 1 := rfl
    simp only [hn, he, ne_eq, not_true_eq_false, if_false]
    rw [if_pos trivial]
    have hd : (surveyEconomy.products t).delta = fun _ => 0 := rfl
    have ha : surveyEconomy.agentAvailability = false := rfl
    rw [hd, ha]
    simp only [hP]
    rw [hS]
    change _ * (_ - ∑ i : Fin 2, _) = _
    rw [Fin.sum_univ_two]
    simp [marketOf, surveyEconomy, surveyProducts]
    norm_num
  solves := by
    refine ⟨rfl, Filter.Eventually.of_forall fun s => ?_⟩
    funext j
    have hd : (surveyEconomy.products t).delta = fun _ => 0 := rfl
    rw [hd]
    refine Eq.trans ?_ (survey_shares t 0 surveyEconomy.sigma surveyEconomy.pi rfl rfl j).symm
    unfold Spec.sharesOf
    refine survey_shares t s _ _ ?_ rfl j
    simp [Spec.shiftSigma, surveyEconomy, surveyProducts]

lemma survey_surveyed (t : Fin 2) {n : ℕ} (rows : Fin (n + 1) → ScoreRow Unit Unit)
    (w : UserArray MicroShape (MicroCell (Fin ((surveyEconomy.products t).J + 1)))) (s : ℝ) (j : Fin ((surveyEconomy.products t).J + 1)) :
    Spec.surveyed surveyEconomy t false rows () w (fun _ => 0) s (.first (some j)) =
      ∑ i, (rows i).weight * w.rows.getD i (fun _ => 0) (.first (some j)) *
        (Real.exp (s * (rows i).nodes ()) / (1 + Real.exp (s * (rows i).nodes ()))) := by
  unfold Spec.surveyed
  simp only []
  refine Finset.sum_congr rfl fun i _ => ?_
  congr 1
  refine survey_probability t rows i s _ _ ?_ rfl j
  simp [Spec.shiftSigma, surveyEconomy, surveyProducts]

lemma survey_cells : (MicroShape.first false).cells = {(MicroCell.first (some (0 : Fin 1)))} := by decide

lemma survey_weights {C : Type} (t : Fin 2) (l : List (ScoreRow Unit Unit)) (x : C → ℝ)
    (hx : x ∈ l.map fun a _ => if t = 0 ∧ a.nodes () < 0 then (0 : ℝ) else 1) (c : C) : 0 ≤ x c := by
  obtain ⟨a, _, rfl⟩ := List.mem_map.mp hx
  dsimp only
  split_ifs <;> norm_num

lemma survey_positive (a : ℝ) : 0 < Real.exp a / (1 + Real.exp a) := by positivity

/-- What the observation in the first market adds to numerators. -/
lemma survey_numerator (t : Fin 2) {n : ℕ} (agents : Fin (n + 1) → ScoreRow Unit Unit) (hag : List.ofFn agents = [surveyedAgent])
    (w : UserArray MicroShape (MicroCell (Fin ((surveyEconomy.products t).J + 1)))) (hw : surveyEconomy.weights t [surveyedAgent] = some w) (s : ℝ) :
    Spec.surveyed surveyEconomy t false agents () w (fun _ => 0) s (.first (some 0)) = 1 / 2 * (Real.exp s / (1 + Real.exp s)) := by
  have hn : n = 0 := by simpa using congrArg List.length hag
  subst hn
  have h0 : agents 0 = surveyedAgent := by simpa using hag
  rw [survey_surveyed, Fin.sum_univ_one, h0]
  have hw := Option.some.inj hw
  subst hw
  have hg : ∀ (X : Type) (a : X → ℝ) (x : X), [a].getD 0 (fun _ => 0) x = a x := fun _ _ _ => rfl
  refine (congrArg (fun x => surveyedAgent.weight * x * _) (hg _ _ _)).trans ?_
  simp [surveyedAgent]

/-- What the markets add to denominators. -/
lemma survey_denominator (t : Fin 2) (w : UserArray MicroShape (MicroCell (Fin ((surveyEconomy.products t).J + 1))))
    (hw : surveyEconomy.weights t (List.ofFn (surveyEconomy.agents t)) = some w) (s : ℝ) :
    ∑ c ∈ w.shape.cells, Spec.surveyed surveyEconomy t false (surveyEconomy.agents t) () w (fun _ => 0) s c =
      if t = 0 then 1 / 2 * (Real.exp s / (1 + Real.exp s)) else 1 / 2 := by
  have hshape : w.shape = .first false := by
    rw [← Option.some.inj hw]
  have hcells : w.shape.cells = ({MicroCell.first (some 0)} : Finset (MicroCell (Fin ((surveyEconomy.products t).J + 1)))) := by rw [hshape]; exact survey_cells
  rw [hcells, Finset.sum_singleton]
  refine (survey_surveyed t _ w s 0).trans ?_
  have h1 : (1 : ℝ) + Real.exp s ≠ 0 := by positivity
  change ∑ i : Fin 2, _ = _
  rw [Fin.sum_univ_two]
  have hw := Option.some.inj hw
  subst hw
  by_cases ht : t = 0
  · simp [surveyEconomy, ht, List.ofFn_succ]
  · simp [surveyEconomy, ht, List.ofFn_succ, Real.exp_neg]
    field_simp
    ring

/-- **C87** needs the condition that there are observations from all markets of the dataset: the denominator of an observation's probability is
documented to be summed over all markets, but if there are no observations from a market, then it is left out, and the score is something
else. In this economy, the score of the only observation is zero although the derivative of the logarithm of its probability is one third. -/
theorem C87_markets_refuted : (∀ t, surveyEconomy.included t = true ∧ Spec.ValidMarket surveyEconomy t () (fun _ _ => 0)) ∧
    ∃ score, computeMicroScores (methodsOf surveyEconomy 1) surveyData = .ok [score] ∧ score () = some 0 ∧
      ∀ W w, (∀ t, surveyEconomy.weights t (List.ofFn (surveyEconomy.agents t)) = some (W t)) →
        surveyEconomy.weights 0 [surveyedAgent] = some w →
        HasDerivAt (fun s => Real.log (Spec.observationProbability surveyEconomy Finset.univ () (fun _ _ _ => 0) W 0
          (fun _ : Fin 1 => surveyedAgent) w (.first (some 0)) s)) (1 / 3) 0 := by
  refine ⟨fun t => ⟨rfl, survey_market t⟩, ?_⟩
  have hv : validateMicroData surveyData = .ok () := by
    simp [validateMicroData, surveyData]
  obtain ⟨scores, hok, hlen⟩ := computeMicroScores_of surveyEconomy surveyData hv rfl (fun r _ => rfl)
    (fun r _ => ⟨_, rfl, (List.length_map _).trans (List.length_ofFn), fun x hx c _ => by
      exact survey_weights _ _ x hx c⟩)
    (fun r hr a rest _ => ⟨_, rfl, (List.length_map _).trans rfl, fun x hx c _ => by
      exact survey_weights _ _ x hx c, by
        simp only [surveyData, List.mem_singleton] at hr
        subst hr
        exact ⟨.first (some 0), rfl⟩⟩)
  have hl1 : scores.length = 1 := by
    rw [hlen]
    simp [surveyData, uniqueSorted]
  obtain ⟨score, rfl⟩ := List.length_eq_one_iff.mp hl1
  refine ⟨score, hok, ?_, fun W w hW hw => ?_⟩
  · obtain ⟨ids, hsub, -, hmem, hl, W, hW, hs⟩ := C87_computed_partial surveyEconomy surveyData [score] hok () (fun _ _ _ => 0)
      (fun r _ => survey_market r.market) (fun r hr n agents hag => survey_valid _ _ (fun i => by
        have hi : agents i ∈ List.ofFn agents := List.mem_ofFn.mpr ⟨i, rfl⟩
        rw [hag, List.mem_map] at hi
        obtain ⟨r', hr', hi⟩ := hi
        have := (List.mem_filter.mp hr').1
        simp only [surveyData, List.mem_singleton] at this
        rw [← hi, this]
        simp [surveyedAgent]) _ rfl)
    have hr : (⟨7, 0, 0, 0, surveyedAgent⟩ : MicroRow ℕ (Fin 2) (ScoreRow Unit Unit)) ∈ surveyData.rows := by simp [surveyData]
    have hid : ids[0]? = some 7 := by
      have := hmem _ hr
      obtain ⟨x, rfl⟩ := List.length_eq_one_iff.mp (by simpa using hl.symm : ids.length = 1)
      exact congrArg some (List.mem_singleton.mp this).symm
    obtain ⟨n, agents, w, c, hag, hw, hc, hnone, hder⟩ := hs 0 score rfl _ hr hid
    have hag' : List.ofFn agents = [surveyedAgent] := by rw [hag]; simp [surveyData]
    rw [hag'] at hw
    have hshape : w.shape = .first false := by rw [← Option.some.inj hw]
    rw [hshape] at hc
    have hc' : c = .first (some 0) := (Except.ok.inj (hc.symm.trans rfl : (Except.ok c : Except PyErr _) = .ok (.first (some 0))))
    subst hc'
    have hP : ∀ s, Spec.observationProbability surveyEconomy (surveyData.rows.map (·.market)).toFinset () (fun _ _ _ => 0) W 0 agents w
        (.first (some 0)) s = 1 := by
      intro s
      unfold Spec.observationProbability
      have hm : (surveyData.rows.map (·.market)).toFinset = {0} := by simp [surveyData]
      rw [hm, Finset.sum_singleton]
      refine (congrArg₂ (· / ·) (survey_numerator 0 agents hag' w hw s) (survey_denominator 0 (W 0) (hW _ hr) s)).trans ?_
      rw [if_pos rfl]
      exact div_self (by have := survey_positive s; positivity)
    simp only [hP, Real.log_one, one_ne_zero, iff_false] at hnone hder
    cases hsc : score () with
    | none => exact absurd hsc hnone
    | some x => rw [(hder x hsc).unique (hasDerivAt_const 0 0)]
  · have hP : ∀ s, Spec.observationProbability surveyEconomy Finset.univ () (fun _ _ _ => 0) W 0
        (fun _ : Fin 1 => surveyedAgent) w (.first (some 0)) s = Real.exp s / (1 + 2 * Real.exp s) := by
      intro s
      unfold Spec.observationProbability
      rw [Fin.sum_univ_two]
      refine (congrArg₂ (· / ·) (survey_numerator 0 (fun _ : Fin 1 => surveyedAgent) (by simp) w hw s)
        (congrArg₂ (· + ·) (survey_denominator 0 (W 0) (hW 0) s) (survey_denominator 1 (W 1) (hW 1) s))).trans ?_
      rw [if_pos rfl, if_neg (by decide)]
      have h1 : (1 : ℝ) + Real.exp s ≠ 0 := by positivity
      have h2 : (1 : ℝ) + 2 * Real.exp s ≠ 0 := by positivity
      have h3 : (1 : ℝ) / 2 * (Real.exp s / (1 + Real.exp s)) + 1 / 2 ≠ 0 := by positivity
      rw [div_eq_div_iff h3 h2]
      field_simp
      ring
    have hlog : (fun s => Real.log (Spec.observationProbability surveyEconomy Finset.univ () (fun _ _ _ => 0) W 0
        (fun _ : Fin 1 => surveyedAgent) w (.first (some 0)) s)) = fun s => s - Real.log (1 + 2 * Real.exp s) := by
      funext s
      rw [hP, Real.log_div (Real.exp_ne_zero s) (by positivity), Real.log_exp]
    rw [hlog]
    refine ((hasDerivAt_id (0 : ℝ)).fun_sub ((((Real.hasDerivAt_exp 0).const_mul 2).const_add 1).log (by positivity))).congr_deriv ?_
    norm_num

/-- There are data for which `C87_scores_partial` says something: observations in both markets. -/
example : (∃ scores, computeMicroScores (methodsOf surveyEconomy 1) surveyDataBoth = .ok scores ∧ scores.length = 2) ∧
    (∀ t, surveyEconomy.included t = true → Spec.ValidMarket surveyEconomy t () (fun _ _ => 0)) ∧
    (∀ t, surveyEconomy.included t = true → ∃ r ∈ surveyDataBoth.rows, r.market = t) ∧
    ∀ r ∈ surveyDataBoth.rows, ∀ (n : ℕ) (agents : Fin (n + 1) → ScoreRow Unit Unit),
      List.ofFn agents = (surveyDataBoth.rows.filter fun r2 => r2.id = r.id).map (·.agent) →
        Spec.ValidAgents surveyEconomy r.market surveyEconomy.microAvailability agents := by
  refine ⟨?_, fun t _ => survey_market t, fun t _ => ?_, fun r hr n agents hag => survey_valid _ _ (fun i => ?_) _ rfl⟩
  · have hv : validateMicroData surveyDataBoth = .ok () := by
      simp [validateMicroData, surveyDataBoth]
    obtain ⟨scores, hok, hlen⟩ := computeMicroScores_of surveyEconomy surveyDataBoth hv rfl (fun r _ => rfl)
      (fun r _ => ⟨_, rfl, (List.length_map _).trans (List.length_ofFn), fun x hx c _ => survey_weights _ _ x hx c⟩)
      (fun r hr a rest _ => ⟨_, rfl, (List.length_map _).trans rfl, fun x hx c _ => survey_weights _ _ x hx c, by
        simp only [surveyDataBoth, List.mem_cons, List.not_mem_nil, or_false] at hr
        rcases hr with rfl | rfl <;> exact ⟨.first (some 0), rfl⟩⟩)
    refine ⟨scores, hok, ?_⟩
    rw [hlen]
    simp [surveyDataBoth, uniqueSorted]
  · fin_cases t <;> simp [surveyDataBoth]
  · have hi : agents i ∈ List.ofFn agents := List.mem_ofFn.mpr ⟨i, rfl⟩
    rw [hag, List.mem_map] at hi
    obtain ⟨r', hr', hi⟩ := hi
    have := (List.mem_filter.mp hr').1
    simp only [surveyDataBoth, List.mem_cons, List.not_mem_nil, or_false] at this
    rcases this with h | h <;> (rw [← hi, h]; simp [surveyedAgent])

/-- Indices have different meanings with and without an outside option. -/
example : selectCell (J := 3) (.first false) 2 none = .ok (.first (some 2)) ∧ selectCell (J := 3) (.second true false) 0 (some 1) =
    .ok (.second none (some 1)) ∧ selectCell (J := 3) (.first false) 3 none = .error .valueError :=
  ⟨rfl, rfl, rfl⟩

/-- Data that are rejected: an observation with rows in two markets. -/
example (f : ScoreMethods ℕ ℕ ℕ Unit) : computeMicroScores f { rows := [⟨0, 0, 0, 0, 0⟩, ⟨0, 1, 0, 0, 0⟩], hasChoice := true, hasSecond := false } =
    (.error .valueError : Except PyErr (List (Unit → Option ℝ))) := by
  simp [computeMicroScores, validateMicroData]

/-- Agent scores exist in the example. -/
example : ∃ all, scoreNumerators (microOf surveyEconomy 0 false (surveyEconomy.agents 0) (xiOf surveyEconomy 0))
    (weightsOf surveyEconomy 0 (surveyEconomy.agents 0)) () = .ok all := by
  obtain ⟨y, hy, -⟩ := rowsContributions_of surveyEconomy 0 false (surveyEconomy.agents 0) (xiOf surveyEconomy 0) _ rfl
    ((List.length_map _).trans (List.length_ofFn)) (fun x hx c _ => survey_weights _ _ x hx c)
  unfold scoreNumerators
  rw [microOf_I, hy]
  exact ⟨_, rfl⟩

end Pyblp
