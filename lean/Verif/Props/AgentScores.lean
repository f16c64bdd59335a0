import Verif.Model.AgentScores
import Verif.Props.MicroSample
import Verif.Props.ScoresWitness

/-!
# C144: agent scores average to zero, and are the best values for a micro moment
-/

set_option linter.unusedSectionVars false

open MeasureTheory ProbabilityTheory Filter Topology Pyblp.Sampling

namespace Pyblp

variable {Mk G K2 N D Q : Type} [LinearOrder Mk] [Fintype G] [DecidableEq G] [Fintype K2] [DecidableEq K2] [Fintype N] [DecidableEq N]
  [Fintype D] [DecidableEq D]

namespace Spec

/-- Survey weights are computed agent by agent, and do not depend on integration weights. -/
structure SurveysAgents (e : ScoreEconomy Mk G K2 N D Q) (shape : Mk → MicroShape)
    (survey : (t : Mk) → ScoreRow N D → MicroCell (Fin ((e.products t).J + 1)) → ℝ) : Prop where
  rows : ∀ t l, e.weights t l = some ⟨shape t, l.map (survey t)⟩
  integration : ∀ t r x, survey t { r with weight := x } = survey t r

/-- Integration weight times survey weight times the probability of choices `c` of agent `i` in market `t`, after parameter `q` has increased by `s`
and unobserved product characteristics have adjusted. -/
noncomputable def agentWeight (e : ScoreEconomy Mk G K2 N D Q) (survey : (t : Mk) → ScoreRow N D → MicroCell (Fin ((e.products t).J + 1)) → ℝ) (q : Q)
    (d : (t : Mk) → ℝ → Fin ((e.products t).J + 1) → ℝ) (s : ℝ) (t : Mk) (i : Fin (e.agentCount t + 1)) (c : MicroCell (Fin ((e.products t).J + 1))) : ℝ :=
  let p := (e.products t).param q
  (e.agents t i).weight * survey t (e.agents t i) c *
    observation (shiftMarket p (surveyMarket e t e.agentAvailability (e.agents t)) s) (shiftDelta p (d t s) s)
      (computeMu (surveyTastes e t (e.agents t)) (shiftSigma p e.sigma s) (shiftPi p e.pi s)) i c

/-- Sum over markets, agents and choices of a dataset. -/
noncomputable def overAgents (e : ScoreEconomy Mk G K2 N D Q) (markets : List Mk) (shape : Mk → MicroShape)
    (f : (t : Mk) → Fin (e.agentCount t + 1) → MicroCell (Fin ((e.products t).J + 1)) → ℝ) : ℝ :=
  ∑ t ∈ markets.toFinset, ∑ i, ∑ c ∈ (shape t).cells, f t i c

/-- Integration weight times survey weight times the probability of choices `c` of agent `i` in market `t`. -/
noncomputable def agentShare (e : ScoreEconomy Mk G K2 N D Q) (survey : (t : Mk) → ScoreRow N D → MicroCell (Fin ((e.products t).J + 1)) → ℝ) (t : Mk)
    (i : Fin (e.agentCount t + 1)) (c : MicroCell (Fin ((e.products t).J + 1))) : ℝ :=
  (e.agents t i).weight * survey t (e.agents t i) c *
    observation (surveyMarket e t e.agentAvailability (e.agents t)) (e.products t).delta (computeMu (surveyTastes e t (e.agents t)) e.sigma e.pi) i c

/-- Average of values over markets, agents and choices. -/
noncomputable def surveyMean (e : ScoreEconomy Mk G K2 N D Q) (markets : List Mk) (shape : Mk → MicroShape)
    (survey : (t : Mk) → ScoreRow N D → MicroCell (Fin ((e.products t).J + 1)) → ℝ)
    (v : (t : Mk) → Fin (e.agentCount t + 1) → MicroCell (Fin ((e.products t).J + 1)) → ℝ) : ℝ :=
  overAgents e markets shape (fun t i c => agentShare e survey t i c * v t i c) / overAgents e markets shape (agentShare e survey)

/-- The micro value of values `v` after parameter `q` has increased by `s` and unobserved product characteristics have adjusted: their average over
markets, agents and choices. -/
noncomputable def microValue (e : ScoreEconomy Mk G K2 N D Q) (markets : List Mk) (shape : Mk → MicroShape)
    (survey : (t : Mk) → ScoreRow N D → MicroCell (Fin ((e.products t).J + 1)) → ℝ) (q : Q) (d : (t : Mk) → ℝ → Fin ((e.products t).J + 1) → ℝ)
    (v : (t : Mk) → Fin (e.agentCount t + 1) → MicroCell (Fin ((e.products t).J + 1)) → ℝ) (s : ℝ) : ℝ :=
  overAgents e markets shape (fun t i c => agentWeight e survey q d s t i c * v t i c) / overAgents e markets shape (agentWeight e survey q d s)

/-- Covariance of values over markets, agents and choices. -/
noncomputable def surveyCovariance (e : ScoreEconomy Mk G K2 N D Q) (markets : List Mk) (shape : Mk → MicroShape)
    (survey : (t : Mk) → ScoreRow N D → MicroCell (Fin ((e.products t).J + 1)) → ℝ)
    (v w : (t : Mk) → Fin (e.agentCount t + 1) → MicroCell (Fin ((e.products t).J + 1)) → ℝ) : ℝ :=
  surveyMean e markets shape survey fun t i c =>
    (v t i c - surveyMean e markets shape survey v) * (w t i c - surveyMean e markets shape survey w)

/-- Scores as values for a micro moment: what is not a number is replaced by zero, as `numpy.nan_to_num` does. -/
noncomputable def scoreValue (e : ScoreEconomy Mk G K2 N D Q)
    (scores : (t : Mk) → Option (List (Q → MicroCell (Fin ((e.products t).J + 1)) → Option ℝ))) (q : Q) (t : Mk) (i : Fin (e.agentCount t + 1))
    (c : MicroCell (Fin ((e.products t).J + 1))) : ℝ :=
  ((((scores t).bind (·[(i : ℕ)]?)).bind fun x => x q c)).getD 0

end Spec

section
variable {e : ScoreEconomy Mk G K2 N D Q} {shape : Mk → MicroShape} {survey : (t : Mk) → ScoreRow N D → MicroCell (Fin ((e.products t).J + 1)) → ℝ}
  {q : Q} {d : (t : Mk) → ℝ → Fin ((e.products t).J + 1) → ℝ}

lemma validAgents_single {t : Mk} (h : Spec.ValidAgents e t e.agentAvailability (e.agents t)) (i : Fin (e.agentCount t + 1)) :
    Spec.ValidAgents e t e.agentAvailability (agentObservation (e.agents t i)) := by
  refine ⟨⟨⟨h.wellFormed.regular.rho, h.wellFormed.regular.eps⟩, h.wellFormed.scale, fun a ha _ j => ?_⟩, fun _ => zero_le_one, fun _ => ?_⟩
  · have hav := h.wellFormed.avail
    unfold marketOf at ha hav
    simp only at ha hav
    split_ifs at ha with hc
    cases ha
    rw [if_pos hc] at hav
    exact hav _ rfl i j
  · obtain ⟨j, h1, h2, h3⟩ := h.offered i
    refine ⟨j, h1, h2, fun a ha => ?_⟩
    unfold marketOf at ha h3
    simp only at ha h3
    split_ifs at ha with hc
    · cases ha
      rw [if_pos hc] at h3
      exact h3 _ rfl
    · simp at ha

lemma observation_single (t : Mk) (i : Fin (e.agentCount t + 1)) (p : TangentParam (Fin ((e.products t).J + 1)) G K2 N D) (δ : Fin ((e.products t).J + 1) → ℝ) (s : ℝ)
    (c : MicroCell (Fin ((e.products t).J + 1))) :
    Spec.observation (Spec.shiftMarket p (marketOf e t e.agentAvailability (agentObservation (e.agents t i))) s) δ
      (computeMu (tastesOf e t (agentObservation (e.agents t i))) (Spec.shiftSigma p e.sigma s) (Spec.shiftPi p e.pi s)) 0 c =
    Spec.observation (Spec.shiftMarket p (marketOf e t e.agentAvailability (e.agents t)) s) δ
      (computeMu (tastesOf e t (e.agents t)) (Spec.shiftSigma p e.sigma s) (Spec.shiftPi p e.pi s)) i c := by
  generalize e.agentAvailability = b
  cases c with
  | first c => cases b <;> rfl
  | second c c2 => cases b <;> cases c <;> rfl

lemma agentWeight_zero (h : ∀ t, d t 0 = (e.products t).delta) : Spec.agentWeight e survey q d 0 = Spec.agentShare e survey := by
  funext t i c
  unfold Spec.agentWeight Spec.agentShare
  simp only [shift_zero_market, shift_zero_delta, shift_zero_sigma, shift_zero_pi, h]

/-- The numerator of an agent's score, and its derivative. -/
lemma numerator_single (hs : Spec.SurveysAgents e shape survey) {t : Mk} (h : Spec.ValidMarket e t q (d t)) (i : Fin (e.agentCount t + 1))
    {x : MicroShape × (MicroCell (Fin ((e.products t).J + 1)) → ℝ) × (Q → MicroCell (Fin ((e.products t).J + 1)) → ℝ)}
    (hx : scoreNumerators (microOf e t e.agentAvailability (agentObservation (e.agents t i)) (xiOf e t)) (weightsOf e t (agentObservation (e.agents t i))) () =
      .ok x) {c : MicroCell (Fin ((e.products t).J + 1))} (hc : c ∈ (shape t).cells) :
    0 ≤ x.2.1 c ∧ Spec.agentShare e survey t i c = (e.agents t i).weight * x.2.1 c ∧ (x.2.1 c = 0 → x.2.2 q c = 0) ∧
      HasDerivAt (fun s => Spec.agentWeight e survey q d s t i c) ((e.agents t i).weight * x.2.2 q c) 0 := by
  have hr := validAgents_single h.agents i
  unfold scoreNumerators at hx
  cases hds : datasetContributions (microOf e t e.agentAvailability (agentObservation (e.agents t i)) (xiOf e t))
      (weightsOf e t (agentObservation (e.agents t i))) () (List.range (microOf e t e.agentAvailability (agentObservation (e.agents t i)) (xiOf e t)).I) with
  | error err => simp [hds] at hx
  | ok y =>
    simp only [hds, Except.ok.injEq] at hx
    obtain ⟨w, hu, hlen, hneg, hy⟩ := datasetContributions_ok hds
    rw [microOf_row, microOf_I, weightsOf_all, hs.rows] at hu
    obtain rfl := (Option.some.inj hu).symm
    rw [microOf_cells] at hneg
    have hrow : agentObservation (e.agents t i) 0 = { e.agents t i with weight := 1 } := rfl
    have hsv : survey t (agentObservation (e.agents t i) 0) = survey t (e.agents t i) := by rw [hrow, hs.integration]
    have hpos : 0 ≤ survey t (e.agents t i) c := by
      rw [← hsv]
      exact hneg _ (by simp) c hc
    set f : ℝ → ℝ := fun s => Spec.observation (Spec.shiftMarket ((e.products t).param q) (marketOf e t e.agentAvailability (e.agents t)) s)
      (Spec.shiftDelta ((e.products t).param q) (d t s) s)
      (computeMu (tastesOf e t (e.agents t)) (Spec.shiftSigma ((e.products t).param q) e.sigma s) (Spec.shiftPi ((e.products t).param q) e.pi s)) i c with hf
    have hfac := microOf_factor e t e.agentAvailability (agentObservation (e.agents t i)) (xiOf e t) hr 0 c
    have htan := microOf_tangent e t q e.agentAvailability (agentObservation (e.agents t i)) (xiOf e t) 0 c
    have hder := hasDerivAt_observation e t q (d t) h e.agentAvailability (agentObservation (e.agents t i)) hr 0 c
    simp only [observation_single] at hder
    have hobs0 : Spec.observation (marketOf e t e.agentAvailability (agentObservation (e.agents t i))) (e.products t).delta
        (computeMu (tastesOf e t (agentObservation (e.agents t i))) e.sigma e.pi) 0 c = f 0 := by
      have := observation_single (e := e) t i ((e.products t).param q) (e.products t).delta 0 c
      simp only [shift_zero_market, shift_zero_sigma, shift_zero_pi] at this
      simp only [hf, shift_zero_market, shift_zero_delta, shift_zero_sigma, shift_zero_pi, h.solves.1]
      exact this
    have hf0 : 0 ≤ f 0 := by
      rw [← hobs0]
      exact (cellProbability_eq (B := Unit) _ hr.wellFormed hr.offered _ _ c 0).2
    have hw1 : (agentObservation (e.agents t i) 0).weight = 1 := rfl
    rw [hobs0, hw1, one_mul] at hfac
    rw [hw1, one_mul] at htan
    rw [← htan] at hder
    have e1 : x.2.1 c = survey t (e.agents t i) c * f 0 := by
      rw [← hx, hy]
      have hI : List.range (microOf e t e.agentAvailability (agentObservation (e.agents t i)) (xiOf e t)).I = [0] := rfl
      simp only [hI, List.ofFn_succ, List.ofFn_zero, List.map_cons, List.map_nil, List.zipWith_cons_cons, List.zipWith_nil_left, List.sum_cons,
        List.sum_nil, add_zero, hsv]
      have hfac' : (microOf e t e.agentAvailability (agentObservation (e.agents t i)) (xiOf e t)).factor () 0 c = f 0 := hfac
      rw [hfac', max_eq_left (mul_nonneg hpos hf0)]
    have e2 : x.2.2 q c = survey t (e.agents t i) c * (microOf e t e.agentAvailability (agentObservation (e.agents t i)) (xiOf e t)).tangent () q
        ((0 : Fin 1) : ℕ) c := by
      rw [← hx, hy]
      have hI : List.range (microOf e t e.agentAvailability (agentObservation (e.agents t i)) (xiOf e t)).I = [0] := rfl
      simp only [hI, List.ofFn_succ, List.ofFn_zero, List.map_cons, List.map_nil, List.zipWith_cons_cons, List.zipWith_nil_left, List.sum_cons,
        List.sum_nil, add_zero, hsv]
      rfl
    refine ⟨by rw [e1]; exact mul_nonneg hpos hf0, ?_, fun h0 => ?_, ?_⟩
    · rw [e1]
      unfold Spec.agentShare
      rw [surveyMarket_eq, surveyTastes_eq]
      simp only [hf, shift_zero_market, shift_zero_delta, shift_zero_sigma, shift_zero_pi, h.solves.1]
      ring
    · rw [e1] at h0
      rw [e2]
      rcases mul_eq_zero.mp h0 with h0 | h0
      · rw [h0, zero_mul]
      · have hmin : IsLocalMin f 0 := by
          filter_upwards [wellFormed_near _ h.agents.wellFormed ((e.products t).param q) h.fits h.interior] with s hs
          rw [h0]
          exact (cellProbability_eq (B := Unit) _ hs (fun i => offered_shift _ _ s i (h.agents.offered i)) _ _ c i).2
        rw [hmin.hasDerivAt_eq_zero hder, mul_zero]
    · rw [e2, ← mul_assoc]
      refine (hder.const_mul ((e.agents t i).weight * survey t (e.agents t i) c)).congr_of_eventuallyEq (Eventually.of_forall fun s => ?_)
      rfl

lemma overAgents_congr {markets : List Mk} {f g : (t : Mk) → Fin (e.agentCount t + 1) → MicroCell (Fin ((e.products t).J + 1)) → ℝ}
    (h : ∀ t ∈ markets, ∀ i, ∀ c ∈ (shape t).cells, f t i c = g t i c) : Spec.overAgents e markets shape f = Spec.overAgents e markets shape g :=
  Finset.sum_congr rfl fun t ht => Finset.sum_congr rfl fun i _ => Finset.sum_congr rfl fun c hc => h t (List.mem_toFinset.mp ht) i c hc

lemma overAgents_add (markets : List Mk) (f g : (t : Mk) → Fin (e.agentCount t + 1) → MicroCell (Fin ((e.products t).J + 1)) → ℝ) :
    Spec.overAgents e markets shape (fun t i c => f t i c + g t i c) = Spec.overAgents e markets shape f + Spec.overAgents e markets shape g := by
  simp only [Spec.overAgents, Finset.sum_add_distrib]

lemma overAgents_mul (markets : List Mk) (f : (t : Mk) → Fin (e.agentCount t + 1) → MicroCell (Fin ((e.products t).J + 1)) → ℝ) (a : ℝ) :
    Spec.overAgents e markets shape (fun t i c => f t i c * a) = Spec.overAgents e markets shape f * a := by
  simp only [Spec.overAgents, Finset.sum_mul]

lemma overAgents_nonneg {markets : List Mk} {f : (t : Mk) → Fin (e.agentCount t + 1) → MicroCell (Fin ((e.products t).J + 1)) → ℝ}
    (h : ∀ t ∈ markets, ∀ i, ∀ c ∈ (shape t).cells, 0 ≤ f t i c) : 0 ≤ Spec.overAgents e markets shape f :=
  Finset.sum_nonneg fun t ht => Finset.sum_nonneg fun i _ => Finset.sum_nonneg fun c hc => h t (List.mem_toFinset.mp ht) i c hc

lemma overAgents_deriv {markets : List Mk} {f : ℝ → (t : Mk) → Fin (e.agentCount t + 1) → MicroCell (Fin ((e.products t).J + 1)) → ℝ}
    {f' : (t : Mk) → Fin (e.agentCount t + 1) → MicroCell (Fin ((e.products t).J + 1)) → ℝ}
    (h : ∀ t ∈ markets, ∀ i, ∀ c ∈ (shape t).cells, HasDerivAt (fun s => f s t i c) (f' t i c) 0) :
    HasDerivAt (fun s => Spec.overAgents e markets shape (f s)) (Spec.overAgents e markets shape f') 0 := by
  unfold Spec.overAgents
  exact HasDerivAt.fun_sum fun t ht => HasDerivAt.fun_sum fun i _ => HasDerivAt.fun_sum fun c hc => h t (List.mem_toFinset.mp ht) i c hc

/-- The denominator of scores, and its derivative. -/
lemma denominator_market (hs : Spec.SurveysAgents e shape survey) {t : Mk} (h : Spec.ValidMarket e t q (d t)) (hinc : e.included t = true)
    {b : (Q → ℕ → ℝ) × ℝ × (Q → ℝ)} (hb : (methodsOf e 1).denominator t = .ok b) :
    b.2.1 = ∑ i, ∑ c ∈ (shape t).cells, Spec.agentShare e survey t i c ∧
      HasDerivAt (fun s => ∑ i, ∑ c ∈ (shape t).cells, Spec.agentWeight e survey q d s t i c) (b.2.2 q) 0 := by
  unfold methodsOf at hb
  simp only at hb
  cases hsd : scoreDenominator (microOf e t e.agentAvailability (e.agents t) (xiOf e t)) (weightsOf e t (e.agents t)) () 1 with
  | error err => simp [hsd] at hb
  | ok x =>
    simp only [hsd, Except.ok.injEq] at hb
    obtain ⟨w, hw, h1, -, h2⟩ := denominator_ok e t q (d t) h hinc x hsd
    rw [hs.rows] at hw
    obtain rfl := (Option.some.inj hw).symm
    have hrow : ∀ i : Fin (e.agentCount t + 1), ((List.ofFn (e.agents t)).map (survey t)).getD i (fun _ => 0) = survey t (e.agents t i) := by
      intro i
      rw [List.getD_eq_getElem?_getD, List.getElem?_eq_getElem (by simpa using Nat.lt_succ_iff.mp i.2)]
      simp only [Option.getD_some, List.getElem_map, List.getElem_ofFn]
    have hsur : ∀ s c, Spec.surveyed e t e.agentAvailability (e.agents t) q ⟨shape t, (List.ofFn (e.agents t)).map (survey t)⟩ (d t s) s c =
        ∑ i, Spec.agentWeight e survey q d s t i c := by
      intro s c
      unfold Spec.surveyed Spec.agentWeight
      simp only [hrow]
    rw [← hb]
    simp only [hsur] at h1 h2
    refine ⟨?_, ?_⟩
    · refine h1.trans ?_
      rw [Finset.sum_comm]
      refine Finset.sum_congr rfl fun i _ => Finset.sum_congr rfl fun c _ => ?_
      unfold Spec.agentWeight Spec.agentShare
      simp only [shift_zero_market, shift_zero_delta, shift_zero_sigma, shift_zero_pi, h.solves.1]
    · refine h2.congr_of_eventuallyEq (Eventually.of_forall fun s => ?_)
      exact Finset.sum_comm

lemma uniqueSorted_sum {α : Type} [LinearOrder α] {β : Type} {f : α → Except PyErr β} {l : List α} {r : List β}
    (h : collect f (uniqueSorted l) = .ok r) (g : β → ℝ) (G : α → ℝ) (hg : ∀ a ∈ l, ∀ b, f a = .ok b → g b = G a) : (r.map g).sum = ∑ a ∈ l.toFinset, G a := by
  have h2 := collect_ok h
  have hmem : ∀ a ∈ uniqueSorted l, a ∈ l := fun a ha => by simpa [uniqueSorted] using ha
  have key : ∀ (l' : List α) (r : List β), (∀ a ∈ l', a ∈ l) → List.Forall₂ (fun a b => f a = .ok b) l' r → (r.map g).sum = (l'.map G).sum := by
    intro l' r hl hf
    induction hf with
    | nil => rfl
    | cons h1 _ ih =>
      rw [List.map_cons, List.sum_cons, List.map_cons, List.sum_cons, ih fun a ha => hl a (List.mem_cons_of_mem _ ha), hg _ (hl _ List.mem_cons_self) _ h1]
  rw [key _ _ hmem h2, show (uniqueSorted l) = l.toFinset.sort from rfl, ← List.sum_toFinset _ (Finset.sort_nodup _ _), Finset.sort_toFinset]

lemma score_algebra (w n n' D D' : ℝ) (hn : n ≠ 0) : w * n * (n' / n - D' / D) = w * n' + w * n * (-(D' / D)) := by
  field_simp
  ring

/-- What scores are: relative derivatives of weights, less that of their sum. -/
lemma agentScores_key (hs : Spec.SurveysAgents e shape survey) {markets : List Mk} (hinc : ∀ t ∈ markets, e.included t = true)
    (h : ∀ t ∈ markets, Spec.ValidMarket e t q (d t)) {scores : (t : Mk) → Option (List (Q → MicroCell (Fin ((e.products t).J + 1)) → Option ℝ))}
    (hsc : agentScores e markets = .ok scores) :
    ∃ A : (t : Mk) → Fin (e.agentCount t + 1) → MicroCell (Fin ((e.products t).J + 1)) → ℝ,
      (∀ t ∈ markets, ∀ i, ∀ c ∈ (shape t).cells, 0 ≤ Spec.agentShare e survey t i c ∧
        HasDerivAt (fun s => Spec.agentWeight e survey q d s t i c) (A t i c) 0 ∧
        (Spec.overAgents e markets shape (Spec.agentShare e survey) ≠ 0 → Spec.agentShare e survey t i c * Spec.scoreValue e scores q t i c =
          A t i c + Spec.agentShare e survey t i c *
            (-(Spec.overAgents e markets shape A / Spec.overAgents e markets shape (Spec.agentShare e survey))))) := by
  classical
  unfold agentScores at hsc
  cases hden : collect (methodsOf e 1).denominator (uniqueSorted markets) with
  | error err => simp [hden] at hsc
  | ok dens =>
    cases hnum : collect (fun t => (agentNumerators e t).map fun _ => ()) (uniqueSorted markets) with
    | error err => simp [hden, hnum] at hsc
    | ok nums =>
      simp only [hden, hnum, Except.ok.injEq] at hsc
      have hN : ∀ t ∈ markets, ∃ l, agentNumerators e t = .ok l := by
        intro t ht
        have hm : t ∈ uniqueSorted markets := by simpa [uniqueSorted] using ht
        obtain ⟨k, hk, hk'⟩ := List.mem_iff_getElem.mp hm
        obtain ⟨b, -, hb⟩ := (forall₂_get (collect_ok hnum)).2 k t (by rw [List.getElem?_eq_getElem hk, hk'])
        cases hl : agentNumerators e t with
        | error err => simp [hl, Except.map] at hb
        | ok l => exact ⟨l, rfl⟩
      have hX : ∀ t ∈ markets, ∃ l, agentNumerators e t = .ok l ∧ ∀ i : Fin (e.agentCount t + 1), ∃ x, l[(i : ℕ)]? = some x ∧
          scoreNumerators (microOf e t e.agentAvailability (agentObservation (e.agents t i)) (xiOf e t)) (weightsOf e t (agentObservation (e.agents t i))) () =
            .ok x := by
        intro t ht
        obtain ⟨l, hl⟩ := hN t ht
        refine ⟨l, hl, fun i => ?_⟩
        exact (forall₂_get (collect_ok hl)).2 i i (by rw [List.getElem?_eq_getElem (by simpa using Nat.lt_succ_iff.mp i.2), List.getElem_finRange]; rfl)
      choose! l hl hX using hX
      have hx : ∀ t, ∃ x : Fin (e.agentCount t + 1) → MicroShape × (MicroCell (Fin ((e.products t).J + 1)) → ℝ) ×
          (Q → MicroCell (Fin ((e.products t).J + 1)) → ℝ), t ∈ markets → ∀ i : Fin (e.agentCount t + 1), (l t)[(i : ℕ)]? = some (x i) ∧
          scoreNumerators (microOf e t e.agentAvailability (agentObservation (e.agents t i)) (xiOf e t)) (weightsOf e t (agentObservation (e.agents t i))) () =
            .ok (x i) := by
        intro t
        by_cases ht : t ∈ markets
        · choose x hx using hX t ht
          exact ⟨x, fun _ => hx⟩
        · exact ⟨fun _ => ⟨.first false, fun _ => 0, fun _ _ => 0⟩, fun h => absurd h ht⟩
      choose x hx using hx
      have hone := fun t (ht : t ∈ markets) i c (hc : c ∈ (shape t).cells) => numerator_single hs (h t ht) i (hx t ht i).2 hc
      set A : (t : Mk) → Fin (e.agentCount t + 1) → MicroCell (Fin ((e.products t).J + 1)) → ℝ :=
        fun t i c => (e.agents t i).weight * (x t i).2.2 q c with hA
      have hD : (dens.map fun y => y.2.1).sum = Spec.overAgents e markets shape (Spec.agentShare e survey) :=
        uniqueSorted_sum hden _ _ fun t ht b hb => (denominator_market hs (h t ht) (hinc t ht) hb).1
      have hD' : (dens.map fun y => y.2.2 q).sum = Spec.overAgents e markets shape A := by
        refine uniqueSorted_sum hden _ _ fun t ht b hb => ?_
        refine (denominator_market hs (h t ht) (hinc t ht) hb).2.unique ?_
        exact HasDerivAt.fun_sum fun i _ => HasDerivAt.fun_sum fun c hc => (hone t ht i c hc).2.2.2
      refine ⟨A, fun t ht i c hc => ?_⟩
      obtain ⟨h0, h1, h2, h3⟩ := hone t ht i c hc
      refine ⟨by rw [h1]; exact mul_nonneg ((h t ht).agents.weights i) h0, h3, fun hne => ?_⟩
      have hval : Spec.scoreValue e scores q t i c = (scoreOf ((x t i).2.1 c) ((x t i).2.2 q c) (dens.map fun y => y.2.1).sum
          (dens.map fun y => y.2.2 q).sum).getD 0 := by
        unfold Spec.scoreValue
        rw [← hsc]
        simp only [if_pos ht, hl t ht, Except.toOption, Option.map_some, Option.bind_some, List.getElem?_map, (hx t ht i).1]
      rw [hval, hD, hD']
      unfold scoreOf
      split_ifs with hz
      · rcases hz with hz | hz
        · rw [hA, h1]
          simp [h2 hz, hz]
        · exact absurd hz hne
      · push Not at hz
        rw [h1]
        simp only [Option.getD_some]
        exact score_algebra _ _ _ _ _ hz.1

lemma microValue_zero {markets : List Mk} (h : ∀ t ∈ markets, Spec.ValidMarket e t q (d t))
    (v : (t : Mk) → Fin (e.agentCount t + 1) → MicroCell (Fin ((e.products t).J + 1)) → ℝ) :
    Spec.microValue e markets shape survey q d v 0 = Spec.surveyMean e markets shape survey v := by
  have e0 : ∀ t ∈ markets, ∀ i, ∀ c ∈ (shape t).cells, Spec.agentWeight e survey q d 0 t i c = Spec.agentShare e survey t i c := by
    intro t ht i c _
    unfold Spec.agentWeight Spec.agentShare
    simp only [shift_zero_market, shift_zero_delta, shift_zero_sigma, shift_zero_pi, (h t ht).solves.1]
  unfold Spec.microValue Spec.surveyMean
  rw [overAgents_congr e0, overAgents_congr fun t ht i c hc => by rw [e0 t ht i c hc]]

/-- **C144.** Scores of agents average to zero over markets, agents and choices of the dataset: a micro moment that matches scores has a micro value of
zero. -/
theorem C144_zero (hs : Spec.SurveysAgents e shape survey) {markets : List Mk} (hinc : ∀ t ∈ markets, e.included t = true)
    (h : ∀ t ∈ markets, Spec.ValidMarket e t q (d t)) {scores : (t : Mk) → Option (List (Q → MicroCell (Fin ((e.products t).J + 1)) → Option ℝ))}
    (hsc : agentScores e markets = .ok scores) : Spec.surveyMean e markets shape survey (Spec.scoreValue e scores q) = 0 := by
  obtain ⟨A, hA⟩ := agentScores_key hs hinc h hsc
  unfold Spec.surveyMean
  by_cases h0 : Spec.overAgents e markets shape (Spec.agentShare e survey) = 0
  · rw [h0, div_zero]
  · rw [overAgents_congr fun t ht i c hc => (hA t ht i c hc).2.2 h0, overAgents_add, overAgents_mul]
    field_simp
    ring

/-- **C144.** The derivative of a micro value with respect to a parameter is the covariance of the values with scores (which average to zero). -/
theorem C144_derivative (hs : Spec.SurveysAgents e shape survey) {markets : List Mk} (hinc : ∀ t ∈ markets, e.included t = true)
    (h : ∀ t ∈ markets, Spec.ValidMarket e t q (d t)) {scores : (t : Mk) → Option (List (Q → MicroCell (Fin ((e.products t).J + 1)) → Option ℝ))}
    (hsc : agentScores e markets = .ok scores) (hpos : 0 < Spec.overAgents e markets shape (Spec.agentShare e survey))
    (v : (t : Mk) → Fin (e.agentCount t + 1) → MicroCell (Fin ((e.products t).J + 1)) → ℝ) :
    HasDerivAt (Spec.microValue e markets shape survey q d v) (Spec.surveyMean e markets shape survey fun t i c => v t i c * Spec.scoreValue e scores q t i c) 0 := by
  obtain ⟨A, hA⟩ := agentScores_key hs hinc h hsc
  have e0 : ∀ t ∈ markets, ∀ i, ∀ c ∈ (shape t).cells, Spec.agentWeight e survey q d 0 t i c = Spec.agentShare e survey t i c := by
    intro t ht i c _
    unfold Spec.agentWeight Spec.agentShare
    simp only [shift_zero_market, shift_zero_delta, shift_zero_sigma, shift_zero_pi, (h t ht).solves.1]
  have hn := overAgents_deriv (e := e) (markets := markets) (shape := shape) (f := fun s t i c => Spec.agentWeight e survey q d s t i c * v t i c)
    (f' := fun t i c => A t i c * v t i c) fun t ht i c hc => (hA t ht i c hc).2.1.mul_const _
  have hd := overAgents_deriv (e := e) (markets := markets) (shape := shape) (f := fun s => Spec.agentWeight e survey q d s) (f' := A)
    fun t ht i c hc => (hA t ht i c hc).2.1
  have hD0 : Spec.overAgents e markets shape (Spec.agentWeight e survey q d 0) = Spec.overAgents e markets shape (Spec.agentShare e survey) := overAgents_congr e0
  have hN0 : Spec.overAgents e markets shape (fun t i c => Spec.agentWeight e survey q d 0 t i c * v t i c) =
      Spec.overAgents e markets shape (fun t i c => Spec.agentShare e survey t i c * v t i c) :=
    overAgents_congr fun t ht i c hc => by rw [e0 t ht i c hc]
  have hdiv := hn.fun_div hd (by rw [hD0]; exact hpos.ne')
  refine hdiv.congr_deriv ?_
  rw [hD0, hN0]
  unfold Spec.surveyMean
  have hterm : Spec.overAgents e markets shape (fun t i c => Spec.agentShare e survey t i c * (v t i c * Spec.scoreValue e scores q t i c)) =
      Spec.overAgents e markets shape (fun t i c => A t i c * v t i c) + Spec.overAgents e markets shape (fun t i c => Spec.agentShare e survey t i c * v t i c) *
        (-(Spec.overAgents e markets shape A / Spec.overAgents e markets shape (Spec.agentShare e survey))) := by
    rw [← overAgents_mul, ← overAgents_add]
    refine overAgents_congr fun t ht i c hc => ?_
    have := (hA t ht i c hc).2.2 hpos.ne'
    linear_combination (v t i c) * this
  rw [hterm]
  have := hpos.ne'
  field_simp
  ring

/-! ## Optimality -/

lemma surveyMean_add {markets : List Mk} (f g : (t : Mk) → Fin (e.agentCount t + 1) → MicroCell (Fin ((e.products t).J + 1)) → ℝ) :
    Spec.surveyMean e markets shape survey (fun t i c => f t i c + g t i c) =
      Spec.surveyMean e markets shape survey f + Spec.surveyMean e markets shape survey g := by
  unfold Spec.surveyMean
  rw [← add_div, ← overAgents_add]
  congr 1
  exact overAgents_congr fun t _ i c _ => by ring

lemma surveyMean_mul {markets : List Mk} (f : (t : Mk) → Fin (e.agentCount t + 1) → MicroCell (Fin ((e.products t).J + 1)) → ℝ) (a : ℝ) :
    Spec.surveyMean e markets shape survey (fun t i c => a * f t i c) = a * Spec.surveyMean e markets shape survey f := by
  unfold Spec.surveyMean
  rw [← mul_div_assoc, mul_comm a, ← overAgents_mul]
  congr 1
  exact overAgents_congr fun t _ i c _ => by ring

lemma surveyMean_sum {markets : List Mk} {K : Type} (l : Finset K) (a : K → ℝ)
    (f : K → (t : Mk) → Fin (e.agentCount t + 1) → MicroCell (Fin ((e.products t).J + 1)) → ℝ) :
    Spec.surveyMean e markets shape survey (fun t i c => ∑ k ∈ l, a k * f k t i c) = ∑ k ∈ l, a k * Spec.surveyMean e markets shape survey (f k) := by
  classical
  induction l using Finset.induction_on with
  | empty =>
    have := surveyMean_mul (e := e) (markets := markets) (shape := shape) (survey := survey) (fun _ _ _ => 0) 0
    simpa using this
  | insert k l hk ih =>
    simp only [Finset.sum_insert hk]
    rw [surveyMean_add, surveyMean_mul, ih]

lemma surveyMean_square {markets : List Mk} {K : Type} [Fintype K] (a : K → ℝ)
    (f : K → (t : Mk) → Fin (e.agentCount t + 1) → MicroCell (Fin ((e.products t).J + 1)) → ℝ) :
    Spec.surveyMean e markets shape survey (fun t i c => (∑ k, a k * f k t i c) ^ 2) =
      ∑ k, ∑ l, a k * a l * Spec.surveyMean e markets shape survey (fun t i c => f k t i c * f l t i c) := by
  have h1 : (fun (t : Mk) i c => (∑ k, a k * f k t i c) ^ 2) = fun t i c => ∑ k, a k * ∑ l, a l * (f k t i c * f l t i c) := by
    funext t i c
    rw [sq, Finset.sum_mul]
    refine Finset.sum_congr rfl fun k _ => ?_
    rw [mul_assoc, Finset.mul_sum]
    congr 1
    exact Finset.sum_congr rfl fun l _ => by ring
  rw [h1, surveyMean_sum]
  refine Finset.sum_congr rfl fun k _ => ?_
  rw [surveyMean_sum, Finset.mul_sum]
  exact Finset.sum_congr rfl fun l _ => by ring

lemma surveyMean_nonneg {markets : List Mk} (hA : ∀ t ∈ markets, ∀ i, ∀ c ∈ (shape t).cells, 0 ≤ Spec.agentShare e survey t i c)
    {f : (t : Mk) → Fin (e.agentCount t + 1) → MicroCell (Fin ((e.products t).J + 1)) → ℝ} (hf : ∀ t i c, 0 ≤ f t i c) :
    0 ≤ Spec.surveyMean e markets shape survey f :=
  div_nonneg (overAgents_nonneg fun t ht i c hc => mul_nonneg (hA t ht i c hc) (hf t i c)) (overAgents_nonneg hA)

lemma surveyMean_const {markets : List Mk} (hpos : 0 < Spec.overAgents e markets shape (Spec.agentShare e survey)) (a : ℝ) :
    Spec.surveyMean e markets shape survey (fun _ _ _ => a) = a := by
  unfold Spec.surveyMean
  rw [overAgents_mul, mul_div_cancel_left₀ _ hpos.ne']

open Matrix in
/-- **C144.** No micro moments of the dataset are more informative than scores. `V` are covariances of the values of some micro moments, `J` are derivatives of
micro values with respect to parameters, so estimates of parameters that match the micro moments have a precision of `Jᵀ V⁻¹ J` per observation. In every
direction, it is at most the covariance of scores. -/
theorem C144_optimal [Fintype Q] {K : Type} [Fintype K] [DecidableEq K] (hs : Spec.SurveysAgents e shape survey) {markets : List Mk}
    (hinc : ∀ t ∈ markets, e.included t = true) {d : Q → (t : Mk) → ℝ → Fin ((e.products t).J + 1) → ℝ}
    (h : ∀ q, ∀ t ∈ markets, Spec.ValidMarket e t q (d q t)) {scores : (t : Mk) → Option (List (Q → MicroCell (Fin ((e.products t).J + 1)) → Option ℝ))}
    (hsc : agentScores e markets = .ok scores) (hpos : 0 < Spec.overAgents e markets shape (Spec.agentShare e survey))
    (v : K → (t : Mk) → Fin (e.agentCount t + 1) → MicroCell (Fin ((e.products t).J + 1)) → ℝ) (J : Matrix K Q ℝ)
    (hJ : ∀ k q, HasDerivAt (Spec.microValue e markets shape survey q (d q) (v k)) (J k q) 0)
    (hV : IsUnit (Matrix.of fun k l => Spec.surveyCovariance e markets shape survey (v k) (v l)).det) (x : Q → ℝ) :
    x ⬝ᵥ (Jᵀ * (Matrix.of fun k l => Spec.surveyCovariance e markets shape survey (v k) (v l))⁻¹ * J) *ᵥ x ≤
      x ⬝ᵥ (Matrix.of fun q r => Spec.surveyCovariance e markets shape survey (Spec.scoreValue e scores q) (Spec.scoreValue e scores r)) *ᵥ x := by
  set V := Matrix.of fun k l => Spec.surveyCovariance e markets shape survey (v k) (v l) with hVdef
  cases isEmpty_or_nonempty Q with
  | inl hQ => simp [dotProduct]
  | inr hQ =>
  have hA : ∀ t ∈ markets, ∀ i, ∀ c ∈ (shape t).cells, 0 ≤ Spec.agentShare e survey t i c := by
    obtain ⟨q⟩ := hQ
    obtain ⟨A, hA⟩ := agentScores_key hs hinc (h q) hsc
    exact fun t ht i c hc => (hA t ht i c hc).1
  have h0 : ∀ q, Spec.surveyMean e markets shape survey (Spec.scoreValue e scores q) = 0 := fun q => C144_zero hs hinc (h q) hsc
  have hJv : ∀ k q, J k q = Spec.surveyMean e markets shape survey (fun t i c => v k t i c * Spec.scoreValue e scores q t i c) := fun k q =>
    (hJ k q).unique (C144_derivative hs hinc (h q) hsc hpos (v k))
  have hcross : ∀ k q, Spec.surveyMean e markets shape survey
      (fun t i c => (v k t i c - Spec.surveyMean e markets shape survey (v k)) * Spec.scoreValue e scores q t i c) = J k q := by
    intro k q
    rw [hJv]
    have hfun : (fun (t : Mk) i c => (v k t i c - Spec.surveyMean e markets shape survey (v k)) * Spec.scoreValue e scores q t i c) =
        fun t i c => v k t i c * Spec.scoreValue e scores q t i c + -Spec.surveyMean e markets shape survey (v k) * Spec.scoreValue e scores q t i c := by
      funext t i c; ring
    rw [hfun, surveyMean_add, surveyMean_mul, h0, mul_zero, add_zero]
  have hcross' : ∀ k q, Spec.surveyMean e markets shape survey
      (fun t i c => Spec.scoreValue e scores q t i c * (v k t i c - Spec.surveyMean e markets shape survey (v k))) = J k q := by
    intro k q
    rw [← hcross]
    congr 1
    funext t i c
    ring
  set y : K → ℝ := V⁻¹ *ᵥ (J *ᵥ x) with hy
  have hVy : V *ᵥ y = J *ᵥ x := by rw [hy, Matrix.mulVec_mulVec, Matrix.mul_nonsing_inv _ hV, Matrix.one_mulVec]
  let w : Q ⊕ K → (t : Mk) → Fin (e.agentCount t + 1) → MicroCell (Fin ((e.products t).J + 1)) → ℝ :=
    Sum.elim (Spec.scoreValue e scores) (fun k t i c => v k t i c - Spec.surveyMean e markets shape survey (v k))
  have hsq := surveyMean_nonneg (survey := survey) hA (f := fun t i c => (∑ j, Sum.elim x (fun k => -y k) j * w j t i c) ^ 2) fun t i c => sq_nonneg _
  rw [surveyMean_square] at hsq
  simp only [Fintype.sum_sum_type, Sum.elim_inl, Sum.elim_inr, w, hcross, hcross'] at hsq
  have e1 : x ⬝ᵥ (Matrix.of fun q r => Spec.surveyCovariance e markets shape survey (Spec.scoreValue e scores q) (Spec.scoreValue e scores r)) *ᵥ x =
      ∑ q, ∑ r, x q * x r * Spec.surveyMean e markets shape survey (fun t i c => Spec.scoreValue e scores q t i c * Spec.scoreValue e scores r t i c) := by
    simp only [dotProduct, mulVec, Matrix.of_apply, Finset.mul_sum]
    refine Finset.sum_congr rfl fun q _ => Finset.sum_congr rfl fun r _ => ?_
    unfold Spec.surveyCovariance
    simp only [h0, sub_zero]
    ring
  have e2 : y ⬝ᵥ V *ᵥ y = ∑ k, ∑ l, y k * y l * Spec.surveyCovariance e markets shape survey (v k) (v l) := by
    simp only [dotProduct, mulVec, hVdef, Matrix.of_apply, Finset.mul_sum]
    exact Finset.sum_congr rfl fun k _ => Finset.sum_congr rfl fun l _ => by ring
  have e3 : y ⬝ᵥ J *ᵥ x = ∑ k, ∑ q, y k * x q * J k q := by
    simp only [dotProduct, mulVec, Finset.mul_sum]
    exact Finset.sum_congr rfl fun k _ => Finset.sum_congr rfl fun l _ => by ring
  have e4 : x ⬝ᵥ (Jᵀ * V⁻¹ * J) *ᵥ x = y ⬝ᵥ J *ᵥ x := by
    rw [← Matrix.mulVec_mulVec, ← Matrix.mulVec_mulVec, Matrix.dotProduct_mulVec, Matrix.vecMul_transpose, dotProduct_comm]
  rw [hVy] at e2
  rw [e4, e1]
  have c1 : ∑ q, ∑ k, x q * -y k * J k q = -(y ⬝ᵥ J *ᵥ x) := by
    rw [e3, Finset.sum_comm, ← Finset.sum_neg_distrib]
    refine Finset.sum_congr rfl fun k _ => ?_
    rw [← Finset.sum_neg_distrib]
    exact Finset.sum_congr rfl fun q _ => by ring
  have c2 : ∑ k, ∑ q, -y k * x q * J k q = -(y ⬝ᵥ J *ᵥ x) := by
    rw [e3, ← Finset.sum_neg_distrib]
    refine Finset.sum_congr rfl fun k _ => ?_
    rw [← Finset.sum_neg_distrib]
    exact Finset.sum_congr rfl fun q _ => by ring
  have c3 : ∑ k, ∑ l, -y k * -y l * Spec.surveyMean e markets shape survey (fun t i c =>
      (v k t i c - Spec.surveyMean e markets shape survey (v k)) * (v l t i c - Spec.surveyMean e markets shape survey (v l))) = y ⬝ᵥ J *ᵥ x := by
    rw [e2]
    exact Finset.sum_congr rfl fun k _ => Finset.sum_congr rfl fun l _ => by unfold Spec.surveyCovariance; ring
  simp only [Finset.sum_add_distrib, c1, c2, c3] at hsq
  linarith

/-- **C144.** Micro moments that match scores attain the bound: the derivatives of their values are the covariances of scores. -/
theorem C144_attained (hs : Spec.SurveysAgents e shape survey) {markets : List Mk}
    (hinc : ∀ t ∈ markets, e.included t = true) {d : Q → (t : Mk) → ℝ → Fin ((e.products t).J + 1) → ℝ}
    (h : ∀ q, ∀ t ∈ markets, Spec.ValidMarket e t q (d q t)) {scores : (t : Mk) → Option (List (Q → MicroCell (Fin ((e.products t).J + 1)) → Option ℝ))}
    (hsc : agentScores e markets = .ok scores) (hpos : 0 < Spec.overAgents e markets shape (Spec.agentShare e survey)) (q r : Q) :
    HasDerivAt (Spec.microValue e markets shape survey r (d r) (Spec.scoreValue e scores q))
      (Spec.surveyCovariance e markets shape survey (Spec.scoreValue e scores q) (Spec.scoreValue e scores r)) 0 := by
  have h0 : ∀ q, Spec.surveyMean e markets shape survey (Spec.scoreValue e scores q) = 0 := fun q => C144_zero hs hinc (h q) hsc
  refine (C144_derivative hs hinc (h r) hsc hpos _).congr_deriv ?_
  unfold Spec.surveyCovariance
  simp only [h0, sub_zero]

/-- **C144.** Scores can be computed if survey weights are not negative. -/
theorem C144_succeeds (hs : Spec.SurveysAgents e shape survey) {markets : List Mk} (hinc : ∀ t ∈ markets, e.included t = true)
    (hsurvey : ∀ t r c, 0 ≤ survey t r c) : ∃ scores, agentScores e markets = .ok scores ∧ ∀ t ∈ markets, ∃ l, scores t = some l ∧ l.length = e.agentCount t + 1 := by
  have hden : ∀ t ∈ uniqueSorted markets, ∃ x, (methodsOf e 1).denominator t = .ok x := by
    intro t ht
    refine denominator_of e t (hinc t (by simpa [uniqueSorted] using ht)) _ (hs.rows t _) (by simp) fun x hx c _ => ?_
    obtain ⟨a, -, rfl⟩ := List.mem_map.mp hx
    exact hsurvey t a c
  choose! f hf using hden
  have hn : ∀ t, ∃ l, agentNumerators e t = .ok l ∧ l.length = e.agentCount t + 1 := by
    intro t
    have h1 : ∀ i ∈ List.finRange (e.agentCount t + 1), ∃ x, scoreNumerators (microOf e t e.agentAvailability (agentObservation (e.agents t i)) (xiOf e t))
        (weightsOf e t (agentObservation (e.agents t i))) () = .ok x := by
      intro i _
      unfold scoreNumerators datasetContributions computeMicroWeights
      have hw : (weightsOf e t (agentObservation (e.agents t i))).weights () ((List.range (microOf e t e.agentAvailability (agentObservation (e.agents t i)) (xiOf e t)).I).map
          (microOf e t e.agentAvailability (agentObservation (e.agents t i)) (xiOf e t)).row) = some ⟨shape t, [survey t (agentObservation (e.agents t i) 0)]⟩ := by
        refine (hs.rows t _).trans ?_
        congr 2
      rw [hw]
      simp only
      rw [if_neg (by simp [microOf, microMarket]), if_neg (by
        rintro ⟨r, hr, c, -, hc⟩
        rw [List.mem_singleton] at hr
        subst hr
        exact absurd (hsurvey t _ c) (not_le.mpr hc))]
      exact ⟨_, rfl⟩
    choose g hg using fun i => h1 i (List.mem_finRange i)
    exact ⟨_, collect_of fun i _ => hg i, by simp⟩
  choose l hl hlen using hn
  have hc : collect (fun t => (agentNumerators e t).map fun _ => ()) (uniqueSorted markets) = .ok ((uniqueSorted markets).map fun _ => ()) :=
    collect_of fun t _ => by rw [hl]; rfl
  unfold agentScores
  rw [collect_of hf]
  simp only [hc]
  refine ⟨_, rfl, fun t ht => ?_⟩
  rw [if_pos ht, hl]
  exact ⟨_, rfl, by simp [hlen]⟩

/-- Values of agents by their positions. -/
def Spec.byPosition (e : ScoreEconomy Mk G K2 N D Q) (v : (t : Mk) → Fin (e.agentCount t + 1) → MicroCell (Fin ((e.products t).J + 1)) → ℝ) (t : Mk) (i : ℕ)
    (c : MicroCell (Fin ((e.products t).J + 1))) : ℝ :=
  if h : i < e.agentCount t + 1 then v t ⟨i, h⟩ c else 0

lemma simulated_overAgents (hs : Spec.SurveysAgents e shape survey) {order : List Mk} (hnodup : order.Nodup)
    (hagents : ∀ t ∈ order, Spec.ValidAgents e t e.agentAvailability (e.agents t))
    {y : (t : Mk) → DatasetChunk MicroShape (MicroCell (Fin ((e.products t).J + 1))) Q}
    (hy : ∀ t ∈ order, datasetContributions (microOf e t e.agentAvailability (e.agents t) (xiOf e t)) (weightsOf e t (e.agents t)) ()
      (List.range (e.agentCount t + 1)) = .ok (y t))
    (v : (t : Mk) → Fin (e.agentCount t + 1) → MicroCell (Fin ((e.products t).J + 1)) → ℝ) :
    (order.map fun t => ∑ i ∈ Finset.range (weightsArray (e.agentCount t + 1) (y t)).I, ∑ c ∈ (weightsArray (e.agentCount t + 1) (y t)).shape.cells,
      (weightsArray (e.agentCount t + 1) (y t)).weight i c * Spec.byPosition e v t i c).sum =
      Spec.overAgents e order shape fun t i c => Spec.agentShare e survey t i c * v t i c := by
  unfold Spec.overAgents
  rw [← List.sum_toFinset _ hnodup]
  refine Finset.sum_congr rfl fun t ht => ?_
  have ht' : t ∈ order := List.mem_toFinset.mp ht
  obtain ⟨w, hw, hshape, hval⟩ := C89_weights_partial e t (xiOf e t) (hagents t ht') (y t) (hy t ht')
  rw [hs.rows] at hw
  obtain rfl := (Option.some.inj hw).symm
  rw [show (weightsArray (e.agentCount t + 1) (y t)).I = e.agentCount t + 1 from rfl, Finset.sum_range]
  refine Finset.sum_congr rfl fun i _ => ?_
  rw [show (weightsArray (e.agentCount t + 1) (y t)).shape = shape t from hshape]
  refine Finset.sum_congr rfl fun c hc => ?_
  unfold Spec.byPosition
  rw [dif_pos i.2]
  refine congrArg (· * v t i c) ?_
  refine (hval i c hc).1.trans ?_
  unfold Spec.agentShare
  rw [List.getD_eq_getElem?_getD, List.getElem?_eq_getElem (by simpa using Nat.lt_succ_iff.mp i.2)]
  simp only [Option.getD_some, List.getElem_map, List.getElem_ofFn]

lemma simulated_mean (hs : Spec.SurveysAgents e shape survey) {order : List Mk} (hnodup : order.Nodup)
    (hagents : ∀ t ∈ order, Spec.ValidAgents e t e.agentAvailability (e.agents t))
    {y : (t : Mk) → DatasetChunk MicroShape (MicroCell (Fin ((e.products t).J + 1))) Q}
    (hy : ∀ t ∈ order, datasetContributions (microOf e t e.agentAvailability (e.agents t) (xiOf e t)) (weightsOf e t (e.agents t)) ()
      (List.range (e.agentCount t + 1)) = .ok (y t)) :
    Spec.totalWeight order (fun t => weightsArray (e.agentCount t + 1) (y t)) = Spec.overAgents e order shape (Spec.agentShare e survey) ∧
    ∀ v, Spec.surveyAverage order (fun t => weightsArray (e.agentCount t + 1) (y t)) (Spec.byPosition e v) = Spec.surveyMean e order shape survey v := by
  have htot : Spec.totalWeight order (fun t => weightsArray (e.agentCount t + 1) (y t)) = Spec.overAgents e order shape (Spec.agentShare e survey) := by
    have := simulated_overAgents hs hnodup hagents hy fun _ _ _ => 1
    simp only [mul_one] at this
    rw [← this]
    unfold Spec.totalWeight
    congr 1
    refine List.map_congr_left fun t _ => Finset.sum_congr rfl fun i hi => Finset.sum_congr rfl fun c _ => ?_
    unfold Spec.byPosition
    rw [dif_pos (by exact Finset.mem_range.mp hi), mul_one]
  refine ⟨htot, fun v => ?_⟩
  unfold Spec.surveyAverage Spec.surveyMean
  rw [htot]
  congr 1
  exact simulated_overAgents hs hnodup hagents hy v

/-- **C144.** Averages of scores over micro data that are simulated for the dataset have an expectation of zero, covariances that are those of scores divided by
the number of observations, and converge to zero. -/
theorem C144_simulated (hs : Spec.SurveysAgents e shape survey) {order : List Mk} (hinc : ∀ t ∈ order, e.included t = true)
    {d : Q → (t : Mk) → ℝ → Fin ((e.products t).J + 1) → ℝ}
    (h : ∀ q, ∀ t ∈ order, Spec.ValidMarket e t q (d q t)) {scores : (t : Mk) → Option (List (Q → MicroCell (Fin ((e.products t).J + 1)) → Option ℝ))}
    (hsc : agentScores e order = .ok scores) (hpos : 0 < Spec.overAgents e order shape (Spec.agentShare e survey))
    {y : (t : Mk) → DatasetChunk MicroShape (MicroCell (Fin ((e.products t).J + 1))) Q}
    (hy : ∀ t ∈ order, datasetContributions (microOf e t e.agentAvailability (e.agents t) (xiOf e t)) (weightsOf e t (e.agents t)) ()
      (List.range (e.agentCount t + 1)) = .ok (y t)) {maxI maxJ : ℕ}
    (hv : Spec.ValidArrays order (fun t => weightsArray (e.agentCount t + 1) (y t)) maxI maxJ)
    {Ω : Type} [MeasurableSpace Ω] {μ : Measure Ω} [IsProbabilityMeasure μ] {uniform : ℕ → Ω → ℝ} (hu : Draws μ unitLaw uniform) (q r : Q) :
    (∀ n, 0 < n → ∫ ω, Spec.sampleAverage (fun t => weightsArray (e.agentCount t + 1) (y t)) (Spec.byPosition e (Spec.scoreValue e scores q))
        (simulateMicroData order (fun t => weightsArray (e.agentCount t + 1) (y t)) maxI maxJ n fun k => uniform k ω) ∂μ = 0) ∧
    (∀ n, 0 < n → cov[fun ω => Spec.sampleAverage (fun t => weightsArray (e.agentCount t + 1) (y t)) (Spec.byPosition e (Spec.scoreValue e scores q))
        (simulateMicroData order (fun t => weightsArray (e.agentCount t + 1) (y t)) maxI maxJ n fun k => uniform k ω),
      fun ω => Spec.sampleAverage (fun t => weightsArray (e.agentCount t + 1) (y t)) (Spec.byPosition e (Spec.scoreValue e scores r))
        (simulateMicroData order (fun t => weightsArray (e.agentCount t + 1) (y t)) maxI maxJ n fun k => uniform k ω); μ] =
      Spec.surveyCovariance e order shape survey (Spec.scoreValue e scores q) (Spec.scoreValue e scores r) / n) ∧
    ∀ᵐ ω ∂μ, Tendsto (fun n => Spec.sampleAverage (fun t => weightsArray (e.agentCount t + 1) (y t)) (Spec.byPosition e (Spec.scoreValue e scores q))
        (simulateMicroData order (fun t => weightsArray (e.agentCount t + 1) (y t)) maxI maxJ n fun k => uniform k ω)) atTop (𝓝 0) := by
  obtain ⟨htot, hmean⟩ := simulated_mean hs hv.nodup (fun t ht => (h q t ht).agents) hy
  have h0 : ∀ q, Spec.surveyMean e order shape survey (Spec.scoreValue e scores q) = 0 := fun q => C144_zero hs hinc (h q) hsc
  have hpos' : 0 < Spec.totalWeight order (fun t => weightsArray (e.agentCount t + 1) (y t)) := by rw [htot]; exact hpos
  refine ⟨fun n hn => ?_, fun n hn => ?_, ?_⟩
  · exact (C143_unbiased hv hpos' hu (Spec.byPosition e (Spec.scoreValue e scores q)) n hn).trans (by rw [hmean, h0])
  · refine (C143_covariance hv hpos' hu (Spec.byPosition e (Spec.scoreValue e scores q)) (Spec.byPosition e (Spec.scoreValue e scores r)) n hn).trans ?_
    rw [hmean, hmean, h0, h0, mul_zero, sub_zero]
    unfold Spec.surveyCovariance
    simp only [h0, sub_zero]
    rw [← hmean]
    congr 2
    funext t i c
    unfold Spec.byPosition
    split_ifs <;> simp
  · have := C143_consistent (maxI := maxI) (maxJ := maxJ) hv hpos' hu (Spec.byPosition e (Spec.scoreValue e scores q))
    rw [hmean, h0] at this
    exact this

end

/-- **C88** fails for `compute_agent_scores` with micro data: although it is documented that micro data of the form required by `compute_micro_scores` can be
passed, demographics are passed twice to a constructor that has no parameter for the last argument, so there is a `TypeError` for all micro data. Without micro
data, and in `compute_micro_scores`, the call is right. -/
theorem C88_agents_refuted {X β : Type} (build : List MicroAgentsArgument → Except PyErr X) (rest : X → Except PyErr β) :
    withMicroAgents (agentScoresCall true) build rest = .error .typeError ∧
    withMicroAgents (agentScoresCall false) build rest = withMicroAgents microScoresCall build rest ∧
    ∀ x, build microScoresCall = .ok x → withMicroAgents microScoresCall build rest = rest x := by
  refine ⟨rfl, rfl, fun x hx => ?_⟩
  unfold withMicroAgents callPositional
  rw [if_neg (by simp [microScoresCall]), hx]

/-! ## An economy -/

/-- Survey weights of the economy with two markets. -/
noncomputable def surveyWeight (t : Fin 2) (r : ScoreRow Unit Unit) (_ : MicroCell (Fin ((surveyEconomy.products t).J + 1))) : ℝ :=
  if t = 0 ∧ r.nodes () < 0 then 0 else 1

lemma surveyEconomy_surveys : Spec.SurveysAgents surveyEconomy (fun _ => .first false) surveyWeight := ⟨fun _ _ => rfl, fun _ _ _ => rfl⟩

lemma survey_share (t : Fin 2) (i : Fin (surveyEconomy.agentCount t + 1)) : Spec.agentShare surveyEconomy surveyWeight t i (.first (some 0)) =
    if t = 0 ∧ i ≠ 0 then 0 else 1 / 4 := by
  unfold Spec.agentShare
  have hp : Spec.observation (Spec.surveyMarket surveyEconomy t surveyEconomy.agentAvailability (surveyEconomy.agents t)) (surveyEconomy.products t).delta
      (computeMu (Spec.surveyTastes surveyEconomy t (surveyEconomy.agents t)) surveyEconomy.sigma surveyEconomy.pi) i (.first (some 0)) = 1 / 2 := by
    refine (survey_probability t (surveyEconomy.agents t) i 0 surveyEconomy.sigma surveyEconomy.pi rfl rfl 0).trans ?_
    norm_num
  have hn : (surveyEconomy.agents t i).nodes () = if i = 0 then 1 else -1 := rfl
  have hw : (surveyEconomy.agents t i).weight = 1 / 2 := rfl
  rw [hp, hw]
  unfold surveyWeight
  rw [hn]
  by_cases hi : i = 0
  · rw [if_pos hi, if_neg (by norm_num), if_neg (fun h => h.2 hi)]
    norm_num
  · rw [if_neg hi]
    by_cases ht : t = 0
    · rw [if_pos ⟨ht, by norm_num⟩, if_pos ⟨ht, hi⟩]
      norm_num
    · rw [if_neg (fun h => ht h.1), if_neg (fun h => ht h.1)]
      norm_num

lemma survey_overAgents (f : (t : Fin 2) → Fin (surveyEconomy.agentCount t + 1) → MicroCell (Fin ((surveyEconomy.products t).J + 1)) → ℝ) :
    Spec.overAgents surveyEconomy [0, 1] (fun _ => .first false) (fun t i c => Spec.agentShare surveyEconomy surveyWeight t i c * f t i c) =
      1 / 4 * f 0 0 (.first (some 0)) + 1 / 4 * f 1 0 (.first (some 0)) + 1 / 4 * f 1 1 (.first (some 0)) := by
  unfold Spec.overAgents
  have hc : ∀ t : Fin 2, (MicroShape.first false).cells = ({MicroCell.first (some 0)} : Finset (MicroCell (Fin ((surveyEconomy.products t).J + 1)))) :=
    fun _ => survey_cells
  have hsum : ∀ t : Fin 2, (∑ i, ∑ c ∈ (MicroShape.first false).cells, Spec.agentShare surveyEconomy surveyWeight t i c * f t i c) =
      Spec.agentShare surveyEconomy surveyWeight t 0 (.first (some 0)) * f t 0 (.first (some 0)) +
        Spec.agentShare surveyEconomy surveyWeight t 1 (.first (some 0)) * f t 1 (.first (some 0)) := by
    intro t
    simp only [hc t, Finset.sum_singleton]
    exact Fin.sum_univ_two (fun i : Fin 2 => Spec.agentShare surveyEconomy surveyWeight t i (.first (some 0)) * f t i (.first (some 0)))
  rw [show ([0, 1] : List (Fin 2)).toFinset = {0, 1} by decide, Finset.sum_pair (by decide), hsum, hsum]
  simp only [survey_share]
  have h01 : (1 : Fin (surveyEconomy.agentCount 0 + 1)) ≠ 0 := by decide
  simp [h01]
  ring

/-- In this economy, scores can be computed, and whether agents are in the first market is a value with which parameters can be estimated. -/
example : ∃ scores, agentScores surveyEconomy [0, 1] = .ok scores ∧ Spec.SurveysAgents surveyEconomy (fun _ => .first false) surveyWeight ∧
    (∀ t ∈ ([0, 1] : List (Fin 2)), surveyEconomy.included t = true) ∧
    (∀ q, ∀ t ∈ ([0, 1] : List (Fin 2)), Spec.ValidMarket surveyEconomy t q (fun _ _ => 0)) ∧
    0 < Spec.overAgents surveyEconomy [0, 1] (fun _ => .first false) (Spec.agentShare surveyEconomy surveyWeight) ∧
    Spec.surveyCovariance surveyEconomy [0, 1] (fun _ => .first false) surveyWeight (fun t _ _ => if t = 0 then 1 else 0) (fun t _ _ => if t = 0 then 1 else 0) =
      2 / 9 := by
  obtain ⟨scores, hsc, -⟩ := C144_succeeds surveyEconomy_surveys (markets := [0, 1]) (fun _ _ => rfl) (fun t r c => by unfold surveyWeight; split_ifs <;> norm_num)
  have hD : Spec.overAgents surveyEconomy [0, 1] (fun _ => .first false) (Spec.agentShare surveyEconomy surveyWeight) = 3 / 4 := by
    have := survey_overAgents fun _ _ _ => 1
    simp only [mul_one] at this
    rw [this]
    norm_num
  refine ⟨scores, hsc, surveyEconomy_surveys, fun _ _ => rfl, fun q t _ => survey_market t, by rw [hD]; norm_num, ?_⟩
  unfold Spec.surveyCovariance Spec.surveyMean
  rw [survey_overAgents, survey_overAgents, hD]
  norm_num

end Pyblp
