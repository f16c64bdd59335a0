import Verif.Model.MonteCarlo
import Verif.Lemmas.Sampling
import Verif.Props.Inversion
import Mathlib.Probability.Independence.InfinitePi

/-!
# C127: Monte Carlo integration is unbiased, and shares and mean utilities converge to those of the population
-/

set_option linter.unusedSectionVars false

open MeasureTheory ProbabilityTheory Filter Topology

namespace Pyblp

variable {J G K2 ι Ω : Type} [Fintype J] [DecidableEq J] [Nonempty J] [Fintype G] [DecidableEq G] [Fintype K2] [MeasurableSpace Ω] {dimensions : ℕ}

/-! ## Specification -/

/-- Preferences of a population: nests with their parameters, or the scale of taste shocks, the characteristics that tastes differ for, how tastes
depend on standard normal variables, and how much. -/
structure Spec.Population (J G K2 : Type) (dimensions : ℕ) where
  nesting : Option (Nesting J G)
  epsilonScale : ℝ
  X2 : J → K2 → ℝ
  rcType : K2 → RcType
  sigma : K2 → Fin dimensions → ℝ

/-- The taste of somebody with unobserved characteristics `nu` for characteristic `k`. -/
noncomputable def Spec.Population.taste (p : Spec.Population J G K2 dimensions) (nu : Fin dimensions → ℝ) (k : K2) : ℝ :=
  match p.rcType k with
  | .linear => ∑ d, p.sigma k d * nu d
  | .log => Real.exp (∑ d, p.sigma k d * nu d)
  | .logit => 1 / (1 + Real.exp (-∑ d, p.sigma k d * nu d))

/-- The utility of product `j`, without the taste shock. -/
noncomputable def Spec.Population.utility (p : Spec.Population J G K2 dimensions) (delta : J → ℝ) (nu : Fin dimensions → ℝ) (j : J) : ℝ :=
  delta j + ∑ k, p.X2 j k * p.taste nu k

/-- The probability that somebody with unobserved characteristics `nu` chooses product `j`: logit, or nested logit. -/
noncomputable def Spec.Population.chooses (p : Spec.Population J G K2 dimensions) (delta : J → ℝ) (nu : Fin dimensions → ℝ) (j : J) : ℝ :=
  match p.nesting with
  | none => Spec.logit (fun k => p.utility delta nu k / p.epsilonScale) (fun _ => 1) 1 j
  | some n => Spec.nested n.group n.rho.groupRho (p.utility delta nu) (fun _ => 1) 1 j

/-- The share of the population that chooses product `j`: the integral over a multivariate standard normal distribution. -/
noncomputable def Spec.Population.share (p : Spec.Population J G K2 dimensions) (delta : J → ℝ) (j : J) : ℝ :=
  ∫ nu, p.chooses delta nu j ∂Measure.pi fun _ : Fin dimensions => gaussianReal 0 1

/-- Nesting parameters are in `[0, 1)` and the scale of taste shocks is positive. -/
structure Spec.Population.Regular (p : Spec.Population J G K2 dimensions) : Prop where
  rho : ∀ n, p.nesting = some n → ∀ g, 0 ≤ n.rho.groupRho g ∧ n.rho.groupRho g < 1
  eps : 0 < p.epsilonScale

/-- What is assumed of the random number generator: its numbers are independent and standard normal. -/
structure Spec.StandardNormal (μ : Measure Ω) (stream : ℕ → Ω → ℝ) : Prop where
  measurable : ∀ n, Measurable (stream n)
  indep : iIndepFun stream μ
  normal : ∀ n, μ.map (stream n) = gaussianReal 0 1

/-- Shares that are computed for the market at position `t` of all markets if `size` nodes are built for each. -/
noncomputable def Spec.Population.simulated (p : Spec.Population J G K2 dimensions) (ids : List ι) (t : Fin ids.length) (size : ℕ) (stream : ℕ → ℝ)
    (delta : J → ℝ) (j : J) : ℝ :=
  match (monteCarloMany dimensions size stream ids)[(t : ℕ)]? with
  | some b => integratedShares p.nesting p.epsilonScale p.X2 p.rcType p.sigma b.2 delta j
  | none => 0

/-! ## Built nodes -/

lemma monteCarloMany_length (size : ℕ) (stream : ℕ → ℝ) (ids : List ι) : (monteCarloMany dimensions size stream ids).length = ids.length := by
  induction ids generalizing stream with
  | nil => rfl
  | cons t rest ih => simp [monteCarloMany, ih]

lemma monteCarloMany_get (size : ℕ) (stream : ℕ → ℝ) (ids : List ι) (t : ℕ) (ht : t < ids.length) :
    (monteCarloMany dimensions size stream ids)[t]? =
      some (ids[t], monteCarlo dimensions size fun n => stream (t * (size * dimensions) + n)) := by
  induction ids generalizing stream t with
  | nil => simp at ht
  | cons a rest ih =>
    cases t with
    | zero => simp [monteCarloMany]
    | succ t =>
      simp only [monteCarloMany, List.getElem?_cons_succ, List.getElem_cons_succ]
      rw [ih _ t (by simpa using ht)]
      simp only [Option.some.injEq, Prod.mk.injEq, true_and]
      congr 1
      funext n
      congr 1
      ring

/-! ## Probabilities -/

variable (p : Spec.Population J G K2 dimensions)

lemma integratedMarket_regular {size : ℕ} (hp : p.Regular) (b : NodesWeights dimensions size) :
    Regular (integratedMarket p.nesting p.epsilonScale b : Market J (Fin size) G) := ⟨hp.rho, hp.eps⟩

lemma integrated_available {size : ℕ} (b : NodesWeights dimensions size) (i : Fin size) :
    AvailabilityNonneg (integratedMarket p.nesting p.epsilonScale b : Market J (Fin size) G) { safe := true } i := by
  intro a h
  simp [integratedMarket] at h

lemma computeMu_integrated {size : ℕ} (b : NodesWeights dimensions size) (delta : J → ℝ) (j : J) (i : Fin size) :
    delta j + computeMu (integratedTastes p.X2 p.rcType b) p.sigma (fun _ d => d.elim) j i = p.utility delta (b.nodes i) j := by
  unfold computeMu Spec.Population.utility Spec.Population.taste randomCoefficient coefficientIndex
  congr 1
  refine Finset.sum_congr rfl fun k _ => ?_
  simp only [integratedTastes, Finset.univ_eq_empty, Finset.sum_empty, add_zero]
  cases p.rcType k <;> rfl

lemma integrated_probability {size : ℕ} (hp : p.Regular) (b : NodesWeights dimensions size) (delta : J → ℝ) (j : J) (i : Fin size) :
    computeProbabilities (integratedMarket p.nesting p.epsilonScale b) {} delta
      (computeMu (integratedTastes p.X2 p.rcType b) p.sigma fun _ d => d.elim) j i = p.chooses delta (b.nodes i) j := by
  have hmul : multiplier (integratedMarket p.nesting p.epsilonScale b : Market J (Fin size) G) {} i = fun _ => 1 :=
    multiplier_one _ _ rfl rfl rfl (fun _ => rfl) i
  cases hn : p.nesting with
  | none =>
    have := computeProbabilities_plain (integratedMarket p.nesting p.epsilonScale b : Market J (Fin size) G) {} delta
      (computeMu (integratedTastes p.X2 p.rcType b) p.sigma fun _ d => d.elim) hn i j
    rw [hmul] at this
    rw [← hn, this]
    unfold Spec.Population.chooses
    rw [hn]
    simp only [computeMu_integrated, integratedMarket, Bool.false_eq_true, if_false]
  | some n =>
    have := computeProbabilities_nested (integratedMarket p.nesting p.epsilonScale b : Market J (Fin size) G) {} delta
      (computeMu (integratedTastes p.X2 p.rcType b) p.sigma fun _ d => d.elim) n hn i (integrated_available p b i) (fun g => ((hp.rho n hn g).2).ne) j
    rw [hmul] at this
    rw [← hn, this]
    unfold Spec.Population.chooses
    rw [hn]
    simp only [computeMu_integrated, Bool.false_eq_true, if_false]

/-- One chooser, for whom the lemmas about markets are used. -/
noncomputable def oneChooser (nu : Fin dimensions → ℝ) : NodesWeights dimensions 1 := ⟨fun _ => nu, fun _ => 1⟩

lemma chooses_eq (hp : p.Regular) (delta : J → ℝ) (nu : Fin dimensions → ℝ) (j : J) : p.chooses delta nu j =
    computeProbabilities (integratedMarket p.nesting p.epsilonScale (oneChooser nu)) {} delta
      (computeMu (integratedTastes p.X2 p.rcType (oneChooser nu)) p.sigma fun _ d => d.elim) j 0 :=
  (integrated_probability p hp (oneChooser nu) delta j 0).symm

lemma taste_measurable (k : K2) : Measurable fun nu => p.taste nu k := by
  unfold Spec.Population.taste
  have h : Measurable fun nu : Fin dimensions → ℝ => ∑ d, p.sigma k d * nu d :=
    Finset.measurable_sum _ fun d _ => (measurable_pi_apply d).const_mul _
  cases p.rcType k with
  | linear => exact h
  | log => exact Real.measurable_exp.comp h
  | logit => exact measurable_const.div (measurable_const.add (Real.measurable_exp.comp h.neg))

lemma utility_measurable (delta : J → ℝ) (j : J) : Measurable fun nu => p.utility delta nu j := by
  unfold Spec.Population.utility
  exact measurable_const.add (Finset.measurable_sum _ fun k _ => (taste_measurable p k).const_mul _)

lemma chooses_measurable (delta : J → ℝ) (j : J) : Measurable fun nu => p.chooses delta nu j := by
  unfold Spec.Population.chooses
  have hu := utility_measurable p delta
  cases p.nesting with
  | none =>
    simp only [Spec.logit]
    have h : ∀ k, Measurable fun nu => (1 : ℝ) * Real.exp (p.utility delta nu k / p.epsilonScale) := fun k =>
      (Real.measurable_exp.comp ((hu k).div_const _)).const_mul _
    exact (h j).div (measurable_const.add (Finset.measurable_sum _ fun k _ => h k))
  | some n =>
    simp only [Spec.nested]
    have hg : ∀ g, Measurable fun nu => Spec.groupSum n.group n.rho.groupRho (p.utility delta nu) (fun _ => 1) g := fun g => by
      unfold Spec.groupSum
      exact Finset.measurable_sum _ fun k _ => (Real.measurable_exp.comp ((hu k).div_const _)).const_mul _
    have hw : Measurable fun nu => Spec.within n.group n.rho.groupRho (p.utility delta nu) (fun _ => 1) j := by
      unfold Spec.within
      exact ((Real.measurable_exp.comp ((hu j).div_const _)).const_mul _).div (hg _)
    have hi : ∀ g, Measurable fun nu => Spec.expInclusive n.group n.rho.groupRho (p.utility delta nu) (fun _ => 1) g := fun g => by
      unfold Spec.expInclusive
      exact (hg g).pow_const _
    refine hw.mul ?_
    unfold Spec.groupProb
    exact (hi _).div (measurable_const.add (Finset.measurable_sum _ fun g _ => hi g))

/-- Scales of utility of a population. -/
noncomputable def Spec.Population.scale (j : J) : ℝ :=
  match p.nesting with
  | none => p.epsilonScale
  | some n => 1 - n.productRho j

lemma choosers (hp : p.Regular) : Sampling.Choosers p.chooses p.scale := by
  have hscale : ∀ (nu : Fin dimensions → ℝ) (j : J), p.scale j = tau (integratedMarket p.nesting p.epsilonScale (oneChooser nu) : Market J (Fin 1) G) j := fun nu j => rfl
  have hr := fun nu => integratedMarket_regular p hp (oneChooser nu)
  have ha := fun nu => integrated_available p (oneChooser nu) 0
  have h17 := fun x nu => C17_probabilities _ {} x (computeMu (integratedTastes p.X2 p.rcType (oneChooser nu)) p.sigma fun _ d => d.elim) 0 (ha nu)
    (hr nu).rhoBelowOne (Or.inl rfl)
  refine ⟨chooses_measurable p, fun x nu j => ?_, fun x nu j => ?_, fun j => ?_, fun x y nu hxy j => ?_, fun x nu c hc j => ?_⟩
  · rw [chooses_eq p hp]
    exact (h17 x nu).1 j
  · rw [chooses_eq p hp]
    have h := C17_probabilities_interior _ true x (computeMu (integratedTastes p.X2 p.rcType (oneChooser nu)) p.sigma fun _ d => d.elim) 0
      (rfl : (integratedMarket p.nesting p.epsilonScale (oneChooser nu) : Market J (Fin 1) G).availability = none) (hr nu).rhoBelowOne
    exact (Finset.single_le_sum (fun k _ => (h.1 k).le) (Finset.mem_univ j)).trans h.2.le
  · exact (hr 0).tau_pos j
  · rw [chooses_eq p hp, chooses_eq p hp, hscale nu]
    exact prob_scaled_antitone _ (hr nu) true _ 0 (ha nu) x y hxy j
  · rw [chooses_eq p hp, chooses_eq p hp]
    refine prob_shift _ (hr nu) true _ 0 (ha nu) x c hc j ?_
    rw [multiplier_one _ _ rfl rfl rfl (fun _ => rfl) 0]
    exact one_pos

/-- Shares that are computed are averages over a window of draws. -/
lemma simulated_eq (hp : p.Regular) (ids : List ι) (t : Fin ids.length) (size : ℕ) (stream : ℕ → Ω → ℝ) (ω : Ω) (delta : J → ℝ) (j : J) :
    p.simulated ids t size (fun n => stream n ω) delta j =
      Sampling.average p.chooses (fun n ω (d : Fin dimensions) => stream (n * dimensions + d) ω) t size ω delta j := by
  unfold Spec.Population.simulated
  rw [monteCarloMany_get _ _ _ _ t.2]
  unfold Sampling.average integratedShares computeShares
  simp only [integrated_probability p hp]
  simp only [integratedMarket, monteCarlo]
  rw [← Finset.sum_mul, mul_one_div]
  congr 1
  refine Finset.sum_congr rfl fun i _ => ?_
  congr 1
  funext d
  congr 1
  ring

/-! ## Mean utilities of the population -/

/-- The scale of utility of everything inside. -/
noncomputable def Spec.Population.insideScale : ℝ :=
  match p.nesting with
  | none => p.epsilonScale
  | some _ => 1

lemma insideScale_pos (hp : p.Regular) : 0 < p.insideScale := by
  unfold Spec.Population.insideScale
  cases p.nesting with
  | none => exact hp.eps
  | some _ => exact one_pos

/-- Who does not choose anything does not choose one product in particular. -/
lemma inside_ge (hp : p.Regular) (delta : J → ℝ) (nu : Fin dimensions → ℝ) (j : J) :
    1 - (1 + Real.exp (p.utility delta nu j / p.insideScale))⁻¹ ≤ ∑ k, p.chooses delta nu k := by
  have hpos := Real.exp_pos (p.utility delta nu j / p.insideScale)
  unfold Spec.Population.chooses Spec.Population.insideScale
  unfold Spec.Population.insideScale at hpos
  cases hn : p.nesting with
  | none =>
    simp only [hn] at hpos ⊢
    simp only [Spec.logit, one_mul]
    rw [← Finset.sum_div]
    set S := ∑ k, Real.exp (p.utility delta nu k / p.epsilonScale)
    have hS : Real.exp (p.utility delta nu j / p.epsilonScale) ≤ S :=
      Finset.single_le_sum (f := fun k => Real.exp (p.utility delta nu k / p.epsilonScale)) (fun k _ => (Real.exp_pos _).le) (Finset.mem_univ j)
    have h1 : S / (1 + S) = 1 - (1 + S)⁻¹ := by have : 1 + S ≠ 0 := by linarith
                                                field_simp; ring
    rw [h1]
    have := inv_anti₀ (by linarith : (0 : ℝ) < 1 + Real.exp (p.utility delta nu j / p.epsilonScale)) (by linarith : _ ≤ 1 + S)
    linarith
  | some n =>
    simp only [hn, div_one] at hpos ⊢
    have hr := fun g => (hp.rho n hn g).2
    have hrj : 0 < 1 - n.rho.groupRho (n.group j) := by linarith [hr (n.group j)]
    have hnn : ∀ g, 0 ≤ Spec.expInclusive n.group n.rho.groupRho (p.utility delta nu) (fun _ => 1) g := fun g =>
      expInclusive_nonneg _ _ _ _ (fun _ => zero_le_one) g
    have hsum := nested_sum n.group n.rho.groupRho (p.utility delta nu) (fun _ => 1) 1 (fun g => (hr g).ne)
      (by have := Finset.sum_nonneg fun g (_ : g ∈ Finset.univ) => hnn g; linarith)
    unfold Spec.nestedOutside at hsum
    set S := ∑ g, Spec.expInclusive n.group n.rho.groupRho (p.utility delta nu) (fun _ => 1) g
    have hgs : Real.exp (p.utility delta nu j / (1 - n.rho.groupRho (n.group j))) ≤
        Spec.groupSum n.group n.rho.groupRho (p.utility delta nu) (fun _ => 1) (n.group j) := by
      unfold Spec.groupSum
      have := Finset.single_le_sum (s := Finset.univ.filter fun k => n.group k = n.group j)
        (f := fun k => (1 : ℝ) * Real.exp (p.utility delta nu k / (1 - n.rho.groupRho (n.group j)))) (fun k _ => by positivity)
        (by simp : j ∈ _)
      simpa using this
    have hinc : Real.exp (p.utility delta nu j) ≤ Spec.expInclusive n.group n.rho.groupRho (p.utility delta nu) (fun _ => 1) (n.group j) := by
      have := Real.rpow_le_rpow (Real.exp_pos _).le hgs hrj.le
      rw [← Real.exp_mul, div_mul_cancel₀ _ hrj.ne'] at this
      exact this
    have hS : Real.exp (p.utility delta nu j) ≤ S := hinc.trans
      (Finset.single_le_sum (f := fun g => Spec.expInclusive n.group n.rho.groupRho (p.utility delta nu) (fun _ => 1) g) (fun g _ => hnn g)
        (Finset.mem_univ (n.group j)))
    have := inv_anti₀ (by linarith : (0 : ℝ) < 1 + Real.exp (p.utility delta nu j)) (by linarith : _ ≤ 1 + S)
    rw [one_div] at hsum
    linarith

lemma chooses_low (hp : p.Regular) (nu : Fin dimensions → ℝ) (j : J) :
    Tendsto (fun c : ℝ => p.chooses (fun _ => c) nu j) atBot (𝓝 0) := by
  simp only [chooses_eq p hp]
  exact tendsto_prob_low _ (integratedMarket_regular p hp _) true _ 0 (integrated_available p _ 0) j

/-- Shares of a population can be explained, and by one vector of mean utilities only. -/
lemma population_exists (hp : p.Regular) (s : J → ℝ) (hs : ∀ j, 0 < s j) (hsum : ∑ j, s j < 1) : ∃ delta, ∀ j, p.share delta j = s j := by
  have hc := choosers p hp
  have hτ := fun j => hc.tau_pos j
  have hint := fun x j => hc.integrable (law := Measure.pi fun _ : Fin dimensions => gaussianReal 0 1) x j
  refine exists_solution p.share p.scale hτ (fun x j => ?_) (fun x y hxy j => ?_) s hs ?_ ?_
  · have h := Sampling.population_shift (law := Measure.pi fun _ : Fin dimensions => gaussianReal 0 1) hc (fun k => x k + -1) one_pos j
    simp only [neg_add_cancel_right] at h
    exact lt_of_le_of_lt (integral_nonneg fun nu => hc.nonneg _ _ _) h
  · unfold Spec.Population.share
    rw [← integral_mul_const, ← integral_mul_const]
    exact integral_mono ((hint y j).mul_const _) ((hint x j).mul_const _) fun nu => hc.anti x y nu hxy j
  · have h : ∀ j, Tendsto (fun c : ℝ => p.share (fun _ => c) j) atBot (𝓝 0) := fun j => by
      have := tendsto_integral_filter_of_dominated_convergence (μ := Measure.pi fun _ : Fin dimensions => gaussianReal 0 1) (l := atBot)
        (F := fun (c : ℝ) nu => p.chooses (fun _ => c) nu j) (f := fun _ => 0) (fun _ => 1)
        (Eventually.of_forall fun c => (hc.measurable _ j).aestronglyMeasurable)
        (Eventually.of_forall fun c => Eventually.of_forall fun nu => by
          rw [Real.norm_eq_abs, abs_of_nonneg (hc.nonneg _ _ _)]; exact hc.le_one _ _ _)
        (integrable_const _) (Eventually.of_forall fun nu => chooses_low p hp nu j)
      simp only [integral_zero] at this
      exact this
    have he : ∀ᶠ c : ℝ in atBot, ∀ j, p.share (fun _ => c) j < s j := by
      rw [eventually_all]
      exact fun j => (h j).eventually_lt_const (hs j)
    obtain ⟨c, hcl⟩ := he.exists
    exact ⟨fun _ => c, fun j => (hcl j).le⟩
  · set B : ℝ → J → (Fin dimensions → ℝ) → ℝ := fun M j nu => (1 + Real.exp (p.utility (fun _ => M) nu j / p.insideScale))⁻¹ with hB
    have hBm : ∀ M j, Measurable (B M j) := fun M j =>
      (measurable_const.add (Real.measurable_exp.comp ((utility_measurable p _ j).div_const _))).inv
    have hB0 : ∀ M j nu, 0 ≤ B M j nu := fun M j nu => by simp only [hB]; positivity
    have hB1 : ∀ M j nu, B M j nu ≤ 1 := fun M j nu => by
      simp only [hB]
      exact inv_le_one_of_one_le₀ (by linarith [Real.exp_pos (p.utility (fun _ => M) nu j / p.insideScale)])
    have hBi : ∀ M j, Integrable (B M j) (Measure.pi fun _ : Fin dimensions => gaussianReal 0 1) := fun M j =>
      Integrable.of_bound (hBm M j).aestronglyMeasurable 1 (Eventually.of_forall fun nu => by
        rw [Real.norm_eq_abs, abs_of_nonneg (hB0 _ _ _)]; exact hB1 _ _ _)
    have h : ∀ j, Tendsto (fun M : ℝ => ∫ nu, B M j nu ∂Measure.pi fun _ : Fin dimensions => gaussianReal 0 1) atTop (𝓝 0) := fun j => by
      have := tendsto_integral_filter_of_dominated_convergence (μ := Measure.pi fun _ : Fin dimensions => gaussianReal 0 1) (l := atTop)
        (F := fun (M : ℝ) nu => B M j nu) (f := fun _ => 0) (fun _ => 1)
        (Eventually.of_forall fun c => (hBm _ j).aestronglyMeasurable)
        (Eventually.of_forall fun c => Eventually.of_forall fun nu => by
          rw [Real.norm_eq_abs, abs_of_nonneg (hB0 _ _ _)]; exact hB1 _ _ _)
        (integrable_const _) (Eventually.of_forall fun nu => by
          simp only [hB, Spec.Population.utility]
          refine Tendsto.inv_tendsto_atTop (tendsto_atTop_add_const_left _ _ ?_)
          exact Real.tendsto_exp_atTop.comp ((tendsto_atTop_add_const_right _ _ tendsto_id).atTop_div_const (insideScale_pos p hp)))
      simpa using this
    have he : ∀ᶠ M : ℝ in atTop, ∀ j, ∫ nu, B M j nu ∂(Measure.pi fun _ : Fin dimensions => gaussianReal 0 1) < 1 - ∑ k, s k := by
      rw [eventually_all]
      exact fun j => (h j).eventually_lt_const (by linarith)
    obtain ⟨M, hM⟩ := he.exists
    refine ⟨M, fun x j hxj => ?_⟩
    have hsum' : ∑ k, p.share x k = ∫ nu, ∑ k, p.chooses x nu k ∂Measure.pi fun _ : Fin dimensions => gaussianReal 0 1 := by
      rw [integral_finsetSum _ fun k _ => hint x k]
      rfl
    have hge : ∫ nu, (1 - B M j nu) ∂(Measure.pi fun _ : Fin dimensions => gaussianReal 0 1) ≤ ∑ k, p.share x k := by
      rw [hsum']
      refine integral_mono ((integrable_const _).sub (hBi M j)) (integrable_finsetSum _ fun k _ => hint x k) fun nu => ?_
      refine le_trans ?_ (inside_ge p hp x nu j)
      simp only [hB]
      have hu : p.utility (fun _ => M) nu j ≤ p.utility x nu j := by unfold Spec.Population.utility; linarith
      have := inv_anti₀ (by positivity) (add_le_add_right (Real.exp_le_exp.mpr (div_le_div_of_nonneg_right hu (insideScale_pos p hp).le)) 1)
      linarith
    rw [integral_sub (integrable_const _) (hBi M j)] at hge
    simp only [integral_const, probReal_univ, smul_eq_mul, mul_one] at hge
    linarith [hM j]

/-! ## C127 -/

variable {μ : Measure Ω} [IsProbabilityMeasure μ] {stream : ℕ → Ω → ℝ}

/-- **C127, unbiased.** The mean, over draws of the random number generator, of the shares that are computed in any market with any number of nodes is
the share of the population. -/
theorem C127_unbiased (hp : p.Regular) (hs : Spec.StandardNormal μ stream) (ids : List ι) (t : Fin ids.length) (size : ℕ) (hsize : 0 < size)
    (delta : J → ℝ) (j : J) : ∫ ω, p.simulated ids t size (fun n => stream n ω) delta j ∂μ = p.share delta j := by
  simp only [simulated_eq p hp]
  exact Sampling.integral_average (choosers p hp) (Sampling.draws_of_stream hs.measurable hs.indep _ hs.normal dimensions) t size hsize delta j

/-- **C127, accuracy.** The probability that a share that is computed with `size` nodes is off by `error` or more is at most
`1 / (4 * size * error ^ 2)`. -/
theorem C127_accuracy (hp : p.Regular) (hs : Spec.StandardNormal μ stream) (ids : List ι) (t : Fin ids.length) (size : ℕ) (hsize : 0 < size)
    (delta : J → ℝ) (j : J) (error : ℝ) (herror : 0 < error) :
    μ {ω | error ≤ |p.simulated ids t size (fun n => stream n ω) delta j - p.share delta j|} ≤ ENNReal.ofReal (1 / (4 * size * error ^ 2)) := by
  have hc := choosers p hp
  have hd := Sampling.draws_of_stream hs.measurable hs.indep _ hs.normal dimensions
  have hmean := Sampling.integral_average hc hd t size hsize delta j
  have hvar := Sampling.variance_average hc hd t size hsize delta j
  have hmem : MemLp (fun ω => Sampling.average p.chooses (fun n ω (d : Fin dimensions) => stream (n * dimensions + d) ω) t size ω delta j) 2 μ := by
    have hn : (0 : ℝ) < size := by exact_mod_cast hsize
    refine MemLp.of_bound (Measurable.aestronglyMeasurable ?_) 1 (Eventually.of_forall fun ω => ?_)
    · unfold Sampling.average
      exact (Finset.measurable_sum _ fun i _ => (hc.measurable delta j).comp (hd.measurable _)).div_const _
    · unfold Sampling.average
      rw [Real.norm_eq_abs, abs_of_nonneg (div_nonneg (Finset.sum_nonneg fun i _ => hc.nonneg _ _ _) hn.le), div_le_one hn]
      refine (Finset.sum_le_card_nsmul _ _ 1 fun i _ => hc.le_one _ _ _).trans ?_
      simp
  have h := meas_ge_le_variance_div_sq hmem herror
  rw [hmean] at h
  simp only [simulated_eq p hp]
  refine h.trans (ENNReal.ofReal_le_ofReal ?_)
  have hn : (0 : ℝ) < size := by exact_mod_cast hsize
  rw [div_le_iff₀ (by positivity)]
  refine hvar.trans (le_of_eq ?_)
  field_simp

/-- **C127, consistency.** With probability one, the shares that are computed converge to shares of the population as the number of nodes grows, in
every market, at all mean utilities, and along every sequence of mean utilities that converges. -/
theorem C127_consistent (hp : p.Regular) (hs : Spec.StandardNormal μ stream) (ids : List ι) :
    ∀ᵐ ω ∂μ, ∀ (t : Fin ids.length) (delta : J → ℝ) (sequence : ℕ → J → ℝ), Tendsto sequence atTop (𝓝 delta) → ∀ j,
      Tendsto (fun size => p.simulated ids t size (fun n => stream n ω) (sequence size) j) atTop (𝓝 (p.share delta j)) := by
  rw [ae_all_iff]
  intro t
  filter_upwards [Sampling.tendsto_average (choosers p hp) (Sampling.draws_of_stream hs.measurable hs.indep _ hs.normal dimensions) t] with ω hω
  intro delta sequence hseq j
  simp only [simulated_eq p hp]
  exact hω delta sequence hseq j

/-- **C127, mean utilities.** With probability one, in every market, mean utilities for which computed shares are, or approach as the tolerance of the
inner loop falls, the shares of a population converge to the mean utilities of the population as the number of nodes grows. -/
theorem C127_mean_utilities (hp : p.Regular) (hs : Spec.StandardNormal μ stream) (ids : List ι) :
    ∀ᵐ ω ∂μ, ∀ (t : Fin ids.length) (delta : J → ℝ) (estimates : ℕ → J → ℝ),
      (∀ j, Tendsto (fun size => p.simulated ids t size (fun n => stream n ω) (estimates size) j) atTop (𝓝 (p.share delta j))) →
        Tendsto estimates atTop (𝓝 delta) := by
  filter_upwards [C127_consistent p hp hs ids] with ω hω
  intro t delta estimates hest
  simp only [simulated_eq p hp] at hω hest
  exact Sampling.tendsto_inverse (choosers p hp) t ω delta (fun x j => hω t x (fun _ => x) tendsto_const_nhds j) estimates hest

/-- **C127, the population.** There is one and only one vector of mean utilities that explains shares in the population, if shares are positive and
leave something to the outside option. With any number of nodes, there is one and only one vector of mean utilities for which computed shares are
these shares, and with probability one it converges to the one of the population as the number of nodes grows. -/
theorem C127_inversion (hp : p.Regular) (hs : Spec.StandardNormal μ stream) (ids : List ι) (s : J → ℝ) (hpos : ∀ j, 0 < s j)
    (hsum : ∑ j, s j < 1) : ∃ delta, (∀ x, (∀ j, p.share x j = s j) ↔ x = delta) ∧
      ∃ estimates : Fin ids.length → ℕ → (ℕ → ℝ) → J → ℝ, (∀ t size numbers, 0 < size →
          ∀ x, (∀ j, p.simulated ids t size numbers x j = s j) ↔ x = estimates t size numbers) ∧
        ∀ᵐ ω ∂μ, ∀ t, Tendsto (fun size => estimates t size fun n => stream n ω) atTop (𝓝 delta) := by
  obtain ⟨delta, hdelta⟩ := population_exists p hp s hpos hsum
  have hw : ∀ (size : ℕ) (numbers : ℕ → ℝ), 0 < size → ∀ i, 0 < (integratedMarket p.nesting p.epsilonScale
      (monteCarlo dimensions size numbers) : Market J (Fin size) G).weights i := fun size numbers hsize i => by
    have : (0 : ℝ) < size := by exact_mod_cast hsize
    simp only [integratedMarket, monteCarlo]
    positivity
  have hone : ∀ (size : ℕ) (numbers : ℕ → ℝ), 0 < size → ∑ i, (integratedMarket p.nesting p.epsilonScale
      (monteCarlo dimensions size numbers) : Market J (Fin size) G).weights i = 1 := fun size numbers hsize => by
    have : (size : ℝ) ≠ 0 := by exact_mod_cast hsize.ne'
    simp [integratedMarket, monteCarlo, this]
  have hall : ∀ (size : ℕ) (numbers : ℕ → ℝ), Spec.AllOffered (integratedMarket p.nesting p.epsilonScale
      (monteCarlo dimensions size numbers) : Market J (Fin size) G) true := fun size numbers i _ j =>
    ⟨by simp, rfl, fun a h => by simp [integratedMarket] at h⟩
  have hex : ∀ (t : Fin ids.length) size (numbers : ℕ → ℝ), ∃ x, 0 < size → ∀ j, p.simulated ids t size numbers x j = s j := by
    intro t size numbers
    by_cases hsize : 0 < size
    · unfold Spec.Population.simulated
      rw [monteCarloMany_get _ _ _ _ t.2]
      obtain ⟨x, hx⟩ := (C117_exists _ (integratedMarket_regular p hp (monteCarlo dimensions size fun n => numbers (t * (size * dimensions) + n))) true
        (computeMu (integratedTastes p.X2 p.rcType (monteCarlo dimensions size fun n => numbers (t * (size * dimensions) + n))) p.sigma
          fun _ d => d.elim) (fun i => integrated_available p _ i) (fun i => (hw size _ hsize i).le) ⟨⟨0, hsize⟩, hw size _ hsize _⟩
        (hall size _) s).mpr ⟨hpos, by rw [hone size _ hsize]; exact hsum⟩
      exact ⟨x, fun _ => hx⟩
    · exact ⟨0, fun h => absurd h hsize⟩
  choose estimates hest using hex
  refine ⟨delta, fun x => ⟨fun hx => ?_, fun hx => hx ▸ hdelta⟩, estimates, fun t size numbers hsize x => ⟨fun hx => ?_, fun hx => hx ▸ hest t size numbers hsize⟩, ?_⟩
  · have hc := choosers p hp
    have key : ∀ x y : J → ℝ, (∀ j, p.share x j = s j) → (∀ j, p.share y j = s j) → ∀ j, x j ≤ y j := by
      intro x y hx hy
      obtain ⟨j, -, hj⟩ := Finset.exists_max_image Finset.univ (fun j => x j - y j) Finset.univ_nonempty
      have hle : x j - y j ≤ 0 := by
        by_contra hlt
        push Not at hlt
        have h1 := Sampling.population_shift (law := Measure.pi fun _ : Fin dimensions => gaussianReal 0 1) hc y hlt j
        have h2 : p.share (fun k => y k + (x j - y j)) j ≤ p.share x j :=
          integral_mono (hc.integrable _ j) (hc.integrable x j) fun nu =>
            hc.substitutes x (fun k => y k + (x j - y j)) nu (fun k => by linarith [hj k (Finset.mem_univ _)]) j (by ring)
        have h3 : p.share y j < p.share (fun k => y k + (x j - y j)) j := h1
        linarith [hx j, hy j]
      intro k
      linarith [hj k (Finset.mem_univ _)]
    funext j
    exact le_antisymm (key x delta hx hdelta j) (key delta x hdelta hx j)
  · have h1 := hest t size numbers hsize
    unfold Spec.Population.simulated at hx h1
    rw [monteCarloMany_get _ _ _ _ t.2] at hx h1
    exact C23_unique _ (integratedMarket_regular p hp _) true _ (fun i => integrated_available p _ i) (fun i => (hw size _ hsize i).le)
      (fun j => ⟨⟨0, hsize⟩, hw size _ hsize _, hall size _ _ (hw size _ hsize _) j⟩) x (estimates t size numbers)
      fun j => (hx j).trans (h1 j).symm
  · filter_upwards [C127_mean_utilities p hp hs ids] with ω hω
    intro t
    refine hω t delta _ fun j => ?_
    refine tendsto_const_nhds.congr' ?_
    filter_upwards [eventually_gt_atTop 0] with size hsize
    rw [hest t size _ hsize j, hdelta j]

/-- **C127, counterfactuals.** With probability one, computed counterfactual shares converge to those of the population as the number of nodes grows:
shares after mean utilities change by `change` and characteristics change to `X2`, at mean utilities that explain shares before. -/
theorem C127_counterfactual (hp : p.Regular) (hs : Spec.StandardNormal μ stream) (ids : List ι) (X2 : J → K2 → ℝ) (change : J → ℝ) :
    ∀ᵐ ω ∂μ, ∀ (t : Fin ids.length) (delta : J → ℝ) (estimates : ℕ → J → ℝ),
      (∀ size, 0 < size → ∀ j, p.simulated ids t size (fun n => stream n ω) (estimates size) j = p.share delta j) → ∀ j,
        Tendsto (fun size => ({ p with X2 := X2 } : Spec.Population J G K2 dimensions).simulated ids t size (fun n => stream n ω)
          (fun k => estimates size k + change k) j) atTop
          (𝓝 (({ p with X2 := X2 } : Spec.Population J G K2 dimensions).share (fun k => delta k + change k) j)) := by
  filter_upwards [C127_mean_utilities p hp hs ids, C127_consistent ({ p with X2 := X2 } : Spec.Population J G K2 dimensions) ⟨hp.rho, hp.eps⟩ hs ids]
    with ω h1 h2
  intro t delta estimates hest j
  have h3 : Tendsto estimates atTop (𝓝 delta) := h1 t delta estimates fun j => by
    refine tendsto_const_nhds.congr' ?_
    filter_upwards [eventually_gt_atTop 0] with size hsize
    rw [hest size hsize j]
  refine h2 t (fun k => delta k + change k) (fun size k => estimates size k + change k) ?_ j
  exact tendsto_pi_nhds.mpr fun k => (tendsto_pi_nhds.mp h3 k).add_const _

/-- Nodes that are built for the market at position `t` of all markets. -/
noncomputable def Spec.nodesOf (dimensions : ℕ) (ids : List ι) (size : ℕ) (numbers : ℕ → ℝ) (t : ℕ) : Fin size → Fin dimensions → ℝ :=
  match (monteCarloMany dimensions size numbers ids)[t]? with
  | some b => b.2.nodes
  | none => 0

/-- **C127, independence.** Nodes of different markets are independent of one another, so errors of shares are as well. -/
theorem C127_independent (hs : Spec.StandardNormal μ stream) (ids : List ι) (size : ℕ) (t u : ℕ) (ht : t < ids.length) (hu : u < ids.length)
    (htu : t ≠ u) : IndepFun (fun ω => Spec.nodesOf dimensions ids size (fun n => stream n ω) t)
      (fun ω => Spec.nodesOf dimensions ids size (fun n => stream n ω) u) μ := by
  have hnodes : ∀ a, a < ids.length → (fun ω => Spec.nodesOf dimensions ids size (fun n => stream n ω) a) =
      fun ω (i : Fin size) (d : Fin dimensions) => stream (a * (size * dimensions) + (i * dimensions + d)) ω := fun a ha => by
    funext ω
    unfold Spec.nodesOf
    rw [monteCarloMany_get _ _ _ _ ha]
    rfl
  rw [hnodes t ht, hnodes u hu]
  have hlt : ∀ (i : Fin size) (d : Fin dimensions), (i * dimensions + d : ℕ) < size * dimensions := fun i d =>
    calc (i * dimensions + d : ℕ) < i * dimensions + dimensions := by omega
      _ = (i + 1) * dimensions := by ring
      _ ≤ size * dimensions := Nat.mul_le_mul_right _ i.2
  set S : ℕ → Finset ℕ := fun a => (Finset.range (size * dimensions)).image fun n => a * (size * dimensions) + n
  have hS : ∀ a (i : Fin size) (d : Fin dimensions), a * (size * dimensions) + (i * dimensions + d) ∈ S a := fun a i d =>
    Finset.mem_image.mpr ⟨_, Finset.mem_range.mpr (hlt i d), rfl⟩
  have hdis : Disjoint (S t) (S u) := by
    rw [Finset.disjoint_left]
    intro a ha hb
    obtain ⟨n, hn, rfl⟩ := Finset.mem_image.mp ha
    obtain ⟨n', hn', he⟩ := Finset.mem_image.mp hb
    rw [Finset.mem_range] at hn hn'
    have hpos : 0 < size * dimensions := by omega
    have h1 : (t * (size * dimensions) + n) / (size * dimensions) = t := by
      rw [mul_comm, Nat.mul_add_div hpos, Nat.div_eq_of_lt hn, add_zero]
    have h2 : (u * (size * dimensions) + n') / (size * dimensions) = u := by
      rw [mul_comm, Nat.mul_add_div hpos, Nat.div_eq_of_lt hn', add_zero]
    exact htu (by rw [← h1, ← h2, he])
  have h := hs.indep.indepFun_finset (S t) (S u) hdis hs.measurable
  exact h.comp (φ := fun (v : S t → ℝ) (i : Fin size) (d : Fin dimensions) => v ⟨_, hS t i d⟩)
    (ψ := fun (v : S u → ℝ) (i : Fin size) (d : Fin dimensions) => v ⟨_, hS u i d⟩)
    (measurable_pi_lambda _ fun i => measurable_pi_lambda _ fun d => measurable_pi_apply _)
    (measurable_pi_lambda _ fun i => measurable_pi_lambda _ fun d => measurable_pi_apply _)

/-! ## Hypotheses can be met -/

/-- There are random number generators of which what is assumed is true. -/
example : Spec.StandardNormal (Measure.infinitePi fun _ : ℕ => gaussianReal 0 1) (fun n (ω : ℕ → ℝ) => ω n) where
  measurable n := measurable_pi_apply n
  indep := iIndepFun_infinitePi (X := fun _ x => x) fun _ => measurable_id
  normal n := Measure.infinitePi_map_eval _ n

/-- Two products in a nest and one in another, of which one has a characteristic for which tastes are normal, and prices for which minus tastes are
lognormal. -/
example : (⟨some ⟨fun j => if j = 2 then 1 else 0, .single (1 / 2)⟩, 1, fun j k => if k = 0 then (if j = 0 then 1 else 0) else -(j + 1 : ℝ),
    fun k => if k = 0 then .linear else .log, fun k d => if k = d then 1 / 2 else 0⟩ : Spec.Population (Fin 3) (Fin 2) (Fin 2) 2).Regular where
  rho n h g := by
    obtain rfl := Option.some.inj h
    simp only [RhoParam.groupRho]
    norm_num
  eps := one_pos

end Pyblp
