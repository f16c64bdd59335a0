import Verif.Lemmas.RandomEvaluated
import Verif.Props.NonlinearTests
import Mathlib.Analysis.SpecialFunctions.Trigonometric.DerivHyp

/-!
# C136: large samples of markets with random coefficients

Estimates of random coefficients logit models of demand are consistent, their standard errors are valid, and tests have their limiting distributions. No
smoothness of mean utilities is assumed: it is proved from how choice probabilities are computed.
-/

set_option linter.unusedSectionVars false

open MeasureTheory ProbabilityTheory Filter Topology Matrix

namespace Pyblp

open Pyblp.Sampling Pyblp.Asymptotic

/-! ## Specification -/

section

variable {C Ω A K2 N D θ b z q d ι S : Type} [Fintype A] [Fintype K2] [Fintype N] [Fintype D] [Fintype θ] [Fintype b] [Fintype z] [Fintype q] [Fintype d]
  [LinearOrder ι] [DecidableEq θ] [DecidableEq K2] [DecidableEq N] [DecidableEq D] [DecidableEq b] [DecidableEq z] [DecidableEq q] [DecidableEq d]
  [MeasurableSpace C] [MeasurableSpace Ω]

/-- Samples of markets and what `solve` does with them. There is one problem for each number `T` of markets and outcome `ω`, with the first `T` of markets that
are drawn from `law` and are independent of each other. Instruments are valid at true parameters, only these satisfy moment conditions, and
nonlinear ones are in the interior of the compact and convex set `Θ`. All problems are solved with the same arguments, in each step optimization finds a minimum
over `Θ`, and `r` are results of the last step. -/
structure Spec.RandomSamples (μ : Measure Ω) (law : Measure C) (R : Spec.Markets C A K2 N D b z) (L : Spec.Coefficients K2 N D θ) (Θ : Set (θ → ℝ))
    (theta0 : θ → ℝ) (beta0 : b ⊕ Empty → ℝ) (w : ℕ → Ω → C) {n : ℕ × Ω → ℕ} (E : ∀ i, Estimation (n i) 1 0 (fun _ => z) q b Empty θ d ι S)
    (o : ∀ i, (θ → ℝ) → Evaluated (n i) θ d) (method : GmmMethod) (wType : CovarianceType) (W0 : Matrix (MomentIndex fun _ : Fin 1 ⊕ Fin 0 => z)
      (MomentIndex fun _ : Fin 1 ⊕ Fin 0 => z) ℝ) (s : ℕ × Ω → GmmState (Estimation.Weights (fun _ : Fin 1 ⊕ Fin 0 => z) q d) (θ → ℝ) S)
    (r : ℕ × Ω → StepResults (Estimation.Weights (fun _ : Fin 1 ⊕ Fin 0 => z) q d) (θ → ℝ) S) : Prop where
  draws : Draws μ law w
  compact : IsCompact Θ
  convex : Convex ℝ Θ
  interior : Θ ∈ 𝓝 theta0
  regular : R.Regular L law
  exogenous : ∀ a, ∫ x, ∑ j : R.Product x, (R.meanUtilities L theta0 x j - ∑ l, R.X1 x j l * beta0 (.inl l)) * R.instrument x j a ∂law = 0
  identified : ∀ theta ∈ Θ, ∀ beta : b → ℝ,
    (∀ a, ∫ x, ∑ j : R.Product x, (R.meanUtilities L theta x j - ∑ l, R.X1 x j l * beta l) * R.instrument x j a ∂law = 0) →
      theta = theta0 ∧ ∀ l, beta l = beta0 (.inl l)
  computes : ∀ i, Computes (E i)
  markets : ∀ i start, ∀ theta ∈ Θ, ((E i).markets start theta).1 = o i theta
  evaluates : ∀ T ω, R.Evaluates L Θ (fun t => w t ω) T (E (T, ω)) (o (T, ω))
  weights : ∀ i, (E i).wType = wType
  starts : Spec.StartsWith ((R.models L).at theta0 beta0) law E (fun i => (s i).W) W0
  initial : W0.PosDef
  updated : method = .twoStep → (((R.models L).at theta0 beta0).covariances law wType).PosDef
  minimizes : ∀ i, ∀ r' ∈ (E i).solve method false (s i), r'.theta ∈ Θ ∧
    ∀ theta ∈ Θ, (E i).objective r'.start.W ((E i).outcome r') ≤ (E i).objective r'.start.W (o i theta)
  last : ∀ i, ((E i).solve method false (s i)).getLast? = some (r i)

/-- For standard errors and tests, draws are jointly independent, and moment conditions are not collinear close to true parameters. -/
structure Spec.RandomErrors (μ : Measure Ω) (law : Measure C) (R : Spec.Markets C A K2 N D b z) (L : Spec.Coefficients K2 N D θ) (Θ : Set (θ → ℝ))
    (theta0 : θ → ℝ) (beta0 : b ⊕ Empty → ℝ) (w : ℕ → Ω → C) {n : ℕ × Ω → ℕ} (E : ∀ i, Estimation (n i) 1 0 (fun _ => z) q b Empty θ d ι S)
    (o : ∀ i, (θ → ℝ) → Evaluated (n i) θ d) (method : GmmMethod) (wType seType : CovarianceType) (W0 : Matrix (MomentIndex fun _ : Fin 1 ⊕ Fin 0 => z)
      (MomentIndex fun _ : Fin 1 ⊕ Fin 0 => z) ℝ) (s : ℕ × Ω → GmmState (Estimation.Weights (fun _ : Fin 1 ⊕ Fin 0 => z) q d) (θ → ℝ) S)
    (r : ℕ × Ω → StepResults (Estimation.Weights (fun _ : Fin 1 ⊕ Fin 0 => z) q d) (θ → ℝ) S) : Prop
    extends Spec.RandomSamples μ law R L Θ theta0 beta0 w E o method wType W0 s r where
  independent : iIndepFun w μ
  errors : ∀ i, (E i).seType = seType
  locations : ∀ i p, (E i).location p = none
  rank : Function.Injective ((R.models L).jacobian law (R.slope L) theta0 beta0).mulVec

variable [IsEmpty q] [IsEmpty d] {μ : Measure Ω} [IsProbabilityMeasure μ] {law : Measure C} {R : Spec.Markets C A K2 N D b z} {L : Spec.Coefficients K2 N D θ}
  {Θ : Set (θ → ℝ)} {theta0 : θ → ℝ} {beta0 : b ⊕ Empty → ℝ} {w : ℕ → Ω → C} {n : ℕ × Ω → ℕ}
  {E : ∀ i, Estimation (n i) 1 0 (fun _ => z) q b Empty θ d ι S} {o : ∀ i, (θ → ℝ) → Evaluated (n i) θ d} {method : GmmMethod} {wType seType : CovarianceType}
  {W0 : Matrix (MomentIndex fun _ : Fin 1 ⊕ Fin 0 => z) (MomentIndex fun _ : Fin 1 ⊕ Fin 0 => z) ℝ}
  {s : ℕ × Ω → GmmState (Estimation.Weights (fun _ : Fin 1 ⊕ Fin 0 => z) q d) (θ → ℝ) S}
  {r : ℕ × Ω → StepResults (Estimation.Weights (fun _ : Fin 1 ⊕ Fin 0 => z) q d) (θ → ℝ) S}

/-! ## Conditions of other properties -/

/-- Population moments. -/
lemma random_average (theta : θ → ℝ) (beta : b ⊕ Empty → ℝ) (e : Fin 1 ⊕ Fin 0) (a : z) :
    ((R.models L).at theta beta).average law (fun x j => ((R.models L).at theta beta).error x e j * R.instrument x j a) =
      (∫ x, ∑ j : R.Product x, (R.meanUtilities L theta x j - ∑ l, R.X1 x j l * beta (.inl l)) * R.instrument x j a ∂law) /
        ∫ x, (((R.models L).at theta beta).size x : ℝ) ∂law := by
  unfold Spec.Clusters.average
  congr 1
  refine integral_congr_ae (Eventually.of_forall fun x => ?_)
  change ∑ j ∈ Finset.range (R.more x + 1), _ = _
  rw [← Fin.sum_univ_eq_sum_range (fun j => ((R.models L).at theta beta).error x e j * R.instrument x j a)]
  refine Finset.sum_congr rfl fun j _ => ?_
  have h1 : ((R.models L).at theta beta).error x e j = (R.models L).outcome theta x e j - ∑ l, R.X1 x j l * beta (.inl l) := by
    simp [Spec.Models.at, Spec.Markets.models, Fintype.sum_sum_type]
  rw [h1, outcome_lt j.isLt]

lemma random_samples (h : Spec.RandomSamples μ law R L Θ theta0 beta0 w E o method wType W0 s r) :
    Spec.NonlinearSamples μ law (R.models L) Θ theta0 beta0 w E o method wType W0 s r := by
  have : IsProbabilityMeasure law := by
    rw [← h.draws.law 0]
    exact Measure.isProbabilityMeasure_map (h.draws.measurable 0).aemeasurable
  have hreg : (R.models L).Regular law Θ theta0 beta0 := by
    refine random_regular h.regular h.compact (mem_of_mem_nhds h.interior) fun e a => ?_
    rw [random_average, h.exogenous, zero_div]
  refine ⟨h.draws, h.compact, hreg, fun theta ht beta hb => ?_, h.computes, h.markets, fun T ω theta ht => ?_, h.weights, h.starts, h.initial, h.updated,
    h.minimizes, h.last⟩
  · obtain ⟨h1, h2⟩ := h.identified theta ht (fun l => beta (.inl l)) fun a => by
      have h3 := hb (.inl 0) a
      have h4 : ((R.models L).at theta beta).average law (fun x j => ((R.models L).at theta beta).error x (.inl 0) j * R.instrument x j a) = 0 := h3
      rw [random_average, div_eq_zero_iff] at h4
      exact h4.resolve_right (random_bounded h.regular theta beta).nonempty.ne'
    refine ⟨h1, funext fun l => ?_⟩
    rcases l with l | l
    · exact h2 l
    · exact l.elim
  · exact random_sampled h.regular (h.evaluates T ω) beta0 ht

lemma random_errors (h : Spec.RandomErrors μ law R L Θ theta0 beta0 w E o method wType seType W0 s r) :
    Spec.NonlinearErrors μ law (R.models L) (R.slope L) Θ theta0 beta0 w E o method wType seType W0 s r :=
  ⟨random_samples h.toRandomSamples, h.independent, h.errors, random_differentiable h.regular h.compact h.convex h.interior,
    fun T ω _ ht => random_slopes h.regular (h.evaluates T ω) ht, h.locations, h.rank⟩

/-! ## Theorems -/

/-- **C136, mean utilities.** For all parameters and markets there is exactly one vector of mean utilities with which the code computes market shares in the data.
It is a continuously differentiable function of parameters. -/
theorem C136_mean_utilities (h : R.Regular L law) (x : C) : (∀ theta, ∃! delta, R.Explains L theta x delta) ∧
    ∀ f : (θ → ℝ) → R.Product x → ℝ, (∀ theta, R.Explains L theta x (f theta)) → ContDiff ℝ 1 f := by
  refine ⟨fun theta => ⟨_, meanUtilities_explain h theta x, fun delta hd => meanUtilities_unique h hd⟩, fun f hf => ?_⟩
  exact plain_contDiff Unit (R.weights x) (h.nonneg x) (h.one x) (mu := fun theta : θ → ℝ => R.mu L theta x) (contDiff_mu x) hf

/-- **C136, a minimum.** Whatever weights are, the objective has a minimum over compact and nonempty sets of parameters. -/
theorem C136_minimum (hR : R.Regular L law) {v : ℕ → C} {T n : ℕ} {E : Estimation n 1 0 (fun _ => z) q b Empty θ d ι S} {o : (θ → ℝ) → Evaluated n θ d}
    (hc : IsCompact Θ) (hne : Θ.Nonempty) (hE : R.Evaluates L Θ v T E o) (W : Estimation.Weights (fun _ : Fin 1 ⊕ Fin 0 => z) q d) :
    ∃ k ∈ Θ, ∀ theta ∈ Θ, E.objective W (o k) ≤ E.objective W (o theta) := by
  obtain ⟨P, hP, hl, -, -, -, hev⟩ := hE
  set f : (θ → ℝ) → Fin n → ℝ := fun theta i => R.meanUtilities L theta (v (P.locate i).1) (P.locate i).2 with hf
  have hreg : ∀ phi, E.data.regressors phi = E.data.regressors fun _ _ => 0 := by
    intro phi
    funext e i c
    rcases e with e | e
    · obtain rfl := Subsingleton.elim e 0
      simp only [MomentData.regressors, MomentData.equations, hl]
    · exact e.elim0
  have heq : ∀ phi delta costs, (E.data.equations phi delta costs) = E.data.equations (fun _ _ => 0) delta fun _ => 0 := by
    intro phi delta costs
    funext e i
    rcases e with e | e
    · obtain rfl := Subsingleton.elim e 0
      simp only [MomentData.equations, hl]
    · exact e.elim0
  have hobj : ∀ theta ∈ Θ, E.objective W (o theta) = E.data.objective E.scale (E.covariances W fun _ _ => 0) W (fun _ _ => 0) (f theta) (fun _ => 0) E.mean
      fun c => isEmptyElim c := by
    intro theta ht
    obtain ⟨delta, inverse, hd, hi, ho, -⟩ := hev theta ht
    have h1 : (o theta).delta = f theta := by
      funext i
      rw [ho, panel_iv, panel_delta hR hP hd]
    unfold Estimation.objective MomentData.objective
    have h2 : E.covariances W (o theta).phi = E.covariances W fun _ _ => 0 := by
      unfold Estimation.covariances
      rw [hreg]
    simp only [h2, h1]
    congr 1
    funext a
    rcases a with (a | a) | a
    · have h3 : E.data.residuals (E.covariances W fun _ _ => 0) (ivWeights (ivWeights W)) (o theta).phi (f theta) (o theta).costs =
          E.data.residuals (E.covariances W fun _ _ => 0) (ivWeights (ivWeights W)) (fun _ _ => 0) (f theta) fun _ => 0 := by
        unfold MomentData.residuals
        rw [hreg, heq]
      simp only [MomentData.meanMoments, concat, Sum.elim_inl, h3]
    · exact isEmptyElim a
    · exact isEmptyElim a
  have hco : ContinuousOn (fun theta => E.objective W (o theta)) Θ := by
    refine ContinuousOn.congr (fun theta _ => ContinuousAt.continuousWithinAt ?_) hobj
    refine continuousAt_objective E.data theta (fun _ _ => 0) (E.covariances W fun _ _ => 0) f (fun _ _ => 0) (fun i => ?_) (fun _ => continuousAt_const) W E.mean
      (fun _ c => isEmptyElim c) (fun c => isEmptyElim c) E.scale
    have h1 := (contDiff_outcome (L := L) hR (v (P.locate i).1) (.inl 0) (P.locate i).2).continuous.continuousAt (x := theta)
    exact h1.congr (Eventually.of_forall fun theta => outcome_lt (P.locate i).2.isLt)
  exact hc.exists_isMinOn hne hco

/-- **C136, nonlinear parameters.** With probability one, estimates of elements of `sigma` and `pi` converge to the truth as the number of markets grows. -/
theorem C136_nonlinear (h : Spec.RandomSamples μ law R L Θ theta0 beta0 w E o method wType W0 s r) :
    ∀ᵐ ω ∂μ, Tendsto (fun T => (r (T, ω)).theta) atTop (𝓝 theta0) := C133_nonlinear (random_samples h)

/-- **C136, linear parameters.** With probability one, so do estimates of `beta`. -/
theorem C136_linear (h : Spec.RandomSamples μ law R L Θ theta0 beta0 w E o method wType W0 s r) :
    ∀ᵐ ω ∂μ, ∀ l, Tendsto (fun T => (E (T, ω)).linearParameters (r (T, ω)).start.W ((E (T, ω)).outcome (r (T, ω))) l) atTop (𝓝 (beta0 l)) :=
  C133_linear (random_samples h)

/-- **C136, standard errors.** With probability one, squares of standard errors times the number of products converge to asymptotic variances. -/
theorem C136_standard_errors (h : Spec.RandomErrors μ law R L Θ theta0 beta0 w E o method wType seType W0 s r)
    (hvalid : Spec.Valid ((R.models L).at theta0 beta0) law method (Spec.lastWeights ((R.models L).at theta0 beta0) law method false wType W0) seType)
    (p : θ ⊕ b ⊕ Empty)
    (hpos : 0 < Spec.variance ((R.models L).jacobian law (R.slope L) theta0 beta0)
      (Spec.lastWeights ((R.models L).at theta0 beta0) law method false wType W0) (((R.models L).at theta0 beta0).covariances law .clustered) p p) :
    ∀ᵐ ω ∂μ, Tendsto (fun T => (n (T, ω) : ℝ) * (E (T, ω)).standardErrors (r (T, ω)) p ^ 2) atTop
      (𝓝 (Spec.variance ((R.models L).jacobian law (R.slope L) theta0 beta0)
        (Spec.lastWeights ((R.models L).at theta0 beta0) law method false wType W0) (((R.models L).at theta0 beta0).covariances law .clustered) p p)) :=
  C134_standard_errors (random_errors h) hvalid p hpos

/-- **C136, normality.** Errors of estimates divided by standard errors have a standard normal distribution in the limit. -/
theorem C136_normal (h : Spec.RandomErrors μ law R L Θ theta0 beta0 w E o method wType seType W0 s r)
    (hvalid : Spec.Valid ((R.models L).at theta0 beta0) law method (Spec.lastWeights ((R.models L).at theta0 beta0) law method false wType W0) seType)
    (p : θ ⊕ b ⊕ Empty)
    (hpos : 0 < Spec.variance ((R.models L).jacobian law (R.slope L) theta0 beta0)
      (Spec.lastWeights ((R.models L).at theta0 beta0) law method false wType W0) (((R.models L).at theta0 beta0).covariances law .clustered) p p) (c : ℝ) :
    Tendsto (fun T => μ {ω | (Spec.estimates (E (T, ω)) (r (T, ω)) p - Sum.elim theta0 beta0 p) / (E (T, ω)).standardErrors (r (T, ω)) p ≤ c}) atTop
      (𝓝 (gaussianReal 0 1 (Set.Iic c))) :=
  C134_normal (random_errors h) hvalid p hpos c

/-- **C136, confidence intervals.** The probability that the truth is within `c` standard errors of estimates converges to the probability that a standard
normal variable is between `-c` and `c`. -/
theorem C136_coverage (h : Spec.RandomErrors μ law R L Θ theta0 beta0 w E o method wType seType W0 s r)
    (hvalid : Spec.Valid ((R.models L).at theta0 beta0) law method (Spec.lastWeights ((R.models L).at theta0 beta0) law method false wType W0) seType)
    (p : θ ⊕ b ⊕ Empty)
    (hpos : 0 < Spec.variance ((R.models L).jacobian law (R.slope L) theta0 beta0)
      (Spec.lastWeights ((R.models L).at theta0 beta0) law method false wType W0) (((R.models L).at theta0 beta0).covariances law .clustered) p p) (c : ℝ)
    (hc : 0 ≤ c) :
    Tendsto (fun T => μ {ω | Sum.elim theta0 beta0 p ∈ Set.Icc
      (Spec.estimates (E (T, ω)) (r (T, ω)) p - c * (E (T, ω)).standardErrors (r (T, ω)) p)
      (Spec.estimates (E (T, ω)) (r (T, ω)) p + c * (E (T, ω)).standardErrors (r (T, ω)) p)}) atTop (𝓝 (gaussianReal 0 1 (Set.Icc (-c) c))) :=
  C134_coverage (random_errors h) hvalid p hpos c hc

/-- **C136, Hansen's test.** With optimal weights, the probability that the statistic exceeds any critical value converges to the probability that a
chi-squared variable does, of which the degrees of freedom are the number of instruments minus the number of parameters. -/
theorem C136_hansen (h : Spec.RandomErrors μ law R L Θ theta0 beta0 w E o method wType seType W0 s r)
    (hopt : Spec.Optimal ((R.models L).at theta0 beta0) law (Spec.lastWeights ((R.models L).at theta0 beta0) law method false wType W0)) (c : ℝ) (hc : 0 < c) :
    Tendsto (fun T => μ {ω | c < ((E (T, ω)).results (r (T, ω))).hansen}) atTop
      (𝓝 (Spec.chiSquared (Fintype.card z - (Fintype.card θ + Fintype.card b)) (Set.Ioi c))) := by
  have h1 := C135_hansen (random_errors h) hopt c hc
  have h2 : Fintype.card (MomentIndex fun _ : Fin 1 ⊕ Fin 0 => z) = Fintype.card z := by
    change Fintype.card ((_ : Fin 1 ⊕ Fin 0) × z) = _
    rw [Fintype.card_sigma]
    simp
  simpa [h2, Fintype.card_sum] using h1

/-- **C136, Wald's test.** With valid standard errors, the probability that the statistic exceeds any critical value converges to the probability that a
chi-squared variable does of which the degrees of freedom are the number of restrictions, if these are true. -/
theorem C136_wald (h : Spec.RandomErrors μ law R L Θ theta0 beta0 w E o method wType seType W0 s r)
    (hvalid : Spec.Valid ((R.models L).at theta0 beta0) law method (Spec.lastWeights ((R.models L).at theta0 beta0) law method false wType W0) seType)
    {k : Type} [Fintype k] [DecidableEq k] {f : (θ ⊕ b ⊕ Empty → ℝ) → k → ℝ} {F : (θ ⊕ b ⊕ Empty → ℝ) → Matrix k (θ ⊕ b ⊕ Empty) ℝ}
    (h0 : f (Sum.elim theta0 beta0) = 0)
    (hf : HasFDerivAt f (LinearMap.toContinuousLinearMap (Matrix.toLin' (F (Sum.elim theta0 beta0)))) (Sum.elim theta0 beta0))
    (hF : ContinuousAt F (Sum.elim theta0 beta0))
    (hd : (F (Sum.elim theta0 beta0) * Spec.variance ((R.models L).jacobian law (R.slope L) theta0 beta0)
      (Spec.lastWeights ((R.models L).at theta0 beta0) law method false wType W0) (((R.models L).at theta0 beta0).covariances law .clustered) *
      (F (Sum.elim theta0 beta0))ᵀ).det ≠ 0)
    (nan : Matrix k k ℝ) (pseudoInverses : Bool) (inv pinv diag : Matrix k k ℝ → Attempt (Matrix k k ℝ)) (hi : InvertsRegular pseudoInverses inv pinv) (c : ℝ)
    (hc : 0 < c) :
    let wald := fun i => ((E i).results (r i)).wald nan pseudoInverses inv pinv diag (f (Spec.estimates (E i) (r i))) (F (Spec.estimates (E i) (r i)))
    Tendsto (fun T => μ {ω | c < (wald (T, ω)).1}) atTop (𝓝 (Spec.chiSquared (Fintype.card k) (Set.Ioi c))) ∧
      Tendsto (fun T => μ {ω | (wald (T, ω)).2 = true}) atTop (𝓝 0) :=
  C135_wald (random_errors h) hvalid h0 hf hF hd nan pseudoInverses inv pinv diag hi c hc

end

/-! ## The hypotheses can be met -/

section Witness

open Classical

/-- The market share of a product when half of agents like it more than others by `2 * v`. -/
noncomputable def binaryShare (delta v : ℝ) : ℝ :=
  (Real.exp (delta + v) / (1 + Real.exp (delta + v)) + Real.exp (delta - v) / (1 + Real.exp (delta - v))) / 2

lemma binaryShare_pos (delta v : ℝ) : 0 < binaryShare delta v := by
  unfold binaryShare
  positivity

lemma binaryShare_lt (delta v : ℝ) : binaryShare delta v < 1 := by
  unfold binaryShare
  have h : ∀ x : ℝ, Real.exp x / (1 + Real.exp x) < 1 := fun x => by
    have := Real.exp_pos x
    rw [div_lt_one (by linarith)]
    linarith
  have h1 := h (delta + v)
  have h2 := h (delta - v)
  linarith

lemma binaryShare_identity (delta v : ℝ) : Real.cosh v * (2 * binaryShare delta v - 1) =
    Real.exp delta * (1 - binaryShare delta v) - binaryShare delta v * Real.exp (-delta) := by
  unfold binaryShare
  rw [Real.cosh_eq, sub_eq_add_neg delta v, Real.exp_add, Real.exp_add, Real.exp_neg, Real.exp_neg]
  have h1 := Real.exp_pos delta
  have h2 := Real.exp_pos v
  field_simp
  ring

lemma half_lt_binaryShare {delta : ℝ} (hd : 0 < delta) (v : ℝ) : 0 < 2 * binaryShare delta v - 1 := by
  have h1 := binaryShare_identity delta v
  have h2 := Real.cosh_pos v
  have h3 := binaryShare_lt delta v
  have h4 : 1 < Real.exp delta := Real.one_lt_exp_iff.mpr hd
  have h5 : Real.exp (-delta) < 1 := by rw [Real.exp_lt_one_iff]; linarith
  have h6 := Real.exp_pos (-delta)
  by_contra hc
  push Not at hc
  have h7 : Real.cosh v * (2 * binaryShare delta v - 1) ≤ 0 := mul_nonpos_of_nonneg_of_nonpos h2.le hc
  have h8 : binaryShare delta v * Real.exp (-delta) < Real.exp delta * (1 - binaryShare delta v) := by
    have hp := binaryShare_pos delta v
    nlinarith
  linarith

/-- Mean utilities increase if tastes differ more. -/
lemma binaryShare_increasing {delta delta0 v v0 : ℝ} (hs : binaryShare delta v = binaryShare delta0 v0) (hd : 0 < delta0) (h : |v0| < |v|) : delta0 < delta := by
  have h1 := binaryShare_identity delta v
  have h2 := binaryShare_identity delta0 v0
  rw [hs] at h1
  have h3 := half_lt_binaryShare hd v0
  have h4 := binaryShare_pos delta0 v0
  have h5 := binaryShare_lt delta0 v0
  have h6 : Real.cosh v0 < Real.cosh v := Real.cosh_lt_cosh.mpr h
  by_contra hc
  push Not at hc
  have h7 : Real.exp delta ≤ Real.exp delta0 := Real.exp_le_exp.mpr hc
  have h8 : Real.exp (-delta0) ≤ Real.exp (-delta) := Real.exp_le_exp.mpr (by linarith)
  nlinarith

/-- What differs between the two types of markets: only in the first one do agents have different tastes. -/
def differ (x : Bool × Bool) : ℝ := if x.1 then 1 else 0

/-- Markets with one product and two agents. Mean utilities are two plus a random sign, which is the error, and there are different tastes in about half of the
markets. Instruments are a constant and which type the market has. -/
noncomputable def tasteMarkets : Spec.Markets (Bool × Bool) Bool Unit Unit Empty Unit Bool where
  more _ := 0
  share x _ := binaryShare (2 + sign x.2) (differ x)
  X1 _ _ _ := 1
  X2 x _ _ := differ x
  instrument x _ a := if a then sign x.1 else 1
  weights _ _ := 1 / 2
  nodes _ i _ := sign i
  demographics _ _ c _ := c.elim
  rcType _ := .linear

/-- The parameter is the only element of `sigma`. -/
def tasteCoefficients : Spec.Coefficients Unit Unit Empty Unit where
  param _ := .inl ((), ())
  sigma _ _ := 0
  pi _ c := c.elim

lemma taste_explains (theta : Unit → ℝ) (x : Bool × Bool) (delta : tasteMarkets.Product x → ℝ) :
    tasteMarkets.Explains tasteCoefficients theta x delta ↔ binaryShare (delta 0) (theta () * differ x) = binaryShare (2 + sign x.2) (differ x) := by
  have hmu : ∀ j i, tasteMarkets.mu tasteCoefficients theta x j i = differ x * (theta () * sign i) := by
    intro j i
    have hs : tasteCoefficients.sigmaAt theta () () = theta () := by
      simp [tasteCoefficients, Spec.Coefficients.sigmaAt]
    rw [mu_eq]
    change ∑ _k : Unit, differ x * (∑ _c : Unit, tasteCoefficients.sigmaAt theta () () * sign i + ∑ c : Empty, _) = _
    simp [hs]
  have h1 : ∀ j, computeShares (plainMarket (tasteMarkets.weights x) : Market (tasteMarkets.Product x) Bool Unit) {} delta
      (tasteMarkets.mu tasteCoefficients theta x) j = binaryShare (delta 0) (theta () * differ x) := by
    intro j
    have hj : j = 0 := Fin.fin_one_eq_zero j
    subst hj
    rw [plainMarket_shares]
    have h2 : ∀ f : tasteMarkets.Product x → ℝ, ∑ k, f k = f 0 := fun f => Fin.sum_univ_one f
    simp only [h2, hmu, Fintype.sum_bool]
    simp only [tasteMarkets, sign, binaryShare, if_true, Bool.false_eq_true, if_false]
    have e1 : differ x * (theta () * 1) = theta () * differ x := by ring
    have e2 : differ x * (theta () * -1) = -(theta () * differ x) := by ring
    rw [e1, e2, ← sub_eq_add_neg]
    ring
  unfold Spec.Markets.Explains
  rw [funext_iff]
  simp only [h1]
  exact ⟨fun h => h 0, fun h j => h⟩

lemma taste_regular : tasteMarkets.Regular tasteCoefficients signs := by
  have hout : ∀ x, 0 < tasteMarkets.outside x := by
    intro x
    have h2 : ∀ f : tasteMarkets.Product x → ℝ, ∑ k, f k = f 0 := fun f => Fin.sum_univ_one f
    unfold Spec.Markets.outside
    rw [h2]
    exact sub_pos.mpr (binaryShare_lt _ _)
  refine ⟨Function.injective_of_subsingleton _, fun x j _ => binaryShare_pos _ _, hout, fun _ _ => by norm_num [tasteMarkets], fun _ => by norm_num [tasteMarkets],
    measurable_of_finite _, fun _ => measurable_of_finite _, fun _ _ => measurable_of_finite _, fun _ _ => measurable_of_finite _,
    fun _ _ => measurable_of_finite _, fun _ => measurable_of_finite _, fun _ _ => measurable_of_finite _, fun _ _ _ => measurable_of_finite _,
    ⟨1, fun x j i => ⟨fun k => ?_, fun c => ?_, fun c => c.elim⟩⟩, signs_memLp _, fun _ => signs_memLp _, fun _ => signs_memLp _, fun _ _ => signs_memLp _,
    signs_memLp _, fun _ => signs_memLp _, fun _ => (signs_memLp _).integrable (by norm_num)⟩
  · change |differ x| ≤ 1
    unfold differ
    split_ifs <;> norm_num
  · change |sign i| ≤ 1
    unfold sign
    split_ifs <;> norm_num

/-- Mean utilities in a market. -/
noncomputable def tasteDelta (theta : Unit → ℝ) (x : Bool × Bool) : ℝ := tasteMarkets.meanUtilities tasteCoefficients theta x 0

lemma tasteDelta_explains (theta : Unit → ℝ) (x : Bool × Bool) :
    binaryShare (tasteDelta theta x) (theta () * differ x) = binaryShare (2 + sign x.2) (differ x) :=
  (taste_explains theta x _).mp (meanUtilities_explain taste_regular theta x)

lemma tasteDelta_eq {theta : Unit → ℝ} {x : Bool × Bool} (h : theta () * differ x = differ x) : tasteDelta theta x = 2 + sign x.2 := by
  have h1 : tasteMarkets.Explains tasteCoefficients theta x fun _ => 2 + sign x.2 := (taste_explains theta x _).mpr (by rw [h])
  exact (congrFun (meanUtilities_unique taste_regular h1) 0).symm

lemma tasteDelta_same (theta : Unit → ℝ) (y : Bool) : tasteDelta theta (false, y) = 2 + sign y := tasteDelta_eq (by simp [differ])

lemma taste_sum (x : Bool × Bool) (f : tasteMarkets.Product x → ℝ) : ∑ j, f j = f 0 := Fin.sum_univ_one f

lemma taste_moment (theta : Unit → ℝ) (beta : ℝ) (a : Bool) :
    ∫ x, ∑ j : tasteMarkets.Product x, (tasteMarkets.meanUtilities tasteCoefficients theta x j - ∑ l, tasteMarkets.X1 x j l * beta) *
      tasteMarkets.instrument x j a ∂signs =
      ((tasteDelta theta (true, true) - beta) + (tasteDelta theta (true, false) - beta) +
        (if a then -1 else 1) * ((2 + 1 - beta) + (2 - 1 - beta))) / 4 := by
  simp only [taste_sum]
  rw [signs_integral]
  change ((tasteDelta theta _ - ∑ _l : Unit, 1 * beta) * _ + (tasteDelta theta _ - ∑ _l : Unit, 1 * beta) * _ + (tasteDelta theta _ - ∑ _l : Unit, 1 * beta) * _ +
    (tasteDelta theta _ - ∑ _l : Unit, 1 * beta) * _) / 4 = _
  rw [tasteDelta_same, tasteDelta_same]
  cases a <;> simp [tasteMarkets, sign] <;> ring

/-- The set of parameters. -/
def tasteSet : Set (Unit → ℝ) := Set.Icc (fun _ => 0) fun _ => 2

lemma sign_pos (y : Bool) : 0 < 2 + sign y := by
  unfold sign
  split_ifs <;> norm_num

lemma taste_identified (theta : Unit → ℝ) (ht : theta ∈ tasteSet) (beta : Unit → ℝ)
    (h : ∀ a, ∫ x, ∑ j : tasteMarkets.Product x, (tasteMarkets.meanUtilities tasteCoefficients theta x j - ∑ l, tasteMarkets.X1 x j l * beta l) *
      tasteMarkets.instrument x j a ∂signs = 0) : theta = (fun _ => 1) ∧ ∀ l, beta l = 2 := by
  have hb : beta = fun _ => beta () := rfl
  have h1 := h true
  have h2 := h false
  rw [hb] at h1 h2
  rw [taste_moment] at h1 h2
  norm_num at h1 h2
  have h3 : beta () = 2 := by linarith
  have h4 : tasteDelta theta (true, true) + tasteDelta theta (true, false) = 4 := by linarith
  refine ⟨funext fun u => ?_, fun l => h3⟩
  have h0 : 0 ≤ theta () := ht.1 ()
  have he : ∀ y, binaryShare (tasteDelta theta (true, y)) (theta ()) = binaryShare (2 + sign y) 1 := fun y => by
    have := tasteDelta_explains theta (true, y)
    simpa [differ] using this
  rcases lt_trichotomy (theta ()) 1 with hl | hl | hl
  · exfalso
    have hlt : ∀ y, tasteDelta theta (true, y) < 2 + sign y := by
      intro y
      have hpos : 0 < tasteDelta theta (true, y) := by
        by_contra hc
        push Not at hc
        have h5 := binaryShare_identity (tasteDelta theta (true, y)) (theta ())
        have h6 := half_lt_binaryShare (sign_pos y) 1
        rw [he y] at h5
        have h7 := Real.cosh_pos (theta ())
        have h8 : Real.exp (tasteDelta theta (true, y)) ≤ 1 := by rw [Real.exp_le_one_iff]; exact hc
        have h9 : 1 ≤ Real.exp (-tasteDelta theta (true, y)) := Real.one_le_exp_iff.mpr (by linarith)
        have h10 := mul_pos h7 h6
        have h11 := binaryShare_pos (2 + sign y) 1
        have h12 := binaryShare_lt (2 + sign y) 1
        nlinarith
      exact binaryShare_increasing (he y).symm hpos (by rw [abs_one, abs_of_nonneg h0]; exact hl)
    have h5 := hlt true
    have h6 := hlt false
    simp only [sign, if_true, Bool.false_eq_true, if_false] at h5 h6
    linarith
  · exact hl
  · exfalso
    have hlt : ∀ y, 2 + sign y < tasteDelta theta (true, y) := fun y =>
      binaryShare_increasing (he y) (sign_pos y) (by rw [abs_one, abs_of_nonneg h0]; exact hl)
    have h5 := hlt true
    have h6 := hlt false
    simp only [sign, if_true, Bool.false_eq_true, if_false] at h5 h6
    linarith

lemma taste_outcome (theta : Unit → ℝ) (x : Bool × Bool) (e : Fin 1 ⊕ Fin 0) :
    (tasteMarkets.models tasteCoefficients).outcome theta x e 0 = tasteDelta theta x := outcome_lt (Nat.zero_lt_succ _)

lemma taste_slope_same (theta : Unit → ℝ) (y : Bool) (e : Fin 1 ⊕ Fin 0) : tasteMarkets.slope tasteCoefficients theta (false, y) e 0 () = 0 := by
  unfold Spec.Markets.slope
  simp only [taste_outcome, tasteDelta_same]
  exact deriv_const _ _

lemma taste_slope_pos (y : Bool) (e : Fin 1 ⊕ Fin 0) : 0 < tasteMarkets.slope tasteCoefficients (fun _ => 1) (true, y) e 0 () := by
  unfold Spec.Markets.slope
  have hu : ∀ s : ℝ, Function.update (fun _ : Unit => (1 : ℝ)) () s = fun _ => s := fun s => by
    funext u
    simp
  simp only [taste_outcome, hu]
  have hd : Differentiable ℝ fun theta : Unit → ℝ => tasteDelta theta (true, y) := by
    have h1 := (contDiff_outcome (L := tasteCoefficients) taste_regular (true, y) e 0).differentiable (by norm_num)
    simpa only [taste_outcome] using h1
  have hd1 : DifferentiableAt ℝ (fun s : ℝ => tasteDelta (fun _ => s) (true, y)) 1 :=
    DifferentiableAt.comp (g := fun theta : Unit → ℝ => tasteDelta theta (true, y)) (1 : ℝ) (hd _) (differentiableAt_pi.mpr fun _ => differentiableAt_id)
  set d := deriv (fun s : ℝ => tasteDelta (fun _ => s) (true, y)) 1 with hdd
  set S := binaryShare (2 + sign y) 1 with hS
  have hid : ∀ s : ℝ, Real.cosh s * (2 * S - 1) = Real.exp (tasteDelta (fun _ => s) (true, y)) * (1 - S) - S * Real.exp (-tasteDelta (fun _ => s) (true, y)) := by
    intro s
    have h1 := tasteDelta_explains (fun _ => s) (true, y)
    have h2 := binaryShare_identity (tasteDelta (fun _ => s) (true, y)) s
    simp only [differ, if_true, mul_one] at h1
    rwa [h1] at h2
  have h1 : HasDerivAt (fun s : ℝ => Real.cosh s * (2 * S - 1)) (Real.sinh 1 * (2 * S - 1)) 1 := (Real.hasDerivAt_cosh 1).mul_const _
  have h2 : HasDerivAt (fun s : ℝ => Real.exp (tasteDelta (fun _ => s) (true, y)) * (1 - S) - S * Real.exp (-tasteDelta (fun _ => s) (true, y)))
      (Real.exp (tasteDelta (fun _ => 1) (true, y)) * d * (1 - S) - S * (Real.exp (-tasteDelta (fun _ => 1) (true, y)) * -d)) 1 :=
    (hd1.hasDerivAt.exp.mul_const _).sub (hd1.hasDerivAt.neg.exp.const_mul S)
  have h3 := h1.unique (h2.congr_of_eventuallyEq (Eventually.of_forall hid))
  have h4 : 0 < Real.sinh 1 := Real.sinh_pos_iff.mpr one_pos
  have h5 := half_lt_binaryShare (sign_pos y) 1
  have h6 := binaryShare_pos (2 + sign y) 1
  have h7 := binaryShare_lt (2 + sign y) 1
  have h8 := Real.exp_pos (tasteDelta (fun _ => 1) (true, y))
  have h9 := Real.exp_pos (-tasteDelta (fun _ => 1) (true, y))
  have h10 := mul_pos h4 h5
  by_contra hc
  push Not at hc
  have h11 : (Real.exp (tasteDelta (fun _ => 1) (true, y)) * (1 - S) + S * Real.exp (-tasteDelta (fun _ => 1) (true, y))) * d ≤ 0 :=
    mul_nonpos_of_nonneg_of_nonpos (by have := mul_pos h8 (sub_pos.mpr h7); have := mul_pos h6 h9; linarith) hc
  nlinarith

lemma taste_average (theta : Unit → ℝ) (beta : Unit ⊕ Empty → ℝ) (f : Bool × Bool → ℕ → ℝ) :
    ((tasteMarkets.models tasteCoefficients).at theta beta).average signs f =
      (f (true, true) 0 + f (true, false) 0 + f (false, true) 0 + f (false, false) 0) / 4 := by
  simp [Spec.Clusters.average, Spec.Clusters.total, Spec.Markets.models, tasteMarkets, Spec.Models.at, signs_integral]

lemma taste_error (x : Bool × Bool) (e : Fin 1 ⊕ Fin 0) :
    ((tasteMarkets.models tasteCoefficients).at (fun _ => 1) fun _ => 2).error x e 0 = sign x.2 := by
  have h1 : ((tasteMarkets.models tasteCoefficients).at (fun _ => 1) fun _ => 2).error x e 0 = tasteDelta (fun _ => 1) x - ∑ l : Unit ⊕ Empty,
      (tasteMarkets.models tasteCoefficients).regressor x e 0 l * 2 := by
    rw [← taste_outcome _ x e]
    rfl
  rw [h1, tasteDelta_eq (by simp)]
  simp [Spec.Markets.models, tasteMarkets]

lemma taste_covariances (type : CovarianceType) :
    ((tasteMarkets.models tasteCoefficients).at (fun _ => 1) fun _ => 2).covariances signs type = 1 := by
  have hj : ∀ e e' : Fin 1 ⊕ Fin 0, e = e' := by
    rintro (e | e) (e' | e')
    · rw [Subsingleton.elim e e']
    · exact e'.elim0
    · exact e.elim0
    · exact e.elim0
  have hz : ∀ x e a, ((tasteMarkets.models tasteCoefficients).at (fun _ => 1) fun _ => 2).instrument x e 0 a = if a then sign x.1 else 1 := fun _ _ _ => rfl
  have ht : ∀ (x : Bool × Bool) (f : ℕ → ℝ), ((tasteMarkets.models tasteCoefficients).at (fun _ => 1) fun _ => 2).total x f = f 0 := fun x f => by
    simp [Spec.Clusters.total, Spec.Markets.models, tasteMarkets, Spec.Models.at]
  have hsz : ∫ x, (((tasteMarkets.models tasteCoefficients).at (fun _ => 1) fun _ => 2).size x : ℝ) ∂signs = 1 := by
    simp [Spec.Markets.models, tasteMarkets, Spec.Models.at]
  ext ⟨e, a⟩ ⟨e', c⟩
  obtain rfl := hj e e'
  cases type with
  | unadjusted =>
    simp only [Spec.Clusters.covariances, Matrix.of_apply, taste_average, taste_error, hz]
    cases a <;> cases c <;> simp [sign] <;> norm_num
  | robust =>
    simp only [Spec.Clusters.covariances, Matrix.of_apply, taste_average, taste_error, hz]
    cases a <;> cases c <;> simp [sign] <;> norm_num
  | clustered =>
    simp only [Spec.Clusters.covariances, Matrix.of_apply, ht, taste_error, hz, signs_integral, hsz]
    cases a <;> cases c <;> simp [sign] <;> norm_num

lemma taste_rank : Function.Injective ((tasteMarkets.models tasteCoefficients).jacobian signs (tasteMarkets.slope tasteCoefficients) (fun _ => 1)
    fun _ => 2).mulVec := by
  set k : ℝ := (tasteMarkets.slope tasteCoefficients (fun _ => 1) (true, true) (.inl 0) 0 () +
    tasteMarkets.slope tasteCoefficients (fun _ => 1) (true, false) (.inl 0) 0 ()) / 4 with hk
  have hkp : 0 < k := div_pos (add_pos (taste_slope_pos _ _) (taste_slope_pos _ _)) (by norm_num)
  have hz : ∀ x a, (tasteMarkets.models tasteCoefficients).instrument x (.inl 0) 0 a = if a then sign x.1 else 1 := fun _ _ => rfl
  have hx : ∀ x l, (tasteMarkets.models tasteCoefficients).regressor x (.inl 0) 0 (.inl l) = 1 := fun _ _ => rfl
  have hJ : ∀ a, (tasteMarkets.models tasteCoefficients).jacobian signs (tasteMarkets.slope tasteCoefficients) (fun _ => 1) (fun _ => 2) ⟨.inl 0, a⟩ =
      Sum.elim (fun _ => k) fun _ => if a then 0 else -1 := by
    intro a
    ext p
    rcases p with p | p
    · obtain rfl : p = () := rfl
      simp only [Spec.Models.jacobian, Matrix.of_apply, Sum.elim_inl, taste_average, taste_slope_same, hk, hz]
      cases a <;> simp [sign]
    · rcases p with p | p
      · simp only [Spec.Models.jacobian, Matrix.of_apply, Sum.elim_inr, taste_average, hz, hx]
        cases a <;> simp [sign]
        norm_num
      · exact p.elim
  intro u v huv
  have h1 := congrFun huv ⟨.inl 0, true⟩
  have h2 := congrFun huv ⟨.inl 0, false⟩
  simp only [Matrix.mulVec, hJ, dotProduct, Fintype.sum_sum_type, Finset.univ_unique, Finset.sum_singleton, Sum.elim_inl, Sum.elim_inr,
    Finset.univ_eq_empty, Finset.sum_empty] at h1 h2
  simp at h1 h2
  have h3 : u (.inl ()) = v (.inl ()) := h1.resolve_right hkp.ne'
  ext p
  rcases p with p | p | p
  · exact h3
  · have h4 : k * u (.inl ()) = k * v (.inl ()) := by rw [h3]
    change u (.inr (.inl ())) = v (.inr (.inl ()))
    linarith
  · exact p.elim

/-- The problem with `T` markets. -/
noncomputable def tastePanel (T : ℕ) (x : ℕ → Bool × Bool) :
    PanelProblem T (Fin T) (fun t => tasteMarkets.Product (x t)) (fun _ => Bool) Unit Empty Unit Empty Unit Empty Unit where
  locate := ⟨fun i => ⟨i, 0⟩, fun p => p.1, fun _ => rfl, fun ⟨t, j⟩ => by
    have : j = 0 := Fin.fin_one_eq_zero j
    rw [this]⟩
  market t := plainMarket (tasteMarkets.weights (x t))
  tastes t := tasteMarkets.tastes (x t)
  prices _ := ⟨0, 0, 0, fun _ => false, 0, 0, 0, 0, fun _ => false, 0, 0, 0⟩
  X1 _ _ := 0
  X3 _ _ := 0
  ownership _ _ _ := 0
  shares t j := tasteMarkets.share (x t) j
  sigma := tasteCoefficients.sigma
  pi := tasteCoefficients.pi
  beta := 0
  gamma := 0
  param _ := .sigma () ()
  logCosts := false
  costsBounds := (⊥, ⊤)

lemma tastePanel_panel (T : ℕ) (x : ℕ → Bool × Bool) : tasteMarkets.Panel tasteCoefficients x T T (tastePanel T x) :=
  ⟨fun _ => rfl, fun _ => rfl, fun _ _ => rfl, fun _ => rfl, rfl, rfl⟩

/-- What is computed for it. -/
noncomputable def tasteEvaluated (T : ℕ) (x : ℕ → Bool × Bool) (theta : Unit → ℝ) : Evaluated T Unit Empty where
  phi _ _ := 0
  delta := (tastePanel T x).ivDelta theta fun t => tasteMarkets.meanUtilities tasteCoefficients theta (x t)
  costs _ := 0
  deltaJacobian := (tastePanel T x).xiJacobian theta (fun t => tasteMarkets.meanUtilities tasteCoefficients theta (x t))
    (panel_inverts taste_regular (tastePanel_panel T x) theta fun t => tasteMarkets.meanUtilities tasteCoefficients theta (x t)).choose
  costsJacobian := 0
  micro c := c.elim
  microJacobian := 0
  microCovariances := 0

/-- The problem in which optimization ends at given parameters. -/
noncomputable def tasteProblem (T : ℕ) (x : ℕ → Bool × Bool) (type : CovarianceType) (minimum : ℕ → Unit → ℝ) :
    Estimation T 1 0 (fun _ => Bool) Empty Unit Empty Unit Empty ℕ Unit :=
  { signProblem Unit 0 0 T x type minimum with markets := fun _ theta => (tasteEvaluated T x theta, ()) }

lemma taste_evaluates (T : ℕ) (x : ℕ → Bool × Bool) (type : CovarianceType) (minimum : ℕ → Unit → ℝ) :
    tasteMarkets.Evaluates tasteCoefficients tasteSet x T (tasteProblem T x type minimum) (tasteEvaluated T x) := by
  refine ⟨tastePanel T x, tastePanel_panel T x, rfl, fun _ _ => rfl, fun _ _ => rfl, fun i i' => ⟨fun h => Fin.ext h, fun h => congrArg Fin.val h⟩,
    fun theta _ => ⟨fun t => tasteMarkets.meanUtilities tasteCoefficients theta (x t), _, ?_, Exists.choose_spec (panel_inverts taste_regular
      (tastePanel_panel T x) theta fun t => tasteMarkets.meanUtilities tasteCoefficients theta (x t)), rfl, rfl⟩⟩
  exact (panel_explained taste_regular (tastePanel_panel T x)).mpr fun t => meanUtilities_explain taste_regular theta (x t)

lemma tasteSet_nonempty : tasteSet.Nonempty := ⟨fun _ => 1, by constructor <;> intro _ <;> norm_num⟩

lemma taste_solve (T : ℕ) (x : ℕ → Bool × Bool) (type : CovarianceType) (W : Estimation.Weights (fun _ : Fin 1 ⊕ Fin 0 => Bool) Empty Empty) :
    ∃ minimum : ℕ → Unit → ℝ, ∀ r ∈ (tasteProblem T x type minimum).solve .twoStep false ⟨W, fun _ => 0, ()⟩, r.theta ∈ tasteSet ∧
      ∀ theta ∈ tasteSet, (tasteProblem T x type minimum).objective r.start.W ((tasteProblem T x type minimum).outcome r) ≤
        (tasteProblem T x type minimum).objective r.start.W (tasteEvaluated T x theta) := by
  have hmin := fun W => C136_minimum taste_regular isCompact_Icc tasteSet_nonempty (taste_evaluates T x type fun _ _ => 0) W
  obtain ⟨k1, hk1, hm1⟩ := hmin W
  obtain ⟨k2, hk2, hm2⟩ := hmin ((tasteProblem T x type fun _ _ => 0).updatedWeights W (tasteEvaluated T x k1) [])
  refine ⟨fun step => if step = 1 then k1 else k2, fun r hr => ?_⟩
  unfold Estimation.solve gmmSolve at hr
  rw [if_neg (by simp), gmmLoop_next _ _ _ _ _ _ (by simp), gmmLoop_last _ _ _ _ _ _ (Or.inl le_rfl)] at hr
  rcases List.mem_cons.mp hr with rfl | hr
  · exact ⟨hk1, hm1⟩
  · rw [List.mem_singleton] at hr
    subst hr
    exact ⟨hk2, hm2⟩

/-- Everything that is assumed is true of these markets, for each type of covariances. The true standard deviation of tastes is one, which is not assumed to be
known to be positive: sets of parameters include zero. Standard errors of each type are valid, weights are optimal, and asymptotic variances are positive. -/
example (type : CovarianceType) :
    (∃ (n : ℕ × (ℕ → Bool × Bool) → ℕ) (E : ∀ i, Estimation (n i) 1 0 (fun _ => Bool) Empty Unit Empty Unit Empty ℕ Unit)
      (o : ∀ i, (Unit → ℝ) → Evaluated (n i) Unit Empty)
      (s : ℕ × (ℕ → Bool × Bool) → GmmState (Estimation.Weights (fun _ : Fin 1 ⊕ Fin 0 => Bool) Empty Empty) (Unit → ℝ) Unit)
      (r : ℕ × (ℕ → Bool × Bool) → StepResults (Estimation.Weights (fun _ : Fin 1 ⊕ Fin 0 => Bool) Empty Empty) (Unit → ℝ) Unit),
      Spec.RandomErrors (Measure.infinitePi fun _ : ℕ => signs) signs tasteMarkets tasteCoefficients tasteSet (fun _ => 1)
        (fun _ => 2) (fun t ω => ω t) E o .twoStep type type 1 s r) ∧
    Spec.Valid ((tasteMarkets.models tasteCoefficients).at (fun _ => 1) fun _ => 2) signs .twoStep
      (Spec.lastWeights ((tasteMarkets.models tasteCoefficients).at (fun _ => 1) fun _ => 2) signs .twoStep false type 1) type ∧
    Spec.Optimal ((tasteMarkets.models tasteCoefficients).at (fun _ => 1) fun _ => 2) signs
      (Spec.lastWeights ((tasteMarkets.models tasteCoefficients).at (fun _ => 1) fun _ => 2) signs .twoStep false type 1) ∧
    ∀ p, 0 < Spec.variance ((tasteMarkets.models tasteCoefficients).jacobian signs (tasteMarkets.slope tasteCoefficients) (fun _ => 1) fun _ => 2)
      (Spec.lastWeights ((tasteMarkets.models tasteCoefficients).at (fun _ => 1) fun _ => 2) signs .twoStep false type 1)
      (((tasteMarkets.models tasteCoefficients).at (fun _ => 1) fun _ => 2).covariances signs .clustered) p p := by
  have hlast : Spec.lastWeights ((tasteMarkets.models tasteCoefficients).at (fun _ => 1) fun _ => 2) signs .twoStep false type 1 = 1 := by
    simp [Spec.lastWeights, taste_covariances]
  rw [hlast]
  refine ⟨?_, ?_, ?_, ?_⟩
  · set s : ℕ × (ℕ → Bool × Bool) → GmmState (Estimation.Weights (fun _ : Fin 1 ⊕ Fin 0 => Bool) Empty Empty) (Unit → ℝ) Unit :=
      fun _ => ⟨(1 : Matrix _ _ ℝ).submatrix onlyMoments onlyMoments, fun _ => 0, ()⟩ with hs
    choose minimum hmin using fun i : ℕ × (ℕ → Bool × Bool) => taste_solve i.1 i.2 type
      ((1 : Matrix (MomentIndex fun _ : Fin 1 ⊕ Fin 0 => Bool) _ ℝ).submatrix onlyMoments onlyMoments)
    set E := fun i : ℕ × (ℕ → Bool × Bool) => tasteProblem i.1 i.2 type (minimum i) with hE
    have hlast : ∀ i, ∃ r, ((E i).solve .twoStep false (s i)).getLast? = some r := fun i => by
      rw [← Option.isSome_iff_exists, List.getLast?_isSome]
      unfold Estimation.solve gmmSolve gmmLoop
      simp
    choose r hr using hlast
    refine ⟨fun i => i.1, E, fun i => tasteEvaluated i.1 i.2, s, r, ⟨⟨⟨fun i => measurable_pi_apply i, ?_, fun i => Measure.infinitePi_map_eval _ i⟩,
      isCompact_Icc, convex_Icc _ _, ?_, taste_regular, fun a => ?_, taste_identified, fun i => ⟨fun _ _ => rfl, ?_, ?_, ?_, ?_, ?_⟩, fun _ _ _ _ => rfl,
      fun T ω => taste_evaluates T ω type _, fun _ => rfl, .inl fun _ => rfl, Matrix.PosDef.one, fun _ => ?_, fun i => hmin i, hr⟩,
      iIndepFun_infinitePi (P := fun _ : ℕ => signs) (X := fun _ x => x) fun _ => measurable_id, fun _ => rfl, fun _ _ => rfl, taste_rank⟩⟩
    · intro t t' htt
      exact (iIndepFun_infinitePi (P := fun _ : ℕ => signs) (X := fun _ x => x) fun _ => measurable_id).indepFun htt
    · unfold tasteSet
      rw [← Set.pi_univ_Icc]
      exact set_pi_mem_nhds Set.finite_univ fun _ _ => Icc_mem_nhds (by norm_num) (by norm_num)
    · have h1 := taste_moment (fun _ => 1) 2 a
      rw [tasteDelta_eq (by simp), tasteDelta_eq (by simp)] at h1
      rw [h1]
      simp only [sign, if_true, Bool.false_eq_true, if_false]
      ring
    · exact ⟨List.Perm.refl _, by simp only [hE, tasteProblem, signProblem, List.pairwise_map]; exact (List.pairwise_lt_finRange _).imp fun h => le_of_lt h⟩
    · exact fun S T h => Matrix.inv_eq_right_inv h
    · exact fun S T h => Matrix.inv_eq_right_inv h
    · exact fun S T h => Matrix.inv_eq_right_inv h
    · exact fun S T h => Matrix.inv_eq_right_inv h
    · rw [taste_covariances]
      exact Matrix.PosDef.one
  · cases type with
    | clustered => trivial
    | robust => simp only [Spec.Valid, taste_covariances]
    | unadjusted =>
      simp only [Spec.Valid, taste_covariances]
      exact ⟨trivial, by simp, 1, one_ne_zero, fun _ => rfl, by simp⟩
  · refine ⟨?_, ?_⟩ <;> simp [taste_covariances]
  · set J := (tasteMarkets.models tasteCoefficients).jacobian signs (tasteMarkets.slope tasteCoefficients) (fun _ => 1) fun _ => 2 with hJ
    rw [taste_covariances]
    have hp : (Jᵀ * J).PosDef := by
      have h1 := (Matrix.PosDef.one (n := MomentIndex fun _ : Fin 1 ⊕ Fin 0 => Bool) (R := ℝ)).conjTranspose_mul_mul_same taste_rank
      rwa [Matrix.mul_one, Matrix.conjTranspose_eq_transpose_of_trivial] at h1
    have hv : (Spec.variance J 1 1).PosDef := by
      unfold Spec.variance Spec.gain
      simp only [Matrix.mul_one]
      rw [Matrix.transpose_mul, Matrix.transpose_transpose, Matrix.transpose_nonsing_inv, Matrix.transpose_mul, Matrix.transpose_transpose, Matrix.mul_assoc,
        ← Matrix.mul_assoc Jᵀ, Matrix.mul_nonsing_inv _ (isUnit_iff_ne_zero.mpr hp.det_pos.ne'), Matrix.mul_one]
      exact hp.inv
    exact fun p => hv.diag_pos

end Witness

end Pyblp
