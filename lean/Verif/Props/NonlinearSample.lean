import Verif.Lemmas.NonlinearSteps
import Verif.Props.LargeSample
import Verif.Props.Tolerance
import Mathlib.Probability.ProbabilityMassFunction.Integrals
import Mathlib.Probability.Distributions.Uniform

/-!
# C133: consistency with nonlinear parameters

In models with nonlinear parameters, estimates converge to the truth if optimization finds the minimum of the objective.
-/

set_option linter.unusedSectionVars false

open MeasureTheory ProbabilityTheory Filter Topology Matrix

namespace Pyblp

open Pyblp.Sampling Pyblp.Asymptotic

/-! ## Specification -/

section

variable {C Ω : Type} {nd ns : ℕ} {m : Fin nd ⊕ Fin ns → Type} {q b g θ d ι D : Type} [∀ e, Fintype (m e)] [Fintype q] [Fintype b] [Fintype g]
  [Fintype θ] [Fintype d] [LinearOrder ι] [∀ e, DecidableEq (m e)] [DecidableEq q] [DecidableEq b] [DecidableEq g] [DecidableEq θ] [DecidableEq d]
  [MeasurableSpace C] [MeasurableSpace Ω]

/-- Samples of clusters and what `solve` does with them. There is one problem for each number `T` of clusters and outcome `ω`, with the first `T` of
clusters that are drawn from `law`, which are independent of each other. At nonlinear parameters in a compact set `Θ`, outcomes of problem `i` are
`o i theta`, whatever mean utilities computation starts with. All problems are solved with the same arguments, in each step optimization finds a minimum
over `Θ`, and `r` are results of the last step. -/
structure Spec.NonlinearSamples (μ : Measure Ω) (law : Measure C) (M : Spec.Models C m (b ⊕ g) θ) (Θ : Set (θ → ℝ)) (theta0 : θ → ℝ) (beta0 : b ⊕ g → ℝ)
    (w : ℕ → Ω → C) {N : ℕ × Ω → ℕ} (E : ∀ i, Estimation (N i) nd ns m q b g θ d ι D) (o : ∀ i, (θ → ℝ) → Evaluated (N i) θ d) (method : GmmMethod)
    (wType : CovarianceType) (W0 : Matrix (MomentIndex m) (MomentIndex m) ℝ) (s : ℕ × Ω → GmmState (Estimation.Weights m q d) (θ → ℝ) D)
    (r : ℕ × Ω → StepResults (Estimation.Weights m q d) (θ → ℝ) D) : Prop where
  draws : Draws μ law w
  compact : IsCompact Θ
  regular : M.Regular law Θ theta0 beta0
  identified : M.Identified law Θ theta0 beta0
  computes : ∀ i, Computes (E i)
  markets : ∀ i start, ∀ theta ∈ Θ, ((E i).markets start theta).1 = o i theta
  sampled : ∀ T ω, ∀ theta ∈ Θ, Spec.Sampled (M.at theta beta0) (fun t => w t ω) T (E (T, ω)) (o (T, ω) theta) beta0
  weights : ∀ i, (E i).wType = wType
  starts : Spec.StartsWith (M.at theta0 beta0) law E (fun i => (s i).W) W0
  initial : W0.PosDef
  updated : method = .twoStep → ((M.at theta0 beta0).covariances law wType).PosDef
  minimizes : ∀ i, ∀ r' ∈ (E i).solve method false (s i), r'.theta ∈ Θ ∧
    ∀ theta ∈ Θ, (E i).objective r'.start.W ((E i).outcome r') ≤ (E i).objective r'.start.W (o i theta)
  last : ∀ i, ((E i).solve method false (s i)).getLast? = some (r i)

variable [IsEmpty q] [IsEmpty d] {μ : Measure Ω} {law : Measure C} {M : Spec.Models C m (b ⊕ g) θ} {Θ : Set (θ → ℝ)} {theta0 : θ → ℝ} {beta0 : b ⊕ g → ℝ}
  {w : ℕ → Ω → C} {N : ℕ × Ω → ℕ} {E : ∀ i, Estimation (N i) nd ns m q b g θ d ι D} {o : ∀ i, (θ → ℝ) → Evaluated (N i) θ d} {method : GmmMethod}
  {wType : CovarianceType} {W0 : Matrix (MomentIndex m) (MomentIndex m) ℝ} {s : ℕ × Ω → GmmState (Estimation.Weights m q d) (θ → ℝ) D}
  {r : ℕ × Ω → StepResults (Estimation.Weights m q d) (θ → ℝ) D}

/-! ## Lemmas -/

lemma last_posDef (h : Spec.NonlinearSamples μ law M Θ theta0 beta0 w E o method wType W0 s r) :
    (Spec.lastWeights (M.at theta0 beta0) law method false wType W0).PosDef := by
  unfold Spec.lastWeights
  by_cases hm : method = .oneStep
  · rw [if_pos ⟨hm, rfl⟩]
    exact h.initial
  · rw [if_neg fun hc => hm hc.1]
    exact (h.updated (by cases method <;> simp_all)).inv

lemma last_mem (h : Spec.NonlinearSamples μ law M Θ theta0 beta0 w E o method wType W0 s r) (i : ℕ × Ω) : r i ∈ (E i).solve method false (s i) :=
  List.mem_of_getLast? (h.last i)

lemma outcome_eq (h : Spec.NonlinearSamples μ law M Θ theta0 beta0 w E o method wType W0 s r) {i : ℕ × Ω}
    {r' : StepResults (Estimation.Weights m q d) (θ → ℝ) D} (hr : r' ∈ (E i).solve method false (s i)) : (E i).outcome r' = o i r'.theta :=
  h.markets i _ _ (h.minimizes i r' hr).1

/-- Results of each step. -/
lemma nonlinear_step (h : Spec.NonlinearSamples μ law M Θ theta0 beta0 w E o method wType W0 s r) {F : Filter (ℕ × Ω)}
    (hF : UniformAverages q d law M Θ beta0 w F) {r' : ℕ × Ω → StepResults (Estimation.Weights m q d) (θ → ℝ) D}
    (hr : ∀ i, r' i ∈ (E i).solve method false (s i)) {W1 : Matrix (MomentIndex m) (MomentIndex m) ℝ} (hW1 : W1.PosDef)
    (hW : Tendsto (fun i => (r' i).start.W) F (𝓝 (W1.submatrix onlyMoments onlyMoments))) :
    Tendsto (fun i => (⟨(r' i).theta, (h.minimizes i _ (hr i)).1⟩ : Θ)) F (𝓝 ⟨theta0, h.regular.inside⟩) := by
  refine theta_consistent h.compact h.computes hF h.regular h.identified (fun i => h.sampled i.1 i.2) hW1 hW fun i theta hθ => ?_
  have h1 := (h.minimizes i _ (hr i)).2 theta hθ
  rwa [outcome_eq h (hr i)] at h1

/-- Weights with which the last step starts. -/
lemma nonlinear_weights (h : Spec.NonlinearSamples μ law M Θ theta0 beta0 w E o method wType W0 s r) {F : Filter (ℕ × Ω)}
    (hF : UniformAverages q d law M Θ beta0 w F) :
    Tendsto (fun i => (r i).start.W) F (𝓝 ((Spec.lastWeights (M.at theta0 beta0) law method false wType W0).submatrix onlyMoments onlyMoments)) ∧
      ∀ i, (r i).step = lastStep method := by
  have hE : ∀ i : ℕ × Ω, ∀ theta ∈ Θ, Spec.Sampled (M.at theta beta0) (fun t => w t i.2) i.1 (E i) (o i theta) beta0 := fun i => h.sampled i.1 i.2
  have hs := tendsto_start h.computes hF h.regular hE h.starts
  cases method with
  | oneStep =>
    have e : ∀ i, r i = gmmStep (E i).oracle (Fintype.card θ) 1 (s i) none := by
      intro i
      have := h.last i
      unfold Estimation.solve gmmSolve at this
      rw [if_neg (by simp), gmmLoop_last _ _ _ _ _ _ (Or.inr ⟨rfl, rfl⟩)] at this
      exact (Option.some.inj this).symm
    unfold Spec.lastWeights
    rw [if_pos ⟨rfl, rfl⟩]
    exact ⟨by simp only [e]; exact hs, fun i => by rw [e]; rfl⟩
  | twoStep =>
    set r1 : ℕ × Ω → StepResults (Estimation.Weights m q d) (θ → ℝ) D := fun i => gmmStep (E i).oracle (Fintype.card θ) 1 (s i) none with hr1
    have es : ∀ i, (E i).solve .twoStep false (s i) = [r1 i, gmmStep (E i).oracle (Fintype.card θ) 2 (nextState (r1 i)) (some (r1 i))] := by
      intro i
      unfold Estimation.solve gmmSolve
      rw [if_neg (by simp), gmmLoop_next _ _ _ _ _ _ (by simp), gmmLoop_last _ _ _ _ _ _ (Or.inl le_rfl)]
    have e : ∀ i, r i = gmmStep (E i).oracle (Fintype.card θ) 2 (nextState (r1 i)) (some (r1 i)) := by
      intro i
      have := h.last i
      rw [es] at this
      exact (Option.some.inj this).symm
    have hmem : ∀ i, r1 i ∈ (E i).solve .twoStep false (s i) := fun i => by rw [es]; exact List.mem_cons_self
    have hk := nonlinear_step h hF hmem h.initial hs
    have hu := tendsto_updated h.computes hF h.regular h.identified hE h.initial hs hk h.weights (h.updated rfl).det_pos.ne'
    unfold Spec.lastWeights
    rw [if_neg (by simp)]
    refine ⟨hu.congr fun i => ?_, fun i => by rw [e]; rfl⟩
    rw [e]
    change _ = (E i).updatedWeights (s i).W ((E i).final 1 (s i) (r1 i).theta).1 ((E i).resampled ((E i).lastDelta 1 (s i)) (r1 i).theta)
    rw [(h.computes i).resampled]
    congr 1
    exact (outcome_eq h (hmem i)).symm

/-! ## Theorems -/

/-- **C133, nonlinear parameters.** With probability one, estimates of nonlinear parameters converge to the truth as the number of clusters grows, for
one-step and two-step GMM and for all types of weights. -/
theorem C133_nonlinear (h : Spec.NonlinearSamples μ law M Θ theta0 beta0 w E o method wType W0 s r) :
    ∀ᵐ ω ∂μ, Tendsto (fun T => (r (T, ω)).theta) atTop (𝓝 theta0) := by
  filter_upwards [uniformAverages_ae (q := q) (d := d) h.compact h.regular h.draws] with ω hω
  have h1 := nonlinear_step h hω (last_mem h) (last_posDef h) (nonlinear_weights h hω).1
  exact (tendsto_map'_iff.mp ((continuous_subtype_val.tendsto _).comp h1) :)

/-- **C133, linear parameters.** With probability one, so do estimates of linear parameters. -/
theorem C133_linear (h : Spec.NonlinearSamples μ law M Θ theta0 beta0 w E o method wType W0 s r) :
    ∀ᵐ ω ∂μ, ∀ l, Tendsto (fun T => (E (T, ω)).linearParameters (r (T, ω)).start.W ((E (T, ω)).outcome (r (T, ω))) l) atTop (𝓝 (beta0 l)) := by
  filter_upwards [uniformAverages_ae (q := q) (d := d) h.compact h.regular h.draws] with ω hω l
  have hw := (nonlinear_weights h hω).1
  have h1 := nonlinear_step h hω (last_mem h) (last_posDef h) hw
  have h2 := beta_consistent h.computes hω h.regular h.identified (fun i => h.sampled i.1 i.2) (last_posDef h) hw h1 l
  rw [tendsto_map'_iff] at h2
  refine h2.congr fun T => ?_
  rw [outcome_eq h (last_mem h _)]
  rfl

end

/-! ## Hypotheses can be met -/

section Witness

open Classical

/-- A random sign. -/
def sign (x : Bool) : ℝ := if x then 1 else -1

/-- Two independent random signs. -/
noncomputable def signs : Measure (Bool × Bool) := (PMF.uniformOfFintype (Bool × Bool)).toMeasure

instance : IsProbabilityMeasure signs := by unfold signs; infer_instance

/-- A population of clusters with one product. Demand has a constant, instruments are a constant and a random sign, and the error is another sign. Mean utilities
are nonlinear functions of a parameter. The constant is a linear parameter if `b` has an element, and otherwise it is known to be zero. -/
noncomputable def signModel (b : Type) (theta0 c : ℝ) : Spec.Models (Bool × Bool) (fun _ : Fin 1 ⊕ Fin 0 => Bool) (b ⊕ Empty) Unit where
  size _ := 1
  regressor _ _ _ _ := 1
  instrument x _ _ a := if a then sign x.1 else 1
  outcome theta x _ _ := c + sign x.2 + (Real.exp theta0 - Real.exp (theta ())) * sign x.1

/-- Mean utilities in a problem with `T` clusters, and their derivative. -/
noncomputable def signEvaluated (theta0 c : ℝ) (T : ℕ) (x : ℕ → Bool × Bool) (theta : Unit → ℝ) : Evaluated T Unit Empty where
  phi _ _ := 0
  delta t := c + sign (x t).2 + (Real.exp theta0 - Real.exp (theta ())) * sign (x t).1
  costs _ := 0
  deltaJacobian := Matrix.of fun t _ => -Real.exp (theta ()) * sign (x t).1
  costsJacobian := 0
  micro c := c.elim
  microJacobian := 0
  microCovariances := 0

/-- The problem with `T` clusters, in which optimization ends at given parameters. -/
noncomputable def signProblem (b : Type) [Fintype b] [DecidableEq b] (theta0 c : ℝ) (T : ℕ) (x : ℕ → Bool × Bool) (type : CovarianceType) (minimum : ℕ → Unit → ℝ) :
    Estimation T 1 0 (fun _ => Bool) Empty b Empty Unit Empty ℕ Unit where
  data := ⟨id, fun _ => .levels, fun _ => .levels, false, fun _ => Matrix.of fun t a => if a then sign (x t).1 else 1, Matrix.of fun _ c => c.elim,
    Matrix.of fun _ _ => 1, Matrix.of fun _ c => c.elim⟩
  location _ := none
  mean := 0
  scale := true
  analytic := true
  wType := type
  seType := type
  center := false
  ids i := i
  sort := List.finRange T
  markets _ theta := (signEvaluated theta0 c T x theta, ())
  resampled _ _ := []
  strategy step _ _ := .inr (minimum step, ⟨true, 0, 0⟩)
  budget := 10
  invertLinear S := S⁻¹
  invertAggregate S := S⁻¹
  invertMoments S := S⁻¹
  invertParameters S := S⁻¹

lemma signs_integral (f : Bool × Bool → ℝ) : ∫ x, f x ∂signs = (f (true, true) + f (true, false) + f (false, true) + f (false, false)) / 4 := by
  unfold signs
  rw [PMF.integral_eq_sum]
  simp only [PMF.uniformOfFintype_apply, Fintype.card_prod, Fintype.card_bool, smul_eq_mul, Fintype.sum_prod_type, Fintype.sum_bool]
  norm_num
  ring

lemma signs_memLp (f : Bool × Bool → ℝ) : MemLp f 2 signs :=
  MemLp.of_bound (measurable_of_finite f).aestronglyMeasurable (∑ x, |f x|) (Eventually.of_forall fun x => by
    rw [Real.norm_eq_abs]
    exact Finset.single_le_sum (f := fun x => |f x|) (fun x _ => abs_nonneg _) (Finset.mem_univ x))

variable {b : Type} [Fintype b]

lemma signModel_average (theta0 c : ℝ) (theta : Unit → ℝ) (beta : b ⊕ Empty → ℝ) (f : Bool × Bool → ℕ → ℝ) :
    ((signModel b theta0 c).at theta beta).average signs f = (f (true, true) 0 + f (true, false) 0 + f (false, true) 0 + f (false, false) 0) / 4 := by
  simp [Spec.Clusters.average, Spec.Clusters.total, signModel, Spec.Models.at, signs_integral]

/-- The set of parameters. -/
def signSet (theta0 : ℝ) : Set (Unit → ℝ) := Set.Icc (fun _ => theta0 - 1) fun _ => theta0 + 1

lemma signModel_error (theta0 c : ℝ) (theta : Unit → ℝ) (beta : b ⊕ Empty → ℝ) (x : Bool × Bool) (e : Fin 1 ⊕ Fin 0) (j : ℕ) :
    ((signModel b theta0 c).at theta beta).error x e j =
      c + sign x.2 + (Real.exp theta0 - Real.exp (theta ())) * sign x.1 - ∑ l : b, beta (.inl l) := by
  simp [signModel, Spec.Models.at]

lemma signModel_regular (theta0 : ℝ) {beta0 c : ℝ} (hb : ∑ _l : b, beta0 = c) : (signModel b theta0 c).Regular signs (signSet theta0) (fun _ => theta0) fun _ => beta0 where
  truth := by
    refine ⟨⟨measurable_of_finite _, fun _ _ _ => measurable_of_finite _, fun _ _ _ => measurable_of_finite _, fun _ _ => measurable_of_finite _, signs_memLp _,
      fun _ _ => signs_memLp _, fun _ _ => signs_memLp _, fun _ => signs_memLp _, fun _ _ => signs_memLp _, fun _ _ _ => signs_memLp _, ?_⟩, fun e a => ?_⟩
    · simp [signModel, Spec.Models.at]
    · rw [signModel_average]
      simp only [signModel_error, hb]
      cases a <;> simp [signModel, Spec.Models.at, sign]
  inside := by constructor <;> intro _ <;> simp
  continuous x e j := by
    simp only [signModel]
    fun_prop
  measurable _ _ _ _ := measurable_of_finite _
  bounded := by
    refine ⟨fun x _ _ => |c| + 1 + (Real.exp theta0 + Real.exp (theta0 + 1)), fun _ _ => measurable_of_finite _, fun theta hθ x e j => ?_, fun _ => signs_memLp _,
      fun _ _ => signs_memLp _⟩
    have hs : ∀ y, |sign y| = 1 := fun y => by cases y <;> simp [sign]
    have h1 : Real.exp (theta ()) ≤ Real.exp (theta0 + 1) := Real.exp_le_exp.mpr (hθ.2 ())
    simp only [signModel]
    refine (abs_add_le _ _).trans (add_le_add ((abs_add_le _ _).trans (add_le_add le_rfl (hs _).le)) ?_)
    rw [abs_mul, hs, mul_one]
    refine (abs_sub _ _).trans ?_
    rw [abs_of_pos (Real.exp_pos _), abs_of_pos (Real.exp_pos _)]
    linarith

lemma signModel_identified [Subsingleton b] (theta0 : ℝ) {beta0 c : ℝ} (hb : ∑ _l : b, beta0 = c) : (signModel b theta0 c).Identified signs (signSet theta0) (fun _ => theta0) fun _ => beta0 := by
  intro theta _ beta h
  have h1 := h (.inl 0) false
  have h2 := h (.inl 0) true
  rw [signModel_average] at h1 h2
  simp only [signModel_error] at h1 h2
  simp only [signModel, sign] at h1 h2
  norm_num at h1 h2
  constructor
  · funext u
    have h3 : Real.exp (theta ()) = Real.exp theta0 := by linarith
    exact Real.exp_injective h3
  · funext l
    rcases l with l | l
    · have h3 := Fintype.sum_subsingleton (fun l : b => beta (.inl l)) l
      have h4 := Fintype.sum_subsingleton (fun _ : b => beta0) l
      change beta (.inl l) = beta0
      linarith
    · exact l.elim

lemma signModel_covariances (theta0 : ℝ) {beta0 c : ℝ} (hb : ∑ _l : b, beta0 = c) (type : CovarianceType) :
    ((signModel b theta0 c).at (fun _ => theta0) fun _ => beta0).covariances signs type = 1 := by
  have hj : ∀ e e' : Fin 1 ⊕ Fin 0, e = e' := by
    rintro (e | e) (e' | e')
    · rw [Subsingleton.elim e e']
    · exact e'.elim0
    · exact e.elim0
    · exact e.elim0
  ext ⟨e, a⟩ ⟨e', c⟩
  obtain rfl := hj e e'
  cases type with
  | unadjusted =>
    simp only [Spec.Clusters.covariances, Matrix.of_apply, signModel_average, signModel_error, hb]
    cases a <;> cases c <;> simp [signModel, Spec.Models.at, sign] <;> norm_num
  | robust =>
    simp only [Spec.Clusters.covariances, Matrix.of_apply, signModel_average, signModel_error, hb]
    cases a <;> cases c <;> simp [signModel, Spec.Models.at, sign] <;> norm_num
  | clustered =>
    simp only [Spec.Clusters.covariances, Matrix.of_apply, Spec.Clusters.total, signModel_error, hb, signs_integral]
    cases a <;> cases c <;> simp [signModel, Spec.Models.at, sign] <;> norm_num

/-- The objective has a minimum. -/
lemma signProblem_minimum [DecidableEq b] (theta0 c : ℝ) (T : ℕ) (x : ℕ → Bool × Bool) (type : CovarianceType) (W : Estimation.Weights (fun _ : Fin 1 ⊕ Fin 0 => Bool) Empty Empty) :
    ∃ k ∈ signSet theta0, ∀ theta ∈ signSet theta0, (signProblem b theta0 c T x type fun _ _ => 0).objective W (signEvaluated theta0 c T x k) ≤
      (signProblem b theta0 c T x type fun _ _ => 0).objective W (signEvaluated theta0 c T x theta) := by
  have hc : IsCompact (signSet theta0) := isCompact_Icc
  have hco : ContinuousOn (fun theta => (signProblem b theta0 c T x type fun _ _ => 0).objective W (signEvaluated theta0 c T x theta)) (signSet theta0) := by
    intro theta _
    refine ContinuousAt.continuousWithinAt ?_
    have hd : ∀ i, ContinuousAt (fun theta => (signEvaluated theta0 c T x theta).delta i) theta := fun i => by
      have hc : Continuous fun theta : Unit → ℝ => (signEvaluated theta0 c T x theta).delta i := by
        simp only [signEvaluated]
        fun_prop
      exact hc.continuousAt
    have h := continuousAt_objective (signProblem b theta0 c T x type fun _ _ => 0).data theta (fun _ _ => 0)
      ((signProblem b theta0 c T x type fun _ _ => 0).covariances W fun _ _ => 0) (fun theta => (signEvaluated theta0 c T x theta).delta)
      (fun _ _ => 0) hd (fun _ => continuousAt_const) W 0 (fun _ c => c.elim) (fun c => c.elim) true
    exact h
  exact hc.exists_isMinOn ⟨fun _ => theta0, by constructor <;> intro _ <;> simp⟩ hco

lemma signProblem_solve [DecidableEq b] (theta0 c : ℝ) (T : ℕ) (x : ℕ → Bool × Bool) (type : CovarianceType) (W : Estimation.Weights (fun _ : Fin 1 ⊕ Fin 0 => Bool) Empty Empty) :
    ∃ minimum : ℕ → Unit → ℝ, ∀ r ∈ (signProblem b theta0 c T x type minimum).solve .twoStep false ⟨W, fun _ => 0, ()⟩, r.theta ∈ signSet theta0 ∧
      ∀ theta ∈ signSet theta0, (signProblem b theta0 c T x type minimum).objective r.start.W ((signProblem b theta0 c T x type minimum).outcome r) ≤
        (signProblem b theta0 c T x type minimum).objective r.start.W (signEvaluated theta0 c T x theta) := by
  obtain ⟨k1, hk1, hm1⟩ := signProblem_minimum (b := b) theta0 c T x type W
  obtain ⟨k2, hk2, hm2⟩ := signProblem_minimum (b := b) theta0 c T x type
    ((signProblem b theta0 c T x type fun _ _ => 0).updatedWeights W (signEvaluated theta0 c T x k1) [])
  refine ⟨fun step => if step = 1 then k1 else k2, fun r hr => ?_⟩
  unfold Estimation.solve gmmSolve at hr
  rw [if_neg (by simp), gmmLoop_next _ _ _ _ _ _ (by simp), gmmLoop_last _ _ _ _ _ _ (Or.inl le_rfl)] at hr
  rcases List.mem_cons.mp hr with rfl | hr
  · exact ⟨hk1, hm1⟩
  · rw [List.mem_singleton] at hr
    subst hr
    exact ⟨hk2, hm2⟩

lemma signSamples [DecidableEq b] [Subsingleton b] (theta0 : ℝ) {beta0 c : ℝ} (hb : ∑ _l : b, beta0 = c) (type : CovarianceType) :
    ∃ (minimum : ℕ × (ℕ → Bool × Bool) → ℕ → Unit → ℝ)
      (s : ℕ × (ℕ → Bool × Bool) → GmmState (Estimation.Weights (fun _ : Fin 1 ⊕ Fin 0 => Bool) Empty Empty) (Unit → ℝ) Unit)
      (r : ℕ × (ℕ → Bool × Bool) → StepResults (Estimation.Weights (fun _ : Fin 1 ⊕ Fin 0 => Bool) Empty Empty) (Unit → ℝ) Unit),
      Spec.NonlinearSamples (Measure.infinitePi fun _ : ℕ => signs) signs (signModel b theta0 c) (signSet theta0) (fun _ => theta0) (fun _ => beta0)
        (fun t ω => ω t) (N := fun i => i.1) (fun i => signProblem b theta0 c i.1 i.2 type (minimum i)) (fun i => signEvaluated theta0 c i.1 i.2) .twoStep
        type 1 s r := by
  set s : ℕ × (ℕ → Bool × Bool) → GmmState (Estimation.Weights (fun _ : Fin 1 ⊕ Fin 0 => Bool) Empty Empty) (Unit → ℝ) Unit :=
    fun _ => ⟨(1 : Matrix _ _ ℝ).submatrix onlyMoments onlyMoments, fun _ => 0, ()⟩ with hs
  choose minimum hmin using fun i : ℕ × (ℕ → Bool × Bool) => signProblem_solve (b := b) theta0 c i.1 i.2 type
    ((1 : Matrix (MomentIndex fun _ : Fin 1 ⊕ Fin 0 => Bool) _ ℝ).submatrix onlyMoments onlyMoments)
  set E := fun i : ℕ × (ℕ → Bool × Bool) => signProblem b theta0 c i.1 i.2 type (minimum i) with hE
  have hlast : ∀ i, ∃ r, ((E i).solve .twoStep false (s i)).getLast? = some r := fun i => by
    rw [← Option.isSome_iff_exists, List.getLast?_isSome]
    unfold Estimation.solve gmmSolve gmmLoop
    simp
  choose r hr using hlast
  refine ⟨minimum, s, r, ⟨⟨fun i => measurable_pi_apply i, ?_, fun i => Measure.infinitePi_map_eval _ i⟩,
    isCompact_Icc, signModel_regular _ hb, signModel_identified _ hb, fun i => ⟨fun _ _ => rfl, ?_, ?_, ?_, ?_, ?_⟩, fun _ _ _ _ => rfl, ?_, fun _ => rfl, ?_, ?_,
    fun _ => ?_, fun i => hmin i, hr⟩⟩
  · intro t t' htt
    exact (iIndepFun_infinitePi (P := fun _ : ℕ => signs) (X := fun _ x => x) fun _ => measurable_id).indepFun htt
  · exact ⟨List.Perm.refl _, by simp only [signProblem, List.pairwise_map]; exact (List.pairwise_lt_finRange _).imp fun h => le_of_lt h⟩
  · exact fun S T h => Matrix.inv_eq_right_inv h
  · exact fun S T h => Matrix.inv_eq_right_inv h
  · exact fun S T h => Matrix.inv_eq_right_inv h
  · exact fun S T h => Matrix.inv_eq_right_inv h
  · intro T ω theta _
    have hx : ∀ i e l, (E (T, ω)).data.regressors (signEvaluated theta0 c T ω theta).phi e i l = 1 := by
      rintro i (e | e) (l | l)
      · rfl
      · exact l.elim
      · exact e.elim0
      · exact e.elim0
    refine ⟨⟨fun i => ⟨i, (0 : Fin 1)⟩, fun p => p.1, fun _ => rfl, ?_⟩, hx, fun i e a => rfl, ?_, fun i i' => ⟨fun h => Fin.ext h, fun h => congrArg Fin.val h⟩⟩
    · rintro ⟨t, j⟩
      have : j = (0 : Fin 1) := Fin.fin_one_eq_zero j
      rw [this]
    · rintro i (e | e)
      · rw [signModel_error]
        change c + sign (ω i).2 + (Real.exp theta0 - Real.exp (theta ())) * sign (ω i).1 = ∑ l : b ⊕ Empty, 1 * beta0 + _
        rw [hb, Fintype.sum_sum_type]
        simp only [one_mul, Finset.univ_eq_empty, Finset.sum_empty, add_zero]
        rw [hb]
        change _ = c + (c + sign (ω i).2 + (Real.exp theta0 - Real.exp (theta ())) * sign (ω i).1 - c)
        ring
      · exact e.elim0
  · exact .inl fun _ => rfl
  · exact Matrix.PosDef.one
  · rw [signModel_covariances _ hb]
    exact Matrix.PosDef.one

/-- Everything that is assumed about samples is true of this population for each type of covariances and all true parameters. -/
example (theta0 beta0 : ℝ) (type : CovarianceType) :
    ∃ (N : ℕ × (ℕ → Bool × Bool) → ℕ) (E : ∀ i, Estimation (N i) 1 0 (fun _ => Bool) Empty Unit Empty Unit Empty ℕ Unit)
      (o : ∀ i, (Unit → ℝ) → Evaluated (N i) Unit Empty)
      (s : ℕ × (ℕ → Bool × Bool) → GmmState (Estimation.Weights (fun _ : Fin 1 ⊕ Fin 0 => Bool) Empty Empty) (Unit → ℝ) Unit)
      (r : ℕ × (ℕ → Bool × Bool) → StepResults (Estimation.Weights (fun _ : Fin 1 ⊕ Fin 0 => Bool) Empty Empty) (Unit → ℝ) Unit),
      Spec.NonlinearSamples (Measure.infinitePi fun _ : ℕ => signs) signs (signModel Unit theta0 beta0) (signSet theta0) (fun _ => theta0) (fun _ => beta0)
        (fun t ω => ω t) E o .twoStep type 1 s r := by
  obtain ⟨minimum, s, r, h⟩ := signSamples (b := Unit) theta0 (beta0 := beta0) (c := beta0) (by simp) type
  exact ⟨_, _, _, s, r, h⟩

end Witness

end Pyblp
