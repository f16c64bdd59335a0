import Verif.Lemmas.LargeSample
import Mathlib.Probability.Independence.InfinitePi

/-!
# C129: estimates and standard errors in large samples

When all parameters are linear (for example in logit models, for which mean utilities do not depend on parameters), `solve` is linear GMM. What it
reports is consistent and what it calls standard errors are standard errors: as the number of clusters grows, estimates converge to the truth, squared
standard errors times the number of products converge to asymptotic variances, and confidence intervals contain the truth with the probability with which
they should.
-/

set_option linter.unusedSectionVars false

open MeasureTheory ProbabilityTheory Filter Topology Matrix

namespace Pyblp

open Pyblp.Sampling Pyblp.Asymptotic

/-! ## Specification -/

section

variable {C Ω : Type} {nd ns : ℕ} {m : Fin nd ⊕ Fin ns → Type} {q b g θ d ι D : Type} [∀ e, Fintype (m e)] [Fintype q] [Fintype b] [Fintype g]
  [Fintype θ] [Fintype d] [LinearOrder ι] [∀ e, DecidableEq (m e)] [DecidableEq q] [DecidableEq b] [DecidableEq g] [DecidableEq θ] [DecidableEq d]
  [MeasurableSpace C] [MeasurableSpace Ω]

/-- Samples of clusters and what `solve` does with them. There is one problem for each number `T` of clusters and outcome `ω`, with the first `T` of
clusters that are drawn independently from `law`. Problems have linear parameters only, and all are solved with the same arguments. `r` are results of the
last step. -/
structure Spec.LargeSamples (μ : Measure Ω) (law : Measure C) (P : Spec.Clusters C m (b ⊕ g)) (w : ℕ → Ω → C) (beta : b ⊕ g → ℝ) {N : ℕ × Ω → ℕ}
    (E : ∀ i, Estimation (N i) nd ns m q b g θ d ι D) (o : ∀ i, Evaluated (N i) θ d) (method : GmmMethod) (initialUpdate : Bool)
    (wType seType : CovarianceType) (W0 : Matrix (MomentIndex m) (MomentIndex m) ℝ)
    (s : ℕ × Ω → GmmState (Estimation.Weights m q d) (θ → ℝ) D) (r : ℕ × Ω → StepResults (Estimation.Weights m q d) (θ → ℝ) D) : Prop where
  draws : Draws μ law w
  independent : iIndepFun w μ
  regular : P.Regular law
  linear : ∀ i, Linear (E i) (o i)
  sampled : ∀ T ω, Spec.Sampled P (fun t => w t ω) T (E (T, ω)) (o (T, ω)) beta
  weights : ∀ i, (E i).wType = wType
  errors : ∀ i, (E i).seType = seType
  starts : Spec.StartsWith P law E (fun i => (s i).W) W0
  identified : Spec.WeightsIdentify P law method initialUpdate wType W0
  last : ∀ i, ((E i).solve method initialUpdate (s i)).getLast? = some (r i)

variable [IsEmpty q] [IsEmpty d] [IsEmpty θ] {μ : Measure Ω} {law : Measure C} {P : Spec.Clusters C m (b ⊕ g)} {w : ℕ → Ω → C} {beta : b ⊕ g → ℝ}
  {N : ℕ × Ω → ℕ} {E : ∀ i, Estimation (N i) nd ns m q b g θ d ι D} {o : ∀ i, Evaluated (N i) θ d} {method : GmmMethod} {initialUpdate : Bool}
  {wType seType : CovarianceType} {W0 : Matrix (MomentIndex m) (MomentIndex m) ℝ} {s : ℕ × Ω → GmmState (Estimation.Weights m q d) (θ → ℝ) D}
  {r : ℕ × Ω → StepResults (Estimation.Weights m q d) (θ → ℝ) D}

/-! ## Lemmas -/

lemma clusters_symm (type : CovarianceType) : (P.covariances law type)ᵀ = P.covariances law type := by
  ext a c
  cases type with
  | unadjusted =>
    simp only [Matrix.transpose_apply, Spec.Clusters.covariances, Matrix.of_apply]
    congr 2
    · simp only [mul_comm]
    · exact mul_comm _ _
    · simp only [mul_comm]
  | robust =>
    simp only [Matrix.transpose_apply, Spec.Clusters.covariances, Matrix.of_apply]
    congr 1
    funext x j
    exact mul_comm _ _
  | clustered =>
    simp only [Matrix.transpose_apply, Spec.Clusters.covariances, Matrix.of_apply]
    congr 2
    funext x
    exact mul_comm _ _

lemma lastWeights_symm (hW : W0ᵀ = W0) :
    (Spec.lastWeights P law method initialUpdate wType W0)ᵀ = Spec.lastWeights P law method initialUpdate wType W0 := by
  unfold Spec.lastWeights
  split_ifs
  · exact hW
  · rw [Matrix.transpose_nonsing_inv, clusters_symm]

lemma unadjusted_identified (hid : Spec.WeightsIdentify P law method initialUpdate wType W0)
    (hvalid : Spec.Valid P law method (Spec.lastWeights P law method initialUpdate wType W0) seType) (hs : seType = .unadjusted) :
    (P.covariances law .unadjusted).det ≠ 0 ∧ ((P.slopes law)ᵀ * (P.covariances law .unadjusted)⁻¹ * P.slopes law).det ≠ 0 := by
  subst hs
  obtain ⟨h1, hdet, c, hc, -, hW⟩ := hvalid
  refine ⟨by rw [h1]; exact hdet, ?_⟩
  have h2 := last_identified (b := b) (g := g) hid
  rw [hW, Matrix.mul_smul, Matrix.smul_mul, Matrix.det_smul] at h2
  rw [h1]
  exact right_ne_zero_of_mul h2

/-! ## Theorems -/

/-- **C129, consistency.** With probability one, estimates converge to the truth as the number of clusters grows: for one-step and two-step GMM, for
all types of weights, and whatever types of standard errors. -/
theorem C129_consistent (h : Spec.LargeSamples μ law P w beta E o method initialUpdate wType seType W0 s r) :
    ∀ᵐ ω ∂μ, ∀ l, Tendsto (fun T => (E (T, ω)).linearParameters (r (T, ω)).start.W ((E (T, ω)).outcome (r (T, ω))) l) atTop (𝓝 (beta l)) := by
  filter_upwards [averages_ae (q := q) (θ := θ) (d := d) h.regular.toBounded h.draws] with ω hω l
  have h1 := consistent h.linear h.regular (fun i => h.sampled i.1 i.2) hω h.starts h.weights h.identified h.last l
  rw [tendsto_map'_iff] at h1
  refine h1.congr fun T => ?_
  rw [show (E (T, ω)).outcome (r (T, ω)) = o (T, ω) from (h.linear _).markets _ _]
  rfl

/-- **C129, standard errors.** With probability one, squared standard errors times the number of products converge to asymptotic variances of estimates.
This is so for clustered ones always, for robust ones if moments are not correlated within clusters, and for unadjusted ones if errors are also
homoskedastic and weights are optimal. -/
theorem C129_standard_errors (h : Spec.LargeSamples μ law P w beta E o method initialUpdate wType seType W0 s r) (hW : W0ᵀ = W0)
    (hvalid : Spec.Valid P law method (Spec.lastWeights P law method initialUpdate wType W0) seType) (l : b ⊕ g)
    (hpos : 0 < Spec.variance (P.slopes law) (Spec.lastWeights P law method initialUpdate wType W0) (P.covariances law .clustered) l l) :
    ∀ᵐ ω ∂μ, Tendsto (fun T => (N (T, ω) : ℝ) * (E (T, ω)).standardErrors (r (T, ω)) (.inr l) ^ 2) atTop
      (𝓝 (Spec.variance (P.slopes law) (Spec.lastWeights P law method initialUpdate wType W0) (P.covariances law .clustered) l l)) := by
  filter_upwards [averages_ae (q := q) (θ := θ) (d := d) h.regular.toBounded h.draws] with ω hω
  have hE : ∀ i : ℕ × Ω, Spec.Sampled P (fun t => w t i.2) i.1 (E i) (o i) beta := fun i => h.sampled i.1 i.2
  have h1 := reported h.linear h.regular hE hω h.starts h.weights h.errors h.identified h.last
    (fun hs _ => unadjusted_identified h.identified hvalid hs) l
  rw [reportedLimit_valid _ (lastWeights_symm hW) (last_identified h.identified) hvalid] at h1
  have h2 : Tendsto (fun i : ℕ × Ω => (N i : ℝ) * (E i).standardErrors (r i) (.inr l) ^ 2) (map (fun T => (T, ω)) atTop)
      (𝓝 (Spec.variance (P.slopes law) (Spec.lastWeights P law method initialUpdate wType W0) (P.covariances law .clustered) l l)) := by
    refine h1.congr' ?_
    filter_upwards [hω.positive h.regular.toBounded hE, h1.eventually (lt_mem_nhds hpos)] with i hi hv
    have hN : (0 : ℝ) < N i := by exact_mod_cast hi
    unfold Estimation.standardErrors
    rw [Real.sq_sqrt (div_pos hv hN).le]
    field_simp
  rw [tendsto_map'_iff] at h2
  exact h2

lemma largeSamples_normal [IsProbabilityMeasure μ] (h : Spec.LargeSamples μ law P w beta E o method initialUpdate wType seType W0 s r) (hW : W0ᵀ = W0)
    (hvalid : Spec.Valid P law method (Spec.lastWeights P law method initialUpdate wType W0) seType) (l : b ⊕ g)
    (hpos : 0 < Spec.variance (P.slopes law) (Spec.lastWeights P law method initialUpdate wType W0) (P.covariances law .clustered) l l) {B : Set ℝ}
    (hB : gaussianReal 0 1 (frontier B) = 0) {Y : ℕ × Ω → ℝ}
    (hY : ∀ i, 0 < (E i).standardErrors (r i) (.inr l) →
      Y i = ((E i).linearParameters (r i).start.W (o i) l - beta l) / (E i).standardErrors (r i) (.inr l)) :
    Tendsto (fun T => μ {ω | Y (T, ω) ∈ B}) atTop (𝓝 (gaussianReal 0 1 B)) := by
  have hE : ∀ i : ℕ × Ω, Spec.Sampled P (fun t => w t i.2) i.1 (E i) (o i) beta := fun i => h.sampled i.1 i.2
  have hav := averages_probably (q := q) (θ := θ) (d := d) h.regular.toBounded h.draws
  have h1 := reported h.linear h.regular hE hav h.starts h.weights h.errors h.identified h.last
    (fun hs _ => unadjusted_identified h.identified hvalid hs) l
  rw [reportedLimit_valid _ (lastWeights_symm hW) (last_identified h.identified) hvalid] at h1
  obtain ⟨A, hA, he⟩ := estimate_eq h.linear h.regular hE hav h.starts h.weights h.identified h.last l
  set W := Spec.lastWeights P law method initialUpdate wType W0
  have hm : ∀ a : MomentIndex m, Measurable fun x => P.total x fun j => P.error x a.1 j * P.instrument x a.1 j a.2 := fun a =>
    measurable_clusterTotal (q := q) (θ := θ) (d := d) h.regular.toBounded (.moment (.inl (.inl a)))
  have hint : ∀ a : MomentIndex m, MemLp (fun x => P.total x fun j => P.error x a.1 j * P.instrument x a.1 j a.2) 2 law := fun a =>
    memLp_clusterTotal (q := q) (θ := θ) (d := d) h.regular.toBounded (.moment (.inl (.inl a)))
  have h0 : ∀ a : MomentIndex m, ∫ x, (P.total x fun j => P.error x a.1 j * P.instrument x a.1 j a.2) ∂law = 0 := fun a => by
    have := h.regular.exogenous a.1 a.2
    unfold Spec.Clusters.average at this
    rcases div_eq_zero_iff.mp this with h2 | h2
    · exact h2
    · exact absurd h2 h.regular.nonempty.ne'
  refine studentized_normal h.draws h.independent hm hint h0 h.regular.nonempty (hav.rows hE) hA hpos h1 he ?_ hB ?_
  · unfold Spec.variance
    simp only [Matrix.mul_apply, Matrix.transpose_apply, Finset.sum_mul]
    rw [Finset.sum_comm]
    rfl
  · filter_upwards [h1.eventually (lt_mem_nhds hpos), hav.positive h.regular.toBounded hE] with i hv hi
    have hN : (0 : ℝ) < N i := by exact_mod_cast hi
    exact hY i (Real.sqrt_pos.mpr (div_pos hv hN))

/-- **C129, asymptotic normality.** Differences between estimates and the truth relative to standard errors, that is, t-statistics, have distributions that
converge to the standard normal distribution. -/
theorem C129_normal [IsProbabilityMeasure μ] (h : Spec.LargeSamples μ law P w beta E o method initialUpdate wType seType W0 s r) (hW : W0ᵀ = W0)
    (hvalid : Spec.Valid P law method (Spec.lastWeights P law method initialUpdate wType W0) seType) (l : b ⊕ g)
    (hpos : 0 < Spec.variance (P.slopes law) (Spec.lastWeights P law method initialUpdate wType W0) (P.covariances law .clustered) l l) (c : ℝ) :
    Tendsto (fun T => μ {ω | ((E (T, ω)).linearParameters (r (T, ω)).start.W ((E (T, ω)).outcome (r (T, ω))) l - beta l) /
      (E (T, ω)).standardErrors (r (T, ω)) (.inr l) ≤ c}) atTop (𝓝 (gaussianReal 0 1 (Set.Iic c))) := by
  have hB : gaussianReal 0 1 (frontier (Set.Iic c)) = 0 := by
    rw [frontier_Iic]
    have := nullSingletonClass_gaussianReal (μ := 0) (v := 1) one_ne_zero
    exact measure_singleton c
  refine largeSamples_normal h hW hvalid l hpos hB (Y := fun i => ((E i).linearParameters (r i).start.W ((E i).outcome (r i)) l - beta l) /
      (E i).standardErrors (r i) (.inr l)) fun i _ => ?_
  rw [show (E i).outcome (r i) = o i from (h.linear _).markets _ _]

/-- **C129, confidence intervals.** The probability that the truth is within `c` standard errors of estimates converges to the probability that a standard
normal variable is between `-c` and `c`. -/
theorem C129_coverage [IsProbabilityMeasure μ] (h : Spec.LargeSamples μ law P w beta E o method initialUpdate wType seType W0 s r) (hW : W0ᵀ = W0)
    (hvalid : Spec.Valid P law method (Spec.lastWeights P law method initialUpdate wType W0) seType) (l : b ⊕ g)
    (hpos : 0 < Spec.variance (P.slopes law) (Spec.lastWeights P law method initialUpdate wType W0) (P.covariances law .clustered) l l) (c : ℝ) (hc : 0 ≤ c) :
    Tendsto (fun T => μ {ω | beta l ∈ Set.Icc
      ((E (T, ω)).linearParameters (r (T, ω)).start.W ((E (T, ω)).outcome (r (T, ω))) l - c * (E (T, ω)).standardErrors (r (T, ω)) (.inr l))
      ((E (T, ω)).linearParameters (r (T, ω)).start.W ((E (T, ω)).outcome (r (T, ω))) l + c * (E (T, ω)).standardErrors (r (T, ω)) (.inr l))}) atTop
      (𝓝 (gaussianReal 0 1 (Set.Icc (-c) c))) := by
  have hB : gaussianReal 0 1 (frontier (Set.Icc (-c) c)) = 0 := by
    rw [frontier_Icc (by linarith)]
    have := nullSingletonClass_gaussianReal (μ := 0) (v := 1) one_ne_zero
    exact (Set.toFinite _).measure_zero _
  classical
  have hout : ∀ i, (E i).outcome (r i) = o i := fun i => (h.linear _).markets _ _
  set e : ℕ × Ω → ℝ := fun i => (E i).linearParameters (r i).start.W (o i) l with he
  set v : ℕ × Ω → ℝ := fun i => (E i).standardErrors (r i) (.inr l) with hv
  have h1 := largeSamples_normal h hW hvalid l hpos hB (Y := fun i => if 0 < v i then (e i - beta l) / v i else
      if beta l ∈ Set.Icc (e i - c * v i) (e i + c * v i) then 0 else c + 1) fun i hi => if_pos hi
  refine h1.congr fun T => ?_
  congr 1
  ext ω
  rw [Set.mem_ofPred_eq, Set.mem_ofPred_eq, hout]
  change (if 0 < v (T, ω) then (e (T, ω) - beta l) / v (T, ω) else if beta l ∈ Set.Icc (e (T, ω) - c * v (T, ω)) (e (T, ω) + c * v (T, ω)) then 0 else c + 1) ∈
    Set.Icc (-c) c ↔ beta l ∈ Set.Icc (e (T, ω) - c * v (T, ω)) (e (T, ω) + c * v (T, ω))
  by_cases hp : 0 < v (T, ω)
  · rw [if_pos hp, Set.mem_Icc, Set.mem_Icc, le_div_iff₀ hp, div_le_iff₀ hp]
    constructor
    · rintro ⟨h2, h3⟩
      constructor <;> linarith
    · rintro ⟨h2, h3⟩
      constructor <;> linarith
  · rw [if_neg hp]
    by_cases hin : beta l ∈ Set.Icc (e (T, ω) - c * v (T, ω)) (e (T, ω) + c * v (T, ω))
    · rw [if_pos hin]
      exact ⟨fun _ => hin, fun _ => ⟨by linarith, hc⟩⟩
    · rw [if_neg hin]
      exact ⟨fun h2 => absurd h2.2 (by linarith), fun h2 => absurd h2 hin⟩

end

/-! ## Hypotheses can be met -/

section Witness

open Classical

/-- A population of clusters with one product. Demand has a constant, which is its own instrument, and errors are standard normal. -/
def constantPopulation : Spec.Clusters ℝ (fun _ : Fin 1 ⊕ Fin 0 => Unit) (Unit ⊕ Empty) := ⟨fun _ => 1, fun _ _ _ _ => 1, fun _ _ _ _ => 1, fun x _ _ => x⟩

/-- The problem for `T` clusters of which mean utilities are `delta`. -/
noncomputable def constantProblem (T : ℕ) (delta : Fin T → ℝ) (type : CovarianceType) : Estimation T 1 0 (fun _ => Unit) Empty Unit Empty Empty Empty ℕ Unit where
  data := ⟨id, fun _ => .levels, fun _ => .levels, false, fun _ _ _ => 1, Matrix.of fun _ c => c.elim, Matrix.of fun _ _ => 1, Matrix.of fun _ c => c.elim⟩
  location c := c.elim
  mean := 0
  scale := true
  analytic := true
  wType := type
  seType := type
  center := false
  ids i := i
  sort := List.finRange T
  markets _ _ := (⟨fun _ _ => 0, delta, fun _ => 0, fun _ c => c.elim, fun _ c => c.elim, fun c => c.elim, fun c => c.elim, fun c => c.elim⟩, ())
  resampled _ _ := []
  strategy _ start _ := .inr (start, ⟨true, 0, 0⟩)
  budget := 10
  invertLinear S := S⁻¹
  invertAggregate S := S⁻¹
  invertMoments S := S⁻¹
  invertParameters S := S⁻¹

lemma constantPopulation_average (f : ℝ → ℕ → ℝ) : constantPopulation.average (gaussianReal 0 1) f = ∫ x, f x 0 ∂gaussianReal 0 1 := by
  simp [Spec.Clusters.average, Spec.Clusters.total, constantPopulation]

lemma normal_mean : ∫ x, x ∂gaussianReal 0 1 = 0 := integral_id_gaussianReal

lemma normal_square : ∫ x, x * x ∂gaussianReal 0 1 = 1 := by
  have h := variance_fun_id_gaussianReal (μ := 0) (v := 1)
  rw [variance_of_integral_eq_zero (X := fun x : ℝ => x) aemeasurable_id normal_mean] at h
  simpa [sq] using h

lemma constantPopulation_regular : constantPopulation.Regular (gaussianReal 0 1) where
  measurable_size := measurable_const
  measurable_regressor _ _ _ := measurable_const
  measurable_instrument _ _ _ := measurable_const
  measurable_error _ _ := measurable_id
  size := by simpa [constantPopulation] using memLp_const (1 : ℝ)
  regressor _ _ := by simpa [Spec.Clusters.total, constantPopulation] using memLp_const (1 : ℝ)
  instrument _ _ := by simpa [Spec.Clusters.total, constantPopulation] using memLp_const (1 : ℝ)
  error _ := by
    have h : MemLp (fun x : ℝ => |x|) 2 (gaussianReal 0 1) := (memLp_id_gaussianReal (μ := 0) (v := 1) 2).abs
    simpa [Spec.Clusters.total, constantPopulation] using h
  moment _ _ := by
    have h : MemLp (fun x : ℝ => |x|) 2 (gaussianReal 0 1) := (memLp_id_gaussianReal (μ := 0) (v := 1) 2).abs
    simpa [Spec.Clusters.total, constantPopulation] using h
  slope _ _ _ := by simpa [Spec.Clusters.total, constantPopulation] using memLp_const (1 : ℝ)
  nonempty := by simp [constantPopulation]
  exogenous _ _ := by
    rw [constantPopulation_average]
    simp [constantPopulation]

lemma constantPopulation_slopes : constantPopulation.slopes (gaussianReal 0 1) = Matrix.of fun _ _ => 1 := by
  ext a l
  simp only [Spec.Clusters.slopes, Matrix.of_apply, constantPopulation_average]
  simp [constantPopulation]

lemma constantPopulation_covariances (type : CovarianceType) : constantPopulation.covariances (gaussianReal 0 1) type = Matrix.of fun _ _ => 1 := by
  ext a c
  cases type with
  | unadjusted =>
    simp only [Spec.Clusters.covariances, Matrix.of_apply, constantPopulation_average]
    simp [constantPopulation, normal_square]
  | robust =>
    simp only [Spec.Clusters.covariances, Matrix.of_apply, constantPopulation_average]
    simp [constantPopulation, normal_square]
  | clustered =>
    simp only [Spec.Clusters.covariances, Matrix.of_apply]
    simp [constantPopulation, Spec.Clusters.total, normal_square]

lemma constantIndex (a c : MomentIndex fun _ : Fin 1 ⊕ Fin 0 => Unit) : a = c := by
  rcases a with ⟨e | e, x⟩
  · rcases c with ⟨e' | e', x'⟩
    · rw [Subsingleton.elim e e', Subsingleton.elim x x']
    · exact e'.elim0
  · exact e.elim0

lemma constantOne : (Matrix.of fun _ _ => 1 : Matrix (MomentIndex fun _ : Fin 1 ⊕ Fin 0 => Unit) (MomentIndex fun _ : Fin 1 ⊕ Fin 0 => Unit) ℝ) = 1 := by
  ext a c
  rw [constantIndex a c]
  simp

lemma constantSquare (Q : Matrix (MomentIndex fun _ : Fin 1 ⊕ Fin 0 => Unit) (Unit ⊕ Empty) ℝ) (hQ : Q = Matrix.of fun _ _ => 1) :
    Qᵀ * (1 : Matrix (MomentIndex fun _ : Fin 1 ⊕ Fin 0 => Unit) (MomentIndex fun _ : Fin 1 ⊕ Fin 0 => Unit) ℝ) * Q = 1 := by
  subst hQ
  ext a c
  rcases a with a | a
  · rcases c with c | c
    · simp [Matrix.mul_apply, MomentIndex]
    · exact c.elim
  · exact a.elim

lemma constantPopulation_instruments : constantPopulation.instruments (gaussianReal 0 1) = Matrix.of fun _ _ => 1 := by
  ext a c
  rw [constantIndex a c]
  simp only [Spec.Clusters.instruments, Matrix.of_apply, constantPopulation_average]
  simp [constantPopulation]

/-- Everything that is assumed about samples is true of this population for each type of covariances: draws from normal distributions, default weights that
are updated once, and all true parameters. Covariances are valid and variances are positive. -/
example (beta : Unit ⊕ Empty → ℝ) (type : CovarianceType) :
    ∃ (N : ℕ × (ℕ → ℝ) → ℕ) (E : ∀ i, Estimation (N i) 1 0 (fun _ => Unit) Empty Unit Empty Empty Empty ℕ Unit) (o : ∀ i, Evaluated (N i) Empty Empty)
      (W0 : Matrix (MomentIndex fun _ : Fin 1 ⊕ Fin 0 => Unit) (MomentIndex fun _ => Unit) ℝ)
      (s : ℕ × (ℕ → ℝ) → GmmState (Estimation.Weights (fun _ : Fin 1 ⊕ Fin 0 => Unit) Empty Empty) (Empty → ℝ) Unit)
      (r : ℕ × (ℕ → ℝ) → StepResults (Estimation.Weights (fun _ : Fin 1 ⊕ Fin 0 => Unit) Empty Empty) (Empty → ℝ) Unit),
      Spec.LargeSamples (Measure.infinitePi fun _ : ℕ => gaussianReal 0 1) (gaussianReal 0 1) constantPopulation (fun t ω => ω t) beta E o .twoStep false
        type type W0 s r ∧ W0ᵀ = W0 ∧
      Spec.Valid constantPopulation (gaussianReal 0 1) .twoStep (Spec.lastWeights constantPopulation (gaussianReal 0 1) .twoStep false type W0) type ∧
      ∀ l, 0 < Spec.variance (constantPopulation.slopes (gaussianReal 0 1)) (Spec.lastWeights constantPopulation (gaussianReal 0 1) .twoStep false type W0)
        (constantPopulation.covariances (gaussianReal 0 1) .clustered) l l := by
  set E : ∀ i : ℕ × (ℕ → ℝ), Estimation i.1 1 0 (fun _ => Unit) Empty Unit Empty Empty Empty ℕ Unit :=
    fun i => constantProblem i.1 (fun t => beta (.inl ()) + i.2 t) type with hE
  set s : ℕ × (ℕ → ℝ) → GmmState (Estimation.Weights (fun _ : Fin 1 ⊕ Fin 0 => Unit) Empty Empty) (Empty → ℝ) Unit :=
    fun i => ⟨(E i).defaultWeights, fun c => c.elim, ()⟩ with hs
  have hlast : ∀ i, ∃ r, ((E i).solve .twoStep false (s i)).getLast? = some r := fun i => by
    rw [← Option.isSome_iff_exists, List.getLast?_isSome]
    unfold Estimation.solve gmmSolve gmmLoop
    simp
  choose r hr using hlast
  have hlastW : Spec.lastWeights constantPopulation (gaussianReal 0 1) .twoStep false type 1 = 1 := by
    unfold Spec.lastWeights
    rw [if_neg (by simp), constantPopulation_covariances, constantOne, inv_one]
  refine ⟨fun i => i.1, E, fun i => ((E i).markets () fun c => c.elim).1, 1, s, r, ⟨⟨fun i => measurable_pi_apply i, ?_, fun i => Measure.infinitePi_map_eval _ i⟩,
    iIndepFun_infinitePi (X := fun _ x => x) fun _ => measurable_id, constantPopulation_regular, fun i => ⟨fun _ _ => rfl, fun _ _ => rfl, ?_, ?_, ?_, ?_, ?_⟩, ?_,
    fun _ => rfl, fun _ => rfl, ?_, ⟨?_, fun _ => ?_⟩, hr⟩, Matrix.transpose_one, ?_, ?_⟩
  · intro t t' htt
    exact (iIndepFun_infinitePi (P := fun _ : ℕ => gaussianReal 0 1) (X := fun _ x => x) fun _ => measurable_id).indepFun htt
  · exact ⟨List.Perm.refl _, by simp only [hE, constantProblem, List.pairwise_map]; exact (List.pairwise_lt_finRange _).imp fun h => le_of_lt h⟩
  · exact fun S T h => Matrix.inv_eq_right_inv h
  · exact fun S T h => Matrix.inv_eq_right_inv h
  · exact fun S T h => Matrix.inv_eq_right_inv h
  · exact fun S T h => Matrix.inv_eq_right_inv h
  · intro T ω
    have hx : ∀ i e l, (E (T, ω)).data.regressors (((E (T, ω)).markets () fun c => c.elim).1).phi e i l = 1 := by
      rintro i (e | e) (l | l)
      · rfl
      · exact l.elim
      · exact e.elim0
      · exact e.elim0
    refine ⟨⟨fun i => ⟨i, (0 : Fin 1)⟩, fun p => p.1, fun _ => rfl, ?_⟩, hx, fun i e a => rfl, ?_, fun i i' => ⟨fun h => Fin.ext h, fun h => congrArg Fin.val h⟩⟩
    · rintro ⟨t, j⟩
      have : j = (0 : Fin 1) := Fin.fin_one_eq_zero j
      rw [this]
    · rintro i (e | e)
      · change beta (.inl ()) + ω i = ∑ l, 1 * beta l + ω i
        simp
      · exact e.elim0
  · exact .inr ⟨fun _ => rfl, by rw [constantPopulation_instruments, constantOne, det_one]; exact one_ne_zero,
      by rw [constantPopulation_instruments, constantOne, inv_one]⟩
  · rw [constantSquare _ constantPopulation_slopes, det_one]
    exact one_ne_zero
  · rw [constantPopulation_covariances, constantOne, det_one, inv_one, constantSquare _ constantPopulation_slopes, det_one]
    exact ⟨one_ne_zero, one_ne_zero⟩
  · rw [hlastW]
    cases type with
    | clustered => trivial
    | robust => exact (constantPopulation_covariances _).trans (constantPopulation_covariances _).symm
    | unadjusted =>
      refine ⟨(constantPopulation_covariances _).trans (constantPopulation_covariances _).symm, ?_, 1, one_ne_zero, fun _ => rfl, ?_⟩
      · rw [constantPopulation_covariances, constantOne, det_one]
        exact one_ne_zero
      · rw [constantPopulation_covariances, constantOne, inv_one, one_smul]
  · intro l
    rw [hlastW, constantPopulation_covariances, constantOne]
    set Q := constantPopulation.slopes (gaussianReal 0 1)
    have hG : Spec.gain Q 1 * Q = 1 := by
      have h1 := constantSquare Q constantPopulation_slopes
      unfold Spec.gain
      rw [h1, inv_one, Matrix.one_mul, h1]
    have h1 := congrFun (congrFun hG l) l
    unfold Spec.variance
    rw [Matrix.mul_one, Matrix.mul_apply]
    simp only [Matrix.transpose_apply]
    rw [Matrix.mul_apply, Matrix.one_apply_eq] at h1
    refine lt_of_le_of_ne (Finset.sum_nonneg fun a _ => mul_self_nonneg _) fun h0 => ?_
    rw [eq_comm, Finset.sum_eq_zero_iff_of_nonneg fun a _ => mul_self_nonneg _] at h0
    rw [Finset.sum_eq_zero fun a ha => by rw [mul_self_eq_zero.mp (h0 a ha), zero_mul]] at h1
    exact zero_ne_one h1

end Witness

end Pyblp
