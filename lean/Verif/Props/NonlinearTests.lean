import Verif.Props.NonlinearNormal
import Verif.Props.TestLimits

/-!
# C135: tests with nonlinear parameters

Hansen's, Wald's and distance statistics of models with nonlinear parameters have the distributions with which they should be compared.
-/

set_option linter.unusedSectionVars false

open MeasureTheory ProbabilityTheory Filter Topology Matrix

namespace Pyblp

open Pyblp.Sampling Pyblp.Asymptotic

section

variable {C Ω : Type} {nd ns : ℕ} {m : Fin nd ⊕ Fin ns → Type} {q b g θ d ι D : Type} [∀ e, Fintype (m e)] [Fintype q] [Fintype b] [Fintype g]
  [Fintype θ] [Fintype d] [LinearOrder ι] [∀ e, DecidableEq (m e)] [DecidableEq q] [DecidableEq b] [DecidableEq g] [DecidableEq θ] [DecidableEq d]
  [MeasurableSpace C] [MeasurableSpace Ω] [IsEmpty q] [IsEmpty d] {μ : Measure Ω} {law : Measure C} {M : Spec.Models C m (b ⊕ g) θ}
  {slope : (θ → ℝ) → C → Fin nd ⊕ Fin ns → ℕ → θ → ℝ} {Θ : Set (θ → ℝ)} {theta0 : θ → ℝ} {beta0 : b ⊕ g → ℝ}
  {w : ℕ → Ω → C} {N : ℕ × Ω → ℕ} {E : ∀ i, Estimation (N i) nd ns m q b g θ d ι D} {o : ∀ i, (θ → ℝ) → Evaluated (N i) θ d} {method : GmmMethod}
  {wType seType : CovarianceType} {W0 : Matrix (MomentIndex m) (MomentIndex m) ℝ} {s : ℕ × Ω → GmmState (Estimation.Weights m q d) (θ → ℝ) D}
  {r : ℕ × Ω → StepResults (Estimation.Weights m q d) (θ → ℝ) D}

/-! ## Specification -/

/-- One model is a special case of the other, with parameters that are functions of its own ones: at the truth, there are the same errors, and derivatives of
moments are given by the chain rule, in which derivatives of parameters are `L`. -/
structure Spec.Nested {θ' b' g' : Type} [Fintype θ'] [Fintype b'] [Fintype g'] (law : Measure C) (M' : Spec.Models C m (b' ⊕ g') θ')
    (slope' : (θ' → ℝ) → C → Fin nd ⊕ Fin ns → ℕ → θ' → ℝ) (theta0' : θ' → ℝ) (beta0' : b' ⊕ g' → ℝ) (M : Spec.Models C m (b ⊕ g) θ)
    (slope : (θ → ℝ) → C → Fin nd ⊕ Fin ns → ℕ → θ → ℝ) (theta0 : θ → ℝ) (beta0 : b ⊕ g → ℝ) (L : Matrix (θ ⊕ b ⊕ g) (θ' ⊕ b' ⊕ g') ℝ) : Prop where
  size : M'.size = M.size
  instrument : M'.instrument = M.instrument
  error : (M'.at theta0' beta0').error = (M.at theta0 beta0).error
  jacobian : M'.jacobian law slope' theta0' beta0' = M.jacobian law slope theta0 beta0 * L

/-! ## Lemmas -/

lemma quadratic_mulVec {k c : Type} [Fintype k] [Fintype c] (Z : Matrix k c ℝ) (X : Matrix k k ℝ) (v : c → ℝ) :
    (Z *ᵥ v) ⬝ᵥ (X *ᵥ (Z *ᵥ v)) = v ⬝ᵥ ((Zᵀ * X * Z) *ᵥ v) := by
  rw [← Matrix.mulVec_mulVec, ← Matrix.mulVec_mulVec, Matrix.mulVec_transpose, dotProduct_comm v, ← Matrix.dotProduct_mulVec, dotProduct_comm]

/-- Hansen's statistic is a quadratic form of averages of moments at the truth. -/
lemma nonlinear_hansen {F : Filter (ℕ × Ω)} (h : Spec.NonlinearErrors μ law M slope Θ theta0 beta0 w E o method wType seType W0 s r)
    (hF : UniformAverages q d law M Θ beta0 w F) (hS : SlopeAverages law M Θ slope w F) :
    ∃ K : ℕ × Ω → Matrix (MomentIndex m) (MomentIndex m) ℝ,
      Tendsto K F (𝓝 (residualWeights (M.jacobian law slope theta0 beta0) (Spec.lastWeights (M.at theta0 beta0) law method false wType W0))) ∧
      ∀ᶠ i in F, ((E i).results (r i)).hansen =
        N i * (averageMoments (M.at theta0 beta0) w N i ⬝ᵥ (K i *ᵥ averageMoments (M.at theta0 beta0) w N i)) := by
  have h' := h.toNonlinearSamples
  obtain ⟨A, K, hA, hK, he⟩ := nonlinear_expansion h hF hS
  have hw := (nonlinear_weights h' hF).1
  have hWp : (Spec.lastWeights (M.at theta0 beta0) law method false wType W0).PosDef := last_posDef h'
  set W := Spec.lastWeights (M.at theta0 beta0) law method false wType W0 with hWdef
  set J := M.jacobian law slope theta0 beta0 with hJ
  have hV : Tendsto (fun i => Spec.momentWeights (r i).start.W) F (𝓝 W) :=
    tendsto_matrix.mpr fun a c => tendsto_matrix.mp hw (.inl (.inl a)) (.inl (.inl c))
  have hR := (tendsto_const_nhds (x := (1 : Matrix (MomentIndex m) (MomentIndex m) ℝ)) (f := F)).add (tendsto_mul hK hA)
  have hq := tendsto_mul (tendsto_mul (tendsto_transpose hR) hV) hR
  rw [Matrix.mul_neg, ← sub_eq_add_neg, show Spec.gain J W = gain J W from rfl, residualWeights_eq J W (posDef_symm hWp) (rank_det h hWp)] at hq
  refine ⟨_, hq, ?_⟩
  filter_upwards [he] with i hi
  have hcomp : ((E i).results (r i)).Computed := rfl
  rw [C66_hansen _ hcomp]
  unfold Spec.J
  rw [← dot_eq_sum]
  change (N i : ℝ) * ((E i).meanMoments (r i).start.W ((E i).outcome (r i)) ⬝ᵥ ((r i).start.W *ᵥ (E i).meanMoments (r i).start.W ((E i).outcome (r i)))) = _
  congr 1
  rw [← quadratic_mulVec, Matrix.add_mulVec, Matrix.one_mulVec, ← Matrix.mulVec_mulVec, dotProduct_moments]
  have hm : (fun a => (E i).meanMoments (r i).start.W ((E i).outcome (r i)) (.inl (.inl a))) =
      averageMoments (M.at theta0 beta0) w N i + K i *ᵥ (A i *ᵥ averageMoments (M.at theta0 beta0) w N i) := funext hi.2
  rw [hm]
  congr 1
  funext a
  simp only [Matrix.mulVec, dotProduct_moments]
  rw [hm]
  rfl

/-- Numbers of rows relative to numbers of clusters. -/
lemma nonlinear_rows {F : Filter (ℕ × Ω)} (h : Spec.NonlinearErrors μ law M slope Θ theta0 beta0 w E o method wType seType W0 s r)
    (hF : UniformAverages q d law M Θ beta0 w F) : Tendsto (fun i => (N i : ℝ) / i.1) F (𝓝 (∫ x, (M.size x : ℝ) ∂law)) :=
  hF.rows (E := fun i => forgetProblem (E i) (o i theta0)) (o := fun i => forgetEvaluated (o i theta0)) (k := fun _ => ⟨theta0, h.regular.inside⟩)
    fun i => sampled_forget (h.sampled i.1 i.2 _ h.regular.inside)

/-- Wald's statistic is a quadratic form of averages of moments at the truth. -/
lemma nonlinear_wald {F : Filter (ℕ × Ω)} (h : Spec.NonlinearErrors μ law M slope Θ theta0 beta0 w E o method wType seType W0 s r)
    (hF : UniformAverages q d law M Θ beta0 w F) (hS : SlopeAverages law M Θ slope w F)
    (hvalid : Spec.Valid (M.at theta0 beta0) law method (Spec.lastWeights (M.at theta0 beta0) law method false wType W0) seType)
    {k : Type} [Fintype k] [DecidableEq k] {f : (θ ⊕ b ⊕ g → ℝ) → k → ℝ} {R : (θ ⊕ b ⊕ g → ℝ) → Matrix k (θ ⊕ b ⊕ g) ℝ}
    (h0 : f (Sum.elim theta0 beta0) = 0)
    (hf : HasFDerivAt f (LinearMap.toContinuousLinearMap (Matrix.toLin' (R (Sum.elim theta0 beta0)))) (Sum.elim theta0 beta0))
    (hR : ContinuousAt R (Sum.elim theta0 beta0))
    (hd : (R (Sum.elim theta0 beta0) * Spec.variance (M.jacobian law slope theta0 beta0) (Spec.lastWeights (M.at theta0 beta0) law method false wType W0)
      ((M.at theta0 beta0).covariances law .clustered) * (R (Sum.elim theta0 beta0))ᵀ).det ≠ 0)
    (nan : Matrix k k ℝ) (pseudoInverses : Bool) (inv pinv diag : Matrix k k ℝ → Attempt (Matrix k k ℝ)) (hi : InvertsRegular pseudoInverses inv pinv) :
    ∃ K : ℕ × Ω → Matrix (MomentIndex m) (MomentIndex m) ℝ,
      Tendsto K F (𝓝 ((R (Sum.elim theta0 beta0) * Spec.gain (M.jacobian law slope theta0 beta0)
          (Spec.lastWeights (M.at theta0 beta0) law method false wType W0))ᵀ *
        (R (Sum.elim theta0 beta0) * Spec.variance (M.jacobian law slope theta0 beta0) (Spec.lastWeights (M.at theta0 beta0) law method false wType W0)
          ((M.at theta0 beta0).covariances law .clustered) * (R (Sum.elim theta0 beta0))ᵀ)⁻¹ *
        (R (Sum.elim theta0 beta0) * Spec.gain (M.jacobian law slope theta0 beta0)
          (Spec.lastWeights (M.at theta0 beta0) law method false wType W0)))) ∧
      ∀ᶠ i in F, ((E i).results (r i)).wald nan pseudoInverses inv pinv diag (f (Spec.estimates (E i) (r i))) (R (Spec.estimates (E i) (r i))) =
        (N i * (averageMoments (M.at theta0 beta0) w N i ⬝ᵥ (K i *ᵥ averageMoments (M.at theta0 beta0) w N i)), false) := by
  have h' := h.toNonlinearSamples
  have hE : ∀ i : ℕ × Ω, ∀ theta ∈ Θ, Spec.Sampled (M.at theta beta0) (fun t => w t i.2) i.1 (E i) (o i theta) beta0 := fun i => h.sampled i.1 i.2
  obtain ⟨A, _, hA, -, he⟩ := nonlinear_expansion h hF hS
  have hV := nonlinear_covariances h hF hS hvalid
  set P0 : θ ⊕ b ⊕ g → ℝ := Sum.elim theta0 beta0 with hP0
  set W := Spec.lastWeights (M.at theta0 beta0) law method false wType W0
  set J := M.jacobian law slope theta0 beta0
  rw [symmetrized_of_symm _ (by unfold Spec.variance; exact sandwich_symm _ (clusters_symm _))] at hV
  set x : ℕ × Ω → θ ⊕ b ⊕ g → ℝ := fun i => Spec.estimates (E i) (r i) with hx
  have hb : Tendsto x F (𝓝 P0) := by
    have hw := (nonlinear_weights h' hF).1
    have h1 := nonlinear_step h' hF (last_mem h') (last_posDef h') hw
    refine tendsto_pi_nhds.mpr fun p => ?_
    rcases p with p | l
    · exact tendsto_pi_nhds.mp ((continuous_subtype_val.tendsto _).comp h1) p
    · have h2 := beta_consistent h.computes hF h.regular h.identified hE (last_posDef h') hw h1 l
      refine h2.congr fun i => ?_
      simp only [hx, Spec.estimates, Sum.elim_inr, outcome_eq h' (last_mem h' i)]
  obtain ⟨G, hG, hfG⟩ := exists_secants h0 hf
  have hRx : Tendsto (fun i => R (x i)) F (𝓝 (R P0)) := hR.tendsto.comp hb
  have hM := tendsto_mul (tendsto_mul hRx hV) (tendsto_transpose hRx)
  have hMi := tendsto_inv hM hd
  have hGA := tendsto_mul (hG.comp hb) hA
  have hK := tendsto_mul (tendsto_mul (tendsto_transpose hGA) hMi) hGA
  simp only [Matrix.mul_neg, Matrix.transpose_neg, Matrix.neg_mul, neg_neg] at hK
  refine ⟨_, hK, ?_⟩
  filter_upwards [eventually_det hM hd, he] with i hdi hei
  refine (C66_wald ((E i).results (r i)) nan pseudoInverses inv pinv diag hi (f (x i)) _ (isUnit_iff_ne_zero.mpr hdi)).trans ?_
  have hfx : f (x i) = (G (x i) * A i) *ᵥ averageMoments (M.at theta0 beta0) w N i := by
    rw [hfG, hx, hei.1, Matrix.mulVec_mulVec]
  refine Prod.ext ?_ rfl
  change (N i : ℝ) * (f (x i) ⬝ᵥ (_ *ᵥ f (x i))) = _
  rw [hfx, quadratic_mulVec]
  rfl

/-! ## Theorems -/

/-- **C135, Hansen's test.** The probability that the statistic exceeds any critical value converges to the probability that a chi-squared variable does of
which the degrees of freedom are the number of moments minus the number of nonlinear and linear parameters, if weights are optimal. -/
theorem C135_hansen [IsProbabilityMeasure μ] (h : Spec.NonlinearErrors μ law M slope Θ theta0 beta0 w E o method wType seType W0 s r)
    (hopt : Spec.Optimal (M.at theta0 beta0) law (Spec.lastWeights (M.at theta0 beta0) law method false wType W0)) (c : ℝ) (hc : 0 < c) :
    Tendsto (fun T => μ {ω | c < ((E (T, ω)).results (r (T, ω))).hansen}) atTop
      (𝓝 (Spec.chiSquared (Fintype.card (MomentIndex m) - Fintype.card (θ ⊕ b ⊕ g)) (Set.Ioi c))) := by
  have hF := uniformAverages_probably (q := q) (d := d) h.compact h.regular h.draws
  have hS := slopeAverages_probably h.compact h.regular h.differentiable h.draws
  obtain ⟨K, hK, hY⟩ := nonlinear_hansen h hF hS
  have hid := rank_det h (last_posDef h.toNonlinearSamples)
  rw [hopt.2] at hK hid
  obtain ⟨B, hB, hBB⟩ := hansen_factor (optimal_posDef h.regular.truth hopt) (M.jacobian law slope theta0 beta0) hid
  unfold residualWeights at hK
  rw [← hBB] at hK
  exact statistic_chiSquared h.draws h.independent h.regular.truth (nonlinear_rows h hF) hK hB hY (chiSquared_frontier _ hc)

/-- **C135, Wald's test.** The probability that the statistic exceeds any critical value converges to the probability that a chi-squared variable does of
which the degrees of freedom are the number of restrictions, if restrictions on nonlinear and linear parameters hold at the truth, they are differentiable with
independent derivatives, and standard errors are valid. Matrices are inverted and there are no warnings, with a probability that converges to one. -/
theorem C135_wald [IsProbabilityMeasure μ] (h : Spec.NonlinearErrors μ law M slope Θ theta0 beta0 w E o method wType seType W0 s r)
    (hvalid : Spec.Valid (M.at theta0 beta0) law method (Spec.lastWeights (M.at theta0 beta0) law method false wType W0) seType)
    {k : Type} [Fintype k] [DecidableEq k] {f : (θ ⊕ b ⊕ g → ℝ) → k → ℝ} {R : (θ ⊕ b ⊕ g → ℝ) → Matrix k (θ ⊕ b ⊕ g) ℝ}
    (h0 : f (Sum.elim theta0 beta0) = 0)
    (hf : HasFDerivAt f (LinearMap.toContinuousLinearMap (Matrix.toLin' (R (Sum.elim theta0 beta0)))) (Sum.elim theta0 beta0))
    (hR : ContinuousAt R (Sum.elim theta0 beta0))
    (hd : (R (Sum.elim theta0 beta0) * Spec.variance (M.jacobian law slope theta0 beta0) (Spec.lastWeights (M.at theta0 beta0) law method false wType W0)
      ((M.at theta0 beta0).covariances law .clustered) * (R (Sum.elim theta0 beta0))ᵀ).det ≠ 0)
    (nan : Matrix k k ℝ) (pseudoInverses : Bool) (inv pinv diag : Matrix k k ℝ → Attempt (Matrix k k ℝ)) (hi : InvertsRegular pseudoInverses inv pinv) (c : ℝ)
    (hc : 0 < c) :
    let wald := fun i => ((E i).results (r i)).wald nan pseudoInverses inv pinv diag (f (Spec.estimates (E i) (r i))) (R (Spec.estimates (E i) (r i)))
    Tendsto (fun T => μ {ω | c < (wald (T, ω)).1}) atTop (𝓝 (Spec.chiSquared (Fintype.card k) (Set.Ioi c))) ∧
      Tendsto (fun T => μ {ω | (wald (T, ω)).2 = true}) atTop (𝓝 0) := by
  have hF := uniformAverages_probably (q := q) (d := d) h.compact h.regular h.draws
  have hS := slopeAverages_probably h.compact h.regular h.differentiable h.draws
  obtain ⟨K, hK, hY⟩ := nonlinear_wald h hF hS hvalid h0 hf hR hd nan pseudoInverses inv pinv diag hi
  set P0 : θ ⊕ b ⊕ g → ℝ := Sum.elim theta0 beta0 with hP0
  set W := Spec.lastWeights (M.at theta0 beta0) law method false wType W0
  set J := M.jacobian law slope theta0 beta0
  set S := (M.at theta0 beta0).covariances law .clustered with hSdef
  have e : R P0 * Spec.variance J W S * (R P0)ᵀ = (R P0 * Spec.gain J W) * S * (R P0 * Spec.gain J W)ᵀ := by
    unfold Spec.variance
    rw [Matrix.transpose_mul]
    simp only [Matrix.mul_assoc]
  rw [e] at hK hd
  obtain ⟨B, hB, hBB⟩ := wald_factor (clustered_posSemidef h.regular.truth) _ hd
  rw [← hBB] at hK
  intro wald
  constructor
  · exact statistic_chiSquared h.draws h.independent h.regular.truth (nonlinear_rows h hF) hK hB (Y := fun i => (wald i).1)
      (hY.mono fun i hi => by simp only [wald, hi]) (chiSquared_frontier _ hc)
  · have h1 : ∀ᶠ i in probably μ, ¬(wald i).2 = true := hY.mono fun i hi => by simp [wald, hi]
    rw [eventually_probably] at h1
    simpa using h1

/-- **C135, the distance test.** When one model is a special case of the other and weights of both problems are optimal, the probability that the statistic
exceeds any critical value converges to the probability that a chi-squared variable does of which the degrees of freedom are the number of restrictions. The
statistic is always defined: there is no error about results from different data. -/
theorem C135_distance [IsProbabilityMeasure μ] {θ' b' g' : Type} [Fintype θ'] [Fintype b'] [Fintype g'] [DecidableEq θ'] [DecidableEq b'] [DecidableEq g']
    {L : Matrix (θ ⊕ b ⊕ g) (θ' ⊕ b' ⊕ g') ℝ} {M' : Spec.Models C m (b' ⊕ g') θ'} {slope' : (θ' → ℝ) → C → Fin nd ⊕ Fin ns → ℕ → θ' → ℝ}
    {Θ' : Set (θ' → ℝ)} {theta0' : θ' → ℝ} {beta0' : b' ⊕ g' → ℝ} {N' : ℕ × Ω → ℕ} {E' : ∀ i, Estimation (N' i) nd ns m q b' g' θ' d ι D}
    {o' : ∀ i, (θ' → ℝ) → Evaluated (N' i) θ' d} {method' : GmmMethod} {wType' seType' : CovarianceType} {W0' : Matrix (MomentIndex m) (MomentIndex m) ℝ}
    {s' : ℕ × Ω → GmmState (Estimation.Weights m q d) (θ' → ℝ) D} {r' : ℕ × Ω → StepResults (Estimation.Weights m q d) (θ' → ℝ) D}
    (h : Spec.NonlinearErrors μ law M slope Θ theta0 beta0 w E o method wType seType W0 s r)
    (h' : Spec.NonlinearErrors μ law M' slope' Θ' theta0' beta0' w E' o' method' wType' seType' W0' s' r')
    (hn : Spec.Nested law M' slope' theta0' beta0' M slope theta0 beta0 L)
    (hopt : Spec.Optimal (M.at theta0 beta0) law (Spec.lastWeights (M.at theta0 beta0) law method false wType W0))
    (hopt' : Spec.Optimal (M'.at theta0' beta0') law (Spec.lastWeights (M'.at theta0' beta0') law method' false wType' W0')) (c : ℝ) (hc : 0 < c) :
    (∀ i, ∃ v, ((E' i).results (r' i)).distance (some ((E i).results (r i))) = .ok v) ∧
    Tendsto (fun T => μ {ω | ∃ v, ((E' (T, ω)).results (r' (T, ω))).distance (some ((E (T, ω)).results (r (T, ω)))) = .ok v ∧ c < v}) atTop
      (𝓝 (Spec.chiSquared (Fintype.card (θ ⊕ b ⊕ g) - Fintype.card (θ' ⊕ b' ⊕ g')) (Set.Ioi c))) := by
  have hE : ∀ i : ℕ × Ω, Spec.Sampled (M.at theta0 beta0) (fun t => w t i.2) i.1 (E i) (o i theta0) beta0 := fun i => h.sampled i.1 i.2 _ h.regular.inside
  have hE' : ∀ i : ℕ × Ω, Spec.Sampled (M'.at theta0' beta0') (fun t => w t i.2) i.1 (E' i) (o' i theta0') beta0' := fun i =>
    h'.sampled i.1 i.2 _ h'.regular.inside
  have hN : ∀ i, N i = N' i := fun i => by
    have h1 := sampled_size (hE i)
    have h2 := sampled_size (hE' i)
    change (N' i : ℝ) = ∑ t ∈ Finset.range i.1, (M'.size (w t i.2) : ℝ) at h2
    rw [hn.size] at h2
    have h3 : (N i : ℝ) = N' i := h1.trans h2.symm
    exact_mod_cast h3
  have hF := uniformAverages_probably (q := q) (d := d) h.compact h.regular h.draws
  have hS := slopeAverages_probably h.compact h.regular h.differentiable h.draws
  have hF' := uniformAverages_probably (q := q) (d := d) h'.compact h'.regular h'.draws
  have hS' := slopeAverages_probably h'.compact h'.regular h'.differentiable h'.draws
  obtain ⟨K, hK, hY⟩ := nonlinear_hansen h hF hS
  obtain ⟨K', hK', hY'⟩ := nonlinear_hansen h' hF' hS'
  have hid := rank_det h (last_posDef h.toNonlinearSamples)
  have hid' := rank_det h' (last_posDef h'.toNonlinearSamples)
  have hmom : ∀ a, clusterMoment (M'.at theta0' beta0') a = clusterMoment (M.at theta0 beta0) a := fun a => by
    funext x
    unfold clusterMoment Spec.Clusters.total
    rw [hn.error]
    change ∑ j ∈ Finset.range (M'.size x), _ * M'.instrument x a.1 j a.2 = _
    rw [hn.size, hn.instrument]
    rfl
  have hcov : (M'.at theta0' beta0').covariances law .clustered = (M.at theta0 beta0).covariances law .clustered := by
    ext a a'
    change (∫ x, clusterMoment (M'.at theta0' beta0') a x * clusterMoment (M'.at theta0' beta0') a' x ∂law) / (∫ x, (M'.size x : ℝ) ∂law) = _
    rw [hmom, hmom, hn.size]
    rfl
  rw [hopt.2] at hK hid
  rw [hopt'.2, hn.jacobian, hcov] at hK' hid'
  obtain ⟨B, hB, hBB⟩ := distance_factor (optimal_posDef h.regular.truth hopt) (M.jacobian law slope theta0 beta0) L hid hid'
  have hKK := hK'.sub hK
  rw [show residualWeights (M.jacobian law slope theta0 beta0 * L) ((M.at theta0 beta0).covariances law .clustered)⁻¹ -
      residualWeights (M.jacobian law slope theta0 beta0) ((M.at theta0 beta0).covariances law .clustered)⁻¹ = Bᵀ * B by
    rw [hBB]; unfold residualWeights; abel] at hKK
  have hd : ∀ i, ((E' i).results (r' i)).distance (some ((E i).results (r i))) =
      .ok (((E' i).results (r' i)).hansen - ((E i).results (r i)).hansen) := fun i => by
    unfold GmmResults.distance
    dsimp only
    rw [if_neg (fun hne => hne (hN i))]
    rfl
  refine ⟨fun i => ⟨_, hd i⟩, ?_⟩
  have hav2 : ∀ i, averageMoments (M'.at theta0' beta0') w N' i = averageMoments (M.at theta0 beta0) w N i := fun i => by
    funext a
    unfold averageMoments
    rw [hN i, hmom]
  have key := statistic_chiSquared h.draws h.independent h.regular.truth (nonlinear_rows h hF) hKK hB (R := Set.Ioi c)
    (Y := fun i => ((E' i).results (r' i)).hansen - ((E i).results (r i)).hansen) (by
      filter_upwards [hY, hY'] with i h1 h2
      rw [h1, h2, hav2, ← hN i, Matrix.sub_mulVec, dotProduct_sub, mul_sub]) (chiSquared_frontier _ hc)
  simp only [hd, Except.ok.injEq, exists_eq_left']
  exact key

end

/-! ## Hypotheses can be met -/

section Witness

/-- Without the constant there are more moments than parameters, and weights are optimal. -/
example (theta0 : ℝ) (type : CovarianceType) :
    (∃ (N : ℕ × (ℕ → Bool × Bool) → ℕ) (E : ∀ i, Estimation (N i) 1 0 (fun _ => Bool) Empty Empty Empty Unit Empty ℕ Unit)
      (o : ∀ i, (Unit → ℝ) → Evaluated (N i) Unit Empty)
      (s : ℕ × (ℕ → Bool × Bool) → GmmState (Estimation.Weights (fun _ : Fin 1 ⊕ Fin 0 => Bool) Empty Empty) (Unit → ℝ) Unit)
      (r : ℕ × (ℕ → Bool × Bool) → StepResults (Estimation.Weights (fun _ : Fin 1 ⊕ Fin 0 => Bool) Empty Empty) (Unit → ℝ) Unit),
      Spec.NonlinearErrors (Measure.infinitePi fun _ : ℕ => signs) signs (signModel Empty theta0 0) signSlope (signSet theta0) (fun _ => theta0)
        (fun _ => 0) (fun t ω => ω t) E o .twoStep type type 1 s r) ∧
    Spec.Optimal ((signModel Empty theta0 0).at (fun _ => theta0) fun _ => 0) signs
      (Spec.lastWeights ((signModel Empty theta0 0).at (fun _ => theta0) fun _ => 0) signs .twoStep false type 1) ∧
    Fintype.card (Unit ⊕ Empty ⊕ Empty) < Fintype.card (MomentIndex fun _ : Fin 1 ⊕ Fin 0 => Bool) := by
  have hb : ∑ _l : Empty, (0 : ℝ) = 0 := by simp
  obtain ⟨minimum, s, r, h⟩ := signErrors theta0 hb type
  refine ⟨⟨_, _, _, s, r, h⟩, ?_, by decide⟩
  rw [signWeights _ hb]
  refine ⟨?_, ?_⟩ <;> rw [signModel_covariances _ hb] <;> simp

/-- This is a special case of the model with the constant, if this is truly zero. -/
example (theta0 : ℝ) : Spec.Nested signs (signModel Empty theta0 0) signSlope (fun _ => theta0) (fun _ => 0) (signModel Unit theta0 0) signSlope
    (fun _ => theta0) (fun _ => 0) (Matrix.of fun p p' => match p, p' with | .inl _, .inl _ => 1 | _, _ => 0) where
  size := rfl
  instrument := rfl
  error := by
    funext x e j
    rw [signModel_error, signModel_error]
    simp
  jacobian := by
    ext ⟨e, a⟩ p
    rcases p with p | p | p
    · rw [signModel_jacobian, Matrix.mul_apply]
      simp only [signModel_jacobian]
      simp
    · exact p.elim
    · exact p.elim

/-- A restriction on both parameters: their difference is what it is at the truth. -/
example (theta0 beta0 : ℝ) (type : CovarianceType) :
    let f : (Unit ⊕ Unit ⊕ Empty → ℝ) → Unit → ℝ := fun x _ => (x (.inl ()) - x (.inr (.inl ()))) - (theta0 - beta0)
    let R : (Unit ⊕ Unit ⊕ Empty → ℝ) → Matrix Unit (Unit ⊕ Unit ⊕ Empty) ℝ := fun _ => Matrix.of fun _ p => match p with | .inl _ => 1 | .inr _ => -1
    f (Sum.elim (fun _ => theta0) fun _ => beta0) = 0 ∧
    HasFDerivAt f (LinearMap.toContinuousLinearMap (Matrix.toLin' (R (Sum.elim (fun _ => theta0) fun _ => beta0)))) (Sum.elim (fun _ => theta0) fun _ => beta0) ∧
    ContinuousAt R (Sum.elim (fun _ => theta0) fun _ => beta0) ∧
    (R (Sum.elim (fun _ => theta0) fun _ => beta0) * Spec.variance ((signModel Unit theta0 beta0).jacobian signs signSlope (fun _ => theta0) fun _ => beta0)
      (Spec.lastWeights ((signModel Unit theta0 beta0).at (fun _ => theta0) fun _ => beta0) signs .twoStep false type 1)
      (((signModel Unit theta0 beta0).at (fun _ => theta0) fun _ => beta0).covariances signs .clustered) *
        (R (Sum.elim (fun _ => theta0) fun _ => beta0))ᵀ).det ≠ 0 := by
  intro f R
  refine ⟨?_, ?_, continuousAt_const, ?_⟩
  · funext u
    simp [f]
  · rw [hasFDerivAt_pi']
    intro u
    have h1 : ∀ p, HasFDerivAt (fun x : Unit ⊕ Unit ⊕ Empty → ℝ => x p) (ContinuousLinearMap.proj (R := ℝ) (φ := fun _ : Unit ⊕ Unit ⊕ Empty => ℝ) p)
        (Sum.elim (fun _ => theta0) fun _ => beta0) := fun p => (ContinuousLinearMap.proj (R := ℝ) (φ := fun _ : Unit ⊕ Unit ⊕ Empty => ℝ) p).hasFDerivAt
    refine (((h1 (.inl ())).sub (h1 (.inr (.inl ())))).sub_const (theta0 - beta0)).congr_fderiv ?_
    ext v
    simp [R, Matrix.mulVec, dotProduct]
    ring
  · have hb : ∑ _l : Unit, beta0 = beta0 := by simp
    have hp := (signVariance theta0 hb type).mul_mul_conjTranspose_same (B := R (Sum.elim (fun _ => theta0) fun _ => beta0)) (by
      intro u v huv
      have := congrFun huv (.inl ())
      simp [R, Matrix.vecMul, dotProduct] at this
      funext x
      exact this)
    rw [Matrix.conjTranspose_eq_transpose_of_trivial] at hp
    exact hp.det_pos.ne'

end Witness

end Pyblp
