import Verif.Lemmas.NonlinearNormal
import Verif.Props.NonlinearSample

/-!
# C134: standard errors with nonlinear parameters

In models with nonlinear parameters, what are called standard errors are standard errors, and confidence intervals contain the truth with the probability with
which they should, for nonlinear and linear parameters.
-/

set_option linter.unusedSectionVars false

open MeasureTheory ProbabilityTheory Filter Topology Matrix

namespace Pyblp

open Pyblp.Sampling Pyblp.Asymptotic

/-! ## Specification -/

section

variable {C Ω : Type} {nd ns : ℕ} {m : Fin nd ⊕ Fin ns → Type} {q b g θ d ι D : Type} [∀ e, Fintype (m e)] [Fintype q] [Fintype b] [Fintype g]
  [Fintype θ] [Fintype d] [LinearOrder ι] [∀ e, DecidableEq (m e)] [DecidableEq q] [DecidableEq b] [DecidableEq g] [DecidableEq θ] [DecidableEq d]
  [MeasurableSpace C] [MeasurableSpace Ω]

/-- In addition to what consistency needs, clusters are jointly independent, outcomes have derivatives with respect to nonlinear parameters, these are what
is computed, and derivatives of population moments with respect to all parameters are not collinear. No parameter is in `phi`. -/
structure Spec.NonlinearErrors (μ : Measure Ω) (law : Measure C) (M : Spec.Models C m (b ⊕ g) θ) (slope : (θ → ℝ) → C → Fin nd ⊕ Fin ns → ℕ → θ → ℝ)
    (Θ : Set (θ → ℝ)) (theta0 : θ → ℝ) (beta0 : b ⊕ g → ℝ) (w : ℕ → Ω → C) {N : ℕ × Ω → ℕ} (E : ∀ i, Estimation (N i) nd ns m q b g θ d ι D)
    (o : ∀ i, (θ → ℝ) → Evaluated (N i) θ d) (method : GmmMethod) (wType seType : CovarianceType) (W0 : Matrix (MomentIndex m) (MomentIndex m) ℝ)
    (s : ℕ × Ω → GmmState (Estimation.Weights m q d) (θ → ℝ) D) (r : ℕ × Ω → StepResults (Estimation.Weights m q d) (θ → ℝ) D) : Prop
    extends Spec.NonlinearSamples μ law M Θ theta0 beta0 w E o method wType W0 s r where
  independent : iIndepFun w μ
  errors : ∀ i, (E i).seType = seType
  differentiable : M.Differentiable law Θ theta0 slope
  slopes : ∀ T ω, ∀ theta ∈ Θ, Spec.SlopesSampled M (slope theta) (fun t => w t ω) T (E (T, ω)) (o (T, ω) theta)
  locations : ∀ i p, (E i).location p = none
  rank : Function.Injective (M.jacobian law slope theta0 beta0).mulVec

/-- Estimates of all parameters. -/
noncomputable def Spec.estimates {N : ℕ} (E : Estimation N nd ns m q b g θ d ι D) (r : StepResults (Estimation.Weights m q d) (θ → ℝ) D) : θ ⊕ b ⊕ g → ℝ :=
  Sum.elim r.theta (E.linearParameters r.start.W (E.outcome r))

variable [IsEmpty q] [IsEmpty d] {μ : Measure Ω} {law : Measure C} {M : Spec.Models C m (b ⊕ g) θ} {slope : (θ → ℝ) → C → Fin nd ⊕ Fin ns → ℕ → θ → ℝ}
  {Θ : Set (θ → ℝ)} {theta0 : θ → ℝ} {beta0 : b ⊕ g → ℝ}
  {w : ℕ → Ω → C} {N : ℕ × Ω → ℕ} {E : ∀ i, Estimation (N i) nd ns m q b g θ d ι D} {o : ∀ i, (θ → ℝ) → Evaluated (N i) θ d} {method : GmmMethod}
  {wType seType : CovarianceType} {W0 : Matrix (MomentIndex m) (MomentIndex m) ℝ} {s : ℕ × Ω → GmmState (Estimation.Weights m q d) (θ → ℝ) D}
  {r : ℕ × Ω → StepResults (Estimation.Weights m q d) (θ → ℝ) D}

/-! ## Lemmas -/

lemma posDef_symm {W : Matrix (MomentIndex m) (MomentIndex m) ℝ} (h : W.PosDef) : Wᵀ = W := by
  have := h.1
  rwa [Matrix.IsHermitian, Matrix.conjTranspose_eq_transpose_of_trivial] at this

lemma default_symm {F : Filter (ℕ × Ω)} (h : Spec.NonlinearSamples μ law M Θ theta0 beta0 w E o method wType W0 s r) (hF : UniformAverages q d law M Θ beta0 w F)
    (hd : ((M.at theta0 beta0).instruments law).det ≠ 0) : ∀ᶠ i in F, (Spec.momentWeights (E i).defaultWeights)ᵀ = Spec.momentWeights (E i).defaultWeights := by
  have hl := limits_at hF h.regular (fun i => h.sampled i.1 i.2) le_rfl (k := fun _ => ⟨theta0, h.regular.inside⟩) (k0 := ⟨theta0, h.regular.inside⟩)
    tendsto_const_nhds
  set S : ∀ _ : ℕ × Ω, Matrix (MomentIndex m ⊕ q) (MomentIndex m ⊕ q) ℝ := fun i => Matrix.of fun a c =>
    if Spec.instrumentSet a = Spec.instrumentSet c then
      Spec.overProducts fun j => Spec.aggregateInstrument (E i).data a j * Spec.aggregateInstrument (E i).data c j else 0 with hSdef
  have hT : Tendsto S F (𝓝 (limitInstruments (rowLimit (q := q) (θ := Empty) (d := d) (M.at theta0 beta0) law))) := by
    rw [tendsto_matrix]
    intro a c
    rcases a with a | a
    · rcases c with c | c
      · simp only [hSdef, limitInstruments, Matrix.of_apply]
        by_cases he : Spec.instrumentSet (.inl a : MomentIndex m ⊕ q) = Spec.instrumentSet (.inl c : MomentIndex m ⊕ q)
        · simp only [if_pos he]
          exact hl.averages (.instrument (.inl (.inl a))) (.instrument (.inl (.inl c)))
        · simp only [if_neg he]
          exact tendsto_const_nhds
      · exact isEmptyElim c
    · exact isEmptyElim a
  filter_upwards [eventually_det hT (by rw [limitInstruments_eq, Matrix.det_submatrix_equiv_self]; exact hd)] with i hi
  have hU := (C97_default (E i) (h.computes i).invertAggregate (S i) (fun a c => rfl) ((Matrix.isUnit_iff_isUnit_det _).mpr (isUnit_iff_ne_zero.mpr hi))).1
  have hS : (S i)ᵀ = S i := by
    ext a c
    simp only [hSdef, Matrix.transpose_apply, Matrix.of_apply, eq_comm (a := Spec.instrumentSet c)]
    simp only [mul_comm]
  have hS' : ((S i)⁻¹)ᵀ = (S i)⁻¹ := by rw [Matrix.transpose_nonsing_inv, hS]
  rw [Matrix.inv_eq_right_inv hU] at hS'
  ext a c
  exact congrFun (congrFun hS' (.inl a)) (.inl c)

/-- Weights with which the last step starts are symmetric. -/
lemma last_symm {F : Filter (ℕ × Ω)} (h : Spec.NonlinearSamples μ law M Θ theta0 beta0 w E o method wType W0 s r) (hF : UniformAverages q d law M Θ beta0 w F) :
    ∀ᶠ i in F, (Spec.momentWeights (r i).start.W)ᵀ = Spec.momentWeights (r i).start.W := by
  cases method with
  | oneStep =>
    have e : ∀ i, (r i).start.W = (s i).W := by
      intro i
      have := h.last i
      unfold Estimation.solve gmmSolve at this
      rw [if_neg (by simp), gmmLoop_last _ _ _ _ _ _ (Or.inr ⟨rfl, rfl⟩)] at this
      rw [← Option.some.inj this]
      rfl
    rcases h.starts with hs | ⟨hs, hd, -⟩
    · refine Eventually.of_forall fun i => ?_
      rw [e, hs]
      exact posDef_symm h.initial
    · filter_upwards [default_symm h hF hd] with i hi
      rw [e, show (s i).W = (E i).defaultWeights from hs i]
      exact hi
  | twoStep =>
    refine Eventually.of_forall fun i => ?_
    have := h.last i
    unfold Estimation.solve gmmSolve at this
    rw [if_neg (by simp), gmmLoop_next _ _ _ _ _ _ (by simp), gmmLoop_last _ _ _ _ _ _ (Or.inl le_rfl)] at this
    rw [← Option.some.inj this]
    ext a c
    change gmmWeights _ (Sum.inl (Sum.inl c)) (Sum.inl (Sum.inl a)) = gmmWeights _ (Sum.inl (Sum.inl a)) (Sum.inl (Sum.inl c))
    unfold gmmWeights symmetrized
    rw [add_comm]

/-- Parameters at which results are computed. -/
def lastTheta (h : Spec.NonlinearSamples μ law M Θ theta0 beta0 w E o method wType W0 s r) (i : ℕ × Ω) : Θ := ⟨(r i).theta, (h.minimizes i _ (last_mem h i)).1⟩

lemma rank_det (h : Spec.NonlinearErrors μ law M slope Θ theta0 beta0 w E o method wType seType W0 s r) {W : Matrix (MomentIndex m) (MomentIndex m) ℝ}
    (hW : W.PosDef) : ((M.jacobian law slope theta0 beta0)ᵀ * W * M.jacobian law slope theta0 beta0).det ≠ 0 := by
  have h1 := (hW.conjTranspose_mul_mul_same h.rank).det_pos.ne'
  rwa [Matrix.conjTranspose_eq_transpose_of_trivial] at h1

/-- Reported covariances converge to asymptotic ones. -/
lemma nonlinear_covariances {F : Filter (ℕ × Ω)} (h : Spec.NonlinearErrors μ law M slope Θ theta0 beta0 w E o method wType seType W0 s r)
    (hF : UniformAverages q d law M Θ beta0 w F) (hS : SlopeAverages law M Θ slope w F)
    (hvalid : Spec.Valid (M.at theta0 beta0) law method (Spec.lastWeights (M.at theta0 beta0) law method false wType W0) seType) :
    Tendsto (fun i => (E i).parameterCovariances (r i)) F (𝓝 (symmetrized (Spec.variance (M.jacobian law slope theta0 beta0)
      (Spec.lastWeights (M.at theta0 beta0) law method false wType W0) ((M.at theta0 beta0).covariances law .clustered)))) := by
  have h' := h.toNonlinearSamples
  have hE : ∀ i : ℕ × Ω, ∀ theta ∈ Θ, Spec.Sampled (M.at theta beta0) (fun t => w t i.2) i.1 (E i) (o i theta) beta0 := fun i => h.sampled i.1 i.2
  have hw := nonlinear_weights h' hF
  have hk : Tendsto (lastTheta h') F (𝓝 ⟨theta0, h.regular.inside⟩) := nonlinear_step h' hF (last_mem h') (last_posDef h') hw.1
  have hout : ∀ i, (E i).outcome (r i) = o i (lastTheta h' i) := fun i => outcome_eq h' (last_mem h' i)
  set W := Spec.lastWeights (M.at theta0 beta0) law method false wType W0 with hWdef
  set J0 := M.jacobian law slope theta0 beta0 with hJ0
  have hWp : W.PosDef := last_posDef h'
  have hJ : Tendsto (fun i => (E i).jacobian (r i)) F (𝓝 (J0.submatrix onlyMoments id)) := by
    have h1 := tendsto_sampleJacobian hF hS h.regular hE (z := fun i _ => lastTheta h' i) fun _ => hk
    simp only [fun i => jacobian_sample (hout i) (h.locations i) (hE i _ (lastTheta h' i).2) (h.slopes i.1 i.2 _ (lastTheta h' i).2)]
    exact tendsto_matrix.mpr fun a l => tendsto_matrix.mp h1 _ _
  have hrep : ∀ i, (E i).reportedCovariances (r i) = (E i).momentCovariances seType false (r i).start.W (o i (lastTheta h' i)) [] := by
    intro i
    rw [C97_reported (E i) (h.computes i).sort, ← C97_covariances (E i) (h.computes i).sort, hout, (h.computes i).resampled, h.errors]
  have hl := limits_at hF h.regular hE le_rfl hk
  have h0 : ((limitSlopes (rowLimit (q := q) (θ := Empty) (d := d) (M.at theta0 beta0) law))ᵀ * W.submatrix onlyMoments onlyMoments *
      limitSlopes (rowLimit (q := q) (θ := Empty) (d := d) (M.at theta0 beta0) law)).det ≠ 0 := by
    rw [limitSlopes_eq, det_product]
    exact identified_det h.regular h.identified hWp
  have hcov : Tendsto (fun i => (E i).reportedCovariances (r i)) F (𝓝 (((M.at theta0 beta0).covariances law seType).submatrix onlyMoments onlyMoments)) := by
    have h1 := tendsto_momentCovariances (fun i => linear_forget (h.computes i) (o i (lastTheta h' i))) (positive_at hF h.regular hE) hl
      (exogenous_limit h.regular.truth) hw.1 h0 seType false
    rw [limitCovariances_eq] at h1
    simp only [hrep]
    exact h1
  set W1 : Matrix (MomentIndex m) (MomentIndex m) ℝ :=
    if seType.isUnadjusted && lastStep method == 1 then ((M.at theta0 beta0).covariances law seType)⁻¹ else W with hW1
  have hun : (seType.isUnadjusted && lastStep method == 1) = true → ((M.at theta0 beta0).covariances law seType).det ≠ 0 ∧
      (J0ᵀ * ((M.at theta0 beta0).covariances law seType)⁻¹ * J0).det ≠ 0 := by
    intro hc
    have hs : seType = .unadjusted := by cases seType <;> simp_all [CovarianceType.isUnadjusted]
    subst hs
    obtain ⟨h1, hdet, c, hc, -, hWc⟩ := hvalid
    refine ⟨by rw [h1]; exact hdet, ?_⟩
    have h2 := rank_det h hWp
    rw [hWc, Matrix.mul_smul, Matrix.smul_mul, Matrix.det_smul] at h2
    rw [h1]
    exact right_ne_zero_of_mul h2
  have hWc : Tendsto (fun i => (E i).weightsForCovariances (r i)) F (𝓝 (W1.submatrix onlyMoments onlyMoments)) := by
    unfold Estimation.weightsForCovariances
    simp only [h.errors, hw.2]
    by_cases hb : (seType.isUnadjusted && lastStep method == 1) = true
    · simp only [hb, if_true] at hW1 ⊢
      have h1 := tendsto_gmmWeights (fun i => linear_forget (h.computes i) (o i (lastTheta h' i))) (positive_at hF h.regular hE) hl
        (exogenous_limit h.regular.truth) hw.1 h0 seType false (by rw [limitCovariances_eq, Matrix.det_submatrix_equiv_self]; exact (hun hb).1)
      rw [limitCovariances_eq, Matrix.inv_submatrix_equiv] at h1
      simp only [hrep]
      rw [hW1]
      exact h1
    · simp only [hb] at hW1 ⊢
      rw [hW1]
      exact hw.1
  have hd1 : (J0ᵀ * W1 * J0).det ≠ 0 := by
    by_cases hb : (seType.isUnadjusted && lastStep method == 1) = true
    · simp only [hb, if_true] at hW1
      rw [hW1]
      exact (hun hb).2
    · simp only [hb] at hW1
      rw [hW1]
      exact rank_det h hWp
  have h2 := tendsto_reported h.computes h.errors hJ hWc hcov (by
    have := det_product onlyMoments (Equiv.refl (θ ⊕ b ⊕ g)) J0 W1 (c' := (MomentIndex m ⊕ q) ⊕ d)
    exact fun h0 => hd1 (this.symm.trans h0))
  rwa [limitParameterCovariances_submatrix, limitParameterCovariances_valid J0 W (posDef_symm hWp) (rank_det h hWp) hvalid] at h2

lemma nonlinear_reported {F : Filter (ℕ × Ω)} (h : Spec.NonlinearErrors μ law M slope Θ theta0 beta0 w E o method wType seType W0 s r)
    (hF : UniformAverages q d law M Θ beta0 w F) (hS : SlopeAverages law M Θ slope w F)
    (hvalid : Spec.Valid (M.at theta0 beta0) law method (Spec.lastWeights (M.at theta0 beta0) law method false wType W0) seType) (p : θ ⊕ b ⊕ g) :
    Tendsto (fun i => (E i).parameterCovariances (r i) p p) F (𝓝 (Spec.variance (M.jacobian law slope theta0 beta0)
      (Spec.lastWeights (M.at theta0 beta0) law method false wType W0) ((M.at theta0 beta0).covariances law .clustered) p p)) := by
  have h3 := tendsto_matrix.mp (nonlinear_covariances h hF hS hvalid) p p
  have e : ∀ A : Matrix (θ ⊕ b ⊕ g) (θ ⊕ b ⊕ g) ℝ, symmetrized A p p = A p p := fun A => by
    unfold symmetrized
    ring
  rw [e] at h3
  exact h3

/-- Estimates and moments at these are linear in averages of moments at the truth. -/
lemma nonlinear_expansion {F : Filter (ℕ × Ω)} (h : Spec.NonlinearErrors μ law M slope Θ theta0 beta0 w E o method wType seType W0 s r)
    (hF : UniformAverages q d law M Θ beta0 w F) (hS : SlopeAverages law M Θ slope w F) :
    ∃ (A : ℕ × Ω → Matrix (θ ⊕ b ⊕ g) (MomentIndex m) ℝ) (K : ℕ × Ω → Matrix (MomentIndex m) (θ ⊕ b ⊕ g) ℝ),
      Tendsto A F (𝓝 (-Spec.gain (M.jacobian law slope theta0 beta0) (Spec.lastWeights (M.at theta0 beta0) law method false wType W0))) ∧
      Tendsto K F (𝓝 (M.jacobian law slope theta0 beta0)) ∧
      ∀ᶠ i in F, Spec.estimates (E i) (r i) - Sum.elim theta0 beta0 = A i *ᵥ averageMoments (M.at theta0 beta0) w N i ∧
        ∀ a, (E i).meanMoments (r i).start.W ((E i).outcome (r i)) (.inl (.inl a)) =
          (averageMoments (M.at theta0 beta0) w N i + K i *ᵥ (A i *ᵥ averageMoments (M.at theta0 beta0) w N i)) a := by
  have h' := h.toNonlinearSamples
  have hE : ∀ i : ℕ × Ω, ∀ theta ∈ Θ, Spec.Sampled (M.at theta beta0) (fun t => w t i.2) i.1 (E i) (o i theta) beta0 := fun i => h.sampled i.1 i.2
  have hw := (nonlinear_weights h' hF).1
  have hk : Tendsto (lastTheta h') F (𝓝 ⟨theta0, h.regular.inside⟩) := nonlinear_step h' hF (last_mem h') (last_posDef h') hw
  have hout : ∀ i, (E i).outcome (r i) = o i (lastTheta h' i) := fun i => outcome_eq h' (last_mem h' i)
  have hWp : (Spec.lastWeights (M.at theta0 beta0) law method false wType W0).PosDef := last_posDef h'
  have hV : Tendsto (fun i => Spec.momentWeights (r i).start.W) F (𝓝 (Spec.lastWeights (M.at theta0 beta0) law method false wType W0)) :=
    tendsto_matrix.mpr fun a c => tendsto_matrix.mp hw (.inl (.inl a)) (.inl (.inl c))
  obtain ⟨A, K, hA, hK, he⟩ := nonlinear_deviation h.computes hF hS h.regular h.differentiable hE hV (last_symm h' hF)
    (identified_det h.regular h.identified hWp) (rank_det h hWp) hk fun i theta hθ => by
      rw [← weights_eq, ← hout]
      exact (h.minimizes i _ (last_mem h' i)).2 theta hθ
  refine ⟨A, K, hA, hK, ?_⟩
  filter_upwards [he] with i hi
  rw [← weights_eq] at hi
  refine ⟨hi.1 ▸ ?_, fun a => by rw [hout]; exact hi.2 a⟩
  unfold Spec.estimates
  rw [hout]
  funext p
  rcases p with p | l <;> rfl

lemma nonlinear_estimate {F : Filter (ℕ × Ω)} (h : Spec.NonlinearErrors μ law M slope Θ theta0 beta0 w E o method wType seType W0 s r)
    (hF : UniformAverages q d law M Θ beta0 w F) (hS : SlopeAverages law M Θ slope w F) (p : θ ⊕ b ⊕ g) :
    ∃ A : ℕ × Ω → MomentIndex m → ℝ, (∀ a, Tendsto (fun i => A i a) F (𝓝 (-Spec.gain (M.jacobian law slope theta0 beta0)
      (Spec.lastWeights (M.at theta0 beta0) law method false wType W0) p a))) ∧
      ∀ᶠ i in F, Spec.estimates (E i) (r i) p - Sum.elim theta0 beta0 p =
        ∑ a, A i a * ((∑ t ∈ Finset.range i.1, clusterMoment (M.at theta0 beta0) a (w t i.2)) / N i) := by
  obtain ⟨A, K, hA, -, he⟩ := nonlinear_expansion h hF hS
  exact ⟨fun i a => A i p a, fun a => tendsto_matrix.mp hA p a, he.mono fun i hi => congrFun hi.1 p⟩

lemma nonlinear_normal [IsProbabilityMeasure μ] (h : Spec.NonlinearErrors μ law M slope Θ theta0 beta0 w E o method wType seType W0 s r)
    (hvalid : Spec.Valid (M.at theta0 beta0) law method (Spec.lastWeights (M.at theta0 beta0) law method false wType W0) seType) (p : θ ⊕ b ⊕ g)
    (hpos : 0 < Spec.variance (M.jacobian law slope theta0 beta0) (Spec.lastWeights (M.at theta0 beta0) law method false wType W0)
      ((M.at theta0 beta0).covariances law .clustered) p p) {B : Set ℝ}
    (hB : gaussianReal 0 1 (frontier B) = 0) {Y : ℕ × Ω → ℝ}
    (hY : ∀ i, 0 < (E i).standardErrors (r i) p → Y i = (Spec.estimates (E i) (r i) p - Sum.elim theta0 beta0 p) / (E i).standardErrors (r i) p) :
    Tendsto (fun T => μ {ω | Y (T, ω) ∈ B}) atTop (𝓝 (gaussianReal 0 1 B)) := by
  have hE : ∀ i : ℕ × Ω, ∀ theta ∈ Θ, Spec.Sampled (M.at theta beta0) (fun t => w t i.2) i.1 (E i) (o i theta) beta0 := fun i => h.sampled i.1 i.2
  have hF := uniformAverages_probably (q := q) (d := d) h.compact h.regular h.draws
  have hS := slopeAverages_probably h.compact h.regular h.differentiable h.draws
  have h1 := nonlinear_reported h hF hS hvalid p
  obtain ⟨A, hA, he⟩ := nonlinear_estimate h hF hS p
  have hrows : Tendsto (fun i => (N i : ℝ) / i.1) (probably μ) (𝓝 (∫ x, (M.size x : ℝ) ∂law)) :=
    hF.rows (E := fun i => forgetProblem (E i) (o i theta0)) (o := fun i => forgetEvaluated (o i theta0)) (k := fun _ => ⟨theta0, h.regular.inside⟩)
      fun i => sampled_forget (hE i _ h.regular.inside)
  refine studentized_normal h.draws h.independent (measurable_clusterMoment h.regular.truth) (memLp_clusterMoment h.regular.truth)
    (integral_clusterMoment h.regular.truth) h.regular.truth.nonempty hrows hA hpos h1 he ?_ hB ?_
  · unfold Spec.variance
    simp only [Matrix.mul_apply, Matrix.transpose_apply, Finset.sum_mul, neg_mul, mul_neg, neg_neg]
    rw [Finset.sum_comm]
    rfl
  · filter_upwards [h1.eventually (lt_mem_nhds hpos), positive_at hF h.regular hE] with i hv hi
    have hN : (0 : ℝ) < N i := by exact_mod_cast hi
    exact hY i (Real.sqrt_pos.mpr (div_pos hv hN))

/-! ## Theorems -/

/-- **C134, standard errors.** With probability one, squared standard errors times the number of products converge to asymptotic variances of estimates, for
nonlinear and linear parameters. This is so for clustered ones always, for robust ones if moments are not correlated within clusters, and for unadjusted ones if
errors are also homoskedastic and weights are optimal. -/
theorem C134_standard_errors (h : Spec.NonlinearErrors μ law M slope Θ theta0 beta0 w E o method wType seType W0 s r)
    (hvalid : Spec.Valid (M.at theta0 beta0) law method (Spec.lastWeights (M.at theta0 beta0) law method false wType W0) seType) (p : θ ⊕ b ⊕ g)
    (hpos : 0 < Spec.variance (M.jacobian law slope theta0 beta0) (Spec.lastWeights (M.at theta0 beta0) law method false wType W0)
      ((M.at theta0 beta0).covariances law .clustered) p p) :
    ∀ᵐ ω ∂μ, Tendsto (fun T => (N (T, ω) : ℝ) * (E (T, ω)).standardErrors (r (T, ω)) p ^ 2) atTop
      (𝓝 (Spec.variance (M.jacobian law slope theta0 beta0) (Spec.lastWeights (M.at theta0 beta0) law method false wType W0)
        ((M.at theta0 beta0).covariances law .clustered) p p)) := by
  filter_upwards [uniformAverages_ae (q := q) (d := d) h.compact h.regular h.draws, slopeAverages_ae h.compact h.regular h.differentiable h.draws]
    with ω hF hS
  have hE : ∀ i : ℕ × Ω, ∀ theta ∈ Θ, Spec.Sampled (M.at theta beta0) (fun t => w t i.2) i.1 (E i) (o i theta) beta0 := fun i => h.sampled i.1 i.2
  have h1 := nonlinear_reported h hF hS hvalid p
  have h2 : Tendsto (fun i : ℕ × Ω => (N i : ℝ) * (E i).standardErrors (r i) p ^ 2) (map (fun T => (T, ω)) atTop)
      (𝓝 (Spec.variance (M.jacobian law slope theta0 beta0) (Spec.lastWeights (M.at theta0 beta0) law method false wType W0)
        ((M.at theta0 beta0).covariances law .clustered) p p)) := by
    refine h1.congr' ?_
    filter_upwards [positive_at hF h.regular hE, h1.eventually (lt_mem_nhds hpos)] with i hi hv
    have hN : (0 : ℝ) < N i := by exact_mod_cast hi
    unfold Estimation.standardErrors
    rw [Real.sq_sqrt (div_pos hv hN).le]
    field_simp
  rw [tendsto_map'_iff] at h2
  exact h2

/-- **C134, asymptotic normality.** Differences between estimates and the truth relative to standard errors, that is, t-statistics, have distributions that
converge to the standard normal distribution. -/
theorem C134_normal [IsProbabilityMeasure μ] (h : Spec.NonlinearErrors μ law M slope Θ theta0 beta0 w E o method wType seType W0 s r)
    (hvalid : Spec.Valid (M.at theta0 beta0) law method (Spec.lastWeights (M.at theta0 beta0) law method false wType W0) seType) (p : θ ⊕ b ⊕ g)
    (hpos : 0 < Spec.variance (M.jacobian law slope theta0 beta0) (Spec.lastWeights (M.at theta0 beta0) law method false wType W0)
      ((M.at theta0 beta0).covariances law .clustered) p p) (c : ℝ) :
    Tendsto (fun T => μ {ω | (Spec.estimates (E (T, ω)) (r (T, ω)) p - Sum.elim theta0 beta0 p) / (E (T, ω)).standardErrors (r (T, ω)) p ≤ c}) atTop
      (𝓝 (gaussianReal 0 1 (Set.Iic c))) := by
  have hB : gaussianReal 0 1 (frontier (Set.Iic c)) = 0 := by
    rw [frontier_Iic]
    have := nullSingletonClass_gaussianReal (μ := 0) (v := 1) one_ne_zero
    exact measure_singleton c
  exact nonlinear_normal h hvalid p hpos hB (Y := fun i => (Spec.estimates (E i) (r i) p - Sum.elim theta0 beta0 p) / (E i).standardErrors (r i) p) fun i _ => rfl

/-- **C134, confidence intervals.** The probability that the truth is within `c` standard errors of estimates converges to the probability that a standard
normal variable is between `-c` and `c`. -/
theorem C134_coverage [IsProbabilityMeasure μ] (h : Spec.NonlinearErrors μ law M slope Θ theta0 beta0 w E o method wType seType W0 s r)
    (hvalid : Spec.Valid (M.at theta0 beta0) law method (Spec.lastWeights (M.at theta0 beta0) law method false wType W0) seType) (p : θ ⊕ b ⊕ g)
    (hpos : 0 < Spec.variance (M.jacobian law slope theta0 beta0) (Spec.lastWeights (M.at theta0 beta0) law method false wType W0)
      ((M.at theta0 beta0).covariances law .clustered) p p) (c : ℝ) (hc : 0 ≤ c) :
    Tendsto (fun T => μ {ω | Sum.elim theta0 beta0 p ∈ Set.Icc
      (Spec.estimates (E (T, ω)) (r (T, ω)) p - c * (E (T, ω)).standardErrors (r (T, ω)) p)
      (Spec.estimates (E (T, ω)) (r (T, ω)) p + c * (E (T, ω)).standardErrors (r (T, ω)) p)}) atTop (𝓝 (gaussianReal 0 1 (Set.Icc (-c) c))) := by
  have hB : gaussianReal 0 1 (frontier (Set.Icc (-c) c)) = 0 := by
    rw [frontier_Icc (by linarith)]
    have := nullSingletonClass_gaussianReal (μ := 0) (v := 1) one_ne_zero
    exact (Set.toFinite _).measure_zero _
  classical
  set x : ℝ := Sum.elim theta0 beta0 p with hx
  set e : ℕ × Ω → ℝ := fun i => Spec.estimates (E i) (r i) p with he
  set v : ℕ × Ω → ℝ := fun i => (E i).standardErrors (r i) p with hv
  have h1 := nonlinear_normal h hvalid p hpos hB (Y := fun i => if 0 < v i then (e i - x) / v i else
      if x ∈ Set.Icc (e i - c * v i) (e i + c * v i) then 0 else c + 1) fun i hi => if_pos hi
  refine h1.congr fun T => ?_
  congr 1
  ext ω
  rw [Set.mem_ofPred_eq, Set.mem_ofPred_eq]
  change (if 0 < v (T, ω) then (e (T, ω) - x) / v (T, ω) else if x ∈ Set.Icc (e (T, ω) - c * v (T, ω)) (e (T, ω) + c * v (T, ω)) then 0 else c + 1) ∈
    Set.Icc (-c) c ↔ x ∈ Set.Icc (e (T, ω) - c * v (T, ω)) (e (T, ω) + c * v (T, ω))
  by_cases hp : 0 < v (T, ω)
  · rw [if_pos hp, Set.mem_Icc, Set.mem_Icc, le_div_iff₀ hp, div_le_iff₀ hp]
    constructor
    · rintro ⟨h2, h3⟩
      constructor <;> linarith
    · rintro ⟨h2, h3⟩
      constructor <;> linarith
  · rw [if_neg hp]
    by_cases hin : x ∈ Set.Icc (e (T, ω) - c * v (T, ω)) (e (T, ω) + c * v (T, ω))
    · rw [if_pos hin]
      exact ⟨fun _ => hin, fun _ => ⟨by linarith, hc⟩⟩
    · rw [if_neg hin]
      exact ⟨fun h2 => absurd h2.2 (by linarith), fun h2 => absurd h2 hin⟩

end

/-! ## The hypotheses can be met -/

section Witness

variable {b : Type} [Fintype b]

/-- Derivatives of mean utilities. -/
noncomputable def signSlope (theta : Unit → ℝ) (x : Bool × Bool) (_ : Fin 1 ⊕ Fin 0) (_ : ℕ) (_ : Unit) : ℝ := -Real.exp (theta ()) * sign x.1

lemma signModel_differentiable (theta0 c : ℝ) : (signModel b theta0 c).Differentiable signs (signSet theta0) (fun _ => theta0) signSlope where
  interior := by
    unfold signSet
    rw [← Set.pi_univ_Icc]
    exact set_pi_mem_nhds Set.finite_univ fun _ _ => Icc_mem_nhds (by linarith) (by linarith)
  convex := convex_Icc _ _
  derivative theta _ x e j := by
    have h1 : HasFDerivAt (fun theta : Unit → ℝ => theta ()) (ContinuousLinearMap.proj (R := ℝ) (φ := fun _ : Unit => ℝ) ()) theta :=
      (ContinuousLinearMap.proj (R := ℝ) (φ := fun _ : Unit => ℝ) ()).hasFDerivAt
    have h2 := (((h1.exp.const_sub (Real.exp theta0)).mul_const (sign x.1)).const_add (c + sign x.2)).hasFDerivWithinAt (s := signSet theta0)
    refine h2.congr_fderiv ?_
    ext v
    simp [Spec.linearFunction, signSlope]
    ring
  continuous x e j p := by
    have : Continuous fun theta : Unit → ℝ => signSlope theta x e j p := by
      unfold signSlope
      fun_prop
    exact this.continuousOn
  measurable _ _ _ _ _ := measurable_of_finite _
  bounded := by
    refine ⟨fun _ _ _ => Real.exp (theta0 + 1), fun theta hθ x e j p => ?_, fun _ _ => (signs_memLp _).integrable (by norm_num)⟩
    have hs : |sign x.1| = 1 := by cases x.1 <;> simp [sign]
    unfold signSlope
    rw [abs_mul, hs, mul_one, abs_neg, abs_of_pos (Real.exp_pos _)]
    exact Real.exp_le_exp.mpr (hθ.2 ())

lemma signModel_jacobian (theta0 beta0 c : ℝ) (e : Fin 1 ⊕ Fin 0) (a : Bool) :
    (signModel b theta0 c).jacobian signs signSlope (fun _ => theta0) (fun _ => beta0) ⟨e, a⟩ =
      Sum.elim (fun _ => if a then -Real.exp theta0 else 0) fun _ => if a then 0 else -1 := by
  ext p
  rcases p with p | p
  · simp only [Spec.Models.jacobian, Matrix.of_apply, Sum.elim_inl, signModel_average]
    cases a <;> simp [signModel, signSlope, sign]
    ring
  · simp only [Spec.Models.jacobian, Matrix.of_apply, Sum.elim_inr, signModel_average]
    cases a <;> simp [signModel, sign]
    norm_num

lemma signModel_rank [Subsingleton b] (theta0 beta0 c : ℝ) :
    Function.Injective ((signModel b theta0 c).jacobian signs signSlope (fun _ => theta0) (fun _ => beta0)).mulVec := by
  intro u v huv
  have h1 := congrFun huv ⟨.inl 0, true⟩
  have h2 := congrFun huv ⟨.inl 0, false⟩
  simp only [Matrix.mulVec, signModel_jacobian, dotProduct, Fintype.sum_sum_type, Finset.univ_unique, Finset.sum_singleton, Sum.elim_inl, Sum.elim_inr,
    Finset.univ_eq_empty, Finset.sum_empty] at h1 h2
  simp at h1 h2
  ext p
  rcases p with p | p | p
  · exact h1
  · rwa [Fintype.sum_subsingleton _ p, Fintype.sum_subsingleton _ p] at h2
  · exact p.elim

lemma signErrors [DecidableEq b] [Subsingleton b] (theta0 : ℝ) {beta0 c : ℝ} (hb : ∑ _l : b, beta0 = c) (type : CovarianceType) :
    ∃ (minimum : ℕ × (ℕ → Bool × Bool) → ℕ → Unit → ℝ)
      (s : ℕ × (ℕ → Bool × Bool) → GmmState (Estimation.Weights (fun _ : Fin 1 ⊕ Fin 0 => Bool) Empty Empty) (Unit → ℝ) Unit)
      (r : ℕ × (ℕ → Bool × Bool) → StepResults (Estimation.Weights (fun _ : Fin 1 ⊕ Fin 0 => Bool) Empty Empty) (Unit → ℝ) Unit),
      Spec.NonlinearErrors (Measure.infinitePi fun _ : ℕ => signs) signs (signModel b theta0 c) signSlope (signSet theta0) (fun _ => theta0)
        (fun _ => beta0) (fun t ω => ω t) (N := fun i => i.1) (fun i => signProblem b theta0 c i.1 i.2 type (minimum i))
        (fun i => signEvaluated theta0 c i.1 i.2) .twoStep type type 1 s r := by
  obtain ⟨minimum, s, r, h⟩ := signSamples theta0 hb type
  refine ⟨minimum, s, r, ⟨h, iIndepFun_infinitePi (P := fun _ : ℕ => signs) (X := fun _ x => x) fun _ => measurable_id, fun _ => rfl,
    signModel_differentiable _ _, fun T ω theta _ => ?_, fun _ _ => rfl, signModel_rank _ _ _⟩⟩
  refine ⟨⟨fun i => ⟨i, (0 : Fin 1)⟩, fun p => p.1, fun _ => rfl, ?_⟩, fun i e a => rfl, ?_⟩
  · rintro ⟨t, j⟩
    have : j = (0 : Fin 1) := Fin.fin_one_eq_zero j
    rw [this]
  · rintro i (e | e) p
    · rfl
    · exact e.elim0

lemma signWeights (theta0 : ℝ) {beta0 c : ℝ} (hb : ∑ _l : b, beta0 = c) (type : CovarianceType) :
    Spec.lastWeights ((signModel b theta0 c).at (fun _ => theta0) fun _ => beta0) signs .twoStep false type 1 = 1 := by
  simp [Spec.lastWeights, signModel_covariances _ hb]

lemma signVariance [DecidableEq b] [Subsingleton b] (theta0 : ℝ) {beta0 c : ℝ} (hb : ∑ _l : b, beta0 = c) (type : CovarianceType) :
    (Spec.variance ((signModel b theta0 c).jacobian signs signSlope (fun _ => theta0) fun _ => beta0)
      (Spec.lastWeights ((signModel b theta0 c).at (fun _ => theta0) fun _ => beta0) signs .twoStep false type 1)
      (((signModel b theta0 c).at (fun _ => theta0) fun _ => beta0).covariances signs .clustered)).PosDef := by
  set J := (signModel b theta0 c).jacobian signs signSlope (fun _ => theta0) fun _ => beta0 with hJ
  rw [signWeights _ hb, signModel_covariances _ hb]
  unfold Spec.variance Spec.gain
  have hp : (Jᵀ * J).PosDef := by
    have h1 := (Matrix.PosDef.one (n := MomentIndex fun _ : Fin 1 ⊕ Fin 0 => Bool) (R := ℝ)).conjTranspose_mul_mul_same (signModel_rank (b := b) theta0 beta0 c)
    rwa [Matrix.mul_one, Matrix.conjTranspose_eq_transpose_of_trivial] at h1
  simp only [Matrix.mul_one]
  rw [Matrix.transpose_mul, Matrix.transpose_transpose, Matrix.transpose_nonsing_inv, Matrix.transpose_mul, Matrix.transpose_transpose, Matrix.mul_assoc,
    ← Matrix.mul_assoc Jᵀ, Matrix.mul_nonsing_inv _ (isUnit_iff_ne_zero.mpr hp.det_pos.ne'), Matrix.mul_one]
  exact hp.inv

/-- Everything that is assumed is true of the population with random signs, for each type of covariances and all true parameters. Standard errors of each type
are valid, and asymptotic variances are positive. -/
example (theta0 beta0 : ℝ) (type : CovarianceType) :
    (∃ (N : ℕ × (ℕ → Bool × Bool) → ℕ) (E : ∀ i, Estimation (N i) 1 0 (fun _ => Bool) Empty Unit Empty Unit Empty ℕ Unit)
      (o : ∀ i, (Unit → ℝ) → Evaluated (N i) Unit Empty)
      (s : ℕ × (ℕ → Bool × Bool) → GmmState (Estimation.Weights (fun _ : Fin 1 ⊕ Fin 0 => Bool) Empty Empty) (Unit → ℝ) Unit)
      (r : ℕ × (ℕ → Bool × Bool) → StepResults (Estimation.Weights (fun _ : Fin 1 ⊕ Fin 0 => Bool) Empty Empty) (Unit → ℝ) Unit),
      Spec.NonlinearErrors (Measure.infinitePi fun _ : ℕ => signs) signs (signModel Unit theta0 beta0) signSlope (signSet theta0) (fun _ => theta0)
        (fun _ => beta0) (fun t ω => ω t) E o .twoStep type type 1 s r) ∧
    Spec.Valid ((signModel Unit theta0 beta0).at (fun _ => theta0) fun _ => beta0) signs .twoStep
      (Spec.lastWeights ((signModel Unit theta0 beta0).at (fun _ => theta0) fun _ => beta0) signs .twoStep false type 1) type ∧
    ∀ p, 0 < Spec.variance ((signModel Unit theta0 beta0).jacobian signs signSlope (fun _ => theta0) fun _ => beta0)
      (Spec.lastWeights ((signModel Unit theta0 beta0).at (fun _ => theta0) fun _ => beta0) signs .twoStep false type 1)
      (((signModel Unit theta0 beta0).at (fun _ => theta0) fun _ => beta0).covariances signs .clustered) p p := by
  have hb : ∑ _l : Unit, beta0 = beta0 := by simp
  obtain ⟨minimum, s, r, h⟩ := signErrors theta0 hb type
  refine ⟨⟨_, _, _, s, r, h⟩, ?_, fun p => (signVariance theta0 hb type).diag_pos⟩
  rw [signWeights _ hb]
  cases type with
  | clustered => trivial
  | robust => exact (signModel_covariances _ hb _).trans (signModel_covariances _ hb _).symm
  | unadjusted =>
    refine ⟨(signModel_covariances _ hb _).trans (signModel_covariances _ hb _).symm, ?_, 1, one_ne_zero, fun _ => rfl, ?_⟩
    · rw [signModel_covariances _ hb]
      simp
    · rw [signModel_covariances _ hb]
      simp

end Witness

end Pyblp
