import Mathlib.Probability.CDF
import Verif.Lemmas.BootstrapLimit
import Verif.Model.BootstrapSampling
import Verif.Props.NonlinearTests

/-!
# C137: bootstrapped parameters in large samples

Distributions of bootstrapped parameters, and of functions of these, are those of estimates around the truth.
-/

set_option linter.unusedSectionVars false

open MeasureTheory ProbabilityTheory Filter Topology Matrix

namespace Pyblp

open Pyblp.Sampling Pyblp.Asymptotic Pyblp.Bootstrapping

section

variable {C Ω : Type} {nd ns : ℕ} {m : Fin nd ⊕ Fin ns → Type} {q b g θ d ι D : Type} [∀ e, Fintype (m e)] [Fintype q] [Fintype b] [Fintype g]
  [Fintype θ] [Fintype d] [LinearOrder ι] [∀ e, DecidableEq (m e)] [DecidableEq q] [DecidableEq b] [DecidableEq g] [DecidableEq θ] [DecidableEq d]
  [MeasurableSpace C] [MeasurableSpace Ω] [IsEmpty q] [IsEmpty d] {μ : Measure Ω} {law : Measure C} {M : Spec.Models C m (b ⊕ g) θ}
  {slope : (θ → ℝ) → C → Fin nd ⊕ Fin ns → ℕ → θ → ℝ} {Θ : Set (θ → ℝ)} {theta0 : θ → ℝ} {beta0 : b ⊕ g → ℝ}
  {w : ℕ → Ω → C} {N : ℕ × Ω → ℕ} {E : ∀ i, Estimation (N i) nd ns m q b g θ d ι D} {o : ∀ i, (θ → ℝ) → Evaluated (N i) θ d} {method : GmmMethod}
  {wType seType : CovarianceType} {W0 : Matrix (MomentIndex m) (MomentIndex m) ℝ} {s : ℕ × Ω → GmmState (Estimation.Weights m q d) (θ → ℝ) D}
  {r : ℕ × Ω → StepResults (Estimation.Weights m q d) (θ → ℝ) D}

/-! ## Lemmas -/

/-- Asymptotic covariances of estimates. -/
noncomputable abbrev limitV (law : Measure C) (M : Spec.Models C m (b ⊕ g) θ) (slope : (θ → ℝ) → C → Fin nd ⊕ Fin ns → ℕ → θ → ℝ) (theta0 : θ → ℝ)
    (beta0 : b ⊕ g → ℝ) (method : GmmMethod) (wType : CovarianceType) (W0 : Matrix (MomentIndex m) (MomentIndex m) ℝ) : Matrix (θ ⊕ b ⊕ g) (θ ⊕ b ⊕ g) ℝ :=
  Spec.variance (M.jacobian law slope theta0 beta0) (Spec.lastWeights (M.at theta0 beta0) law method false wType W0)
    ((M.at theta0 beta0).covariances law .clustered)

lemma clipReal_eq {bounds : EReal × EReal} {x : ℝ} (h1 : bounds.1 ≤ x) (h2 : (x : EReal) ≤ bounds.2) : clipReal bounds x = x := by
  unfold clipReal
  rw [max_eq_left h1, min_eq_left h2, EReal.toReal_coe]

lemma eventually_clip {P : Type} [Fintype P] {bounds : P → EReal × EReal} {x0 : P → ℝ} (h : ∀ p, (bounds p).1 < x0 p ∧ (x0 p : EReal) < (bounds p).2) :
    ∀ᶠ y in 𝓝 x0, (fun p => clipReal (bounds p) (y p)) = y := by
  have h1 : ∀ᶠ y in 𝓝 x0, ∀ p, (bounds p).1 < (y p : EReal) ∧ (y p : EReal) < (bounds p).2 := by
    refine eventually_all.mpr fun p => ?_
    have hc : Tendsto (fun y : P → ℝ => (y p : EReal)) (𝓝 x0) (𝓝 (x0 p : EReal)) :=
      (continuous_coe_real_ereal.tendsto _).comp ((continuous_apply p).tendsto x0)
    exact (hc.eventually (lt_mem_nhds (h p).1)).and (hc.eventually (gt_mem_nhds (h p).2))
  exact h1.mono fun y hy => funext fun p => clipReal_eq (hy p).1.le (hy p).2.le

lemma functionVariance_eq {P : Type} [Fintype P] [DecidableEq P] (V : Matrix P P ℝ) (f : (P → ℝ) → ℝ) :
    Spec.functionVariance V f = (fun p => f (Pi.single p 1)) ⬝ᵥ (V *ᵥ fun p => f (Pi.single p 1)) := by
  unfold Spec.functionVariance dotProduct Matrix.mulVec dotProduct
  simp only [Finset.mul_sum, mul_assoc]

lemma gradient_apply {P : Type} [Fintype P] [DecidableEq P] (f' : (P → ℝ) →L[ℝ] ℝ) (h : P → ℝ) : f' h = (fun p => f' (Pi.single p 1)) ⬝ᵥ h := by
  have h1 := f'.toLinearMap.pi_apply_eq_sum_univ h
  simp only [ContinuousLinearMap.coe_coe, smul_eq_mul] at h1
  rw [h1]
  unfold dotProduct
  refine Finset.sum_congr rfl fun p _ => ?_
  rw [mul_comm]
  congr 2
  funext l
  simp [Pi.single_apply, eq_comm]

lemma functionVariance_pos {P : Type} [Fintype P] [DecidableEq P] {V : Matrix P P ℝ} (hV : V.PosDef) {f' : (P → ℝ) →L[ℝ] ℝ} (h : f' ≠ 0) :
    0 < Spec.functionVariance V f' := by
  rw [functionVariance_eq]
  have h0 : (fun p => f' (Pi.single p 1)) ≠ 0 := by
    intro h1
    refine h (ContinuousLinearMap.ext fun x => ?_)
    rw [gradient_apply f' x, h1, zero_dotProduct]
    rfl
  have := hV.dotProduct_mulVec_pos h0
  rwa [star_trivial] at this

/-- Estimates of all parameters are consistent. -/
lemma nonlinear_consistent {F : Filter (ℕ × Ω)} (h : Spec.NonlinearErrors μ law M slope Θ theta0 beta0 w E o method wType seType W0 s r)
    (hF : UniformAverages q d law M Θ beta0 w F) : Tendsto (fun i => (E i).parameters (r i)) F (𝓝 (Sum.elim theta0 beta0)) := by
  have h' := h.toNonlinearSamples
  have hE : ∀ i : ℕ × Ω, ∀ theta ∈ Θ, Spec.Sampled (M.at theta beta0) (fun t => w t i.2) i.1 (E i) (o i theta) beta0 := fun i => h.sampled i.1 i.2
  have hw := (nonlinear_weights h' hF).1
  have h1 := nonlinear_step h' hF (last_mem h') (last_posDef h') hw
  refine tendsto_pi_nhds.mpr fun p => ?_
  rcases p with p | l
  · exact tendsto_pi_nhds.mp ((continuous_subtype_val.tendsto _).comp h1) p
  · have h2 := beta_consistent h.computes hF h.regular h.identified hE (last_posDef h') hw h1 l
    refine h2.congr fun i => ?_
    simp only [Estimation.parameters, Sum.elim_inr, outcome_eq h' (last_mem h' i)]

lemma nonlinear_many {F : Filter (ℕ × Ω)} (h : Spec.NonlinearErrors μ law M slope Θ theta0 beta0 w E o method wType seType W0 s r)
    (hF : UniformAverages q d law M Θ beta0 w F) (hT : Tendsto (fun i : ℕ × Ω => i.1) F atTop) : Tendsto (fun i => (N i : ℝ)) F atTop := by
  have h1 := (nonlinear_rows h hF).pos_mul_atTop h.regular.truth.nonempty (tendsto_natCast_atTop_atTop.comp hT)
  refine h1.congr' ?_
  filter_upwards [hT.eventually_gt_atTop 0] with i hi
  have : (i.1 : ℝ) ≠ 0 := by exact_mod_cast hi.ne'
  simp only [Function.comp_apply]
  field_simp

lemma parameterCovariances_symm {n : ℕ} (E : Estimation n nd ns m q b g θ d ι D) (r : StepResults (Estimation.Weights m q d) (θ → ℝ) D) :
    (E.parameterCovariances r)ᵀ = E.parameterCovariances r := by
  unfold Estimation.parameterCovariances gmmParameterCovariances
  generalize (if E.seType.isUnadjusted = true then _ else _ : Matrix (θ ⊕ b ⊕ g) (θ ⊕ b ⊕ g) ℝ) = A
  ext p p'
  change (A p' p + A p p') / 2 = (A p p' + A p' p) / 2
  ring

/-- Functions of draws and estimates. -/
lemma bootstrapped_limit {F : Filter (ℕ × Ω)} (h : Spec.NonlinearErrors μ law M slope Θ theta0 beta0 w E o method wType seType W0 s r)
    (hF : UniformAverages q d law M Θ beta0 w F) (hS : SlopeAverages law M Θ slope w F) (hT : Tendsto (fun i : ℕ × Ω => i.1) F atTop)
    (hvalid : Spec.Valid (M.at theta0 beta0) law method (Spec.lastWeights (M.at theta0 beta0) law method false wType W0) seType)
    (hV : (limitV law M slope theta0 beta0 method wType W0).PosDef) {root : Matrix (θ ⊕ b ⊕ g) (θ ⊕ b ⊕ g) ℝ → Matrix (θ ⊕ b ⊕ g) (θ ⊕ b ⊕ g) ℝ}
    (hroot : Spec.ComputesRoots root) {bounds : θ ⊕ b ⊕ g → EReal × EReal}
    (hb : ∀ p, (bounds p).1 < (Sum.elim theta0 beta0 p : ℝ) ∧ ((Sum.elim theta0 beta0 p : ℝ) : EReal) < (bounds p).2)
    {f : (θ ⊕ b ⊕ g → ℝ) × (θ ⊕ b ⊕ g → ℝ) → ℝ} {f' : (θ ⊕ b ⊕ g → ℝ) × (θ ⊕ b ⊕ g → ℝ) →L[ℝ] ℝ}
    (hf : HasStrictFDerivAt f f' (Sum.elim theta0 beta0, Sum.elim theta0 beta0))
    (hpos : 0 < Spec.functionVariance (limitV law M slope theta0 beta0 method wType W0) fun x => f' (x, 0)) (c : ℝ) :
    Tendsto (fun i => (Spec.normals (θ ⊕ b ⊕ g)).real
      {z | √(N i) * (f ((E i).bootstrapped (r i) root bounds z, (E i).parameters (r i)) - f ((E i).parameters (r i), (E i).parameters (r i))) ≤ c}) F
      (𝓝 (phi (c / √(Spec.functionVariance (limitV law M slope theta0 beta0 method wType W0) fun x => f' (x, 0))))) := by
  have hcov := nonlinear_covariances h hF hS hvalid
  rw [symmetrized_of_symm _ (by unfold Spec.variance; exact sandwich_symm _ (clusters_symm _))] at hcov
  have hn := nonlinear_many h hF hT
  have hpd := eventually_posDef hcov hV fun i => parameterCovariances_symm (E i) (r i)
  rw [functionVariance_eq] at hpos ⊢
  refine (tendsto_draws hn (nonlinear_consistent h hF) hcov (B := fun i => root ((N i : ℝ)⁻¹ • (E i).parameterCovariances (r i))) ?_ hf
    (a := fun p => f' (Pi.single p 1, 0)) (fun x => ?_) (clip := fun y p => clipReal (bounds p) (y p)) (eventually_clip hb) hpos c).congr fun i => ?_
  · filter_upwards [hpd, hn.eventually_gt_atTop 0] with i hi hni
    exact hroot _ (hi.posSemidef.smul (inv_nonneg.mpr hni.le))
  · exact gradient_apply (f'.comp (ContinuousLinearMap.inl ℝ _ _)) x
  · rfl

/-- The delta method. -/
lemma nonlinear_delta [IsProbabilityMeasure μ] (h : Spec.NonlinearErrors μ law M slope Θ theta0 beta0 w E o method wType seType W0 s r)
    {f : (θ ⊕ b ⊕ g → ℝ) → ℝ} {f' : (θ ⊕ b ⊕ g → ℝ) →L[ℝ] ℝ} (hf : HasFDerivAt f f' (Sum.elim theta0 beta0))
    (hpos : 0 < Spec.functionVariance (limitV law M slope theta0 beta0 method wType W0) f') {B : Set ℝ} (hB : gaussianReal 0 1 (frontier B) = 0) :
    Tendsto (fun T => μ {ω | √(N (T, ω)) * (f ((E (T, ω)).parameters (r (T, ω))) - f (Sum.elim theta0 beta0)) /
      √(Spec.functionVariance (limitV law M slope theta0 beta0 method wType W0) f') ∈ B}) atTop (𝓝 (gaussianReal 0 1 B)) := by
  have hE : ∀ i : ℕ × Ω, ∀ theta ∈ Θ, Spec.Sampled (M.at theta beta0) (fun t => w t i.2) i.1 (E i) (o i theta) beta0 := fun i => h.sampled i.1 i.2
  have hF := uniformAverages_probably (q := q) (d := d) h.compact h.regular h.draws
  have hS := slopeAverages_probably h.compact h.regular h.differentiable h.draws
  set P0 : θ ⊕ b ⊕ g → ℝ := Sum.elim theta0 beta0 with hP0
  set v := Spec.functionVariance (limitV law M slope theta0 beta0 method wType W0) f' with hv
  obtain ⟨A, _, hA, -, he⟩ := nonlinear_expansion h hF hS
  set a : θ ⊕ b ⊕ g → ℝ := fun p => f' (Pi.single p 1) with ha
  obtain ⟨G, hG, hfG⟩ := exists_secants (f := fun x (_ : Unit) => f x - f P0) (x0 := P0) (R := Matrix.of fun _ p => a p) (by simp; rfl) (by
    rw [hasFDerivAt_pi']
    intro k
    refine (hf.sub_const (f P0)).congr_fderiv ?_
    ext x
    change f' x = ((Matrix.of fun (_ : Unit) p => a p) *ᵥ x) k
    rw [gradient_apply f' x]
    rfl)
  have hx := nonlinear_consistent h hF
  have hGA := tendsto_mul (hG.comp hx) hA
  have hn := nonlinear_rows h hF
  refine studentized_normal (Y := fun i => √(N i) * (f ((E i).parameters (r i)) - f P0) / √v) (v := fun _ => v) (A := fun i c => (G ((E i).parameters (r i)) * A i) () c) h.draws h.independent
    (measurable_clusterMoment h.regular.truth) (memLp_clusterMoment h.regular.truth) (integral_clusterMoment h.regular.truth) h.regular.truth.nonempty hn
    (fun c => tendsto_matrix.mp hGA () c) hpos tendsto_const_nhds (estimate := fun i => f ((E i).parameters (r i)) - f P0) ?_ ?_ hB ?_
  · filter_upwards [he] with i hi
    have h1 : f ((E i).parameters (r i)) - f P0 = (G ((E i).parameters (r i)) *ᵥ ((E i).parameters (r i) - P0)) () :=
      congrFun (hfG ((E i).parameters (r i))) ()
    rw [h1]
    have h2 : (E i).parameters (r i) - P0 = A i *ᵥ averageMoments (M.at theta0 beta0) w N i := hi.1
    rw [h2, Matrix.mulVec_mulVec]
    rfl
  · rw [hv, functionVariance_eq]
    unfold limitV Spec.variance
    set S := (M.at theta0 beta0).covariances law .clustered
    set K := Spec.gain (M.jacobian law slope theta0 beta0) (Spec.lastWeights (M.at theta0 beta0) law method false wType W0)
    have e : a ⬝ᵥ ((K * S * Kᵀ) *ᵥ a) = (a ᵥ* K) ⬝ᵥ (S *ᵥ (a ᵥ* K)) := by
      rw [← Matrix.mulVec_mulVec, ← Matrix.mulVec_mulVec, Matrix.mulVec_transpose, Matrix.dotProduct_mulVec]
    change a ⬝ᵥ ((K * S * Kᵀ) *ᵥ a) = _
    rw [e]
    unfold dotProduct Matrix.mulVec dotProduct
    refine Finset.sum_congr rfl fun c _ => ?_
    rw [Finset.mul_sum]
    refine Finset.sum_congr rfl fun c' _ => ?_
    have hK : ∀ c, ((Matrix.of fun (_ : Unit) p => a p) * -K) () c = -(a ᵥ* K) c := fun c => by
      simp [Matrix.mul_apply, Matrix.vecMul, dotProduct]
    rw [hK, hK]
    simp only [neg_mul, mul_neg, neg_neg]
    rw [mul_assoc]
    rfl
  · filter_upwards [positive_at hF h.regular hE] with i hi
    have hN : (0 : ℝ) < N i := by exact_mod_cast hi
    rw [Real.sqrt_div hpos.le]
    field_simp

/-! ## Distribution functions -/

lemma exists_phi {u : ℝ} (h0 : 0 < u) (h1 : u < 1) : ∃ c, phi c = u := by
  have e : phi = cdf (gaussianReal 0 1) := by
    funext c
    rw [cdf_eq_real]
    rfl
  refine mem_range_of_exists_le_of_exists_ge continuous_phi ?_ ?_
  · obtain ⟨c, hc⟩ := ((tendsto_cdf_atBot (gaussianReal 0 1)).eventually (gt_mem_nhds h0)).exists
    exact ⟨c, by rw [e]; exact hc.le⟩
  · obtain ⟨c, hc⟩ := ((tendsto_cdf_atTop (gaussianReal 0 1)).eventually (lt_mem_nhds h1)).exists
    exact ⟨c, by rw [e]; exact hc.le⟩

lemma normal_Icc {c c' : ℝ} (h : c ≤ c') : (gaussianReal 0 1).real (Set.Icc (-c') (-c)) = phi c' - phi c := by
  have hnull := nullSingletonClass_gaussianReal (μ := 0) (v := 1) one_ne_zero
  have h1 : (gaussianReal 0 1).real (Set.Icc (-c') (-c)) = (gaussianReal 0 1).real (Set.Icc c c') := by
    have h2 := gaussianReal_map_neg (μ := 0) (v := 1)
    rw [neg_zero] at h2
    conv_lhs => rw [← h2]
    rw [measureReal_def, measureReal_def, Measure.map_apply measurable_neg measurableSet_Icc]
    congr 2
    ext x
    simp only [Set.mem_preimage, Set.mem_Icc]
    constructor <;> rintro ⟨h3, h4⟩ <;> constructor <;> linarith
  rw [h1, phi_sub h, measureReal_def, measureReal_def]
  congr 1
  exact measure_congr Ioc_ae_eq_Icc.symm

lemma strictMono_phi : StrictMono phi := by
  intro c c' hc
  refine lt_of_le_of_ne (monotone_phi hc.le) fun heq => ?_
  have h1 := phi_sub hc.le
  rw [heq, sub_self, eq_comm, measureReal_eq_zero_iff] at h1
  have h2 := gaussianReal_absolutelyContinuous' 0 (v := 1) one_ne_zero h1
  rw [Real.volume_Ioc, ENNReal.ofReal_eq_zero] at h2
  linarith

/-- How often outputs at the truth are between percentiles of bootstrapped outputs, which may depend on estimates too. -/
lemma coverage_limit [IsProbabilityMeasure μ] (h : Spec.NonlinearErrors μ law M slope Θ theta0 beta0 w E o method wType seType W0 s r)
    (hvalid : Spec.Valid (M.at theta0 beta0) law method (Spec.lastWeights (M.at theta0 beta0) law method false wType W0) seType)
    (hV : (limitV law M slope theta0 beta0 method wType W0).PosDef) {root : Matrix (θ ⊕ b ⊕ g) (θ ⊕ b ⊕ g) ℝ → Matrix (θ ⊕ b ⊕ g) (θ ⊕ b ⊕ g) ℝ}
    (hroot : Spec.ComputesRoots root) {bounds : θ ⊕ b ⊕ g → EReal × EReal}
    (hb : ∀ p, (bounds p).1 < (Sum.elim theta0 beta0 p : ℝ) ∧ ((Sum.elim theta0 beta0 p : ℝ) : EReal) < (bounds p).2)
    {f : (θ ⊕ b ⊕ g → ℝ) × (θ ⊕ b ⊕ g → ℝ) → ℝ} {f' : (θ ⊕ b ⊕ g → ℝ) × (θ ⊕ b ⊕ g → ℝ) →L[ℝ] ℝ}
    (hf : HasStrictFDerivAt f f' (Sum.elim theta0 beta0, Sum.elim theta0 beta0)) {v u : ℝ}
    (hv : v = Spec.functionVariance (limitV law M slope theta0 beta0 method wType W0) fun x => f' (x, 0))
    (hu : u = Spec.functionVariance (limitV law M slope theta0 beta0 method wType W0) fun x => f' (x, x)) (hv0 : 0 < v) (hu0 : 0 < u) {qlo qhi : ℝ}
    (hq : qlo < qhi) :
    Tendsto (fun T => μ.real {ω | (Spec.normals (θ ⊕ b ⊕ g)).real {z | f ((E (T, ω)).bootstrapped (r (T, ω)) root bounds z, (E (T, ω)).parameters (r (T, ω))) ≤
      f (Sum.elim theta0 beta0, Sum.elim theta0 beta0)} ∈ Set.Icc (phi qlo) (phi qhi)}) atTop (𝓝 (phi (√v / √u * qhi) - phi (√v / √u * qlo))) := by
  have hnull := nullSingletonClass_gaussianReal (μ := 0) (v := 1) one_ne_zero
  have hE : ∀ i : ℕ × Ω, ∀ theta ∈ Θ, Spec.Sampled (M.at theta beta0) (fun t => w t i.2) i.1 (E i) (o i theta) beta0 := fun i => h.sampled i.1 i.2
  have hF := uniformAverages_probably (q := q) (d := d) h.compact h.regular h.draws
  have hS := slopeAverages_probably h.compact h.regular h.differentiable h.draws
  have hT : Tendsto (fun i : ℕ × Ω => i.1) (probably μ) atTop := tendsto_atTop.mpr fun n => eventually_fst (eventually_ge_atTop n)
  set P0 : θ ⊕ b ⊕ g → ℝ := Sum.elim theta0 beta0 with hP0
  set x : ℕ × Ω → θ ⊕ b ⊕ g → ℝ := fun i => (E i).parameters (r i) with hx
  set G : ℕ × Ω → ℝ → ℝ :=
    fun i c => (Spec.normals (θ ⊕ b ⊕ g)).real {z | √(N i) * (f ((E i).bootstrapped (r i) root bounds z, x i) - f (x i, x i)) ≤ c} with hG
  set Dv : ℕ × Ω → ℝ := fun i => √(N i) * (f (x i, x i) - f (P0, P0)) / √u with hDv
  have hsv : 0 < √v := Real.sqrt_pos.mpr hv0
  have hsu : 0 < √u := Real.sqrt_pos.mpr hu0
  set ρ : ℝ := √v / √u with hρ
  have hρ0 : 0 < ρ := div_pos hsv hsu
  have hlim : ∀ c, Tendsto (fun i => G i (√v * c)) (probably μ) (𝓝 (phi c)) := fun c => by
    have h1 := bootstrapped_limit h hF hS hT hvalid hV hroot hb hf (by rw [← hv]; exact hv0) (√v * c)
    have e : √v * c / √v = c := by field_simp
    rw [← hv, e] at h1
    exact h1
  have hmono : ∀ i, Monotone (G i) := fun i c c' hc => measureReal_mono fun z hz => le_trans hz hc
  have hshare : ∀ i, 0 < N i →
      (Spec.normals (θ ⊕ b ⊕ g)).real {z | f ((E i).bootstrapped (r i) root bounds z, x i) ≤ f (P0, P0)} = G i (-(√u * Dv i)) := by
    intro i hi
    have hN : 0 < √(N i : ℝ) := Real.sqrt_pos.mpr (by exact_mod_cast hi)
    congr 1
    ext z
    have e : -(√u * Dv i) = √(N i) * (f (P0, P0) - f (x i, x i)) := by
      rw [hDv]
      field_simp
      ring
    rw [Set.mem_ofPred_eq, Set.mem_ofPred_eq, e, mul_le_mul_iff_right₀ hN]
    constructor <;> intro h <;> linarith
  have hdiag : HasFDerivAt (fun x : θ ⊕ b ⊕ g → ℝ => f (x, x)) (f'.comp ((ContinuousLinearMap.id ℝ _).prod (ContinuousLinearMap.id ℝ _))) P0 :=
    HasFDerivAt.comp (g := f) P0 hf.hasFDerivAt ((hasFDerivAt_id P0).prodMk (hasFDerivAt_id P0))
  have hdelta : ∀ c c', c ≤ c' → Tendsto (fun T => μ.real {ω | Dv (T, ω) ∈ Set.Icc (-c') (-c)}) atTop (𝓝 (phi c' - phi c)) := by
    intro c c' hc
    have hu1 : u = Spec.functionVariance (limitV law M slope theta0 beta0 method wType W0)
      (f'.comp ((ContinuousLinearMap.id ℝ _).prod (ContinuousLinearMap.id ℝ _)) : (θ ⊕ b ⊕ g → ℝ) →L[ℝ] ℝ) := hu
    have h1 := nonlinear_delta h hdiag (by rw [← hu1]; exact hu0) (B := Set.Icc (-c') (-c))
      (by rw [frontier_Icc (by linarith)]; exact (Set.toFinite _).measure_zero _)
    rw [← normal_Icc hc]
    rw [← hu1] at h1
    exact (ENNReal.tendsto_toReal (measure_ne_top _ _)).comp h1
  rw [Metric.tendsto_nhds]
  intro η hη
  -- percentiles that are a bit lower and higher
  have hcont : ∀ q0 : ℝ, ∀ᶠ e in 𝓝 (0 : ℝ), |phi (ρ * (q0 + e)) - phi (ρ * q0)| < η / 8 ∧ |phi (ρ * (q0 - e)) - phi (ρ * q0)| < η / 8 := by
    intro q0
    have c1 : Continuous fun e : ℝ => phi (ρ * (q0 + e)) := continuous_phi.comp (by fun_prop)
    have c2 : Continuous fun e : ℝ => phi (ρ * (q0 - e)) := continuous_phi.comp (by fun_prop)
    have t1 := c1.tendsto 0
    have t2 := c2.tendsto 0
    rw [add_zero] at t1
    rw [sub_zero] at t2
    filter_upwards [(Metric.tendsto_nhds.mp t1) (η / 8) (by positivity), (Metric.tendsto_nhds.mp t2) (η / 8) (by positivity)] with e h1 h2
    rw [Real.dist_eq] at h1 h2
    exact ⟨h1, h2⟩
  obtain ⟨ε, ⟨⟨hlo, hhi⟩, hεq⟩, hε⟩ : ∃ ε : ℝ, (((|phi (ρ * (qlo + ε)) - phi (ρ * qlo)| < η / 8 ∧ |phi (ρ * (qlo - ε)) - phi (ρ * qlo)| < η / 8) ∧
      |phi (ρ * (qhi + ε)) - phi (ρ * qhi)| < η / 8 ∧ |phi (ρ * (qhi - ε)) - phi (ρ * qhi)| < η / 8) ∧ ε < (qhi - qlo) / 2) ∧ 0 < ε := by
    have h1 := (((hcont qlo).and (hcont qhi)).and (gt_mem_nhds (show (0 : ℝ) < (qhi - qlo) / 2 by linarith))).filter_mono
      (nhdsWithin_le_nhds (s := Set.Ioi (0 : ℝ)))
    exact (h1.and self_mem_nhdsWithin).exists
  have hgood : ∀ᶠ i in probably μ, 0 < N i ∧ G i (√v * (qlo - ε)) < phi qlo ∧ phi qlo < G i (√v * (qlo + ε)) ∧ G i (√v * (qhi - ε)) < phi qhi ∧
      phi qhi < G i (√v * (qhi + ε)) := by
    filter_upwards [positive_at hF h.regular hE, (hlim (qlo - ε)).eventually (gt_mem_nhds (strictMono_phi (by linarith : qlo - ε < qlo))),
      (hlim (qlo + ε)).eventually (lt_mem_nhds (strictMono_phi (by linarith : qlo < qlo + ε))),
      (hlim (qhi - ε)).eventually (gt_mem_nhds (strictMono_phi (by linarith : qhi - ε < qhi))),
      (hlim (qhi + ε)).eventually (lt_mem_nhds (strictMono_phi (by linarith : qhi < qhi + ε)))] with i h0 h1 h2 h3 h4
    exact ⟨h0, h1, h2, h3, h4⟩
  rw [eventually_probably] at hgood
  have hbad := (ENNReal.tendsto_toReal ENNReal.zero_ne_top).comp hgood
  rw [ENNReal.toReal_zero] at hbad
  filter_upwards [(Metric.tendsto_nhds.mp hbad) (η / 8) (by positivity),
    (Metric.tendsto_nhds.mp (hdelta (ρ * (qlo - ε)) (ρ * (qhi + ε)) (by nlinarith))) (η / 8) (by positivity),
    (Metric.tendsto_nhds.mp (hdelta (ρ * (qlo + ε)) (ρ * (qhi - ε)) (by nlinarith))) (η / 8) (by positivity)] with T hb0 ho hin
  simp only [Function.comp_apply] at hb0
  set bad : Set Ω := {ω | ¬(0 < N (T, ω) ∧ G (T, ω) (√v * (qlo - ε)) < phi qlo ∧ phi qlo < G (T, ω) (√v * (qlo + ε)) ∧
    G (T, ω) (√v * (qhi - ε)) < phi qhi ∧ phi qhi < G (T, ω) (√v * (qhi + ε)))} with hbaddef
  set event : Set Ω := {ω | (Spec.normals (θ ⊕ b ⊕ g)).real {z | f ((E (T, ω)).bootstrapped (r (T, ω)) root bounds z, (E (T, ω)).parameters (r (T, ω))) ≤
    f (P0, P0)} ∈ Set.Icc (phi qlo) (phi qhi)} with hevent
  have hscale : ∀ c, √v * c = √u * (ρ * c) := fun c => by
    rw [hρ]
    field_simp
  have hle : μ.real event ≤ μ.real {ω | Dv (T, ω) ∈ Set.Icc (-(ρ * (qhi + ε))) (-(ρ * (qlo - ε)))} + μ.real bad := by
    refine (measureReal_mono fun ω hω => ?_).trans (measureReal_union_le _ _)
    by_cases hg : ω ∈ bad
    · exact Or.inr hg
    · refine Or.inl ?_
      rw [hbaddef, Set.mem_ofPred_eq, not_not] at hg
      obtain ⟨h0, h1, -, -, h4⟩ := hg
      have hω' : G (T, ω) (-(√u * Dv (T, ω))) ∈ Set.Icc (phi qlo) (phi qhi) := (hshare _ h0) ▸ hω
      rw [Set.mem_ofPred_eq]
      constructor
      · by_contra hcon
        have := hmono (T, ω) (show √v * (qhi + ε) ≤ -(√u * Dv (T, ω)) by rw [hscale]; nlinarith [not_le.mp hcon])
        linarith [hω'.2]
      · by_contra hcon
        have := hmono (T, ω) (show -(√u * Dv (T, ω)) ≤ √v * (qlo - ε) by rw [hscale]; nlinarith [not_le.mp hcon])
        linarith [hω'.1]
  have hge : μ.real {ω | Dv (T, ω) ∈ Set.Icc (-(ρ * (qhi - ε))) (-(ρ * (qlo + ε)))} ≤ μ.real event + μ.real bad := by
    refine (measureReal_mono fun ω hω => ?_).trans (measureReal_union_le _ _)
    by_cases hg : ω ∈ bad
    · exact Or.inr hg
    · refine Or.inl ?_
      rw [hbaddef, Set.mem_ofPred_eq, not_not] at hg
      obtain ⟨h0, -, h2, h3, -⟩ := hg
      rw [Set.mem_ofPred_eq] at hω
      have hω' : G (T, ω) (-(√u * Dv (T, ω))) ∈ Set.Icc (phi qlo) (phi qhi) := by
        constructor
        · have := hmono (T, ω) (show √v * (qlo + ε) ≤ -(√u * Dv (T, ω)) by rw [hscale]; nlinarith [hω.2])
          linarith
        · have := hmono (T, ω) (show -(√u * Dv (T, ω)) ≤ √v * (qhi - ε) by rw [hscale]; nlinarith [hω.1])
          linarith
      rw [← hshare _ h0] at hω'
      exact hω'
  have hbb : (μ bad).toReal = μ.real bad := rfl
  rw [hbb] at hb0
  rw [Real.dist_eq, abs_lt] at hb0 ho hin ⊢
  rw [abs_lt, abs_lt] at hlo hhi
  constructor <;> linarith [hb0.1, hb0.2, ho.1, ho.2, hin.1, hin.2, hlo.1.1, hlo.1.2, hlo.2.1, hlo.2.2, hhi.1.1, hhi.1.2, hhi.2.1, hhi.2.2]

/-! ## Theorems -/

/-- **C137, draws.** If bounds do not bind, then linear functions of bootstrapped parameters, such as single parameters, have normal distributions with
the estimate as the mean and the reported variance divided by the number of products as the variance. -/
theorem C137_draws {n : ℕ} (E : Estimation n nd ns m q b g θ d ι D) (r : StepResults (Estimation.Weights m q d) (θ → ℝ) D)
    (hV : (E.parameterCovariances r).PosSemidef) {root : Matrix (θ ⊕ b ⊕ g) (θ ⊕ b ⊕ g) ℝ → Matrix (θ ⊕ b ⊕ g) (θ ⊕ b ⊕ g) ℝ}
    (hroot : Spec.ComputesRoots root) (f : (θ ⊕ b ⊕ g → ℝ) →L[ℝ] ℝ) :
    (Spec.normals (θ ⊕ b ⊕ g)).map (fun z => f (E.bootstrapped r root (fun _ => (⊥, ⊤)) z)) =
      gaussianReal (f (E.parameters r)) (Spec.functionVariance (E.parameterCovariances r) f / n).toNNReal := by
  set B := root ((n : ℝ)⁻¹ • E.parameterCovariances r) with hB
  have hBB : Bᵀ * B = (n : ℝ)⁻¹ • E.parameterCovariances r := hroot _ (hV.smul (by positivity))
  set a : θ ⊕ b ⊕ g → ℝ := fun p => f (Pi.single p 1) with ha
  have h1 : (fun z => f (E.bootstrapped r root (fun _ => (⊥, ⊤)) z)) = (fun y => f (E.parameters r) + y) ∘ fun z => (B *ᵥ a) ⬝ᵥ z := by
    funext z
    have h2 : E.bootstrapped r root (fun _ => (⊥, ⊤)) z = E.parameters r + z ᵥ* B := by
      funext p
      exact clipReal_eq bot_le le_top
    rw [h2, map_add, gradient_apply f (z ᵥ* B), Function.comp_apply, dotProduct_comm, ← Matrix.dotProduct_mulVec, dotProduct_comm z]
  rw [h1, ← Measure.map_map (by fun_prop) (by fun_prop), map_dot, gaussianReal_map_const_add, zero_add]
  congr 2
  rw [functionVariance_eq]
  have h2 : ∑ p, (B *ᵥ a) p ^ 2 = (B *ᵥ a) ⬝ᵥ (B *ᵥ a) := Finset.sum_congr rfl fun p _ => sq _
  have h3 : (B *ᵥ a) ⬝ᵥ (B *ᵥ a) = a ⬝ᵥ ((Bᵀ * B) *ᵥ a) := by
    rw [← Matrix.mulVec_mulVec, Matrix.mulVec_transpose, dotProduct_comm a, ← Matrix.dotProduct_mulVec]
  rw [h2, h3, hBB, Matrix.smul_mulVec, dotProduct_smul, smul_eq_mul, inv_mul_eq_div]

/-- **C137, distributions.** With probability one, in large samples, differences between a differentiable function of bootstrapped parameters and that function of
estimates have, after scaling, a normal distribution. Its variance is that of the function of estimates. -/
theorem C137_distribution (h : Spec.NonlinearErrors μ law M slope Θ theta0 beta0 w E o method wType seType W0 s r)
    (hvalid : Spec.Valid (M.at theta0 beta0) law method (Spec.lastWeights (M.at theta0 beta0) law method false wType W0) seType)
    (hV : (Spec.variance (M.jacobian law slope theta0 beta0) (Spec.lastWeights (M.at theta0 beta0) law method false wType W0)
      ((M.at theta0 beta0).covariances law .clustered)).PosDef)
    {root : Matrix (θ ⊕ b ⊕ g) (θ ⊕ b ⊕ g) ℝ → Matrix (θ ⊕ b ⊕ g) (θ ⊕ b ⊕ g) ℝ} (hroot : Spec.ComputesRoots root) {bounds : θ ⊕ b ⊕ g → EReal × EReal}
    (hb : ∀ p, (bounds p).1 < (Sum.elim theta0 beta0 p : ℝ) ∧ ((Sum.elim theta0 beta0 p : ℝ) : EReal) < (bounds p).2) :
    ∀ᵐ ω ∂μ, ∀ (f : (θ ⊕ b ⊕ g → ℝ) → ℝ) (f' : (θ ⊕ b ⊕ g → ℝ) →L[ℝ] ℝ), HasStrictFDerivAt f f' (Sum.elim theta0 beta0) → f' ≠ 0 → ∀ c,
      Tendsto (fun T => (Spec.normals (θ ⊕ b ⊕ g)).real
        {z | √(N (T, ω)) * (f ((E (T, ω)).bootstrapped (r (T, ω)) root bounds z) - f (Spec.estimates (E (T, ω)) (r (T, ω)))) ≤ c}) atTop
        (𝓝 ((gaussianReal 0 (Spec.functionVariance (Spec.variance (M.jacobian law slope theta0 beta0)
          (Spec.lastWeights (M.at theta0 beta0) law method false wType W0) ((M.at theta0 beta0).covariances law .clustered)) f').toNNReal).real (Set.Iic c))) := by
  filter_upwards [uniformAverages_ae (q := q) (d := d) h.compact h.regular h.draws, slopeAverages_ae h.compact h.regular h.differentiable h.draws]
    with ω hF hS f f' hf hf0 c
  have hpos := functionVariance_pos hV hf0
  have hf2 : HasStrictFDerivAt (fun x : (θ ⊕ b ⊕ g → ℝ) × (θ ⊕ b ⊕ g → ℝ) => f x.1) (f'.comp (ContinuousLinearMap.fst ℝ _ _))
      (Sum.elim theta0 beta0, Sum.elim theta0 beta0) :=
    HasStrictFDerivAt.comp (g := f) (f := fun x : (θ ⊕ b ⊕ g → ℝ) × (θ ⊕ b ⊕ g → ℝ) => x.1) _ hf hasStrictFDerivAt_fst
  have h1 := bootstrapped_limit h hF hS (tendsto_map'_iff.mpr (tendsto_id (α := ℕ))) hvalid hV hroot hb hf2 hpos c
  rw [tendsto_map'_iff] at h1
  rw [gaussianReal_Iic (Real.sqrt_pos.mpr hpos) (by rw [Real.sq_sqrt hpos.le, Real.coe_toNNReal _ hpos.le])]
  exact h1

/-- **C137, estimates.** Differences between differentiable functions of estimates and of the truth have that distribution too. -/
theorem C137_estimates [IsProbabilityMeasure μ] (h : Spec.NonlinearErrors μ law M slope Θ theta0 beta0 w E o method wType seType W0 s r)
    {f : (θ ⊕ b ⊕ g → ℝ) → ℝ} {f' : (θ ⊕ b ⊕ g → ℝ) →L[ℝ] ℝ} (hf : HasFDerivAt f f' (Sum.elim theta0 beta0))
    (hpos : 0 < Spec.functionVariance (Spec.variance (M.jacobian law slope theta0 beta0) (Spec.lastWeights (M.at theta0 beta0) law method false wType W0)
      ((M.at theta0 beta0).covariances law .clustered)) f') (c : ℝ) :
    Tendsto (fun T => μ.real {ω | √(N (T, ω)) * (f (Spec.estimates (E (T, ω)) (r (T, ω))) - f (Sum.elim theta0 beta0)) ≤ c}) atTop
      (𝓝 ((gaussianReal 0 (Spec.functionVariance (Spec.variance (M.jacobian law slope theta0 beta0)
        (Spec.lastWeights (M.at theta0 beta0) law method false wType W0) ((M.at theta0 beta0).covariances law .clustered)) f').toNNReal).real (Set.Iic c))) := by
  have hnull := nullSingletonClass_gaussianReal (μ := 0) (v := 1) one_ne_zero
  have hs := Real.sqrt_pos.mpr hpos
  have h1 := nonlinear_delta h hf hpos (B := Set.Iic (c / √(Spec.functionVariance (limitV law M slope theta0 beta0 method wType W0) f')))
    (by rw [frontier_Iic]; exact measure_singleton _)
  rw [gaussianReal_Iic hs (by rw [Real.sq_sqrt hpos.le, Real.coe_toNNReal _ hpos.le])]
  refine ((ENNReal.tendsto_toReal (measure_ne_top _ _)).comp h1).congr fun T => ?_
  rw [Function.comp_apply, measureReal_def]
  congr 2
  ext ω
  exact div_le_div_iff_of_pos_right hs

/-- **C137, intervals.** The probability with which a function of the truth is between two percentiles of that function of bootstrapped parameters converges to the
difference between percentages: the share of draws at which it is at most that of the truth is between `lo` and `hi` with a probability that converges to
`hi - lo`. -/
theorem C137_intervals [IsProbabilityMeasure μ] (h : Spec.NonlinearErrors μ law M slope Θ theta0 beta0 w E o method wType seType W0 s r)
    (hvalid : Spec.Valid (M.at theta0 beta0) law method (Spec.lastWeights (M.at theta0 beta0) law method false wType W0) seType)
    (hV : (Spec.variance (M.jacobian law slope theta0 beta0) (Spec.lastWeights (M.at theta0 beta0) law method false wType W0)
      ((M.at theta0 beta0).covariances law .clustered)).PosDef)
    {root : Matrix (θ ⊕ b ⊕ g) (θ ⊕ b ⊕ g) ℝ → Matrix (θ ⊕ b ⊕ g) (θ ⊕ b ⊕ g) ℝ} (hroot : Spec.ComputesRoots root) {bounds : θ ⊕ b ⊕ g → EReal × EReal}
    (hb : ∀ p, (bounds p).1 < (Sum.elim theta0 beta0 p : ℝ) ∧ ((Sum.elim theta0 beta0 p : ℝ) : EReal) < (bounds p).2)
    {f : (θ ⊕ b ⊕ g → ℝ) → ℝ} {f' : (θ ⊕ b ⊕ g → ℝ) →L[ℝ] ℝ} (hf : HasStrictFDerivAt f f' (Sum.elim theta0 beta0)) (hf0 : f' ≠ 0) {lo hi : ℝ} (hlo : 0 < lo)
    (hlh : lo < hi) (hhi : hi < 1) :
    Tendsto (fun T => μ.real {ω | (Spec.normals (θ ⊕ b ⊕ g)).real
      {z | f ((E (T, ω)).bootstrapped (r (T, ω)) root bounds z) ≤ f (Sum.elim theta0 beta0)} ∈ Set.Icc lo hi}) atTop (𝓝 (hi - lo)) := by
  have hpos := functionVariance_pos hV hf0
  have hf2 : HasStrictFDerivAt (fun x : (θ ⊕ b ⊕ g → ℝ) × (θ ⊕ b ⊕ g → ℝ) => f x.1) (f'.comp (ContinuousLinearMap.fst ℝ _ _))
      (Sum.elim theta0 beta0, Sum.elim theta0 beta0) :=
    HasStrictFDerivAt.comp (g := f) (f := fun x : (θ ⊕ b ⊕ g → ℝ) × (θ ⊕ b ⊕ g → ℝ) => x.1) _ hf hasStrictFDerivAt_fst
  obtain ⟨qlo, rfl⟩ := exists_phi hlo (hlh.trans hhi)
  obtain ⟨qhi, rfl⟩ := exists_phi (hlo.trans hlh) hhi
  have h1 := coverage_limit h hvalid hV hroot hb hf2 rfl rfl hpos hpos (strictMono_phi.lt_iff_lt.mp hlh)
  have e : √(Spec.functionVariance (limitV law M slope theta0 beta0 method wType W0) f') /
      √(Spec.functionVariance (limitV law M slope theta0 beta0 method wType W0) f') = 1 := div_self (Real.sqrt_pos.mpr hpos).ne'
  change Tendsto _ _ (𝓝 (phi (√(Spec.functionVariance (limitV law M slope theta0 beta0 method wType W0) f') /
      √(Spec.functionVariance (limitV law M slope theta0 beta0 method wType W0) f') * qhi) -
      phi (√(Spec.functionVariance (limitV law M slope theta0 beta0 method wType W0) f') /
      √(Spec.functionVariance (limitV law M slope theta0 beta0 method wType W0) f') * qlo))) at h1
  rw [e, one_mul, one_mul] at h1
  exact h1

end

/-! ## Hypotheses can be met -/

section Witness

lemma exists_roots (P : Type) [Fintype P] : ∃ root : Matrix P P ℝ → Matrix P P ℝ, Spec.ComputesRoots root := by
  classical
  have h : ∀ V : Matrix P P ℝ, ∃ B : Matrix P P ℝ, V.PosSemidef → Bᵀ * B = V := by
    intro V
    by_cases hV : V.PosSemidef
    · open scoped MatrixOrder in
      obtain ⟨B, hB⟩ := CStarAlgebra.nonneg_iff_eq_star_mul_self.mp hV.nonneg
      exact ⟨B, fun _ => by rw [hB, Matrix.star_eq_conjTranspose, Matrix.conjTranspose_eq_transpose_of_trivial]⟩
    · exact ⟨0, fun h => absurd h hV⟩
  exact ⟨fun V => (h V).choose, fun V hV => (h V).choose_spec hV⟩

lemma signValid {b : Type} [Fintype b] [DecidableEq b] (theta0 : ℝ) {beta0 c : ℝ} (hb : ∑ _l : b, beta0 = c) (type : CovarianceType) :
    Spec.Valid ((signModel b theta0 c).at (fun _ => theta0) fun _ => beta0) signs .twoStep
      (Spec.lastWeights ((signModel b theta0 c).at (fun _ => theta0) fun _ => beta0) signs .twoStep false type 1) type := by
  rw [signWeights _ hb]
  cases type with
  | clustered => trivial
  | robust => exact (signModel_covariances _ hb _).trans (signModel_covariances _ hb _).symm
  | unadjusted =>
    refine ⟨(signModel_covariances _ hb _).trans (signModel_covariances _ hb _).symm, ?_, 1, one_ne_zero, fun _ => rfl, ?_⟩
    · rw [signModel_covariances _ hb]
      simp
    · rw [signModel_covariances _ hb]
      simp

/-- Everything that is assumed is true of the population with random signs, for each type of covariances and all true parameters. Parameters have bounds that are
one away from the truth, or none. The function is the share of a product with that coefficient as its utility. In large samples, estimated covariances are
positive semidefinite too. -/
example (theta0 beta0 : ℝ) (type : CovarianceType) (lower upper : EReal) (hl : lower = ⊥ ∨ lower = (beta0 - 1 : ℝ)) (hu : upper = ⊤ ∨ upper = (beta0 + 1 : ℝ)) :
    (∃ (N : ℕ × (ℕ → Bool × Bool) → ℕ) (E : ∀ i, Estimation (N i) 1 0 (fun _ => Bool) Empty Unit Empty Unit Empty ℕ Unit)
      (o : ∀ i, (Unit → ℝ) → Evaluated (N i) Unit Empty)
      (s : ℕ × (ℕ → Bool × Bool) → GmmState (Estimation.Weights (fun _ : Fin 1 ⊕ Fin 0 => Bool) Empty Empty) (Unit → ℝ) Unit)
      (r : ℕ × (ℕ → Bool × Bool) → StepResults (Estimation.Weights (fun _ : Fin 1 ⊕ Fin 0 => Bool) Empty Empty) (Unit → ℝ) Unit),
      Spec.NonlinearErrors (Measure.infinitePi fun _ : ℕ => signs) signs (signModel Unit theta0 beta0) signSlope (signSet theta0) (fun _ => theta0)
        (fun _ => beta0) (fun t ω => ω t) E o .twoStep type type 1 s r ∧
      ∀ᵐ ω ∂(Measure.infinitePi fun _ : ℕ => signs), ∀ᶠ T in atTop, ((E (T, ω)).parameterCovariances (r (T, ω))).PosSemidef) ∧
    Spec.Valid ((signModel Unit theta0 beta0).at (fun _ => theta0) fun _ => beta0) signs .twoStep
      (Spec.lastWeights ((signModel Unit theta0 beta0).at (fun _ => theta0) fun _ => beta0) signs .twoStep false type 1) type ∧
    (Spec.variance ((signModel Unit theta0 beta0).jacobian signs signSlope (fun _ => theta0) fun _ => beta0)
      (Spec.lastWeights ((signModel Unit theta0 beta0).at (fun _ => theta0) fun _ => beta0) signs .twoStep false type 1)
      (((signModel Unit theta0 beta0).at (fun _ => theta0) fun _ => beta0).covariances signs .clustered)).PosDef ∧
    (∃ root : Matrix (Unit ⊕ Unit ⊕ Empty) (Unit ⊕ Unit ⊕ Empty) ℝ → Matrix (Unit ⊕ Unit ⊕ Empty) (Unit ⊕ Unit ⊕ Empty) ℝ, Spec.ComputesRoots root) ∧
    (lower < (beta0 : EReal) ∧ (beta0 : EReal) < upper) ∧
    ∃ f' : (Unit ⊕ Unit ⊕ Empty → ℝ) →L[ℝ] ℝ, HasStrictFDerivAt (fun x : Unit ⊕ Unit ⊕ Empty → ℝ => Real.exp (x (Sum.inr (Sum.inl ()))) /
      (1 + Real.exp (x (Sum.inr (Sum.inl ()))))) f' (Sum.elim (fun _ => theta0) fun _ => beta0) ∧ f' ≠ 0 := by
  have hb : ∑ _l : Unit, beta0 = beta0 := by simp
  obtain ⟨minimum, s, r, h⟩ := signErrors theta0 hb type
  refine ⟨⟨_, _, _, s, r, h, ?_⟩, signValid theta0 hb type, signVariance theta0 hb type, exists_roots _, ⟨?_, ?_⟩, ?_⟩
  · filter_upwards [uniformAverages_ae (q := Empty) (d := Empty) h.compact h.regular h.draws, slopeAverages_ae h.compact h.regular h.differentiable h.draws]
      with ω hF hS
    have hcov := nonlinear_covariances h hF hS (signValid theta0 hb type)
    rw [symmetrized_of_symm _ (by unfold Spec.variance; exact sandwich_symm _ (clusters_symm _))] at hcov
    have h1 := eventually_posDef hcov (signVariance theta0 hb type) fun i => parameterCovariances_symm _ (r i)
    rw [eventually_map] at h1
    exact h1.mono fun T hT => hT.posSemidef
  · rcases hl with rfl | rfl
    · exact EReal.bot_lt_coe _
    · exact_mod_cast sub_one_lt beta0
  · rcases hu with rfl | rfl
    · exact EReal.coe_lt_top _
    · exact_mod_cast lt_add_one beta0
  · have h1 : HasStrictFDerivAt (fun x : Unit ⊕ Unit ⊕ Empty → ℝ => x (Sum.inr (Sum.inl ())))
        (ContinuousLinearMap.proj (Sum.inr (Sum.inl ())) : (Unit ⊕ Unit ⊕ Empty → ℝ) →L[ℝ] ℝ) (Sum.elim (fun _ => theta0) fun _ => beta0) :=
      (ContinuousLinearMap.proj _ : (Unit ⊕ Unit ⊕ Empty → ℝ) →L[ℝ] ℝ).hasStrictFDerivAt
    have h2 : HasStrictDerivAt (fun y : ℝ => Real.exp y / (1 + Real.exp y))
        ((Real.exp beta0 * (1 + Real.exp beta0) - Real.exp beta0 * Real.exp beta0) / (1 + Real.exp beta0) ^ 2) beta0 :=
      (Real.hasStrictDerivAt_exp beta0).div ((Real.hasStrictDerivAt_exp beta0).const_add 1) (by positivity)
    have h7 : HasStrictFDerivAt (fun x : Unit ⊕ Unit ⊕ Empty → ℝ => Real.exp (x (Sum.inr (Sum.inl ()))) / (1 + Real.exp (x (Sum.inr (Sum.inl ()))))) _
        (Sum.elim (fun _ => theta0) fun _ => beta0) :=
      HasStrictDerivAt.comp_hasStrictFDerivAt (h₂ := fun y : ℝ => Real.exp y / (1 + Real.exp y))
        (f := fun x : Unit ⊕ Unit ⊕ Empty → ℝ => x (Sum.inr (Sum.inl ()))) _ h2 h1
    refine ⟨_, h7, fun h3 => ?_⟩
    have h4 := congrArg (fun g : (Unit ⊕ Unit ⊕ Empty → ℝ) →L[ℝ] ℝ => g fun _ => 1) h3
    have h5 : (Real.exp beta0 * (1 + Real.exp beta0) - Real.exp beta0 * Real.exp beta0) / (1 + Real.exp beta0) ^ 2 * 1 = 0 := h4
    have h6 : 0 < (Real.exp beta0 * (1 + Real.exp beta0) - Real.exp beta0 * Real.exp beta0) / (1 + Real.exp beta0) ^ 2 := by
      refine div_pos ?_ (by positivity)
      nlinarith [Real.exp_pos beta0]
    linarith

end Witness

end Pyblp
