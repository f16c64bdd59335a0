import Verif.Lemmas.NonlinearSteps
import Verif.Lemmas.FirstOrder

/-!
# Limits of estimates and of what is reported with nonlinear parameters
-/

set_option linter.unusedSectionVars false

open MeasureTheory ProbabilityTheory Filter Topology Matrix

namespace Pyblp.Asymptotic

open Pyblp.Sampling
open Spec (linearFunction)

/-! ## Averages of derivatives -/

section Slopes

variable {C Ω : Type} {nd ns : ℕ} {m : Fin nd ⊕ Fin ns → Type} {b g θ : Type} [∀ e, Fintype (m e)] [Fintype b] [Fintype g] [Fintype θ]
  [DecidableEq θ] [MeasurableSpace C] {law : Measure C} {M : Spec.Models C m (b ⊕ g) θ} {Θ : Set (θ → ℝ)} {theta0 : θ → ℝ} {beta0 : b ⊕ g → ℝ}
  {slope : (θ → ℝ) → C → Fin nd ⊕ Fin ns → ℕ → θ → ℝ} {w : ℕ → Ω → C} {F : Filter (ℕ × Ω)}

/-- Derivatives of sums of moments of a cluster. -/
def clusterSlope (M : Spec.Models C m (b ⊕ g) θ) (slope : (θ → ℝ) → C → Fin nd ⊕ Fin ns → ℕ → θ → ℝ) (theta : θ → ℝ) (a : MomentIndex m) (p : θ) (x : C) : ℝ :=
  ∑ j ∈ Finset.range (M.size x), slope theta x a.1 j p * M.instrument x a.1 j a.2

/-- These are functions of parameters. -/
def slopeFunction (hD : M.Differentiable law Θ theta0 slope) (a : MomentIndex m) (p : θ) (x : C) : C(Θ, ℝ) where
  toFun theta := clusterSlope M slope theta a p x
  continuous_toFun := continuous_finsetSum (Finset.range (M.size x)) fun j _ =>
    (continuousOn_iff_continuous_domRestrict.mp (hD.continuous x a.1 j p)).mul continuous_const

lemma slopeFunction_measurable (hM : M.Regular law Θ theta0 beta0) (hD : M.Differentiable law Θ theta0 slope) (a : MomentIndex m) (p : θ) (k : Θ) :
    Measurable fun x => slopeFunction hD a p x k :=
  measurable_total (P := M.at theta0 beta0) (f := fun x j => slope k x a.1 j p * M.instrument x a.1 j a.2) hM.truth.measurable_size fun j =>
    (hD.measurable k k.2 a.1 j p).mul (hM.truth.measurable_instrument a.1 j a.2)

lemma slopeFunction_bound (hD : M.Differentiable law Θ theta0 slope) (a : MomentIndex m) (p : θ) : ∃ B : C → ℝ, Integrable B law ∧
    ∀ x (theta : Θ), |slopeFunction hD a p x theta| ≤ B x := by
  obtain ⟨bound, hb, hi⟩ := hD.bounded
  refine ⟨_, hi a.1 a.2, fun x theta => ?_⟩
  change |∑ j ∈ Finset.range (M.size x), slope theta x a.1 j p * M.instrument x a.1 j a.2| ≤ _
  refine (Finset.abs_sum_le_sum_abs _ _).trans (Finset.sum_le_sum fun j _ => ?_)
  rw [abs_mul]
  exact mul_le_mul_of_nonneg_right (hb theta theta.2 x a.1 j p) (abs_nonneg _)

/-- Averages of derivatives converge at parameters that converge. -/
def SlopeAverages (law : Measure C) (M : Spec.Models C m (b ⊕ g) θ) (Θ : Set (θ → ℝ)) (slope : (θ → ℝ) → C → Fin nd ⊕ Fin ns → ℕ → θ → ℝ) (w : ℕ → Ω → C)
    (F : Filter (ℕ × Ω)) : Prop :=
  ∀ (a : MomentIndex m) (p : θ) (k : ℕ × Ω → Θ) (k0 : Θ), Tendsto k F (𝓝 k0) →
    Tendsto (fun i : ℕ × Ω => (∑ t ∈ Finset.range i.1, clusterSlope M slope (k i) a p (w t i.2)) / i.1) F (𝓝 (∫ x, clusterSlope M slope k0 a p x ∂law))

variable [MeasurableSpace Ω] {μ : Measure Ω}

lemma slopeAverages_ae (hΘ : IsCompact Θ) (hM : M.Regular law Θ theta0 beta0) (hD : M.Differentiable law Θ theta0 slope) (hw : Draws μ law w) :
    ∀ᵐ ω ∂μ, SlopeAverages law M Θ slope w (map (fun T => (T, ω)) atTop) := by
  have : CompactSpace Θ := isCompact_iff_compactSpace.mp hΘ
  have h : ∀ᵐ ω ∂μ, ∀ a p, Uniformly law (slopeFunction hD a p) w (map (fun T => (T, ω)) atTop) := by
    rw [ae_all_iff]
    intro a
    rw [ae_all_iff]
    intro p
    obtain ⟨B, hB, hb⟩ := slopeFunction_bound hD a p
    exact uniformly_ae hw (slopeFunction_measurable hM hD a p) hB hb
  filter_upwards [h] with ω hω a p k k0 hk
  obtain ⟨B, hB, hb⟩ := slopeFunction_bound hD a p
  exact (hω a p).at (slopeFunction_measurable hM hD a p) hB hb hk

lemma slopeAverages_probably [IsProbabilityMeasure μ] (hΘ : IsCompact Θ) (hM : M.Regular law Θ theta0 beta0) (hD : M.Differentiable law Θ theta0 slope)
    (hw : Draws μ law w) : SlopeAverages law M Θ slope w (probably μ) := by
  have : CompactSpace Θ := isCompact_iff_compactSpace.mp hΘ
  intro a p k k0 hk
  obtain ⟨B, hB, hb⟩ := slopeFunction_bound hD a p
  exact (uniformly_probably hw (slopeFunction_measurable hM hD a p) hB hb).at (slopeFunction_measurable hM hD a p) hB hb hk

end Slopes

/-! ## Derivatives of averages -/

section Derivatives

variable {C Ω : Type} {nd ns : ℕ} {m : Fin nd ⊕ Fin ns → Type} {b g θ : Type} [∀ e, Fintype (m e)] [Fintype b] [Fintype g] [Fintype θ]
  [DecidableEq θ] [MeasurableSpace C] {law : Measure C} {M : Spec.Models C m (b ⊕ g) θ} {Θ : Set (θ → ℝ)} {theta0 theta : θ → ℝ} {beta0 : b ⊕ g → ℝ}
  {slope : (θ → ℝ) → C → Fin nd ⊕ Fin ns → ℕ → θ → ℝ} {w : ℕ → Ω → C}

/-- Averages of derivatives in samples. -/
noncomputable def sampleSlopes (M : Spec.Models C m (b ⊕ g) θ) (slope : (θ → ℝ) → C → Fin nd ⊕ Fin ns → ℕ → θ → ℝ) (w : ℕ → Ω → C) (N : ℕ × Ω → ℕ) (i : ℕ × Ω)
    (theta : θ → ℝ) : Matrix (MomentIndex m) θ ℝ :=
  Matrix.of fun a p => (∑ t ∈ Finset.range i.1, clusterSlope M slope theta a p (w t i.2)) / N i

/-- Averages of products of regressors and instruments in samples. -/
noncomputable def sampleRegressors (M : Spec.Models C m (b ⊕ g) θ) (w : ℕ → Ω → C) (N : ℕ × Ω → ℕ) (i : ℕ × Ω) : Matrix (MomentIndex m) (b ⊕ g) ℝ :=
  Matrix.of fun a l => (∑ t ∈ Finset.range i.1, ∑ j ∈ Finset.range (M.size (w t i.2)), M.regressor (w t i.2) a.1 j l * M.instrument (w t i.2) a.1 j a.2) / N i

lemma average_derivative (hD : M.Differentiable law Θ theta0 slope) (N : ℕ × Ω → ℕ) (i : ℕ × Ω) (a : MomentIndex m) (hθ : theta ∈ Θ) :
    HasFDerivWithinAt (fun y => averageMoments (M.at y beta0) w N i a) (linearFunction (sampleSlopes M slope w N i theta a)) Θ theta := by
  have h := (HasFDerivWithinAt.fun_sum (u := Finset.range i.1) fun t _ => HasFDerivWithinAt.fun_sum (u := Finset.range (M.size (w t i.2))) fun j _ =>
    ((hD.derivative theta hθ (w t i.2) a.1 j).sub_const (∑ l, M.regressor (w t i.2) a.1 j l * beta0 l)).mul_const (M.instrument (w t i.2) a.1 j a.2)).mul_const
      ((N i : ℝ)⁻¹)
  refine HasFDerivWithinAt.congr_fderiv h ?_
  ext v
  simp only [_root_.smul_apply, _root_.sum_apply, linearFunction_apply, smul_eq_mul, sampleSlopes, clusterSlope, Matrix.of_apply, div_eq_inv_mul,
    Finset.mul_sum, Finset.sum_mul]
  symm
  rw [Finset.sum_comm]
  refine Finset.sum_congr rfl fun t _ => ?_
  rw [Finset.sum_comm]
  exact Finset.sum_congr rfl fun p _ => Finset.sum_congr rfl fun j _ => by ring

/-- The mean value theorem. -/
lemma average_mean_value (hD : M.Differentiable law Θ theta0 slope) (N : ℕ × Ω → ℕ) (i : ℕ × Ω) (a : MomentIndex m) (h0 : theta0 ∈ Θ) (hθ : theta ∈ Θ) :
    ∃ z ∈ segment ℝ theta0 theta, averageMoments (M.at theta beta0) w N i a = averageMoments (M.at theta0 beta0) w N i a +
      ∑ p, sampleSlopes M slope w N i z a p * (theta p - theta0 p) := by
  obtain ⟨z, hz, h⟩ := domain_mvt (f := fun y => averageMoments (M.at y beta0) w N i a) (fun y hy => average_derivative hD N i a hy) hD.convex h0 hθ
  refine ⟨z, hz, ?_⟩
  rw [linearFunction_apply] at h
  simp only [Pi.sub_apply] at h
  linarith

end Derivatives

/-! ## Estimates -/

section Estimates

variable {C Ω : Type} {nd ns : ℕ} {m : Fin nd ⊕ Fin ns → Type} {q b g θ d ι D : Type} [∀ e, Fintype (m e)] [Fintype q] [Fintype b] [Fintype g]
  [Fintype θ] [Fintype d] [LinearOrder ι] [∀ e, DecidableEq (m e)] [DecidableEq q] [DecidableEq b] [DecidableEq g] [DecidableEq θ] [DecidableEq d]
  [IsEmpty q] [IsEmpty d] [MeasurableSpace C] {law : Measure C} {M : Spec.Models C m (b ⊕ g) θ} {Θ : Set (θ → ℝ)} {theta0 theta : θ → ℝ} {beta0 : b ⊕ g → ℝ}
  {slope : (θ → ℝ) → C → Fin nd ⊕ Fin ns → ℕ → θ → ℝ}
  {w : ℕ → Ω → C} {F G : Filter (ℕ × Ω)} {N : ℕ × Ω → ℕ} {E : ∀ i, Estimation (N i) nd ns m q b g θ d ι D} {o : ∀ i, (θ → ℝ) → Evaluated (N i) θ d}

lemma slopes_sample {i : ℕ × Ω} (hE : Spec.Sampled (M.at theta beta0) (fun t => w t i.2) i.1 (E i) (o i theta) beta0) :
    slopes (forgetProblem (E i) (o i theta)) (forgetEvaluated (o i theta)) beta0 = (sampleRegressors M w N i).submatrix onlyMoments onlyLinear := by
  ext a l
  rcases l with l | l
  · exact l.elim
  rcases a with (a | a) | a
  · unfold slopes
    rw [Matrix.of_apply, sampled_averages (sampled_forget hE), ← sampled_size hE]
    simp only [clusterProduct, Rows.value, mul_one]
    rfl
  · exact isEmptyElim a
  · exact isEmptyElim a

lemma moments_sample {i : ℕ × Ω} (hE : Spec.Sampled (M.at theta beta0) (fun t => w t i.2) i.1 (E i) (o i theta) beta0) (a : MomentIndex m) :
    moments (forgetProblem (E i) (o i theta)) (forgetEvaluated (o i theta)) beta0 (.inl (.inl a)) = averageMoments (M.at theta beta0) w N i a := by
  unfold moments averageMoments
  rw [sampled_averages (sampled_forget hE), ← sampled_size hE]
  congr 1
  refine Finset.sum_congr rfl fun t _ => ?_
  simp only [clusterProduct, Rows.value, mul_one]
  rfl

/-- Linear parameters and moments are functions of averages in the sample. -/
lemma estimates_sample {i : ℕ × Ω} (hc : Computes (E i)) (hE : Spec.Sampled (M.at theta beta0) (fun t => w t i.2) i.1 (E i) (o i theta) beta0) (hN : 0 < N i)
    {V : Matrix (MomentIndex m) (MomentIndex m) ℝ} (hd : ((sampleRegressors M w N i)ᵀ * V * sampleRegressors M w N i).det ≠ 0) :
    (∀ l, (E i).linearParameters (V.submatrix onlyMoments onlyMoments) (o i theta) l - beta0 l =
      (gain (sampleRegressors M w N i) V *ᵥ averageMoments (M.at theta beta0) w N i) l) ∧
    ∀ a, (E i).meanMoments (V.submatrix onlyMoments onlyMoments) (o i theta) (.inl (.inl a)) =
      (averageMoments (M.at theta beta0) w N i - sampleRegressors M w N i *ᵥ (gain (sampleRegressors M w N i) V *ᵥ averageMoments (M.at theta beta0) w N i)) a := by
  have h1 := deviation_eq (forgetProblem (E i) (o i theta)) (forgetEvaluated (o i theta)) beta0 hN hc.invertLinear (V.submatrix onlyMoments onlyMoments)
    (by rw [slopes_sample hE, det_product]; exact hd)
  rw [slopes_sample hE] at h1
  have hb : ∀ l, (E i).linearParameters (V.submatrix onlyMoments onlyMoments) (o i theta) l - beta0 l =
      (gain (sampleRegressors M w N i) V *ᵥ averageMoments (M.at theta beta0) w N i) l := by
    intro l
    have h2 := congrFun h1 (.inr l)
    rw [gain_eq] at h2
    simp only [deviation, Sum.elim_inr, Matrix.mulVec, dotProduct, sum_moments, moments_sample hE] at h2
    exact h2
  refine ⟨hb, fun a => ?_⟩
  have h3 := congrFun (meanMoments_deviation (E := fun _ => forgetProblem (E i) (o i theta)) (o := fun _ => forgetEvaluated (o i theta)) (N := fun _ => N i)
    (beta := beta0) i (V.submatrix onlyMoments onlyMoments)) (.inl (.inl a))
  rw [forget_meanMoments] at h3
  rw [h3, Pi.sub_apply, moments_sample hE, slopes_sample hE, Pi.sub_apply]
  congr 1
  simp only [Matrix.mulVec, dotProduct, Fintype.sum_sum_type (α₁ := Empty), Fintype.sum_empty, zero_add]
  refine Finset.sum_congr rfl fun l _ => ?_
  rw [show (deviation (forgetProblem (E i) (o i theta)) (forgetEvaluated (o i theta)) beta0 (V.submatrix onlyMoments onlyMoments) (.inr l)) = _ from hb l]
  rfl

lemma objective_sample {i : ℕ × Ω} (hc : Computes (E i)) (hE : Spec.Sampled (M.at theta beta0) (fun t => w t i.2) i.1 (E i) (o i theta) beta0) (hN : 0 < N i)
    {V : Matrix (MomentIndex m) (MomentIndex m) ℝ} (hd : ((sampleRegressors M w N i)ᵀ * V * sampleRegressors M w N i).det ≠ 0) :
    (E i).objective (V.submatrix onlyMoments onlyMoments) (o i theta) = (if (E i).scale then (N i : ℝ) else 1) *
      ((averageMoments (M.at theta beta0) w N i - sampleRegressors M w N i *ᵥ (gain (sampleRegressors M w N i) V *ᵥ averageMoments (M.at theta beta0) w N i)) ⬝ᵥ
        (V *ᵥ (averageMoments (M.at theta beta0) w N i - sampleRegressors M w N i *ᵥ (gain (sampleRegressors M w N i) V *ᵥ
          averageMoments (M.at theta beta0) w N i)))) := by
  have h := (estimates_sample hc hE hN hd).2
  rw [objective_eq]
  congr 1
  simp only [dotProduct_moments, Matrix.mulVec, h]
  rfl

/-- The reported Jacobian of moments. -/
lemma jacobian_sample {i : ℕ × Ω} {r : StepResults (Estimation.Weights m q d) (θ → ℝ) D} (ho : (E i).outcome r = o i theta)
    (hl : ∀ p, (E i).location p = none) (hE : Spec.Sampled (M.at theta beta0) (fun t => w t i.2) i.1 (E i) (o i theta) beta0)
    (hS : Spec.SlopesSampled M (slope theta) (fun t => w t i.2) i.1 (E i) (o i theta)) :
    (E i).jacobian r = (Matrix.of fun a => Sum.elim (sampleSlopes M slope w N i theta a) fun l => -sampleRegressors M w N i a l).submatrix onlyMoments id := by
  ext a p
  rcases a with (a | a) | a
  · rcases p with p | l
    · obtain ⟨place, hz, hs⟩ := hS
      have hxi : ((E i).data.xiJacobian ((E i).covariances r.start.W (o i theta).phi) (ivWeights (ivWeights r.start.W)) (o i theta).phi
          ((o i theta).deltaJacobian.col p) ((o i theta).costsJacobian.col p)) = (o i theta).deltaJacobian.col p := by
        unfold MomentData.xiJacobian
        cases h : levelsIndex (E i).data.demand with
        | none => rfl
        | some j =>
          have hj : (E i).data.demand j = .levels := by
            have := List.find?_some h
            revert this
            cases (E i).data.demand j <;> simp [MomentType.isLevels]
          simp [MomentData.jacobians, MomentData.converts, MomentData.equations, hj]
      have hom : ((E i).data.omegaJacobian ((E i).covariances r.start.W (o i theta).phi) (ivWeights (ivWeights r.start.W)) (o i theta).phi
          ((o i theta).deltaJacobian.col p) ((o i theta).costsJacobian.col p)) = (o i theta).costsJacobian.col p := by
        unfold MomentData.omegaJacobian
        cases h : levelsIndex (E i).data.supply with
        | none => rfl
        | some j =>
          have hj : (E i).data.supply j = .levels := by
            have := List.find?_some h
            revert this
            cases (E i).data.supply j <;> simp [MomentType.isLevels]
          simp [MomentData.jacobians, MomentData.converts, MomentData.equations, hj]
      unfold Estimation.jacobian
      rw [ho]
      unfold MomentData.momentsJacobian MomentData.meanG
      simp only [Matrix.of_apply, concat, Sum.elim_inl, gmmMomentsJacobianMean, MomentData.phiContribution, hl, Pi.zero_apply, add_zero,
        MomentData.reportedXi, MomentData.reportedOmega, hxi, hom, hs, hz, Fintype.card_fin, Matrix.submatrix_apply, onlyMoments_apply, id_eq, sampleSlopes]
      congr 1
      exact sum_place (P := M.at theta beta0) (w := fun t => w t i.2) place fun x j => slope theta x a.1 j p * M.instrument x a.1 j a.2
    · have h1 := jacobian_eq (forgetProblem (E i) (o i theta)) (forgetEvaluated (o i theta)) beta0
        ⟨r.step, ⟨r.start.W, fun c => c.elim, r.start.delta⟩, false, fun c => c.elim, r.delta, r.updatedW, false, 0, 0, false, 0, 0, [], []⟩ rfl
      have h2 := congrFun (congrFun h1 (.inl (.inl a))) (.inr l)
      rw [slopes_sample hE] at h2
      refine Eq.trans ?_ h2
      unfold Estimation.jacobian
      rw [ho]
      rcases l with l | l <;> rfl
  · exact isEmptyElim a
  · exact isEmptyElim a

lemma tendsto_sampleRegressors (h : UniformAverages q d law M Θ beta0 w F) (hM : M.Regular law Θ theta0 beta0)
    (hE : ∀ i, ∀ theta ∈ Θ, Spec.Sampled (M.at theta beta0) (fun t => w t i.2) i.1 (E i) (o i theta) beta0) :
    Tendsto (sampleRegressors M w N) F (𝓝 ((M.at theta0 beta0).slopes law)) := by
  have h1 := tendsto_slopes (limits_at h hM hE le_rfl (k := fun _ => ⟨theta0, hM.inside⟩) (k0 := ⟨theta0, hM.inside⟩) tendsto_const_nhds)
  simp only [fun i => slopes_sample (hE i theta0 hM.inside)] at h1
  rw [limitSlopes_eq] at h1
  exact tendsto_matrix.mpr fun a l => tendsto_matrix.mp h1 (.inl (.inl a)) (.inr l)

lemma tendsto_sampleSlopes (h : UniformAverages q d law M Θ beta0 w F) (hS : SlopeAverages law M Θ slope w F) (hM : M.Regular law Θ theta0 beta0)
    (hE : ∀ i, ∀ theta ∈ Θ, Spec.Sampled (M.at theta beta0) (fun t => w t i.2) i.1 (E i) (o i theta) beta0) {k : ℕ × Ω → Θ}
    (hk : Tendsto k F (𝓝 ⟨theta0, hM.inside⟩)) (a : MomentIndex m) (p : θ) :
    Tendsto (fun i => sampleSlopes M slope w N i (k i) a p) F
      (𝓝 ((M.at theta0 beta0).average law fun x j => slope theta0 x a.1 j p * M.instrument x a.1 j a.2)) := by
  have h1 := tendsto_ratio (hS a p k _ hk) h.size hM.truth.nonempty.ne'
  refine Tendsto.congr (fun i => ?_) h1
  unfold sampleSlopes
  rw [Matrix.of_apply, sampled_size (hE i theta0 hM.inside)]
  rfl

lemma tendsto_segment {I : Type} {F : Filter I} {k z : I → θ → ℝ} {x : θ → ℝ} (hk : Tendsto k F (𝓝 x)) (hz : ∀ i, z i ∈ segment ℝ x (k i)) :
    Tendsto z F (𝓝 x) := by
  rw [tendsto_iff_dist_tendsto_zero] at hk ⊢
  refine squeeze_zero (fun _ => dist_nonneg) (fun i => ?_) hk
  obtain ⟨u, v, hu, hv, huv, e⟩ := hz i
  have e1 : z i - x = v • (k i - x) := by
    rw [← e, show u = 1 - v by linarith, sub_smul, one_smul, smul_sub]
    abel
  rw [dist_eq_norm, dist_eq_norm, e1, norm_smul, Real.norm_eq_abs, abs_of_nonneg hv]
  exact mul_le_of_le_one_left (norm_nonneg _) (by linarith)

/-- Derivatives of moments with respect to all parameters in samples, where those of each moment with respect to nonlinear parameters are at parameters of
their own. -/
noncomputable def sampleJacobian (M : Spec.Models C m (b ⊕ g) θ) (slope : (θ → ℝ) → C → Fin nd ⊕ Fin ns → ℕ → θ → ℝ) (w : ℕ → Ω → C) (N : ℕ × Ω → ℕ)
    (i : ℕ × Ω) (z : MomentIndex m → θ → ℝ) : Matrix (MomentIndex m) (θ ⊕ b ⊕ g) ℝ :=
  Matrix.of fun a => Sum.elim (sampleSlopes M slope w N i (z a) a) fun l => -sampleRegressors M w N i a l

lemma tendsto_sampleJacobian (h : UniformAverages q d law M Θ beta0 w F) (hS : SlopeAverages law M Θ slope w F) (hM : M.Regular law Θ theta0 beta0)
    (hE : ∀ i, ∀ theta ∈ Θ, Spec.Sampled (M.at theta beta0) (fun t => w t i.2) i.1 (E i) (o i theta) beta0) {z : ℕ × Ω → MomentIndex m → Θ}
    (hz : ∀ a, Tendsto (fun i => z i a) F (𝓝 ⟨theta0, hM.inside⟩)) :
    Tendsto (fun i => sampleJacobian M slope w N i fun a => z i a) F (𝓝 (M.jacobian law slope theta0 beta0)) := by
  refine tendsto_matrix.mpr fun a p => ?_
  rcases p with p | l
  · exact tendsto_sampleSlopes h hS hM hE (hz a) a p
  · exact (tendsto_matrix.mp (tendsto_sampleRegressors h hM hE) a l).neg

/-- **Deviations of estimates from the truth** are linear in averages of moments at the truth. -/
lemma nonlinear_deviation (hc : ∀ i, Computes (E i)) (h : UniformAverages q d law M Θ beta0 w F) (hS : SlopeAverages law M Θ slope w F)
    (hM : M.Regular law Θ theta0 beta0) (hD : M.Differentiable law Θ theta0 slope)
    (hE : ∀ i, ∀ theta ∈ Θ, Spec.Sampled (M.at theta beta0) (fun t => w t i.2) i.1 (E i) (o i theta) beta0)
    {V : ℕ × Ω → Matrix (MomentIndex m) (MomentIndex m) ℝ} {W1 : Matrix (MomentIndex m) (MomentIndex m) ℝ} (hV : Tendsto V F (𝓝 W1))
    (hsym : ∀ᶠ i in F, (V i)ᵀ = V i) (hd : (((M.at theta0 beta0).slopes law)ᵀ * W1 * (M.at theta0 beta0).slopes law).det ≠ 0)
    (hJ : ((M.jacobian law slope theta0 beta0)ᵀ * W1 * M.jacobian law slope theta0 beta0).det ≠ 0) {k : ℕ × Ω → Θ} (hk : Tendsto k F (𝓝 ⟨theta0, hM.inside⟩))
    (hmin : ∀ i, ∀ theta ∈ Θ, (E i).objective ((V i).submatrix onlyMoments onlyMoments) (o i (k i)) ≤
      (E i).objective ((V i).submatrix onlyMoments onlyMoments) (o i theta)) :
    ∃ (A : ℕ × Ω → Matrix (θ ⊕ b ⊕ g) (MomentIndex m) ℝ) (K : ℕ × Ω → Matrix (MomentIndex m) (θ ⊕ b ⊕ g) ℝ),
      Tendsto A F (𝓝 (-gain (M.jacobian law slope theta0 beta0) W1)) ∧ Tendsto K F (𝓝 (M.jacobian law slope theta0 beta0)) ∧
      ∀ᶠ i in F, (Sum.elim (fun p => (k i : θ → ℝ) p - theta0 p) fun l =>
        (E i).linearParameters ((V i).submatrix onlyMoments onlyMoments) (o i (k i)) l - beta0 l) = A i *ᵥ averageMoments (M.at theta0 beta0) w N i ∧
        ∀ a, (E i).meanMoments ((V i).submatrix onlyMoments onlyMoments) (o i (k i)) (.inl (.inl a)) =
          (averageMoments (M.at theta0 beta0) w N i + K i *ᵥ (A i *ᵥ averageMoments (M.at theta0 beta0) w N i)) a := by
  choose z hz hzv using fun i a => average_mean_value (theta := k i) (beta0 := beta0) (w := w) hD N i a hM.inside (k i).2
  have hk' : Tendsto (fun i => (k i : θ → ℝ)) F (𝓝 theta0) := (continuous_subtype_val.tendsto _).comp hk
  have hzΘ : ∀ i a, z i a ∈ Θ := fun i a => hD.convex.segment_subset hM.inside (k i).2 (hz i a)
  have hzt : ∀ a, Tendsto (fun i => (⟨z i a, hzΘ i a⟩ : Θ)) F (𝓝 ⟨theta0, hM.inside⟩) := fun a =>
    tendsto_subtype_rng.mpr (tendsto_segment hk' fun i => hz i a)
  have hQ := tendsto_sampleRegressors h hM hE
  have hJt := tendsto_sampleJacobian h hS hM hE (z := fun i _ => k i) fun _ => hk
  have hKt := tendsto_sampleJacobian h hS hM hE (z := fun i a => ⟨z i a, hzΘ i a⟩) hzt
  set J := fun i => sampleJacobian M slope w N i fun _ => (k i : θ → ℝ) with hJdef
  set K := fun i => sampleJacobian M slope w N i (z i) with hKdef
  have hprod := tendsto_mul (tendsto_mul (tendsto_transpose hJt) hV) hKt
  have hinv := tendsto_inv hprod hJ
  refine ⟨fun i => -(((J i)ᵀ * V i * K i)⁻¹ * (J i)ᵀ * V i), K, ?_, hKt, ?_⟩
  · have h1 := tendsto_mul (tendsto_mul hinv (tendsto_transpose hJt)) hV
    exact tendsto_matrix.mpr fun p a => (tendsto_matrix.mp h1 p a).neg
  · filter_upwards [hsym, eventually_det hprod hJ, eventually_det (tendsto_mul (tendsto_mul (tendsto_transpose hQ) hV) hQ) hd, positive_at h hM hE,
      hk'.eventually (eventually_mem_nhds_iff.mpr hD.interior)] with i hVi hdi hQi hNi hint
    have hN : (0 : ℝ) < N i := by exact_mod_cast hNi
    have hes := estimates_sample (hc i) (hE i (k i) (k i).2) hNi hQi
    set Q := sampleRegressors M w N i with hQdef
    set f : (θ → ℝ) → MomentIndex m → ℝ := fun y => averageMoments (M.at y beta0) w N i with hf
    have hloc : IsLocalMin (fun y => (f y - Q *ᵥ (gain Q (V i) *ᵥ f y)) ⬝ᵥ (V i *ᵥ (f y - Q *ᵥ (gain Q (V i) *ᵥ f y)))) (k i : θ → ℝ) := by
      filter_upwards [hint] with y hy
      have h1 := hmin i y hy
      rw [objective_sample (hc i) (hE i (k i) (k i).2) hNi hQi, objective_sample (hc i) (hE i y hy) hNi hQi] at h1
      refine le_of_mul_le_mul_left h1 ?_
      split_ifs
      · exact hN
      · exact one_pos
    have hfoc := first_order hVi hQi (fun a => (average_derivative (beta0 := beta0) (w := w) hD N i a (k i).2).hasFDerivAt hint) hloc
    have horth := concentrated_orthogonal hQi (f (k i))
    set v := f (k i) - Q *ᵥ (gain Q (V i) *ᵥ f (k i)) with hv
    set x : θ ⊕ b ⊕ g → ℝ := Sum.elim (fun p => (k i : θ → ℝ) p - theta0 p) fun l =>
        (E i).linearParameters ((V i).submatrix onlyMoments onlyMoments) (o i (k i)) l - beta0 l with hx
    have hexp : v = f theta0 + K i *ᵥ x := by
      funext a
      rw [hv, Pi.sub_apply, Pi.add_apply, hf]
      simp only
      rw [hzv i a, add_sub_assoc]
      congr 1
      simp only [Matrix.mulVec, dotProduct, Fintype.sum_sum_type (α₁ := θ), hKdef, sampleJacobian, Matrix.of_apply, Sum.elim_inl, Sum.elim_inr, hx, hes.1]
      rw [sub_eq_add_neg, ← Finset.sum_neg_distrib]
      congr 1
      refine Finset.sum_congr rfl fun l _ => ?_
      rw [neg_mul]
    have hz0 : (J i)ᵀ *ᵥ (V i *ᵥ v) = 0 := by
      funext p
      rcases p with p | l
      · exact congrFun hfoc p
      · have h2 := congrFun horth l
        rw [Pi.zero_apply] at h2 ⊢
        rw [← neg_eq_zero] at h2
        rw [← h2]
        simp only [Matrix.mulVec, dotProduct, ← Finset.sum_neg_distrib, hJdef, sampleJacobian, Matrix.transpose_apply, Matrix.of_apply, Sum.elim_inr]
        exact Finset.sum_congr rfl fun a _ => neg_mul _ _
    rw [hexp] at hz0
    have h3 := solve_orthogonal hdi hz0
    rw [← Matrix.neg_mulVec] at h3
    refine ⟨h3, fun a => ?_⟩
    rw [hes.2 a, ← h3]
    exact congrFun hexp a

/-! ## What is reported -/

/-- Reported covariances converge if what they are functions of does. -/
lemma tendsto_reported (hc : ∀ i, Computes (E i)) {seType : CovarianceType} (hse : ∀ i, (E i).seType = seType)
    {r : ℕ × Ω → StepResults (Estimation.Weights m q d) (θ → ℝ) D} {J : Matrix ((MomentIndex m ⊕ q) ⊕ d) (θ ⊕ b ⊕ g) ℝ} {W S : Estimation.Weights m q d}
    (hJ : Tendsto (fun i => (E i).jacobian (r i)) F (𝓝 J)) (hW : Tendsto (fun i => (E i).weightsForCovariances (r i)) F (𝓝 W))
    (hS : Tendsto (fun i => (E i).reportedCovariances (r i)) F (𝓝 S)) (hd : (Jᵀ * W * J).det ≠ 0) :
    Tendsto (fun i => (E i).parameterCovariances (r i)) F (𝓝 (symmetrized (limitParameterCovariances J W S seType.isUnadjusted))) := by
  have hM := tendsto_mul (tendsto_mul (tendsto_transpose hJ) hW) hJ
  have hH := tendsto_inv hM hd
  have hfinal : Tendsto (fun i => limitParameterCovariances ((E i).jacobian (r i)) ((E i).weightsForCovariances (r i)) ((E i).reportedCovariances (r i))
      seType.isUnadjusted) F (𝓝 (limitParameterCovariances J W S seType.isUnadjusted)) := by
    unfold limitParameterCovariances
    cases seType.isUnadjusted
    · simp only [Bool.false_eq_true, if_false]
      exact tendsto_mul (tendsto_mul (tendsto_mul (tendsto_mul (tendsto_mul (tendsto_mul hH (tendsto_transpose hJ)) hW) hS) hW) hJ) hH
    · simp only [if_true]
      exact hH
  have hsym : Tendsto (fun i => symmetrized (limitParameterCovariances ((E i).jacobian (r i)) ((E i).weightsForCovariances (r i))
      ((E i).reportedCovariances (r i)) seType.isUnadjusted)) F (𝓝 (symmetrized (limitParameterCovariances J W S seType.isUnadjusted))) :=
    tendsto_matrix.mpr fun l l' => ((tendsto_matrix.mp hfinal l l').add (tendsto_matrix.mp hfinal l' l)).div_const 2
  refine hsym.congr' ?_
  filter_upwards [eventually_det hM hd] with i hi
  unfold Estimation.parameterCovariances gmmParameterCovariances limitParameterCovariances
  rw [hse, inverts_inv (hc i).invertParameters _ hi]

lemma limitParameterCovariances_submatrix {c c' p : Type} [Fintype c] [Fintype c'] [Fintype p] [DecidableEq c] [DecidableEq c'] [DecidableEq p] (e : c' ≃ c)
    (Q : Matrix c p ℝ) (W S : Matrix c c ℝ) (unadjusted : Bool) :
    limitParameterCovariances (Q.submatrix e id) (W.submatrix e e) (S.submatrix e e) unadjusted = limitParameterCovariances Q W S unadjusted := by
  have e1 : (Q.submatrix e id)ᵀ * W.submatrix e e * Q.submatrix e id = Qᵀ * W * Q := by
    have := product_eq e (Equiv.refl p) Q W
    exact this
  unfold limitParameterCovariances
  rw [e1]
  cases unadjusted
  · simp only [Bool.false_eq_true, if_false]
    have e2 : (Qᵀ * W * Q)⁻¹ * (Q.submatrix e id)ᵀ = ((Qᵀ * W * Q)⁻¹ * Qᵀ).submatrix id e := rfl
    have e3 : ∀ (A : Matrix p c ℝ) (B : Matrix c c ℝ), A.submatrix id e * B.submatrix e e = (A * B).submatrix id e := fun A B => Matrix.submatrix_mul_equiv A B id e e
    have e4 : ∀ (A : Matrix p c ℝ) (B : Matrix c p ℝ), A.submatrix id e * B.submatrix e id = A * B := fun A B => Matrix.submatrix_mul_equiv A B id e id
    rw [e2, e3, e3, e3, e4]
  · rfl

/-- What is reported is right when covariances are. -/
lemma limitParameterCovariances_valid {k : Type} [Fintype k] [DecidableEq k] {P : Spec.Clusters C m (b ⊕ g)} {method : GmmMethod} {seType : CovarianceType}
    (Q : Matrix (MomentIndex m) k ℝ) (W : Matrix (MomentIndex m) (MomentIndex m) ℝ) (hW : Wᵀ = W) (hd : (Qᵀ * W * Q).det ≠ 0)
    (hvalid : Spec.Valid P law method W seType) :
    limitParameterCovariances Q (if seType.isUnadjusted && lastStep method == 1 then (P.covariances law seType)⁻¹ else W) (P.covariances law seType)
      seType.isUnadjusted = Spec.variance Q W (P.covariances law .clustered) := by
  set S := P.covariances law .clustered with hS
  have hsym : (Qᵀ * W * Q)ᵀ = Qᵀ * W * Q := by
    rw [Matrix.transpose_mul, Matrix.transpose_mul, Matrix.transpose_transpose, hW, Matrix.mul_assoc]
  have hinv : ((Qᵀ * W * Q)⁻¹)ᵀ = (Qᵀ * W * Q)⁻¹ := by rw [Matrix.transpose_nonsing_inv, hsym]
  have hv : Spec.variance Q W S = (Qᵀ * W * Q)⁻¹ * Qᵀ * W * S * W * Q * (Qᵀ * W * Q)⁻¹ := by
    unfold Spec.variance Spec.gain
    rw [Matrix.transpose_mul, Matrix.transpose_mul, Matrix.transpose_transpose, hW, hinv]
    simp only [Matrix.mul_assoc]
  rw [hv]
  cases seType with
  | clustered => rfl
  | robust =>
    have : P.covariances law .robust = S := hvalid
    rw [this]
    rfl
  | unadjusted =>
    obtain ⟨h1, hdet, c, hc, hm, hWc⟩ := hvalid
    have hu : IsUnit S.det := isUnit_iff_ne_zero.mpr hdet
    have key : (Qᵀ * W * Q)⁻¹ * Qᵀ * W * S * W * Q * (Qᵀ * W * Q)⁻¹ = c • (Qᵀ * W * Q)⁻¹ := by
      have e1 : W * S * W = c • W := by
        nth_rewrite 1 [hWc]
        rw [Matrix.smul_mul, Matrix.nonsing_inv_mul _ hu, Matrix.smul_mul, Matrix.one_mul]
      have e2 : (Qᵀ * W * Q)⁻¹ * Qᵀ * W * S * W * Q * (Qᵀ * W * Q)⁻¹ = (Qᵀ * W * Q)⁻¹ * (Qᵀ * (W * S * W) * Q) * (Qᵀ * W * Q)⁻¹ := by
        simp only [Matrix.mul_assoc]
      rw [e2, e1, Matrix.mul_smul, Matrix.smul_mul, Matrix.mul_smul, Matrix.smul_mul, Matrix.nonsing_inv_mul _ (isUnit_iff_ne_zero.mpr hd), Matrix.one_mul]
    rw [key]
    simp only [limitParameterCovariances, CovarianceType.isUnadjusted, if_true, h1, Bool.true_and]
    cases method with
    | oneStep =>
      have e4 : S⁻¹ = c⁻¹ • W := by rw [hWc, smul_smul, inv_mul_cancel₀ hc, one_smul]
      have e5 : Qᵀ * S⁻¹ * Q = c⁻¹ • (Qᵀ * W * Q) := by rw [e4, Matrix.mul_smul, Matrix.smul_mul]
      change (Qᵀ * S⁻¹ * Q)⁻¹ = _
      rw [e5]
      refine Matrix.inv_eq_left_inv ?_
      rw [Matrix.smul_mul, Matrix.mul_smul, smul_smul, mul_inv_cancel₀ hc, one_smul, Matrix.nonsing_inv_mul _ (isUnit_iff_ne_zero.mpr hd)]
    | twoStep =>
      rw [hm rfl, one_smul]
      rfl

end Estimates

end Pyblp.Asymptotic
