import Verif.Lemmas.NonlinearSampling
import Verif.Lemmas.TestLimits

/-!
# Steps of GMM with nonlinear parameters

At each value of nonlinear parameters, everything else is as if there were linear parameters only.
-/

set_option linter.unusedSectionVars false

open MeasureTheory ProbabilityTheory Filter Topology Matrix

namespace Pyblp.Asymptotic

open Pyblp.Sampling

/-! ## Given nonlinear parameters -/

section Forget

variable {N nd ns : ℕ} {m : Fin nd ⊕ Fin ns → Type} {q b g θ d ι D : Type} [∀ e, Fintype (m e)] [Fintype q] [Fintype b] [Fintype g]
  [Fintype θ] [Fintype d] [LinearOrder ι] [∀ e, DecidableEq (m e)] [DecidableEq q] [DecidableEq b] [DecidableEq g] [DecidableEq θ] [DecidableEq d]

/-- Without derivatives with respect to nonlinear parameters. -/
def forgetEvaluated (o : Evaluated N θ d) : Evaluated N Empty d :=
  ⟨o.phi, o.delta, o.costs, Matrix.of fun _ c => c.elim, Matrix.of fun _ c => c.elim, o.micro, Matrix.of fun _ c => c.elim, o.microCovariances⟩

/-- The problem with linear parameters only in which outcomes are those at given nonlinear parameters. -/
noncomputable def forgetProblem (E : Estimation N nd ns m q b g θ d ι D) (o : Evaluated N θ d) : Estimation N nd ns m q b g Empty d ι D where
  data := E.data
  location c := c.elim
  mean := E.mean
  scale := E.scale
  analytic := E.analytic
  wType := E.wType
  seType := E.seType
  center := E.center
  ids := E.ids
  sort := E.sort
  markets s _ := (forgetEvaluated o, s)
  resampled _ _ := []
  strategy _ start _ := .inr (start, ⟨true, 0, 0⟩)
  budget := 0
  invertLinear := E.invertLinear
  invertAggregate := E.invertAggregate
  invertMoments := E.invertMoments
  invertParameters S := S⁻¹

/-- Nothing is resampled, observations are sorted by clusters, and routines that invert matrices invert those that have an inverse. -/
structure Computes (E : Estimation N nd ns m q b g θ d ι D) : Prop where
  resampled : ∀ s theta, E.resampled s theta = []
  sort : IsArgsort E.ids E.sort
  invertLinear : Spec.Inverts E.invertLinear
  invertAggregate : Spec.Inverts E.invertAggregate
  invertMoments : Spec.Inverts E.invertMoments
  invertParameters : Spec.Inverts E.invertParameters

lemma linear_forget {E : Estimation N nd ns m q b g θ d ι D} (h : Computes E) (o : Evaluated N θ d) : Linear (forgetProblem E o) (forgetEvaluated o) :=
  ⟨fun _ _ => rfl, fun _ _ => rfl, h.sort, h.invertLinear, h.invertAggregate, h.invertMoments, fun _ _ h => Matrix.inv_eq_right_inv h⟩

lemma forget_linearParameters (E : Estimation N nd ns m q b g θ d ι D) (o : Evaluated N θ d) (W : Estimation.Weights m q d) :
    (forgetProblem E o).linearParameters W (forgetEvaluated o) = E.linearParameters W o := rfl

lemma forget_meanMoments (E : Estimation N nd ns m q b g θ d ι D) (o : Evaluated N θ d) (W : Estimation.Weights m q d) :
    (forgetProblem E o).meanMoments W (forgetEvaluated o) = E.meanMoments W o := rfl

lemma forget_momentCovariances (E : Estimation N nd ns m q b g θ d ι D) (o : Evaluated N θ d) (W : Estimation.Weights m q d) (type : CovarianceType)
    (center : Bool) : (forgetProblem E o).momentCovariances type center W (forgetEvaluated o) [] = E.momentCovariances type center W o [] := rfl

lemma forget_defaultWeights (E : Estimation N nd ns m q b g θ d ι D) (o : Evaluated N θ d) : (forgetProblem E o).defaultWeights = E.defaultWeights := rfl

lemma objective_eq (E : Estimation N nd ns m q b g θ d ι D) (o : Evaluated N θ d) (W : Estimation.Weights m q d) :
    E.objective W o = (if E.scale then (N : ℝ) else 1) * (E.meanMoments W o ⬝ᵥ (W *ᵥ E.meanMoments W o)) := rfl

lemma sampled_forget {C : Type} {P : Spec.Clusters C m (b ⊕ g)} {w : ℕ → C} {T : ℕ} {E : Estimation N nd ns m q b g θ d ι D} {o : Evaluated N θ d}
    {beta : b ⊕ g → ℝ} (h : Spec.Sampled P w T E o beta) : Spec.Sampled P w T (forgetProblem E o) (forgetEvaluated o) beta := h

end Forget

/-! ## Identification -/

section Identification

variable {C : Type} {nd ns : ℕ} {m : Fin nd ⊕ Fin ns → Type} {q b g θ d : Type} [∀ e, Fintype (m e)] [Fintype q] [Fintype b] [Fintype g]
  [Fintype θ] [Fintype d] [∀ e, DecidableEq (m e)] [DecidableEq q] [DecidableEq b] [DecidableEq g] [DecidableEq θ] [DecidableEq d]
  [MeasurableSpace C] {law : Measure C} {M : Spec.Models C m (b ⊕ g) θ} {Θ : Set (θ → ℝ)} {theta0 theta : θ → ℝ} {beta0 : b ⊕ g → ℝ}

/-- Population moments are linear in linear parameters. -/
lemma average_at (hM : M.Regular law Θ theta0 beta0) (hθ : theta ∈ Θ) (v : b ⊕ g → ℝ) (a : MomentIndex m) :
    (M.at theta (beta0 + v)).average law (fun x j => (M.at theta (beta0 + v)).error x a.1 j * M.instrument x a.1 j a.2) =
      (M.at theta beta0).average law (fun x j => (M.at theta beta0).error x a.1 j * M.instrument x a.1 j a.2) -
        ((M.at theta beta0).slopes law *ᵥ v) a := by
  have hb := at_bounded hM hθ
  have hm : Integrable (fun x => (M.at theta beta0).total x fun j => (M.at theta beta0).error x a.1 j * M.instrument x a.1 j a.2) law := by
    refine (integrable_clusterProduct (q := Empty) (θ := Empty) (d := Empty) hb (.moment (.inl (.inl a))) .one).congr (Eventually.of_forall fun x => ?_)
    simp only [clusterProduct, Rows.value, mul_one]
    rfl
  have hs : ∀ l, Integrable (fun x => (M.at theta beta0).total x fun j => M.regressor x a.1 j l * M.instrument x a.1 j a.2) law := fun l => by
    refine (integrable_clusterProduct (q := Empty) (θ := Empty) (d := Empty) hb (.slope (.inl (.inl a)) (.inr l)) .one).congr (Eventually.of_forall fun x => ?_)
    simp only [clusterProduct, Rows.value, mul_one]
    rfl
  have e : ∀ x, ((M.at theta (beta0 + v)).total x fun j => (M.at theta (beta0 + v)).error x a.1 j * M.instrument x a.1 j a.2) =
      ((M.at theta beta0).total x fun j => (M.at theta beta0).error x a.1 j * M.instrument x a.1 j a.2) -
        ∑ l, v l * (M.at theta beta0).total x fun j => M.regressor x a.1 j l * M.instrument x a.1 j a.2 := by
    intro x
    simp only [Spec.Clusters.total, Finset.mul_sum]
    rw [Finset.sum_comm, ← Finset.sum_sub_distrib]
    refine Finset.sum_congr rfl fun j _ => ?_
    simp only [Spec.Models.at, Pi.add_apply, mul_add, Finset.sum_add_distrib, sub_mul, add_mul, Finset.sum_mul]
    rw [sub_add_eq_sub_sub]
    congr 1
    exact Finset.sum_congr rfl fun l _ => by ring
  unfold Spec.Clusters.average
  simp only [e]
  rw [integral_sub hm (integrable_finsetSum _ fun l _ => (hs l).const_mul _), integral_finsetSum _ fun l _ => (hs l).const_mul _, sub_div]
  congr 1
  simp only [Matrix.mulVec, dotProduct, Spec.Clusters.slopes, Spec.Clusters.average, Matrix.of_apply, integral_const_mul, Finset.sum_div]
  exact Finset.sum_congr rfl fun l _ => by
    change v l * _ / _ = _ / _ * _
    rw [mul_comm, div_mul_eq_mul_div]
    rfl

/-- Regressors that are identified are not collinear. -/
lemma slopes_injective (hM : M.Regular law Θ theta0 beta0) (hid : M.Identified law Θ theta0 beta0) :
    Function.Injective ((M.at theta0 beta0).slopes law).mulVec := by
  intro v v' hv
  have h := (hid theta0 hM.inside (beta0 + (v - v')) fun e a => ?_).2
  · have h1 := add_eq_left.mp h
    exact sub_eq_zero.mp h1
  · rw [average_at hM hM.inside (v - v') ⟨e, a⟩, Matrix.mulVec_sub]
    rw [hv, sub_self, Pi.zero_apply, sub_zero]
    exact hM.truth.exogenous e a

lemma identified_det (hM : M.Regular law Θ theta0 beta0) (hid : M.Identified law Θ theta0 beta0) {W : Matrix (MomentIndex m) (MomentIndex m) ℝ} (hW : W.PosDef) :
    (((M.at theta0 beta0).slopes law)ᵀ * W * (M.at theta0 beta0).slopes law).det ≠ 0 := by
  have h := (hW.conjTranspose_mul_mul_same (slopes_injective hM hid)).det_pos.ne'
  rwa [Matrix.conjTranspose_eq_transpose_of_trivial] at h

lemma slopes_at (theta : θ → ℝ) : (M.at theta beta0).slopes law = (M.at theta0 beta0).slopes law := rfl

/-- If moments are zero after linear parameters are concentrated out, nonlinear parameters are true ones. -/
lemma identified_theta (hM : M.Regular law Θ theta0 beta0) (hid : M.Identified law Θ theta0 beta0) (hθ : theta ∈ Θ) {v : b ⊕ g → ℝ}
    (h : ∀ a : MomentIndex m, (M.at theta beta0).average law (fun x j => (M.at theta beta0).error x a.1 j * M.instrument x a.1 j a.2) -
      ((M.at theta beta0).slopes law *ᵥ v) a = 0) : theta = theta0 :=
  (hid theta hθ (beta0 + v) fun e a => (average_at hM hθ v ⟨e, a⟩).trans (h ⟨e, a⟩)).1

end Identification

/-! ## Steps -/

section Steps

variable {C Ω : Type} {nd ns : ℕ} {m : Fin nd ⊕ Fin ns → Type} {q b g θ d ι D : Type} [∀ e, Fintype (m e)] [Fintype q] [Fintype b] [Fintype g]
  [Fintype θ] [Fintype d] [LinearOrder ι] [∀ e, DecidableEq (m e)] [DecidableEq q] [DecidableEq b] [DecidableEq g] [DecidableEq θ] [DecidableEq d]
  [IsEmpty q] [IsEmpty d] [MeasurableSpace C] {law : Measure C} {M : Spec.Models C m (b ⊕ g) θ} {Θ : Set (θ → ℝ)} {theta0 : θ → ℝ} {beta0 : b ⊕ g → ℝ}
  {w : ℕ → Ω → C} {F G : Filter (ℕ × Ω)} {N : ℕ × Ω → ℕ} {E : ∀ i, Estimation (N i) nd ns m q b g θ d ι D} {o : ∀ i, (θ → ℝ) → Evaluated (N i) θ d}
  {W : ℕ × Ω → Estimation.Weights m q d} {W0 : Matrix (MomentIndex m) (MomentIndex m) ℝ}

/-- Limits of averages at parameters that converge. -/
lemma limits_at (h : UniformAverages q d law M Θ beta0 w F) (hM : M.Regular law Θ theta0 beta0)
    (hE : ∀ i, ∀ theta ∈ Θ, Spec.Sampled (M.at theta beta0) (fun t => w t i.2) i.1 (E i) (o i theta) beta0) (hG : G ≤ F) {k : ℕ × Ω → Θ} {k0 : Θ}
    (hk : Tendsto k G (𝓝 k0)) :
    Limits G (fun i => linearRows (forgetProblem (E i) (o i (k i))) (forgetEvaluated (o i (k i))) beta0) (fun i => (E i).ids)
      (rowLimit (q := q) (θ := Empty) (d := d) (M.at k0 beta0) law) (clusterLimit (M.at k0 beta0) law) :=
  h.limits (E := fun i => forgetProblem (E i) (o i (k i))) (o := fun i => forgetEvaluated (o i (k i))) hM hG hk fun i => sampled_forget (hE i _ (k i).2)

lemma positive_at (h : UniformAverages q d law M Θ beta0 w F) (hM : M.Regular law Θ theta0 beta0)
    (hE : ∀ i, ∀ theta ∈ Θ, Spec.Sampled (M.at theta beta0) (fun t => w t i.2) i.1 (E i) (o i theta) beta0) : ∀ᶠ i in F, 0 < N i :=
  h.positive (E := fun i => forgetProblem (E i) (o i theta0)) (o := fun i => forgetEvaluated (o i theta0)) (k := fun _ => ⟨theta0, hM.inside⟩) hM
    fun i => sampled_forget (hE i _ hM.inside)

/-- Limits of moments, from which linear parameters are concentrated out. -/
noncomputable def limitMoments (law : Measure C) (M : Spec.Models C m (b ⊕ g) θ) (beta0 : b ⊕ g → ℝ) (W0 : Matrix (MomentIndex m) (MomentIndex m) ℝ)
    (theta : θ → ℝ) : MomentIndex m → ℝ :=
  let v : MomentIndex m → ℝ := fun a => (M.at theta beta0).average law fun x j => (M.at theta beta0).error x a.1 j * M.instrument x a.1 j a.2
  v - (M.at theta beta0).slopes law *ᵥ (Spec.gain ((M.at theta beta0).slopes law) W0 *ᵥ v)

lemma tendsto_meanMoments (hc : ∀ i, Computes (E i)) (h : UniformAverages q d law M Θ beta0 w F) (hM : M.Regular law Θ theta0 beta0)
    (hid : M.Identified law Θ theta0 beta0)
    (hE : ∀ i, ∀ theta ∈ Θ, Spec.Sampled (M.at theta beta0) (fun t => w t i.2) i.1 (E i) (o i theta) beta0) (hG : G ≤ F) {k : ℕ × Ω → Θ} {k0 : Θ}
    (hk : Tendsto k G (𝓝 k0)) (hW0 : W0.PosDef) (hW : Tendsto W F (𝓝 (W0.submatrix onlyMoments onlyMoments))) (a : MomentIndex m) :
    Tendsto (fun i => (E i).meanMoments (W i) (o i (k i)) (.inl (.inl a))) G (𝓝 (limitMoments law M beta0 W0 k0 a)) := by
  set E' := fun i => forgetProblem (E i) (o i (k i)) with hE'
  set o' := fun i => forgetEvaluated (o i (k i)) with ho'
  have hl := limits_at h hM hE hG hk
  have hlin : ∀ i, Linear (E' i) (o' i) := fun i => linear_forget (hc i) _
  set R := rowLimit (q := q) (θ := Empty) (d := d) (M.at k0 beta0) law with hR
  have hQ : limitSlopes R = ((M.at theta0 beta0).slopes law).submatrix onlyMoments onlyLinear := limitSlopes_eq
  have h0 : ((limitSlopes R)ᵀ * W0.submatrix onlyMoments onlyMoments * limitSlopes R).det ≠ 0 := by
    rw [hQ, det_product]; exact identified_det hM hid hW0
  have hWG := hW.mono_left hG
  have hs := tendsto_slopes hl
  have hgain := tendsto_gain hs hWG h0
  have hmom : ∀ a, Tendsto (fun i => moments (E' i) (o' i) beta0 a) G (𝓝 (R (.moment a) .one)) := fun a => hl.averages (.moment a) .one
  have hlim : Tendsto (fun i => (moments (E' i) (o' i) beta0 - slopes (E' i) (o' i) beta0 *ᵥ (gain (slopes (E' i) (o' i) beta0) (W i) *ᵥ
      moments (E' i) (o' i) beta0)) (.inl (.inl a))) G (𝓝 (limitMoments law M beta0 W0 k0 a)) := by
    have e : limitMoments law M beta0 W0 k0 a = R (.moment (.inl (.inl a))) .one - ∑ l, limitSlopes R (.inl (.inl a)) l *
        ∑ c, gain (limitSlopes R) (W0.submatrix onlyMoments onlyMoments) l c * R (.moment c) .one := by
      have e1 : ∀ c : MomentIndex m, R (.moment (.inl (.inl c))) .one =
          (M.at k0 beta0).average law fun x j => (M.at k0 beta0).error x c.1 j * M.instrument x c.1 j c.2 := fun c => by
        simp only [hR, rowLimit_average, Rows.value, mul_one]
        rfl
      rw [hQ, gain_eq]
      simp only [sum_moments, e1, Fintype.sum_sum_type (α₁ := Empty), Fintype.sum_empty, zero_add]
      rfl
    rw [e]
    simp only [Pi.sub_apply, Matrix.mulVec, dotProduct]
    refine (hmom _).sub (tendsto_finsetSum _ fun l _ => (tendsto_matrix.mp hs _ _).mul (tendsto_finsetSum _ fun c _ => (tendsto_matrix.mp hgain _ _).mul (hmom c)))
  refine hlim.congr' ?_
  filter_upwards [eventually_deviation hlin ((positive_at h hM hE).filter_mono hG) hl hWG h0] with i hi
  rw [← hi, ← meanMoments_deviation (E := E') (o := o') (beta := beta0), forget_meanMoments]

lemma limitMoments_truth (hM : M.Regular law Θ theta0 beta0) : limitMoments law M beta0 W0 theta0 = 0 := by
  have : (fun a : MomentIndex m => (M.at theta0 beta0).average law fun x j => (M.at theta0 beta0).error x a.1 j * M.instrument x a.1 j a.2) = 0 :=
    funext fun a => hM.truth.exogenous a.1 a.2
  simp only [limitMoments, this, Matrix.mulVec_zero, sub_zero]

/-- **Consistency of nonlinear parameters.** Parameters that minimize the objective converge to true ones. -/
lemma theta_consistent (hΘ : IsCompact Θ) (hc : ∀ i, Computes (E i)) (h : UniformAverages q d law M Θ beta0 w F) (hM : M.Regular law Θ theta0 beta0)
    (hid : M.Identified law Θ theta0 beta0)
    (hE : ∀ i, ∀ theta ∈ Θ, Spec.Sampled (M.at theta beta0) (fun t => w t i.2) i.1 (E i) (o i theta) beta0) (hW0 : W0.PosDef)
    (hW : Tendsto W F (𝓝 (W0.submatrix onlyMoments onlyMoments))) {k : ℕ × Ω → Θ}
    (hmin : ∀ i, ∀ theta ∈ Θ, (E i).objective (W i) (o i (k i)) ≤ (E i).objective (W i) (o i theta)) :
    Tendsto k F (𝓝 ⟨theta0, hM.inside⟩) := by
  have : CompactSpace Θ := isCompact_iff_compactSpace.mp hΘ
  rw [tendsto_iff_ultrafilter]
  intro G hG
  have hk : Tendsto k G (𝓝 (G.map k).lim) := (G.map k).le_nhds_lim
  set k0 := (G.map k).lim
  have hWG := hW.mono_left hG
  have hq : ∀ {k : ℕ × Ω → Θ} {k0 : Θ}, Tendsto k G (𝓝 k0) → Tendsto (fun i => (E i).meanMoments (W i) (o i (k i)) ⬝ᵥ (W i *ᵥ (E i).meanMoments (W i) (o i (k i)))) G
      (𝓝 (limitMoments law M beta0 W0 k0 ⬝ᵥ (W0 *ᵥ limitMoments law M beta0 W0 k0))) := by
    intro k k0 hk
    have hm := tendsto_meanMoments hc h hM hid hE hG hk hW0 hW
    simp only [dotProduct_moments, Matrix.mulVec]
    refine tendsto_finsetSum _ fun a _ => (hm a).mul (tendsto_finsetSum _ fun c _ => ?_)
    exact (tendsto_matrix.mp hWG (.inl (.inl a)) (.inl (.inl c))).mul (hm c)
  have h1 := hq hk
  have h2 := hq (k := fun _ => ⟨theta0, hM.inside⟩) (k0 := ⟨theta0, hM.inside⟩) tendsto_const_nhds
  rw [limitMoments_truth hM, zero_dotProduct] at h2
  have h3 : limitMoments law M beta0 W0 k0 ⬝ᵥ (W0 *ᵥ limitMoments law M beta0 W0 k0) ≤ 0 := by
    refine le_of_tendsto_of_tendsto h1 h2 ?_
    filter_upwards [hG (positive_at h hM hE)] with i hi
    have h4 := hmin i theta0 hM.inside
    rw [objective_eq, objective_eq] at h4
    refine le_of_mul_le_mul_left h4 ?_
    have : (0 : ℝ) < N i := by exact_mod_cast hi
    split_ifs
    · exact this
    · exact one_pos
  have h5 : limitMoments law M beta0 W0 k0 = 0 := by
    by_contra hne
    have := hW0.dotProduct_mulVec_pos hne
    rw [star_trivial] at this
    exact absurd h3 (not_le.mpr this)
  have h6 : (k0 : θ → ℝ) = theta0 := identified_theta hM hid k0.2 (v := _) fun a => congrFun h5 a
  rw [show (⟨theta0, hM.inside⟩ : Θ) = k0 from Subtype.ext h6.symm]
  exact hk

/-- **Consistency of linear parameters**, and limits of weights that are updated. -/
lemma beta_consistent (hc : ∀ i, Computes (E i)) (h : UniformAverages q d law M Θ beta0 w F) (hM : M.Regular law Θ theta0 beta0)
    (hid : M.Identified law Θ theta0 beta0)
    (hE : ∀ i, ∀ theta ∈ Θ, Spec.Sampled (M.at theta beta0) (fun t => w t i.2) i.1 (E i) (o i theta) beta0) (hW0 : W0.PosDef)
    (hW : Tendsto W F (𝓝 (W0.submatrix onlyMoments onlyMoments))) {k : ℕ × Ω → Θ} (hk : Tendsto k F (𝓝 ⟨theta0, hM.inside⟩)) (l : b ⊕ g) :
    Tendsto (fun i => (E i).linearParameters (W i) (o i (k i)) l) F (𝓝 (beta0 l)) := by
  have h1 := tendsto_deviation (fun i => linear_forget (hc i) (o i (k i))) (positive_at h hM hE) (limits_at h hM hE le_rfl hk) (exogenous_limit hM.truth) hW
    (by rw [limitSlopes_eq, det_product]; exact identified_det hM hid hW0)
  have h2 := (tendsto_pi_nhds.mp h1 (.inr l)).add_const (beta0 l)
  simp only [deviation, Sum.elim_inr, sub_add_cancel, Pi.zero_apply, zero_add] at h2
  exact h2

lemma tendsto_updated (hc : ∀ i, Computes (E i)) (h : UniformAverages q d law M Θ beta0 w F) (hM : M.Regular law Θ theta0 beta0)
    (hid : M.Identified law Θ theta0 beta0)
    (hE : ∀ i, ∀ theta ∈ Θ, Spec.Sampled (M.at theta beta0) (fun t => w t i.2) i.1 (E i) (o i theta) beta0) (hW0 : W0.PosDef)
    (hW : Tendsto W F (𝓝 (W0.submatrix onlyMoments onlyMoments))) {k : ℕ × Ω → Θ} (hk : Tendsto k F (𝓝 ⟨theta0, hM.inside⟩)) {wType : CovarianceType}
    (hw : ∀ i, (E i).wType = wType) (hS : ((M.at theta0 beta0).covariances law wType).det ≠ 0) :
    Tendsto (fun i => (E i).updatedWeights (W i) (o i (k i)) []) F (𝓝 (((M.at theta0 beta0).covariances law wType)⁻¹.submatrix onlyMoments onlyMoments)) := by
  have key := fun center => tendsto_gmmWeights (fun i => linear_forget (hc i) (o i (k i))) (positive_at h hM hE) (limits_at h hM hE le_rfl hk)
    (exogenous_limit hM.truth) hW (by rw [limitSlopes_eq, det_product]; exact identified_det hM hid hW0) wType center
    (by rw [limitCovariances_eq, Matrix.det_submatrix_equiv_self]; exact hS)
  have htrue := key true
  have hfalse := key false
  rw [limitCovariances_eq, Matrix.inv_submatrix_equiv, tendsto_def] at htrue hfalse
  rw [tendsto_def]
  intro U hU
  filter_upwards [htrue U hU, hfalse U hU] with i ht hf
  simp only [Set.mem_preimage] at ht hf ⊢
  rw [forget_momentCovariances] at ht hf
  unfold Estimation.updatedWeights
  rw [hw]
  cases (E i).center
  · exact hf
  · exact ht

lemma tendsto_start (hc : ∀ i, Computes (E i)) (h : UniformAverages q d law M Θ beta0 w F) (hM : M.Regular law Θ theta0 beta0)
    (hE : ∀ i, ∀ theta ∈ Θ, Spec.Sampled (M.at theta beta0) (fun t => w t i.2) i.1 (E i) (o i theta) beta0)
    (hW : Spec.StartsWith (M.at theta0 beta0) law E W W0) : Tendsto W F (𝓝 (W0.submatrix onlyMoments onlyMoments)) := by
  rcases hW with hW | ⟨hW, hd, rfl⟩
  · have : W = fun _ => W0.submatrix onlyMoments onlyMoments := funext fun i => by rw [weights_eq (W i), hW i]
    rw [this]
    exact tendsto_const_nhds
  · have h1 := tendsto_defaultWeights (fun i => linear_forget (hc i) (o i theta0))
      (limits_at h hM hE le_rfl (k := fun _ => ⟨theta0, hM.inside⟩) (k0 := ⟨theta0, hM.inside⟩) tendsto_const_nhds)
      (by rw [limitInstruments_eq, Matrix.det_submatrix_equiv_self]; exact hd)
    rw [defaultLimit_eq] at h1
    rwa [show W = fun i => (E i).defaultWeights from funext hW]

end Steps

end Pyblp.Asymptotic
