import Verif.Lemmas.TestLimits
import Verif.Props.LargeSample

/-!
# C130: test statistics in large samples

Documentation of `run_hansen_test`, `run_distance_test` and `run_wald_test` says that statistics are asymptotically chi-squared with as many degrees of
freedom as there are restrictions. This is so for problems with linear parameters only, of which C129 is about estimates and standard errors.
-/

set_option linter.unusedSectionVars false

open MeasureTheory ProbabilityTheory Filter Topology Matrix

namespace Pyblp

open Pyblp.Sampling Pyblp.Asymptotic

/-! ## Specification -/

section

variable {C Ω : Type} {nd ns : ℕ} {m : Fin nd ⊕ Fin ns → Type} [∀ e, Fintype (m e)] [∀ e, DecidableEq (m e)] [MeasurableSpace C] [MeasurableSpace Ω]

/-- Limits of weights are optimal: they are inverses of covariances of moments. -/
def Spec.Optimal {k : Type} (P : Spec.Clusters C m k) (law : Measure C) (W : Matrix (MomentIndex m) (MomentIndex m) ℝ) : Prop :=
  (P.covariances law .clustered).det ≠ 0 ∧ W = (P.covariances law .clustered)⁻¹

/-- The same clusters with fewer regressors, for parameters that are restricted to `L` times others. Errors are the same, which is what it means for
restrictions to be valid. -/
def Spec.Clusters.restrict {k k' : Type} [Fintype k] (P : Spec.Clusters C m k) (L : Matrix k k' ℝ) : Spec.Clusters C m k' where
  size := P.size
  regressor x e j l' := ∑ l, P.regressor x e j l * L l l'
  instrument := P.instrument
  error := P.error

variable {q b g θ d ι D : Type} [Fintype q] [Fintype b] [Fintype g] [Fintype θ] [Fintype d] [LinearOrder ι] [DecidableEq q] [DecidableEq b] [DecidableEq g]
  [DecidableEq θ] [DecidableEq d] [IsEmpty q] [IsEmpty d] [IsEmpty θ] {μ : Measure Ω} {law : Measure C} {P : Spec.Clusters C m (b ⊕ g)} {w : ℕ → Ω → C}
  {beta : b ⊕ g → ℝ} {N : ℕ × Ω → ℕ} {E : ∀ i, Estimation (N i) nd ns m q b g θ d ι D} {o : ∀ i, Evaluated (N i) θ d} {method : GmmMethod}
  {initialUpdate : Bool} {wType seType : CovarianceType} {W0 : Matrix (MomentIndex m) (MomentIndex m) ℝ}
  {s : ℕ × Ω → GmmState (Estimation.Weights m q d) (θ → ℝ) D} {r : ℕ × Ω → StepResults (Estimation.Weights m q d) (θ → ℝ) D}

/-! ## Lemmas -/

lemma optimal_posDef (hP : P.Regular law) {W : Matrix (MomentIndex m) (MomentIndex m) ℝ} (h : Spec.Optimal P law W) : (P.covariances law .clustered).PosDef :=
  (clustered_posSemidef hP).posDef_iff_det_ne_zero.mpr h.1

lemma optimal_symm {W : Matrix (MomentIndex m) (MomentIndex m) ℝ} (h : Spec.Optimal P law W) : Wᵀ = W := by
  rw [h.2, Matrix.transpose_nonsing_inv, clusters_symm]

lemma chiSquared_frontier (k : ℕ) {c : ℝ} (hc : 0 < c) : Spec.chiSquared k (frontier (Set.Ioi c)) = 0 := by
  rw [frontier_Ioi]
  exact chiSquared_singleton k hc.ne'

lemma restrict_slopes {k' : Type} (P : Spec.Clusters C m (b ⊕ g)) (hP : P.Regular law) [IsFiniteMeasure law] (L : Matrix (b ⊕ g) k' ℝ) :
    (P.restrict L).slopes law = P.slopes law * L := by
  ext a l'
  rw [Matrix.mul_apply]
  simp only [Spec.Clusters.slopes, Matrix.of_apply, Spec.Clusters.average, div_mul_eq_mul_div]
  rw [← Finset.sum_div]
  congr 1
  have e : ∀ x, (P.restrict L).total x (fun j => (P.restrict L).regressor x a.1 j l' * (P.restrict L).instrument x a.1 j a.2) =
      ∑ l, (P.total x fun j => P.regressor x a.1 j l * P.instrument x a.1 j a.2) * L l l' := fun x => by
    simp only [Spec.Clusters.total, Spec.Clusters.restrict, Finset.sum_mul]
    rw [Finset.sum_comm]
    exact Finset.sum_congr rfl fun l _ => Finset.sum_congr rfl fun j _ => by ring
  have hi : ∀ l, Integrable (fun x => P.total x fun j => P.regressor x a.1 j l * P.instrument x a.1 j a.2) law := fun l => by
    have h0 : ∀ j, Measurable fun x => P.regressor x a.1 j l * P.instrument x a.1 j a.2 := fun j =>
      (hP.measurable_regressor a.1 j l).mul (hP.measurable_instrument a.1 j a.2)
    have h1 : Measurable fun x => P.total x fun j => P.regressor x a.1 j l * P.instrument x a.1 j a.2 :=
      measurable_total (f := fun x j => P.regressor x a.1 j l * P.instrument x a.1 j a.2) hP.measurable_size h0
    refine ((hP.slope a.1 a.2 l).integrable one_le_two).mono h1.aestronglyMeasurable (Eventually.of_forall fun x => ?_)
    rw [Real.norm_eq_abs, Real.norm_eq_abs, abs_of_nonneg (total_abs_nonneg x _)]
    exact abs_total_le x _
  simp only [e]
  rw [integral_finsetSum _ fun l _ => (hi l).mul_const _]
  exact Finset.sum_congr rfl fun l _ => integral_mul_const _ _

/-! ## Theorems -/

/-- **C130, Hansen's test.** The probability that the statistic exceeds any critical value converges to the probability that a chi-squared variable does of
which the degrees of freedom are the number of moments minus the number of parameters, if weights are optimal, for objectives that are scaled and for ones
that are not. -/
theorem C130_hansen [IsProbabilityMeasure μ] (h : Spec.LargeSamples μ law P w beta E o method initialUpdate wType seType W0 s r)
    (hopt : Spec.Optimal P law (Spec.lastWeights P law method initialUpdate wType W0)) (c : ℝ) (hc : 0 < c) :
    Tendsto (fun T => μ {ω | c < ((E (T, ω)).results (r (T, ω))).hansen}) atTop
      (𝓝 (Spec.chiSquared (Fintype.card (MomentIndex m) - Fintype.card (b ⊕ g)) (Set.Ioi c))) := by
  have hE : ∀ i : ℕ × Ω, Spec.Sampled P (fun t => w t i.2) i.1 (E i) (o i) beta := fun i => h.sampled i.1 i.2
  have hav := averages_probably (q := q) (θ := θ) (d := d) h.regular.toBounded h.draws
  obtain ⟨K, hK, hY⟩ := hansen_form h.linear h.regular hE hav h.starts h.weights h.identified h.last (optimal_symm hopt)
  have hid := last_identified (b := b) (g := g) h.identified
  rw [hopt.2] at hK hid
  obtain ⟨B, hB, hBB⟩ := hansen_factor (optimal_posDef h.regular hopt) (P.slopes law) hid
  unfold residualWeights at hK
  rw [← hBB] at hK
  exact statistic_chiSquared h.draws h.independent h.regular (hav.rows hE) hK hB hY (chiSquared_frontier _ hc)

/-- **C130, Wald's test.** The probability that the statistic exceeds any critical value converges to the probability that a chi-squared variable does of
which the degrees of freedom are the number of restrictions, if restrictions hold at the truth, they are differentiable with independent derivatives, and
standard errors are valid. Matrices are inverted and there are no warnings, with a probability that converges to one. -/
theorem C130_wald [IsProbabilityMeasure μ] (h : Spec.LargeSamples μ law P w beta E o method initialUpdate wType seType W0 s r) (hW : W0ᵀ = W0)
    (hvalid : Spec.Valid P law method (Spec.lastWeights P law method initialUpdate wType W0) seType)
    {k : Type} [Fintype k] [DecidableEq k] {f : (b ⊕ g → ℝ) → k → ℝ} {R : (b ⊕ g → ℝ) → Matrix k (b ⊕ g) ℝ} (h0 : f beta = 0)
    (hf : HasFDerivAt f (LinearMap.toContinuousLinearMap (Matrix.toLin' (R beta))) beta) (hR : ContinuousAt R beta)
    (hd : (R beta * Spec.variance (P.slopes law) (Spec.lastWeights P law method initialUpdate wType W0) (P.covariances law .clustered) * (R beta)ᵀ).det ≠ 0)
    (nan : Matrix k k ℝ) (pseudoInverses : Bool) (inv pinv diag : Matrix k k ℝ → Attempt (Matrix k k ℝ)) (hi : InvertsRegular pseudoInverses inv pinv) (c : ℝ)
    (hc : 0 < c) :
    let wald := fun i => ((E i).results (r i)).wald nan pseudoInverses inv pinv diag (f ((E i).linearParameters (r i).start.W ((E i).outcome (r i))))
      ((R ((E i).linearParameters (r i).start.W ((E i).outcome (r i)))).submatrix id onlyLinear)
    Tendsto (fun T => μ {ω | c < (wald (T, ω)).1}) atTop (𝓝 (Spec.chiSquared (Fintype.card k) (Set.Ioi c))) ∧
      Tendsto (fun T => μ {ω | (wald (T, ω)).2 = true}) atTop (𝓝 0) := by
  have hE : ∀ i : ℕ × Ω, Spec.Sampled P (fun t => w t i.2) i.1 (E i) (o i) beta := fun i => h.sampled i.1 i.2
  have hav := averages_probably (q := q) (θ := θ) (d := d) h.regular.toBounded h.draws
  have hout : ∀ i, (E i).outcome (r i) = o i := fun i => (h.linear _).markets _ _
  obtain ⟨K, hK, hY⟩ := wald_form h.linear h.regular hE hav h.starts h.weights h.errors h.identified h.last
    (fun hs _ => unadjusted_identified h.identified hvalid hs) (lastWeights_symm hW) (clusters_symm _) hvalid h0 hf hR hd nan pseudoInverses inv pinv diag hi
  have e : R beta * Spec.variance (P.slopes law) (Spec.lastWeights P law method initialUpdate wType W0) (P.covariances law .clustered) * (R beta)ᵀ =
      (R beta * Spec.gain (P.slopes law) (Spec.lastWeights P law method initialUpdate wType W0)) * P.covariances law .clustered *
        (R beta * Spec.gain (P.slopes law) (Spec.lastWeights P law method initialUpdate wType W0))ᵀ := by
    unfold Spec.variance
    rw [Matrix.transpose_mul]
    simp only [Matrix.mul_assoc]
  rw [e] at hK hd
  obtain ⟨B, hB, hBB⟩ := wald_factor (clustered_posSemidef h.regular) _ hd
  rw [← hBB] at hK
  intro wald
  have hwald : ∀ᶠ i in probably μ, wald i = (N i * (averageMoments P w N i ⬝ᵥ (K i *ᵥ averageMoments P w N i)), false) := by
    filter_upwards [hY] with i hi
    simp only [wald, hout]
    exact hi
  constructor
  · exact statistic_chiSquared h.draws h.independent h.regular (hav.rows hE) hK hB (Y := fun i => (wald i).1)
      (hwald.mono fun i hi => by rw [hi]) (chiSquared_frontier _ hc)
  · have h1 : ∀ᶠ i in probably μ, ¬(wald i).2 = true := hwald.mono fun i hi => by simp [hi]
    rw [eventually_probably] at h1
    simpa using h1

/-- **C130, the distance test.** When parameters are restricted to `L` times others, restrictions are valid, and weights of both problems are optimal, the
probability that the statistic exceeds any critical value converges to the probability that a chi-squared variable does of which the degrees of freedom are
the number of restrictions. The statistic is always defined: there is no error about results from different data. -/
theorem C130_distance [IsProbabilityMeasure μ] {b' g' : Type} [Fintype b'] [Fintype g'] [DecidableEq b'] [DecidableEq g'] {L : Matrix (b ⊕ g) (b' ⊕ g') ℝ}
    {beta' : b' ⊕ g' → ℝ} {N' : ℕ × Ω → ℕ} {E' : ∀ i, Estimation (N' i) nd ns m q b' g' θ d ι D} {o' : ∀ i, Evaluated (N' i) θ d} {method' : GmmMethod}
    {initialUpdate' : Bool} {wType' seType' : CovarianceType} {W0' : Matrix (MomentIndex m) (MomentIndex m) ℝ}
    {s' : ℕ × Ω → GmmState (Estimation.Weights m q d) (θ → ℝ) D} {r' : ℕ × Ω → StepResults (Estimation.Weights m q d) (θ → ℝ) D}
    (h : Spec.LargeSamples μ law P w beta E o method initialUpdate wType seType W0 s r)
    (h' : Spec.LargeSamples μ law (P.restrict L) w beta' E' o' method' initialUpdate' wType' seType' W0' s' r')
    (hopt : Spec.Optimal P law (Spec.lastWeights P law method initialUpdate wType W0))
    (hopt' : Spec.Optimal (P.restrict L) law (Spec.lastWeights (P.restrict L) law method' initialUpdate' wType' W0')) (c : ℝ) (hc : 0 < c) :
    (∀ i, ∃ v, ((E' i).results (r' i)).distance (some ((E i).results (r i))) = .ok v) ∧
    Tendsto (fun T => μ {ω | ∃ v, ((E' (T, ω)).results (r' (T, ω))).distance (some ((E (T, ω)).results (r (T, ω)))) = .ok v ∧ c < v}) atTop
      (𝓝 (Spec.chiSquared (Fintype.card (b ⊕ g) - Fintype.card (b' ⊕ g')) (Set.Ioi c))) := by
  have hE : ∀ i : ℕ × Ω, Spec.Sampled P (fun t => w t i.2) i.1 (E i) (o i) beta := fun i => h.sampled i.1 i.2
  have hE' : ∀ i : ℕ × Ω, Spec.Sampled (P.restrict L) (fun t => w t i.2) i.1 (E' i) (o' i) beta' := fun i => h'.sampled i.1 i.2
  have hN : ∀ i, N i = N' i := fun i => by
    have h1 := sampled_size (hE i)
    rw [show (∑ t ∈ Finset.range i.1, (P.size (w t i.2) : ℝ)) = (N' i : ℝ) from (sampled_size (hE' i)).symm] at h1
    exact_mod_cast h1
  have hav := averages_probably (q := q) (θ := θ) (d := d) h.regular.toBounded h.draws
  have hav' := averages_probably (q := q) (θ := θ) (d := d) h'.regular.toBounded h'.draws
  obtain ⟨K, hK, hY⟩ := hansen_form h.linear h.regular hE hav h.starts h.weights h.identified h.last (optimal_symm hopt)
  obtain ⟨K', hK', hY'⟩ := hansen_form h'.linear h'.regular hE' hav' h'.starts h'.weights h'.identified h'.last (optimal_symm hopt')
  have hid := last_identified (b := b) (g := g) h.identified
  have hid' := last_identified (b := b') (g := g') h'.identified
  have hfin : IsProbabilityMeasure law := by
    have h1 := h.draws.law 0
    rw [← h1]
    exact Measure.isProbabilityMeasure_map (h.draws.measurable 0).aemeasurable
  rw [hopt.2] at hK hid
  rw [hopt'.2, restrict_slopes P h.regular L] at hK' hid'
  change ((P.slopes law * L)ᵀ * (P.covariances law .clustered)⁻¹ * (P.slopes law * L)).det ≠ 0 at hid'
  change Tendsto K' _ (𝓝 (residualWeights (P.slopes law * L) (P.covariances law .clustered)⁻¹)) at hK'
  obtain ⟨B, hB, hBB⟩ := distance_factor (optimal_posDef h.regular hopt) (P.slopes law) L hid hid'
  have hKK := hK'.sub hK
  rw [show residualWeights (P.slopes law * L) (P.covariances law .clustered)⁻¹ - residualWeights (P.slopes law) (P.covariances law .clustered)⁻¹ = Bᵀ * B by
    rw [hBB]; unfold residualWeights; abel] at hKK
  have hd : ∀ i, ((E' i).results (r' i)).distance (some ((E i).results (r i))) =
      .ok (((E' i).results (r' i)).hansen - ((E i).results (r i)).hansen) := fun i => by
    unfold GmmResults.distance
    dsimp only
    rw [if_neg (fun hne => hne (hN i))]
    rfl
  refine ⟨fun i => ⟨_, hd i⟩, ?_⟩
  have hav2 : ∀ i, averageMoments (P.restrict L) w N' i = averageMoments P w N i := fun i => by
    unfold averageMoments
    rw [hN i]
    rfl
  have key := statistic_chiSquared h.draws h.independent h.regular (hav.rows hE) hKK hB (R := Set.Ioi c)
    (Y := fun i => ((E' i).results (r' i)).hansen - ((E i).results (r i)).hansen) (by
      filter_upwards [hY, hY'] with i h1 h2
      rw [h1, h2, hav2, ← hN i, Matrix.sub_mulVec, dotProduct_sub, mul_sub]) (chiSquared_frontier _ hc)
  simp only [hd, Except.ok.injEq, exists_eq_left']
  exact key

end

/-! ## A population -/

section Witness

/-- Means are zero and variances are one. -/
noncomputable abbrev twoNormals : Measure (ℝ × ℝ) := (gaussianReal 0 1).prod (gaussianReal 0 1)

/-- Clusters have one product. There is a constant and an instrument that is independent of the error. Both are regressors. -/
noncomputable def instrumentedPopulation : Spec.Clusters (ℝ × ℝ) (fun _ : Fin 1 ⊕ Fin 0 => Bool) (Bool ⊕ Empty) where
  size _ := 1
  regressor x _ _ := Sum.elim (fun l => if l then x.2 else 1) fun c => c.elim
  instrument x _ _ l := if l then x.2 else 1
  error x _ _ := x.1

/-- Its moments. -/
abbrev TwoMoments := MomentIndex fun _ : Fin 1 ⊕ Fin 0 => Bool

/-- The restriction that the parameter on the second regressor is zero. -/
def onlyConstant : Matrix (Bool ⊕ Empty) (Unit ⊕ Empty) ℝ := Matrix.of fun l _ => if l = .inl true then 0 else 1

/-- The problem for `T` clusters of which mean utilities are `delta`. -/
noncomputable def instrumentedProblem {b : Type} [Fintype b] [DecidableEq b] (T : ℕ) (delta : Fin T → ℝ) (X1 : Matrix (Fin T) b ℝ) (Z : Matrix (Fin T) Bool ℝ)
    (type : CovarianceType) : Estimation T 1 0 (fun _ => Bool) Empty b Empty Empty Empty ℕ Unit where
  data := ⟨id, fun _ => .levels, fun _ => .levels, false, fun _ => Z, Matrix.of fun _ c => c.elim, X1, Matrix.of fun _ c => c.elim⟩
  location c := c.elim
  mean := 0
  scale := true
  analytic := true
  wType := type
  seType := type
  center := false
  ids i := i
  sort := List.finRange T
  markets _ _ := (⟨fun _ _ => 0, delta, fun _ => 0, fun _ c => c.elim, fun _ c => c.elim, fun c => c.elim, fun c => c.elim, fun c => c.elim⟩, ())
  resampled _ _ := []
  strategy _ start _ := .inr (start, ⟨true, 0, 0⟩)
  budget := 10
  invertLinear S := S⁻¹
  invertAggregate S := S⁻¹
  invertMoments S := S⁻¹
  invertParameters S := S⁻¹

lemma single_average {k : Type} {P : Spec.Clusters (ℝ × ℝ) (fun _ : Fin 1 ⊕ Fin 0 => Bool) k} (hs : P.size = fun _ => 1) (f : ℝ × ℝ → ℕ → ℝ) :
    P.average twoNormals f = ∫ x, f x 0 ∂twoNormals := by
  simp [Spec.Clusters.average, Spec.Clusters.total, hs]

lemma normal_first (f : ℝ → ℝ) : ∫ x, f x.1 ∂twoNormals = ∫ x, f x ∂gaussianReal 0 1 := by
  have h := integral_prod_mul (μ := gaussianReal 0 1) (ν := gaussianReal 0 1) f (fun _ => (1 : ℝ))
  simpa using h

lemma normal_second (f : ℝ → ℝ) : ∫ x, f x.2 ∂twoNormals = ∫ x, f x ∂gaussianReal 0 1 := by
  have h := integral_prod_mul (μ := gaussianReal 0 1) (ν := gaussianReal 0 1) (fun _ => (1 : ℝ)) f
  simpa using h

lemma normal_both (f g : ℝ → ℝ) : ∫ x, f x.1 * g x.2 ∂twoNormals = (∫ x, f x ∂gaussianReal 0 1) * ∫ x, g x ∂gaussianReal 0 1 := integral_prod_mul f g

lemma memLp_first : MemLp (fun x : ℝ × ℝ => x.1) 2 twoNormals := by
  have h : MemLp (id : ℝ → ℝ) 2 (gaussianReal 0 1) := memLp_id_gaussianReal (μ := 0) (v := 1) 2
  exact h.comp_fst _

lemma memLp_second : MemLp (fun x : ℝ × ℝ => x.2) 2 twoNormals := by
  have h : MemLp (id : ℝ → ℝ) 2 (gaussianReal 0 1) := memLp_id_gaussianReal (μ := 0) (v := 1) 2
  exact h.comp_snd _

lemma memLp_product : MemLp (fun x : ℝ × ℝ => x.1 * x.2) 2 twoNormals := by
  have h : MemLp (id : ℝ → ℝ) 2 (gaussianReal 0 1) := memLp_id_gaussianReal (μ := 0) (v := 1) 2
  have hm : Measurable fun x : ℝ × ℝ => x.1 * x.2 := measurable_fst.mul measurable_snd
  rw [memLp_two_iff_integrable_sq hm.aestronglyMeasurable]
  have h1 := h.integrable_sq.mul_prod h.integrable_sq
  refine h1.congr (Eventually.of_forall fun x => ?_)
  simp only [id, mul_pow]

lemma normal_fourth : MemLp (fun x : ℝ × ℝ => x.2 * x.2) 2 twoNormals := by
  have h : MemLp (id : ℝ → ℝ) 4 (gaussianReal 0 1) := memLp_id_gaussianReal (μ := 0) (v := 1) 4
  have h2 : MemLp (fun x : ℝ => x * x) 2 (gaussianReal 0 1) := by
    have : ENNReal.HolderTriple 4 4 2 := ⟨by
      rw [← two_mul, show (4 : ENNReal) = 2 * 2 by norm_num, ENNReal.mul_inv (by simp) (by simp), ← mul_assoc,
        ENNReal.mul_inv_cancel (by simp) (by simp), one_mul]⟩
    exact MemLp.mul' h h
  exact h2.comp_snd _

lemma normal_ite (l : Bool) : ∫ x : ℝ × ℝ, (if l then x.2 else 1) ∂twoNormals = if l then 0 else 1 := by
  cases l with
  | false => simp
  | true => simpa using (normal_second fun x => x).trans normal_mean

lemma normal_ites (a c : Bool) : ∫ x : ℝ × ℝ, (if a then x.2 else 1) * (if c then x.2 else 1) ∂twoNormals = if a = c then 1 else 0 := by
  cases a <;> cases c
  · simp
  · simpa using normal_ite true
  · simpa using normal_ite true
  · simpa using (normal_second fun x => x * x).trans normal_square

lemma normal_errors (a c : Bool) :
    ∫ x : ℝ × ℝ, (x.1 * if a then x.2 else 1) * (x.1 * if c then x.2 else 1) ∂twoNormals = if a = c then 1 else 0 := by
  have h := normal_both (fun x => x * x) fun x => (if a then x else 1) * (if c then x else 1)
  rw [normal_square, one_mul, ← normal_second fun x => (if a then x else 1) * (if c then x else 1), normal_ites] at h
  rw [← h]
  exact integral_congr_ae (Eventually.of_forall fun x => by ring)

lemma instrumented_measurable (l : Bool) : Measurable fun x : ℝ × ℝ => if l then x.2 else 1 := by
  cases l with
  | false => exact measurable_const
  | true => exact measurable_snd

lemma instrumented_memLp (l : Bool) : MemLp (fun x : ℝ × ℝ => if l then x.2 else 1) 2 twoNormals := by
  cases l with
  | false => exact memLp_const 1
  | true => exact memLp_second

lemma instrumentedPopulation_regular : instrumentedPopulation.Regular twoNormals where
  measurable_size := measurable_const
  measurable_regressor _ _ l := by
    rcases l with l | l
    · exact instrumented_measurable l
    · exact l.elim
  measurable_instrument _ _ l := instrumented_measurable l
  measurable_error _ _ := measurable_fst
  size := by simpa [instrumentedPopulation] using memLp_const (1 : ℝ)
  regressor _ l := by
    rcases l with l | l
    · have h := (instrumented_memLp l).abs
      simp only [Spec.Clusters.total, instrumentedPopulation, Finset.sum_range_one, Sum.elim_inl]
      exact h
    · exact l.elim
  instrument _ l := by
    have h := (instrumented_memLp l).abs
    simp only [Spec.Clusters.total, instrumentedPopulation, Finset.sum_range_one]
    exact h
  error _ := by
    have h := memLp_first.abs
    simp only [Spec.Clusters.total, instrumentedPopulation, Finset.sum_range_one]
    exact h
  moment _ l := by
    have h : MemLp (fun x : ℝ × ℝ => x.1 * if l then x.2 else 1) 2 twoNormals := by
      cases l with
      | false => simpa using memLp_first
      | true => simpa using memLp_product
    simp only [Spec.Clusters.total, instrumentedPopulation, Finset.sum_range_one]
    exact h.abs
  slope _ a l := by
    rcases l with l | l
    · have h : MemLp (fun x : ℝ × ℝ => (if l then x.2 else 1) * if a then x.2 else 1) 2 twoNormals := by
        cases l <;> cases a
        · simpa using memLp_const (1 : ℝ)
        · simpa using memLp_second
        · simpa using memLp_second
        · simpa using normal_fourth
      simp only [Spec.Clusters.total, instrumentedPopulation, Finset.sum_range_one, Sum.elim_inl]
      exact h.abs
    · exact l.elim
  nonempty := by simp [instrumentedPopulation]
  exogenous _ l := by
    rw [single_average rfl]
    have h := normal_both (fun x => x) fun x => if l then x else 1
    rw [normal_mean, zero_mul] at h
    exact h

lemma onlyConstant_regressor (x : ℝ × ℝ) (e : Fin 1 ⊕ Fin 0) (j : ℕ) (l : Unit ⊕ Empty) : (instrumentedPopulation.restrict onlyConstant).regressor x e j l = 1 := by
  simp [Spec.Clusters.restrict, instrumentedPopulation, onlyConstant]

lemma restrictedPopulation_regular : (instrumentedPopulation.restrict onlyConstant).Regular twoNormals :=
  have h := instrumentedPopulation_regular
  { measurable_size := h.measurable_size
    measurable_regressor := fun e j l => by simp only [onlyConstant_regressor]; exact measurable_const
    measurable_instrument := h.measurable_instrument
    measurable_error := h.measurable_error
    size := h.size
    regressor := fun e l => by
      simp only [onlyConstant_regressor]
      exact h.regressor e (.inl false)
    instrument := h.instrument
    error := h.error
    moment := h.moment
    slope := fun e a l => by
      simp only [onlyConstant_regressor]
      exact h.slope e a (.inl false)
    nonempty := h.nonempty
    exogenous := h.exogenous }

lemma instrumentedIndex (a c : MomentIndex fun _ : Fin 1 ⊕ Fin 0 => Bool) : a = c ↔ a.2 = c.2 := by
  rcases a with ⟨e | e, x⟩
  · rcases c with ⟨e' | e', x'⟩
    · obtain rfl := Subsingleton.elim e e'
      simp
    · exact e'.elim0
  · exact e.elim0

lemma instrumentedEquation (e e' : Fin 1 ⊕ Fin 0) : e = e' := by
  rcases e with e | e
  · rcases e' with e' | e'
    · rw [Subsingleton.elim e e']
    · exact e'.elim0
  · exact e.elim0

lemma instrumentedPopulation_covariances (type : CovarianceType) : instrumentedPopulation.covariances twoNormals type = 1 := by
  ext a c
  rw [Matrix.one_apply]
  simp only [instrumentedIndex]
  cases type with
  | unadjusted =>
    simp only [Spec.Clusters.covariances, Matrix.of_apply, single_average (P := instrumentedPopulation) rfl]
    have h1 : ∫ x : ℝ × ℝ, x.1 ∂twoNormals = 0 := (normal_first fun x => x).trans normal_mean
    have h2 : ∫ x : ℝ × ℝ, x.1 * x.1 ∂twoNormals = 1 := (normal_first fun x => x * x).trans normal_square
    simp only [instrumentedPopulation, h1, h2]
    rw [normal_ites]
    norm_num
  | robust =>
    simp only [Spec.Clusters.covariances, Matrix.of_apply, single_average (P := instrumentedPopulation) rfl]
    exact normal_errors a.2 c.2
  | clustered =>
    simp only [Spec.Clusters.covariances, Matrix.of_apply, Spec.Clusters.total, instrumentedPopulation, Finset.sum_range_one, Nat.cast_one,
      integral_const, probReal_univ, one_smul, div_one]
    exact normal_errors a.2 c.2

lemma instrumentedPopulation_instruments : instrumentedPopulation.instruments twoNormals = 1 := by
  ext a c
  rw [Matrix.one_apply]
  simp only [instrumentedIndex, Spec.Clusters.instruments, Matrix.of_apply, if_pos (instrumentedEquation _ _), single_average (P := instrumentedPopulation) rfl]
  exact normal_ites a.2 c.2

lemma instrumentedPopulation_slopes (a : MomentIndex fun _ : Fin 1 ⊕ Fin 0 => Bool) (l : Bool) :
    instrumentedPopulation.slopes twoNormals a (.inl l) = if l = a.2 then 1 else 0 := by
  simp only [Spec.Clusters.slopes, Matrix.of_apply, single_average (P := instrumentedPopulation) rfl]
  exact normal_ites l a.2

/-- There are samples of any population like this. -/
lemma single_samples {b : Type} [Fintype b] [DecidableEq b] (P : Spec.Clusters (ℝ × ℝ) (fun _ : Fin 1 ⊕ Fin 0 => Bool) (b ⊕ Empty)) (hs : P.size = fun _ => 1)
    (hreg : P.Regular twoNormals) (type : CovarianceType) (hz : P.instruments twoNormals = 1) (hcov : ∀ type, P.covariances twoNormals type = 1)
    (hid : ((P.slopes twoNormals)ᵀ * (1 : Matrix TwoMoments TwoMoments ℝ) * P.slopes twoNormals).det ≠ 0) (beta : b ⊕ Empty → ℝ) :
    ∃ (N : ℕ × (ℕ → ℝ × ℝ) → ℕ) (E : ∀ i, Estimation (N i) 1 0 (fun _ => Bool) Empty b Empty Empty Empty ℕ Unit) (o : ∀ i, Evaluated (N i) Empty Empty)
      (s : ℕ × (ℕ → ℝ × ℝ) → GmmState (Estimation.Weights (fun _ : Fin 1 ⊕ Fin 0 => Bool) Empty Empty) (Empty → ℝ) Unit)
      (r : ℕ × (ℕ → ℝ × ℝ) → StepResults (Estimation.Weights (fun _ : Fin 1 ⊕ Fin 0 => Bool) Empty Empty) (Empty → ℝ) Unit),
      Spec.LargeSamples (Measure.infinitePi fun _ : ℕ => twoNormals) twoNormals P (fun t ω => ω t) beta E o .twoStep false type type 1 s r ∧
      Spec.lastWeights P twoNormals .twoStep false type 1 = 1 ∧ Spec.Optimal P twoNormals 1 ∧ Spec.Valid P twoNormals .twoStep 1 type := by
  set E : ∀ i : ℕ × (ℕ → ℝ × ℝ), Estimation i.1 1 0 (fun _ => Bool) Empty b Empty Empty Empty ℕ Unit :=
    fun i => instrumentedProblem i.1 (fun t => ∑ l, P.regressor (i.2 t) (.inl 0) 0 l * beta l + P.error (i.2 t) (.inl 0) 0)
      (Matrix.of fun t l => P.regressor (i.2 t) (.inl 0) 0 (.inl l)) (Matrix.of fun t a => P.instrument (i.2 t) (.inl 0) 0 a) type with hE
  set s : ℕ × (ℕ → ℝ × ℝ) → GmmState (Estimation.Weights (fun _ : Fin 1 ⊕ Fin 0 => Bool) Empty Empty) (Empty → ℝ) Unit :=
    fun i => ⟨(E i).defaultWeights, fun c => c.elim, ()⟩ with hs'
  have hlast : ∀ i, ∃ r, ((E i).solve .twoStep false (s i)).getLast? = some r := fun i => by
    rw [← Option.isSome_iff_exists, List.getLast?_isSome]
    unfold Estimation.solve gmmSolve gmmLoop
    simp
  choose r hr using hlast
  have hlastW : Spec.lastWeights P twoNormals .twoStep false type 1 = 1 := by
    unfold Spec.lastWeights
    rw [if_neg (by simp), hcov, inv_one]
  have hone : (1 : Matrix (MomentIndex fun _ : Fin 1 ⊕ Fin 0 => Bool) (MomentIndex fun _ : Fin 1 ⊕ Fin 0 => Bool) ℝ).det ≠ 0 := by
    rw [det_one]
    exact one_ne_zero
  refine ⟨fun i => i.1, E, fun i => ((E i).markets () fun c => c.elim).1, s, r, ⟨⟨fun i => measurable_pi_apply i, ?_, fun i => Measure.infinitePi_map_eval _ i⟩,
    iIndepFun_infinitePi (X := fun _ x => x) fun _ => measurable_id, hreg, fun i => ⟨fun _ _ => rfl, fun _ _ => rfl, ?_, ?_, ?_, ?_, ?_⟩, ?_,
    fun _ => rfl, fun _ => rfl, .inr ⟨fun _ => rfl, ?_, ?_⟩, ⟨hid, fun _ => ?_⟩, hr⟩, hlastW, ⟨?_, ?_⟩, ?_⟩
  · intro t t' htt
    exact (iIndepFun_infinitePi (P := fun _ : ℕ => twoNormals) (X := fun _ x => x) fun _ => measurable_id).indepFun htt
  · exact ⟨List.Perm.refl _, by simp only [hE, instrumentedProblem, List.pairwise_map]; exact (List.pairwise_lt_finRange _).imp fun h => le_of_lt h⟩
  · exact fun S T h => Matrix.inv_eq_right_inv h
  · exact fun S T h => Matrix.inv_eq_right_inv h
  · exact fun S T h => Matrix.inv_eq_right_inv h
  · exact fun S T h => Matrix.inv_eq_right_inv h
  · intro T ω
    obtain ⟨size, regressor, instrument, error⟩ := P
    dsimp only at hs
    subst hs
    refine ⟨⟨fun i => ⟨i, (0 : Fin 1)⟩, fun p => p.1, fun _ => rfl, ?_⟩, ?_, ?_, ?_, fun i i' => ⟨fun h => Fin.ext h, fun h => congrArg Fin.val h⟩⟩
    · rintro ⟨t, j⟩
      have : j = (0 : Fin 1) := Fin.fin_one_eq_zero j
      rw [this]
    · rintro i (e | e) (l | l)
      · rw [Subsingleton.elim e 0]
        rfl
      · exact l.elim
      · exact e.elim0
      · exact e.elim0
    · rintro i (e | e) a
      · rw [Subsingleton.elim e 0]
        rfl
      · exact e.elim0
    · rintro i (e | e)
      · rw [Subsingleton.elim e 0]
        rfl
      · exact e.elim0
  · rw [hz]
    exact hone
  · rw [hz, inv_one]
  · rw [hcov, inv_one]
    exact ⟨hone, hid⟩
  · rw [hcov]
    exact hone
  · rw [hcov, inv_one]
  · cases type with
    | clustered => trivial
    | robust => exact (hcov _).trans (hcov _).symm
    | unadjusted =>
      refine ⟨(hcov _).trans (hcov _).symm, ?_, 1, one_ne_zero, fun _ => rfl, ?_⟩
      · rw [hcov]
        exact hone
      · rw [hcov, inv_one, one_smul]

lemma instrumentedPopulation_product : (instrumentedPopulation.slopes twoNormals)ᵀ * (1 : Matrix TwoMoments TwoMoments ℝ) * instrumentedPopulation.slopes twoNormals = 1 := by
  ext l l'
  rcases l with l | l
  · rcases l' with l' | l'
    · rw [Matrix.mul_one, Matrix.mul_apply]
      simp only [Matrix.transpose_apply, instrumentedPopulation_slopes]
      rw [Fintype.sum_sigma, Fintype.sum_sum_type]
      cases l <;> cases l' <;> simp
    · exact l'.elim
  · exact l.elim

lemma restrictedPopulation_product :
    ((instrumentedPopulation.restrict onlyConstant).slopes twoNormals)ᵀ * (1 : Matrix TwoMoments TwoMoments ℝ) * (instrumentedPopulation.restrict onlyConstant).slopes twoNormals = 1 := by
  have h : (instrumentedPopulation.slopes twoNormals * onlyConstant)ᵀ * (1 : Matrix TwoMoments TwoMoments ℝ) *
      (instrumentedPopulation.slopes twoNormals * onlyConstant) =
      onlyConstantᵀ * ((instrumentedPopulation.slopes twoNormals)ᵀ * (1 : Matrix TwoMoments TwoMoments ℝ) * instrumentedPopulation.slopes twoNormals) *
        onlyConstant := by
    rw [Matrix.transpose_mul]
    simp only [Matrix.mul_assoc]
  rw [restrict_slopes _ instrumentedPopulation_regular, h, instrumentedPopulation_product, Matrix.mul_one]
  ext l l'
  rcases l with l | l
  · rcases l' with l' | l'
    · simp [Matrix.mul_apply, onlyConstant]
    · exact l'.elim
  · exact l.elim

/-- Everything that is assumed is true of this population for each type of covariances: of problems with both regressors when the parameter on the second is
zero, of those with only the constant, for which there is one more instrument than there are parameters, and of the restriction that the parameter on the
second regressor is zero. There is one degree of freedom in each test. -/
example (intercept : ℝ) (type : CovarianceType) :
    ∃ (N : ℕ × (ℕ → ℝ × ℝ) → ℕ) (E : ∀ i, Estimation (N i) 1 0 (fun _ => Bool) Empty Bool Empty Empty Empty ℕ Unit) (o : ∀ i, Evaluated (N i) Empty Empty)
      (s : ℕ × (ℕ → ℝ × ℝ) → GmmState (Estimation.Weights (fun _ : Fin 1 ⊕ Fin 0 => Bool) Empty Empty) (Empty → ℝ) Unit)
      (r : ℕ × (ℕ → ℝ × ℝ) → StepResults (Estimation.Weights (fun _ : Fin 1 ⊕ Fin 0 => Bool) Empty Empty) (Empty → ℝ) Unit)
      (N' : ℕ × (ℕ → ℝ × ℝ) → ℕ) (E' : ∀ i, Estimation (N' i) 1 0 (fun _ => Bool) Empty Unit Empty Empty Empty ℕ Unit) (o' : ∀ i, Evaluated (N' i) Empty Empty)
      (s' : ℕ × (ℕ → ℝ × ℝ) → GmmState (Estimation.Weights (fun _ : Fin 1 ⊕ Fin 0 => Bool) Empty Empty) (Empty → ℝ) Unit)
      (r' : ℕ × (ℕ → ℝ × ℝ) → StepResults (Estimation.Weights (fun _ : Fin 1 ⊕ Fin 0 => Bool) Empty Empty) (Empty → ℝ) Unit)
      (beta : Bool ⊕ Empty → ℝ) (f : (Bool ⊕ Empty → ℝ) → Unit → ℝ) (R : (Bool ⊕ Empty → ℝ) → Matrix Unit (Bool ⊕ Empty) ℝ)
      (inv : Matrix Unit Unit ℝ → Attempt (Matrix Unit Unit ℝ)),
      Spec.LargeSamples (Measure.infinitePi fun _ : ℕ => twoNormals) twoNormals instrumentedPopulation (fun t ω => ω t) beta E o .twoStep false type type
        1 s r ∧
      Spec.Optimal instrumentedPopulation twoNormals (Spec.lastWeights instrumentedPopulation twoNormals .twoStep false type 1) ∧
      Spec.Valid instrumentedPopulation twoNormals .twoStep (Spec.lastWeights instrumentedPopulation twoNormals .twoStep false type 1) type ∧
      f beta = 0 ∧ HasFDerivAt f (LinearMap.toContinuousLinearMap (Matrix.toLin' (R beta))) beta ∧ ContinuousAt R beta ∧
      (R beta * Spec.variance (instrumentedPopulation.slopes twoNormals) (Spec.lastWeights instrumentedPopulation twoNormals .twoStep false type 1)
        (instrumentedPopulation.covariances twoNormals .clustered) * (R beta)ᵀ).det ≠ 0 ∧ InvertsRegular false inv inv ∧
      Spec.LargeSamples (Measure.infinitePi fun _ : ℕ => twoNormals) twoNormals (instrumentedPopulation.restrict onlyConstant) (fun t ω => ω t)
        (fun _ => intercept) E' o' .twoStep false type type 1 s' r' ∧
      Spec.Optimal (instrumentedPopulation.restrict onlyConstant) twoNormals
        (Spec.lastWeights (instrumentedPopulation.restrict onlyConstant) twoNormals .twoStep false type 1) ∧
      Fintype.card (MomentIndex fun _ : Fin 1 ⊕ Fin 0 => Bool) - Fintype.card (Unit ⊕ Empty) = 1 ∧
      Fintype.card (Bool ⊕ Empty) - Fintype.card (Unit ⊕ Empty) = 1 := by
  obtain ⟨N, E, o, s, r, h, hW, hopt, hvalid⟩ := single_samples instrumentedPopulation rfl instrumentedPopulation_regular type
    instrumentedPopulation_instruments instrumentedPopulation_covariances (by rw [instrumentedPopulation_product, det_one]; exact one_ne_zero)
    (Sum.elim (fun l => if l then 0 else intercept) fun c => c.elim)
  obtain ⟨N', E', o', s', r', h', hW', hopt', -⟩ := single_samples (instrumentedPopulation.restrict onlyConstant) rfl restrictedPopulation_regular type
    instrumentedPopulation_instruments instrumentedPopulation_covariances (by rw [restrictedPopulation_product, det_one]; exact one_ne_zero)
    fun _ => intercept
  refine ⟨N, E, o, s, r, N', E', o', s', r', _, fun x _ => x (.inl true), fun _ => Matrix.of fun _ l => if l = .inl true then 1 else 0,
    fun S => .ok S⁻¹, h, hW ▸ hopt, hW ▸ hvalid, rfl, ?_, continuousAt_const, ?_, ?_, h', hW' ▸ hopt', ?_, ?_⟩
  · have hlin : (fun (x : Bool ⊕ Empty → ℝ) (_ : Unit) => x (.inl true)) =
        LinearMap.toContinuousLinearMap (Matrix.toLin' (Matrix.of fun (_ : Unit) (l : Bool ⊕ Empty) => if l = .inl true then (1 : ℝ) else 0)) := by
      funext x u
      simp [Matrix.mulVec, dotProduct]
    rw [hlin]
    exact ContinuousLinearMap.hasFDerivAt _
  · have hg : Spec.gain (instrumentedPopulation.slopes twoNormals) 1 = (instrumentedPopulation.slopes twoNormals)ᵀ := by
      unfold Spec.gain
      rw [instrumentedPopulation_product, inv_one, Matrix.one_mul, Matrix.mul_one]
    have hv : Spec.variance (instrumentedPopulation.slopes twoNormals) 1 (1 : Matrix TwoMoments TwoMoments ℝ) = 1 := by
      unfold Spec.variance
      rw [hg, Matrix.transpose_transpose, instrumentedPopulation_product]
    rw [hW, instrumentedPopulation_covariances, hv, Matrix.mul_one, Matrix.det_unique]
    simp [Matrix.mul_apply]
  · intro S _
    rfl
  · simp [MomentIndex]
  · simp

end Witness

end Pyblp
