import Verif.Props.TestLimits

/-!
# C131: the Lagrange multiplier statistic

Documentation of `run_lm_test` says that the statistic is asymptotically chi-squared with as many degrees of freedom as there are restrictions. This is not
so: derivatives are those with respect to parameters of the restricted problem, and with respect to these the objective is minimized.
-/

set_option linter.unusedSectionVars false

open MeasureTheory ProbabilityTheory Filter Topology Matrix

namespace Pyblp

open Pyblp.Sampling Pyblp.Asymptotic

section

variable {N nd ns : ℕ} {m : Fin nd ⊕ Fin ns → Type} [∀ e, Fintype (m e)] [∀ e, DecidableEq (m e)] {q b g θ d ι D : Type} [Fintype q] [Fintype b] [Fintype g]
  [Fintype θ] [Fintype d] [LinearOrder ι] [DecidableEq q] [DecidableEq b] [DecidableEq g] [DecidableEq θ] [DecidableEq d] [IsEmpty q] [IsEmpty d] [IsEmpty θ]

/-- **C131.** When all parameters are linear and identified by weights, the statistic is zero: for all data and all steps. -/
theorem C131_zero {E : Estimation N nd ns m q b g θ d ι D} {o : Evaluated N θ d} (h : Linear E o) (hN : 0 < N)
    (r : StepResults (Estimation.Weights m q d) (θ → ℝ) D) (hd : ((E.jacobian r)ᵀ * r.start.W * E.jacobian r).det ≠ 0) : (E.results r).lm = 0 := by
  have ho : E.outcome r = o := h.markets _ _
  have hJ := jacobian_eq E o 0 r ho
  rw [hJ, Matrix.transpose_neg, Matrix.neg_mul, Matrix.neg_mul, Matrix.mul_neg, neg_neg] at hd
  have hg : E.meanMoments r.start.W o = moments E o 0 - slopes E o 0 *ᵥ deviation E o 0 r.start.W :=
    meanMoments_deviation (Ω := Unit) (N := fun _ => N) (E := fun _ => E) (o := fun _ => o) (0, ()) r.start.W
  have hfoc : ((E.jacobian r)ᵀ * r.start.W) *ᵥ E.meanMoments r.start.W o = 0 := by
    rw [hg, deviation_eq E o 0 hN h.invertLinear _ hd, hJ, Matrix.transpose_neg, Matrix.neg_mul, Matrix.neg_mulVec, Matrix.mulVec_sub,
      Matrix.mulVec_mulVec, Matrix.mulVec_mulVec, neg_eq_zero, sub_eq_zero]
    congr 1
    unfold gain
    simp only [← Matrix.mul_assoc]
    rw [Matrix.mul_nonsing_inv _ (isUnit_iff_ne_zero.mpr hd), Matrix.one_mul]
  unfold GmmResults.lm
  dsimp only
  have h1 : (E.results r).jacobianᵀ * (E.results r).W = (E.jacobian r)ᵀ * r.start.W := rfl
  have h2 : (E.results r).moments = E.meanMoments r.start.W o := by
    change E.meanMoments r.start.W (E.outcome r) = _
    rw [ho]
  rw [h1, h2, hfoc]
  simp

variable {C Ω : Type} [MeasurableSpace C] [MeasurableSpace Ω] {μ : Measure Ω} {law : Measure C} {P : Spec.Clusters C m (b ⊕ g)} {w : ℕ → Ω → C}
  {beta : b ⊕ g → ℝ} {Ns : ℕ × Ω → ℕ} {E : ∀ i, Estimation (Ns i) nd ns m q b g θ d ι D} {o : ∀ i, Evaluated (Ns i) θ d} {method : GmmMethod}
  {initialUpdate : Bool} {wType seType : CovarianceType} {W0 : Matrix (MomentIndex m) (MomentIndex m) ℝ}
  {s : ℕ × Ω → GmmState (Estimation.Weights m q d) (θ → ℝ) D} {r : ℕ × Ω → StepResults (Estimation.Weights m q d) (θ → ℝ) D}

/-- **C131.** In large samples of populations that identify linear parameters, the statistic is zero with a probability that converges to one, whether or not
any restrictions are valid. -/
theorem C131_vanishes [IsProbabilityMeasure μ] (h : Spec.LargeSamples μ law P w beta E o method initialUpdate wType seType W0 s r) :
    Tendsto (fun T => μ {ω | ((E (T, ω)).results (r (T, ω))).lm ≠ 0}) atTop (𝓝 0) := by
  have hE : ∀ i : ℕ × Ω, Spec.Sampled P (fun t => w t i.2) i.1 (E i) (o i) beta := fun i => h.sampled i.1 i.2
  have hav := averages_probably (q := q) (θ := θ) (d := d) h.regular.toBounded h.draws
  have hQ := last_identified (b := b) (g := g) h.identified
  have h0 : ((limitSlopes (rowLimit (q := q) (d := d) (θ := θ) P law))ᵀ *
      (Spec.lastWeights P law method initialUpdate wType W0).submatrix onlyMoments onlyMoments *
      limitSlopes (rowLimit (q := q) (d := d) (θ := θ) P law)).det ≠ 0 := by
    rw [limitSlopes_eq, det_product]; exact hQ
  have hl := (last_weights h.linear h.regular hE hav h.starts h.weights h.identified h.last).1
  have hS := tendsto_slopes (hav.limits h.regular.toBounded hE)
  have key : ∀ᶠ i in probably μ, ¬((E i).results (r i)).lm ≠ 0 := by
    filter_upwards [hav.positive h.regular.toBounded hE, eventually_det (tendsto_mul (tendsto_mul (tendsto_transpose hS) hl) hS) h0] with i hi hd
    rw [not_not]
    refine C131_zero (h.linear i) hi (r i) ?_
    rw [jacobian_eq (E i) (o i) beta (r i) ((h.linear i).markets _ _), Matrix.transpose_neg, Matrix.neg_mul, Matrix.neg_mul, Matrix.mul_neg, neg_neg]
    exact hd
  rw [eventually_probably] at key
  simpa using key

end

/-- Chi-squared variables exceed any number with a positive probability. -/
lemma chiSquared_tail (k : ℕ) (c : ℝ) : 0 < Spec.chiSquared (k + 1) (Set.Ioi c) := by
  have hpos : (gaussianReal 0 1).IsOpenPosMeasure := (gaussianReal_absolutelyContinuous' 0 one_ne_zero).isOpenPosMeasure
  unfold Spec.chiSquared
  rw [Measure.map_apply (measurable_squares _) measurableSet_Ioi]
  have hcont : Continuous fun z : Fin (k + 1) → ℝ => ∑ j, z j ^ 2 := by fun_prop
  refine IsOpen.measure_pos _ (isOpen_Ioi.preimage hcont) ⟨fun _ => |c| + 1, ?_⟩
  simp only [Set.mem_preimage, Set.mem_Ioi, Finset.sum_const, Finset.card_univ, Fintype.card_fin, nsmul_eq_mul]
  push_cast
  have h1 := le_abs_self c
  have h2 := abs_nonneg c
  have h3 : (0 : ℝ) ≤ k := Nat.cast_nonneg k
  nlinarith [mul_nonneg h3 (sq_nonneg (|c| + 1))]

/-- **C131, not chi-squared.** The claim that the statistic of results of a restricted problem, of which restrictions are valid and weights are optimal, is
asymptotically chi-squared with degrees of freedom equal to the number of restrictions is false. In this population, the restriction that the parameter on a
second regressor is zero is valid, and estimates and weights converge to right ones, but the statistic is zero. -/
theorem C131_chiSquared_refuted (type : CovarianceType) :
    ¬∀ (P : Spec.Clusters (ℝ × ℝ) (fun _ : Fin 1 ⊕ Fin 0 => Bool) (Bool ⊕ Empty)) (L : Matrix (Bool ⊕ Empty) (Unit ⊕ Empty) ℝ) (beta : Unit ⊕ Empty → ℝ)
      (N : ℕ × (ℕ → ℝ × ℝ) → ℕ) (E : ∀ i, Estimation (N i) 1 0 (fun _ => Bool) Empty Unit Empty Empty Empty ℕ Unit) (o : ∀ i, Evaluated (N i) Empty Empty)
      (s : ℕ × (ℕ → ℝ × ℝ) → GmmState (Estimation.Weights (fun _ : Fin 1 ⊕ Fin 0 => Bool) Empty Empty) (Empty → ℝ) Unit)
      (r : ℕ × (ℕ → ℝ × ℝ) → StepResults (Estimation.Weights (fun _ : Fin 1 ⊕ Fin 0 => Bool) Empty Empty) (Empty → ℝ) Unit),
      Spec.LargeSamples (Measure.infinitePi fun _ : ℕ => twoNormals) twoNormals (P.restrict L) (fun t ω => ω t) beta E o .twoStep false type type 1 s r →
      Spec.Optimal (P.restrict L) twoNormals (Spec.lastWeights (P.restrict L) twoNormals .twoStep false type 1) →
      ∀ c, 0 < c → Tendsto (fun T => Measure.infinitePi (fun _ : ℕ => twoNormals) {ω | c < ((E (T, ω)).results (r (T, ω))).lm}) atTop
        (𝓝 (Spec.chiSquared (Fintype.card (Bool ⊕ Empty) - Fintype.card (Unit ⊕ Empty)) (Set.Ioi c))) := by
  intro hall
  obtain ⟨N, E, o, s, r, h, hW, hopt, -⟩ := single_samples (instrumentedPopulation.restrict onlyConstant) rfl restrictedPopulation_regular type
    instrumentedPopulation_instruments instrumentedPopulation_covariances (by rw [restrictedPopulation_product, det_one]; exact one_ne_zero)
    fun _ => 0
  have h1 := hall _ _ _ N E o s r h (hW ▸ hopt) 1 one_pos
  have h2 := C131_vanishes h
  have h3 : Tendsto (fun T => Measure.infinitePi (fun _ : ℕ => twoNormals) {ω | 1 < ((E (T, ω)).results (r (T, ω))).lm}) atTop (𝓝 0) :=
    tendsto_of_tendsto_of_tendsto_of_le_of_le tendsto_const_nhds h2 (fun _ => zero_le) fun T => measure_mono fun ω hω =>
      (lt_trans one_pos hω).ne'
  have h4 := tendsto_nhds_unique h1 h3
  exact (chiSquared_tail 0 1).ne' (by simpa using h4)

/-- There are problems in which parameters are identified by weights: those of C130. -/
example (T : ℕ) (hT : 0 < T) :
    ∃ (E : Estimation T 1 0 (fun _ => Unit) Empty Unit Empty Empty Empty ℕ Unit) (o : Evaluated T Empty Empty)
      (r : StepResults (Estimation.Weights (fun _ : Fin 1 ⊕ Fin 0 => Unit) Empty Empty) (Empty → ℝ) Unit),
      Linear E o ∧ ((E.jacobian r)ᵀ * r.start.W * E.jacobian r).det ≠ 0 := by
  set E := constantProblem T (fun _ => 0) .robust with hE
  set o := (E.markets () fun c => c.elim).1 with ho
  have hlin : Linear E o := ⟨fun _ _ => rfl, fun _ _ => rfl,
    ⟨List.Perm.refl _, by simp only [hE, constantProblem, List.pairwise_map]; exact (List.pairwise_lt_finRange _).imp fun h => le_of_lt h⟩,
    fun S T h => Matrix.inv_eq_right_inv h, fun S T h => Matrix.inv_eq_right_inv h, fun S T h => Matrix.inv_eq_right_inv h,
    fun S T h => Matrix.inv_eq_right_inv h⟩
  refine ⟨E, o, ⟨1, ⟨1, fun c => c.elim, ()⟩, true, fun c => c.elim, (), 1, true, 0, 0, true, 0, 0, [], []⟩, hlin, ?_⟩
  rw [jacobian_eq E o 0 _ rfl, Matrix.mul_one, Matrix.transpose_neg, Matrix.neg_mul, Matrix.mul_neg, neg_neg]
  have hs : ∀ c, slopes E o 0 (.inl (.inl c)) (.inr (.inl ())) = 1 := by
    rintro ⟨e | e, u⟩
    · rw [slopes_apply, ivP_apply]
      have hT' : (T : ℝ) ≠ 0 := by exact_mod_cast hT.ne'
      change (T : ℝ)⁻¹ * ∑ _ : Fin T, (1 : ℝ) * 1 = 1
      simp [hT']
    · exact e.elim0
  have h1 : (slopes E o 0)ᵀ * slopes E o 0 = 1 := by
    ext l l'
    rcases l with l | l | l
    · exact l.elim
    · rcases l' with l' | l' | l'
      · exact l'.elim
      · rw [Matrix.mul_apply, sum_moments]
        simp only [Matrix.transpose_apply, hs]
        simp [MomentIndex]
      · exact l'.elim
    · exact l.elim
  rw [h1, det_one]
  exact one_ne_zero

end Pyblp
