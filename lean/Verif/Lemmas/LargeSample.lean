import Verif.Lemmas.ClusterSampling
import Verif.Lemmas.Studentized

/-!
# Limits of estimates and of standard errors in terms of populations of clusters
-/

set_option linter.unusedSectionVars false

open MeasureTheory ProbabilityTheory Filter Topology Matrix

namespace Pyblp.Asymptotic

open Pyblp.Sampling

variable {C Ω : Type} {nd ns : ℕ} {m : Fin nd ⊕ Fin ns → Type} {q b g θ d ι D : Type} [∀ e, Fintype (m e)] [Fintype q] [Fintype b] [Fintype g]
  [Fintype θ] [Fintype d] [LinearOrder ι] [∀ e, DecidableEq (m e)] [DecidableEq q] [DecidableEq b] [DecidableEq g] [DecidableEq θ] [DecidableEq d]
  [IsEmpty q] [IsEmpty d] [IsEmpty θ] [MeasurableSpace C] {law : Measure C} {P : Spec.Clusters C m (b ⊕ g)}

/-! ## Indices -/

/-- Moments, when there are no covariance moments and no micro moments. -/
def onlyMoments : (MomentIndex m ⊕ q) ⊕ d ≃ MomentIndex m := (Equiv.sumEmpty _ d).trans (Equiv.sumEmpty _ q)

/-- Parameters, when all are linear. -/
def onlyLinear : θ ⊕ b ⊕ g ≃ b ⊕ g := Equiv.emptySum θ (b ⊕ g)

@[simp] lemma onlyMoments_apply (c : MomentIndex m) : (onlyMoments : (MomentIndex m ⊕ q) ⊕ d ≃ _) (.inl (.inl c)) = c := rfl

@[simp] lemma onlyLinear_apply (l : b ⊕ g) : (onlyLinear : θ ⊕ b ⊕ g ≃ _) (.inr l) = l := rfl

lemma ext_moments {f f' : Matrix ((MomentIndex m ⊕ q) ⊕ d) ((MomentIndex m ⊕ q) ⊕ d) ℝ} (h : ∀ a c, f (.inl (.inl a)) (.inl (.inl c)) = f' (.inl (.inl a)) (.inl (.inl c))) :
    f = f' := by
  ext a c
  rcases a with (a | a) | a
  · rcases c with (c | c) | c
    · exact h a c
    · exact isEmptyElim c
    · exact isEmptyElim c
  · exact isEmptyElim a
  · exact isEmptyElim a

lemma weights_eq (W : Estimation.Weights m q d) : W = (Spec.momentWeights W).submatrix onlyMoments onlyMoments := ext_moments fun _ _ => rfl

lemma rowLimit_average (v v' : Term ((MomentIndex m ⊕ q) ⊕ d) (θ ⊕ b ⊕ g)) :
    rowLimit P law v v' = P.average law fun x j => (clusterRows q θ d P x).value v j * (clusterRows q θ d P x).value v' j := rfl

lemma limitSlopes_eq : limitSlopes (q := q) (d := d) (θ := θ) (rowLimit P law) = (P.slopes law).submatrix onlyMoments onlyLinear := by
  ext a l
  rcases l with l | l
  · exact isEmptyElim l
  rcases a with (a | a) | a
  · simp only [limitSlopes, Matrix.of_apply, rowLimit_average, Rows.value, mul_one, Matrix.submatrix_apply]
    rfl
  · exact isEmptyElim a
  · exact isEmptyElim a

lemma limitCovariances_eq (type : CovarianceType) :
    limitCovariances (rowLimit (q := q) (d := d) (θ := θ) P law) (clusterLimit P law) type = (P.covariances law type).submatrix onlyMoments onlyMoments := by
  refine ext_moments fun a c => ?_
  cases type with
  | unadjusted =>
    simp only [limitCovariances, Matrix.of_apply, rowLimit_average, Rows.value, mul_one, Matrix.submatrix_apply]
    rfl
  | robust => rfl
  | clustered => rfl

lemma limitInstruments_eq : limitInstruments (q := q) (d := d) (θ := θ) (rowLimit P law) =
    (P.instruments law).submatrix (Equiv.sumEmpty (MomentIndex m) q) (Equiv.sumEmpty (MomentIndex m) q) := by
  ext a c
  rcases a with a | a
  · rcases c with c | c
    · simp only [limitInstruments, Matrix.of_apply, rowLimit_average, Rows.value, Matrix.submatrix_apply, Spec.Clusters.instruments, Equiv.sumEmpty_apply_inl]
      by_cases he : a.1 = c.1
      · rw [if_pos he, if_pos (by simp [Spec.instrumentSet, he])]
        rfl
      · rw [if_neg he, if_neg (by simpa [Spec.instrumentSet] using he)]
    · exact isEmptyElim c
  · exact isEmptyElim a

lemma defaultLimit_eq : (fromBlocks (limitInstruments (q := q) (d := d) (θ := θ) (rowLimit P law))⁻¹ 0 0 0 : Estimation.Weights m q d) =
    (P.instruments law)⁻¹.submatrix onlyMoments onlyMoments := by
  refine ext_moments fun a c => ?_
  rw [fromBlocks_apply₁₁, limitInstruments_eq, Matrix.inv_submatrix_equiv]
  rfl

lemma product_eq {c c' p p' : Type} [Fintype c] [Fintype c'] (e : c' ≃ c) (e' : p' ≃ p) (Q : Matrix c p ℝ) (W : Matrix c c ℝ) :
    (Q.submatrix e e')ᵀ * W.submatrix e e * Q.submatrix e e' = (Qᵀ * W * Q).submatrix e' e' := by
  rw [Matrix.transpose_submatrix, Matrix.submatrix_mul_equiv, Matrix.submatrix_mul_equiv]

lemma gain_eq {c' p' : Type} [Fintype c'] [Fintype p'] [DecidableEq c'] [DecidableEq p'] (e : c' ≃ MomentIndex m) (e' : p' ≃ b ⊕ g)
    (Q : Matrix (MomentIndex m) (b ⊕ g) ℝ) (W : Matrix (MomentIndex m) (MomentIndex m) ℝ) :
    gain (Q.submatrix e e') (W.submatrix e e) = (Spec.gain Q W).submatrix e' e := by
  unfold gain Spec.gain
  rw [product_eq, Matrix.inv_submatrix_equiv, Matrix.transpose_submatrix, Matrix.submatrix_mul_equiv, Matrix.submatrix_mul_equiv]

lemma det_product {c c' p p' : Type} [Fintype c] [Fintype c'] [Fintype p] [Fintype p'] [DecidableEq p] [DecidableEq p'] (e : c' ≃ c) (e' : p' ≃ p)
    (Q : Matrix c p ℝ) (W : Matrix c c ℝ) : ((Q.submatrix e e')ᵀ * W.submatrix e e * Q.submatrix e e').det = (Qᵀ * W * Q).det := by
  rw [product_eq, Matrix.det_submatrix_equiv_self]

/-! ## Limits of what is reported -/

/-- What reported covariances converge to. -/
noncomputable def reportedLimit (P : Spec.Clusters C m (b ⊕ g)) (law : Measure C) (method : GmmMethod) (W : Matrix (MomentIndex m) (MomentIndex m) ℝ)
    (seType : CovarianceType) : Matrix (b ⊕ g) (b ⊕ g) ℝ :=
  if seType.isUnadjusted then
    if method = .oneStep then ((P.slopes law)ᵀ * (P.covariances law seType)⁻¹ * P.slopes law)⁻¹ else ((P.slopes law)ᵀ * W * P.slopes law)⁻¹
  else ((P.slopes law)ᵀ * W * P.slopes law)⁻¹ * (P.slopes law)ᵀ * W * P.covariances law seType * W * P.slopes law * ((P.slopes law)ᵀ * W * P.slopes law)⁻¹

variable {N : ℕ × Ω → ℕ} {E : ∀ i, Estimation (N i) nd ns m q b g θ d ι D} {o : ∀ i, Evaluated (N i) θ d} {beta : b ⊕ g → ℝ} {w : ℕ → Ω → C}
  {F : Filter (ℕ × Ω)}

lemma tendsto_initial (hlin : ∀ i, Linear (E i) (o i)) (hP : P.Regular law) (hE : ∀ i, Spec.Sampled P (fun t => w t i.2) i.1 (E i) (o i) beta)
    (h : Averages q θ d law P w F) {W : ℕ × Ω → Estimation.Weights m q d} {W0 : Matrix (MomentIndex m) (MomentIndex m) ℝ}
    (hW : Spec.StartsWith P law E W W0) : Tendsto W F (𝓝 (W0.submatrix onlyMoments onlyMoments)) := by
  rcases hW with hW | ⟨hW, hd, rfl⟩
  · have : W = fun _ => W0.submatrix onlyMoments onlyMoments := funext fun i => by rw [weights_eq (W i), hW i]
    rw [this]
    exact tendsto_const_nhds
  · have h1 := tendsto_defaultWeights hlin (h.limits hP.toBounded hE) (by rw [limitInstruments_eq, Matrix.det_submatrix_equiv_self]; exact hd)
    rw [defaultLimit_eq] at h1
    rwa [show W = fun i => (E i).defaultWeights from funext hW]

lemma exogenous_limit (hP : P.Regular law) (a : (MomentIndex m ⊕ q) ⊕ d) : rowLimit (θ := θ) P law (.moment a) .one = 0 := by
  rcases a with (a | a) | a
  · simp only [rowLimit_average, Rows.value, mul_one]
    exact hP.exogenous a.1 a.2
  · exact isEmptyElim a
  · exact isEmptyElim a

variable {method : GmmMethod} {initialUpdate : Bool} {wType seType : CovarianceType} {W0 : Matrix (MomentIndex m) (MomentIndex m) ℝ}
  {s : ℕ × Ω → GmmState (Estimation.Weights m q d) (θ → ℝ) D} {r : ℕ × Ω → StepResults (Estimation.Weights m q d) (θ → ℝ) D}

lemma last_weights (hlin : ∀ i, Linear (E i) (o i)) (hP : P.Regular law) (hE : ∀ i, Spec.Sampled P (fun t => w t i.2) i.1 (E i) (o i) beta)
    (h : Averages q θ d law P w F) (hW : Spec.StartsWith P law E (fun i => (s i).W) W0) (hw : ∀ i, (E i).wType = wType)
    (hid : Spec.WeightsIdentify P law method initialUpdate wType W0) (hr : ∀ i, ((E i).solve method initialUpdate (s i)).getLast? = some (r i)) :
    Tendsto (fun i => (r i).start.W) F (𝓝 ((Spec.lastWeights P law method initialUpdate wType W0).submatrix onlyMoments onlyMoments)) ∧
      ∀ i, (r i).step = lastStep method := by
  have h1 := tendsto_lastWeights hlin (h.positive hP.toBounded hE) (h.limits hP.toBounded hE) (exogenous_limit hP) hw (tendsto_initial hlin hP hE h hW)
    (by rw [limitSlopes_eq, det_product]; exact hid.initial) method initialUpdate
    (fun hn => by
      rw [limitCovariances_eq, Matrix.det_submatrix_equiv_self, Matrix.inv_submatrix_equiv, limitSlopes_eq, det_product]
      exact hid.updated hn) hr
  refine ⟨?_, h1.2⟩
  have e : limitWeights (rowLimit (q := q) (d := d) (θ := θ) P law) (clusterLimit P law) method initialUpdate wType (W0.submatrix onlyMoments onlyMoments) =
      (Spec.lastWeights P law method initialUpdate wType W0).submatrix onlyMoments onlyMoments := by
    unfold limitWeights Spec.lastWeights
    by_cases hc : method = .oneStep ∧ initialUpdate = false
    · rw [if_pos hc, if_pos hc]
    · rw [if_neg hc, if_neg hc, limitCovariances_eq, Matrix.inv_submatrix_equiv]
  rw [← e]
  exact h1.1

lemma last_identified (hid : Spec.WeightsIdentify P law method initialUpdate wType W0) :
    ((P.slopes law)ᵀ * Spec.lastWeights P law method initialUpdate wType W0 * P.slopes law).det ≠ 0 := by
  unfold Spec.lastWeights
  by_cases hc : method = .oneStep ∧ initialUpdate = false
  · rw [if_pos hc]
    exact hid.initial
  · rw [if_neg hc]
    exact (hid.updated hc).2

/-- Estimates converge to the truth. -/
lemma consistent (hlin : ∀ i, Linear (E i) (o i)) (hP : P.Regular law) (hE : ∀ i, Spec.Sampled P (fun t => w t i.2) i.1 (E i) (o i) beta)
    (h : Averages q θ d law P w F) (hW : Spec.StartsWith P law E (fun i => (s i).W) W0) (hw : ∀ i, (E i).wType = wType)
    (hid : Spec.WeightsIdentify P law method initialUpdate wType W0) (hr : ∀ i, ((E i).solve method initialUpdate (s i)).getLast? = some (r i)) (l : b ⊕ g) :
    Tendsto (fun i => (E i).linearParameters (r i).start.W (o i) l) F (𝓝 (beta l)) := by
  have h1 := tendsto_deviation hlin (h.positive hP.toBounded hE) (h.limits hP.toBounded hE) (exogenous_limit hP) (last_weights hlin hP hE h hW hw hid hr).1
    (by rw [limitSlopes_eq, det_product]; exact last_identified hid)
  have h2 := (tendsto_pi_nhds.mp h1 (.inr l)).add_const (beta l)
  simp only [deviation, Sum.elim_inr, sub_add_cancel, Pi.zero_apply, zero_add] at h2
  exact h2

/-- Estimates are gains times averages of moments. -/
lemma estimate_eq (hlin : ∀ i, Linear (E i) (o i)) (hP : P.Regular law) (hE : ∀ i, Spec.Sampled P (fun t => w t i.2) i.1 (E i) (o i) beta)
    (h : Averages q θ d law P w F) (hW : Spec.StartsWith P law E (fun i => (s i).W) W0) (hw : ∀ i, (E i).wType = wType)
    (hid : Spec.WeightsIdentify P law method initialUpdate wType W0) (hr : ∀ i, ((E i).solve method initialUpdate (s i)).getLast? = some (r i)) (l : b ⊕ g) :
    ∃ A : ℕ × Ω → MomentIndex m → ℝ,
      (∀ a, Tendsto (fun i => A i a) F (𝓝 (Spec.gain (P.slopes law) (Spec.lastWeights P law method initialUpdate wType W0) l a))) ∧
      ∀ᶠ i in F, (E i).linearParameters (r i).start.W (o i) l - beta l =
        ∑ a, A i a * ((∑ t ∈ Finset.range i.1, P.total (w t i.2) fun j => P.error (w t i.2) a.1 j * P.instrument (w t i.2) a.1 j a.2) / N i) := by
  have hQ := last_identified (b := b) (g := g) hid
  have h0 : ((limitSlopes (rowLimit (q := q) (d := d) (θ := θ) P law))ᵀ *
      (Spec.lastWeights P law method initialUpdate wType W0).submatrix onlyMoments onlyMoments *
      limitSlopes (rowLimit (q := q) (d := d) (θ := θ) P law)).det ≠ 0 := by
    rw [limitSlopes_eq, det_product]; exact hQ
  have hl := (last_weights hlin hP hE h hW hw hid hr).1
  refine ⟨fun i a => gain (slopes (E i) (o i) beta) (r i).start.W (.inr l) (.inl (.inl a)), fun a => ?_, ?_⟩
  · have h1 := tendsto_gain (tendsto_slopes (h.limits hP.toBounded hE)) hl h0
    rw [limitSlopes_eq, gain_eq] at h1
    exact tendsto_matrix.mp h1 (.inr l) (.inl (.inl a))
  · filter_upwards [eventually_deviation hlin (h.positive hP.toBounded hE) (h.limits hP.toBounded hE) hl h0] with i hi
    have h2 := congrFun hi (.inr l)
    simp only [deviation, Sum.elim_inr] at h2
    rw [h2, Matrix.mulVec, dotProduct, sum_moments]
    refine Finset.sum_congr rfl fun a _ => ?_
    congr 1
    unfold moments
    rw [sampled_averages (hE i), ← sampled_size (hE i)]
    congr 1
    refine Finset.sum_congr rfl fun t _ => ?_
    simp only [clusterProduct, Rows.value, mul_one]
    rfl

/-- Reported covariances converge. -/
lemma reported_covariances (hlin : ∀ i, Linear (E i) (o i)) (hP : P.Regular law) (hE : ∀ i, Spec.Sampled P (fun t => w t i.2) i.1 (E i) (o i) beta)
    (h : Averages q θ d law P w F) (hW : Spec.StartsWith P law E (fun i => (s i).W) W0) (hw : ∀ i, (E i).wType = wType)
    (hse : ∀ i, (E i).seType = seType)
    (hid : Spec.WeightsIdentify P law method initialUpdate wType W0) (hr : ∀ i, ((E i).solve method initialUpdate (s i)).getLast? = some (r i))
    (hun : seType = .unadjusted → method = .oneStep → (P.covariances law .unadjusted).det ≠ 0 ∧
      ((P.slopes law)ᵀ * (P.covariances law .unadjusted)⁻¹ * P.slopes law).det ≠ 0) :
    Tendsto (fun i => (E i).parameterCovariances (r i)) F
      (𝓝 (symmetrized ((reportedLimit P law method (Spec.lastWeights P law method initialUpdate wType W0) seType).submatrix onlyLinear onlyLinear))) := by
  have hl := last_weights hlin hP hE h hW hw hid hr
  set W := Spec.lastWeights P law method initialUpdate wType W0 with hWdef
  set W1 : Matrix (MomentIndex m) (MomentIndex m) ℝ := if seType.isUnadjusted && lastStep method == 1 then (P.covariances law seType)⁻¹ else W with hW1
  have h1 := tendsto_parameterCovariances (W1 := W1.submatrix onlyMoments onlyMoments) hlin (h.positive hP.toBounded hE) (h.limits hP.toBounded hE) (exogenous_limit hP) hse hl.2 hl.1
    (by rw [limitSlopes_eq, det_product]; exact last_identified hid)
    (by
      by_cases hc : (seType.isUnadjusted && lastStep method == 1) = true
      · rw [if_pos hc]
        rw [if_pos hc] at hW1
        have hs : seType = .unadjusted ∧ method = .oneStep := by
          cases seType <;> cases method <;> simp_all [CovarianceType.isUnadjusted, lastStep]
        obtain ⟨rfl, hm⟩ := hs
        rw [limitCovariances_eq, Matrix.det_submatrix_equiv_self, Matrix.inv_submatrix_equiv, limitSlopes_eq, det_product, hW1]
        exact ⟨(hun rfl hm).1, rfl, (hun rfl hm).2⟩
      · rw [if_neg hc]
        rw [if_neg hc] at hW1
        rw [hW1])
  have e : limitParameterCovariances (limitSlopes (rowLimit (q := q) (d := d) (θ := θ) P law)) (W1.submatrix onlyMoments onlyMoments)
      (limitCovariances (rowLimit (q := q) (d := d) (θ := θ) P law) (clusterLimit P law) seType) seType.isUnadjusted = (reportedLimit P law method W seType).submatrix onlyLinear onlyLinear := by
    unfold limitParameterCovariances reportedLimit
    rw [limitSlopes_eq, limitCovariances_eq, product_eq, Matrix.inv_submatrix_equiv]
    cases seType with
    | unadjusted =>
      cases method with
      | oneStep => simp [CovarianceType.isUnadjusted, lastStep, hW1]
      | twoStep => simp [CovarianceType.isUnadjusted, lastStep, hW1]
    | robust =>
      simp only [CovarianceType.isUnadjusted, Bool.false_and, Bool.false_eq_true, if_false] at hW1 ⊢
      rw [hW1]
      simp only [Matrix.transpose_submatrix, Matrix.submatrix_mul_equiv]
    | clustered =>
      simp only [CovarianceType.isUnadjusted, Bool.false_and, Bool.false_eq_true, if_false] at hW1 ⊢
      rw [hW1]
      simp only [Matrix.transpose_submatrix, Matrix.submatrix_mul_equiv]
  rw [e] at h1
  exact h1

/-- Reported variances converge. -/
lemma reported (hlin : ∀ i, Linear (E i) (o i)) (hP : P.Regular law) (hE : ∀ i, Spec.Sampled P (fun t => w t i.2) i.1 (E i) (o i) beta)
    (h : Averages q θ d law P w F) (hW : Spec.StartsWith P law E (fun i => (s i).W) W0) (hw : ∀ i, (E i).wType = wType)
    (hse : ∀ i, (E i).seType = seType)
    (hid : Spec.WeightsIdentify P law method initialUpdate wType W0) (hr : ∀ i, ((E i).solve method initialUpdate (s i)).getLast? = some (r i))
    (hun : seType = .unadjusted → method = .oneStep → (P.covariances law .unadjusted).det ≠ 0 ∧
      ((P.slopes law)ᵀ * (P.covariances law .unadjusted)⁻¹ * P.slopes law).det ≠ 0) (l : b ⊕ g) :
    Tendsto (fun i => (E i).parameterCovariances (r i) (.inr l) (.inr l)) F
      (𝓝 (reportedLimit P law method (Spec.lastWeights P law method initialUpdate wType W0) seType l l)) := by
  have h1 := tendsto_matrix.mp (reported_covariances hlin hP hE h hW hw hse hid hr hun) (.inr l) (.inr l)
  have e : ∀ A : Matrix (θ ⊕ b ⊕ g) (θ ⊕ b ⊕ g) ℝ, symmetrized A (.inr l) (.inr l) = A (.inr l) (.inr l) := fun A => by
    unfold symmetrized
    ring
  rw [e] at h1
  exact h1

/-- What is reported is right when covariances are. -/
lemma reportedLimit_valid (W : Matrix (MomentIndex m) (MomentIndex m) ℝ) (hW : Wᵀ = W) (hd : ((P.slopes law)ᵀ * W * P.slopes law).det ≠ 0)
    (hvalid : Spec.Valid P law method W seType) : reportedLimit P law method W seType = Spec.variance (P.slopes law) W (P.covariances law .clustered) := by
  set Q := P.slopes law
  set S := P.covariances law .clustered with hS
  have hsym : (Qᵀ * W * Q)ᵀ = Qᵀ * W * Q := by
    rw [Matrix.transpose_mul, Matrix.transpose_mul, Matrix.transpose_transpose, hW, Matrix.mul_assoc]
  have hinv : ((Qᵀ * W * Q)⁻¹)ᵀ = (Qᵀ * W * Q)⁻¹ := by rw [Matrix.transpose_nonsing_inv, hsym]
  have hv : Spec.variance Q W S = (Qᵀ * W * Q)⁻¹ * Qᵀ * W * S * W * Q * (Qᵀ * W * Q)⁻¹ := by
    unfold Spec.variance Spec.gain
    rw [Matrix.transpose_mul, Matrix.transpose_mul, Matrix.transpose_transpose, hW, hinv]
    simp only [Matrix.mul_assoc]
  rw [hv]
  cases seType with
  | clustered => rfl
  | robust =>
    have : P.covariances law .robust = S := hvalid
    simp only [reportedLimit, CovarianceType.isUnadjusted, Bool.false_eq_true, if_false, this]
    rfl
  | unadjusted =>
    obtain ⟨h1, hdet, c, hc, hm, hWc⟩ := hvalid
    have hu : IsUnit S.det := isUnit_iff_ne_zero.mpr hdet
    have key : (Qᵀ * W * Q)⁻¹ * Qᵀ * W * S * W * Q * (Qᵀ * W * Q)⁻¹ = c • (Qᵀ * W * Q)⁻¹ := by
      have e1 : W * S * W = c • W := by
        nth_rewrite 1 [hWc]
        rw [Matrix.smul_mul, Matrix.nonsing_inv_mul _ hu, Matrix.smul_mul, Matrix.one_mul]
      have e2 : (Qᵀ * W * Q)⁻¹ * Qᵀ * W * S * W * Q * (Qᵀ * W * Q)⁻¹ = (Qᵀ * W * Q)⁻¹ * (Qᵀ * (W * S * W) * Q) * (Qᵀ * W * Q)⁻¹ := by
        simp only [Matrix.mul_assoc]
      rw [e2, e1, Matrix.mul_smul, Matrix.smul_mul, Matrix.mul_smul, Matrix.smul_mul, Matrix.nonsing_inv_mul _ (isUnit_iff_ne_zero.mpr hd), Matrix.one_mul]
    rw [key]
    simp only [reportedLimit, CovarianceType.isUnadjusted, if_true, h1]
    cases method with
    | oneStep =>
      rw [if_pos rfl]
      have e3 : Qᵀ * W * Q = c • (Qᵀ * S⁻¹ * Q) := by rw [hWc, Matrix.mul_smul, Matrix.smul_mul]
      have e4 : S⁻¹ = c⁻¹ • W := by rw [hWc, smul_smul, inv_mul_cancel₀ hc, one_smul]
      have e5 : Qᵀ * S⁻¹ * Q = c⁻¹ • (Qᵀ * W * Q) := by rw [e4, Matrix.mul_smul, Matrix.smul_mul]
      change (Qᵀ * S⁻¹ * Q)⁻¹ = _
      rw [e5]
      refine Matrix.inv_eq_left_inv ?_
      rw [Matrix.smul_mul, Matrix.mul_smul, smul_smul, mul_inv_cancel₀ hc, one_smul, Matrix.nonsing_inv_mul _ (isUnit_iff_ne_zero.mpr hd)]
    | twoStep =>
      rw [if_neg (by decide), hm rfl, one_smul]

end Pyblp.Asymptotic
