import Verif.Lemmas.LinearGmm

/-!
# Steps of GMM with linear parameters only, as functions of averages
-/

set_option linter.unusedSectionVars false

open Filter Topology Matrix

namespace Pyblp.Asymptotic

section One

variable {N nd ns : ℕ} {m : Fin nd ⊕ Fin ns → Type} {q b g θ d ι D : Type} [∀ e, Fintype (m e)] [Fintype q] [Fintype b] [Fintype g]
  [Fintype θ] [Fintype d] [LinearOrder ι] [∀ e, DecidableEq (m e)] [DecidableEq q] [DecidableEq b] [DecidableEq g] [DecidableEq θ] [DecidableEq d]
  [IsEmpty q] [IsEmpty d] [IsEmpty θ]

variable (E : Estimation N nd ns m q b g θ d ι D) (o : Evaluated N θ d) (beta : b ⊕ g → ℝ)

/-- Errors at the truth, regressors and instruments of a problem. -/
def linearRows : Rows (Fin N) ((MomentIndex m ⊕ q) ⊕ d) (θ ⊕ b ⊕ g) where
  error
    | .inl (.inl c), i => E.data.equations o.phi o.delta o.costs c.1 i - ∑ l, E.data.regressors o.phi c.1 i l * beta l
    | _, _ => 0
  regressor
    | .inl (.inl c), .inr l, i => E.data.regressors o.phi c.1 i l
    | _, _, _ => 0
  instrument
    | .inl (.inl c), i => E.data.Z c.1 i c.2
    | _, _ => 0

/-- By how much estimates differ from the truth. -/
def deviation (W : Estimation.Weights m q d) : θ ⊕ b ⊕ g → ℝ := Sum.elim (fun _ => 0) fun l => E.linearParameters W o l - beta l

/-- Averages of slopes. -/
noncomputable def slopes : Matrix ((MomentIndex m ⊕ q) ⊕ d) (θ ⊕ b ⊕ g) ℝ :=
  Matrix.of fun a l => Spec.overProducts fun j => (linearRows E o beta).value (.slope a l) j * (linearRows E o beta).value .one j

/-- Averages of moments at the truth. -/
noncomputable def moments : (MomentIndex m ⊕ q) ⊕ d → ℝ :=
  fun a => Spec.overProducts fun j => (linearRows E o beta).value (.moment a) j * (linearRows E o beta).value .one j

lemma slopes_apply (c : MomentIndex m) (l : b ⊕ g) :
    slopes E o beta (.inl (.inl c)) (.inr l) = (N : ℝ)⁻¹ * ivP (E.data.regressors o.phi) E.data.Z c l := by
  rw [ivP_apply, inv_mul_eq_div]
  unfold slopes Spec.overProducts
  rw [Matrix.of_apply]
  congr 1
  refine Finset.sum_congr rfl fun i _ => ?_
  simp only [Rows.value, linearRows, mul_one]
  exact mul_comm _ _

lemma moments_apply (W : Estimation.Weights m q d) (c : MomentIndex m) :
    moments E o beta (.inl (.inl c)) - (slopes E o beta *ᵥ deviation E o beta W) (.inl (.inl c)) = (N : ℝ)⁻¹ *
      (ivV E.data.Z (E.data.equations o.phi o.delta o.costs) - ivP (E.data.regressors o.phi) E.data.Z *ᵥ E.linearParameters W o) c := by
  have h1 : moments E o beta (.inl (.inl c)) = (N : ℝ)⁻¹ *
      (ivV E.data.Z (E.data.equations o.phi o.delta o.costs) c - ∑ l, ivP (E.data.regressors o.phi) E.data.Z c l * beta l) := by
    rw [ivV_apply, inv_mul_eq_div]
    simp only [ivP_apply, Finset.sum_mul]
    rw [Finset.sum_comm, ← Finset.sum_sub_distrib]
    unfold moments Spec.overProducts
    congr 1
    refine Finset.sum_congr rfl fun i _ => ?_
    simp only [Rows.value, linearRows, mul_one, sub_mul, Finset.sum_mul]
    congr 1
    · ring
    · exact Finset.sum_congr rfl fun l _ => by ring
  have h2 : (slopes E o beta *ᵥ deviation E o beta W) (.inl (.inl c)) = (N : ℝ)⁻¹ *
      ∑ l, ivP (E.data.regressors o.phi) E.data.Z c l * (E.linearParameters W o l - beta l) := by
    rw [Matrix.mulVec, dotProduct, Fintype.sum_sum_type, Fintype.sum_empty, zero_add, Finset.mul_sum]
    refine Finset.sum_congr rfl fun l _ => ?_
    rw [slopes_apply]
    simp only [deviation, Sum.elim_inr]
    ring
  rw [h1, h2, ← mul_sub, Pi.sub_apply, Matrix.mulVec, dotProduct]
  congr 1
  simp only [mul_sub, Finset.sum_sub_distrib]
  ring

lemma sum_moments (f : (MomentIndex m ⊕ q) ⊕ d → ℝ) : ∑ a, f a = ∑ c : MomentIndex m, f (.inl (.inl c)) := by
  rw [Fintype.sum_sum_type, Fintype.sum_sum_type, Fintype.sum_empty (f := fun a : d => _), Fintype.sum_empty (f := fun a : q => _), add_zero, add_zero]

lemma ivCovariancesInverse_slopes (hN : 0 < N) (W : Estimation.Weights m q d) :
    ivCovariancesInverse (E.data.regressors o.phi) E.data.Z (ivWeights (ivWeights W)) =
      ((N : ℝ) ^ 2) • ((slopes E o beta)ᵀ * W * slopes E o beta).submatrix Sum.inr Sum.inr := by
  have hN' : (N : ℝ) ≠ 0 := by exact_mod_cast hN.ne'
  rw [ivCovariancesInverse_eq]
  ext l l'
  rw [Matrix.smul_apply, Matrix.submatrix_apply]
  simp only [Matrix.mul_apply, Matrix.transpose_apply, sum_moments, slopes_apply, smul_eq_mul, Finset.mul_sum]
  refine Finset.sum_congr rfl fun a _ => ?_
  rw [Finset.sum_mul, Finset.sum_mul, Finset.mul_sum]
  refine Finset.sum_congr rfl fun a' _ => ?_
  simp only [ivWeights]
  field_simp

/-- Estimates are functions of averages. -/
lemma deviation_eq (hN : 0 < N) (hinv : Spec.Inverts E.invertLinear) (W : Estimation.Weights m q d)
    (h : ((slopes E o beta)ᵀ * W * slopes E o beta).det ≠ 0) :
    deviation E o beta W = gain (slopes E o beta) W *ᵥ moments E o beta := by
  have hN' : (N : ℝ) ≠ 0 := by exact_mod_cast hN.ne'
  set M := (slopes E o beta)ᵀ * W * slopes E o beta with hM
  have hdet : (ivCovariancesInverse (E.data.regressors o.phi) E.data.Z (ivWeights (ivWeights W))).det ≠ 0 := by
    rw [ivCovariancesInverse_slopes E o beta hN W, Matrix.det_smul, mul_ne_zero_iff]
    refine ⟨pow_ne_zero _ (pow_ne_zero _ hN'), ?_⟩
    have : M.submatrix Sum.inr Sum.inr = M.submatrix (Equiv.emptySum θ (b ⊕ g)).symm (Equiv.emptySum θ (b ⊕ g)).symm := rfl
    rw [← hM, this, Matrix.det_submatrix_equiv_self]
    exact h
  have hC := Matrix.mul_nonsing_inv _ (isUnit_iff_ne_zero.mpr hdet)
  have hlin : E.linearParameters W o = ivParameters (ivCovariancesInverse (E.data.regressors o.phi) E.data.Z (ivWeights (ivWeights W)))⁻¹
      (E.data.regressors o.phi) E.data.Z (ivWeights (ivWeights W)) (E.data.equations o.phi o.delta o.costs) := by
    unfold Estimation.linearParameters MomentData.linearParameters Estimation.covariances
    rw [hinv _ _ hC]
  have hne := normal_equations _ (E.data.regressors o.phi) E.data.Z (ivWeights (ivWeights W)) (E.data.equations o.phi o.delta o.costs) hC
  rw [← hlin] at hne
  have hfull : ((slopes E o beta)ᵀ * W) *ᵥ (moments E o beta - slopes E o beta *ᵥ deviation E o beta W) = 0 := by
    funext l
    rcases l with l | l
    · exact isEmptyElim l
    have h1 := congrFun hne l
    rw [Pi.zero_apply] at h1 ⊢
    rw [Matrix.mulVec, dotProduct, sum_moments]
    have h2 : ∀ c : MomentIndex m, ((slopes E o beta)ᵀ * W) (.inr l) (.inl (.inl c)) =
        (N : ℝ)⁻¹ * ((ivP (E.data.regressors o.phi) E.data.Z)ᵀ * ivWeights (ivWeights W)) l c := by
      intro c
      simp only [Matrix.mul_apply, Matrix.transpose_apply, sum_moments, slopes_apply, Finset.mul_sum, ivWeights]
      exact Finset.sum_congr rfl fun a _ => mul_assoc _ _ _
    simp only [Pi.sub_apply, moments_apply, h2]
    have h3 : ∀ x y : ℝ, (N : ℝ)⁻¹ * x * ((N : ℝ)⁻¹ * y) = (N : ℝ)⁻¹ * (N : ℝ)⁻¹ * (x * y) := fun x y => by ring
    simp only [h3]
    rw [← Finset.mul_sum]
    refine mul_eq_zero_of_right _ h1
  rw [Matrix.mulVec_sub, sub_eq_zero, Matrix.mulVec_mulVec, ← hM] at hfull
  have h4 := congrArg (fun v => M⁻¹ *ᵥ v) hfull
  simp only [Matrix.mulVec_mulVec] at h4
  rw [Matrix.nonsing_inv_mul _ (isUnit_iff_ne_zero.mpr h), Matrix.one_mulVec, ← Matrix.mul_assoc] at h4
  exact h4.symm

/-- Errors at estimates. -/
lemma residual_eq (W : Estimation.Weights m q d) (c : MomentIndex m) (i : Fin N) :
    (linearRows E o beta).residual (deviation E o beta W) (.inl (.inl c)) i = Spec.aggregateError E.data o.phi
      (Spec.stepXi E o (E.linearParameters W o)) (Spec.stepOmega E o (E.linearParameters W o)) E.mean (.inl c) i := by
  have h := equations_sub E.data o.phi o.delta o.costs (E.linearParameters W o) c.1 i
  have h1 : (linearRows E o beta).residual (deviation E o beta W) (.inl (.inl c)) i =
      E.data.equations o.phi o.delta o.costs c.1 i - ∑ l, E.data.regressors o.phi c.1 i l * E.linearParameters W o l := by
    unfold Rows.residual
    rw [Fintype.sum_sum_type, Fintype.sum_empty, zero_add]
    simp only [linearRows, deviation, Sum.elim_inr, sub_mul, Finset.sum_sub_distrib]
    have : ∑ l, beta l * E.data.regressors o.phi c.1 i l = ∑ l, E.data.regressors o.phi c.1 i l * beta l :=
      Finset.sum_congr rfl fun l _ => mul_comm _ _
    rw [this]
    have : ∑ l, E.linearParameters W o l * E.data.regressors o.phi c.1 i l = ∑ l, E.data.regressors o.phi c.1 i l * E.linearParameters W o l :=
      Finset.sum_congr rfl fun l _ => mul_comm _ _
    rw [this]
    ring
  rw [h1, h, equations_eq]
  rcases c with ⟨e | e, c⟩
  · rfl
  · rfl

/-- Covariances of moments at estimates. -/
lemma covariances_eq (hsort : IsArgsort E.ids E.sort) (type : CovarianceType) (center : Bool) (W : Estimation.Weights m q d) :
    E.momentCovariances type center W o [] =
      Spec.typedCovariances type E.ids center ((linearRows E o beta).residual (deviation E o beta W)) (linearRows E o beta).instrument := by
  rw [C97_covariances E hsort]
  ext a a'
  rcases a with (a | a) | a
  · rcases a' with (a' | a') | a'
    · unfold Spec.stepCovariances
      rw [Matrix.of_apply]
      have hs : Spec.simulated (List.map (fun o => Spec.stepMoments E o (E.linearParameters W o)) []) (.inl (.inl a) : (MomentIndex m ⊕ q) ⊕ d)
          (.inl (.inl a')) = 0 := by
        simp [Spec.simulated]
      simp only [hs, add_zero]
      have hr : ∀ c : MomentIndex m, (linearRows E o beta).residual (deviation E o beta W) (.inl (.inl c)) = Spec.aggregateError E.data o.phi
          (Spec.stepXi E o (E.linearParameters W o)) (Spec.stepOmega E o (E.linearParameters W o)) E.mean (.inl c) :=
        fun c => funext fun i => residual_eq E o beta W c i
      cases type <;> simp only [Spec.typedCovariances, Matrix.of_apply, hr] <;> rfl
    · exact isEmptyElim a'
    · exact isEmptyElim a'
  · exact isEmptyElim a
  · exact isEmptyElim a

lemma jacobian_eq (r : StepResults (Estimation.Weights m q d) (θ → ℝ) D) (ho : E.outcome r = o) : E.jacobian r = -slopes E o beta := by
  ext a l
  rcases a with (c | c) | c
  · rcases l with l | l
    · exact isEmptyElim l
    rw [Matrix.neg_apply, slopes_apply, ivP_apply]
    unfold Estimation.jacobian
    rw [ho]
    have hneg : ∀ e i, E.data.equations o.phi (E.data.reportedXi (Matrix.of fun i p => E.data.xiJacobian (E.covariances r.start.W o.phi)
        (ivWeights (ivWeights r.start.W)) o.phi (o.deltaJacobian.col p) (o.costsJacobian.col p) i) (.inr l))
        (E.data.reportedOmega (Matrix.of fun i p => E.data.omegaJacobian (E.covariances r.start.W o.phi)
        (ivWeights (ivWeights r.start.W)) o.phi (o.deltaJacobian.col p) (o.costsJacobian.col p) i) (.inr l)) e i = -E.data.regressors o.phi e i l := by
      intro e i
      have h := equations_sub E.data o.phi 0 0 (Pi.single l 1) e i
      have hz : E.data.equations o.phi 0 0 e i = 0 := by
        rw [equations_eq]
        rcases e with e | e
        · simp only [Sum.elim_inl]
          rcases E.data.demand e with _ | t
          · rfl
          · cases t <;> cases E.data.hasSupply <;> simp [Spec.momentError, Spec.innovation, Spec.differencedInnovation]
        · simp only [Sum.elim_inr]
          rcases E.data.supply e with _ | t
          · rfl
          · cases t <;> simp [Spec.momentError, Spec.innovation, Spec.differencedInnovation]
      rw [hz, zero_sub] at h
      rw [Finset.sum_eq_single l (fun l' _ hl' => by rw [Pi.single_eq_of_ne hl', mul_zero]) (by simp), Pi.single_eq_same, mul_one] at h
      rw [h]
      congr 1
      · funext i
        rcases l with l | l
        · simp only [Spec.unobserved, MomentData.reportedXi, Pi.zero_apply, zero_sub]
          congr 1
          rw [Finset.sum_eq_single l (fun l' _ hl' => by simp [hl']) (by simp)]
          simp
        · simp [Spec.unobserved, MomentData.reportedXi]
      · funext i
        rcases l with l | l
        · simp [Spec.unobserved, MomentData.reportedOmega]
        · simp only [Spec.unobserved, MomentData.reportedOmega, Pi.zero_apply, zero_sub]
          congr 1
          rw [Finset.sum_eq_single l (fun l' _ hl' => by simp [hl']) (by simp)]
          simp
    unfold MomentData.momentsJacobian MomentData.meanG
    simp only [Matrix.of_apply, concat, Sum.elim_inl, gmmMomentsJacobianMean, hneg, MomentData.phiContribution, Sum.elim_inr, Pi.zero_apply, add_zero]
    rw [Fintype.card_fin, inv_mul_eq_div, ← neg_div, ← Finset.sum_neg_distrib]
    congr 1
    exact Finset.sum_congr rfl fun i _ => by ring
  · exact isEmptyElim c
  · exact isEmptyElim c

end One

/-- Parameters are linear: what is computed market by market does not depend on anything that is estimated, nothing is resampled, observations are
sorted by clusters, and routines that invert matrices invert those that have an inverse. -/
structure Linear {N nd ns : ℕ} {m : Fin nd ⊕ Fin ns → Type} {q b g θ d ι D : Type} [∀ e, Fintype (m e)] [Fintype q] [Fintype b] [Fintype g]
    [Fintype θ] [Fintype d] [LinearOrder ι] [∀ e, DecidableEq (m e)] [DecidableEq q] [DecidableEq b] [DecidableEq g] [DecidableEq θ] [DecidableEq d]
    (E : Estimation N nd ns m q b g θ d ι D) (o : Evaluated N θ d) : Prop where
  markets : ∀ s theta, (E.markets s theta).1 = o
  resampled : ∀ s theta, E.resampled s theta = []
  sort : IsArgsort E.ids E.sort
  invertLinear : Spec.Inverts E.invertLinear
  invertAggregate : Spec.Inverts E.invertAggregate
  invertMoments : Spec.Inverts E.invertMoments
  invertParameters : Spec.Inverts E.invertParameters

section Many

variable {nd ns : ℕ} {m : Fin nd ⊕ Fin ns → Type} {I q b g θ d ι D : Type} [∀ e, Fintype (m e)] [Fintype q] [Fintype b] [Fintype g]
  [Fintype θ] [Fintype d] [LinearOrder ι] [∀ e, DecidableEq (m e)] [DecidableEq q] [DecidableEq b] [DecidableEq g] [DecidableEq θ] [DecidableEq d]
  [IsEmpty q] [IsEmpty d] [IsEmpty θ] {F : Filter I} {N : I → ℕ}

variable {E : ∀ i, Estimation (N i) nd ns m q b g θ d ι D} {o : ∀ i, Evaluated (N i) θ d} {beta : b ⊕ g → ℝ}
  {R K : Term ((MomentIndex m ⊕ q) ⊕ d) (θ ⊕ b ⊕ g) → Term ((MomentIndex m ⊕ q) ⊕ d) (θ ⊕ b ⊕ g) → ℝ}

/-- Limits of averages of slopes. -/
def limitSlopes (R : Term ((MomentIndex m ⊕ q) ⊕ d) (θ ⊕ b ⊕ g) → Term ((MomentIndex m ⊕ q) ⊕ d) (θ ⊕ b ⊕ g) → ℝ) :
    Matrix ((MomentIndex m ⊕ q) ⊕ d) (θ ⊕ b ⊕ g) ℝ := Matrix.of fun a l => R (.slope a l) .one

lemma tendsto_slopes (h : Limits F (fun i => linearRows (E i) (o i) beta) (fun i => (E i).ids) R K) :
    Tendsto (fun i => slopes (E i) (o i) beta) F (𝓝 (limitSlopes R)) :=
  tendsto_matrix.mpr fun _ _ => h.averages _ _

/-- Estimates are close to gains times averages of moments. -/
lemma eventually_deviation (hlin : ∀ i, Linear (E i) (o i)) (hN : ∀ᶠ i in F, 0 < N i)
    (h : Limits F (fun i => linearRows (E i) (o i) beta) (fun i => (E i).ids) R K) {W : I → Estimation.Weights m q d} {W0 : Estimation.Weights m q d}
    (hW : Tendsto W F (𝓝 W0)) (h0 : ((limitSlopes R)ᵀ * W0 * limitSlopes R).det ≠ 0) :
    ∀ᶠ i in F, deviation (E i) (o i) beta (W i) = gain (slopes (E i) (o i) beta) (W i) *ᵥ moments (E i) (o i) beta := by
  have hQ := tendsto_slopes h
  filter_upwards [hN, eventually_det (tendsto_mul (tendsto_mul (tendsto_transpose hQ) hW) hQ) h0] with i hi hd
  exact deviation_eq (E i) (o i) beta hi (hlin i).invertLinear (W i) hd

/-- Estimates converge to the truth. -/
lemma tendsto_deviation (hlin : ∀ i, Linear (E i) (o i)) (hN : ∀ᶠ i in F, 0 < N i)
    (h : Limits F (fun i => linearRows (E i) (o i) beta) (fun i => (E i).ids) R K) (hmean : ∀ a, R (.moment a) .one = 0)
    {W : I → Estimation.Weights m q d} {W0 : Estimation.Weights m q d}
    (hW : Tendsto W F (𝓝 W0)) (h0 : ((limitSlopes R)ᵀ * W0 * limitSlopes R).det ≠ 0) :
    Tendsto (fun i => deviation (E i) (o i) beta (W i)) F (𝓝 0) := by
  have hA := tendsto_gain (tendsto_slopes h) hW h0
  have hg : ∀ a, Tendsto (fun i => moments (E i) (o i) beta a) F (𝓝 0) := fun a => by
    have := h.averages (.moment a) .one
    rw [hmean] at this
    exact this
  refine Tendsto.congr' (EventuallyEq.symm (eventually_deviation hlin hN h hW h0)) ?_
  rw [tendsto_pi_nhds]
  intro l
  have : Tendsto (fun i => ∑ a, gain (slopes (E i) (o i) beta) (W i) l a * moments (E i) (o i) beta a) F (𝓝 (∑ a, gain (limitSlopes R) W0 l a * 0)) :=
    tendsto_finsetSum _ fun a _ => ((tendsto_matrix.mp hA) l a).mul (hg a)
  simp only [mul_zero, Finset.sum_const_zero] at this
  exact this

lemma tendsto_momentCovariances (hlin : ∀ i, Linear (E i) (o i)) (hN : ∀ᶠ i in F, 0 < N i)
    (h : Limits F (fun i => linearRows (E i) (o i) beta) (fun i => (E i).ids) R K) (hmean : ∀ a, R (.moment a) .one = 0)
    {W : I → Estimation.Weights m q d} {W0 : Estimation.Weights m q d}
    (hW : Tendsto W F (𝓝 W0)) (h0 : ((limitSlopes R)ᵀ * W0 * limitSlopes R).det ≠ 0) (type : CovarianceType) (center : Bool) :
    Tendsto (fun i => (E i).momentCovariances type center (W i) (o i) []) F (𝓝 (limitCovariances R K type)) := by
  simp only [fun i => covariances_eq (E i) (o i) beta (hlin i).sort type center (W i)]
  exact tendsto_covariances h hmean (tendsto_deviation hlin hN h hmean hW h0) type center

lemma momentCovariances_symm (hlin : ∀ i, Linear (E i) (o i)) (i : I) (type : CovarianceType) (center : Bool) (W : Estimation.Weights m q d) :
    ((E i).momentCovariances type center W (o i) [])ᵀ = (E i).momentCovariances type center W (o i) [] := by
  rw [covariances_eq (E i) (o i) 0 (hlin i).sort]
  ext a c
  exact typedCovariances_symm _ _ _ _ _ _ _

lemma symmetrized_inverse {c : Type} [Fintype c] [DecidableEq c] (S : Matrix c c ℝ) (hS : Sᵀ = S) : symmetrized S⁻¹ = S⁻¹ :=
  symmetrized_of_symm _ (by rw [Matrix.transpose_nonsing_inv, hS])

lemma inverts_inv {c : Type} [Fintype c] [DecidableEq c] {invert : Matrix c c ℝ → Matrix c c ℝ} (h : Spec.Inverts invert) (S : Matrix c c ℝ)
    (hS : S.det ≠ 0) : invert S = S⁻¹ := h _ _ (Matrix.mul_nonsing_inv _ (isUnit_iff_ne_zero.mpr hS))

/-- Inverses of covariances of moments at estimates converge. -/
lemma tendsto_gmmWeights (hlin : ∀ i, Linear (E i) (o i)) (hN : ∀ᶠ i in F, 0 < N i)
    (h : Limits F (fun i => linearRows (E i) (o i) beta) (fun i => (E i).ids) R K) (hmean : ∀ a, R (.moment a) .one = 0)
    {W : I → Estimation.Weights m q d} {W0 : Estimation.Weights m q d}
    (hW : Tendsto W F (𝓝 W0)) (h0 : ((limitSlopes R)ᵀ * W0 * limitSlopes R).det ≠ 0) (type : CovarianceType) (center : Bool)
    (hS : (limitCovariances R K type).det ≠ 0) :
    Tendsto (fun i => gmmWeights ((E i).invertMoments ((E i).momentCovariances type center (W i) (o i) []))) F (𝓝 (limitCovariances R K type)⁻¹) := by
  have hc := tendsto_momentCovariances hlin hN h hmean hW h0 type center
  refine (tendsto_inv hc hS).congr' ?_
  filter_upwards [eventually_det hc hS] with i hi
  rw [inverts_inv (hlin i).invertMoments _ hi]
  exact (symmetrized_inverse _ (momentCovariances_symm hlin i _ _ _)).symm

/-- The limit of reported covariances of parameters: `unadjusted` is whether they are unadjusted, and `W` is the limit of weights that are used. -/
noncomputable def limitParameterCovariances {c p : Type} [Fintype c] [DecidableEq c] [Fintype p] [DecidableEq p] (Q : Matrix c p ℝ)
    (W S : Matrix c c ℝ) (unadjusted : Bool) : Matrix p p ℝ :=
  if unadjusted then (Qᵀ * W * Q)⁻¹ else (Qᵀ * W * Q)⁻¹ * Qᵀ * W * S * W * Q * (Qᵀ * W * Q)⁻¹

/-- Reported covariances converge. -/
lemma tendsto_parameterCovariances (hlin : ∀ i, Linear (E i) (o i)) (hN : ∀ᶠ i in F, 0 < N i)
    (h : Limits F (fun i => linearRows (E i) (o i) beta) (fun i => (E i).ids) R K) (hmean : ∀ a, R (.moment a) .one = 0)
    {seType : CovarianceType} (hse : ∀ i, (E i).seType = seType) {r : I → StepResults (Estimation.Weights m q d) (θ → ℝ) D} {step : ℕ}
    (hstep : ∀ i, (r i).step = step) {W0 : Estimation.Weights m q d}
    (hW : Tendsto (fun i => (r i).start.W) F (𝓝 W0)) (h0 : ((limitSlopes R)ᵀ * W0 * limitSlopes R).det ≠ 0) {W1 : Estimation.Weights m q d}
    (h1 : if seType.isUnadjusted && step == 1 then (limitCovariances R K seType).det ≠ 0 ∧ W1 = (limitCovariances R K seType)⁻¹ ∧
      ((limitSlopes R)ᵀ * W1 * limitSlopes R).det ≠ 0 else W1 = W0) :
    Tendsto (fun i => (E i).parameterCovariances (r i)) F
      (𝓝 (symmetrized (limitParameterCovariances (limitSlopes R) W1 (limitCovariances R K seType) seType.isUnadjusted))) := by
  have hout : ∀ i, (E i).outcome (r i) = o i := fun i => (hlin i).markets _ _
  have hrep : ∀ i, (E i).reportedCovariances (r i) = (E i).momentCovariances seType false (r i).start.W (o i) [] := by
    intro i
    rw [C97_reported (E i) (hlin i).sort, ← C97_covariances (E i) (hlin i).sort, hout, (hlin i).resampled, hse]
  have hS : Tendsto (fun i => (E i).reportedCovariances (r i)) F (𝓝 (limitCovariances R K seType)) := by
    simp only [hrep]
    exact tendsto_momentCovariances hlin hN h hmean hW h0 seType false
  have hWc : Tendsto (fun i => (E i).weightsForCovariances (r i)) F (𝓝 W1) := by
    unfold Estimation.weightsForCovariances
    simp only [hse, hstep]
    by_cases hb : (seType.isUnadjusted && step == 1) = true
    · simp only [hb, if_true] at h1 ⊢
      rw [h1.2.1]
      simp only [hrep]
      exact tendsto_gmmWeights hlin hN h hmean hW h0 seType false h1.1
    · simp only [hb] at h1 ⊢
      rw [h1]
      exact hW
  have hd1 : ((limitSlopes R)ᵀ * W1 * limitSlopes R).det ≠ 0 := by
    by_cases hb : (seType.isUnadjusted && step == 1) = true
    · simp only [hb, if_true] at h1
      exact h1.2.2
    · simp only [hb] at h1
      rw [h1]
      exact h0
  have hQ := tendsto_slopes h
  have hG : ∀ i, (E i).jacobian (r i) = -slopes (E i) (o i) beta := fun i => jacobian_eq (E i) (o i) beta (r i) (hout i)
  have hM : Tendsto (fun i => (slopes (E i) (o i) beta)ᵀ * (E i).weightsForCovariances (r i) * slopes (E i) (o i) beta) F
      (𝓝 ((limitSlopes R)ᵀ * W1 * limitSlopes R)) := tendsto_mul (tendsto_mul (tendsto_transpose hQ) hWc) hQ
  have hH := tendsto_inv hM hd1
  have hfinal : Tendsto (fun i => limitParameterCovariances (slopes (E i) (o i) beta) ((E i).weightsForCovariances (r i))
      ((E i).reportedCovariances (r i)) seType.isUnadjusted) F
      (𝓝 (limitParameterCovariances (limitSlopes R) W1 (limitCovariances R K seType) seType.isUnadjusted)) := by
    unfold limitParameterCovariances
    cases seType.isUnadjusted
    · simp only [Bool.false_eq_true, if_false]
      exact tendsto_mul (tendsto_mul (tendsto_mul (tendsto_mul (tendsto_mul (tendsto_mul hH (tendsto_transpose hQ)) hWc) hS) hWc) hQ) hH
    · simp only [if_true]
      exact hH
  have hsym : Tendsto (fun i => symmetrized (limitParameterCovariances (slopes (E i) (o i) beta) ((E i).weightsForCovariances (r i))
      ((E i).reportedCovariances (r i)) seType.isUnadjusted)) F
      (𝓝 (symmetrized (limitParameterCovariances (limitSlopes R) W1 (limitCovariances R K seType) seType.isUnadjusted))) :=
    tendsto_matrix.mpr fun l l' => ((tendsto_matrix.mp hfinal l l').add (tendsto_matrix.mp hfinal l' l)).div_const 2
  refine hsym.congr' ?_
  filter_upwards [eventually_det hM hd1] with i hi
  unfold Estimation.parameterCovariances gmmParameterCovariances limitParameterCovariances
  rw [hG, hse]
  simp only [Matrix.transpose_neg, Matrix.neg_mul, Matrix.mul_neg, neg_neg]
  rw [inverts_inv (hlin i).invertParameters _ hi]

/-- Limits of averages of products of instruments within each set, with zeros for pairs of moments from different sets. -/
def limitInstruments (R : Term ((MomentIndex m ⊕ q) ⊕ d) (θ ⊕ b ⊕ g) → Term ((MomentIndex m ⊕ q) ⊕ d) (θ ⊕ b ⊕ g) → ℝ) :
    Matrix (MomentIndex m ⊕ q) (MomentIndex m ⊕ q) ℝ :=
  Matrix.of fun a c => if Spec.instrumentSet a = Spec.instrumentSet c then R (.instrument (.inl a)) (.instrument (.inl c)) else 0

/-- Default weights converge. -/
lemma tendsto_defaultWeights (hlin : ∀ i, Linear (E i) (o i))
    (h : Limits F (fun i => linearRows (E i) (o i) beta) (fun i => (E i).ids) R K) (hS : (limitInstruments R).det ≠ 0) :
    Tendsto (fun i => (E i).defaultWeights) F (𝓝 (fromBlocks (limitInstruments R)⁻¹ 0 0 0)) := by
  set S : ∀ _ : I, Matrix (MomentIndex m ⊕ q) (MomentIndex m ⊕ q) ℝ := fun i => Matrix.of fun a c =>
    if Spec.instrumentSet a = Spec.instrumentSet c then
      Spec.overProducts fun j => Spec.aggregateInstrument (E i).data a j * Spec.aggregateInstrument (E i).data c j else 0 with hSdef
  have hT : Tendsto S F (𝓝 (limitInstruments R)) := by
    rw [tendsto_matrix]
    intro a c
    rcases a with a | a
    · rcases c with c | c
      · simp only [hSdef, limitInstruments, Matrix.of_apply]
        by_cases he : Spec.instrumentSet (.inl a : MomentIndex m ⊕ q) = Spec.instrumentSet (.inl c : MomentIndex m ⊕ q)
        · simp only [if_pos he]
          exact h.averages (.instrument (.inl (.inl a))) (.instrument (.inl (.inl c)))
        · simp only [if_neg he]
          exact tendsto_const_nhds
      · exact isEmptyElim c
    · exact isEmptyElim a
  have hinv := tendsto_inv hT hS
  rw [tendsto_matrix]
  intro a c
  rcases a with a | a
  · rcases c with c | c
    · refine (tendsto_matrix.mp hinv a c).congr' ?_
      filter_upwards [eventually_det hT hS] with i hi
      have hU := (C97_default (E i) (hlin i).invertAggregate (S i) (fun a c => rfl) ((Matrix.isUnit_iff_isUnit_det _).mpr (isUnit_iff_ne_zero.mpr hi))).1
      rw [Matrix.inv_eq_right_inv hU]
      rfl
    · exact isEmptyElim c
  · exact isEmptyElim a

/-! ## All steps -/

lemma updated_eq (hlin : ∀ i, Linear (E i) (o i)) {wType : CovarianceType} (hw : ∀ i, (E i).wType = wType) (i : I) (P step : ℕ)
    (s : GmmState (Estimation.Weights m q d) (θ → ℝ) D) (last : Option (StepResults (Estimation.Weights m q d) (θ → ℝ) D)) :
    (gmmStep (E i).oracle P step s last).updatedW =
      gmmWeights ((E i).invertMoments ((E i).momentCovariances wType (E i).center s.W (o i) [])) := by
  unfold gmmStep Estimation.oracle Estimation.updatedWeights Estimation.final
  simp only [(hlin i).markets, (hlin i).resampled, hw]

/-- The limit of weights with which the last step starts. -/
noncomputable def limitWeights (R K : Term ((MomentIndex m ⊕ q) ⊕ d) (θ ⊕ b ⊕ g) → Term ((MomentIndex m ⊕ q) ⊕ d) (θ ⊕ b ⊕ g) → ℝ)
    (method : GmmMethod) (initialUpdate : Bool) (wType : CovarianceType) (W0 : Estimation.Weights m q d) : Estimation.Weights m q d :=
  if method = .oneStep ∧ initialUpdate = false then W0 else (limitCovariances R K wType)⁻¹

/-- The number of the last step. -/
def lastStep : GmmMethod → ℕ
  | .oneStep => 1
  | .twoStep => 2

/-- Weights with which the last step starts converge. -/
lemma tendsto_lastWeights (hlin : ∀ i, Linear (E i) (o i)) (hN : ∀ᶠ i in F, 0 < N i)
    (h : Limits F (fun i => linearRows (E i) (o i) beta) (fun i => (E i).ids) R K) (hmean : ∀ a, R (.moment a) .one = 0)
    {wType : CovarianceType} (hw : ∀ i, (E i).wType = wType) {s : I → GmmState (Estimation.Weights m q d) (θ → ℝ) D} {W0 : Estimation.Weights m q d}
    (hW : Tendsto (fun i => (s i).W) F (𝓝 W0)) (h0 : ((limitSlopes R)ᵀ * W0 * limitSlopes R).det ≠ 0) (method : GmmMethod) (initialUpdate : Bool)
    (h1 : ¬(method = .oneStep ∧ initialUpdate = false) → (limitCovariances R K wType).det ≠ 0 ∧
      ((limitSlopes R)ᵀ * (limitCovariances R K wType)⁻¹ * limitSlopes R).det ≠ 0)
    {r : I → StepResults (Estimation.Weights m q d) (θ → ℝ) D} (hr : ∀ i, ((E i).solve method initialUpdate (s i)).getLast? = some (r i)) :
    Tendsto (fun i => (r i).start.W) F (𝓝 (limitWeights R K method initialUpdate wType W0)) ∧ ∀ i, (r i).step = lastStep method := by
  have hup : ∀ {W : I → Estimation.Weights m q d} {V : Estimation.Weights m q d}, Tendsto W F (𝓝 V) →
      ((limitSlopes R)ᵀ * V * limitSlopes R).det ≠ 0 → (limitCovariances R K wType).det ≠ 0 →
      Tendsto (fun i => gmmWeights ((E i).invertMoments ((E i).momentCovariances wType (E i).center (W i) (o i) []))) F
        (𝓝 (limitCovariances R K wType)⁻¹) := by
    intro W V hWV hV hS
    have htrue := tendsto_gmmWeights hlin hN h hmean hWV hV wType true hS
    have hfalse := tendsto_gmmWeights hlin hN h hmean hWV hV wType false hS
    rw [tendsto_def] at htrue hfalse ⊢
    intro U hU
    filter_upwards [htrue U hU, hfalse U hU] with i ht hf
    simp only [Set.mem_preimage] at ht hf ⊢
    cases (E i).center
    · exact hf
    · exact ht
  cases method <;> cases initialUpdate
  · have e : ∀ i, r i = gmmStep (E i).oracle (Fintype.card θ) 1 (s i) none := by
      intro i
      have := hr i
      unfold Estimation.solve gmmSolve at this
      rw [if_neg (by simp), gmmLoop_last _ _ _ _ _ _ (Or.inr ⟨rfl, rfl⟩)] at this
      exact (Option.some.inj this).symm
    exact ⟨by simp only [e]; exact hW, fun i => by rw [e]; rfl⟩
  · have e : ∀ i, r i = gmmStep (E i).oracle (Fintype.card θ) 1 (nextState (gmmStep (E i).oracle (Fintype.card θ) 0 (s i) none))
        (some (gmmStep (E i).oracle (Fintype.card θ) 0 (s i) none)) := by
      intro i
      have := hr i
      unfold Estimation.solve gmmSolve at this
      rw [if_pos rfl, gmmLoop_next _ _ _ _ _ _ (by simp), gmmLoop_last _ _ _ _ _ _ (Or.inr ⟨rfl, rfl⟩)] at this
      exact (Option.some.inj this).symm
    refine ⟨?_, fun i => by rw [e]; rfl⟩
    have hS := h1 (by simp)
    have := hup hW h0 hS.1
    refine this.congr fun i => ?_
    rw [e]
    exact (updated_eq hlin hw i _ _ _ none).symm
  · have e : ∀ i, r i = gmmStep (E i).oracle (Fintype.card θ) 2 (nextState (gmmStep (E i).oracle (Fintype.card θ) 1 (s i) none))
        (some (gmmStep (E i).oracle (Fintype.card θ) 1 (s i) none)) := by
      intro i
      have := hr i
      unfold Estimation.solve gmmSolve at this
      rw [if_neg (by simp), gmmLoop_next _ _ _ _ _ _ (by simp), gmmLoop_last _ _ _ _ _ _ (Or.inl le_rfl)] at this
      exact (Option.some.inj this).symm
    refine ⟨?_, fun i => by rw [e]; rfl⟩
    have hS := h1 (by simp)
    have := hup hW h0 hS.1
    refine this.congr fun i => ?_
    rw [e]
    exact (updated_eq hlin hw i _ _ _ none).symm
  · set r0 : I → StepResults (Estimation.Weights m q d) (θ → ℝ) D := fun i => gmmStep (E i).oracle (Fintype.card θ) 0 (s i) none with hr0
    have e : ∀ i, r i = gmmStep (E i).oracle (Fintype.card θ) 2 (nextState (gmmStep (E i).oracle (Fintype.card θ) 1 (nextState (r0 i)) (some (r0 i))))
        (some (gmmStep (E i).oracle (Fintype.card θ) 1 (nextState (r0 i)) (some (r0 i)))) := by
      intro i
      have := hr i
      unfold Estimation.solve gmmSolve at this
      rw [if_pos rfl, gmmLoop_next _ _ _ _ _ _ (by simp), gmmLoop_next _ _ _ _ _ _ (by simp), gmmLoop_last _ _ _ _ _ _ (Or.inl le_rfl)] at this
      exact (Option.some.inj this).symm
    refine ⟨?_, fun i => by rw [e]; rfl⟩
    have hS := h1 (by simp)
    have hfirst := hup hW h0 hS.1
    have := hup hfirst hS.2 hS.1
    refine this.congr fun i => ?_
    rw [e]
    have e2 := updated_eq hlin hw i (Fintype.card θ) 1 (nextState (r0 i)) (some (r0 i))
    have e1 : (nextState (r0 i)).W = _ := updated_eq hlin hw i (Fintype.card θ) 0 (s i) none
    rw [e1] at e2
    exact e2.symm

end Many

end Pyblp.Asymptotic
