import Verif.Lemmas.LargeSample
import Verif.Lemmas.ChiSquared
import Verif.Lemmas.Projections
import Verif.Model.EstimationResults
import Verif.Props.TestStatistics
import Mathlib.Analysis.Calculus.FDeriv.Basic

/-!
# Limits of test statistics
-/

set_option linter.unusedSectionVars false

open MeasureTheory ProbabilityTheory Filter Topology Matrix

namespace Pyblp.Asymptotic

open Pyblp.Sampling

variable {C Ω : Type} {nd ns : ℕ} {m : Fin nd ⊕ Fin ns → Type} {q b g θ d ι D : Type} [∀ e, Fintype (m e)] [Fintype q] [Fintype b] [Fintype g]
  [Fintype θ] [Fintype d] [LinearOrder ι] [∀ e, DecidableEq (m e)] [DecidableEq q] [DecidableEq b] [DecidableEq g] [DecidableEq θ] [DecidableEq d]
  [IsEmpty q] [IsEmpty d] [IsEmpty θ] [MeasurableSpace C] {law : Measure C}

/-! ## Moments of clusters -/

/-- The sum of moments over rows of a cluster. -/
def clusterMoment {k : Type} (P : Spec.Clusters C m k) (a : MomentIndex m) (x : C) : ℝ := P.total x fun j => P.error x a.1 j * P.instrument x a.1 j a.2

variable {P : Spec.Clusters C m (b ⊕ g)}

lemma measurable_clusterMoment (hP : P.Regular law) (a : MomentIndex m) : Measurable (clusterMoment P a) :=
  measurable_clusterTotal (q := PEmpty) (θ := PEmpty) (d := PEmpty) hP.toBounded (.moment (.inl (.inl a)))

lemma memLp_clusterMoment (hP : P.Regular law) (a : MomentIndex m) : MemLp (clusterMoment P a) 2 law :=
  memLp_clusterTotal (q := PEmpty) (θ := PEmpty) (d := PEmpty) hP.toBounded (.moment (.inl (.inl a)))

lemma integral_clusterMoment (hP : P.Regular law) (a : MomentIndex m) : ∫ x, clusterMoment P a x ∂law = 0 := by
  have := hP.exogenous a.1 a.2
  unfold Spec.Clusters.average at this
  rcases div_eq_zero_iff.mp this with h2 | h2
  · exact h2
  · exact absurd h2 hP.nonempty.ne'

/-- Covariances of moments of clusters are positive semidefinite. -/
lemma clustered_posSemidef (hP : P.Regular law) : (P.covariances law .clustered).PosSemidef := by
  refine Matrix.PosSemidef.of_dotProduct_mulVec_nonneg ?_ fun v => ?_
  · rw [Matrix.IsHermitian, Matrix.conjTranspose_eq_transpose_of_trivial]
    ext a c
    simp only [Matrix.transpose_apply, Spec.Clusters.covariances, Matrix.of_apply]
    congr 2
    funext x
    exact mul_comm _ _
  · have hi : ∀ a c, Integrable (fun x => clusterMoment P a x * clusterMoment P c x) law := fun a c =>
      (memLp_clusterMoment hP a).integrable_mul (memLp_clusterMoment hP c)
    have e : star v ⬝ᵥ (P.covariances law .clustered *ᵥ v) = (∫ x, (∑ a, v a * clusterMoment P a x) ^ 2 ∂law) / ∫ x, (P.size x : ℝ) ∂law := by
      have e1 : ∀ x, (∑ a, v a * clusterMoment P a x) ^ 2 = ∑ a, ∑ c, v a * v c * (clusterMoment P a x * clusterMoment P c x) := fun x => by
        rw [sq, Finset.sum_mul_sum]
        exact Finset.sum_congr rfl fun a _ => Finset.sum_congr rfl fun c _ => by ring
      simp only [e1]
      rw [integral_finsetSum _ fun a _ => integrable_finsetSum _ fun c _ => (hi a c).const_mul _]
      simp only [fun a : MomentIndex m => integral_finsetSum (μ := law) Finset.univ (f := fun c x => v a * v c * (clusterMoment P a x * clusterMoment P c x))
        fun c _ => (hi a c).const_mul _, integral_const_mul]
      rw [Finset.sum_div]
      simp only [dotProduct, mulVec, Pi.star_apply, star_trivial, Finset.mul_sum]
      refine Finset.sum_congr rfl fun a _ => ?_
      rw [Finset.sum_div]
      refine Finset.sum_congr rfl fun c _ => ?_
      change v a * ((∫ x, clusterMoment P a x * clusterMoment P c x ∂law) / _ * v c) = _
      ring
    rw [e]
    exact div_nonneg (integral_nonneg fun x => sq_nonneg _) hP.nonempty.le

/-- Averages of moments at the truth. -/
noncomputable def averageMoments {k : Type} (P : Spec.Clusters C m k) (w : ℕ → Ω → C) (N : ℕ × Ω → ℕ) (i : ℕ × Ω) (a : MomentIndex m) : ℝ :=
  (∑ t ∈ Finset.range i.1, clusterMoment P a (w t i.2)) / N i

variable {N : ℕ × Ω → ℕ} {E : ∀ i, Estimation (N i) nd ns m q b g θ d ι D} {o : ∀ i, Evaluated (N i) θ d} {beta : b ⊕ g → ℝ} {w : ℕ → Ω → C}
  {F : Filter (ℕ × Ω)}

lemma moments_eq (hE : ∀ i, Spec.Sampled P (fun t => w t i.2) i.1 (E i) (o i) beta) (i : ℕ × Ω) (a : MomentIndex m) :
    moments (E i) (o i) beta (.inl (.inl a)) = averageMoments P w N i a := by
  unfold moments averageMoments
  rw [sampled_averages (hE i), ← sampled_size (hE i)]
  congr 1
  refine Finset.sum_congr rfl fun t _ => ?_
  simp only [clusterProduct, Rows.value, mul_one]
  rfl

/-- Averages of moments at estimates. -/
lemma meanMoments_deviation (i : ℕ × Ω) (W : Estimation.Weights m q d) :
    (E i).meanMoments W (o i) = moments (E i) (o i) beta - slopes (E i) (o i) beta *ᵥ deviation (E i) (o i) beta W := by
  funext a
  rcases a with (a | a) | a
  · rw [Pi.sub_apply, moments_apply, stepMoments_eq, stepMoments_ivMoment]
    congr 1
    rw [Pi.sub_apply, ivV_apply]
    unfold Spec.ivMoment
    simp only [Matrix.mulVec, dotProduct, ivP_apply, Finset.sum_mul]
    rw [Finset.sum_comm, ← Finset.sum_sub_distrib]
    refine Finset.sum_congr rfl fun i _ => ?_
    rw [mul_sub, Finset.mul_sum]
    congr 1
    exact Finset.sum_congr rfl fun l _ => by ring
  · exact isEmptyElim a
  · exact isEmptyElim a

/-! ## Statistics that are quadratic forms of averages of moments -/

variable [MeasurableSpace Ω] {μ : Measure Ω}

/-- Quadratic forms of averages of moments at the truth have limiting chi-squared distributions. -/
lemma statistic_chiSquared [IsProbabilityMeasure μ] (hw : Draws μ law w) (hind : iIndepFun w μ) (hP : P.Regular law)
    (hN : Tendsto (fun i => (N i : ℝ) / i.1) (probably μ) (𝓝 (∫ x, (P.size x : ℝ) ∂law))) {K : ℕ × Ω → Matrix (MomentIndex m) (MomentIndex m) ℝ}
    {k : ℕ} {B : Matrix (Fin k) (MomentIndex m) ℝ} (hK : Tendsto K (probably μ) (𝓝 (Bᵀ * B))) (hB : B * P.covariances law .clustered * Bᵀ = 1)
    {Y : ℕ × Ω → ℝ} (hY : ∀ᶠ i in probably μ, Y i = N i * (averageMoments P w N i ⬝ᵥ (K i *ᵥ averageMoments P w N i))) {R : Set ℝ}
    (hR : Spec.chiSquared k (frontier R) = 0) : Tendsto (fun T => μ {ω | Y (T, ω) ∈ R}) atTop (𝓝 (Spec.chiSquared k R)) := by
  set n0 := ∫ x, (P.size x : ℝ) ∂law with hn0
  have hpos : 0 < n0 := hP.nonempty
  have hsq : √n0 * √n0 = n0 := Real.mul_self_sqrt hpos.le
  refine quadratic_chiSquared hw hind (measurable_clusterMoment hP) (memLp_clusterMoment hP) (integral_clusterMoment hP)
    (M := fun i a c => K i a c / ((N i : ℝ) / i.1)) (B := fun j a => B j a / √n0) (fun a c => ?_) (fun j j' => ?_) ?_ hR
  · have h1 := (tendsto_matrix.mp hK a c).div hN hpos.ne'
    have e : (Bᵀ * B) a c / n0 = ∑ j, B j a / √n0 * (B j c / √n0) := by
      rw [Matrix.mul_apply, Finset.sum_div]
      refine Finset.sum_congr rfl fun j _ => ?_
      rw [div_mul_div_comm, hsq]
      rfl
    rwa [e] at h1
  · have h1 := congrFun (congrFun hB j) j'
    rw [Matrix.one_apply] at h1
    rw [← h1, Matrix.mul_apply]
    simp only [Matrix.mul_apply, Matrix.transpose_apply, Finset.sum_mul]
    rw [Finset.sum_comm]
    refine Finset.sum_congr rfl fun a _ => Finset.sum_congr rfl fun c _ => ?_
    change _ = B j c * ((∫ x, clusterMoment P c x * clusterMoment P a x ∂law) / n0) * B j' a
    have e : ∀ x y z : ℝ, x / √n0 * y * (z / √n0) = x * (y / n0) * z := fun x y z => by
      have : x / √n0 * y * (z / √n0) = x * y * z / (√n0 * √n0) := by ring
      rw [this, hsq]
      ring
    exact e _ _ _
  · filter_upwards [hY, hN.eventually (lt_mem_nhds hpos)] with i hi hNi
    have hT : (0 : ℝ) < i.1 := by
      rcases Nat.eq_zero_or_pos i.1 with h | h
      · rw [h] at hNi
        simp at hNi
      · exact_mod_cast h
    have hNp : (0 : ℝ) < N i := by
      rcases Nat.eq_zero_or_pos (N i) with h | h
      · rw [h] at hNi
        simp at hNi
      · exact_mod_cast h
    rw [hi]
    simp only [dotProduct, mulVec, Finset.mul_sum]
    refine Finset.sum_congr rfl fun a _ => Finset.sum_congr rfl fun c _ => ?_
    unfold averageMoments scaled
    have hs : √(i.1 : ℝ) * √(i.1 : ℝ) = i.1 := Real.mul_self_sqrt hT.le
    have e : ∀ x y z : ℝ, x / ((N i : ℝ) / i.1) * ((√(i.1 : ℝ))⁻¹ * y * ((√(i.1 : ℝ))⁻¹ * z)) = N i * (y / N i * (x * (z / N i))) := fun x y z => by
      have h1 : x / ((N i : ℝ) / i.1) * ((√(i.1 : ℝ))⁻¹ * y * ((√(i.1 : ℝ))⁻¹ * z)) = x * y * z / N i * (i.1 / (√(i.1 : ℝ) * √(i.1 : ℝ))) := by
        have p3 := (Real.sqrt_pos.mpr hT).ne'
        field_simp
      rw [h1, hs, div_self hT.ne']
      field_simp
    exact (e _ _ _).symm

/-! ## Hansen's statistic -/

/-- What remains of weights after parameters are estimated. -/
noncomputable def residualWeights {c p : Type} [Fintype c] [Fintype p] [DecidableEq p] (Q : Matrix c p ℝ) (W : Matrix c c ℝ) : Matrix c c ℝ :=
  W - W * Q * (Qᵀ * W * Q)⁻¹ * Qᵀ * W

lemma residualWeights_eq {c p : Type} [Fintype c] [Fintype p] [DecidableEq c] [DecidableEq p] (Q : Matrix c p ℝ) (W : Matrix c c ℝ) (hW : Wᵀ = W)
    (hd : (Qᵀ * W * Q).det ≠ 0) : (1 - Q * gain Q W)ᵀ * W * (1 - Q * gain Q W) = residualWeights Q W := by
  unfold gain residualWeights
  have hu : IsUnit (Qᵀ * W * Q).det := isUnit_iff_ne_zero.mpr hd
  have hsym : (Qᵀ * W * Q)ᵀ = Qᵀ * W * Q := by
    rw [Matrix.transpose_mul, Matrix.transpose_mul, Matrix.transpose_transpose, hW, Matrix.mul_assoc]
  have hinv : ((Qᵀ * W * Q)⁻¹)ᵀ = (Qᵀ * W * Q)⁻¹ := by rw [Matrix.transpose_nonsing_inv, hsym]
  have hH : (Qᵀ * W * Q)⁻¹ * (Qᵀ * W * Q) = 1 := Matrix.nonsing_inv_mul _ hu
  have hA : (Q * ((Qᵀ * W * Q)⁻¹ * Qᵀ * W))ᵀ = W * Q * (Qᵀ * W * Q)⁻¹ * Qᵀ := by
    rw [Matrix.transpose_mul, Matrix.transpose_mul, Matrix.transpose_mul, Matrix.transpose_transpose, hinv, hW]
    simp only [Matrix.mul_assoc]
  rw [Matrix.transpose_sub, Matrix.transpose_one, hA]
  generalize hX : (Qᵀ * W * Q)⁻¹ = X at *
  have hH' : X * Qᵀ * W * Q = 1 := by
    rw [← hH]
    simp only [Matrix.mul_assoc]
  have e1 : W * Q * X * Qᵀ * W * (Q * (X * Qᵀ * W)) = W * Q * X * Qᵀ * W := by
    have : W * Q * X * Qᵀ * W * (Q * (X * Qᵀ * W)) = W * Q * (X * Qᵀ * W * Q) * X * Qᵀ * W := by simp only [Matrix.mul_assoc]
    rw [this, hH', Matrix.mul_one]
  have e2 : W * (Q * (X * Qᵀ * W)) = W * Q * X * Qᵀ * W := by simp only [Matrix.mul_assoc]
  rw [Matrix.sub_mul, Matrix.one_mul, Matrix.mul_sub, Matrix.mul_one, Matrix.sub_mul, e1, e2, sub_self, sub_zero]

variable {method : GmmMethod} {initialUpdate : Bool} {wType seType : CovarianceType} {W0 : Matrix (MomentIndex m) (MomentIndex m) ℝ}
  {s : ℕ × Ω → GmmState (Estimation.Weights m q d) (θ → ℝ) D} {r : ℕ × Ω → StepResults (Estimation.Weights m q d) (θ → ℝ) D}

lemma dotProduct_moments (x y : (MomentIndex m ⊕ q) ⊕ d → ℝ) : x ⬝ᵥ y = (fun a => x (.inl (.inl a))) ⬝ᵥ fun a => y (.inl (.inl a)) := sum_moments _

/-- It is a quadratic form of averages of moments at the truth. -/
lemma hansen_form (hlin : ∀ i, Linear (E i) (o i)) (hP : P.Regular law) (hE : ∀ i, Spec.Sampled P (fun t => w t i.2) i.1 (E i) (o i) beta)
    (h : Averages q θ d law P w F) (hW : Spec.StartsWith P law E (fun i => (s i).W) W0) (hw : ∀ i, (E i).wType = wType)
    (hid : Spec.WeightsIdentify P law method initialUpdate wType W0) (hr : ∀ i, ((E i).solve method initialUpdate (s i)).getLast? = some (r i))
    (hsym : (Spec.lastWeights P law method initialUpdate wType W0)ᵀ = Spec.lastWeights P law method initialUpdate wType W0) :
    ∃ K : ℕ × Ω → Matrix (MomentIndex m) (MomentIndex m) ℝ,
      Tendsto K F (𝓝 (residualWeights (P.slopes law) (Spec.lastWeights P law method initialUpdate wType W0))) ∧
      ∀ᶠ i in F, ((E i).results (r i)).hansen = N i * (averageMoments P w N i ⬝ᵥ (K i *ᵥ averageMoments P w N i)) := by
  have hQ := last_identified (b := b) (g := g) hid
  set W := Spec.lastWeights P law method initialUpdate wType W0 with hWdef
  set Q := P.slopes law with hQdef
  have h0 : ((limitSlopes (rowLimit (q := q) (d := d) (θ := θ) P law))ᵀ * W.submatrix onlyMoments onlyMoments *
      limitSlopes (rowLimit (q := q) (d := d) (θ := θ) P law)).det ≠ 0 := by
    rw [limitSlopes_eq, det_product]; exact hQ
  have hl := (last_weights hlin hP hE h hW hw hid hr).1
  set M : ℕ × Ω → Estimation.Weights m q d := fun i => 1 - slopes (E i) (o i) beta * gain (slopes (E i) (o i) beta) (r i).start.W with hM
  set K : ℕ × Ω → Estimation.Weights m q d := fun i => (M i)ᵀ * (r i).start.W * M i with hK
  have hslopes := tendsto_slopes (h.limits hP.toBounded hE)
  have hgain := tendsto_gain hslopes hl h0
  have hMlim := (tendsto_const_nhds (x := (1 : Estimation.Weights m q d))).sub (tendsto_mul hslopes hgain)
  have hKlim := tendsto_mul (tendsto_mul (tendsto_transpose hMlim) hl) hMlim
  have hlim : (1 - limitSlopes (rowLimit (q := q) (d := d) (θ := θ) P law) * gain (limitSlopes (rowLimit (q := q) (d := d) (θ := θ) P law))
      (W.submatrix onlyMoments onlyMoments))ᵀ * W.submatrix onlyMoments onlyMoments * (1 - limitSlopes (rowLimit (q := q) (d := d) (θ := θ) P law) *
        gain (limitSlopes (rowLimit (q := q) (d := d) (θ := θ) P law)) (W.submatrix onlyMoments onlyMoments)) =
      (residualWeights Q W).submatrix onlyMoments onlyMoments := by
    rw [← residualWeights_eq Q W hsym hQ, limitSlopes_eq, gain_eq]
    rw [Matrix.submatrix_mul_equiv, ← Matrix.submatrix_one_equiv (onlyMoments (m := m) (q := q) (d := d))]
    change ((1 - Q * Spec.gain Q W).submatrix onlyMoments onlyMoments)ᵀ * W.submatrix onlyMoments onlyMoments *
      (1 - Q * Spec.gain Q W).submatrix onlyMoments onlyMoments = _
    rw [Matrix.transpose_submatrix, Matrix.submatrix_mul_equiv, Matrix.submatrix_mul_equiv]
    rfl
  rw [hlim] at hKlim
  refine ⟨fun i => Matrix.of fun a c => K i (.inl (.inl a)) (.inl (.inl c)), tendsto_matrix.mpr fun a c => ?_, ?_⟩
  · exact tendsto_matrix.mp hKlim (.inl (.inl a)) (.inl (.inl c))
  · filter_upwards [eventually_deviation hlin (h.positive hP.toBounded hE) (h.limits hP.toBounded hE) hl h0] with i hi
    have hout : (E i).outcome (r i) = o i := (hlin i).markets _ _
    have hg : (E i).meanMoments (r i).start.W (o i) = M i *ᵥ moments (E i) (o i) beta := by
      rw [meanMoments_deviation (beta := beta), hi, hM, Matrix.sub_mulVec, Matrix.one_mulVec, Matrix.mulVec_mulVec]
    have hcomp : ((E i).results (r i)).Computed := rfl
    have hJ : ((E i).results (r i)).hansen = N i * ((E i).meanMoments (r i).start.W (o i) ⬝ᵥ ((r i).start.W *ᵥ (E i).meanMoments (r i).start.W (o i))) := by
      rw [C66_hansen _ hcomp]
      unfold Spec.J
      rw [← dot_eq_sum]
      change _ * ((E i).meanMoments (r i).start.W ((E i).outcome (r i)) ⬝ᵥ ((r i).start.W *ᵥ (E i).meanMoments (r i).start.W ((E i).outcome (r i)))) = _
      rw [hout]
      rfl
    have hq : (E i).meanMoments (r i).start.W (o i) ⬝ᵥ ((r i).start.W *ᵥ (E i).meanMoments (r i).start.W (o i)) =
        moments (E i) (o i) beta ⬝ᵥ (K i *ᵥ moments (E i) (o i) beta) := by
      rw [hg, hK]
      simp only
      rw [← Matrix.mulVec_mulVec, ← Matrix.mulVec_mulVec, Matrix.mulVec_transpose, dotProduct_comm (moments (E i) (o i) beta), ← Matrix.dotProduct_mulVec,
        dotProduct_comm]
    rw [hJ, hq, dotProduct_moments]
    congr 1
    have hm : (fun a => moments (E i) (o i) beta (.inl (.inl a))) = averageMoments P w N i := funext fun a => moments_eq hE i a
    rw [hm]
    congr 1
    funext a
    simp only [Matrix.mulVec, dotProduct_moments]
    rw [hm]
    rfl

/-! ## Wald's statistic -/

/-- Slopes of secants converge to derivatives. -/
lemma exists_secants {p k : Type} [Fintype p] [Fintype k] [DecidableEq p] {f : (p → ℝ) → k → ℝ} {x0 : p → ℝ} {R : Matrix k p ℝ} (h0 : f x0 = 0)
    (hf : HasFDerivAt f (LinearMap.toContinuousLinearMap (Matrix.toLin' R)) x0) :
    ∃ G : (p → ℝ) → Matrix k p ℝ, Tendsto G (𝓝 x0) (𝓝 R) ∧ ∀ x, f x = G x *ᵥ (x - x0) := by
  set ρ : (p → ℝ) → k → ℝ := fun x => f x - R *ᵥ (x - x0) with hρ
  set S : (p → ℝ) → ℝ := fun x => ∑ l, (x - x0) l ^ 2 with hS
  have hS0 : ∀ x, 0 ≤ S x := fun x => Finset.sum_nonneg fun l _ => sq_nonneg _
  have hl : ∀ x l, |(x - x0) l| ≤ √(S x) := fun x l => by
    rw [← Real.sqrt_sq_eq_abs]
    exact Real.sqrt_le_sqrt (Finset.single_le_sum (f := fun l => (x - x0) l ^ 2) (fun l _ => sq_nonneg _) (Finset.mem_univ l))
  have hn : ∀ x, ‖x - x0‖ ≤ √(S x) := fun x => (pi_norm_le_iff_of_nonneg (Real.sqrt_nonneg _)).mpr fun l => hl x l
  have ho : Tendsto (fun x => ‖ρ x‖ / ‖x - x0‖) (𝓝 x0) (𝓝 0) := by
    have h1 := hf.isLittleO
    rw [h0] at h1
    have h2 := h1.norm_norm.tendsto_div_nhds_zero
    refine h2.congr fun x => ?_
    congr 2
    rw [hρ, sub_zero]
    rfl
  refine ⟨fun x => Matrix.of fun j l => R j l + ρ x j * (x - x0) l / S x, tendsto_pi_nhds.mpr fun j => tendsto_pi_nhds.mpr fun l => ?_, fun x => ?_⟩
  · have h1 : Tendsto (fun x => ρ x j * (x - x0) l / S x) (𝓝 x0) (𝓝 0) := by
      refine squeeze_zero_norm (fun x => ?_) ho
      rw [Real.norm_eq_abs, abs_div, abs_mul, abs_of_nonneg (hS0 x)]
      by_cases hz : x - x0 = 0
      · rw [show (x - x0) l = 0 from congrFun hz l, hz]
        simp
      have hpos : 0 < ‖x - x0‖ := norm_pos_iff.mpr hz
      have hSpos : 0 < S x := by
        by_contra hc
        have : S x = 0 := le_antisymm (not_lt.mp hc) (hS0 x)
        have h3 := hn x
        rw [this, Real.sqrt_zero] at h3
        exact absurd h3 (not_le.mpr hpos)
      rw [div_le_div_iff₀ hSpos hpos]
      have h3 : |ρ x j| ≤ ‖ρ x‖ := norm_le_pi_norm (ρ x) j
      have h4 : |(x - x0) l| * ‖x - x0‖ ≤ S x := by
        calc |(x - x0) l| * ‖x - x0‖ ≤ √(S x) * √(S x) := mul_le_mul (hl x l) (hn x) (norm_nonneg _) (Real.sqrt_nonneg _)
          _ = S x := Real.mul_self_sqrt (hS0 x)
      calc |ρ x j| * |(x - x0) l| * ‖x - x0‖ = |ρ x j| * (|(x - x0) l| * ‖x - x0‖) := mul_assoc _ _ _
        _ ≤ ‖ρ x‖ * S x := mul_le_mul h3 h4 (mul_nonneg (abs_nonneg _) (norm_nonneg _)) (norm_nonneg _)
    have h2 := h1.const_add (R j l)
    rw [add_zero] at h2
    exact h2
  · funext j
    have e : ((Matrix.of fun j l => R j l + ρ x j * (x - x0) l / S x) *ᵥ (x - x0)) j = (R *ᵥ (x - x0)) j + ρ x j * (S x / S x) := by
      simp only [Matrix.mulVec, dotProduct, Matrix.of_apply, add_mul, Finset.sum_add_distrib]
      congr 1
      rw [hS, Finset.sum_div, Finset.mul_sum]
      exact Finset.sum_congr rfl fun l _ => by ring
    rw [e]
    by_cases hz : S x = 0
    · have hx : x - x0 = 0 := by
        have := hn x
        rw [hz, Real.sqrt_zero] at this
        exact norm_le_zero_iff.mp this
      have hx' : x = x0 := sub_eq_zero.mp hx
      rw [hz, div_zero, mul_zero, hx, Matrix.mulVec_zero, hx', h0]
      simp
    · rw [div_self hz, mul_one, hρ]
      simp

lemma variance_symm {S : Matrix (MomentIndex m) (MomentIndex m) ℝ} (hS : Sᵀ = S) (Q : Matrix (MomentIndex m) (b ⊕ g) ℝ) (W : Matrix (MomentIndex m) (MomentIndex m) ℝ) :
    (Spec.variance Q W S)ᵀ = Spec.variance Q W S := by
  unfold Spec.variance
  exact sandwich_symm _ hS

lemma sandwich_eq {p p' k : Type} [Fintype p] [Fintype p'] (e : p' ≃ p) (R : Matrix k p ℝ) (V : Matrix p p ℝ) :
    R.submatrix id e * V.submatrix e e * (R.submatrix id e)ᵀ = R * V * Rᵀ := by
  rw [Matrix.transpose_submatrix, Matrix.submatrix_mul_equiv, Matrix.submatrix_mul_equiv]
  rfl

/-- It is a quadratic form of averages of moments at the truth. -/
lemma wald_form (hlin : ∀ i, Linear (E i) (o i)) (hP : P.Regular law) (hE : ∀ i, Spec.Sampled P (fun t => w t i.2) i.1 (E i) (o i) beta)
    (h : Averages q θ d law P w F) (hW : Spec.StartsWith P law E (fun i => (s i).W) W0) (hw : ∀ i, (E i).wType = wType)
    (hse : ∀ i, (E i).seType = seType)
    (hid : Spec.WeightsIdentify P law method initialUpdate wType W0) (hr : ∀ i, ((E i).solve method initialUpdate (s i)).getLast? = some (r i))
    (hun : seType = .unadjusted → method = .oneStep → (P.covariances law .unadjusted).det ≠ 0 ∧
      ((P.slopes law)ᵀ * (P.covariances law .unadjusted)⁻¹ * P.slopes law).det ≠ 0)
    (hsym : (Spec.lastWeights P law method initialUpdate wType W0)ᵀ = Spec.lastWeights P law method initialUpdate wType W0)
    (hS : (P.covariances law .clustered)ᵀ = P.covariances law .clustered)
    (hvalid : Spec.Valid P law method (Spec.lastWeights P law method initialUpdate wType W0) seType)
    {k : Type} [Fintype k] [DecidableEq k] {f : (b ⊕ g → ℝ) → k → ℝ} {R : (b ⊕ g → ℝ) → Matrix k (b ⊕ g) ℝ} (h0 : f beta = 0)
    (hf : HasFDerivAt f (LinearMap.toContinuousLinearMap (Matrix.toLin' (R beta))) beta) (hR : ContinuousAt R beta)
    (hd : (R beta * Spec.variance (P.slopes law) (Spec.lastWeights P law method initialUpdate wType W0) (P.covariances law .clustered) * (R beta)ᵀ).det ≠ 0)
    (nan : Matrix k k ℝ) (pseudoInverses : Bool) (inv pinv diag : Matrix k k ℝ → Attempt (Matrix k k ℝ)) (hi : InvertsRegular pseudoInverses inv pinv) :
    ∃ K : ℕ × Ω → Matrix (MomentIndex m) (MomentIndex m) ℝ,
      Tendsto K F (𝓝 ((R beta * Spec.gain (P.slopes law) (Spec.lastWeights P law method initialUpdate wType W0))ᵀ *
        (R beta * Spec.variance (P.slopes law) (Spec.lastWeights P law method initialUpdate wType W0) (P.covariances law .clustered) * (R beta)ᵀ)⁻¹ *
        (R beta * Spec.gain (P.slopes law) (Spec.lastWeights P law method initialUpdate wType W0)))) ∧
      ∀ᶠ i in F, ((E i).results (r i)).wald nan pseudoInverses inv pinv diag (f ((E i).linearParameters (r i).start.W (o i)))
        ((R ((E i).linearParameters (r i).start.W (o i))).submatrix id onlyLinear) =
        (N i * (averageMoments P w N i ⬝ᵥ (K i *ᵥ averageMoments P w N i)), false) := by
  have hb : Tendsto (fun i => (E i).linearParameters (r i).start.W (o i)) F (𝓝 beta) :=
    tendsto_pi_nhds.mpr fun l => consistent hlin hP hE h hW hw hid hr l
  have hV := reported_covariances hlin hP hE h hW hw hse hid hr hun
  rw [reportedLimit_valid _ hsym (last_identified hid) hvalid] at hV
  choose A hA he using fun l => estimate_eq hlin hP hE h hW hw hid hr l
  set W := Spec.lastWeights P law method initialUpdate wType W0
  set V := Spec.variance (P.slopes law) W (P.covariances law .clustered) with hVdef
  set x : ℕ × Ω → b ⊕ g → ℝ := fun i => (E i).linearParameters (r i).start.W (o i) with hx
  rw [symmetrized_of_symm _ (by rw [Matrix.transpose_submatrix, hVdef, variance_symm hS])] at hV
  obtain ⟨G, hG, hfG⟩ := exists_secants h0 hf
  set A' : ℕ × Ω → Matrix (b ⊕ g) (MomentIndex m) ℝ := fun i => Matrix.of fun l a => A l i a with hA'
  have hAlim : Tendsto A' F (𝓝 (Spec.gain (P.slopes law) W)) := tendsto_matrix.mpr fun l a => hA l a
  have hRx : Tendsto (fun i => (R (x i)).submatrix id (onlyLinear (θ := θ) (b := b) (g := g))) F (𝓝 ((R beta).submatrix id onlyLinear)) :=
    tendsto_pi_nhds.mpr fun j => tendsto_pi_nhds.mpr fun l => by
      have h1 : Tendsto (fun i => R (x i)) F (𝓝 (R beta)) := hR.tendsto.comp hb
      exact tendsto_pi_nhds.mp (tendsto_pi_nhds.mp h1 j) (onlyLinear l)
  have hM := tendsto_mul (tendsto_mul hRx hV) (tendsto_transpose hRx)
  rw [sandwich_eq] at hM
  have hMi := tendsto_inv hM hd
  have hGA := tendsto_mul (hG.comp hb) hAlim
  refine ⟨_, tendsto_mul (tendsto_mul (tendsto_transpose hGA) hMi) hGA, ?_⟩
  filter_upwards [eventually_det hM hd, eventually_all.mpr he] with i hdi hei
  refine (C66_wald ((E i).results (r i)) nan pseudoInverses inv pinv diag hi (f (x i)) _ (isUnit_iff_ne_zero.mpr hdi)).trans ?_
  have hdev : x i - beta = A' i *ᵥ averageMoments P w N i := by
    funext l
    rw [Pi.sub_apply]
    exact hei l
  have hfx : f (x i) = (G (x i) * A' i) *ᵥ averageMoments P w N i := by
    rw [hfG, hdev, Matrix.mulVec_mulVec]
  have hq : ∀ (Z : Matrix k (MomentIndex m) ℝ) (X : Matrix k k ℝ) (v : MomentIndex m → ℝ), (Z *ᵥ v) ⬝ᵥ (X *ᵥ (Z *ᵥ v)) = v ⬝ᵥ ((Zᵀ * X * Z) *ᵥ v) := fun Z X v => by
    rw [← Matrix.mulVec_mulVec, ← Matrix.mulVec_mulVec, Matrix.mulVec_transpose, dotProduct_comm v, ← Matrix.dotProduct_mulVec, dotProduct_comm]
  refine Prod.ext ?_ rfl
  change (N i : ℝ) * (f (x i) ⬝ᵥ (_ *ᵥ f (x i))) = _
  rw [hfx, hq]
  rfl

end Pyblp.Asymptotic
