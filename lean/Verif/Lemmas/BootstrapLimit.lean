import Mathlib.Analysis.Calculus.FDeriv.Prod
import Mathlib.Analysis.Matrix.PosDef
import Mathlib.Analysis.Real.Pi.Bounds
import Mathlib.Probability.Distributions.Gaussian.Multivariate
import Mathlib.Probability.Distributions.Gaussian.Real
import Mathlib.Topology.Instances.Matrix
import Verif.Spec.Bootstrap

/-!
# Limits of distributions of functions of normal draws with small variances
-/

set_option linter.unusedSectionVars false

open MeasureTheory ProbabilityTheory Filter Topology Matrix

namespace Pyblp.Bootstrapping

open Spec

section

variable {P I : Type} [Fintype P] [DecidableEq P]

/-! ## Normal distribution functions -/

/-- The standard normal distribution function. -/
noncomputable def phi (c : ℝ) : ℝ := (gaussianReal 0 1).real (Set.Iic c)

lemma monotone_phi : Monotone phi := fun _ _ h => measureReal_mono (Set.Iic_subset_Iic.mpr h)

lemma phi_sub {c c' : ℝ} (h : c ≤ c') : phi c' - phi c = (gaussianReal 0 1).real (Set.Ioc c c') := by
  unfold phi
  have : Set.Iic c' = Set.Iic c ∪ Set.Ioc c c' := (Set.Iic_union_Ioc_eq_Iic h).symm
  have hd : Disjoint (Set.Iic c) (Set.Ioc c c') := Set.disjoint_left.mpr fun x hx hy => absurd hy.1 (not_lt.mpr hx)
  rw [this, measureReal_union hd measurableSet_Ioc]
  ring

lemma phi_lipschitz {c c' : ℝ} (h : c ≤ c') : phi c' - phi c ≤ c' - c := by
  rw [phi_sub h, measureReal_def, gaussianReal_apply 0 one_ne_zero]
  have h1 : ∫⁻ x in Set.Ioc c c', gaussianPDF 0 1 x ≤ ∫⁻ _ in Set.Ioc c c', 1 := by
    refine lintegral_mono fun x => ?_
    unfold gaussianPDF
    rw [ENNReal.ofReal_le_one]
    unfold gaussianPDFReal
    have h2 : (√(2 * Real.pi * ((1 : NNReal) : ℝ)))⁻¹ ≤ 1 := by
      refine inv_le_one_of_one_le₀ ?_
      rw [Real.one_le_sqrt]
      have := Real.pi_gt_three
      push_cast
      linarith
    have h3 : Real.exp (-(x - 0) ^ 2 / (2 * ((1 : NNReal) : ℝ))) ≤ 1 := by
      rw [Real.exp_le_one_iff]
      refine div_nonpos_of_nonpos_of_nonneg ?_ (by positivity)
      nlinarith [sq_nonneg (x - 0)]
    exact mul_le_one₀ h2 (Real.exp_pos _).le h3
  refine (ENNReal.toReal_mono (by simp) h1).trans ?_
  simp [sub_nonneg.mpr h]

lemma continuous_phi : Continuous phi := by
  refine Metric.continuous_iff.mpr fun c ε hε => ⟨ε, hε, fun c' hc => ?_⟩
  rw [Real.dist_eq] at hc ⊢
  refine lt_of_le_of_lt ?_ hc
  rcases le_total c c' with h | h
  · rw [abs_of_nonneg (sub_nonneg.mpr (monotone_phi h)), abs_of_nonneg (sub_nonneg.mpr h)]
    exact phi_lipschitz h
  · rw [abs_of_nonpos (sub_nonpos.mpr (monotone_phi h)), abs_of_nonpos (sub_nonpos.mpr h)]
    have := phi_lipschitz h
    linarith

lemma gaussianReal_scale {s : ℝ} (hs : 0 < s) {v : NNReal} (hv : (v : ℝ) = s ^ 2) (B : Set ℝ) :
    gaussianReal 0 v B = gaussianReal 0 1 ((fun x => s * x) ⁻¹' B) := by
  have h1 := gaussianReal_map_const_mul (μ := 0) (v := 1) s
  rw [mul_zero, mul_one] at h1
  have h2 : (⟨s ^ 2, sq_nonneg s⟩ : NNReal) = v := NNReal.eq hv.symm
  have h3 : gaussianReal 0 v = (gaussianReal 0 1).map fun x => s * x := by rw [h1]; congr 1; exact h2.symm
  rw [h3]
  exact (MeasurableEquiv.mulLeft₀ s hs.ne').map_apply B

lemma gaussianReal_Iic {s : ℝ} (hs : 0 < s) {v : NNReal} (hv : (v : ℝ) = s ^ 2) (c : ℝ) : (gaussianReal 0 v).real (Set.Iic c) = phi (c / s) := by
  unfold phi
  rw [measureReal_def, measureReal_def, gaussianReal_scale hs hv]
  congr 2
  ext x
  rw [Set.mem_preimage, Set.mem_Iic, Set.mem_Iic, le_div_iff₀ hs, mul_comm]

/-! ## Linear functions of normal draws -/

lemma map_dot (a : P → ℝ) : (normals P).map (fun z => a ⬝ᵥ z) = gaussianReal 0 (∑ p, a p ^ 2).toNNReal := by
  have h1 : (fun z : P → ℝ => a ⬝ᵥ z) = (fun x : EuclideanSpace ℝ P => inner ℝ (WithLp.toLp 2 a) x) ∘ WithLp.toLp 2 := by
    funext z
    simp only [Function.comp_apply, EuclideanSpace.inner_eq_star_dotProduct, star_trivial, dotProduct_comm]
  rw [h1, ← Measure.map_map (by fun_prop) (by fun_prop), map_pi_eq_stdGaussian]
  have h2 := IsGaussian.map_eq_gaussianReal (μ := stdGaussian (EuclideanSpace ℝ P)) (innerSL ℝ (WithLp.toLp 2 a : EuclideanSpace ℝ P))
  have h3 : (stdGaussian (EuclideanSpace ℝ P)).map (fun x => inner ℝ (WithLp.toLp 2 a) x) =
      (stdGaussian (EuclideanSpace ℝ P)).map (innerSL ℝ (WithLp.toLp 2 a : EuclideanSpace ℝ P)) := rfl
  rw [h3, h2, integral_strongDual_stdGaussian, variance_dual_stdGaussian, innerSL_apply_norm, EuclideanSpace.norm_sq_eq]
  simp

lemma linear_Iic (a : P → ℝ) {s : ℝ} (hs : 0 < s) (ha : ∑ p, a p ^ 2 = s ^ 2) (c : ℝ) : (normals P).real {z | a ⬝ᵥ z ≤ c} = phi (c / s) := by
  rw [← gaussianReal_Iic hs (v := (∑ p, a p ^ 2).toNNReal) (by rw [ha, Real.coe_toNNReal _ (sq_nonneg s)]), ← map_dot, measureReal_def, measureReal_def,
    Measure.map_apply (by fun_prop) measurableSet_Iic]
  rfl

/-- Vectors of draws are rarely large. -/
lemma exists_radius {ε : ℝ} (hε : 0 < ε) : ∃ R : ℝ, 0 < R ∧ (normals P).real {z | ¬‖z‖ ≤ R} < ε := by
  have h1 : Tendsto (fun n : ℕ => (normals P).real {z | ¬‖z‖ ≤ n}) atTop (𝓝 0) := by
    have h2 := tendsto_measure_iInter_atTop (μ := normals P) (s := fun n : ℕ => {z : P → ℝ | ¬‖z‖ ≤ n})
      (fun n => (measurableSet_le measurable_norm measurable_const).compl.nullMeasurableSet)
      (fun n n' h z hz hz' => hz (hz'.trans (by exact_mod_cast h))) ⟨0, measure_ne_top _ _⟩
    have h3 : ⋂ n : ℕ, {z : P → ℝ | ¬‖z‖ ≤ n} = ∅ := by
      ext z
      obtain ⟨n, hn⟩ := exists_nat_ge ‖z‖
      simp only [Set.mem_iInter, Set.mem_empty_iff_false, iff_false, not_forall]
      exact ⟨n, fun h => h hn⟩
    rw [h3, measure_empty] at h2
    exact (ENNReal.tendsto_toReal (by simp)).comp h2
  obtain ⟨n, hn, hn'⟩ := ((h1.eventually (gt_mem_nhds hε)).and (eventually_gt_atTop 0)).exists
  exact ⟨n, by exact_mod_cast hn', hn⟩

/-! ## Nearly linear functions -/

/-- If functions of draws are uniformly close to linear ones on bounded sets, then they have normal distributions in the limit. -/
lemma tendsto_linear {F : Filter I} {Y : I → (P → ℝ) → ℝ} {a : I → P → ℝ} {v : I → ℝ} {v0 : ℝ} (h0 : 0 < v0) (hv : Tendsto v F (𝓝 v0))
    (ha : ∀ᶠ i in F, ∑ p, a i p ^ 2 = v i) (hY : ∀ R ε : ℝ, 0 < R → 0 < ε → ∀ᶠ i in F, ∀ z, ‖z‖ ≤ R → |Y i z - a i ⬝ᵥ z| ≤ ε) (c : ℝ) :
    Tendsto (fun i => (normals P).real {z | Y i z ≤ c}) F (𝓝 (phi (c / √v0))) := by
  have hlin : ∀ c, Tendsto (fun i => (normals P).real {z | a i ⬝ᵥ z ≤ c}) F (𝓝 (phi (c / √v0))) := fun c => by
    have h1 : Tendsto (fun i => phi (c / √(v i))) F (𝓝 (phi (c / √v0))) :=
      (continuous_phi.tendsto _).comp (tendsto_const_nhds.div ((Real.continuous_sqrt.tendsto _).comp hv) (Real.sqrt_pos.mpr h0).ne')
    refine h1.congr' ?_
    filter_upwards [ha, hv.eventually (lt_mem_nhds h0)] with i hi hp
    exact (linear_Iic (a i) (Real.sqrt_pos.mpr hp) (by rw [hi, Real.sq_sqrt hp.le]) c).symm
  rw [Metric.tendsto_nhds]
  intro η hη
  obtain ⟨R, hR, hRη⟩ := exists_radius (P := P) (show (0 : ℝ) < η / 3 by positivity)
  have hcont : Tendsto (fun e : ℝ => phi ((c + e) / √v0)) (𝓝 0) (𝓝 (phi ((c + 0) / √v0))) :=
    (continuous_phi.comp ((continuous_const.add continuous_id).div_const _)).tendsto 0
  rw [add_zero] at hcont
  obtain ⟨ε, hε, hεη⟩ := (Metric.tendsto_nhds_nhds.mp hcont) (η / 3) (by positivity)
  have hup := hεη (x := ε / 2) (by rw [Real.dist_eq, sub_zero, abs_of_pos (by positivity)]; linarith)
  have hdn := hεη (x := -(ε / 2)) (by rw [Real.dist_eq, sub_zero, abs_neg, abs_of_pos (by positivity)]; linarith)
  filter_upwards [hY R (ε / 2) hR (by positivity), (Metric.tendsto_nhds.mp (hlin (c + ε / 2))) (η / 3) (by positivity),
    (Metric.tendsto_nhds.mp (hlin (c + -(ε / 2)))) (η / 3) (by positivity)] with i hi h1 h2
  have hle : (normals P).real {z | Y i z ≤ c} ≤ (normals P).real {z | a i ⬝ᵥ z ≤ c + ε / 2} + (normals P).real {z | ¬‖z‖ ≤ R} := by
    refine (measureReal_mono fun z hz => ?_).trans (measureReal_union_le _ _)
    by_cases hz' : ‖z‖ ≤ R
    · refine Or.inl ?_
      have := abs_le.mp (hi z hz')
      have hz1 : Y i z ≤ c := hz
      change a i ⬝ᵥ z ≤ c + ε / 2
      linarith [this.1]
    · exact Or.inr hz'
  have hge : (normals P).real {z | a i ⬝ᵥ z ≤ c + -(ε / 2)} ≤ (normals P).real {z | Y i z ≤ c} + (normals P).real {z | ¬‖z‖ ≤ R} := by
    refine (measureReal_mono fun z hz => ?_).trans (measureReal_union_le _ _)
    by_cases hz' : ‖z‖ ≤ R
    · refine Or.inl ?_
      have := abs_le.mp (hi z hz')
      have hz1 : a i ⬝ᵥ z ≤ c + -(ε / 2) := hz
      change Y i z ≤ c
      linarith [this.2]
    · exact Or.inr hz'
  rw [Real.dist_eq, abs_lt] at h1 h2 hup hdn ⊢
  constructor <;> linarith [h1.1, h1.2, h2.1, h2.2, hup.1, hup.2, hdn.1, hdn.2]

/-! ## Draws around estimates -/

lemma entry_bound {B : Matrix P P ℝ} {V : Matrix P P ℝ} {n : ℝ} (hn : 0 < n) (hB : Bᵀ * B = n⁻¹ • V) (k p : P) : √n * |B k p| ≤ √(V p p) := by
  have h1 : ∑ l, B l p * B l p = n⁻¹ * V p p := by
    have := congrFun (congrFun hB p) p
    simpa [Matrix.mul_apply] using this
  have h2 : B k p * B k p ≤ n⁻¹ * V p p := by
    rw [← h1]
    exact Finset.single_le_sum (f := fun l => B l p * B l p) (fun l _ => mul_self_nonneg _) (Finset.mem_univ k)
  rw [← Real.sqrt_sq_eq_abs, ← Real.sqrt_mul hn.le]
  refine Real.sqrt_le_sqrt ?_
  calc n * B k p ^ 2 = n * (B k p * B k p) := by ring
    _ ≤ n * (n⁻¹ * V p p) := mul_le_mul_of_nonneg_left h2 hn.le
    _ = V p p := by field_simp

/-- Functions of draws around estimates, and of estimates, are nearly linear. -/
lemma draws_linear {F : Filter I} {n : I → ℝ} (hn : Tendsto n F atTop) {x : I → P → ℝ} {x0 : P → ℝ} (hx : Tendsto x F (𝓝 x0)) {V : I → Matrix P P ℝ}
    {V0 : Matrix P P ℝ} (hV : Tendsto V F (𝓝 V0)) {B : I → Matrix P P ℝ} (hB : ∀ᶠ i in F, (B i)ᵀ * B i = (n i)⁻¹ • V i)
    {f : (P → ℝ) × (P → ℝ) → ℝ} {f' : (P → ℝ) × (P → ℝ) →L[ℝ] ℝ} (hf : HasStrictFDerivAt f f' (x0, x0)) {clip : (P → ℝ) → P → ℝ}
    (hclip : ∀ᶠ y in 𝓝 x0, clip y = y) (R ε : ℝ) (hR : 0 < R) (hε : 0 < ε) :
    ∀ᶠ i in F, ∀ z : P → ℝ, ‖z‖ ≤ R → |√(n i) * (f (clip (x i + z ᵥ* B i), x i) - f (x i, x i)) - f' (√(n i) • (z ᵥ* B i), 0)| ≤ ε := by
  set K : ℝ := R * ∑ p, ∑ _k : P, √(V0 p p + 1) + 1 with hK
  have hsum0 : 0 ≤ ∑ p, ∑ _k : P, √(V0 p p + 1) := Finset.sum_nonneg fun p _ => Finset.sum_nonneg fun k _ => Real.sqrt_nonneg _
  have hK0 : 0 < K := by positivity
  -- draws are close to estimates
  have hnorm : ∀ᶠ i in F, ∀ z : P → ℝ, ‖z‖ ≤ R → √(n i) * ‖z ᵥ* B i‖ ≤ K := by
    have hVp : ∀ᶠ i in F, ∀ p, V i p p ≤ V0 p p + 1 := by
      refine eventually_all.mpr fun p => ?_
      have h1 : Tendsto (fun i => V i p p) F (𝓝 (V0 p p)) := tendsto_pi_nhds.mp (tendsto_pi_nhds.mp hV p) p
      exact (h1.eventually (gt_mem_nhds (by linarith : V0 p p < V0 p p + 1))).mono fun i hi => hi.le
    filter_upwards [hVp, hB, hn.eventually_gt_atTop 0] with i hi hBi hni z hz
    have hs : 0 < √(n i) := Real.sqrt_pos.mpr hni
    rw [← le_div_iff₀' hs, pi_norm_le_iff_of_nonneg (by positivity)]
    intro p
    rw [le_div_iff₀' hs, Real.norm_eq_abs]
    have h1 : |(z ᵥ* B i) p| ≤ ∑ k, R * |B i k p| := by
      refine (Finset.abs_sum_le_sum_abs _ _).trans (Finset.sum_le_sum fun k _ => ?_)
      rw [abs_mul]
      refine mul_le_mul_of_nonneg_right ?_ (abs_nonneg _)
      rw [← Real.norm_eq_abs]
      exact (norm_le_pi_norm z k).trans hz
    calc √(n i) * |(z ᵥ* B i) p| ≤ √(n i) * ∑ k, R * |B i k p| := mul_le_mul_of_nonneg_left h1 hs.le
      _ = R * ∑ k, √(n i) * |B i k p| := by
          rw [Finset.mul_sum, Finset.mul_sum]
          exact Finset.sum_congr rfl fun k _ => by ring
      _ ≤ R * ∑ _k : P, √(V0 p p + 1) := by
          refine mul_le_mul_of_nonneg_left (Finset.sum_le_sum fun k _ => ?_) hR.le
          exact (entry_bound hni hBi k p).trans (Real.sqrt_le_sqrt (hi p))
      _ ≤ R * ∑ p, ∑ _k : P, √(V0 p p + 1) := by
          refine mul_le_mul_of_nonneg_left ?_ hR.le
          exact Finset.single_le_sum (f := fun p => ∑ _k : P, √(V0 p p + 1)) (fun p _ => Finset.sum_nonneg fun k _ => Real.sqrt_nonneg _)
            (Finset.mem_univ p)
      _ ≤ K := by rw [hK]; linarith
  have hsmall : ∀ δ : ℝ, 0 < δ → ∀ᶠ i in F, ∀ z : P → ℝ, ‖z‖ ≤ R → ‖z ᵥ* B i‖ < δ := by
    intro δ hδ
    filter_upwards [hnorm, hn.eventually_gt_atTop ((K / δ) ^ 2)] with i hi hni z hz
    have h1 : K / δ < √(n i) := by
      rw [← Real.sqrt_sq (show 0 ≤ K / δ by positivity)]
      exact Real.sqrt_lt_sqrt (sq_nonneg _) hni
    have h2 := hi z hz
    have hs : 0 < √(n i) := (by positivity : 0 < K / δ).trans h1
    rw [div_lt_iff₀ hδ] at h1
    by_contra hcon
    push Not at hcon
    have := mul_le_mul_of_nonneg_left hcon hs.le
    linarith
  have hd := hf.isLittleO.def (show 0 < ε / K by positivity)
  obtain ⟨δ, hδ, hball⟩ := Metric.eventually_nhds_iff.mp (hd)
  obtain ⟨δ', hδ', hball'⟩ := Metric.eventually_nhds_iff.mp hclip
  have hδ0 : 0 < min δ δ' / 2 := by positivity
  filter_upwards [hnorm, hsmall _ hδ0, (Metric.tendsto_nhds.mp hx) _ hδ0] with i hi hs hxi z hz
  set y := x i + z ᵥ* B i with hy
  have hyd : dist y x0 < min δ δ' := by
    calc dist y x0 ≤ dist y (x i) + dist (x i) x0 := dist_triangle _ _ _
      _ < min δ δ' / 2 + min δ δ' / 2 := by
          refine add_lt_add ?_ hxi
          rw [dist_eq_norm, hy, add_sub_cancel_left]
          exact hs z hz
      _ = _ := by ring
  rw [hball' (hyd.trans_le (min_le_right _ _))]
  have hxd : dist (x i) x0 < δ := hxi.trans_le ((half_le_self (by positivity)).trans (min_le_left _ _))
  have h1 := hball (y := ((y, x i), (x i, x i))) (by
    simp only [Prod.dist_eq, max_lt_iff]
    exact ⟨⟨hyd.trans_le (min_le_left _ _), hxd⟩, hxd, hxd⟩)
  simp only [Prod.mk_sub_mk, sub_self] at h1
  have hyx : y - x i = z ᵥ* B i := by rw [hy, add_sub_cancel_left]
  rw [hyx, Prod.norm_mk, norm_zero, max_eq_left (norm_nonneg _), Real.norm_eq_abs] at h1
  have e : √(n i) * (f (y, x i) - f (x i, x i)) - f' (√(n i) • (z ᵥ* B i), 0) = √(n i) * (f (y, x i) - f (x i, x i) - f' (z ᵥ* B i, 0)) := by
    have : ((√(n i) • (z ᵥ* B i), 0) : (P → ℝ) × (P → ℝ)) = √(n i) • ((z ᵥ* B i, 0) : (P → ℝ) × (P → ℝ)) := by
      rw [Prod.smul_mk, smul_zero]
    rw [this, map_smul, smul_eq_mul]
    ring
  rw [e, abs_mul, abs_of_nonneg (Real.sqrt_nonneg _)]
  calc √(n i) * |f (y, x i) - f (x i, x i) - f' (z ᵥ* B i, 0)| ≤ √(n i) * (ε / K * ‖z ᵥ* B i‖) := mul_le_mul_of_nonneg_left h1 (Real.sqrt_nonneg _)
    _ = ε / K * (√(n i) * ‖z ᵥ* B i‖) := by ring
    _ ≤ ε / K * K := mul_le_mul_of_nonneg_left (hi z hz) (by positivity)
    _ = ε := by field_simp

/-- They have normal distributions in the limit. -/
lemma tendsto_draws {F : Filter I} {n : I → ℝ} (hn : Tendsto n F atTop) {x : I → P → ℝ} {x0 : P → ℝ} (hx : Tendsto x F (𝓝 x0)) {V : I → Matrix P P ℝ}
    {V0 : Matrix P P ℝ} (hV : Tendsto V F (𝓝 V0)) {B : I → Matrix P P ℝ} (hB : ∀ᶠ i in F, (B i)ᵀ * B i = (n i)⁻¹ • V i)
    {f : (P → ℝ) × (P → ℝ) → ℝ} {f' : (P → ℝ) × (P → ℝ) →L[ℝ] ℝ} (hf : HasStrictFDerivAt f f' (x0, x0)) {a : P → ℝ}
    (ha : ∀ h, f' (h, 0) = a ⬝ᵥ h) {clip : (P → ℝ) → P → ℝ} (hclip : ∀ᶠ y in 𝓝 x0, clip y = y) (hpos : 0 < a ⬝ᵥ (V0 *ᵥ a)) (c : ℝ) :
    Tendsto (fun i => (normals P).real {z | √(n i) * (f (clip (x i + z ᵥ* B i), x i) - f (x i, x i)) ≤ c}) F
      (𝓝 (phi (c / √(a ⬝ᵥ (V0 *ᵥ a))))) := by
  refine tendsto_linear (a := fun i => √(n i) • (B i *ᵥ a)) (v := fun i => a ⬝ᵥ (V i *ᵥ a)) hpos ?_ ?_ ?_ c
  · have : Continuous fun V : Matrix P P ℝ => a ⬝ᵥ (V *ᵥ a) := by fun_prop
    exact (this.tendsto _).comp hV
  · filter_upwards [hB, hn.eventually_gt_atTop 0] with i hi hni
    have h1 : ∑ p, (√(n i) • (B i *ᵥ a)) p ^ 2 = n i * ((B i *ᵥ a) ⬝ᵥ (B i *ᵥ a)) := by
      unfold dotProduct
      rw [Finset.mul_sum]
      refine Finset.sum_congr rfl fun p _ => ?_
      rw [Pi.smul_apply, smul_eq_mul, mul_pow, Real.sq_sqrt hni.le]
      ring
    have h2 : (B i *ᵥ a) ⬝ᵥ (B i *ᵥ a) = a ⬝ᵥ (((B i)ᵀ * B i) *ᵥ a) := by
      rw [← Matrix.mulVec_mulVec, Matrix.mulVec_transpose, dotProduct_comm a, ← Matrix.dotProduct_mulVec]
    rw [h1, h2, hi, Matrix.smul_mulVec, dotProduct_smul, smul_eq_mul]
    field_simp
  · intro R ε hR hε
    filter_upwards [draws_linear hn hx hV hB hf hclip R ε hR hε] with i hi z hz
    have h1 := hi z hz
    rw [ha] at h1
    have h2 : a ⬝ᵥ (√(n i) • (z ᵥ* B i)) = (√(n i) • (B i *ᵥ a)) ⬝ᵥ z := by
      rw [dotProduct_smul, smul_dotProduct, dotProduct_comm a, dotProduct_comm _ z, Matrix.dotProduct_mulVec]
    rwa [h2] at h1

/-! ## Positive definite limits -/

/-- Symmetric matrices that converge to a positive definite one are positive definite in the limit. -/
lemma eventually_posDef {F : Filter I} {V : I → Matrix P P ℝ} {V0 : Matrix P P ℝ} (hV : Tendsto V F (𝓝 V0)) (h0 : V0.PosDef)
    (hs : ∀ i, (V i)ᵀ = V i) : ∀ᶠ i in F, (V i).PosDef := by
  -- the smallest value of the quadratic form on the unit sphere
  have hcompact : IsCompact (Metric.sphere (0 : P → ℝ) 1) := isCompact_sphere _ _
  have hc : Continuous fun q : Matrix P P ℝ × (P → ℝ) => q.2 ⬝ᵥ (q.1 *ᵥ q.2) := by fun_prop
  have hev : ∀ᶠ M in 𝓝 V0, ∀ v ∈ Metric.sphere (0 : P → ℝ) 1, 0 < v ⬝ᵥ (M *ᵥ v) := by
    refine hcompact.eventually_forall_of_forall_eventually fun v hv => ?_
    have h1 : 0 < v ⬝ᵥ (V0 *ᵥ v) := by
      have hv0 : v ≠ 0 := by
        rintro rfl
        simp at hv
      have := h0.dotProduct_mulVec_pos hv0
      rwa [star_trivial] at this
    exact (hc.tendsto (V0, v)).eventually (lt_mem_nhds h1)
  filter_upwards [hV.eventually hev] with i hi
  refine Matrix.PosDef.of_dotProduct_mulVec_pos ?_ fun v hv => ?_
  · rw [Matrix.IsHermitian, Matrix.conjTranspose_eq_transpose_of_trivial, hs]
  · rw [star_trivial]
    have hn : 0 < ‖v‖ := norm_pos_iff.mpr hv
    have h1 := hi (‖v‖⁻¹ • v) (by rw [mem_sphere_zero_iff_norm, norm_smul, norm_inv, norm_norm, inv_mul_cancel₀ hn.ne'])
    rw [Matrix.mulVec_smul, smul_dotProduct, dotProduct_smul, smul_eq_mul, smul_eq_mul] at h1
    have hi' : 0 < ‖v‖⁻¹ := inv_pos.mpr hn
    exact (mul_pos_iff_of_pos_left hi').mp ((mul_pos_iff_of_pos_left hi').mp h1)

end

end Pyblp.Bootstrapping
