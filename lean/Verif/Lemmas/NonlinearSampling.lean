import Verif.Spec.NonlinearSample
import Verif.Lemmas.ClusterSampling
import Verif.Lemmas.UniformLaw

/-!
# Averages over samples of clusters at parameters that depend on samples
-/

set_option linter.unusedSectionVars false

open MeasureTheory ProbabilityTheory Filter Topology

namespace Pyblp.Asymptotic

open Pyblp.Sampling

section Terms

variable {C : Type} {nd ns : ℕ} {m : Fin nd ⊕ Fin ns → Type} {q b g θ d : Type} [Fintype b] [Fintype g] [MeasurableSpace C] {law : Measure C}
  {M : Spec.Models C m (b ⊕ g) θ} {Θ : Set (θ → ℝ)} {theta0 : θ → ℝ} {beta0 : b ⊕ g → ℝ}

/-- Clusters with errors that are larger than those at all parameters. -/
def boundClusters (M : Spec.Models C m (b ⊕ g) θ) (beta0 : b ⊕ g → ℝ) (bound : C → Fin nd ⊕ Fin ns → ℕ → ℝ) : Spec.Clusters C m (b ⊕ g) where
  size := M.size
  regressor := M.regressor
  instrument := M.instrument
  error x e j := bound x e j + ∑ l, |M.regressor x e j l| * |beta0 l|

lemma boundClusters_bounded (hM : M.Regular law Θ theta0 beta0) : ∃ bound : C → Fin nd ⊕ Fin ns → ℕ → ℝ,
    (boundClusters M beta0 bound).Bounded law ∧ ∀ theta ∈ Θ, ∀ x e j, |(M.at theta beta0).error x e j| ≤ (boundClusters M beta0 bound).error x e j := by
  obtain ⟨bound, hbm, hb, h1, h2⟩ := hM.bounded
  have ht := hM.truth.toBounded
  have hb0 : ∀ x e j, 0 ≤ bound x e j := fun x e j => (abs_nonneg _).trans (hb theta0 hM.inside x e j)
  have he0 : ∀ x e j, 0 ≤ (boundClusters M beta0 bound).error x e j := fun x e j =>
    add_nonneg (hb0 x e j) (Finset.sum_nonneg fun l _ => mul_nonneg (abs_nonneg _) (abs_nonneg _))
  refine ⟨bound, ⟨ht.measurable_size, ht.measurable_regressor, ht.measurable_instrument, fun e j => ?_, ht.size, ht.regressor, ht.instrument, fun e => ?_,
    fun e a => ?_, ht.slope, ht.nonempty⟩, fun theta hθ x e j => ?_⟩
  · exact (hbm e j).add (Finset.measurable_sum _ fun l _ => (continuous_abs.measurable.comp (ht.measurable_regressor e j l)).mul_const _)
  · have h3 : MemLp (fun x => (∑ j ∈ Finset.range (M.size x), bound x e j) +
        ∑ l, |beta0 l| * (∑ j ∈ Finset.range (M.size x), |M.regressor x e j l|)) 2 law :=
      (h1 e).add (memLp_finsetSum _ fun l _ => (ht.regressor e l).const_mul |beta0 l|)
    refine (congrArg (fun f : C → ℝ => MemLp f 2 law) (funext fun x => ?_)).mpr h3
    simp only [Spec.Clusters.total, abs_of_nonneg (he0 _ _ _)]
    simp only [boundClusters, Finset.sum_add_distrib, Finset.mul_sum]
    congr 1
    rw [Finset.sum_comm]
    exact Finset.sum_congr rfl fun l _ => Finset.sum_congr rfl fun j _ => mul_comm _ _
  · have h3 : MemLp (fun x => (∑ j ∈ Finset.range (M.size x), bound x e j * |M.instrument x e j a|) +
        ∑ l, |beta0 l| * (∑ j ∈ Finset.range (M.size x), |M.regressor x e j l * M.instrument x e j a|)) 2 law :=
      (h2 e a).add (memLp_finsetSum _ fun l _ => (ht.slope e a l).const_mul |beta0 l|)
    refine (congrArg (fun f : C → ℝ => MemLp f 2 law) (funext fun x => ?_)).mpr h3
    simp only [Spec.Clusters.total, abs_mul, abs_of_nonneg (he0 _ _ _)]
    simp only [boundClusters, add_mul, Finset.sum_add_distrib, Finset.mul_sum, Finset.sum_mul]
    congr 1
    rw [Finset.sum_comm]
    exact Finset.sum_congr rfl fun l _ => Finset.sum_congr rfl fun j _ => by ring
  · change |M.outcome theta x e j - ∑ l, M.regressor x e j l * beta0 l| ≤ _
    refine (abs_sub _ _).trans (add_le_add (hb theta hθ x e j) ((Finset.abs_sum_le_sum_abs _ _).trans (Finset.sum_le_sum fun l _ => ?_)))
    rw [abs_mul]

lemma value_bound {P Pb : Spec.Clusters C m (b ⊕ g)} (hr : P.regressor = Pb.regressor) (hi : P.instrument = Pb.instrument) {x : C}
    (h : ∀ e j, |P.error x e j| ≤ Pb.error x e j) (v : Term ((MomentIndex m ⊕ q) ⊕ d) (Empty ⊕ b ⊕ g)) (j : ℕ) :
    |(clusterRows q Empty d P x).value v j| ≤ |(clusterRows q Empty d Pb x).value v j| := by
  have he : ∀ a, |(clusterRows q Empty d P x).error a j| ≤ |(clusterRows q Empty d Pb x).error a j| := by
    rintro ((a | a) | a)
    · exact (h a.1 j).trans (le_abs_self _)
    · exact le_rfl
    · exact le_rfl
  have hii : ∀ a, (clusterRows q Empty d P x).instrument a j = (clusterRows q Empty d Pb x).instrument a j := by
    rintro ((a | a) | a)
    · simp only [clusterRows, hi]
    · rfl
    · rfl
  have hrr : ∀ a l, (clusterRows q Empty d P x).regressor a l j = (clusterRows q Empty d Pb x).regressor a l j := by
    rintro ((a | a) | a) (l | l)
    · rfl
    · simp only [clusterRows, hr]
    all_goals rfl
  cases v with
  | one => exact le_rfl
  | error a => exact he a
  | regressor a l => exact (congrArg abs (hrr a l)).le
  | instrument a => exact (congrArg abs (hii a)).le
  | moment a =>
    simp only [Rows.value, abs_mul, hii]
    exact mul_le_mul_of_nonneg_right (he a) (abs_nonneg _)
  | slope a l => simp only [Rows.value, hii, hrr]; exact le_rfl

/-- There are finite second moments at all parameters. -/
lemma at_bounded (hM : M.Regular law Θ theta0 beta0) {theta : θ → ℝ} (hθ : theta ∈ Θ) : (M.at theta beta0).Bounded law := by
  obtain ⟨bound, hb, hle⟩ := boundClusters_bounded hM
  have ht := hM.truth.toBounded
  have hme : ∀ e j, Measurable fun x => (M.at theta beta0).error x e j := fun e j =>
    (hM.measurable theta hθ e j).sub (Finset.measurable_sum _ fun l _ => (ht.measurable_regressor e j l).mul_const _)
  refine ⟨ht.measurable_size, ht.measurable_regressor, ht.measurable_instrument, hme, ht.size, ht.regressor, ht.instrument, fun e => ?_,
    fun e a => ?_, ht.slope, ht.nonempty⟩
  · refine (hb.error e).mono (measurable_total (P := M.at theta beta0) ht.measurable_size fun j =>
      continuous_abs.measurable.comp (hme e j)).aestronglyMeasurable (Eventually.of_forall fun x => ?_)
    rw [Real.norm_eq_abs, Real.norm_eq_abs, abs_of_nonneg (total_abs_nonneg x _), abs_of_nonneg (total_abs_nonneg x _)]
    exact Finset.sum_le_sum fun j _ => (hle theta hθ x e j).trans (le_abs_self _)
  · refine (hb.moment e a).mono (measurable_total (P := M.at theta beta0) (f := fun x j => |(M.at theta beta0).error x e j * (M.at theta beta0).instrument x e j a|)
      ht.measurable_size fun j => continuous_abs.measurable.comp ((hme e j).mul (ht.measurable_instrument e j a))).aestronglyMeasurable
      (Eventually.of_forall fun x => ?_)
    rw [Real.norm_eq_abs, Real.norm_eq_abs, abs_of_nonneg (total_abs_nonneg x _), abs_of_nonneg (total_abs_nonneg x _)]
    refine Finset.sum_le_sum fun j _ => ?_
    rw [abs_mul, abs_mul]
    exact mul_le_mul_of_nonneg_right ((hle theta hθ x e j).trans (le_abs_self _)) (abs_nonneg _)

lemma continuous_value (hM : M.Regular law Θ theta0 beta0) (x : C) (v : Term ((MomentIndex m ⊕ q) ⊕ d) (Empty ⊕ b ⊕ g)) (j : ℕ) :
    Continuous fun theta : Θ => (clusterRows q Empty d (M.at theta beta0) x).value v j := by
  have he : ∀ a, Continuous fun theta : Θ => (clusterRows q Empty d (M.at theta beta0) x).error a j := by
    rintro ((a | a) | a)
    · exact (continuousOn_iff_continuous_domRestrict.mp (hM.continuous x a.1 j)).sub continuous_const
    · exact continuous_const
    · exact continuous_const
  have hi : ∀ a, Continuous fun theta : Θ => (clusterRows q Empty d (M.at theta beta0) x).instrument a j := by
    rintro ((a | a) | a) <;> exact continuous_const
  have hr : ∀ a l, Continuous fun theta : Θ => (clusterRows q Empty d (M.at theta beta0) x).regressor a l j := by
    rintro ((a | a) | a) (l | l) <;> exact continuous_const
  cases v with
  | one => exact continuous_const
  | error a => exact he a
  | regressor a l => exact hr a l
  | instrument a => exact hi a
  | moment a => exact (he a).mul (hi a)
  | slope a l => exact (hr a l).mul (hi a)

/-- Sums of products of values of terms as functions of parameters. -/
def productFunction (hM : M.Regular law Θ theta0 beta0) (v v' : Term ((MomentIndex m ⊕ q) ⊕ d) (Empty ⊕ b ⊕ g)) (x : C) : C(Θ, ℝ) where
  toFun theta := clusterProduct (M.at theta beta0) v v' x
  continuous_toFun := continuous_finsetSum (Finset.range (M.size x)) fun j _ => (continuous_value hM x v j).mul (continuous_value hM x v' j)

/-- Products of sums of values of terms as functions of parameters. -/
def totalFunction (hM : M.Regular law Θ theta0 beta0) (v v' : Term ((MomentIndex m ⊕ q) ⊕ d) (Empty ⊕ b ⊕ g)) (x : C) : C(Θ, ℝ) where
  toFun theta := clusterTotal (M.at theta beta0) v x * clusterTotal (M.at theta beta0) v' x
  continuous_toFun := (continuous_finsetSum (Finset.range (M.size x)) fun j _ => continuous_value hM x v j).mul
    (continuous_finsetSum (Finset.range (M.size x)) fun j _ => continuous_value hM x v' j)

lemma functions_bound (hM : M.Regular law Θ theta0 beta0) (v v' : Term ((MomentIndex m ⊕ q) ⊕ d) (Empty ⊕ b ⊕ g)) : ∃ B : C → ℝ, Integrable B law ∧
    (∀ x (theta : Θ), |productFunction hM v v' x theta| ≤ B x) ∧ ∀ x (theta : Θ), |totalFunction hM v v' x theta| ≤ B x := by
  obtain ⟨bound, hb, hle⟩ := boundClusters_bounded hM
  set Pb := boundClusters M beta0 bound with hPb
  have hsum : ∀ (theta : Θ) x u, ((M.at theta beta0).total x fun j => |(clusterRows q Empty d (M.at theta beta0) x).value u j|) ≤
      Pb.total x fun j => |(clusterRows q Empty d Pb x).value u j| := fun theta x u =>
    Finset.sum_le_sum fun j _ => value_bound (P := M.at theta beta0) (Pb := Pb) rfl rfl (fun e j => hle theta theta.2 x e j) u j
  refine ⟨_, (memLp_abs hb v).integrable_mul (memLp_abs hb v'), fun x theta => ?_, fun x theta => ?_⟩
  · rw [Pi.mul_apply]
    refine le_trans ?_ (mul_le_mul (hsum theta x v) (hsum theta x v') (total_abs_nonneg x _) (total_abs_nonneg x _))
    refine (abs_total_le x _).trans ?_
    unfold Spec.Clusters.total
    rw [Finset.sum_mul_sum]
    refine Finset.sum_le_sum fun j hj => ?_
    rw [abs_mul]
    exact Finset.single_le_sum (f := fun j' => |(clusterRows q Empty d (M.at theta beta0) x).value v j| * |(clusterRows q Empty d (M.at theta beta0) x).value v' j'|)
      (fun _ _ => mul_nonneg (abs_nonneg _) (abs_nonneg _)) hj
  · rw [Pi.mul_apply]
    refine le_trans ?_ (mul_le_mul (hsum theta x v) (hsum theta x v') (total_abs_nonneg x _) (total_abs_nonneg x _))
    change |clusterTotal (M.at theta beta0) v x * clusterTotal (M.at theta beta0) v' x| ≤ _
    rw [abs_mul]
    exact mul_le_mul (abs_total_le x _) (abs_total_le x _) (abs_nonneg _) (total_abs_nonneg x _)

end Terms

section Samples

variable {C Ω : Type} {nd ns : ℕ} {m : Fin nd ⊕ Fin ns → Type} {q b g θ d ι D : Type} [∀ e, Fintype (m e)] [Fintype q] [Fintype b] [Fintype g]
  [Fintype θ] [Fintype d] [LinearOrder ι] [MeasurableSpace C] {law : Measure C}
  {M : Spec.Models C m (b ⊕ g) θ} {Θ : Set (θ → ℝ)} {theta0 : θ → ℝ} {beta0 : b ⊕ g → ℝ} {w : ℕ → Ω → C} {F G : Filter (ℕ × Ω)}

/-- Averages over clusters converge at parameters that converge. -/
structure UniformAverages (q d : Type) (law : Measure C) (M : Spec.Models C m (b ⊕ g) θ) (Θ : Set (θ → ℝ)) (beta0 : b ⊕ g → ℝ) (w : ℕ → Ω → C)
    (F : Filter (ℕ × Ω)) : Prop where
  products : ∀ v v' : Term ((MomentIndex m ⊕ q) ⊕ d) (Empty ⊕ b ⊕ g), ∀ G ≤ F, ∀ (k : ℕ × Ω → Θ) (k0 : Θ), Tendsto k G (𝓝 k0) →
    Tendsto (fun i : ℕ × Ω => (∑ t ∈ Finset.range i.1, clusterProduct (M.at (k i) beta0) v v' (w t i.2)) / i.1) G
      (𝓝 (∫ x, clusterProduct (M.at k0 beta0) v v' x ∂law))
  totals : ∀ v v' : Term ((MomentIndex m ⊕ q) ⊕ d) (Empty ⊕ b ⊕ g), ∀ G ≤ F, ∀ (k : ℕ × Ω → Θ) (k0 : Θ), Tendsto k G (𝓝 k0) →
    Tendsto (fun i : ℕ × Ω => (∑ t ∈ Finset.range i.1, clusterTotal (M.at (k i) beta0) v (w t i.2) * clusterTotal (M.at (k i) beta0) v' (w t i.2)) / i.1) G
      (𝓝 (∫ x, clusterTotal (M.at k0 beta0) v x * clusterTotal (M.at k0 beta0) v' x ∂law))
  size : Tendsto (fun i : ℕ × Ω => (∑ t ∈ Finset.range i.1, (M.size (w t i.2) : ℝ)) / i.1) F (𝓝 (∫ x, (M.size x : ℝ) ∂law))

variable {N : ℕ × Ω → ℕ} {E : ∀ i, Estimation (N i) nd ns m q b g Empty d ι D} {o : ∀ i, Evaluated (N i) Empty d}

lemma UniformAverages.limits (h : UniformAverages q d law M Θ beta0 w F) (hM : M.Regular law Θ theta0 beta0) (hG : G ≤ F) {k : ℕ × Ω → Θ} {k0 : Θ}
    (hk : Tendsto k G (𝓝 k0)) (hE : ∀ i, Spec.Sampled (M.at (k i) beta0) (fun t => w t i.2) i.1 (E i) (o i) beta0) :
    Limits G (fun i => linearRows (E i) (o i) beta0) (fun i => (E i).ids) (rowLimit (M.at k0 beta0) law) (clusterLimit (M.at k0 beta0) law) where
  averages v v' := by
    simp only [fun i => sampled_averages (hE i) v v']
    exact tendsto_ratio (h.products v v' G hG k k0 hk) (h.size.mono_left hG) hM.truth.nonempty.ne'
  clusters v v' := by
    simp only [fun i => sampled_clusters (hE i) v v']
    exact tendsto_ratio (h.totals v v' G hG k k0 hk) (h.size.mono_left hG) hM.truth.nonempty.ne'

lemma UniformAverages.rows (h : UniformAverages q d law M Θ beta0 w F) {k : ℕ × Ω → Θ}
    (hE : ∀ i, Spec.Sampled (M.at (k i) beta0) (fun t => w t i.2) i.1 (E i) (o i) beta0) :
    Tendsto (fun i => (N i : ℝ) / i.1) F (𝓝 (∫ x, (M.size x : ℝ) ∂law)) := by
  simp only [fun i => sampled_size (hE i)]
  exact h.size

lemma UniformAverages.positive (h : UniformAverages q d law M Θ beta0 w F) (hM : M.Regular law Θ theta0 beta0) {k : ℕ × Ω → Θ}
    (hE : ∀ i, Spec.Sampled (M.at (k i) beta0) (fun t => w t i.2) i.1 (E i) (o i) beta0) : ∀ᶠ i in F, 0 < N i := by
  filter_upwards [(h.rows hE).eventually_ne hM.truth.nonempty.ne'] with i hi
  refine Nat.pos_of_ne_zero fun h0 => hi ?_
  rw [h0, Nat.cast_zero, zero_div]

variable [MeasurableSpace Ω] {μ : Measure Ω}

lemma productFunction_measurable (hM : M.Regular law Θ theta0 beta0) (v v' : Term ((MomentIndex m ⊕ q) ⊕ d) (Empty ⊕ b ⊕ g)) (k : Θ) :
    Measurable fun x => productFunction hM v v' x k := measurable_clusterProduct (at_bounded hM k.2) v v'

lemma totalFunction_measurable (hM : M.Regular law Θ theta0 beta0) (v v' : Term ((MomentIndex m ⊕ q) ⊕ d) (Empty ⊕ b ⊕ g)) (k : Θ) :
    Measurable fun x => totalFunction hM v v' x k :=
  (measurable_clusterTotal (at_bounded hM k.2) v).mul (measurable_clusterTotal (at_bounded hM k.2) v')

lemma size_integrable (hM : M.Regular law Θ theta0 beta0) : Integrable (fun x => (M.size x : ℝ)) law := by
  have := integrable_clusterProduct (q := Empty) (θ := Empty) (d := Empty) hM.truth.toBounded .one .one
  refine this.congr (Eventually.of_forall fun x => ?_)
  simp [clusterProduct, Spec.Clusters.total, Rows.value, Spec.Models.at]

lemma uniformAverages_of [CompactSpace Θ] (hM : M.Regular law Θ theta0 beta0)
    (h1 : ∀ v v' : Term ((MomentIndex m ⊕ q) ⊕ d) (Empty ⊕ b ⊕ g), Uniformly law (productFunction hM v v') w F)
    (h2 : ∀ v v' : Term ((MomentIndex m ⊕ q) ⊕ d) (Empty ⊕ b ⊕ g), Uniformly law (totalFunction hM v v') w F)
    (h3 : Tendsto (fun i : ℕ × Ω => (∑ t ∈ Finset.range i.1, (M.size (w t i.2) : ℝ)) / i.1) F (𝓝 (∫ x, (M.size x : ℝ) ∂law))) :
    UniformAverages q d law M Θ beta0 w F := by
  refine ⟨fun v v' G hG k k0 hk => ?_, fun v v' G hG k k0 hk => ?_, h3⟩
  · obtain ⟨B, hB, hb, -⟩ := functions_bound hM v v'
    exact ((h1 v v').mono hG).at (productFunction_measurable hM v v') hB hb hk
  · obtain ⟨B, hB, -, hb⟩ := functions_bound hM v v'
    exact ((h2 v v').mono hG).at (totalFunction_measurable hM v v') hB hb hk

/-- With probability one, averages converge. -/
lemma uniformAverages_ae (hΘ : IsCompact Θ) (hM : M.Regular law Θ theta0 beta0) (hw : Draws μ law w) :
    ∀ᵐ ω ∂μ, UniformAverages q d law M Θ beta0 w (map (fun T => (T, ω)) atTop) := by
  have : CompactSpace Θ := isCompact_iff_compactSpace.mp hΘ
  have h1 : ∀ᵐ ω ∂μ, ∀ v v' : Term ((MomentIndex m ⊕ q) ⊕ d) (Empty ⊕ b ⊕ g), Uniformly law (productFunction hM v v') w (map (fun T => (T, ω)) atTop) := by
    rw [ae_all_iff]
    intro v
    rw [ae_all_iff]
    intro v'
    obtain ⟨B, hB, hb, -⟩ := functions_bound hM v v'
    exact uniformly_ae hw (productFunction_measurable hM v v') hB hb
  have h2 : ∀ᵐ ω ∂μ, ∀ v v' : Term ((MomentIndex m ⊕ q) ⊕ d) (Empty ⊕ b ⊕ g), Uniformly law (totalFunction hM v v') w (map (fun T => (T, ω)) atTop) := by
    rw [ae_all_iff]
    intro v
    rw [ae_all_iff]
    intro v'
    obtain ⟨B, hB, -, hb⟩ := functions_bound hM v v'
    exact uniformly_ae hw (totalFunction_measurable hM v v') hB hb
  filter_upwards [h1, h2, hw.strong_law (fun x => (M.size x : ℝ)) (measurable_from_nat.comp hM.truth.measurable_size) (size_integrable hM)]
    with ω e1 e2 e3
  exact uniformAverages_of hM e1 e2 (tendsto_map'_iff.mpr e3)

/-- Averages converge in probability. -/
lemma uniformAverages_probably [IsProbabilityMeasure μ] (hΘ : IsCompact Θ) (hM : M.Regular law Θ theta0 beta0) (hw : Draws μ law w) :
    UniformAverages q d law M Θ beta0 w (probably μ) := by
  have : CompactSpace Θ := isCompact_iff_compactSpace.mp hΘ
  refine uniformAverages_of hM (fun v v' => ?_) (fun v v' => ?_) ?_
  · obtain ⟨B, hB, hb, -⟩ := functions_bound hM v v'
    exact uniformly_probably hw (productFunction_measurable hM v v') hB hb
  · obtain ⟨B, hB, -, hb⟩ := functions_bound hM v v'
    exact uniformly_probably hw (totalFunction_measurable hM v v') hB hb
  · refine tendsto_probably_of_ae (f := fun T ω => (∑ t ∈ Finset.range T, (M.size (w t ω) : ℝ)) / T) (fun T =>
      ((Finset.measurable_sum _ fun t _ => (measurable_from_nat.comp hM.truth.measurable_size).comp (hw.measurable t)).div_const _).aestronglyMeasurable) ?_
    exact hw.strong_law (fun x => (M.size x : ℝ)) (measurable_from_nat.comp hM.truth.measurable_size) (size_integrable hM)

end Samples

end Pyblp.Asymptotic
