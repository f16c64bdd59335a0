import Verif.Spec.LargeSample
import Verif.Lemmas.InProbability
import Verif.Lemmas.Sampling

/-!
# Averages over samples of clusters
-/

set_option linter.unusedSectionVars false

open MeasureTheory ProbabilityTheory Filter Topology

namespace Pyblp.Asymptotic

open Pyblp.Sampling

/-! ## Terms of clusters -/

section Clusters

variable {C : Type} {nd ns : ℕ} {m : Fin nd ⊕ Fin ns → Type} {q b g θ d : Type}

instance {c p : Type} [Countable c] [Countable p] : Countable (Term c p) := by
  refine Function.Injective.countable (f := fun v : Term c p => match v with
    | .one => (Sum.inl () : Unit ⊕ c ⊕ (c × p) ⊕ c ⊕ c ⊕ (c × p))
    | .error a => .inr (.inl a)
    | .regressor a l => .inr (.inr (.inl (a, l)))
    | .instrument a => .inr (.inr (.inr (.inl a)))
    | .moment a => .inr (.inr (.inr (.inr (.inl a))))
    | .slope a l => .inr (.inr (.inr (.inr (.inr (a, l)))))) ?_
  intro v v' h
  cases v <;> cases v' <;> simp_all

variable (P : Spec.Clusters C m (b ⊕ g)) (q θ d)

/-- Rows of a cluster. -/
def clusterRows (x : C) : Rows ℕ ((MomentIndex m ⊕ q) ⊕ d) (θ ⊕ b ⊕ g) where
  error
    | .inl (.inl c), j => P.error x c.1 j
    | _, _ => 0
  regressor
    | .inl (.inl c), .inr l, j => P.regressor x c.1 j l
    | _, _, _ => 0
  instrument
    | .inl (.inl c), j => P.instrument x c.1 j c.2
    | _, _ => 0

variable {q θ d}

/-- Sums of values of a term. -/
def clusterTotal (v : Term ((MomentIndex m ⊕ q) ⊕ d) (θ ⊕ b ⊕ g)) (x : C) : ℝ := P.total x ((clusterRows q θ d P x).value v)

/-- Sums of products of values of two terms. -/
def clusterProduct (v v' : Term ((MomentIndex m ⊕ q) ⊕ d) (θ ⊕ b ⊕ g)) (x : C) : ℝ :=
  P.total x fun j => (clusterRows q θ d P x).value v j * (clusterRows q θ d P x).value v' j

variable [MeasurableSpace C] {law : Measure C} {P}

lemma measurable_total (h : Measurable P.size) {f : C → ℕ → ℝ} (hf : ∀ j, Measurable fun x => f x j) : Measurable fun x => P.total x (f x) := by
  have h1 : Measurable fun p : C × ℕ => ∑ j ∈ Finset.range p.2, f p.1 j :=
    measurable_from_prod_countable_left fun n => Finset.measurable_sum (Finset.range n) fun j _ => hf j
  exact h1.comp (measurable_id.prodMk h)

lemma measurable_value (h : P.Bounded law) (v : Term ((MomentIndex m ⊕ q) ⊕ d) (θ ⊕ b ⊕ g)) (j : ℕ) :
    Measurable fun x => (clusterRows q θ d P x).value v j := by
  have he : ∀ a, Measurable fun x => (clusterRows q θ d P x).error a j := by
    rintro ((a | a) | a)
    · exact h.measurable_error a.1 j
    · exact measurable_const
    · exact measurable_const
  have hi : ∀ a, Measurable fun x => (clusterRows q θ d P x).instrument a j := by
    rintro ((a | a) | a)
    · exact h.measurable_instrument a.1 j a.2
    · exact measurable_const
    · exact measurable_const
  have hr : ∀ a l, Measurable fun x => (clusterRows q θ d P x).regressor a l j := by
    rintro ((a | a) | a) (l | l)
    · exact measurable_const
    · exact h.measurable_regressor a.1 j l
    all_goals exact measurable_const
  cases v with
  | one => exact measurable_const
  | error a => exact he a
  | regressor a l => exact hr a l
  | instrument a => exact hi a
  | moment a => exact (he a).mul (hi a)
  | slope a l => exact (hr a l).mul (hi a)

lemma measurable_clusterTotal (h : P.Bounded law) (v : Term ((MomentIndex m ⊕ q) ⊕ d) (θ ⊕ b ⊕ g)) : Measurable (clusterTotal P v) :=
  measurable_total h.measurable_size (measurable_value h v)

lemma measurable_clusterProduct (h : P.Bounded law) (v v' : Term ((MomentIndex m ⊕ q) ⊕ d) (θ ⊕ b ⊕ g)) : Measurable (clusterProduct P v v') :=
  measurable_total h.measurable_size fun j => (measurable_value h v j).mul (measurable_value h v' j)

lemma total_zero (x : C) : (P.total x fun _ => |(0 : ℝ)|) = 0 := by simp [Spec.Clusters.total]

lemma memLp_abs (h : P.Bounded law) (v : Term ((MomentIndex m ⊕ q) ⊕ d) (θ ⊕ b ⊕ g)) :
    MemLp (fun x => P.total x fun j => |(clusterRows q θ d P x).value v j|) 2 law := by
  have hz : MemLp (fun x => P.total x fun _ => |(0 : ℝ)|) 2 law := by
    simp only [total_zero]
    exact MemLp.zero
  have hz1 : MemLp (fun x => P.total x fun _ => |(0 * 0 : ℝ)|) 2 law := by
    simp only [mul_zero]
    exact hz
  cases v with
  | one =>
    have : (fun x => P.total x fun j => |(clusterRows q θ d P x).value .one j|) = fun x => (P.size x : ℝ) := by
      funext x
      simp [Spec.Clusters.total, Rows.value]
    rw [this]
    exact h.size
  | error a =>
    rcases a with (a | a) | a
    · exact h.error a.1
    · exact hz
    · exact hz
  | regressor a l =>
    rcases a with (a | a) | a
    · rcases l with l | l
      · exact hz
      · exact h.regressor a.1 l
    · exact hz
    · exact hz
  | instrument a =>
    rcases a with (a | a) | a
    · exact h.instrument a.1 a.2
    · exact hz
    · exact hz
  | moment a =>
    rcases a with (a | a) | a
    · exact h.moment a.1 a.2
    · exact hz1
    · exact hz1
  | slope a l =>
    rcases a with (a | a) | a
    · rcases l with l | l
      · have : (fun x => P.total x fun j => |(clusterRows q θ d P x).value (.slope (.inl (.inl a)) (.inl l)) j|) = fun x => P.total x fun _ => |(0 : ℝ)| := by
          funext x
          simp [Spec.Clusters.total, Rows.value, clusterRows]
        rw [this]
        exact hz
      · exact h.slope a.1 a.2 l
    · exact hz1
    · exact hz1

lemma abs_total_le (x : C) (f : ℕ → ℝ) : |P.total x f| ≤ P.total x fun j => |f j| := Finset.abs_sum_le_sum_abs _ _

lemma total_abs_nonneg (x : C) (f : ℕ → ℝ) : 0 ≤ P.total x fun j => |f j| := Finset.sum_nonneg fun _ _ => abs_nonneg _

lemma memLp_clusterTotal (h : P.Bounded law) (v : Term ((MomentIndex m ⊕ q) ⊕ d) (θ ⊕ b ⊕ g)) : MemLp (clusterTotal P v) 2 law :=
  (memLp_abs h v).mono (measurable_clusterTotal h v).aestronglyMeasurable (Eventually.of_forall fun x => by
    rw [Real.norm_eq_abs, Real.norm_eq_abs, abs_of_nonneg (total_abs_nonneg x _)]
    exact abs_total_le x _)

lemma integrable_totals (h : P.Bounded law) (v v' : Term ((MomentIndex m ⊕ q) ⊕ d) (θ ⊕ b ⊕ g)) :
    Integrable (fun x => clusterTotal P v x * clusterTotal P v' x) law := (memLp_clusterTotal h v).integrable_mul (memLp_clusterTotal h v')

lemma integrable_clusterProduct (h : P.Bounded law) (v v' : Term ((MomentIndex m ⊕ q) ⊕ d) (θ ⊕ b ⊕ g)) : Integrable (clusterProduct P v v') law := by
  refine ((memLp_abs h v).integrable_mul (memLp_abs h v')).mono (measurable_clusterProduct h v v').aestronglyMeasurable (Eventually.of_forall fun x => ?_)
  rw [Real.norm_eq_abs, Real.norm_eq_abs, Pi.mul_apply, abs_of_nonneg (mul_nonneg (total_abs_nonneg x _) (total_abs_nonneg x _))]
  refine (abs_total_le x _).trans ?_
  unfold Spec.Clusters.total
  rw [Finset.sum_mul_sum]
  refine Finset.sum_le_sum fun j hj => ?_
  rw [abs_mul]
  exact Finset.single_le_sum (f := fun j' => |(clusterRows q θ d P x).value v j| * |(clusterRows q θ d P x).value v' j'|)
    (fun _ _ => mul_nonneg (abs_nonneg _) (abs_nonneg _)) hj

variable (P law)

/-- Limits of averages of products. -/
noncomputable def rowLimit (v v' : Term ((MomentIndex m ⊕ q) ⊕ d) (θ ⊕ b ⊕ g)) : ℝ := (∫ x, clusterProduct P v v' x ∂law) / ∫ x, (P.size x : ℝ) ∂law

/-- Limits of averages of products of sums. -/
noncomputable def clusterLimit (v v' : Term ((MomentIndex m ⊕ q) ⊕ d) (θ ⊕ b ⊕ g)) : ℝ :=
  (∫ x, clusterTotal P v x * clusterTotal P v' x ∂law) / ∫ x, (P.size x : ℝ) ∂law

end Clusters

/-! ## Samples -/

section Samples

variable {C Ω : Type} {nd ns : ℕ} {m : Fin nd ⊕ Fin ns → Type} {q b g θ d ι D : Type} [∀ e, Fintype (m e)] [Fintype q] [Fintype b] [Fintype g]
  [Fintype θ] [Fintype d] [LinearOrder ι]

section One

variable {N T : ℕ} {P : Spec.Clusters C m (b ⊕ g)} {w : ℕ → C} {E : Estimation N nd ns m q b g θ d ι D} {o : Evaluated N θ d} {beta : b ⊕ g → ℝ}

lemma sum_place (place : Fin N ≃ (t : Fin T) × Fin (P.size (w t))) (f : C → ℕ → ℝ) :
    ∑ i, f (w (place i).1) (place i).2 = ∑ t ∈ Finset.range T, P.total (w t) (f (w t)) := by
  rw [Equiv.sum_comp place fun p => f (w p.1) p.2, Fintype.sum_sigma, Finset.sum_range]
  refine Finset.sum_congr rfl fun t _ => ?_
  unfold Spec.Clusters.total
  rw [Finset.sum_range]

lemma sampled_size (h : Spec.Sampled P w T E o beta) : (N : ℝ) = ∑ t ∈ Finset.range T, (P.size (w t) : ℝ) := by
  obtain ⟨place, -⟩ := h
  have := sum_place place fun _ _ => 1
  simpa [Spec.Clusters.total] using this

lemma value_place (h : Spec.Sampled P w T E o beta) : ∃ place : Fin N ≃ (t : Fin T) × Fin (P.size (w t)),
    (∀ v i, (linearRows E o beta).value v i = (clusterRows q θ d P (w (place i).1)).value v (place i).2) ∧
      ∀ i i', E.ids i = E.ids i' ↔ (place i).1 = (place i').1 := by
  obtain ⟨place, hx, hz, hy, hid⟩ := h
  refine ⟨place, fun v i => ?_, hid⟩
  have he : ∀ a, (linearRows E o beta).error a i = (clusterRows q θ d P (w (place i).1)).error a (place i).2 := by
    rintro ((a | a) | a)
    · simp only [linearRows, clusterRows, hy, hx]
      ring
    · rfl
    · rfl
  have hi : ∀ a, (linearRows E o beta).instrument a i = (clusterRows q θ d P (w (place i).1)).instrument a (place i).2 := by
    rintro ((a | a) | a)
    · simp only [linearRows, clusterRows, hz]
    · rfl
    · rfl
  have hr : ∀ a l, (linearRows E o beta).regressor a l i = (clusterRows q θ d P (w (place i).1)).regressor a l (place i).2 := by
    rintro ((a | a) | a) (l | l)
    · rfl
    · simp only [linearRows, clusterRows, hx]
    all_goals rfl
  cases v with
  | one => rfl
  | error a => exact he a
  | regressor a l => exact hr a l
  | instrument a => exact hi a
  | moment a => simp only [Rows.value, he, hi]
  | slope a l => simp only [Rows.value, hr, hi]

lemma sampled_averages (h : Spec.Sampled P w T E o beta) (v v' : Term ((MomentIndex m ⊕ q) ⊕ d) (θ ⊕ b ⊕ g)) :
    (Spec.overProducts fun j => (linearRows E o beta).value v j * (linearRows E o beta).value v' j) =
      (∑ t ∈ Finset.range T, clusterProduct P v v' (w t)) / ∑ t ∈ Finset.range T, (P.size (w t) : ℝ) := by
  obtain ⟨place, hv, -⟩ := value_place h
  rw [← sampled_size h]
  unfold Spec.overProducts
  congr 1
  simp only [hv]
  exact sum_place place fun x j => (clusterRows q θ d P x).value v j * (clusterRows q θ d P x).value v' j

lemma sampled_clusters (h : Spec.Sampled P w T E o beta) (v v' : Term ((MomentIndex m ⊕ q) ⊕ d) (θ ⊕ b ⊕ g)) :
    clusterProducts E.ids ((linearRows E o beta).value v) ((linearRows E o beta).value v') =
      (∑ t ∈ Finset.range T, clusterTotal P v (w t) * clusterTotal P v' (w t)) / ∑ t ∈ Finset.range T, (P.size (w t) : ℝ) := by
  obtain ⟨place, hv, hid⟩ := value_place h
  rw [← sampled_size h]
  unfold clusterProducts
  congr 1
  have h1 : ∀ f f' : Fin N → ℝ, ∑ k ∈ Finset.univ.image E.ids, (∑ i with E.ids i = k, f i) * ∑ i with E.ids i = k, f' i =
      ∑ i, ∑ i', if E.ids i = E.ids i' then f i * f' i' else 0 := by
    intro f f'
    have h2 : ∀ k, (∑ i with E.ids i = k, f i) * ∑ i with E.ids i = k, f' i =
        ∑ i, ∑ i', if E.ids i = k ∧ E.ids i' = k then f i * f' i' else 0 := by
      intro k
      rw [Finset.sum_filter, Finset.sum_filter, Finset.sum_mul_sum]
      refine Finset.sum_congr rfl fun i _ => Finset.sum_congr rfl fun i' _ => ?_
      by_cases hi : E.ids i = k <;> by_cases hi' : E.ids i' = k <;> simp [hi, hi']
    simp only [h2]
    rw [Finset.sum_comm]
    refine Finset.sum_congr rfl fun i _ => ?_
    rw [Finset.sum_comm]
    refine Finset.sum_congr rfl fun i' _ => ?_
    rw [Finset.sum_eq_single (E.ids i)]
    · simp [eq_comm]
    · intro k _ hk
      rw [if_neg fun hh => hk hh.1.symm]
    · exact fun hk => absurd (Finset.mem_image_of_mem _ (Finset.mem_univ i)) hk
  rw [h1]
  simp only [hid, hv]
  rw [Equiv.sum_comp place fun p => ∑ i', if p.1 = (place i').1 then (clusterRows q θ d P (w p.1)).value v p.2 *
    (clusterRows q θ d P (w (place i').1)).value v' (place i').2 else 0, Fintype.sum_sigma, Finset.sum_range]
  refine Finset.sum_congr rfl fun t _ => ?_
  unfold clusterTotal Spec.Clusters.total
  rw [Finset.sum_range, Finset.sum_range, Finset.sum_mul_sum]
  refine Finset.sum_congr rfl fun j _ => ?_
  rw [Equiv.sum_comp place fun p => if t = p.1 then (clusterRows q θ d P (w t)).value v j *
    (clusterRows q θ d P (w p.1)).value v' p.2 else 0, Fintype.sum_sigma, Finset.sum_eq_single t]
  · simp
  · intro t' _ ht
    simp [ht.symm]
  · simp

end One

variable [MeasurableSpace C] {law : Measure C} {P : Spec.Clusters C m (b ⊕ g)} {w : ℕ → Ω → C} {F : Filter (ℕ × Ω)}

/-- Averages over clusters converge. -/
structure Averages (q θ d : Type) (law : Measure C) (P : Spec.Clusters C m (b ⊕ g)) (w : ℕ → Ω → C) (F : Filter (ℕ × Ω)) : Prop where
  products : ∀ v v' : Term ((MomentIndex m ⊕ q) ⊕ d) (θ ⊕ b ⊕ g),
    Tendsto (fun i : ℕ × Ω => (∑ t ∈ Finset.range i.1, clusterProduct P v v' (w t i.2)) / i.1) F (𝓝 (∫ x, clusterProduct P v v' x ∂law))
  totals : ∀ v v' : Term ((MomentIndex m ⊕ q) ⊕ d) (θ ⊕ b ⊕ g),
    Tendsto (fun i : ℕ × Ω => (∑ t ∈ Finset.range i.1, clusterTotal P v (w t i.2) * clusterTotal P v' (w t i.2)) / i.1) F
      (𝓝 (∫ x, clusterTotal P v x * clusterTotal P v' x ∂law))
  size : Tendsto (fun i : ℕ × Ω => (∑ t ∈ Finset.range i.1, (P.size (w t i.2) : ℝ)) / i.1) F (𝓝 (∫ x, (P.size x : ℝ) ∂law))

variable {N : ℕ × Ω → ℕ} {E : ∀ i, Estimation (N i) nd ns m q b g θ d ι D} {o : ∀ i, Evaluated (N i) θ d} {beta : b ⊕ g → ℝ}

lemma tendsto_ratio {f g : ℕ × Ω → ℝ} {x y : ℝ} (hf : Tendsto (fun i => f i / i.1) F (𝓝 x)) (hg : Tendsto (fun i => g i / i.1) F (𝓝 y)) (hy : y ≠ 0) :
    Tendsto (fun i => f i / g i) F (𝓝 (x / y)) := by
  refine (hf.div hg hy).congr' ?_
  filter_upwards [hg.eventually_ne hy] with i hi
  have : (i.1 : ℝ) ≠ 0 := fun h0 => hi (by rw [h0, div_zero])
  rw [Pi.div_apply, div_div_div_cancel_right₀ this]

lemma Averages.limits (h : Averages q θ d law P w F) (hP : P.Bounded law) (hE : ∀ i, Spec.Sampled P (fun t => w t i.2) i.1 (E i) (o i) beta) :
    Limits F (fun i => linearRows (E i) (o i) beta) (fun i => (E i).ids) (rowLimit P law) (clusterLimit P law) where
  averages v v' := by
    simp only [fun i => sampled_averages (hE i) v v']
    exact tendsto_ratio (h.products v v') h.size hP.nonempty.ne'
  clusters v v' := by
    simp only [fun i => sampled_clusters (hE i) v v']
    exact tendsto_ratio (h.totals v v') h.size hP.nonempty.ne'

lemma Averages.rows (h : Averages q θ d law P w F) (hE : ∀ i, Spec.Sampled P (fun t => w t i.2) i.1 (E i) (o i) beta) :
    Tendsto (fun i => (N i : ℝ) / i.1) F (𝓝 (∫ x, (P.size x : ℝ) ∂law)) := by
  simp only [fun i => sampled_size (hE i)]
  exact h.size

lemma Averages.positive (h : Averages q θ d law P w F) (hP : P.Bounded law) (hE : ∀ i, Spec.Sampled P (fun t => w t i.2) i.1 (E i) (o i) beta) :
    ∀ᶠ i in F, 0 < N i := by
  filter_upwards [(h.rows hE).eventually_ne hP.nonempty.ne'] with i hi
  refine Nat.pos_of_ne_zero fun h0 => hi ?_
  rw [h0, Nat.cast_zero, zero_div]

variable [MeasurableSpace Ω] {μ : Measure Ω}

/-- With probability one, averages converge. -/
lemma averages_ae (hP : P.Bounded law) (hw : Draws μ law w) : ∀ᵐ ω ∂μ, Averages q θ d law P w (map (fun T => (T, ω)) atTop) := by
  have h1 : ∀ᵐ ω ∂μ, ∀ v v' : Term ((MomentIndex m ⊕ q) ⊕ d) (θ ⊕ b ⊕ g), Tendsto (fun T : ℕ => (∑ t ∈ Finset.range T, clusterProduct P v v' (w t ω)) / T) atTop
      (𝓝 (∫ x, clusterProduct P v v' x ∂law)) := by
    rw [ae_all_iff]
    intro v
    rw [ae_all_iff]
    intro v'
    exact hw.strong_law _ (measurable_clusterProduct hP v v') (integrable_clusterProduct hP v v')
  have h2 : ∀ᵐ ω ∂μ, ∀ v v' : Term ((MomentIndex m ⊕ q) ⊕ d) (θ ⊕ b ⊕ g),
      Tendsto (fun T : ℕ => (∑ t ∈ Finset.range T, clusterTotal P v (w t ω) * clusterTotal P v' (w t ω)) / T) atTop
        (𝓝 (∫ x, clusterTotal P v x * clusterTotal P v' x ∂law)) := by
    rw [ae_all_iff]
    intro v
    rw [ae_all_iff]
    intro v'
    exact hw.strong_law (fun x => clusterTotal P v x * clusterTotal P v' x) ((measurable_clusterTotal hP v).mul (measurable_clusterTotal hP v')) (integrable_totals hP v v')
  have h3 : Integrable (fun x => (P.size x : ℝ)) law := by
    have := integrable_clusterProduct (q := q) (θ := θ) (d := d) hP .one .one
    refine this.congr (Eventually.of_forall fun x => ?_)
    simp [clusterProduct, Spec.Clusters.total, Rows.value]
  filter_upwards [h1, h2, hw.strong_law (fun x => (P.size x : ℝ)) (measurable_from_nat.comp hP.measurable_size) h3] with ω e1 e2 e3
  exact ⟨fun v v' => tendsto_map'_iff.mpr (e1 v v'), fun v v' => tendsto_map'_iff.mpr (e2 v v'), tendsto_map'_iff.mpr e3⟩

/-- Averages converge in probability. -/
lemma averages_probably [IsProbabilityMeasure μ] (hP : P.Bounded law) (hw : Draws μ law w) : Averages q θ d law P w (probably μ) := by
  have h := averages_ae (q := q) (θ := θ) (d := d) hP hw
  have hm : ∀ f : C → ℝ, Measurable f → ∀ T : ℕ, AEStronglyMeasurable (fun ω => (∑ t ∈ Finset.range T, f (w t ω)) / T) μ := fun f hf T =>
    ((Finset.measurable_sum _ fun t _ => hf.comp (hw.measurable t)).div_const _).aestronglyMeasurable
  refine ⟨fun v v' => ?_, fun v v' => ?_, ?_⟩
  · refine tendsto_probably_of_ae (f := fun T ω => (∑ t ∈ Finset.range T, clusterProduct P v v' (w t ω)) / T) (hm _ (measurable_clusterProduct hP v v')) ?_
    filter_upwards [h] with ω hω
    exact tendsto_map'_iff.mp (hω.products v v')
  · refine tendsto_probably_of_ae (f := fun T ω => (∑ t ∈ Finset.range T, clusterTotal P v (w t ω) * clusterTotal P v' (w t ω)) / T)
      (hm (fun x => clusterTotal P v x * clusterTotal P v' x) ((measurable_clusterTotal hP v).mul (measurable_clusterTotal hP v'))) ?_
    filter_upwards [h] with ω hω
    exact tendsto_map'_iff.mp (hω.totals v v')
  · refine tendsto_probably_of_ae (f := fun T ω => (∑ t ∈ Finset.range T, (P.size (w t ω) : ℝ)) / T)
      (hm (fun x => (P.size x : ℝ)) (measurable_from_nat.comp hP.measurable_size)) ?_
    filter_upwards [h] with ω hω
    exact tendsto_map'_iff.mp hω.size

end Samples

end Pyblp.Asymptotic
