import Mathlib.Probability.StrongLaw
import Mathlib.Probability.Moments.Variance
import Mathlib.Probability.Distributions.Gaussian.Real
import Mathlib.MeasureTheory.Integral.Pi
import Mathlib.Topology.Bases

/-!
# Averages over samples of choosers

Choosers with characteristics in `E` choose product `j` with probability `P x e j` at mean utilities `x`. What is needed for averages over samples of
choosers to converge, for all mean utilities at once, and for mean utilities that explain averages to converge.
-/

set_option linter.unusedSectionVars false

open MeasureTheory ProbabilityTheory Filter Topology

namespace Pyblp.Sampling

variable {Ω E J : Type} [MeasurableSpace Ω] [MeasurableSpace E] [Fintype J] [Nonempty J] (μ : Measure Ω) (law : Measure E)

/-- Draws `w 0`, `w 1`, ... are independent of one another and each has distribution `law`. -/
structure Draws (w : ℕ → Ω → E) : Prop where
  measurable : ∀ i, Measurable (w i)
  indep : Pairwise fun i k => IndepFun (w i) (w k) μ
  law : ∀ i, μ.map (w i) = law

variable {μ law} {w : ℕ → Ω → E}

lemma Draws.integral (h : Draws μ law w) (f : E → ℝ) (hf : Measurable f) (i : ℕ) : ∫ ω, f (w i ω) ∂μ = ∫ e, f e ∂law := by
  rw [← h.law i, integral_map (h.measurable i).aemeasurable hf.aestronglyMeasurable]

lemma Draws.integrable (h : Draws μ law w) (f : E → ℝ) (hf : Measurable f) (hint : Integrable f law) (i : ℕ) : Integrable (fun ω => f (w i ω)) μ := by
  rw [← h.law i] at hint
  exact (integrable_map_measure hf.aestronglyMeasurable (h.measurable i).aemeasurable).mp hint

lemma Draws.strong_law (h : Draws μ law w) (f : E → ℝ) (hf : Measurable f) (hint : Integrable f law) :
    ∀ᵐ ω ∂μ, Tendsto (fun n : ℕ => (∑ i ∈ Finset.range n, f (w i ω)) / n) atTop (𝓝 (∫ e, f e ∂law)) := by
  have := strong_law_ae_real (μ := μ) (fun i ω => f (w i ω)) (h.integrable f hf hint 0)
    (fun i k hik => (h.indep hik).comp hf hf)
    (fun i => (IdentDistrib.mk (h.measurable i).aemeasurable (h.measurable 0).aemeasurable (by rw [h.law, h.law])).comp hf)
  rwa [h.integral f hf 0] at this

/-- The strong law for the window of draws that starts at `p * n`. -/
lemma Draws.strong_law_window (h : Draws μ law w) (f : E → ℝ) (hf : Measurable f) (hint : Integrable f law) (p : ℕ) :
    ∀ᵐ ω ∂μ, Tendsto (fun n : ℕ => (∑ i : Fin n, f (w (p * n + i) ω)) / n) atTop (𝓝 (∫ e, f e ∂law)) := by
  filter_upwards [h.strong_law f hf hint] with ω hω
  set L := ∫ e, f e ∂law
  set g : ℕ → ℝ := fun n => (∑ i ∈ Finset.range n, f (w i ω)) / n with hg
  rcases Nat.eq_zero_or_pos p with rfl | hp
  · refine hω.congr fun n => ?_
    simp only [hg]
    rw [Finset.sum_range]
    simp
  have h1 : Tendsto (fun n : ℕ => g ((p + 1) * n)) atTop (𝓝 L) :=
    hω.comp (tendsto_id.const_mul_atTop' (Nat.succ_pos p))
  have h2 : Tendsto (fun n : ℕ => g (p * n)) atTop (𝓝 L) := hω.comp (tendsto_id.const_mul_atTop' hp)
  have h3 : Tendsto (fun n : ℕ => (p + 1 : ℝ) * g ((p + 1) * n) - p * g (p * n)) atTop (𝓝 ((p + 1 : ℝ) * L - p * L)) :=
    (h1.const_mul _).sub (h2.const_mul _)
  rw [show (p + 1 : ℝ) * L - p * L = L by ring] at h3
  refine h3.congr' ?_
  filter_upwards [eventually_gt_atTop 0] with n hn
  have hn' : (n : ℝ) ≠ 0 := by exact_mod_cast hn.ne'
  have hp' : (p : ℝ) ≠ 0 := by exact_mod_cast hp.ne'
  have hp1 : (p : ℝ) + 1 ≠ 0 := by positivity
  have hsum : ∑ i ∈ Finset.range ((p + 1) * n), f (w i ω) =
      ∑ i ∈ Finset.range (p * n), f (w i ω) + ∑ i : Fin n, f (w (p * n + i) ω) := by
    rw [show (p + 1) * n = p * n + n by ring, Finset.sum_range_add, Finset.sum_range (n := n)]
  simp only [hg]
  rw [hsum]
  push_cast
  field_simp
  ring

/-- Choice probabilities at mean utilities `x` of choosers with characteristics `e`. `tau` are scales of utility. -/
structure Choosers (P : (J → ℝ) → E → J → ℝ) (tau : J → ℝ) : Prop where
  measurable : ∀ x j, Measurable fun e => P x e j
  nonneg : ∀ x e j, 0 ≤ P x e j
  le_one : ∀ x e j, P x e j ≤ 1
  tau_pos : ∀ j, 0 < tau j
  anti : ∀ x y e, (∀ j, x j ≤ y j) → ∀ j, P y e j * Real.exp (-(y j) / tau j) ≤ P x e j * Real.exp (-(x j) / tau j)
  shift : ∀ x e c, 0 < c → ∀ j, P x e j < P (fun k => x k + c) e j

variable {P : (J → ℝ) → E → J → ℝ} {tau : J → ℝ}

lemma Choosers.integrable [IsProbabilityMeasure law] (h : Choosers P tau) (x : J → ℝ) (j : J) : Integrable (fun e => P x e j) law :=
  Integrable.of_bound (h.measurable x j).aestronglyMeasurable 1 (Eventually.of_forall fun e => by
    rw [Real.norm_eq_abs, abs_of_nonneg (h.nonneg x e j)]; exact h.le_one x e j)

lemma Choosers.shift_le (h : Choosers P tau) (x : J → ℝ) (e : E) {c : ℝ} (hc : 0 ≤ c) (j : J) : P x e j ≤ P (fun k => x k + c) e j := by
  rcases hc.lt_or_eq with hc | rfl
  · exact (h.shift x e c hc j).le
  · simp

/-- A product whose own mean utility stays loses when those of others rise. -/
lemma Choosers.substitutes (h : Choosers P tau) (x y : J → ℝ) (e : E) (hxy : ∀ k, x k ≤ y k) (j : J) (hj : x j = y j) : P y e j ≤ P x e j := by
  have := h.anti x y e hxy j
  rw [hj] at this
  exact le_of_mul_le_mul_right this (Real.exp_pos _)

/-- Choice probabilities are uniformly Lipschitz in mean utilities. -/
lemma Choosers.lipschitz (h : Choosers P tau) (x y : J → ℝ) (e : E) (c : ℝ) (hc : ∀ k, |x k - y k| ≤ c) (j : J) :
    |P x e j - P y e j| ≤ 2 * c / tau j := by
  have hτ := h.tau_pos j
  have hc0 : 0 ≤ c := (abs_nonneg _).trans (hc j)
  have key : ∀ x y : J → ℝ, (∀ k, |x k - y k| ≤ c) → P x e j - P y e j ≤ 2 * c / tau j := by
    intro x y hxy
    have h1 := h.shift_le x e hc0 j
    have h2 := h.anti y (fun k => x k + c) e (fun k => by linarith [(abs_le.mp (hxy k)).1]) j
    have h3 : P (fun k => x k + c) e j * Real.exp (-(2 * c) / tau j) ≤ P y e j := by
      have h4 : Real.exp (-(x j + c) / tau j) ≥ Real.exp (-(2 * c) / tau j) * Real.exp (-(y j) / tau j) := by
        rw [← Real.exp_add]
        refine Real.exp_le_exp.mpr ?_
        rw [← add_div, div_le_div_iff_of_pos_right hτ]
        linarith [(abs_le.mp (hxy j)).2]
      have h5 := mul_le_mul_of_nonneg_left h4 (h.nonneg (fun k => x k + c) e j)
      refine le_of_mul_le_mul_right ?_ (Real.exp_pos (-(y j) / tau j))
      calc _ = P (fun k => x k + c) e j * (Real.exp (-(2 * c) / tau j) * Real.exp (-(y j) / tau j)) := by ring
        _ ≤ _ := h5
        _ ≤ _ := h2
    have h6 : 1 - 2 * c / tau j ≤ Real.exp (-(2 * c) / tau j) := by
      have := Real.add_one_le_exp (-(2 * c) / tau j)
      rw [neg_div] at this ⊢
      linarith
    have h7 := h.nonneg x e j
    have h8 := h.le_one x e j
    have h9 : 0 ≤ 2 * c / tau j := by positivity
    have h10 : P x e j * Real.exp (-(2 * c) / tau j) ≤ P y e j :=
      (mul_le_mul_of_nonneg_right h1 (Real.exp_pos _).le).trans h3
    nlinarith
  rw [abs_le]
  refine ⟨?_, key x y hc⟩
  have := key y x (fun k => by rw [abs_sub_comm]; exact hc k)
  linarith

/-- The average over a window of draws. -/
noncomputable def average (P : (J → ℝ) → E → J → ℝ) (w : ℕ → Ω → E) (p n : ℕ) (ω : Ω) (x : J → ℝ) (j : J) : ℝ :=
  (∑ i : Fin n, P x (w (p * n + i) ω) j) / n

/-- The average over the population. -/
noncomputable def population (P : (J → ℝ) → E → J → ℝ) (law : Measure E) (x : J → ℝ) (j : J) : ℝ := ∫ e, P x e j ∂law

lemma average_lipschitz (h : Choosers P tau) (p n : ℕ) (ω : Ω) (x y : J → ℝ) (c : ℝ) (hc : ∀ k, |x k - y k| ≤ c) (j : J) :
    |average P w p n ω x j - average P w p n ω y j| ≤ 2 * c / tau j := by
  have hτ := h.tau_pos j
  have hc0 : 0 ≤ c := (abs_nonneg _).trans (hc j)
  unfold average
  rw [← sub_div, ← Finset.sum_sub_distrib, abs_div, Nat.abs_cast]
  rcases Nat.eq_zero_or_pos n with rfl | hn
  · simp; positivity
  rw [div_le_iff₀ (by exact_mod_cast hn)]
  refine (Finset.abs_sum_le_sum_abs _ _).trans ?_
  refine (Finset.sum_le_card_nsmul _ _ _ fun i _ => h.lipschitz x y _ c hc j).trans ?_
  simp [mul_comm]

lemma population_lipschitz [IsProbabilityMeasure law] (h : Choosers P tau) (x y : J → ℝ) (c : ℝ) (hc : ∀ k, |x k - y k| ≤ c) (j : J) :
    |population P law x j - population P law y j| ≤ 2 * c / tau j := by
  unfold population
  rw [← integral_sub (h.integrable x j) (h.integrable y j), ← Real.norm_eq_abs]
  refine (norm_integral_le_of_norm_le_const (C := 2 * c / tau j) (Eventually.of_forall fun e => ?_)).trans ?_
  · rw [Real.norm_eq_abs]; exact h.lipschitz x y e c hc j
  · simp

/-- Averages converge at all mean utilities at once, and along all sequences of mean utilities that converge. -/
lemma tendsto_average [IsProbabilityMeasure law] (h : Choosers P tau) (hw : Draws μ law w) (p : ℕ) :
    ∀ᵐ ω ∂μ, ∀ (x : J → ℝ) (d : ℕ → J → ℝ), Tendsto d atTop (𝓝 x) → ∀ j,
      Tendsto (fun n => average P w p n ω (d n) j) atTop (𝓝 (population P law x j)) := by
  obtain ⟨D, hDc, hDd⟩ := TopologicalSpace.exists_countable_dense (J → ℝ)
  have hall : ∀ᵐ ω ∂μ, ∀ x ∈ D, ∀ j, Tendsto (fun n => average P w p n ω x j) atTop (𝓝 (population P law x j)) := by
    rw [ae_ball_iff hDc]
    intro x _
    rw [ae_all_iff]
    intro j
    exact hw.strong_law_window (fun e => P x e j) (h.measurable x j) (h.integrable x j) p
  filter_upwards [hall] with ω hω
  intro x d hd j
  have hτ := h.tau_pos j
  rw [Metric.tendsto_atTop]
  intro ε hε
  set c := ε * tau j / 12 with hc
  have hc0 : 0 < c := by positivity
  obtain ⟨z, hz, hxz⟩ := hDd.exists_dist_lt x hc0
  obtain ⟨N1, hN1⟩ := Metric.tendsto_atTop.mp (hω z hz j) (ε / 3) (by positivity)
  obtain ⟨N2, hN2⟩ := Metric.tendsto_atTop.mp hd c hc0
  refine ⟨max N1 N2, fun n hn => ?_⟩
  have h1 := hN1 n (le_of_max_le_left hn)
  have h2 := hN2 n (le_of_max_le_right hn)
  have hdz : ∀ k, |d n k - z k| ≤ 2 * c := fun k => by
    have a := dist_le_pi_dist (d n) z k
    rw [Real.dist_eq] at a
    have := dist_triangle (d n) x z
    linarith
  have hxz' : ∀ k, |z k - x k| ≤ c := fun k => by
    have a := dist_le_pi_dist x z k
    rw [Real.dist_eq, abs_sub_comm] at a
    linarith
  have e1 := average_lipschitz (w := w) h p n ω (d n) z (2 * c) hdz j
  have e2 := population_lipschitz (law := law) h z x c hxz' j
  have e3 : 2 * (2 * c) / tau j = ε / 3 := by rw [hc]; field_simp; norm_num
  have e4 : 2 * c / tau j = ε / 6 := by rw [hc]; field_simp; norm_num
  rw [e3] at e1
  rw [e4] at e2
  rw [Real.dist_eq] at h1 ⊢
  rw [abs_lt] at h1 ⊢
  rw [abs_le] at e1 e2
  constructor <;> linarith

lemma average_mono_shift (h : Choosers P tau) (p n : ℕ) (ω : Ω) (x : J → ℝ) {c d : ℝ} (hcd : c ≤ d) (j : J) :
    average P w p n ω (fun k => x k + c) j ≤ average P w p n ω (fun k => x k + d) j := by
  unfold average
  refine div_le_div_of_nonneg_right (Finset.sum_le_sum fun i _ => ?_) (Nat.cast_nonneg _)
  have := h.shift_le (fun k => x k + c) (w (p * n + i) ω) (sub_nonneg.mpr hcd) j
  simpa [add_assoc] using this

lemma average_substitutes (h : Choosers P tau) (p n : ℕ) (ω : Ω) (x y : J → ℝ) (hxy : ∀ k, x k ≤ y k) (j : J) (hj : x j = y j) :
    average P w p n ω y j ≤ average P w p n ω x j := by
  unfold average
  exact div_le_div_of_nonneg_right (Finset.sum_le_sum fun i _ => h.substitutes x y _ hxy j hj) (Nat.cast_nonneg _)

lemma population_shift [IsProbabilityMeasure law] (h : Choosers P tau) (x : J → ℝ) {c : ℝ} (hc : 0 < c) (j : J) :
    population P law x j < population P law (fun k => x k + c) j := by
  unfold population
  have hpos : 0 < ∫ e, (P (fun k => x k + c) e j - P x e j) ∂law := by
    rw [integral_pos_iff_support_of_nonneg (fun e => (sub_pos.mpr (h.shift x e c hc j)).le) ((h.integrable _ j).sub (h.integrable x j))]
    have : Function.support (fun e => P (fun k => x k + c) e j - P x e j) = Set.univ := by
      ext e
      simp only [Function.mem_support, Set.mem_univ, iff_true]
      exact (sub_pos.mpr (h.shift x e c hc j)).ne'
    rw [this]
    simp
  rw [integral_sub (h.integrable _ j) (h.integrable x j)] at hpos
  linarith

/-- Mean utilities at which averages converge to what the population chooses at `x` converge to `x`. -/
lemma tendsto_inverse [IsProbabilityMeasure law] (h : Choosers P tau) (p : ℕ) (ω : Ω) (x : J → ℝ)
    (hω : ∀ (x : J → ℝ) j, Tendsto (fun n => average P w p n ω x j) atTop (𝓝 (population P law x j))) (d : ℕ → J → ℝ)
    (hd : ∀ j, Tendsto (fun n => average P w p n ω (d n) j) atTop (𝓝 (population P law x j))) : Tendsto d atTop (𝓝 x) := by
  rw [tendsto_pi_nhds]
  intro k
  rw [Metric.tendsto_atTop]
  intro ε hε
  set c := ε / 2 with hc
  have hc0 : 0 < c := by positivity
  have hup : ∀ᶠ n in atTop, ∀ j, average P w p n ω (d n) j < average P w p n ω (fun k => x k + c) j := by
    rw [eventually_all]
    exact fun j => (hd j).eventually_lt (hω _ j) (population_shift h x hc0 j)
  have hlo : ∀ᶠ n in atTop, ∀ j, average P w p n ω (fun k => x k + -c) j < average P w p n ω (d n) j := by
    rw [eventually_all]
    intro j
    refine (hω _ j).eventually_lt (hd j) ?_
    have := population_shift (law := law) h (fun k => x k + -c) hc0 j
    simpa using this
  obtain ⟨N, hN⟩ := eventually_atTop.mp (hup.and hlo)
  refine ⟨N, fun n hn => ?_⟩
  obtain ⟨h1, h2⟩ := hN n hn
  have hu : d n k ≤ x k + c := by
    obtain ⟨j, -, hj⟩ := Finset.exists_max_image Finset.univ (fun j => d n j - x j) Finset.univ_nonempty
    by_contra hlt
    push Not at hlt
    have hM : c ≤ d n j - x j := by linarith [hj k (Finset.mem_univ _)]
    have a1 := average_substitutes (w := w) h p n ω (d n) (fun k => x k + (d n j - x j)) (fun k => by linarith [hj k (Finset.mem_univ _)]) j (by ring)
    have a2 := average_mono_shift (w := w) h p n ω x hM j
    linarith [h1 j]
  have hl : x k + -c ≤ d n k := by
    obtain ⟨j, -, hj⟩ := Finset.exists_min_image Finset.univ (fun j => d n j - x j) Finset.univ_nonempty
    by_contra hlt
    push Not at hlt
    have hM : d n j - x j ≤ -c := by linarith [hj k (Finset.mem_univ _)]
    have a1 := average_substitutes (w := w) h p n ω (fun k => x k + (d n j - x j)) (d n) (fun k => by linarith [hj k (Finset.mem_univ _)]) j (by ring)
    have a2 := average_mono_shift (w := w) h p n ω x hM j
    linarith [h2 j]
  rw [Real.dist_eq, abs_lt]
  constructor <;> linarith

/-- Averages have the right mean. -/
lemma integral_average [IsProbabilityMeasure law] (h : Choosers P tau) (hw : Draws μ law w) (p n : ℕ) (hn : 0 < n) (x : J → ℝ) (j : J) :
    ∫ ω, average P w p n ω x j ∂μ = population P law x j := by
  unfold average population
  rw [integral_div, integral_finsetSum _ fun i _ => hw.integrable (fun e => P x e j) (h.measurable x j) (h.integrable x j) _]
  simp only [hw.integral (fun e => P x e j) (h.measurable x j)]
  have : (n : ℝ) ≠ 0 := by exact_mod_cast hn.ne'
  simp
  field_simp

/-- The variance of averages is at most `1 / (4 n)`. -/
lemma variance_average [IsProbabilityMeasure μ] [IsProbabilityMeasure law] (h : Choosers P tau) (hw : Draws μ law w) (p n : ℕ) (hn : 0 < n)
    (x : J → ℝ) (j : J) : variance (fun ω => average P w p n ω x j) μ ≤ 1 / (4 * n) := by
  have hn' : (0 : ℝ) < n := by exact_mod_cast hn
  have hm : ∀ i : Fin n, Measurable fun ω => P x (w (p * n + i) ω) j := fun i => (h.measurable x j).comp (hw.measurable _)
  have hmem : ∀ i : Fin n, MemLp (fun ω => P x (w (p * n + i) ω) j) 2 μ := fun i =>
    MemLp.of_bound (hm i).aestronglyMeasurable 1 (Eventually.of_forall fun ω => by
      rw [Real.norm_eq_abs, abs_of_nonneg (h.nonneg _ _ _)]; exact h.le_one _ _ _)
  have e : (fun ω => average P w p n ω x j) = fun ω => (1 / n : ℝ) * (∑ i : Fin n, fun ω => P x (w (p * n + i) ω) j) ω := by
    funext ω
    unfold average
    rw [Finset.sum_apply]
    ring
  rw [e, variance_const_mul, IndepFun.variance_sum (fun i _ => hmem i)]
  · have hb : ∀ i : Fin n, variance (fun ω => P x (w (p * n + i) ω) j) μ ≤ 1 / 4 := fun i => by
      have := variance_le_sq_of_bounded (μ := μ) (a := 0) (b := 1) (X := fun ω => P x (w (p * n + i) ω) j)
        (Eventually.of_forall fun ω => ⟨h.nonneg _ _ _, h.le_one _ _ _⟩) (hm i).aemeasurable
      norm_num at this ⊢
      exact this
    have hs := Finset.sum_le_card_nsmul (Finset.univ : Finset (Fin n)) _ _ fun i _ => hb i
    rw [Finset.card_univ, Fintype.card_fin, nsmul_eq_mul] at hs
    calc _ ≤ (1 / n : ℝ) ^ 2 * (n * (1 / 4)) := mul_le_mul_of_nonneg_left hs (by positivity)
      _ = _ := by field_simp
  · intro i _ k _ hik
    exact (hw.indep (fun hh => hik (Fin.ext (by omega)))).comp (h.measurable x j) (h.measurable x j)

/-! ## Averages of derivatives -/

/-- Functions of mean utilities and characteristics of choosers that are bounded and Lipschitz in mean utilities, uniformly over choosers. -/
structure Tame (F : (J → ℝ) → E → ℝ) (L B : ℝ) : Prop where
  measurable : ∀ x, Measurable (F x)
  bound : ∀ x e, |F x e| ≤ B
  lipschitz : ∀ x y e c, (∀ k, |x k - y k| ≤ c) → |F x e - F y e| ≤ L * c

lemma Tame.const (a : ℝ) : Tame (fun (_ : J → ℝ) (_ : E) => a) 0 |a| where
  measurable _ := measurable_const
  bound _ _ := le_rfl
  lipschitz x y e c h := by simp

lemma Tame.const_mul {F : (J → ℝ) → E → ℝ} {L B : ℝ} (h : Tame F L B) (a : ℝ) : Tame (fun x e => a * F x e) (|a| * L) (|a| * B) where
  measurable x := (h.measurable x).const_mul a
  bound x e := by rw [abs_mul]; exact mul_le_mul_of_nonneg_left (h.bound x e) (abs_nonneg a)
  lipschitz x y e c hc := by
    rw [← mul_sub, abs_mul, mul_assoc]
    exact mul_le_mul_of_nonneg_left (h.lipschitz x y e c hc) (abs_nonneg a)

lemma Tame.sub {F F' : (J → ℝ) → E → ℝ} {L L' B B' : ℝ} (h : Tame F L B) (h' : Tame F' L' B') :
    Tame (fun x e => F x e - F' x e) (L + L') (B + B') where
  measurable x := (h.measurable x).sub (h'.measurable x)
  bound x e := (abs_sub _ _).trans (add_le_add (h.bound x e) (h'.bound x e))
  lipschitz x y e c hc := by
    have h1 := h.lipschitz x y e c hc
    have h2 := h'.lipschitz x y e c hc
    rw [abs_le] at h1 h2 ⊢
    constructor <;> linarith [h1.1, h1.2, h2.1, h2.2]

lemma Tame.add {F F' : (J → ℝ) → E → ℝ} {L L' B B' : ℝ} (h : Tame F L B) (h' : Tame F' L' B') :
    Tame (fun x e => F x e + F' x e) (L + L') (B + B') where
  measurable x := (h.measurable x).add (h'.measurable x)
  bound x e := (abs_add_le _ _).trans (add_le_add (h.bound x e) (h'.bound x e))
  lipschitz x y e c hc := by
    have h1 := h.lipschitz x y e c hc
    have h2 := h'.lipschitz x y e c hc
    rw [abs_le] at h1 h2 ⊢
    constructor <;> linarith [h1.1, h1.2, h2.1, h2.2]

lemma Tame.mul {F F' : (J → ℝ) → E → ℝ} {L L' B B' : ℝ} (h : Tame F L B) (h' : Tame F' L' B') :
    Tame (fun x e => F x e * F' x e) (L * B' + B * L') (B * B') where
  measurable x := (h.measurable x).mul (h'.measurable x)
  bound x e := by
    rw [abs_mul]
    exact mul_le_mul (h.bound x e) (h'.bound x e) (abs_nonneg _) ((abs_nonneg _).trans (h.bound x e))
  lipschitz x y e c hc := by
    have h1 := h.lipschitz x y e c hc
    have h2 := h'.lipschitz x y e c hc
    have e1 : F x e * F' x e - F y e * F' y e = (F x e - F y e) * F' x e + F y e * (F' x e - F' y e) := by ring
    rw [e1]
    refine (abs_add_le _ _).trans ?_
    rw [abs_mul, abs_mul]
    have a1 := mul_le_mul h1 (h'.bound x e) (abs_nonneg _) ((abs_nonneg _).trans h1)
    have a2 := mul_le_mul (h.bound y e) h2 (abs_nonneg _) ((abs_nonneg _).trans (h.bound y e))
    linarith

lemma Choosers.tame (h : Choosers P tau) (j : J) : Tame (fun x e => P x e j) (2 / tau j) 1 where
  measurable x := h.measurable x j
  bound x e := by rw [abs_of_nonneg (h.nonneg x e j)]; exact h.le_one x e j
  lipschitz x y e c hc := (h.lipschitz x y e c hc j).trans (le_of_eq (by ring))

lemma Tame.integrable {F : (J → ℝ) → E → ℝ} {L B : ℝ} (h : Tame F L B) {V : E → ℝ} (hVi : Integrable V law)
    (x : J → ℝ) : Integrable (fun e => F x e * V e) law :=
  hVi.bdd_mul (h.measurable x).aestronglyMeasurable (Eventually.of_forall fun e => by rw [Real.norm_eq_abs]; exact h.bound x e)

/-- Weighted averages converge along all sequences of mean utilities that converge. -/
lemma tendsto_weighted [IsProbabilityMeasure law] {F : (J → ℝ) → E → ℝ} {L B : ℝ} (h : Tame F L B) {V : E → ℝ} (hV : Measurable V)
    (hVi : Integrable V law) (hw : Draws μ law w) (p : ℕ) :
    ∀ᵐ ω ∂μ, ∀ (x : J → ℝ) (d : ℕ → J → ℝ), Tendsto d atTop (𝓝 x) →
      Tendsto (fun n => (∑ i : Fin n, F (d n) (w (p * n + i) ω) * V (w (p * n + i) ω)) / n) atTop (𝓝 (∫ e, F x e * V e ∂law)) := by
  obtain ⟨D, hDc, hDd⟩ := TopologicalSpace.exists_countable_dense (J → ℝ)
  have hall : ∀ᵐ ω ∂μ, ∀ x ∈ D, Tendsto (fun n : ℕ => (∑ i : Fin n, F x (w (p * n + i) ω) * V (w (p * n + i) ω)) / n) atTop
      (𝓝 (∫ e, F x e * V e ∂law)) := by
    rw [ae_ball_iff hDc]
    intro x _
    exact hw.strong_law_window (fun e => F x e * V e) ((h.measurable x).mul hV) (h.integrable hVi x) p
  filter_upwards [hall, hw.strong_law_window (fun e => |V e|) (continuous_abs.measurable.comp hV) hVi.abs p] with ω hω hV1
  intro x d hd
  set M := ∫ e, |V e| ∂law
  have hM : 0 ≤ M := integral_nonneg fun e => abs_nonneg _
  obtain ⟨j0⟩ := ‹Nonempty J›
  have hL : 0 ≤ L := by
    by_contra hneg
    push Not at hneg
    obtain ⟨e⟩ : Nonempty E := by
      by_contra hE
      rw [not_nonempty_iff] at hE
      have h1 : law Set.univ = 1 := measure_univ
      rw [Set.univ_eq_empty_iff.mpr hE, measure_empty] at h1
      exact zero_ne_one h1
    have h1 := h.lipschitz x x e 1 (fun k => by simp)
    rw [sub_self, abs_zero] at h1
    linarith
  rw [Metric.tendsto_atTop]
  intro ε hε
  set c := ε / (12 * ((L + 1) * (M + 1))) with hc
  have hc0 : 0 < c := by positivity
  have hcl : L * c * (M + 1) ≤ ε / 12 := by
    have : (L + 1) * (M + 1) * c = ε / 12 := by rw [hc]; field_simp
    nlinarith [mul_nonneg hc0.le (by linarith : (0 : ℝ) ≤ M + 1)]
  obtain ⟨z, hz, hxz⟩ := hDd.exists_dist_lt x hc0
  obtain ⟨N1, hN1⟩ := Metric.tendsto_atTop.mp (hω z hz) (ε / 3) (by positivity)
  obtain ⟨N2, hN2⟩ := Metric.tendsto_atTop.mp hd c hc0
  obtain ⟨N3, hN3⟩ := Metric.tendsto_atTop.mp hV1 1 one_pos
  refine ⟨max N1 (max N2 N3), fun n hn => ?_⟩
  have h1 := hN1 n (le_of_max_le_left hn)
  have h2 := hN2 n (le_of_max_le_left (le_of_max_le_right hn))
  have h3 := hN3 n (le_of_max_le_right (le_of_max_le_right hn))
  have hdz : ∀ k, |d n k - z k| ≤ 2 * c := fun k => by
    have a := dist_le_pi_dist (d n) z k
    rw [Real.dist_eq] at a
    have := dist_triangle (d n) x z
    linarith
  have hzx : ∀ k, |z k - x k| ≤ c := fun k => by
    have a := dist_le_pi_dist x z k
    rw [Real.dist_eq, abs_sub_comm] at a
    linarith
  have e1 : |(∑ i : Fin n, F (d n) (w (p * n + i) ω) * V (w (p * n + i) ω)) / n -
      (∑ i : Fin n, F z (w (p * n + i) ω) * V (w (p * n + i) ω)) / n| ≤ L * (2 * c) * ((∑ i : Fin n, |V (w (p * n + i) ω)|) / n) := by
    rw [← sub_div, ← Finset.sum_sub_distrib, abs_div, Nat.abs_cast, ← mul_div_assoc]
    refine div_le_div_of_nonneg_right ?_ (Nat.cast_nonneg _)
    rw [Finset.mul_sum]
    refine (Finset.abs_sum_le_sum_abs _ _).trans (Finset.sum_le_sum fun i _ => ?_)
    rw [← sub_mul, abs_mul]
    exact mul_le_mul_of_nonneg_right (h.lipschitz _ _ _ _ hdz) (abs_nonneg _)
  have e2 : |∫ e, F z e * V e ∂law - ∫ e, F x e * V e ∂law| ≤ L * c * M := by
    rw [← integral_sub (h.integrable hVi z) (h.integrable hVi x), ← Real.norm_eq_abs]
    refine (norm_integral_le_integral_norm _).trans ?_
    have : L * c * M = ∫ e, L * c * |V e| ∂law := (integral_const_mul _ _).symm
    rw [this]
    refine integral_mono ((h.integrable hVi z).sub (h.integrable hVi x)).norm (hVi.abs.const_mul _) fun e => ?_
    simp only [Real.norm_eq_abs]
    rw [← sub_mul, abs_mul]
    exact mul_le_mul_of_nonneg_right (h.lipschitz _ _ _ _ hzx) (abs_nonneg _)
  rw [Real.dist_eq] at h1 h3 ⊢
  have h4 : (∑ i : Fin n, |V (w (p * n + i) ω)|) / n ≤ M + 1 := by linarith [(abs_lt.mp h3).2]
  have h5 : L * (2 * c) * ((∑ i : Fin n, |V (w (p * n + i) ω)|) / n) ≤ ε / 6 := by
    have := mul_le_mul_of_nonneg_left h4 (by positivity : 0 ≤ L * (2 * c))
    nlinarith
  have h6 : L * c * M ≤ ε / 12 := by
    have : 0 ≤ L * c := by positivity
    nlinarith
  rw [abs_lt] at h1 ⊢
  rw [abs_le] at e1 e2
  constructor <;> linarith [e1.1, e1.2, e2.1, e2.2, h1.1, h1.2]

/-- Rows of a matrix that is filled with independent draws are independent of one another, and their entries are independent. -/
lemma draws_of_stream [IsProbabilityMeasure μ] {z : ℕ → Ω → ℝ} (hz : ∀ n, Measurable (z n)) (hind : iIndepFun z μ) (one : Measure ℝ)
    (hlaw : ∀ n, μ.map (z n) = one) (D : ℕ) : Draws μ (Measure.pi fun _ : Fin D => one) (fun n ω (d : Fin D) => z (n * D + d) ω) := by
  have hinj : ∀ n, Function.Injective fun d : Fin D => n * D + (d : ℕ) := fun n a b hab => Fin.ext (by simpa using hab)
  refine ⟨fun n => measurable_pi_lambda _ fun d => hz _, fun i k hik => ?_, fun n => ?_⟩
  · set S : Finset ℕ := Finset.univ.map ⟨fun d : Fin D => i * D + (d : ℕ), hinj i⟩
    set T : Finset ℕ := Finset.univ.map ⟨fun d : Fin D => k * D + (d : ℕ), hinj k⟩
    have hS : ∀ d : Fin D, i * D + (d : ℕ) ∈ S := fun d => Finset.mem_map.mpr ⟨d, Finset.mem_univ _, rfl⟩
    have hT : ∀ d : Fin D, k * D + (d : ℕ) ∈ T := fun d => Finset.mem_map.mpr ⟨d, Finset.mem_univ _, rfl⟩
    have hST : Disjoint S T := by
      rw [Finset.disjoint_left]
      intro a ha hb
      obtain ⟨d, -, rfl⟩ := Finset.mem_map.mp ha
      obtain ⟨d', -, he⟩ := Finset.mem_map.mp hb
      simp only [Function.Embedding.coeFn_mk] at he
      apply hik
      have hD : 0 < D := lt_of_le_of_lt (Nat.zero_le _) d.2
      have h1 : (i * D + (d : ℕ)) / D = i := by rw [mul_comm, Nat.mul_add_div hD, Nat.div_eq_of_lt d.2, add_zero]
      have h2 : (k * D + (d' : ℕ)) / D = k := by rw [mul_comm, Nat.mul_add_div hD, Nat.div_eq_of_lt d'.2, add_zero]
      rw [← h1, ← h2, he]
    have h := hind.indepFun_finset S T hST hz
    exact h.comp (φ := fun (v : S → ℝ) (d : Fin D) => v ⟨_, hS d⟩) (ψ := fun (v : T → ℝ) (d : Fin D) => v ⟨_, hT d⟩)
      (measurable_pi_lambda _ fun d => measurable_pi_apply _) (measurable_pi_lambda _ fun d => measurable_pi_apply _)
  · have h := hind.precomp (hinj n)
    have h' := (iIndepFun_iff_map_fun_eq_pi_map (fun d => (hz _).aemeasurable)).mp h
    simp only [hlaw] at h'
    exact h'

end Pyblp.Sampling
