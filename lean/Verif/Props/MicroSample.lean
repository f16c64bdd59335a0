import Verif.Props.SimulateMicro
import Verif.Props.Moments
import Verif.Lemmas.Studentized
import Mathlib.Probability.Moments.Covariance
import Mathlib.Analysis.Calculus.FDeriv.Basic
import Mathlib.Probability.Independence.InfinitePi

/-!
# C143: averages over simulated micro data, and what micro moments say about them
-/

set_option linter.unusedSectionVars false

open MeasureTheory ProbabilityTheory Filter Topology Pyblp.Sampling

namespace Pyblp

namespace Spec

/-- The average of values over all markets, agents and choices of a dataset, which count by their weights. -/
noncomputable def surveyAverage {Mk : Type} (order : List Mk) (arrays : Mk → WeightsArray) (value : (t : Mk) → ℕ → MicroCell (Fin (arrays t).J) → ℝ) : ℝ :=
  (order.map fun t => ∑ i ∈ Finset.range (arrays t).I, ∑ c ∈ (arrays t).shape.cells, (arrays t).weight i c * value t i c).sum / totalWeight order arrays

open Classical in
/-- The value for the agent and choices that a row of micro data stands for. -/
noncomputable def rowValue {Mk : Type} (arrays : Mk → WeightsArray) (value : (t : Mk) → ℕ → MicroCell (Fin (arrays t).J) → ℝ) (row : SimulatedRow Mk) : ℝ :=
  if h : ∃ c, StandsFor arrays row row.market row.agent c then value row.market row.agent h.choose else 0

/-- The average of values over rows of simulated micro data. -/
noncomputable def sampleAverage {Mk : Type} (arrays : Mk → WeightsArray) (value : (t : Mk) → ℕ → MicroCell (Fin (arrays t).J) → ℝ) :
    Except PyErr (List (SimulatedRow Mk)) → ℝ
  | .ok rows => (rows.map (rowValue arrays value)).sum / rows.length
  | .error _ => 0

end Spec

section
variable {Mk : Type} {order : List Mk} {arrays : Mk → WeightsArray} {maxI maxJ : ℕ}

lemma rowValue_eq {value : (t : Mk) → ℕ → MicroCell (Fin (arrays t).J) → ℝ} {row : SimulatedRow Mk} {c : MicroCell (Fin (arrays row.market).J)}
    (h : Spec.MeansCell (arrays row.market).shape row.choice row.second c) : Spec.rowValue arrays value row = value row.market row.agent c := by
  have hex : ∃ c, Spec.StandsFor arrays row row.market row.agent c := ⟨c, rfl, rfl, h⟩
  unfold Spec.rowValue
  rw [dif_pos hex, meansCell_choice hex.choose_spec.2.2 h]

lemma rowValue_mul (value value2 : (t : Mk) → ℕ → MicroCell (Fin (arrays t).J) → ℝ) (row : SimulatedRow Mk) :
    Spec.rowValue arrays (fun t i c => value t i c * value2 t i c) row = Spec.rowValue arrays value row * Spec.rowValue arrays value2 row := by
  unfold Spec.rowValue
  split_ifs
  · rfl
  · simp

/-- The value of an entry. -/
noncomputable def entryValue (arrays : Mk → WeightsArray) (value : (t : Mk) → ℕ → MicroCell (Fin (arrays t).J) → ℝ) (x : Mk × WeightsEntry) : ℝ :=
  Spec.rowValue arrays value ⟨0, x.1, x.2.agent, x.2.choice, x.2.second⟩

lemma sum_filterMap_weighted {α : Type} (l : List α) (f v : α → ℝ) (g : α → WeightsEntry) (F : WeightsEntry → ℝ) (hF : ∀ a ∈ l, F (g a) = f a * v a) :
    ((l.filterMap fun a => if f a = 0 then none else some (g a)).map F).sum = (l.map fun a => f a * v a).sum := by
  induction l with
  | nil => rfl
  | cons a l ih =>
    have ih' := ih fun b hb => hF b (List.mem_cons_of_mem _ hb)
    by_cases h : f a = 0
    · simp only [List.filterMap_cons, List.map_cons, List.sum_cons, h, if_true, zero_mul, zero_add]
      exact ih'
    · simp only [List.filterMap_cons, if_neg h, List.map_cons, List.sum_cons, hF a List.mem_cons_self]
      rw [ih']

lemma sum_entries_value (order : List Mk) (arrays : Mk → WeightsArray) (value : (t : Mk) → ℕ → MicroCell (Fin (arrays t).J) → ℝ) :
    ((allEntries order arrays).map fun x => x.2.weight * entryValue arrays value x).sum =
      (order.map fun t => ∑ i ∈ Finset.range (arrays t).I, ∑ c ∈ (arrays t).shape.cells, (arrays t).weight i c * value t i c).sum := by
  rw [← flatMap_entries order arrays fun t x => x.weight * entryValue arrays value (t, x), List.flatMap_def, List.sum_flatten, List.map_map]
  congr 1
  refine List.map_congr_left fun t _ => ?_
  simp only [Function.comp]
  unfold nonzeroEntries
  rw [List.map_flatMap, List.flatMap_def, List.sum_flatten, List.map_map, ← List.sum_toFinset _ List.nodup_range, List.toFinset_range]
  refine Finset.sum_congr rfl fun i _ => ?_
  simp only [Function.comp]
  rw [← sum_rowPositions (arrays t).shape fun c => (arrays t).weight i c * value t i c]
  refine sum_filterMap_weighted (rowPositions (arrays t).J (arrays t).shape) (fun p => (arrays t).weight i p.2.2) (fun p => value t i p.2.2)
    (fun p => ⟨i, p.1, p.2.1, (arrays t).weight i p.2.2⟩) (fun x => x.weight * entryValue arrays value (t, x)) fun p hp => ?_
  simp only
  congr 1
  exact rowValue_eq (row := ⟨0, t, i, p.1, p.2.1⟩) (mem_rowPositions.mp hp)

/-- Weights of entries. -/
noncomputable abbrev entryWeights (order : List Mk) (arrays : Mk → WeightsArray) : List ℝ := (allEntries order arrays).map fun x => x.2.weight

/-- The value of an observation as a function of a uniform number. -/
noncomputable def drawnValue (order : List Mk) (arrays : Mk → WeightsArray) (value : (t : Mk) → ℕ → MicroCell (Fin (arrays t).J) → ℝ) (u : ℝ) : ℝ :=
  ∑ k : Fin (allEntries order arrays).length, (Set.Ico (((entryWeights order arrays).take k).sum / (entryWeights order arrays).sum)
    (((entryWeights order arrays).take (k + 1)).sum / (entryWeights order arrays).sum)).indicator (fun _ => entryValue arrays value (allEntries order arrays)[k]) u

lemma drawnValue_measurable (value : (t : Mk) → ℕ → MicroCell (Fin (arrays t).J) → ℝ) : Measurable (drawnValue order arrays value) :=
  Finset.measurable_sum _ fun _ _ => measurable_const.indicator measurableSet_Ico

lemma drawnValue_bounded (value : (t : Mk) → ℕ → MicroCell (Fin (arrays t).J) → ℝ) : ∃ B, ∀ u, |drawnValue order arrays value u| ≤ B := by
  refine ⟨∑ k : Fin (allEntries order arrays).length, |entryValue arrays value (allEntries order arrays)[k]|, fun u => ?_⟩
  refine (Finset.abs_sum_le_sum_abs _ _).trans (Finset.sum_le_sum fun k _ => ?_)
  unfold Set.indicator
  split_ifs
  · exact le_rfl
  · rw [abs_zero]
    exact abs_nonneg _

lemma drawnValue_eq (hv : Spec.ValidArrays order arrays maxI maxJ) (hne : allEntries order arrays ≠ [])
    (value : (t : Mk) → ℕ → MicroCell (Fin (arrays t).J) → ℝ) (n : ℕ) {u : ℝ} (h0 : 0 ≤ u) (h1 : u < 1) :
    ∃ row, simulateRow order arrays maxI maxJ n u = .ok row ∧ Spec.rowValue arrays value row = drawnValue order arrays value u := by
  obtain ⟨k, hk, hd, hrow⟩ := simulateRow_eq (maxI := maxI) (maxJ := maxJ) hv hne n u h0 h1
  refine ⟨_, hrow, ?_⟩
  have hiff := (drawIndex_iff (entryWeights order arrays) (allEntries_pos hv) (by simpa using hne) u h0 h1).2.2
  unfold drawnValue
  rw [Finset.sum_eq_single (⟨k, hk⟩ : Fin (allEntries order arrays).length)]
  · rw [Set.indicator_of_mem (by exact (hiff k (by simpa using hk)).mp hd)]
    unfold entryValue Spec.rowValue
    rfl
  · intro k' _ hkk
    refine Set.indicator_of_notMem (fun hm => hkk ?_) _
    have := (hiff k' (by simp)).mpr hm
    rw [hd] at this
    exact Fin.ext (Except.ok.inj this).symm
  · intro h
    exact absurd (Finset.mem_univ _) h

lemma drawnValue_integral (hv : Spec.ValidArrays order arrays maxI maxJ) (hpos : 0 < Spec.totalWeight order arrays)
    (value : (t : Mk) → ℕ → MicroCell (Fin (arrays t).J) → ℝ) :
    ∫ u in Set.Ico (0 : ℝ) 1, drawnValue order arrays value u = Spec.surveyAverage order arrays value := by
  have hW : 0 < (entryWeights order arrays).sum := by
    rw [sum_allEntries]
    exact hpos
  have hw' : ∀ x ∈ entryWeights order arrays, 0 ≤ x := fun x hx => (allEntries_pos hv x hx).le
  unfold drawnValue
  rw [integral_finsetSum _ fun k _ => (integrable_const _).indicator measurableSet_Ico]
  have hterm : ∀ k : Fin (allEntries order arrays).length, ∫ u in Set.Ico (0 : ℝ) 1, (Set.Ico (((entryWeights order arrays).take k).sum / (entryWeights order arrays).sum)
      (((entryWeights order arrays).take (k + 1)).sum / (entryWeights order arrays).sum)).indicator (fun _ => entryValue arrays value (allEntries order arrays)[k]) u =
      (allEntries order arrays)[k].2.weight * entryValue arrays value (allEntries order arrays)[k] / (entryWeights order arrays).sum := by
    intro k
    have hk : (k : ℕ) < (entryWeights order arrays).length := by simp
    rw [integral_indicator_const _ measurableSet_Ico, measureReal_restrict_apply measurableSet_Ico, smul_eq_mul]
    have hin : Set.Ico (((entryWeights order arrays).take k).sum / (entryWeights order arrays).sum)
        (((entryWeights order arrays).take (k + 1)).sum / (entryWeights order arrays).sum) ∩ Set.Ico 0 1 =
        Set.Ico (((entryWeights order arrays).take k).sum / (entryWeights order arrays).sum)
          (((entryWeights order arrays).take (k + 1)).sum / (entryWeights order arrays).sum) := by
      refine Set.inter_eq_left.mpr (Set.Ico_subset_Ico ?_ ?_)
      · exact div_nonneg (List.sum_nonneg fun x hx => hw' x (List.mem_of_mem_take hx)) hW.le
      · rw [div_le_one hW]
        refine (sum_take_mono _ hw' (show (k : ℕ) + 1 ≤ (entryWeights order arrays).length by omega)).trans ?_
        rw [List.take_length]
    have hstep : ((entryWeights order arrays).take (k + 1)).sum = ((entryWeights order arrays).take k).sum + (allEntries order arrays)[k].2.weight := by
      rw [List.take_add_one, List.getElem?_eq_getElem hk, List.sum_append]
      simp
    have hle : ((entryWeights order arrays).take k).sum / (entryWeights order arrays).sum ≤
        ((entryWeights order arrays).take (k + 1)).sum / (entryWeights order arrays).sum :=
      div_le_div_of_nonneg_right (sum_take_mono _ hw' (by omega)) hW.le
    rw [hin, Real.volume_real_Ico_of_le hle, hstep]
    ring
  rw [Finset.sum_congr rfl fun k _ => hterm k, ← Finset.sum_div]
  unfold Spec.surveyAverage
  rw [← sum_entries_value, ← sum_allEntries order arrays]
  congr 1
  rw [← List.sum_ofFn]
  congr 1
  refine List.ext_getElem (by simp) fun i h1 h2 => ?_
  simp

lemma nonempty_of_totalWeight (hpos : 0 < Spec.totalWeight order arrays) : allEntries order arrays ≠ [] := by
  intro h
  rw [← sum_allEntries, h] at hpos
  exact lt_irrefl _ hpos

lemma drawnValue_mul (hv : Spec.ValidArrays order arrays maxI maxJ) (hpos : 0 < Spec.totalWeight order arrays)
    (value value2 : (t : Mk) → ℕ → MicroCell (Fin (arrays t).J) → ℝ) {u : ℝ} (hu : u ∈ Set.Ico (0 : ℝ) 1) :
    drawnValue order arrays (fun t i c => value t i c * value2 t i c) u = drawnValue order arrays value u * drawnValue order arrays value2 u := by
  have hne := nonempty_of_totalWeight hpos
  obtain ⟨row, h, e⟩ := drawnValue_eq hv hne (fun t i c => value t i c * value2 t i c) 0 hu.1 hu.2
  obtain ⟨row1, h1, e1⟩ := drawnValue_eq hv hne value 0 hu.1 hu.2
  obtain ⟨row2, h2, e2⟩ := drawnValue_eq hv hne value2 0 hu.1 hu.2
  rw [h] at h1 h2
  obtain rfl := Except.ok.inj h1
  obtain rfl := Except.ok.inj h2
  rw [← e, ← e1, ← e2, rowValue_mul]

/-- Averages over simulated micro data are averages of functions of uniform numbers. -/
lemma sampleAverage_eq (hv : Spec.ValidArrays order arrays maxI maxJ) (hpos : 0 < Spec.totalWeight order arrays)
    (value : (t : Mk) → ℕ → MicroCell (Fin (arrays t).J) → ℝ) (N : ℕ) (uniform : ℕ → ℝ) (hu : ∀ n, 0 ≤ uniform n ∧ uniform n < 1) :
    Spec.sampleAverage arrays value (simulateMicroData order arrays maxI maxJ N uniform) =
      (∑ n ∈ Finset.range N, drawnValue order arrays value (uniform n)) / N := by
  rcases Nat.eq_zero_or_pos N with rfl | hN
  · unfold simulateMicroData
    rw [if_neg (mixed_false hv)]
    simp [collect, Spec.sampleAverage]
  obtain ⟨rows, hrows⟩ := (C89_succeeds hv N hN uniform hu).1 hpos
  obtain ⟨hlen, hget⟩ := simulate_get hv N uniform rows hrows
  rw [hrows]
  unfold Spec.sampleAverage
  simp only
  rw [hlen]
  congr 1
  have : rows.map (Spec.rowValue arrays value) = (List.range N).map fun n => drawnValue order arrays value (uniform n) := by
    refine List.ext_getElem (by simp [hlen]) fun n h1 h2 => ?_
    have hn : n < rows.length := by simpa using h1
    have h := hget n rows[n] (List.getElem?_eq_getElem hn)
    obtain ⟨row, h', e⟩ := drawnValue_eq hv (nonempty_of_totalWeight hpos) value n (hu n).1 (hu n).2
    rw [h] at h'
    obtain rfl := Except.ok.inj h'
    simpa using e
  rw [this, ← List.sum_toFinset _ List.nodup_range, List.toFinset_range]

section random
variable {Ω : Type} [MeasurableSpace Ω] {μ : Measure Ω} [IsProbabilityMeasure μ] {uniform : ℕ → Ω → ℝ}

/-- The uniform distribution. -/
noncomputable abbrev unitLaw : Measure ℝ := volume.restrict (Set.Ico (0 : ℝ) 1)

instance : IsProbabilityMeasure unitLaw := ⟨by simp [unitLaw]⟩

lemma uniform_range (hu : Draws μ unitLaw uniform) : ∀ᵐ ω ∂μ, ∀ n, 0 ≤ uniform n ω ∧ uniform n ω < 1 := by
  rw [ae_all_iff]
  intro n
  have : ∀ᵐ x ∂(μ.map (uniform n)), x ∈ Set.Ico (0 : ℝ) 1 := by
    rw [hu.law n]
    exact ae_restrict_mem measurableSet_Ico
  exact ae_of_ae_map (hu.measurable n).aemeasurable this

lemma drawnValue_memLp (value : (t : Mk) → ℕ → MicroCell (Fin (arrays t).J) → ℝ) : MemLp (drawnValue order arrays value) 2 unitLaw := by
  obtain ⟨B, hB⟩ := drawnValue_bounded (order := order) value
  exact MemLp.of_bound (drawnValue_measurable value).aestronglyMeasurable B (Eventually.of_forall hB)

lemma drawnValue_product (hv : Spec.ValidArrays order arrays maxI maxJ) (hpos : 0 < Spec.totalWeight order arrays)
    (value value2 : (t : Mk) → ℕ → MicroCell (Fin (arrays t).J) → ℝ) :
    ∫ u, drawnValue order arrays value u * drawnValue order arrays value2 u ∂unitLaw =
      Spec.surveyAverage order arrays fun t i c => value t i c * value2 t i c := by
  rw [← drawnValue_integral hv hpos]
  refine integral_congr_ae ?_
  filter_upwards [ae_restrict_mem measurableSet_Ico] with u hu
  exact (drawnValue_mul hv hpos value value2 hu).symm

lemma sampleAverage_ae (hv : Spec.ValidArrays order arrays maxI maxJ) (hpos : 0 < Spec.totalWeight order arrays) (hu : Draws μ unitLaw uniform)
    (value : (t : Mk) → ℕ → MicroCell (Fin (arrays t).J) → ℝ) (N : ℕ) :
    (fun ω => Spec.sampleAverage arrays value (simulateMicroData order arrays maxI maxJ N fun n => uniform n ω)) =ᵐ[μ]
      fun ω => (∑ n ∈ Finset.range N, drawnValue order arrays value (uniform n ω)) / N := by
  filter_upwards [uniform_range hu] with ω hω
  exact sampleAverage_eq hv hpos value N _ hω

/-- **C143.** The expectation of an average over simulated micro data is the average over the dataset, whatever the number of observations. -/
theorem C143_unbiased (hv : Spec.ValidArrays order arrays maxI maxJ) (hpos : 0 < Spec.totalWeight order arrays) (hu : Draws μ unitLaw uniform)
    (value : (t : Mk) → ℕ → MicroCell (Fin (arrays t).J) → ℝ) (N : ℕ) (hN : 0 < N) :
    ∫ ω, Spec.sampleAverage arrays value (simulateMicroData order arrays maxI maxJ N fun n => uniform n ω) ∂μ = Spec.surveyAverage order arrays value := by
  rw [integral_congr_ae (sampleAverage_ae hv hpos hu value N), integral_div,
    integral_finsetSum _ fun n _ => hu.integrable _ (drawnValue_measurable value) ((drawnValue_memLp value).integrable (by norm_num)) n,
    Finset.sum_congr rfl fun n _ => hu.integral _ (drawnValue_measurable value) n, drawnValue_integral hv hpos]
  have : (N : ℝ) ≠ 0 := by exact_mod_cast hN.ne'
  simp
  field_simp

/-- **C143.** The covariance of averages over simulated micro data is the covariance of values over the dataset, divided by the number of observations. -/
theorem C143_covariance (hv : Spec.ValidArrays order arrays maxI maxJ) (hpos : 0 < Spec.totalWeight order arrays) (hu : Draws μ unitLaw uniform)
    (value value2 : (t : Mk) → ℕ → MicroCell (Fin (arrays t).J) → ℝ) (N : ℕ) (hN : 0 < N) :
    cov[fun ω => Spec.sampleAverage arrays value (simulateMicroData order arrays maxI maxJ N fun n => uniform n ω),
      fun ω => Spec.sampleAverage arrays value2 (simulateMicroData order arrays maxI maxJ N fun n => uniform n ω); μ] =
    (Spec.surveyAverage order arrays (fun t i c => value t i c * value2 t i c) -
      Spec.surveyAverage order arrays value * Spec.surveyAverage order arrays value2) / N := by
  have hN' : (N : ℝ) ≠ 0 := by exact_mod_cast hN.ne'
  have hae1 := sampleAverage_ae (maxI := maxI) (maxJ := maxJ) hv hpos hu value N
  have hae2 := sampleAverage_ae (maxI := maxI) (maxJ := maxJ) hv hpos hu value2 N
  have hcongr : cov[fun ω => Spec.sampleAverage arrays value (simulateMicroData order arrays maxI maxJ N fun n => uniform n ω),
      fun ω => Spec.sampleAverage arrays value2 (simulateMicroData order arrays maxI maxJ N fun n => uniform n ω); μ] =
      cov[fun ω => (∑ n ∈ Finset.range N, drawnValue order arrays value (uniform n ω)) / N,
        fun ω => (∑ n ∈ Finset.range N, drawnValue order arrays value2 (uniform n ω)) / N; μ] := by
    unfold covariance
    rw [integral_congr_ae hae1, integral_congr_ae hae2]
    refine integral_congr_ae ?_
    filter_upwards [hae1, hae2] with ω h1 h2
    rw [h1, h2]
  have hm1 : ∀ n, MemLp (fun ω => drawnValue order arrays value (uniform n ω)) 2 μ := hu.memLp (drawnValue_measurable value) (drawnValue_memLp value)
  have hm2 : ∀ n, MemLp (fun ω => drawnValue order arrays value2 (uniform n ω)) 2 μ := hu.memLp (drawnValue_measurable value2) (drawnValue_memLp value2)
  rw [hcongr, covariance_fun_div_left, covariance_fun_div_right, covariance_fun_sum_fun_sum' (fun n _ => hm1 n) (fun n _ => hm2 n)]
  have hterm : ∀ n ∈ Finset.range N, ∑ k ∈ Finset.range N, cov[fun ω => drawnValue order arrays value (uniform n ω),
      fun ω => drawnValue order arrays value2 (uniform k ω); μ] = Spec.surveyAverage order arrays (fun t i c => value t i c * value2 t i c) -
      Spec.surveyAverage order arrays value * Spec.surveyAverage order arrays value2 := by
    intro n hn
    rw [Finset.sum_eq_single_of_mem n hn]
    · rw [covariance_eq_sub (hm1 n) (hm2 n)]
      simp only [Pi.mul_apply]
      rw [hu.integral _ (drawnValue_measurable value) n, hu.integral _ (drawnValue_measurable value2) n,
        hu.integral (fun x => drawnValue order arrays value x * drawnValue order arrays value2 x)
          ((drawnValue_measurable value).mul (drawnValue_measurable value2)) n, drawnValue_product hv hpos,
        drawnValue_integral hv hpos, drawnValue_integral hv hpos]
    · intro k _ hk
      exact IndepFun.covariance_eq_zero ((hu.indep hk.symm).comp (drawnValue_measurable value) (drawnValue_measurable value2)) (hm1 n) (hm2 k)
  rw [Finset.sum_congr rfl hterm, Finset.sum_const, Finset.card_range, nsmul_eq_mul]
  field_simp

/-- **C143.** As the number of observations grows, averages over simulated micro data almost surely converge to averages over the dataset. -/
theorem C143_consistent (hv : Spec.ValidArrays order arrays maxI maxJ) (hpos : 0 < Spec.totalWeight order arrays) (hu : Draws μ unitLaw uniform)
    (value : (t : Mk) → ℕ → MicroCell (Fin (arrays t).J) → ℝ) :
    ∀ᵐ ω ∂μ, Tendsto (fun N => Spec.sampleAverage arrays value (simulateMicroData order arrays maxI maxJ N fun n => uniform n ω)) atTop
      (𝓝 (Spec.surveyAverage order arrays value)) := by
  filter_upwards [uniform_range hu, hu.strong_law _ (drawnValue_measurable (order := order) value) ((drawnValue_memLp value).integrable (by norm_num))] with ω h1 h2
  rw [drawnValue_integral hv hpos] at h2
  exact h2.congr fun N => (sampleAverage_eq hv hpos value N _ h1).symm

/-! ## Smooth functions of averages -/

/-- Slopes of a function between a point and others. -/
noncomputable def chordSlopes {n : ℕ} (f : (Fin n → ℝ) → ℝ) (g x0 x : Fin n → ℝ) (k : Fin n) : ℝ :=
  g k + (f x - f x0 - ∑ l, g l * (x l - x0 l)) * (x k - x0 k) / ∑ l, (x l - x0 l) ^ 2

lemma chordSlopes_eq {n : ℕ} (f : (Fin n → ℝ) → ℝ) (g x0 x : Fin n → ℝ) : f x - f x0 = ∑ k, chordSlopes f g x0 x k * (x k - x0 k) := by
  unfold chordSlopes
  by_cases h : ∑ l, (x l - x0 l) ^ 2 = 0
  · have h0 : x = x0 := by
      funext l
      have := (Finset.sum_eq_zero_iff_of_nonneg fun l _ => sq_nonneg (x l - x0 l)).mp h l (Finset.mem_univ l)
      linarith [pow_eq_zero_iff (two_ne_zero) |>.mp this]
    simp [h0]
  · have e : ∀ k, (g k + (f x - f x0 - ∑ l, g l * (x l - x0 l)) * (x k - x0 k) / ∑ l, (x l - x0 l) ^ 2) * (x k - x0 k) =
        g k * (x k - x0 k) + (f x - f x0 - ∑ l, g l * (x l - x0 l)) / (∑ l, (x l - x0 l) ^ 2) * (x k - x0 k) ^ 2 := fun k => by ring
    rw [Finset.sum_congr rfl fun k _ => e k, Finset.sum_add_distrib, ← Finset.mul_sum, div_mul_cancel₀ _ h]
    ring

lemma chordSlopes_tendsto {n : ℕ} {f : (Fin n → ℝ) → ℝ} {L : (Fin n → ℝ) →L[ℝ] ℝ} {x0 : Fin n → ℝ} (hf : HasFDerivAt f L x0) {g : Fin n → ℝ}
    (hg : ∀ h, L h = ∑ k, g k * h k) (k : Fin n) : Tendsto (fun x => chordSlopes f g x0 x k) (𝓝 x0) (𝓝 (g k)) := by
  rw [Metric.tendsto_nhds]
  intro ε hε
  filter_upwards [(hasFDerivAt_iff_isLittleO.mp hf).def (half_pos hε)] with x hx
  rw [hg] at hx
  simp only [Pi.sub_apply, Real.norm_eq_abs] at hx
  rw [Real.dist_eq]
  unfold chordSlopes
  rw [add_sub_cancel_left, abs_div, abs_mul]
  by_cases h : x = x0
  · subst h
    simpa using hε
  have hnorm : 0 < ‖x - x0‖ := norm_pos_iff.mpr (sub_ne_zero.mpr h)
  have hk : |x k - x0 k| ≤ ‖x - x0‖ := by
    have := norm_le_pi_norm (x - x0) k
    simpa using this
  have hsq : ‖x - x0‖ ^ 2 ≤ ∑ l, (x l - x0 l) ^ 2 := by
    have hn0 : Nonempty (Fin n) := ⟨k⟩
    obtain ⟨l, hl⟩ := Finite.exists_max fun l => ‖(x - x0) l‖
    have hle : ‖x - x0‖ ≤ ‖(x - x0) l‖ := (pi_norm_le_iff_of_nonneg (norm_nonneg _)).mpr hl
    calc ‖x - x0‖ ^ 2 ≤ ‖(x - x0) l‖ ^ 2 := pow_le_pow_left₀ (norm_nonneg _) hle 2
      _ = (x l - x0 l) ^ 2 := by rw [Real.norm_eq_abs, sq_abs]; rfl
      _ ≤ _ := Finset.single_le_sum (f := fun l => (x l - x0 l) ^ 2) (fun l _ => sq_nonneg _) (Finset.mem_univ l)
  have hpos' : 0 < ∑ l, (x l - x0 l) ^ 2 := (pow_pos hnorm 2).trans_le hsq
  rw [abs_of_pos hpos', div_lt_iff₀ hpos']
  calc |f x - f x0 - ∑ l, g l * (x l - x0 l)| * |x k - x0 k| ≤ (ε / 2 * ‖x - x0‖) * ‖x - x0‖ := mul_le_mul hx hk (abs_nonneg _) (by positivity)
    _ = ε / 2 * ‖x - x0‖ ^ 2 := by ring
    _ ≤ ε / 2 * ∑ l, (x l - x0 l) ^ 2 := mul_le_mul_of_nonneg_left hsq (half_pos hε).le
    _ < ε * ∑ l, (x l - x0 l) ^ 2 := by nlinarith

/-- **C143.** A smooth function of averages over simulated micro data is approximately normal around its value for the dataset, with a variance that is
that of averages times gradients. -/
theorem C143_normal (hv : Spec.ValidArrays order arrays maxI maxJ) (hpos : 0 < Spec.totalWeight order arrays) (hu : Draws μ unitLaw uniform)
    (hind : iIndepFun uniform μ) {n : ℕ} (value : Fin n → (t : Mk) → ℕ → MicroCell (Fin (arrays t).J) → ℝ) {f : (Fin n → ℝ) → ℝ}
    {L : (Fin n → ℝ) →L[ℝ] ℝ} (hf : HasFDerivAt f L fun p => Spec.surveyAverage order arrays (value p)) {g : Fin n → ℝ} (hg : ∀ h, L h = ∑ k, g k * h k)
    (hV : 0 < ∑ a, ∑ b, g a * (Spec.surveyAverage order arrays (fun t i c => value a t i c * value b t i c) -
      Spec.surveyAverage order arrays (value a) * Spec.surveyAverage order arrays (value b)) * g b) {B : Set ℝ} (hB : gaussianReal 0 1 (frontier B) = 0) :
    Tendsto (fun N : ℕ => μ {ω | (f (fun p => Spec.sampleAverage arrays (value p) (simulateMicroData order arrays maxI maxJ N fun n => uniform n ω)) -
        f fun p => Spec.surveyAverage order arrays (value p)) /
      √(∑ a, ∑ b, g a * ((Spec.surveyAverage order arrays (fun t i c => value a t i c * value b t i c) -
        Spec.surveyAverage order arrays (value a) * Spec.surveyAverage order arrays (value b)) / N) * g b) ∈ B}) atTop (𝓝 (gaussianReal 0 1 B)) := by
  set x0 : Fin n → ℝ := fun p => Spec.surveyAverage order arrays (value p) with hx0
  set x : ℕ × Ω → Fin n → ℝ := fun i p => Spec.sampleAverage arrays (value p) (simulateMicroData order arrays maxI maxJ i.1 fun n => uniform n i.2) with hx
  have hprob : ∀ᶠ i in probably μ, ∀ n, 0 ≤ uniform n i.2 ∧ uniform n i.2 < 1 := by
    rw [eventually_probably]
    have h0 : μ {ω | ¬∀ n, 0 ≤ uniform n ω ∧ uniform n ω < 1} = 0 := ae_iff.mp (uniform_range hu)
    simp only [h0]
    exact tendsto_const_nhds
  have hone : ∀ᶠ i in probably μ, 0 < i.1 := eventually_fst (eventually_gt_atTop 0)
  have hxt : Tendsto x (probably μ) (𝓝 x0) := by
    rw [tendsto_pi_nhds]
    intro p
    refine tendsto_probably_of_ae (f := fun N ω => Spec.sampleAverage arrays (value p) (simulateMicroData order arrays maxI maxJ N fun n => uniform n ω))
      (fun N => ?_) (C143_consistent hv hpos hu (value p))
    refine AEStronglyMeasurable.congr ?_ (sampleAverage_ae hv hpos hu (value p) N).symm
    exact ((Finset.measurable_sum _ fun n _ => (drawnValue_measurable (value p)).comp (hu.measurable n)).div_const _).aestronglyMeasurable
  have hi : ∀ p, Integrable (drawnValue order arrays (value p)) unitLaw := fun p => (drawnValue_memLp (value p)).integrable (by norm_num)
  refine studentized_normal (N := fun i => i.1) (n0 := 1) (V := ∑ a, ∑ b, g a * (Spec.surveyAverage order arrays (fun t i c => value a t i c * value b t i c) -
      Spec.surveyAverage order arrays (value a) * Spec.surveyAverage order arrays (value b)) * g b) (A := fun i k => chordSlopes f g x0 (x i) k) (A0 := g)
    (v := fun _ => ∑ a, ∑ b, g a * (Spec.surveyAverage order arrays (fun t i c => value a t i c * value b t i c) -
      Spec.surveyAverage order arrays (value a) * Spec.surveyAverage order arrays (value b)) * g b)
    (s := fun p u => drawnValue order arrays (value p) u - x0 p) (estimate := fun i => f (x i) - f x0)
    (Y := fun i => (f (x i) - f x0) / √(∑ a, ∑ b, g a * ((Spec.surveyAverage order arrays (fun t i c => value a t i c * value b t i c) -
        Spec.surveyAverage order arrays (value a) * Spec.surveyAverage order arrays (value b)) / i.1) * g b))
    hu hind (fun p => (drawnValue_measurable (value p)).sub_const _) (fun p => (drawnValue_memLp (value p)).sub (memLp_const _)) (fun p => ?_) one_pos ?_
    (fun k => (chordSlopes_tendsto hf hg k).comp hxt) hV tendsto_const_nhds ?_ ?_ hB ?_
  · rw [integral_sub (hi p) (integrable_const _), drawnValue_integral hv hpos]
    simp [hx0]
  · refine tendsto_const_nhds.congr' ?_
    filter_upwards [hone] with i hi
    rw [div_self (by exact_mod_cast hi.ne')]
  · filter_upwards [hprob, hone] with i h1 h2
    have h2' : (i.1 : ℝ) ≠ 0 := by exact_mod_cast h2.ne'
    rw [chordSlopes_eq f g x0 (x i)]
    refine Finset.sum_congr rfl fun k _ => ?_
    congr 1
    simp only [hx]
    rw [sampleAverage_eq hv hpos (value k) i.1 _ h1, Finset.sum_sub_distrib, Finset.sum_const, Finset.card_range, nsmul_eq_mul]
    field_simp
  · refine Finset.sum_congr rfl fun a _ => Finset.sum_congr rfl fun b _ => ?_
    congr 2
    rw [div_one]
    have e : ∀ u, (drawnValue order arrays (value a) u - x0 a) * (drawnValue order arrays (value b) u - x0 b) =
        drawnValue order arrays (value a) u * drawnValue order arrays (value b) u - x0 b * drawnValue order arrays (value a) u -
          (x0 a * drawnValue order arrays (value b) u - x0 a * x0 b) := fun u => by ring
    simp only [e]
    have hab : Integrable (fun u => drawnValue order arrays (value a) u * drawnValue order arrays (value b) u) unitLaw :=
      (drawnValue_memLp (value a)).integrable_mul (drawnValue_memLp (value b))
    have h1 : Integrable (fun u => drawnValue order arrays (value a) u * drawnValue order arrays (value b) u - x0 b * drawnValue order arrays (value a) u) unitLaw :=
      hab.sub ((hi a).const_mul _)
    have h2 : Integrable (fun u => x0 a * drawnValue order arrays (value b) u - x0 a * x0 b) unitLaw := ((hi b).const_mul _).sub (integrable_const _)
    rw [integral_sub h1 h2, integral_sub hab ((hi a).const_mul _), integral_sub ((hi b).const_mul _) (integrable_const _), integral_const_mul,
      integral_const_mul, drawnValue_product hv hpos, drawnValue_integral hv hpos, drawnValue_integral hv hpos]
    simp [hx0]
    ring
  · filter_upwards with i
    congr 2
    rw [Finset.sum_div]
    refine Finset.sum_congr rfl fun a _ => ?_
    rw [Finset.sum_div]
    exact Finset.sum_congr rfl fun b _ => by ring

end random

end

/-! ## Values and covariances that are computed for micro moments -/

section computed
variable {T A D Q : Type} [Fintype T] [DecidableEq D] {J : ℕ} {m : T → MicroMarket A MicroShape (MicroCell (Fin J)) D Q} {shape : T → D → MicroShape}
  {weight : T → D → A → MicroCell (Fin J) → ℝ}

namespace Spec

/-- Micro data are simulated for dataset `d`: its markets are `order`, and weights are computed for all agents, with the user's functions. -/
structure SimulatesDataset {P : Type} (m : T → MicroMarket A MicroShape (MicroCell (Fin J)) D Q) (u : T → MicroFunctions A MicroShape (MicroCell (Fin J)) D P)
    (d : D) (order : List T) (y : T → DatasetChunk MicroShape (MicroCell (Fin J)) Q) : Prop where
  cells : ∀ t, (m t).cells = MicroShape.cells
  nodup : order.Nodup
  markets : ∀ t, t ∈ order ↔ (m t).included d = true
  weights : ∀ t ∈ order, datasetContributions (m t) (u t) d (List.range (m t).I) = .ok (y t)

end Spec

lemma simulated_sum {n : ℕ} {u : T → MicroFunctions A MicroShape (MicroCell (Fin J)) D (Fin n)} {dataset : Fin n → D}
    {value : Fin n → T → A → MicroCell (Fin J) → ℝ} (hu : ∀ t, Spec.RowByRow (m t) (u t) dataset (shape t) (weight t) (fun p => value p t)) {d : D}
    {order : List T} {y : T → DatasetChunk MicroShape (MicroCell (Fin J)) Q} (h : Spec.SimulatesDataset m u d order y)
    (f : T → ℕ → MicroCell (Fin J) → ℝ) :
    (order.map fun t => ∑ i ∈ Finset.range (weightsArray (m t).I (y t)).I, ∑ c ∈ (weightsArray (m t).I (y t)).shape.cells,
      (weightsArray (m t).I (y t)).weight i c * f t i c).sum = Spec.overDataset m shape weight d f := by
  classical
  unfold Spec.overDataset
  rw [← List.sum_toFinset _ h.nodup, ← Finset.sum_filter]
  refine Finset.sum_congr (by ext t; simp [h.markets t]) fun t ht => ?_
  have ht' : t ∈ order := (h.markets t).mpr (by simpa using ht)
  obtain ⟨w, hw, hlen, -, hy⟩ := datasetContributions_ok (h.weights t ht')
  rw [(hu t).weights] at hw
  obtain rfl := (Option.some.inj hw).symm
  unfold Spec.overMarket
  rw [h.cells t, hy]
  refine Finset.sum_congr rfl fun i hi => Finset.sum_congr rfl fun c _ => ?_
  congr 1
  have hi' : i < (m t).I := Finset.mem_range.mp hi
  unfold weightsArray Spec.cellWeight
  simp [List.getD_eq_getElem?_getD, hi']

lemma simulated_total {n : ℕ} {u : T → MicroFunctions A MicroShape (MicroCell (Fin J)) D (Fin n)} {dataset : Fin n → D}
    {value : Fin n → T → A → MicroCell (Fin J) → ℝ} (hu : ∀ t, Spec.RowByRow (m t) (u t) dataset (shape t) (weight t) (fun p => value p t)) {d : D}
    {order : List T} {y : T → DatasetChunk MicroShape (MicroCell (Fin J)) Q} (h : Spec.SimulatesDataset m u d order y) :
    Spec.totalWeight order (fun t => weightsArray (m t).I (y t)) = Spec.overDataset m shape weight d fun _ _ _ => 1 := by
  rw [← simulated_sum hu h]
  simp only [mul_one]
  rfl

lemma simulated_average {n : ℕ} {u : T → MicroFunctions A MicroShape (MicroCell (Fin J)) D (Fin n)} {dataset : Fin n → D}
    {value : Fin n → T → A → MicroCell (Fin J) → ℝ} (hu : ∀ t, Spec.RowByRow (m t) (u t) dataset (shape t) (weight t) (fun p => value p t)) {d : D}
    {order : List T} {y : T → DatasetChunk MicroShape (MicroCell (Fin J)) Q} (h : Spec.SimulatesDataset m u d order y)
    (f : T → ℕ → MicroCell (Fin J) → ℝ) :
    Spec.surveyAverage order (fun t => weightsArray (m t).I (y t)) f = Spec.average m shape weight d f := by
  unfold Spec.surveyAverage Spec.average
  rw [simulated_total hu h, simulated_sum hu h]

variable {Ω : Type} [MeasurableSpace Ω] {μ : Measure Ω} [IsProbabilityMeasure μ] {uniform : ℕ → Ω → ℝ}

/-- The computed value of a part is the average over the dataset. -/
lemma part_value {n : ℕ} {u : T → MicroFunctions A MicroShape (MicroCell (Fin J)) D (Fin n)} {dataset : Fin n → D}
    {value : Fin n → T → A → MicroCell (Fin J) → ℝ} (hu : ∀ t, Spec.RowByRow (m t) (u t) dataset (shape t) (weight t) (fun p => value p t))
    (chunks : ℤ) (hc : 1 ≤ chunks) (x : T → Fin n → PartContribution (Fin n) Q)
    (hx : ∀ t p, microContributions (m t) (u t) dataset ((List.finRange n).filter fun p2 => decide (p2 ≤ p)) p chunks = .ok (x t p)) (p : Fin n) :
    (∑ t, (x t p).numerator) / (∑ t, (x t p).denominator) = Spec.average m shape weight (dataset p) (fun t i c => value p t ((m t).row i) c) := by
  unfold Spec.average Spec.overDataset
  rw [Finset.sum_congr rfl fun t _ => (contribution_eq hu chunks hc t p (x t p) (hx t p)).1,
    Finset.sum_congr rfl fun t _ => (contribution_eq hu chunks hc t p (x t p) (hx t p)).2.1]

/-- **C143.** For micro data that are simulated for a dataset with `N` observations, expectations of averages of the values of parts are the computed values
of parts, and their covariances are the computed covariances of parts for `N` observations. -/
theorem C143_parts {n : ℕ} {u : T → MicroFunctions A MicroShape (MicroCell (Fin J)) D (Fin n)} {dataset : Fin n → D}
    {value : Fin n → T → A → MicroCell (Fin J) → ℝ} (hu : ∀ t, Spec.RowByRow (m t) (u t) dataset (shape t) (weight t) (fun p => value p t))
    (chunks : ℤ) (hc : 1 ≤ chunks) (x : T → Fin n → PartContribution (Fin n) Q)
    (hx : ∀ t p, microContributions (m t) (u t) dataset ((List.finRange n).filter fun p2 => decide (p2 ≤ p)) p chunks = .ok (x t p))
    {d : D} {order : List T} {y : T → DatasetChunk MicroShape (MicroCell (Fin J)) Q} (h : Spec.SimulatesDataset m u d order y)
    {maxI maxJ : ℕ} (hv : Spec.ValidArrays order (fun t => weightsArray (m t).I (y t)) maxI maxJ)
    (hpos : 0 < Spec.totalWeight order fun t => weightsArray (m t).I (y t)) (hU : Draws μ unitLaw uniform) (N : ℕ) (hN : 0 < N)
    (observations : D → ℕ) (hobs : observations d = N) (a b : Fin n) (ha : dataset a = d) (hb : dataset b = d) :
    ∫ ω, Spec.sampleAverage (fun t => weightsArray (m t).I (y t)) (fun t i c => value a t ((m t).row i) c)
        (simulateMicroData order (fun t => weightsArray (m t).I (y t)) maxI maxJ N fun n => uniform n ω) ∂μ =
      (∑ t, (x t a).numerator) / (∑ t, (x t a).denominator) ∧
    cov[fun ω => Spec.sampleAverage (fun t => weightsArray (m t).I (y t)) (fun t i c => value a t ((m t).row i) c)
        (simulateMicroData order (fun t => weightsArray (m t).I (y t)) maxI maxJ N fun n => uniform n ω),
      fun ω => Spec.sampleAverage (fun t => weightsArray (m t).I (y t)) (fun t i c => value b t ((m t).row i) c)
        (simulateMicroData order (fun t => weightsArray (m t).I (y t)) maxI maxJ N fun n => uniform n ω); μ] =
      partsCovariances (fun p2 p => ∑ t, (x t p).covariances p2) (fun p => ∑ t, (x t p).denominator)
        (fun p => (∑ t, (x t p).numerator) / ∑ t, (x t p).denominator) dataset observations a b := by
  constructor
  · rw [part_value hu chunks hc x hx a, ha, ← simulated_average hu h]
    exact C143_unbiased hv hpos hU _ N hN
  · rw [C57_parts hu observations chunks hc x hx a b]
    unfold Spec.partCovariance
    rw [if_pos (ha.trans hb.symm), ha, hobs, ← simulated_average hu h, ← simulated_average hu h, ← simulated_average hu h]
    exact C143_covariance hv hpos hU _ _ N hN

/-- **C143.** Differences between micro moments of simulated data and the computed micro value, relative to the computed standard deviation for the number of
simulated observations, are approximately standard normal: the function of parts need only be differentiable, with the gradient that the user provides. -/
theorem C143_moments {n : ℕ} {u : T → MicroFunctions A MicroShape (MicroCell (Fin J)) D (Fin n)} {dataset : Fin n → D}
    {value : Fin n → T → A → MicroCell (Fin J) → ℝ} (hu : ∀ t, Spec.RowByRow (m t) (u t) dataset (shape t) (weight t) (fun p => value p t))
    (chunks : ℤ) (hc : 1 ≤ chunks) (x : T → Fin n → PartContribution (Fin n) Q)
    (hx : ∀ t p, microContributions (m t) (u t) dataset ((List.finRange n).filter fun p2 => decide (p2 ≤ p)) p chunks = .ok (x t p))
    {d : D} {order : List T} {y : T → DatasetChunk MicroShape (MicroCell (Fin J)) Q} (h : Spec.SimulatesDataset m u d order y) (hd : ∀ p, dataset p = d)
    {maxI maxJ : ℕ} (hv : Spec.ValidArrays order (fun t => weightsArray (m t).I (y t)) maxI maxJ)
    (hpos : 0 < Spec.totalWeight order fun t => weightsArray (m t).I (y t)) (hU : Draws μ unitLaw uniform) (hind : iIndepFun uniform μ)
    {f : (Fin n → ℝ) → ℝ} {L : (Fin n → ℝ) →L[ℝ] ℝ} (hf : HasFDerivAt f L fun p => (∑ t, (x t p).numerator) / ∑ t, (x t p).denominator)
    (gradients : Fin 1 → Fin n → ℝ) (hg : ∀ h, L h = ∑ k, gradients 0 k * h k)
    (hV : 0 < microCovariances gradients (partsCovariances (fun p2 p => ∑ t, (x t p).covariances p2) (fun p => ∑ t, (x t p).denominator)
        (fun p => (∑ t, (x t p).numerator) / ∑ t, (x t p).denominator) dataset fun _ => 1) 0 0)
    {B : Set ℝ} (hB : gaussianReal 0 1 (frontier B) = 0) :
    Tendsto (fun N : ℕ => μ {ω | (f (fun p => Spec.sampleAverage (fun t => weightsArray (m t).I (y t)) (fun t i c => value p t ((m t).row i) c)
          (simulateMicroData order (fun t => weightsArray (m t).I (y t)) maxI maxJ N fun n => uniform n ω)) -
        f fun p => (∑ t, (x t p).numerator) / ∑ t, (x t p).denominator) /
      √(microCovariances gradients (partsCovariances (fun p2 p => ∑ t, (x t p).covariances p2) (fun p => ∑ t, (x t p).denominator)
        (fun p => (∑ t, (x t p).numerator) / ∑ t, (x t p).denominator) dataset fun _ => N) 0 0) ∈ B}) atTop (𝓝 (gaussianReal 0 1 B)) := by
  have hval : (fun p => (∑ t, (x t p).numerator) / ∑ t, (x t p).denominator) =
      fun p => Spec.surveyAverage order (fun t => weightsArray (m t).I (y t)) (fun t i c => value p t ((m t).row i) c) := by
    funext p
    rw [part_value hu chunks hc x hx p, hd p]
    exact (simulated_average hu h _).symm
  have hcov : ∀ N : ℕ, microCovariances gradients (partsCovariances (fun p2 p => ∑ t, (x t p).covariances p2) (fun p => ∑ t, (x t p).denominator)
        (fun p => (∑ t, (x t p).numerator) / ∑ t, (x t p).denominator) dataset fun _ => N) 0 0 =
      ∑ a, ∑ b, gradients 0 a * ((Spec.surveyAverage order (fun t => weightsArray (m t).I (y t))
          (fun t i c => value a t ((m t).row i) c * value b t ((m t).row i) c) -
        Spec.surveyAverage order (fun t => weightsArray (m t).I (y t)) (fun t i c => value a t ((m t).row i) c) *
        Spec.surveyAverage order (fun t => weightsArray (m t).I (y t)) (fun t i c => value b t ((m t).row i) c)) / N) * gradients 0 b := by
    intro N
    unfold microCovariances
    rw [Finset.sum_comm]
    simp only [Finset.sum_mul]
    rw [Finset.sum_comm]
    rw [Finset.sum_comm]
    refine Finset.sum_congr rfl fun a _ => Finset.sum_congr rfl fun b _ => ?_
    rw [C57_parts hu (fun _ => N) chunks hc x hx]
    unfold Spec.partCovariance
    rw [if_pos ((hd _).trans (hd _).symm), hd]
    congr 2
    rw [← simulated_average hu h, ← simulated_average hu h, ← simulated_average hu h]
    rfl
  rw [hcov] at hV
  simp only [hcov]
  rw [hval] at hf ⊢
  refine C143_normal hv hpos hU hind (fun p t i c => value p t ((m t).row i) c) hf hg ?_ hB
  simpa using hV

end computed

/-- A market with an agent who chooses the outside option or a product, with probability one half. -/
noncomputable def coinMarket : MicroMarket ℕ MicroShape (MicroCell (Fin 1)) Unit Unit where
  I := 1
  row := id
  cells := MicroShape.cells
  included := fun _ => true
  factor := fun _ _ _ => 1 / 2
  tangent := fun _ _ _ _ => 0
  flat := fun _ _ => false

/-- Whether the product is chosen. -/
noncomputable def coinValue (c : MicroCell (Fin 1)) : ℝ := if c = .first (some 0) then 1 else 0

/-- A survey of everybody, with a part: whether the product is chosen. -/
noncomputable def coinFunctions : MicroFunctions ℕ MicroShape (MicroCell (Fin 1)) Unit (Fin 1) :=
  ⟨fun _ l => some ⟨.first true, l.map fun _ _ => 1⟩, fun _ l => some ⟨.first true, l.map fun _ c => coinValue c⟩⟩

/-- The hypotheses of `C143_parts` and `C143_moments` hold for a part: micro data are coin flips. -/
example : ∃ (x : Unit → Fin 1 → PartContribution (Fin 1) Unit) (y : Unit → DatasetChunk MicroShape (MicroCell (Fin 1)) Unit),
    (∀ _ : Unit, Spec.RowByRow coinMarket coinFunctions (fun _ => ()) (fun _ => .first true) (fun _ _ _ => 1) (fun _ _ c => coinValue c)) ∧
    (∀ t p, microContributions coinMarket coinFunctions (fun _ => ()) ((List.finRange 1).filter fun p2 => decide (p2 ≤ p)) p 1 = .ok (x t p)) ∧
    Spec.SimulatesDataset (fun _ : Unit => coinMarket) (fun _ => coinFunctions) () [()] y ∧
    Spec.ValidArrays [()] (fun t : Unit => weightsArray coinMarket.I (y t)) 1 1 ∧
    0 < Spec.totalWeight [()] (fun t : Unit => weightsArray coinMarket.I (y t)) ∧
    Draws (Measure.infinitePi fun _ : ℕ => unitLaw) unitLaw (fun n (ω : ℕ → ℝ) => ω n) ∧
    iIndepFun (fun n (ω : ℕ → ℝ) => ω n) (Measure.infinitePi fun _ : ℕ => unitLaw) ∧
    HasFDerivAt (fun z : Fin 1 → ℝ => z 0) (ContinuousLinearMap.proj (R := ℝ) (φ := fun _ : Fin 1 => ℝ) 0)
      (fun p => (∑ t, (x t p).numerator) / ∑ t, (x t p).denominator) ∧
    (∀ h : Fin 1 → ℝ, ContinuousLinearMap.proj (R := ℝ) (φ := fun _ : Fin 1 => ℝ) 0 h = ∑ k, (fun _ _ => (1 : ℝ)) (0 : Fin 1) k * h k) ∧
    microCovariances (fun _ _ => (1 : ℝ)) (partsCovariances (fun p2 p => ∑ t, (x t p).covariances p2) (fun p => ∑ t, (x t p).denominator)
        (fun p => (∑ t, (x t p).numerator) / ∑ t, (x t p).denominator) (fun _ : Fin 1 => ()) fun _ => 1) (0 : Fin 1) (0 : Fin 1) = 1 / 4 := by
  have hcells : (MicroShape.first true).cells = ({.first none, .first (some 0)} : Finset (MicroCell (Fin 1))) := by decide
  have hu : Spec.RowByRow coinMarket coinFunctions (fun _ => ()) (fun _ => .first true) (fun _ _ _ => 1) (fun _ _ c => coinValue c) :=
    ⟨fun _ _ => rfl, fun _ _ => rfl, fun _ _ _ _ _ => zero_le_one⟩
  have h := fun p => C56_contributions_partial hu ((List.finRange 1).filter fun p2 => decide (p2 ≤ p)) ((List.nodup_finRange 1).filter _) p rfl 1
    (by norm_num)
  choose x hx h1 h2 h3 h4 using h
  have hy : ∃ y : DatasetChunk MicroShape (MicroCell (Fin 1)) Unit, datasetContributions coinMarket coinFunctions () (List.range coinMarket.I) = .ok y := by
    unfold datasetContributions computeMicroWeights
    rw [hu.weights]
    simp only
    rw [if_neg (by simp), if_neg (by rintro ⟨r, hr, c, -, hc⟩; obtain ⟨_, -, rfl⟩ := List.mem_map.mp hr; norm_num at hc)]
    exact ⟨_, rfl⟩
  obtain ⟨y, hy⟩ := hy
  have hs : Spec.SimulatesDataset (fun _ : Unit => coinMarket) (fun _ => coinFunctions) () [()] fun _ => y :=
    ⟨fun _ => rfl, by simp, fun _ => by simp [coinMarket], fun _ _ => hy⟩
  have hu' : ∀ t : Unit, Spec.RowByRow ((fun _ : Unit => coinMarket) t) ((fun _ : Unit => coinFunctions) t) (fun _ : Fin 1 => ())
      ((fun _ : Unit => fun _ : Unit => MicroShape.first true) t) ((fun _ : Unit => fun _ _ _ => (1 : ℝ)) t)
      (fun p => (fun _ : Fin 1 => fun _ : Unit => fun (_ : ℕ) (c : MicroCell (Fin 1)) => coinValue c) p t) := fun _ => hu
  have hov : ∀ f : Unit → ℕ → MicroCell (Fin 1) → ℝ, Spec.overDataset (fun _ : Unit => coinMarket) (fun _ _ => MicroShape.first true)
      (fun _ _ _ _ => (1 : ℝ)) () f = 1 / 2 * f () 0 (.first none) + 1 / 2 * f () 0 (.first (some 0)) := by
    intro f
    simp [Spec.overDataset, Spec.overMarket, Spec.cellWeight, coinMarket, hcells]
  have htotal : Spec.totalWeight [()] (fun _ : Unit => weightsArray coinMarket.I y) = 1 := by
    refine (simulated_total hu' hs).trans ?_
    rw [hov]
    norm_num
  refine ⟨fun _ p => x p, fun _ => y, fun _ => hu, fun _ p => hx p, hs, ?_, by rw [htotal]; exact one_pos, ?_, ?_, ?_, ?_, ?_⟩
  · obtain ⟨w, hw, -, -, rfl⟩ := datasetContributions_ok hy
    refine ⟨by simp, fun t _ i hi c _ => ?_, fun _ _ _ _ => rfl, fun _ _ => le_rfl, fun _ _ => le_rfl, by norm_num, by norm_num⟩
    obtain rfl := (Option.some.inj hw).symm
    have hi' : i = 0 := by
      have : i < 1 := hi
      omega
    subst hi'
    simp [weightsArray, coinMarket]
  · refine ⟨fun n => measurable_pi_apply n, fun n k hnk => ?_, fun n => Measure.infinitePi_map_eval _ n⟩
    exact (iIndepFun_infinitePi (P := fun _ : ℕ => unitLaw) (X := fun _ x => x) fun _ => measurable_id).indepFun hnk
  · exact iIndepFun_infinitePi (P := fun _ : ℕ => unitLaw) (X := fun _ x => x) fun _ => measurable_id
  · exact (ContinuousLinearMap.proj (R := ℝ) (φ := fun _ : Fin 1 => ℝ) 0).hasFDerivAt
  · intro h
    simp
  · unfold microCovariances
    rw [Fin.sum_univ_one, Fin.sum_univ_one, one_mul, mul_one]
    refine (C57_parts hu' (fun _ => 1) 1 le_rfl (fun _ p => x p) (fun _ p => hx p) _ _).trans ?_
    unfold Spec.partCovariance Spec.average
    simp only [hov]
    simp [coinValue]
    norm_num

end Pyblp
