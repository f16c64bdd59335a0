import Verif.Lemmas.Delta

/-! Monotonicity of choice probabilities in mean utilities, used for uniqueness and nonexpansiveness. -/

set_option linter.unusedSectionVars false

namespace Pyblp

variable {J A G : Type} [Fintype J] [DecidableEq J] [Nonempty J] [Fintype G] [DecidableEq G]

/-- The factor by which the mean utility of `j` is divided: `epsilon_scale`, or `1 - rho` with nesting. -/
noncomputable def tau (m : Market J A G) (j : J) : ℝ :=
  match m.nesting with
  | none => m.epsilonScale
  | some n => 1 - n.productRho j

lemma logit_scaled_antitone (a x y mu : J → ℝ) (e : ℝ) (he : 0 < e) (ha : ∀ j, 0 ≤ a j) (hxy : ∀ j, x j ≤ y j) (j : J) :
    Spec.logit (fun k => (y k + mu k) / e) a 1 j * Real.exp (-(y j) / e) ≤
      Spec.logit (fun k => (x k + mu k) / e) a 1 j * Real.exp (-(x j) / e) := by
  have key : ∀ z : J → ℝ, Spec.logit (fun k => (z k + mu k) / e) a 1 j * Real.exp (-(z j) / e) =
      a j * Real.exp (mu j / e) / (1 + ∑ k, a k * Real.exp ((z k + mu k) / e)) := by
    intro z
    unfold Spec.logit
    rw [div_mul_eq_mul_div, mul_assoc, ← Real.exp_add]
    congr 3
    field_simp
    ring
  rw [key, key]
  have hpos : ∀ z : J → ℝ, 0 < 1 + ∑ k, a k * Real.exp ((z k + mu k) / e) := by
    intro z
    have : 0 ≤ ∑ k, a k * Real.exp ((z k + mu k) / e) :=
      Finset.sum_nonneg fun k _ => mul_nonneg (ha k) (Real.exp_pos _).le
    linarith
  apply div_le_div_of_nonneg_left (mul_nonneg (ha j) (Real.exp_pos _).le) (hpos x)
  gcongr with k
  · exact ha k
  · exact hxy k

lemma groupSum_mono (group : J → G) (rho : G → ℝ) (hrho : ∀ g, rho g < 1) (a v w : J → ℝ) (ha : ∀ j, 0 ≤ a j)
    (hvw : ∀ j, v j ≤ w j) (g : G) : Spec.groupSum group rho v a g ≤ Spec.groupSum group rho w a g := by
  unfold Spec.groupSum
  have : 0 < 1 - rho g := by linarith [hrho g]
  refine Finset.sum_le_sum fun k _ => mul_le_mul_of_nonneg_left ?_ (ha k)
  exact Real.exp_le_exp.mpr (div_le_div_of_nonneg_right (hvw k) this.le)

lemma nested_scaled_antitone (group : J → G) (rho : G → ℝ) (h0 : ∀ g, 0 ≤ rho g) (hrho : ∀ g, rho g < 1)
    (a x y mu : J → ℝ) (ha : ∀ j, 0 ≤ a j) (hxy : ∀ j, x j ≤ y j) (j : J) :
    Spec.nested group rho (fun k => y k + mu k) a 1 j * Real.exp (-(y j) / (1 - rho (group j))) ≤
      Spec.nested group rho (fun k => x k + mu k) a 1 j * Real.exp (-(x j) / (1 - rho (group j))) := by
  have hr : 0 < 1 - rho (group j) := by linarith [hrho (group j)]
  rcases (ha j).lt_or_eq with hj | hj
  swap
  · unfold Spec.nested Spec.within; rw [← hj]; simp
  have key : ∀ z : J → ℝ, Spec.nested group rho (fun k => z k + mu k) a 1 j * Real.exp (-(z j) / (1 - rho (group j))) =
      a j * Real.exp (mu j / (1 - rho (group j))) *
        (Spec.groupSum group rho (fun k => z k + mu k) a (group j) ^ (-rho (group j)) /
        (1 + ∑ h, Spec.expInclusive group rho (fun k => z k + mu k) a h)) := by
    intro z
    have hD : 0 < Spec.groupSum group rho (fun k => z k + mu k) a (group j) := groupSum_pos ha hj
    unfold Spec.nested Spec.within Spec.groupProb
    have e1 : Spec.expInclusive group rho (fun k => z k + mu k) a (group j) =
        Spec.groupSum group rho (fun k => z k + mu k) a (group j) *
          Spec.groupSum group rho (fun k => z k + mu k) a (group j) ^ (-rho (group j)) := by
      unfold Spec.expInclusive
      rw [sub_eq_add_neg, Real.rpow_add hD, Real.rpow_one]
    have e2 : Real.exp ((z j + mu j) / (1 - rho (group j))) =
        Real.exp (mu j / (1 - rho (group j))) / Real.exp (-(z j) / (1 - rho (group j))) := by
      rw [← Real.exp_sub]; congr 1; field_simp; ring
    rw [e1, e2]
    have := (Real.exp_pos (-(z j) / (1 - rho (group j)))).ne'
    field_simp
  rw [key, key]
  apply mul_le_mul_of_nonneg_left _ (mul_nonneg (ha j) (Real.exp_pos _).le)
  have hvw : ∀ k, x k + mu k ≤ y k + mu k := fun k => by linarith [hxy k]
  have hDx : 0 < Spec.groupSum group rho (fun k => x k + mu k) a (group j) := groupSum_pos ha hj
  have hpos : ∀ z : J → ℝ, 0 < 1 + ∑ h, Spec.expInclusive group rho z a h := by
    intro z
    have := nested_denominator_pos (group := group) (rho := rho) (v := z) (a := a) false ha (Or.inl rfl)
    simpa using this
  apply div_le_div₀ (Real.rpow_nonneg hDx.le _)
  · exact Real.rpow_le_rpow_of_nonpos hDx (groupSum_mono group rho hrho a _ _ ha hvw _) (by linarith [h0 (group j)])
  · exact hpos _
  · gcongr with h
    unfold Spec.expInclusive
    apply Real.rpow_le_rpow (groupSum_nonneg _ _ _ _ ha _) (groupSum_mono group rho hrho a _ _ ha hvw _)
    linarith [hrho h]

lemma ratio_increase {p s k : ℝ} (hs : 0 ≤ s) (hp : 0 < p) (hk : 1 < k) : p / (1 + s) < p * k / (1 + s * k) := by
  rw [div_lt_div_iff₀ (by linarith) (by nlinarith)]
  nlinarith

lemma logit_shift (a v : J → ℝ) (c : ℝ) (hc : 0 < c) (ha : ∀ j, 0 ≤ a j) (j : J) (hj : 0 < a j) :
    Spec.logit v a 1 j < Spec.logit (fun k => v k + c) a 1 j := by
  unfold Spec.logit
  have h1 : ∀ k, a k * Real.exp (v k + c) = a k * Real.exp (v k) * Real.exp c := by
    intro k; rw [Real.exp_add]; ring
  simp only [h1]
  rw [← Finset.sum_mul]
  exact ratio_increase (Finset.sum_nonneg fun k _ => mul_nonneg (ha k) (Real.exp_pos _).le)
    (mul_pos hj (Real.exp_pos _)) (Real.one_lt_exp_iff.mpr hc)

lemma groupSum_shift (group : J → G) (rho : G → ℝ) (a v : J → ℝ) (c : ℝ) (g : G) :
    Spec.groupSum group rho (fun k => v k + c) a g = Spec.groupSum group rho v a g * Real.exp (c / (1 - rho g)) := by
  unfold Spec.groupSum
  rw [Finset.sum_mul]
  refine Finset.sum_congr rfl fun k _ => ?_
  rw [add_div, Real.exp_add]; ring

lemma expInclusive_shift (group : J → G) (rho : G → ℝ) (hrho : ∀ g, rho g < 1) (a v : J → ℝ) (ha : ∀ j, 0 ≤ a j) (c : ℝ)
    (g : G) : Spec.expInclusive group rho (fun k => v k + c) a g = Spec.expInclusive group rho v a g * Real.exp c := by
  have hr : 1 - rho g ≠ 0 := by linarith [hrho g]
  unfold Spec.expInclusive
  rw [groupSum_shift, Real.mul_rpow (groupSum_nonneg _ _ _ _ ha _) (Real.exp_pos _).le, ← Real.exp_mul]
  congr 2
  field_simp

lemma within_shift (group : J → G) (rho : G → ℝ) (a v : J → ℝ) (c : ℝ) (j : J) :
    Spec.within group rho (fun k => v k + c) a j = Spec.within group rho v a j := by
  unfold Spec.within
  rw [groupSum_shift, add_div, Real.exp_add, ← mul_assoc, mul_div_mul_right _ _ (Real.exp_pos _).ne']

lemma nested_shift (group : J → G) (rho : G → ℝ) (hrho : ∀ g, rho g < 1) (a v : J → ℝ) (c : ℝ) (hc : 0 < c)
    (ha : ∀ j, 0 ≤ a j) (j : J) (hj : 0 < a j) :
    Spec.nested group rho v a 1 j < Spec.nested group rho (fun k => v k + c) a 1 j := by
  unfold Spec.nested Spec.groupProb
  rw [within_shift]
  simp only [expInclusive_shift group rho hrho a v ha c]
  have hD : 0 < Spec.groupSum group rho v a (group j) := groupSum_pos ha hj
  apply mul_lt_mul_of_pos_left _ (div_pos (mul_pos hj (Real.exp_pos _)) hD)
  rw [← Finset.sum_mul]
  exact ratio_increase (Finset.sum_nonneg fun g _ => expInclusive_nonneg _ _ _ _ ha g)
    (Real.rpow_pos_of_pos hD _) (Real.one_lt_exp_iff.mpr hc)

/-- Nesting parameters are in `[0, 1)` and the scale of epsilon is positive, as the economy requires. -/
structure Regular (m : Market J A G) : Prop where
  rho : ∀ n, m.nesting = some n → ∀ g, 0 ≤ n.rho.groupRho g ∧ n.rho.groupRho g < 1
  eps : 0 < m.epsilonScale

lemma Regular.rhoBelowOne {m : Market J A G} (h : Regular m) : RhoBelowOne m := fun n hn g => (h.rho n hn g).2

lemma Regular.tau_pos {m : Market J A G} (h : Regular m) (j : J) : 0 < tau m j := by
  unfold tau
  cases hn : m.nesting with
  | none => exact h.eps
  | some n => simp only []; have := (h.rho n hn (n.group j)).2; unfold Nesting.productRho; linarith

lemma prob_scaled_antitone (m : Market J A G) (hm : Regular m) (safe : Bool) (mu : J → A → ℝ) (i : A)
    (ha : AvailabilityNonneg m { safe } i) (x y : J → ℝ) (hxy : ∀ j, x j ≤ y j) (j : J) :
    computeProbabilities m { safe } y mu j i * Real.exp (-(y j) / tau m j) ≤
      computeProbabilities m { safe } x mu j i * Real.exp (-(x j) / tau m j) := by
  unfold tau
  cases hn : m.nesting with
  | none =>
    rw [computeProbabilities_plain _ _ _ _ hn, computeProbabilities_plain _ _ _ _ hn]
    exact logit_scaled_antitone _ x y (fun k => mu k i) _ hm.eps (multiplier_nonneg ha) hxy j
  | some n =>
    rw [computeProbabilities_nested _ _ _ _ n hn i ha (fun g => ((hm.rho n hn g).2).ne),
      computeProbabilities_nested _ _ _ _ n hn i ha (fun g => ((hm.rho n hn g).2).ne)]
    exact nested_scaled_antitone _ _ (fun g => (hm.rho n hn g).1) (fun g => (hm.rho n hn g).2) _ x y
      (fun k => mu k i) (multiplier_nonneg ha) hxy j

lemma prob_shift (m : Market J A G) (hm : Regular m) (safe : Bool) (mu : J → A → ℝ) (i : A)
    (ha : AvailabilityNonneg m { safe } i) (x : J → ℝ) (c : ℝ) (hc : 0 < c) (j : J)
    (hj : 0 < multiplier m { safe } i j) :
    computeProbabilities m { safe } x mu j i < computeProbabilities m { safe } (fun k => x k + c) mu j i := by
  cases hn : m.nesting with
  | none =>
    rw [computeProbabilities_plain _ _ _ _ hn, computeProbabilities_plain _ _ _ _ hn]
    have := logit_shift (multiplier m { safe } i) (fun k => (x k + mu k i) / m.epsilonScale) (c / m.epsilonScale)
      (div_pos hc hm.eps) (multiplier_nonneg ha) j hj
    simp only [← add_div] at this
    simpa [add_right_comm] using this
  | some n =>
    rw [computeProbabilities_nested _ _ _ _ n hn i ha (fun g => ((hm.rho n hn g).2).ne),
      computeProbabilities_nested _ _ _ _ n hn i ha (fun g => ((hm.rho n hn g).2).ne)]
    have := nested_shift n.group n.rho.groupRho (fun g => (hm.rho n hn g).2) (multiplier m { safe } i)
      (fun k => x k + mu k i) c hc (multiplier_nonneg ha) j hj
    simpa [add_right_comm] using this

lemma prob_zero_of_multiplier (m : Market J A G) (hm : RhoBelowOne m) (o : ProbOpts J A) (mu : J → A → ℝ) (i : A)
    (ha : AvailabilityNonneg m o i) (x : J → ℝ) (j : J) (hj : multiplier m o i j = 0) :
    computeProbabilities m o x mu j i = 0 := by
  cases hn : m.nesting with
  | none => rw [computeProbabilities_plain _ _ _ _ hn]; unfold Spec.logit; rw [hj]; simp
  | some n =>
    rw [computeProbabilities_nested _ _ _ _ n hn i ha (fun g => (hm n hn g).ne)]
    unfold Spec.nested Spec.within; rw [hj]; simp

lemma prob_shift_le (m : Market J A G) (hm : Regular m) (safe : Bool) (mu : J → A → ℝ) (i : A)
    (ha : AvailabilityNonneg m { safe } i) (x : J → ℝ) (c : ℝ) (hc : 0 ≤ c) (j : J) :
    computeProbabilities m { safe } x mu j i ≤ computeProbabilities m { safe } (fun k => x k + c) mu j i := by
  rcases hc.lt_or_eq with hc | rfl
  · rcases (multiplier_nonneg ha j).lt_or_eq with hj | hj
    · exact (prob_shift m hm safe mu i ha x c hc j hj).le
    · rw [prob_zero_of_multiplier m hm.rhoBelowOne _ mu i ha _ j hj.symm,
        prob_zero_of_multiplier m hm.rhoBelowOne _ mu i ha _ j hj.symm]
  · simp

lemma clipShare_eq (b : SharesBounds) (s : ℝ) : (clipShare b s).1 =
    match b.lb, b.ub with
    | some l, some u => min (max s l) u
    | some l, none => max s l
    | none, some u => min s u
    | none, none => s := by
  unfold clipShare
  rcases b with ⟨lb, ub⟩
  cases lb with
  | none =>
    cases ub with
    | none => rfl
    | some u =>
      simp only []
      by_cases h : s > u
      · simp [h, min_eq_right h.le]
      · push Not at h; simp [not_lt.mpr h, min_eq_left h]
  | some l =>
    cases ub with
    | none =>
      simp only []
      by_cases h : s < l
      · simp [h, max_eq_right h.le]
      · push Not at h; simp [not_lt.mpr h, max_eq_left h]
    | some u =>
      simp only []
      by_cases h : s < l
      · simp only [h, decide_true, if_true, max_eq_right h.le]
        by_cases h2 : l > u
        · simp [h2, min_eq_right h2.le]
        · push Not at h2; simp [not_lt.mpr h2, min_eq_left h2]
      · push Not at h
        simp only [not_lt.mpr h, decide_false, max_eq_left h]
        by_cases h2 : s > u
        · simp [h2, min_eq_right h2.le]
        · push Not at h2; simp [not_lt.mpr h2, min_eq_left h2]

/-- Bounds that are positive when finite. -/
def SharesBounds.Positive (b : SharesBounds) : Prop := (∀ l, b.lb = some l → 0 < l) ∧ (∀ u, b.ub = some u → 0 < u)

lemma log_max {x y : ℝ} (hx : 0 < x) (hy : 0 < y) : Real.log (max x y) = max (Real.log x) (Real.log y) := by
  rcases le_total x y with h | h
  · rw [max_eq_right h, max_eq_right (Real.log_le_log hx h)]
  · rw [max_eq_left h, max_eq_left (Real.log_le_log hy h)]

lemma log_min {x y : ℝ} (hx : 0 < x) (hy : 0 < y) : Real.log (min x y) = min (Real.log x) (Real.log y) := by
  rcases le_total x y with h | h
  · rw [min_eq_left h, min_eq_left (Real.log_le_log hx h)]
  · rw [min_eq_right h, min_eq_right (Real.log_le_log hy h)]

/-- The logarithm of a clipped share changes in the direction of, and by no more than, that of the share itself. -/
lemma log_clip_mono (b : SharesBounds) (hb : b.Positive) {s t : ℝ} (hs : 0 < s) (hst : s ≤ t) :
    Real.log (clipShare b s).1 ≤ Real.log (clipShare b t).1 ∧
    Real.log (clipShare b t).1 - Real.log (clipShare b s).1 ≤ Real.log t - Real.log s := by
  have ht : 0 < t := hs.trans_le hst
  have hl := Real.log_le_log hs hst
  rw [clipShare_eq, clipShare_eq]
  rcases b with ⟨lb, ub⟩
  cases lb with
  | none =>
    cases ub with
    | none => exact ⟨hl, le_rfl⟩
    | some u =>
      have hu := hb.2 u rfl
      simp only [log_min hs hu, log_min ht hu]
      constructor
      · exact min_le_min_right _ hl
      · simp only [min_def]; split_ifs <;> linarith
  | some l =>
    have hl0 := hb.1 l rfl
    cases ub with
    | none =>
      simp only [log_max hs hl0, log_max ht hl0]
      constructor
      · exact max_le_max_right _ hl
      · simp only [max_def]; split_ifs <;> linarith
    | some u =>
      have hu := hb.2 u rfl
      simp only [log_min (lt_max_of_lt_left hs) hu, log_min (lt_max_of_lt_left ht) hu, log_max hs hl0, log_max ht hl0]
      constructor
      · exact min_le_min_right _ (max_le_max_right _ hl)
      · simp only [max_def, min_def]; split_ifs <;> linarith

end Pyblp
