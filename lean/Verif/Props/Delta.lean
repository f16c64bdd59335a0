import Verif.Lemmas.Contraction

/-!
# C21–C25: solving for the mean utility
-/

set_option linter.unusedSectionVars false

namespace Pyblp

variable {J A G : Type} [Fintype J] [DecidableEq J] [Nonempty J] [Fintype G] [DecidableEq G] [Fintype A]

/-! ## C21 -/

/-- **C21.** Without heterogeneity (`mu = 0`), for every vector of interior shares, any nesting structure with parameters below
one and any positive scale: predicted shares at a mean utility equal observed shares if and only if the mean utility is
the closed-form one. So the closed form inverts shares and nothing else does. -/
theorem C21_closed_form (m : Market J A G) (safe : Bool) (s : J → ℝ) (hs : ∀ j, 0 < s j) (hsum : ∑ j, s j < 1)
    (hw : ∑ i, m.weights i = 1) (hav : m.availability = none) (hrho : RhoBelowOne m) (heps : m.epsilonScale ≠ 0)
    (x : J → ℝ) :
    (∀ j, computeShares m { safe } x (fun _ _ => 0) j = s j) ↔ x = closedFormDelta m s := by
  have hmul : ∀ i, multiplier m { safe } i = fun _ => 1 := fun i => multiplier_one m _ hav rfl rfl (fun _ => rfl) i
  have hA : ∀ i, AvailabilityNonneg m { safe } i := by intro i a h; simp [hav] at h
  cases hn : m.nesting with
  | none =>
    have hP : ∀ j, computeShares m { safe } x (fun _ _ => 0) j =
        Spec.logit (fun k => x k / m.epsilonScale) (fun _ => 1) 1 j := by
      intro j
      unfold computeShares
      simp only [computeProbabilities_plain m _ _ _ hn, hmul, add_zero]
      rw [← Finset.mul_sum, hw, mul_one]
      rfl
    simp only [hP]
    rw [logit_eq_iff _ s hs hsum, funext_iff]
    refine forall_congr' fun j => ?_
    unfold closedFormDelta
    rw [hn]
    simp only []
    split_ifs with h
    · rw [div_eq_iff heps]
    · push Not at h; rw [h, div_one]
  | some n =>
    have hP : ∀ j, computeShares m { safe } x (fun _ _ => 0) j =
        Spec.nested n.group n.rho.groupRho x (fun _ => 1) 1 j := by
      intro j
      unfold computeShares
      simp only [computeProbabilities_nested m _ _ _ n hn _ (hA _) (fun g => (hrho n hn g).ne), hmul, add_zero]
      rw [← Finset.mul_sum, hw, mul_one]
      rfl
    simp only [hP]
    rw [nested_eq_iff _ _ (hrho n hn) _ s hs hsum, funext_iff]
    refine forall_congr' fun j => ?_
    unfold closedFormDelta
    rw [hn]
    rfl

/-- Non-vacuity: three products in two nests with shares 1/5, 1/4, 1/3. -/
example : computeShares { exampleMarket with availability := none } {}
    (closedFormDelta { exampleMarket with availability := none } ![1/5, 1/4, 1/3]) (fun _ _ => 0) 1 = 1/4 :=
  (C21_closed_form { exampleMarket with availability := none } true ![1/5, 1/4, 1/3]
    (by intro j; fin_cases j <;> norm_num) (by simp [Fin.sum_univ_three]; norm_num)
    (by simp [exampleMarket]; norm_num) rfl exampleMarket_rho (by simp [exampleMarket]) _).mpr rfl 1

/-! ## C25 -/

/-- **C25.** Clipping: for bounds with `lb ≤ ub` (either may be infinite), the clipped share respects both bounds, is the
share itself when it respects them already, and the product is flagged exactly when its share was changed. -/
theorem C25_clip (b : SharesBounds) (hb : ∀ l u, b.lb = some l → b.ub = some u → l ≤ u) (s : ℝ) :
    (∀ l, b.lb = some l → l ≤ (clipShare b s).1) ∧
    (∀ u, b.ub = some u → (clipShare b s).1 ≤ u) ∧
    ((∀ l, b.lb = some l → l ≤ s) → (∀ u, b.ub = some u → s ≤ u) → (clipShare b s).1 = s) ∧
    ((clipShare b s).2 = true ↔ (clipShare b s).1 ≠ s) := by
  rcases b with ⟨lb, ub⟩
  cases lb with
  | none =>
    cases ub with
    | none => simp [clipShare]
    | some u =>
      simp only [clipShare]
      by_cases h : s > u
      · simp [h, h.ne, not_le.mpr h]
      · simp only [h]; push Not at h; simp [h]
  | some l =>
    cases ub with
    | none =>
      simp only [clipShare]
      by_cases h : s < l
      · simp [h, h.ne', not_le.mpr h]
      · simp only [h]; push Not at h; simp [h]
    | some u =>
      have hlu := hb l u rfl rfl
      simp only [clipShare]
      by_cases h : s < l
      · simp [h, h.ne', not_le.mpr h, not_lt.mpr hlu, hlu]
      · by_cases h2 : s > u
        · simp [h, h2, h2.ne, not_le.mpr h2, hlu]
        · push Not at h h2; simp [h, h2, not_lt.mpr h, not_lt.mpr h2]

/-- **C25**, inside the contraction: the share whose logarithm is used is the clipped one, and `clipped_shares` flags
exactly the products whose simulated share violates a bound. -/
theorem C25_contraction (m : Market J A G) (safe : Bool) (b : SharesBounds)
    (hb : ∀ l u, b.lb = some l → b.ub = some u → l ≤ u) (mu : J → A → ℝ) (s x : J → ℝ) (j : J) :
    (∃ c, linearContraction m safe b mu s x j = x j + (Real.log (s j) - Real.log c) * dampener m j ∧
      (∀ l, b.lb = some l → l ≤ c) ∧ (∀ u, b.ub = some u → c ≤ u) ∧
      (contractionClipped m safe b mu x j = true ↔ c ≠ computeShares m { safe } x mu j)) ∧
    (contractionClipped m safe b mu x j = true ↔
      (∃ l, b.lb = some l ∧ computeShares m { safe } x mu j < l) ∨
      (∃ u, b.ub = some u ∧ u < computeShares m { safe } x mu j)) := by
  obtain ⟨h1, h2, h3, h4⟩ := C25_clip b hb (computeShares m { safe } x mu j)
  refine ⟨⟨_, rfl, h1, h2, h4⟩, ?_⟩
  unfold contractionClipped
  rw [h4]
  constructor
  · intro h
    by_contra hc
    push Not at hc
    exact h (h3 (fun l hl => hc.1 l hl) (fun u hu => hc.2 u hu))
  · rintro (⟨l, hl, hlt⟩ | ⟨u, hu, hlt⟩) heq
    · rw [heq] at h1; linarith [h1 l hl]
    · rw [heq] at h2; linarith [h2 u hu]

/-- Non-vacuity: finite bounds with a share below the lower one. -/
example : (clipShare ⟨some (1/10), some (9/10)⟩ (1/20)).2 = true ∧ (clipShare ⟨some (1/10), some (9/10)⟩ (1/20)).1 = 1/10 := by
  have h := C25_clip ⟨some (1/10), some (9/10)⟩ (by intro l u hl hu; simp at hl hu; subst hl hu; norm_num) (1/20)
  have : (clipShare ⟨some (1/10), some (9/10)⟩ (1/20)).1 = 1/10 := by simp [clipShare]; norm_num
  exact ⟨h.2.2.2.mpr (by rw [this]; norm_num), this⟩

/-! ## C22 -/

/-- **C22.** With observed shares strictly inside the clipping bounds, a mean utility is a fixed point of the contraction
(plain or nested, safe or not) if and only if the simulated shares equal the observed ones. Simulated shares need
to be positive unless a positive lower bound is configured, as it is by default. -/
theorem C22_fixed_points (m : Market J A G) (safe : Bool) (b : SharesBounds) (mu : J → A → ℝ) (s x : J → ℝ)
    (hs : ∀ j, 0 < s j) (hl : ∀ l, b.lb = some l → ∀ j, l < s j) (hu : ∀ u, b.ub = some u → ∀ j, s j < u)
    (hrho : RhoBelowOne m)
    (hpos : (∃ l, b.lb = some l ∧ 0 < l) ∨ ∀ j, 0 < computeShares m { safe } x mu j) :
    linearContraction m safe b mu s x = x ↔ ∀ j, computeShares m { safe } x mu j = s j := by
  have hbnd : ∀ l u, b.lb = some l → b.ub = some u → l ≤ u := by
    intro l u h1 h2
    obtain ⟨j⟩ := ‹Nonempty J›
    exact ((hl l h1 j).trans (hu u h2 j)).le
  have hd : ∀ j, dampener m j ≠ 0 := by
    intro j
    unfold dampener
    cases hn : m.nesting with
    | none => exact one_ne_zero
    | some n => simp only []; have := hrho n hn (n.group j); unfold Nesting.productRho; linarith
  rw [funext_iff]
  refine forall_congr' fun j => ?_
  obtain ⟨h1, h2, h3, -⟩ := C25_clip b hbnd (computeShares m { safe } x mu j)
  have hc : 0 < (clipShare b (computeShares m { safe } x mu j)).1 := by
    rcases hpos with ⟨l, hbl, h0⟩ | hpos
    · exact h0.trans_le (h1 l hbl)
    · rw [clipShare_eq]
      have := hpos j
      cases hbl : b.lb with
      | none =>
        cases hbu : b.ub with
        | none => exact this
        | some u => exact lt_min this ((hs j).trans (hu u hbu j))
      | some l =>
        cases hbu : b.ub with
        | none => exact lt_max_of_lt_left this
        | some u => exact lt_min (lt_max_of_lt_left this) ((hs j).trans (hu u hbu j))
  unfold linearContraction
  constructor
  · intro h
    have h0 : (Real.log (s j) - Real.log (clipShare b (computeShares m { safe } x mu j)).1) * dampener m j = 0 := by
      linarith
    have h5 : Real.log (s j) = Real.log (clipShare b (computeShares m { safe } x mu j)).1 := by
      rcases mul_eq_zero.mp h0 with h | h
      · linarith
      · exact absurd h (hd j)
    have h6 : s j = (clipShare b (computeShares m { safe } x mu j)).1 := Real.log_injOn_pos (hs j) hc h5
    -- the clipped share equals an interior value, so it was not clipped
    rw [clipShare_eq] at h6
    cases hbl : b.lb with
    | none =>
      cases hbu : b.ub with
      | none => rw [hbl, hbu] at h6; exact h6.symm
      | some u =>
        rw [hbl, hbu] at h6; simp only [] at h6
        have := hu u hbu j
        rcases min_choice (computeShares m { safe } x mu j) u with h | h <;> rw [h] at h6 <;> linarith
    | some l =>
      have hl' := hl l hbl j
      cases hbu : b.ub with
      | none =>
        rw [hbl, hbu] at h6; simp only [] at h6
        rcases max_choice (computeShares m { safe } x mu j) l with h | h <;> rw [h] at h6 <;> linarith
      | some u =>
        have := hu u hbu j
        rw [hbl, hbu] at h6; simp only [] at h6
        rcases min_choice (max (computeShares m { safe } x mu j) l) u with h | h <;> rw [h] at h6
        · rcases max_choice (computeShares m { safe } x mu j) l with h | h <;> rw [h] at h6 <;> linarith
        · linarith
  · intro h
    have : (clipShare b (computeShares m { safe } x mu j)).1 = s j := by
      rw [h3 (fun l hbl => by rw [h]; exact (hl l hbl j).le) (fun u hbu => by rw [h]; exact (hu u hbu j).le), h]
    rw [this]; ring

/-- Shares are positive when weights are nonnegative and every product is offered to some agent with positive weight. -/
lemma computeShares_pos (m : Market J A G) (safe : Bool) (mu : J → A → ℝ) (x : J → ℝ) (hrho : RhoBelowOne m)
    (hav : ∀ i, AvailabilityNonneg m { safe } i) (hw : ∀ i, 0 ≤ m.weights i)
    (hoff : ∀ j, ∃ i, 0 < m.weights i ∧ Offered m { safe } i j) (j : J) : 0 < computeShares m { safe } x mu j := by
  obtain ⟨i, hwi, hi⟩ := hoff j
  unfold computeShares
  refine Finset.sum_pos' (fun i _ => mul_nonneg ?_ (hw i)) ⟨i, Finset.mem_univ _, mul_pos ?_ hwi⟩
  · exact (C17_probabilities m _ x mu i (hav i) hrho (Or.inl rfl)).1 j
  · exact (C17_probabilities m _ x mu i (hav _) hrho (Or.inl rfl)).2.1 j hi

/-- Non-vacuity of `C22_fixed_points`: in the example market with a small lower bound. -/
example (mu : Fin 3 → Fin 2 → ℝ) (x : Fin 3 → ℝ) :
    linearContraction exampleMarket true ⟨some (1/1000000), none⟩ mu ![1/5, 1/4, 1/3] x = x ↔
      ∀ j, computeShares exampleMarket {} x mu j = ![1/5, 1/4, 1/3] j :=
  C22_fixed_points exampleMarket true ⟨some (1/1000000), none⟩ mu ![1/5, 1/4, 1/3] x
    (by intro j; fin_cases j <;> norm_num)
    (by intro l h j; simp at h; subst h; fin_cases j <;> norm_num) (by simp) exampleMarket_rho
    (Or.inl ⟨1/1000000, rfl, by norm_num⟩)

/-! ## C23 -/

/-- **C23.** Two mean utilities that generate the same shares are equal: nonnegative weights, every product offered to some
agent with positive weight, nesting parameters in `[0, 1)`, positive scale of epsilon. -/
theorem C23_unique (m : Market J A G) (hm : Regular m) (safe : Bool) (mu : J → A → ℝ)
    (hav : ∀ i, AvailabilityNonneg m { safe } i) (hw : ∀ i, 0 ≤ m.weights i)
    (hoff : ∀ j, ∃ i, 0 < m.weights i ∧ Offered m { safe } i j) (x y : J → ℝ)
    (hxy : ∀ j, computeShares m { safe } x mu j = computeShares m { safe } y mu j) : x = y := by
  -- it suffices to prove `x ≤ y` for all such pairs
  have key : ∀ x y : J → ℝ, (∀ j, computeShares m { safe } x mu j = computeShares m { safe } y mu j) →
      ∀ j, x j ≤ y j := by
    intro x y hxy
    obtain ⟨j, -, hj⟩ := Finset.exists_max_image Finset.univ (fun j => x j - y j) Finset.univ_nonempty
    have hle : x j - y j ≤ 0 := by
      by_contra hc
      push Not at hc
      have hyx : ∀ k, x k ≤ y k + (x j - y j) := fun k => by linarith [hj k (Finset.mem_univ _)]
      have h1 : computeShares m { safe } (fun k => y k + (x j - y j)) mu j ≤ computeShares m { safe } x mu j := by
        unfold computeShares
        refine Finset.sum_le_sum fun i _ => mul_le_mul_of_nonneg_right ?_ (hw i)
        have := prob_scaled_antitone m hm safe mu i (hav i) x (fun k => y k + (x j - y j)) hyx j
        rw [show y j + (x j - y j) = x j by ring] at this
        exact le_of_mul_le_mul_right this (Real.exp_pos _)
      have h2 : computeShares m { safe } y mu j < computeShares m { safe } (fun k => y k + (x j - y j)) mu j := by
        obtain ⟨i, hwi, hi⟩ := hoff j
        unfold computeShares
        refine Finset.sum_lt_sum (fun i _ => mul_le_mul_of_nonneg_right ?_ (hw i)) ⟨i, Finset.mem_univ _,
          mul_lt_mul_of_pos_right ?_ hwi⟩
        · exact prob_shift_le m hm safe mu i (hav i) y _ hc.le j
        · exact prob_shift m hm safe mu i (hav _) y _ hc j (multiplier_pos hi)
      linarith [hxy j]
    intro k
    linarith [hj k (Finset.mem_univ _)]
  funext j
  exact le_antisymm (key x y hxy j) (key y x (fun j => (hxy j).symm) j)

/-- One-sided comparison behind nonexpansiveness: `x ≤ y + c` implies `T(x) ≤ T(y) + c`. -/
lemma contraction_one_sided (m : Market J A G) (hm : Regular m) (heps : m.nesting = none → 1 ≤ m.epsilonScale)
    (safe : Bool) (b : SharesBounds) (hb : b.Positive) (mu : J → A → ℝ) (s : J → ℝ)
    (hav : ∀ i, AvailabilityNonneg m { safe } i) (hw : ∀ i, 0 ≤ m.weights i)
    (hoff : ∀ j, ∃ i, 0 < m.weights i ∧ Offered m { safe } i j) (x y : J → ℝ) (c : ℝ) (hc : 0 ≤ c)
    (hxy : ∀ j, x j ≤ y j + c) (j : J) :
    linearContraction m safe b mu s x j ≤ linearContraction m safe b mu s y j + c := by
  have hpos := fun z => computeShares_pos m safe mu z hm.rhoBelowOne hav hw hoff j
  set sx := computeShares m { safe } x mu j with hsx
  set sy := computeShares m { safe } y mu j with hsy
  set sz := computeShares m { safe } (fun k => y k + c) mu j with hsz
  have hpx : 0 < sx := hpos x
  have hpy : 0 < sy := hpos y
  have hpz : 0 < sz := hpos _
  have htau := hm.tau_pos j
  have h1 : sz * Real.exp (-(y j + c) / tau m j) ≤ sx * Real.exp (-(x j) / tau m j) := by
    rw [hsx, hsz]
    unfold computeShares
    rw [Finset.sum_mul, Finset.sum_mul]
    refine Finset.sum_le_sum fun i _ => ?_
    have := prob_scaled_antitone m hm safe mu i (hav i) x (fun k => y k + c) hxy j
    calc _ = (computeProbabilities m { safe } (fun k => y k + c) mu j i * Real.exp (-(y j + c) / tau m j)) *
          m.weights i := by ring
      _ ≤ (computeProbabilities m { safe } x mu j i * Real.exp (-(x j) / tau m j)) * m.weights i :=
          mul_le_mul_of_nonneg_right this (hw i)
      _ = _ := by ring
  have h2 : sy ≤ sz := by
    rw [hsy, hsz]; unfold computeShares
    exact Finset.sum_le_sum fun i _ =>
      mul_le_mul_of_nonneg_right (prob_shift_le m hm safe mu i (hav i) y c hc j) (hw i)
  have h1' : Real.log sz - (y j + c) / tau m j ≤ Real.log sx - x j / tau m j := by
    have := Real.log_le_log (mul_pos hpz (Real.exp_pos _)) h1
    rw [Real.log_mul hpz.ne' (Real.exp_pos _).ne', Real.log_mul hpx.ne' (Real.exp_pos _).ne', Real.log_exp,
      Real.log_exp, neg_div, neg_div] at this
    linarith
  have hd : 0 < dampener m j ∧ dampener m j / tau m j ≤ 1 := by
    unfold dampener tau at *
    cases hn : m.nesting with
    | none =>
      simp only []
      exact ⟨one_pos, by rw [div_le_one hm.eps]; exact heps hn⟩
    | some n =>
      simp only [hn] at htau ⊢
      exact ⟨htau, (div_self htau.ne').le⟩
  have hcl1 := (log_clip_mono b hb hpy h2).1
  -- difference of logs of clipped shares at `y + c` and `x`
  have hcl2 : Real.log (clipShare b sz).1 - Real.log (clipShare b sx).1 ≤ (y j + c - x j) / tau m j := by
    rcases le_total sx sz with h | h
    · have := (log_clip_mono b hb hpx h).2
      have e : (y j + c - x j) / tau m j = (y j + c) / tau m j - x j / tau m j := by ring
      rw [e]; linarith
    · have := (log_clip_mono b hb hpz h).1
      have : 0 ≤ (y j + c - x j) / tau m j := div_nonneg (by linarith [hxy j]) htau.le
      linarith
  unfold linearContraction
  rw [← hsx, ← hsy]
  have h7 : (Real.log (clipShare b sy).1 - Real.log (clipShare b sx).1) * dampener m j ≤ y j + c - x j := by
    calc _ ≤ ((y j + c - x j) / tau m j) * dampener m j :=
          mul_le_mul_of_nonneg_right (by linarith) hd.1.le
      _ = (y j + c - x j) * (dampener m j / tau m j) := by ring
      _ ≤ (y j + c - x j) * 1 := mul_le_mul_of_nonneg_left hd.2 (by linarith [hxy j])
      _ = _ := by ring
  nlinarith [h7]

/-- **C23.** The contraction never increases the sup-norm distance between two vectors, with or without nesting and
clipping. Without nesting this needs `epsilon_scale ≥ 1` (one by default), see `C23_small_epsilon_refuted`. -/
theorem C23_nonexpansive_partial (m : Market J A G) (hm : Regular m) (heps : m.nesting = none → 1 ≤ m.epsilonScale)
    (safe : Bool) (b : SharesBounds) (hb : b.Positive) (mu : J → A → ℝ) (s : J → ℝ)
    (hav : ∀ i, AvailabilityNonneg m { safe } i) (hw : ∀ i, 0 ≤ m.weights i)
    (hoff : ∀ j, ∃ i, 0 < m.weights i ∧ Offered m { safe } i j) (x y : J → ℝ) (c : ℝ)
    (hxy : ∀ j, |x j - y j| ≤ c) (j : J) :
    |linearContraction m safe b mu s x j - linearContraction m safe b mu s y j| ≤ c := by
  have hc : 0 ≤ c := (abs_nonneg _).trans (hxy j)
  have h1 := contraction_one_sided m hm heps safe b hb mu s hav hw hoff x y c hc
    (fun j => by linarith [(abs_le.mp (hxy j)).2]) j
  have h2 := contraction_one_sided m hm heps safe b hb mu s hav hw hoff y x c hc
    (fun j => by linarith [(abs_le.mp (hxy j)).1]) j
  rw [abs_le]; constructor <;> linarith

lemma exampleMarket_regular : Regular exampleMarket where
  rho := by
    intro n hn g
    simp only [exampleMarket, Option.some.injEq] at hn
    subst hn
    fin_cases g <;> simp [RhoParam.groupRho] <;> norm_num
  eps := by simp [exampleMarket]

lemma exampleMarket_offered (j : Fin 3) : ∃ i, 0 < exampleMarket.weights i ∧ Offered exampleMarket {} i j :=
  ⟨0, by simp [exampleMarket], by simp, rfl, by
    intro a h; simp [exampleMarket] at h; subst h; fin_cases j <;> simp⟩

/-- Non-vacuity of `C23_unique` and `C23_nonexpansive_partial`: the example market meets the hypotheses. -/
example (mu : Fin 3 → Fin 2 → ℝ) (x y : Fin 3 → ℝ)
    (h : ∀ j, computeShares exampleMarket {} x mu j = computeShares exampleMarket {} y mu j) : x = y :=
  C23_unique _ exampleMarket_regular true mu (exampleMarket_avail _ rfl)
    (by intro i; fin_cases i <;> (simp [exampleMarket]; try norm_num)) exampleMarket_offered x y h

example (mu : Fin 3 → Fin 2 → ℝ) (s x y : Fin 3 → ℝ) (h : ∀ j, |x j - y j| ≤ 2) (j : Fin 3) :
    |linearContraction exampleMarket true ⟨some (1/1000000), none⟩ mu s x j -
      linearContraction exampleMarket true ⟨some (1/1000000), none⟩ mu s y j| ≤ 2 :=
  C23_nonexpansive_partial _ exampleMarket_regular (by simp [exampleMarket]) true _
    ⟨by intro l h; simp at h; subst h; norm_num, by simp⟩ mu s (exampleMarket_avail _ rfl)
    (by intro i; fin_cases i <;> (simp [exampleMarket]; try norm_num)) exampleMarket_offered x y 2 h j

/-- A market with one product, one agent and a given scale of epsilon. -/
noncomputable def oneProduct (e : ℝ) : Market Unit Unit Unit where
  nesting := none
  epsilonScale := e
  weights := fun _ => 1
  availability := none

lemma oneProduct_shares (e x : ℝ) (safe : Bool) :
    computeShares (oneProduct e) { safe } (fun _ => x) (fun _ _ => 0) () = Real.exp (x / e) / (1 + Real.exp (x / e)) := by
  unfold computeShares
  simp only [Finset.univ_unique, Finset.sum_singleton]
  rw [computeProbabilities_plain _ _ _ _ rfl, multiplier_one _ _ rfl rfl rfl (fun _ => rfl)]
  simp [Spec.logit, oneProduct]

/-- **C23 fails for small `epsilon_scale`**: with `epsilon_scale = 1/4` (a documented use), the map that is iterated can move
two vectors apart. Here it maps points at distance `log 2` to points at distance more than `2 log 2`. -/
theorem C23_small_epsilon_refuted (s : Unit → ℝ) (safe : Bool) :
    let T := linearContraction (oneProduct (1/4)) safe ⟨none, none⟩ (fun _ _ => 0) s
    |(- Real.log 2) - (-(2 * Real.log 2))| = Real.log 2 ∧
    2 * Real.log 2 < |T (fun _ => -Real.log 2) () - T (fun _ => -(2 * Real.log 2)) ()| := by
  have hl2 : 0 < Real.log 2 := Real.log_pos (by norm_num)
  refine ⟨by rw [show -Real.log 2 - -(2 * Real.log 2) = Real.log 2 by ring, abs_of_pos hl2], ?_⟩
  simp only [linearContraction, clipShare, oneProduct_shares, dampener]
  have e1 : Real.exp (-Real.log 2 / (1 / 4)) = 1 / 16 := by
    rw [show -Real.log 2 / (1/4) = -(((4:ℕ):ℝ) * Real.log 2) by push_cast; ring, Real.exp_neg, Real.exp_nat_mul,
      Real.exp_log (by norm_num)]; norm_num
  have e2 : Real.exp (-(2 * Real.log 2) / (1 / 4)) = 1 / 256 := by
    rw [show -(2 * Real.log 2) / (1/4) = -(((8:ℕ):ℝ) * Real.log 2) by push_cast; ring, Real.exp_neg,
      Real.exp_nat_mul, Real.exp_log (by norm_num)]; norm_num
  simp only [oneProduct] at *
  rw [e1, e2]
  have h1 : Real.log ((1/16 : ℝ) / (1 + 1/16)) - Real.log ((1/256 : ℝ) / (1 + 1/256)) = Real.log (257 / 17) := by
    rw [← Real.log_div (by norm_num) (by norm_num)]; norm_num
  have h2 : 3 * Real.log 2 < Real.log (257 / 17) := by
    rw [show (3 : ℝ) * Real.log 2 = ((3 : ℕ) : ℝ) * Real.log 2 by norm_num, ← Real.log_pow]
    exact Real.log_lt_log (by norm_num) (by norm_num)
  rw [abs_sub_comm, lt_abs]
  left
  nlinarith [h1, h2]

/-! ## C24 -/

/-- What the documentation of `fp_type` promises: the linear types iterate over the linear contraction, the nonlinear
ones over the exponentiated one. -/
noncomputable def Spec.documentedDelta (m : Market J A G) (K2 : ℕ) (b : SharesBounds) (mu : J → A → ℝ) (s : J → ℝ)
    (iterate : (J → ℝ) → ((J → ℝ) → (J → ℝ)) → (J → ℝ)) (fp : FpType) (initial : J → ℝ) : J → ℝ :=
  if K2 = 0 then closedFormDelta m s else
    match fp with
    | .linear => iterate initial (linearContraction m false b mu s)
    | .safe_linear => iterate initial (linearContraction m true b mu s)
    | .nonlinear => fun j => Real.log (iterate (fun k => Real.exp (initial k)) (nonlinearContraction m false mu s) j)
    | .safe_nonlinear => fun j => Real.log (iterate (fun k => Real.exp (initial k)) (nonlinearContraction m true mu s) j)

/-- **C24, the part that holds.** For the linear types and, without random coefficients, for all types, the code does what is
documented. Missing: the nonlinear types, for which the claim is false (`C24_nonlinear_is_linear`). -/
theorem C24_fp_type_partial (m : Market J A G) (K2 : ℕ) (b : SharesBounds) (mu : J → A → ℝ) (s : J → ℝ)
    (iterate : (J → ℝ) → ((J → ℝ) → (J → ℝ)) → (J → ℝ)) (fp : FpType) (initial : J → ℝ)
    (h : fp = .linear ∨ fp = .safe_linear ∨ K2 = 0) :
    computeDelta m K2 b mu s iterate fp initial = Spec.documentedDelta m K2 b mu s iterate fp initial := by
  unfold computeDelta Spec.documentedDelta
  rcases h with rfl | rfl | rfl
  · rfl
  · rfl
  · simp

/-- **C24 is false of the code**: `'linear' in 'nonlinear'` holds in Python, so the nonlinear types always run the linear
contraction, in every market and with every iteration routine. -/
theorem C24_nonlinear_is_linear (m : Market J A G) (K2 : ℕ) (b : SharesBounds) (mu : J → A → ℝ) (s : J → ℝ)
    (iterate : (J → ℝ) → ((J → ℝ) → (J → ℝ)) → (J → ℝ)) (initial : J → ℝ) :
    computeDelta m K2 b mu s iterate .nonlinear initial = computeDelta m K2 b mu s iterate .linear initial ∧
    computeDelta m K2 b mu s iterate .safe_nonlinear initial = computeDelta m K2 b mu s iterate .safe_linear initial :=
  ⟨rfl, rfl⟩

/-- The difference is observable: one evaluation with a binding lower bound on shares, which is documented to do nothing
for a nonlinear fixed point. -/
theorem C24_refuted : ∃ (b : SharesBounds) (s : Unit → ℝ) (initial : Unit → ℝ),
    computeDelta (oneProduct 1) 1 b (fun _ _ => 0) s (fun x f => f x) .nonlinear initial ≠
      Spec.documentedDelta (oneProduct 1) 1 b (fun _ _ => 0) s (fun x f => f x) .nonlinear initial := by
  refine ⟨⟨some (3/4), none⟩, fun _ => 1/4, fun _ => 0, ?_⟩
  intro h
  have h1 := congrFun h ()
  have e1 : computeDelta (oneProduct 1) 1 ⟨some (3/4), none⟩ (fun _ _ => 0) (fun _ => 1/4) (fun x f => f x) .nonlinear
      (fun _ => 0) () = Real.log (1/4) - Real.log (3/4) := by
    unfold computeDelta
    rw [if_neg one_ne_zero, if_pos (by decide)]
    simp only [linearContraction, oneProduct_shares, dampener, clipShare]
    norm_num [oneProduct]
  have e2 : Spec.documentedDelta (oneProduct 1) 1 ⟨some (3/4), none⟩ (fun _ _ => 0) (fun _ => 1/4) (fun x f => f x)
      .nonlinear (fun _ => 0) () = Real.log (1/2) := by
    unfold Spec.documentedDelta
    simp [nonlinearContraction, nonlinearProbabilities, nonlinearReduction, plainScale, oneProduct]
    rw [show (4 : ℝ)⁻¹ * (1 + 1) = 2⁻¹ by norm_num, Real.log_inv]
  rw [e1, e2, ← Real.log_div (by norm_num) (by norm_num)] at h1
  have := Real.log_injOn_pos (show (1/4/(3/4) : ℝ) ∈ Set.Ioi 0 by norm_num [Set.mem_Ioi])
    (show (1/2 : ℝ) ∈ Set.Ioi 0 by norm_num [Set.mem_Ioi]) h1
  norm_num at this

/-- What is lost by always running the linear contraction: without nesting and clipping each evaluation of the nonlinear
contraction is the exponential of the linear one, so both have the same fixed points and, with plain iteration,
the same iterates; only termination, acceleration and clipping differ. -/
theorem C24_same_iterates (m : Market J A G) (safe : Bool) (mu : J → A → ℝ) (s x : J → ℝ) (hs : ∀ j, 0 < s j)
    (hn : m.nesting = none) (heps : m.epsilonScale = 1) (hav : m.availability = none)
    (hpos : ∀ j, 0 < computeShares m { safe } x mu j) (j : J) :
    nonlinearContraction m safe mu s (fun k => Real.exp (x k)) j =
      Real.exp (linearContraction m safe ⟨none, none⟩ mu s x j) := by
  have hsh : computeShares m { safe } x mu j = Real.exp (x j) *
      ∑ i, nonlinearProbabilities m (fun k => Real.exp (x k))
        (fun k => Real.exp (mu k i - (nonlinearReduction safe mu i).getD 0)) (nonlinearReduction safe mu i)
        (some fun k => Real.exp (mu k i - (nonlinearReduction safe mu i).getD 0)) j * m.weights i := by
    unfold computeShares
    rw [Finset.mul_sum]
    refine Finset.sum_congr rfl fun i _ => ?_
    rw [computeProbabilities_plain _ _ _ _ hn, multiplier_one m _ hav rfl rfl (fun _ => rfl)]
    unfold Spec.logit nonlinearProbabilities
    rw [hn, heps]
    simp only [one_mul, div_one, Option.getD_some, Bool.false_eq_true, if_false]
    rw [← mul_assoc]
    congr 1
    set r := (nonlinearReduction safe mu i).getD 0 with hr
    have hscale : plainScale false (nonlinearReduction safe mu i) = Real.exp (-r) := by
      rw [hr]; unfold plainScale nonlinearReduction
      cases safe <;> simp
    rw [hscale]
    have h1 : ∀ k, Real.exp (x k) * Real.exp (mu k i - r) = Real.exp (x k + mu k i) * Real.exp (-r) := by
      intro k; rw [← Real.exp_add, ← Real.exp_add]; congr 1; ring
    simp only [h1]
    rw [← mul_div_assoc, h1, ← Finset.sum_mul]
    have : Real.exp (-r) + (∑ k, Real.exp (x k + mu k i)) * Real.exp (-r) =
        (1 + ∑ k, Real.exp (x k + mu k i)) * Real.exp (-r) := by ring
    rw [this, mul_div_mul_right _ _ (Real.exp_pos _).ne']
  have hp := hpos j
  unfold linearContraction nonlinearContraction dampener clipShare
  simp only [hn, mul_one]
  rw [hsh] at hp ⊢
  have hq := pos_of_mul_pos_right hp (Real.exp_pos (x j)).le
  rw [← Real.log_div (hs j).ne' hp.ne', Real.exp_add, Real.exp_log (div_pos (hs j) hp)]
  have := (Real.exp_pos (x j)).ne'
  field_simp

/-- The same with nesting, where the code raises the ratio of shares to the power `1 - rho`, when utilities are not reduced. -/
theorem C24_same_iterates_nested (m : Market J A G) (mu : J → A → ℝ) (s x : J → ℝ) (hs : ∀ j, 0 < s j)
    (n : Nesting J G) (hn : m.nesting = some n) (hrho : ∀ g, n.rho.groupRho g ≠ 1) (hav : m.availability = none)
    (hpos : ∀ j, 0 < computeShares m { safe := false } x mu j) (j : J) :
    nonlinearContraction m false mu s (fun k => Real.exp (x k)) j =
      Real.exp (linearContraction m false ⟨none, none⟩ mu s x j) := by
  have hsh : computeShares m { safe := false } x mu j =
      ∑ i, nonlinearProbabilities m (fun k => Real.exp (x k)) (fun k => Real.exp (mu k i)) none none j * m.weights i := by
    unfold computeShares
    refine Finset.sum_congr rfl fun i _ => ?_
    congr 1
    rw [computeProbabilities_nested _ _ _ _ n hn i (by intro a h; simp [hav] at h) hrho,
      multiplier_one m _ hav rfl rfl (fun _ => rfl)]
    have he : ∀ k, (Real.exp (x k) * Real.exp (mu k i)) ^ (1 / (1 - n.productRho k)) =
        Real.exp ((x k + mu k i) / (1 - n.productRho k)) := by
      intro k
      rw [← Real.exp_add, ← Real.exp_mul]
      congr 1; ring
    have hg : ∀ g, ∑ k with n.group k = g, Real.exp ((x k + mu k i) / (1 - n.productRho k)) =
        Spec.groupSum n.group n.rho.groupRho (fun k => x k + mu k i) (fun _ => 1) g := by
      intro g
      unfold Spec.groupSum
      refine Finset.sum_congr rfl fun k hk => ?_
      rw [one_mul, Nesting.productRho, (Finset.mem_filter.mp hk).2]
    unfold nonlinearProbabilities
    simp only [hn, he, hg, nestedScale, scaleWeight, one_mul, Bool.false_eq_true, if_false, safeDiv_eq]
    have hw : ∀ g, expLogMul (Spec.groupSum n.group n.rho.groupRho (fun k => x k + mu k i) (fun _ => 1) g)
        (1 - n.rho.groupRho g) = Spec.expInclusive n.group n.rho.groupRho (fun k => x k + mu k i) (fun _ => 1) g := by
      intro g
      exact expLogMul_eq_rpow (groupSum_nonneg _ _ _ _ (fun _ => zero_le_one) g) (sub_ne_zero.mpr (hrho g).symm)
    simp only [hw]
    unfold Spec.nested Spec.within Spec.groupProb
    simp only [one_mul, Nesting.productRho]
  have hp := hpos j
  unfold linearContraction nonlinearContraction dampener clipShare
  simp only [hn, nonlinearReduction, Bool.false_eq_true, if_false, Option.getD_none, sub_zero]
  rw [← hsh, ← Real.log_div (hs j).ne' hp.ne', Real.exp_add, Real.rpow_def_of_pos (div_pos (hs j) hp)]

/-- Three products in two nests, without availability. -/
noncomputable def twoNests : Market (Fin 3) (Fin 2) (Fin 2) where
  nesting := some ⟨![0, 0, 1], .perGroup ![1/2, 1/4]⟩
  epsilonScale := 1
  weights := ![1/3, 2/3]
  availability := none

/-- Non-vacuity of `C24_same_iterates_nested`. -/
example (mu : Fin 3 → Fin 2 → ℝ) (x : Fin 3 → ℝ) (j : Fin 3) :
    nonlinearContraction twoNests false mu ![1/5, 1/4, 1/3] (fun k => Real.exp (x k)) j =
    Real.exp (linearContraction twoNests false ⟨none, none⟩ mu ![1/5, 1/4, 1/3] x j) := by
  refine C24_same_iterates_nested _ mu _ x (by intro j; fin_cases j <;> norm_num) _ rfl
    (by intro g; fin_cases g <;> norm_num [RhoParam.groupRho]) rfl ?_ j
  refine computeShares_pos _ false mu x ?_ (by intro i a h; simp [twoNests] at h)
    (by intro i; fin_cases i <;> norm_num [twoNests])
    (fun j => ⟨0, by norm_num [twoNests], by simp, rfl, by intro a h; simp [twoNests] at h⟩)
  intro n h g
  simp only [twoNests, Option.some.injEq] at h
  subst h
  fin_cases g <;> norm_num [RhoParam.groupRho]

/-- Non-vacuity of `C24_same_iterates`. -/
example (mu : Fin 3 → Fin 2 → ℝ) (x : Fin 3 → ℝ) (j : Fin 3) :
    nonlinearContraction ({ nesting := none, epsilonScale := 1, weights := ![1/3, 2/3], availability := none } :
      Market (Fin 3) (Fin 2) Unit) true mu ![1/5, 1/4, 1/3] (fun k => Real.exp (x k)) j =
    Real.exp (linearContraction ({ nesting := none, epsilonScale := 1, weights := ![1/3, 2/3], availability := none } :
      Market (Fin 3) (Fin 2) Unit) true ⟨none, none⟩ mu ![1/5, 1/4, 1/3] x j) := by
  refine C24_same_iterates _ true mu _ x (by intro j; fin_cases j <;> norm_num) rfl rfl rfl ?_ j
  refine computeShares_pos _ true mu x (by intro n h; simp at h) (by intro i a h; simp at h)
    (by intro i; fin_cases i <;> norm_num) (fun j => ⟨0, by norm_num, by simp, rfl, by intro a h; simp at h⟩)

end Pyblp
