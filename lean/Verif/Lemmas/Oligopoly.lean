import Mathlib.Algebra.BigOperators.Field
import Mathlib.Analysis.SpecialFunctions.Exp
import Mathlib.Topology.Order.MonotoneConvergence
import Mathlib.Topology.Sequences
import Mathlib.Topology.MetricSpace.Bounded

/-!
# Pricing with logit demand

Products are of firms. With unit price coefficient, `E k` is the exponential of the utility of product `k` when it is sold at cost, and `mu k` is its markup.
Each firm's new markup is one plus its profits.
-/

set_option linter.unusedSectionVars false

namespace Pyblp.Oligopoly

open Finset

variable {J F : Type} [Fintype J] [DecidableEq F]

/-- The denominator of probabilities. -/
noncomputable def denom (E mu : J → ℝ) : ℝ := 1 + ∑ k, E k * Real.exp (-mu k)

/-- The part of the denominator that is not the firm's. -/
noncomputable def rival (firm : J → F) (E mu : J → ℝ) (f : F) : ℝ := 1 + ∑ k with firm k ≠ f, E k * Real.exp (-mu k)

/-- The firm's part of the denominator. -/
noncomputable def own (firm : J → F) (E mu : J → ℝ) (f : F) : ℝ := ∑ k with firm k = f, E k * Real.exp (-mu k)

/-- Profits of a firm. -/
noncomputable def profit (firm : J → F) (E mu : J → ℝ) (f : F) : ℝ := (∑ k with firm k = f, E k * Real.exp (-mu k) * mu k) / denom E mu

/-- The next markups. -/
noncomputable def step (firm : J → F) (E mu : J → ℝ) (j : J) : ℝ := 1 + profit firm E mu (firm j)

/-- Utilities of a firm's products at cost. -/
noncomputable def size (firm : J → F) (E : J → ℝ) (f : F) : ℝ := ∑ k with firm k = f, E k

variable (firm : J → F) (E : J → ℝ) (hE : ∀ k, 0 < E k)

theorem denom_eq (mu : J → ℝ) (f : F) : denom E mu = rival firm E mu f + own firm E mu f := by
  unfold denom rival own
  rw [← Finset.sum_filter_add_sum_filter_not univ (fun k => firm k = f)]
  ring

section pos

include hE

theorem rival_ge (mu : J → ℝ) (f : F) : 1 ≤ rival firm E mu f :=
  le_add_of_nonneg_right (Finset.sum_nonneg fun k _ => (mul_pos (hE k) (Real.exp_pos _)).le)

theorem own_nonneg (mu : J → ℝ) (f : F) : 0 ≤ own firm E mu f :=
  Finset.sum_nonneg fun k _ => (mul_pos (hE k) (Real.exp_pos _)).le

theorem denom_ge (mu : J → ℝ) : 1 ≤ denom E mu :=
  le_add_of_nonneg_right (Finset.sum_nonneg fun k _ => (mul_pos (hE k) (Real.exp_pos _)).le)

theorem size_pos (j : J) : 0 < size firm E (firm j) :=
  Finset.sum_pos (fun k _ => hE k) ⟨j, by simp⟩

theorem own_pos (mu : J → ℝ) (j : J) : 0 < own firm E mu (firm j) :=
  Finset.sum_pos (fun k _ => mul_pos (hE k) (Real.exp_pos _)) ⟨j, by simp⟩

theorem rival_anti (mu nu : J → ℝ) (h : ∀ k, mu k ≤ nu k) (f : F) : rival firm E nu f ≤ rival firm E mu f := by
  unfold rival
  gcongr with k
  · exact (hE k).le
  · exact h k

/-- What profits are, relative to a level `p`. -/
theorem profit_sub (mu : J → ℝ) (f : F) (p : ℝ) :
    (profit firm E mu f - p) * denom E mu = (∑ k with firm k = f, E k * (Real.exp (-mu k) * (mu k - p))) - p * rival firm E mu f := by
  have hd : denom E mu ≠ 0 := (lt_of_lt_of_le one_pos (denom_ge E hE mu)).ne'
  rw [sub_mul, profit, div_mul_cancel₀ _ hd, denom_eq firm E mu f, own]
  simp only [mul_sub, Finset.sum_sub_distrib]
  have : ∑ k with firm k = f, E k * (Real.exp (-mu k) * p) = p * ∑ k with firm k = f, E k * Real.exp (-mu k) := by
    rw [Finset.mul_sum]
    exact Finset.sum_congr rfl fun k _ => by ring
  rw [this]
  simp only [mul_assoc]
  ring

omit hE in
theorem exp_mul_le (m p : ℝ) : Real.exp (-m) * (m - p) ≤ Real.exp (-(1 + p)) := by
  have h := Real.add_one_le_exp (m - p - 1)
  have e : Real.exp (-(1 + p)) = Real.exp (-m) * Real.exp (m - p - 1) := by
    rw [← Real.exp_add]
    ring_nf
  rw [e]
  exact mul_le_mul_of_nonneg_left (by linarith) (Real.exp_pos _).le

omit hE in
theorem exp_mul_lt (m p : ℝ) (h : m ≠ 1 + p) : Real.exp (-m) * (m - p) < Real.exp (-(1 + p)) := by
  have h := Real.add_one_lt_exp (x := m - p - 1) (fun h0 => h (by linarith))
  have e : Real.exp (-(1 + p)) = Real.exp (-m) * Real.exp (m - p - 1) := by
    rw [← Real.exp_add]
    ring_nf
  rw [e]
  exact mul_lt_mul_of_pos_left (by linarith) (Real.exp_pos _)

/-- A firm's new markup is at most a best response. -/
theorem profit_bound (mu : J → ℝ) (f : F) :
    profit firm E mu f * rival firm E mu f ≤ size firm E f * Real.exp (-(1 + profit firm E mu f)) := by
  have h := profit_sub firm E hE mu f (profit firm E mu f)
  rw [sub_self, zero_mul, eq_comm, sub_eq_zero] at h
  rw [← h, size, Finset.sum_mul]
  exact Finset.sum_le_sum fun k _ => mul_le_mul_of_nonneg_left (exp_mul_le _ _) (hE k).le

theorem profit_bound_lt (mu : J → ℝ) (f : F) (j : J) (hj : firm j = f) (h : mu j ≠ 1 + profit firm E mu f) :
    profit firm E mu f * rival firm E mu f < size firm E f * Real.exp (-(1 + profit firm E mu f)) := by
  have h' := profit_sub firm E hE mu f (profit firm E mu f)
  rw [sub_self, zero_mul, eq_comm, sub_eq_zero] at h'
  rw [← h', size, Finset.sum_mul]
  exact Finset.sum_lt_sum (fun k _ => mul_le_mul_of_nonneg_left (exp_mul_le _ _) (hE k).le)
    ⟨j, by simp [hj], mul_lt_mul_of_pos_left (exp_mul_lt _ _ h) (hE j)⟩

/-- What profits are with a common markup. -/
theorem profit_common (mu : J → ℝ) (f : F) (t : ℝ) (h : ∀ k, firm k = f → mu k = t) :
    own firm E mu f = size firm E f * Real.exp (-t) ∧
    profit firm E mu f * (rival firm E mu f + size firm E f * Real.exp (-t)) = size firm E f * Real.exp (-t) * t := by
  have ho : own firm E mu f = size firm E f * Real.exp (-t) := by
    rw [own, size, Finset.sum_mul]
    exact Finset.sum_congr rfl fun k hk => by rw [h k (by simpa using hk)]
  refine ⟨ho, ?_⟩
  have hd : denom E mu ≠ 0 := (lt_of_lt_of_le one_pos (denom_ge E hE mu)).ne'
  rw [← ho, ← denom_eq, profit, div_mul_cancel₀ _ hd, ho, size, Finset.sum_mul, Finset.sum_mul]
  exact Finset.sum_congr rfl fun k hk => by rw [h k (by simpa using hk)]

/-- The equation for equilibrium markups. -/
theorem fixed_eq (mu : J → ℝ) (h : step firm E mu = mu) (j : J) :
    (mu j - 1) * rival firm E mu (firm j) = size firm E (firm j) * Real.exp (-mu j) ∧ mu j - 1 = profit firm E mu (firm j) ∧
      own firm E mu (firm j) = size firm E (firm j) * Real.exp (-mu j) := by
  have hk : ∀ k, firm k = firm j → mu k = mu j := by
    intro k hk
    rw [← h]
    simp only [step, hk]
  have hp : mu j - 1 = profit firm E mu (firm j) := by
    have := congrFun h j
    simp only [step] at this
    linarith
  obtain ⟨ho, hpr⟩ := profit_common firm E hE mu (firm j) (mu j) hk
  rw [← hp] at hpr
  refine ⟨?_, hp, ho⟩
  linarith [mul_add (mu j - 1) (rival firm E mu (firm j)) (size firm E (firm j) * Real.exp (-mu j)),
    sub_one_mul (mu j) (size firm E (firm j) * Real.exp (-mu j)), mul_comm (mu j) (size firm E (firm j) * Real.exp (-mu j))]

theorem fixed_gt (mu : J → ℝ) (h : step firm E mu = mu) (j : J) : 1 < mu j := by
  have h1 := (fixed_eq firm E hE mu h j).1
  have h2 : 0 < size firm E (firm j) * Real.exp (-mu j) := mul_pos (size_pos firm E hE j) (Real.exp_pos _)
  rw [← h1] at h2
  have := (mul_pos_iff_of_pos_right (lt_of_lt_of_le one_pos (rival_ge firm E hE mu (firm j)))).mp h2
  linarith

/-! ## Bounds -/

theorem step_le (mu : J → ℝ) (j : J) : step firm E mu j ≤ 1 + size firm E (firm j) := by
  have hs := size_pos firm E hE j
  by_cases hp : profit firm E mu (firm j) ≤ 0
  · simp only [step]
    linarith
  · push Not at hp
    have h := profit_bound firm E hE mu (firm j)
    have h1 : profit firm E mu (firm j) ≤ profit firm E mu (firm j) * rival firm E mu (firm j) :=
      le_mul_of_one_le_right hp.le (rival_ge firm E hE mu _)
    have h2 : size firm E (firm j) * Real.exp (-(1 + profit firm E mu (firm j))) ≤ size firm E (firm j) * 1 :=
      mul_le_mul_of_nonneg_left (Real.exp_le_one_iff.mpr (by linarith)) hs.le
    simp only [step]
    linarith

theorem step_ge (mu : J → ℝ) (l : ℝ) (hl : l ≤ 0) (h : ∀ k, l ≤ mu k) (j : J) : 1 + l ≤ step firm E mu j := by
  have hd : 0 < denom E mu := lt_of_lt_of_le one_pos (denom_ge E hE mu)
  simp only [step, profit]
  rw [add_le_add_iff_left, le_div_iff₀ hd]
  calc l * denom E mu ≤ l * own firm E mu (firm j) := by
        apply mul_le_mul_of_nonpos_left _ hl
        rw [denom_eq firm E mu (firm j)]
        linarith [rival_ge firm E hE mu (firm j)]
    _ ≤ _ := by
        rw [own, Finset.mul_sum]
        refine Finset.sum_le_sum fun k _ => ?_
        rw [mul_comm]
        exact mul_le_mul_of_nonneg_left (h k) (mul_pos (hE k) (Real.exp_pos _)).le

omit hE in
theorem continuous_denom : Continuous fun mu : J → ℝ => denom E mu := by
  unfold denom
  fun_prop

theorem continuous_step : Continuous fun mu : J → ℝ => step firm E mu := by
  refine continuous_pi fun j => ?_
  unfold step profit
  refine continuous_const.add (Continuous.div ?_ (continuous_denom E) fun mu => (lt_of_lt_of_le one_pos (denom_ge E hE mu)).ne')
  fun_prop

/-! ## Iteration from below -/

/-- Markups below best responses. -/
theorem step_mono (mu : J → ℝ) (h : ∀ j, mu j ≤ step firm E mu j) (j : J) : step firm E mu j ≤ step firm E (step firm E mu) j := by
  set nu := step firm E mu with hnu
  set t := nu j with ht
  have hk : ∀ k, firm k = firm j → nu k = t := by
    intro k hk
    simp only [t, nu, step, hk]
  obtain ⟨ho, hpr⟩ := profit_common firm E hE nu (firm j) t hk
  have hR := rival_anti firm E hE mu nu h (firm j)
  have hR1 := rival_ge firm E hE nu (firm j)
  have hb : (t - 1) * rival firm E nu (firm j) ≤ size firm E (firm j) * Real.exp (-t) := by
    have hb := profit_bound firm E hE mu (firm j)
    have e : t = 1 + profit firm E mu (firm j) := rfl
    rw [← e] at hb
    by_cases ht1 : t - 1 ≤ 0
    · exact (mul_nonpos_of_nonpos_of_nonneg ht1 (by linarith)).trans (mul_pos (size_pos firm E hE j) (Real.exp_pos _)).le
    · push Not at ht1
      refine (mul_le_mul_of_nonneg_left hR ht1.le).trans ?_
      rwa [show t - 1 = profit firm E mu (firm j) by rw [e]; ring]
  show t ≤ 1 + profit firm E nu (firm j)
  have hpos : 0 < rival firm E nu (firm j) + size firm E (firm j) * Real.exp (-t) :=
    add_pos (by linarith) (mul_pos (size_pos firm E hE j) (Real.exp_pos _))
  by_contra hlt
  push Not at hlt
  have := mul_lt_mul_of_pos_right (show profit firm E nu (firm j) < t - 1 by linarith) hpos
  rw [hpr] at this
  nlinarith

theorem exists_fixed_above (mu : J → ℝ) (h : ∀ j, mu j ≤ step firm E mu j) :
    ∃ nu, step firm E nu = nu ∧ (∀ j, mu j ≤ nu j) ∧ (∀ j, step firm E mu j ≤ nu j) ∧
      Filter.Tendsto (fun n => (step firm E)^[n] mu) Filter.atTop (nhds nu) := by
  have hsub : ∀ n j, (step firm E)^[n] mu j ≤ (step firm E)^[n + 1] mu j := by
    intro n
    induction n with
    | zero => exact h
    | succ n ih =>
      intro j
      have := step_mono firm E hE _ (fun j => by simpa only [Function.iterate_succ_apply'] using ih j) j
      simpa only [Function.iterate_succ_apply'] using this
  have hmono : ∀ j, Monotone fun n => (step firm E)^[n] mu j := fun j => monotone_nat_of_le_succ fun n => hsub n j
  have hbdd : ∀ j, BddAbove (Set.range fun n => (step firm E)^[n] mu j) := by
    rintro j
    refine ⟨1 + size firm E (firm j), ?_⟩
    rintro _ ⟨n, rfl⟩
    refine (hsub n j).trans ?_
    simp only [Function.iterate_succ_apply']
    exact step_le firm E hE _ j
  set nu : J → ℝ := fun j => ⨆ n, (step firm E)^[n] mu j with hnu
  have hlim : Filter.Tendsto (fun n => (step firm E)^[n] mu) Filter.atTop (nhds nu) :=
    tendsto_pi_nhds.mpr fun j => tendsto_atTop_ciSup (hmono j) (hbdd j)
  refine ⟨nu, ?_, fun j => le_ciSup (hbdd j) 0, fun j => le_ciSup (hbdd j) 1, hlim⟩
  have h1 : Filter.Tendsto (fun n => step firm E ((step firm E)^[n] mu)) Filter.atTop (nhds (step firm E nu)) :=
    ((continuous_step firm E hE).tendsto nu).comp hlim
  have h2 : Filter.Tendsto (fun n => step firm E ((step firm E)^[n] mu)) Filter.atTop (nhds nu) := by
    have := hlim.comp (Filter.tendsto_add_atTop_nat 1)
    refine this.congr fun n => ?_
    simp only [Function.comp, Function.iterate_succ_apply']
  exact tendsto_nhds_unique h1 h2

/-! ## Uniqueness and bounds from above -/

/-- If markups are at most `p` above equilibrium ones, the next ones are less above. -/
theorem step_above (z : J → ℝ) (hz : step firm E z = z) (mu : J → ℝ) (p : ℝ) (hp : 0 ≤ p) (h : ∀ k, mu k ≤ z k + p) (j : J)
    (hj : z j < step firm E mu j) : Real.exp (step firm E mu j - z j) * (Real.exp p + denom E z - 1) ≤ denom E z * Real.exp p := by
  set t := step firm E mu j with ht
  obtain ⟨h1, -, -⟩ := fixed_eq firm E hE z hz j
  have hz1 := fixed_gt firm E hE z hz j
  have hb := profit_bound firm E hE mu (firm j)
  have e : t - 1 = profit firm E mu (firm j) := by simp only [t, step]; ring
  rw [← e, add_sub_cancel] at hb
  set R := rival firm E z (firm j) with hR
  set R' := rival firm E mu (firm j) with hR'
  have hR1 : 1 ≤ R := rival_ge firm E hE z _
  have hRH : R ≤ denom E z := by
    rw [denom_eq firm E z (firm j)]
    linarith [own_nonneg firm E hE z (firm j)]
  have hRR : 1 + (R - 1) * Real.exp (-p) ≤ R' := by
    simp only [hR, hR', rival, add_sub_cancel_left, Finset.sum_mul, add_le_add_iff_left]
    refine Finset.sum_le_sum fun k _ => ?_
    rw [mul_assoc, ← Real.exp_add]
    exact mul_le_mul_of_nonneg_left (Real.exp_le_exp.mpr (by linarith [h k])) (hE k).le
  have hS : size firm E (firm j) * Real.exp (-t) = (z j - 1) * R * Real.exp (-(t - z j)) := by
    rw [h1, mul_assoc, ← Real.exp_add]
    ring_nf
  have h3 : (z j - 1) * R' ≤ (z j - 1) * R * Real.exp (-(t - z j)) := by
    rw [← hS]
    exact (mul_le_mul_of_nonneg_right (by linarith) (by linarith [rival_ge firm E hE mu (firm j)])).trans hb
  have h4 : R' ≤ R * Real.exp (-(t - z j)) := by
    rw [mul_assoc] at h3
    exact le_of_mul_le_mul_left h3 (by linarith)
  have h5 : Real.exp (t - z j) * (1 + (R - 1) * Real.exp (-p)) ≤ R := by
    have := mul_le_mul_of_nonneg_left (hRR.trans h4) (Real.exp_pos (t - z j)).le
    rwa [mul_left_comm, ← Real.exp_add, add_neg_cancel, Real.exp_zero, mul_one] at this
  have hq := Real.exp_pos (t - z j)
  have hpe : 1 ≤ Real.exp p := Real.one_le_exp hp
  have h6 : Real.exp (t - z j) * (Real.exp p + R - 1) ≤ R * Real.exp p := by
    have := mul_le_mul_of_nonneg_right h5 (Real.exp_pos p).le
    have e2 : Real.exp (-p) * Real.exp p = 1 := by rw [← Real.exp_add, neg_add_cancel, Real.exp_zero]
    calc _ = Real.exp (t - z j) * (1 + (R - 1) * Real.exp (-p)) * Real.exp p := by
          linear_combination (-Real.exp (t - z j) * (R - 1)) * e2
      _ ≤ _ := this
  have h7 : Real.exp (t - z j) ≤ Real.exp p := by
    by_contra hlt
    push Not at hlt
    nlinarith
  nlinarith

/-- Equilibrium markups are unique. -/
theorem fixed_le [Nonempty J] (z y : J → ℝ) (hz : step firm E z = z) (hy : step firm E y = y) (j : J) : y j ≤ z j := by
  obtain ⟨k, -, hk⟩ := Finset.exists_max_image (univ : Finset J) (fun k => y k - z k) univ_nonempty
  suffices hle : y k - z k ≤ 0 by linarith [hk j (mem_univ _)]
  by_contra hpos
  push Not at hpos
  have h := step_above firm E hE z hz y (y k - z k) hpos.le (fun i => by linarith [hk i (mem_univ _)]) k (by rw [hy]; linarith)
  rw [hy] at h
  have h1 : 1 < Real.exp (y k - z k) := Real.one_lt_exp_iff.mpr hpos
  nlinarith [denom_ge E hE z]

theorem fixed_unique [Nonempty J] (z y : J → ℝ) (hz : step firm E z = z) (hy : step firm E y = y) : y = z :=
  funext fun j => le_antisymm (fixed_le firm E hE z y hz hy j) (fixed_le firm E hE y z hy hz j)

/-! ## Bounds from below -/

/-- The market share of a product. -/
noncomputable def share (mu : J → ℝ) (k : J) : ℝ := E k * Real.exp (-mu k) / denom E mu

/-- Deviations that are consistent with each other are zero. -/
theorem deviations_zero [Nonempty J] (z d : J → ℝ) (hd : ∀ k, 0 ≤ d k)
    (h : ∀ j, d j * (1 - ∑ k with firm k = firm j, share E z k) * (1 + ∑ k with firm k ≠ firm j, share E z k * (Real.exp (d k) - 1)) ≤
      (∑ k with firm k = firm j, share E z k) * ∑ k with firm k ≠ firm j, share E z k * (Real.exp (d k) - 1)) (j : J) : d j = 0 := by
  obtain ⟨i, -, hi⟩ := Finset.exists_max_image (univ : Finset J) d univ_nonempty
  suffices hle : d i ≤ 0 from le_antisymm ((hi j (mem_univ _)).trans hle) (hd j)
  by_contra hpos
  push Not at hpos
  have hdz := denom_ge E hE z
  have hsp : ∀ k, 0 < share E z k := fun k => div_pos (mul_pos (hE k) (Real.exp_pos _)) (by linarith)
  have htot : ∑ k, share E z k < 1 := by
    simp only [share, ← Finset.sum_div]
    rw [div_lt_one (by linarith), denom]
    linarith
  have hsplit : ∀ f, (∑ k with firm k = f, share E z k) + ∑ k with firm k ≠ f, share E z k = ∑ k, share E z k := fun f =>
    Finset.sum_filter_add_sum_filter_not univ (fun k => firm k = f) _
  set D := d i with hD
  set r := ∑ k with firm k ≠ firm i, share E z k with hr
  have hr0 : 0 ≤ r := Finset.sum_nonneg fun k _ => (hsp k).le
  set s := ∑ k with firm k = firm i, share E z k with hs
  have hs0 : 0 < s := Finset.sum_pos (fun k _ => hsp k) ⟨i, by simp⟩
  have hsr : s + r < 1 := by rw [hs, hr, hsplit]; exact htot
  have hr1 : r < 1 := by linarith
  set w := 1 - Real.exp (-D) with hw
  have hw0 : 0 < w := by
    have : Real.exp (-D) < 1 := Real.exp_lt_one_iff.mpr (by linarith)
    linarith
  have hwD : w ≤ D := by
    have := Real.add_one_le_exp (-D)
    linarith
  have hother : ∀ k, firm k ≠ firm i → d k * (1 - r) ≤ r * w := by
    intro k hk
    have hk' := h k
    set sk := ∑ l with firm l = firm k, share E z l with hsk
    set X := ∑ l with firm l ≠ firm k, share E z l * (Real.exp (d l) - 1) with hX
    have hskr : sk ≤ r := by
      refine Finset.sum_le_sum_of_subset_of_nonneg (fun l hl => ?_) fun l _ _ => (hsp l).le
      simp only [mem_filter, mem_univ, true_and] at hl ⊢
      rw [hl]
      exact hk
    have hsk0 : 0 ≤ sk := Finset.sum_nonneg fun l _ => (hsp l).le
    have hX0 : 0 ≤ X := Finset.sum_nonneg fun l _ => mul_nonneg (hsp l).le (by linarith [Real.one_le_exp (hd l)])
    have hX1 : X ≤ Real.exp D - 1 := by
      have : X ≤ (∑ l with firm l ≠ firm k, share E z l) * (Real.exp D - 1) := by
        rw [Finset.sum_mul]
        exact Finset.sum_le_sum fun l _ => mul_le_mul_of_nonneg_left (by linarith [Real.exp_le_exp.mpr (hi l (mem_univ _))]) (hsp l).le
      refine this.trans (mul_le_of_le_one_left (by linarith [Real.one_le_exp hpos.le]) ?_)
      linarith [hsplit (firm k)]
    have hXw : X ≤ w * (1 + X) := by
      have e : Real.exp (-D) * Real.exp D = 1 := by rw [← Real.exp_add, neg_add_cancel, Real.exp_zero]
      have : Real.exp (-D) * (1 + X) ≤ 1 := by
        rw [← e]
        exact mul_le_mul_of_nonneg_left (by linarith) (Real.exp_pos _).le
      rw [hw]
      linarith
    have h1 : d k * (1 - sk) ≤ sk * w := by
      have : d k * (1 - sk) * (1 + X) ≤ sk * w * (1 + X) := hk'.trans (by rw [mul_assoc]; exact mul_le_mul_of_nonneg_left hXw hsk0)
      exact le_of_mul_le_mul_right this (by linarith)
    calc d k * (1 - r) ≤ d k * (1 - sk) := mul_le_mul_of_nonneg_left (by linarith) (hd k)
      _ ≤ sk * w := h1
      _ ≤ r * w := mul_le_mul_of_nonneg_right hskr hw0.le
  set rho := r / (1 - r) with hrho
  have hrho0 : 0 ≤ rho := div_nonneg hr0 (by linarith)
  have hrhor : rho * (1 - r) = r := div_mul_cancel₀ _ (by linarith)
  have hdk : ∀ k, firm k ≠ firm i → d k ≤ rho * w := by
    intro k hk
    have := hother k hk
    rw [hrho, div_mul_eq_mul_div, le_div_iff₀ (by linarith)]
    exact this
  set X := ∑ k with firm k ≠ firm i, share E z k * (Real.exp (d k) - 1) with hX
  set e := Real.exp (rho * w) with he
  have he1 : 1 ≤ e := Real.one_le_exp (mul_nonneg hrho0 hw0.le)
  have hX0 : 0 ≤ X := Finset.sum_nonneg fun l _ => mul_nonneg (hsp l).le (by linarith [Real.one_le_exp (hd l)])
  have hXr : X ≤ r * (e - 1) := by
    rw [hX, hr, Finset.sum_mul]
    refine Finset.sum_le_sum fun k hk => mul_le_mul_of_nonneg_left ?_ (hsp k).le
    linarith [Real.exp_le_exp.mpr (hdk k (by simpa using hk))]
  have hee : e - 1 ≤ rho * w * e := by
    have h1 := Real.add_one_le_exp (-(rho * w))
    have e2 : Real.exp (-(rho * w)) * e = 1 := by rw [he, ← Real.exp_add, neg_add_cancel, Real.exp_zero]
    have := mul_le_mul_of_nonneg_right h1 (by linarith : (0 : ℝ) ≤ e)
    rw [e2] at this
    linarith
  have hi' := h i
  rw [← hs, ← hX, ← hD] at hi'
  have h1 : D * r * (1 + X) ≤ (1 - r) * X := by
    calc D * r * (1 + X) ≤ D * (1 - s) * (1 + X) :=
          mul_le_mul_of_nonneg_right (mul_le_mul_of_nonneg_left (by linarith) hpos.le) (by linarith)
      _ ≤ s * X := hi'
      _ ≤ (1 - r) * X := mul_le_mul_of_nonneg_right (by linarith) hX0
  rcases eq_or_lt_of_le hr0 with hr0' | hr0'
  · have hX00 : X = 0 := le_antisymm (by rw [← hr0'] at hXr; linarith) hX0
    rw [hX00] at hi'
    have : 0 < D * (1 - s) := mul_pos hpos (by linarith)
    linarith
  · have h2 : D * r ≤ X * (1 - r - D * r) := by linarith
    have hc : 0 < 1 - r - D * r := by
      by_contra hn
      push Not at hn
      have := mul_nonpos_of_nonneg_of_nonpos hX0 hn
      have := mul_pos hpos hr0'
      linarith
    have h3 : D * r ≤ r * (e - 1) * (1 - r - D * r) := h2.trans (mul_le_mul_of_nonneg_right hXr hc.le)
    have h4 : D ≤ (e - 1) * (1 - r - D * r) := by
      have : r * D ≤ r * ((e - 1) * (1 - r - D * r)) := by linarith
      exact le_of_mul_le_mul_left this hr0'
    have h5 : D * (1 - r) + D * (r * e) ≤ (1 - r) * (e - 1) := by linarith
    have h6 : (1 - r) * (e - 1) ≤ r * w * e := by
      have := mul_le_mul_of_nonneg_left hee (by linarith : (0 : ℝ) ≤ 1 - r)
      calc _ ≤ (1 - r) * (rho * w * e) := this
        _ = rho * (1 - r) * w * e := by ring
        _ = _ := by rw [hrhor]
    have h7 : r * w * e ≤ D * (r * e) := by
      have := mul_le_mul_of_nonneg_right hwD (by positivity : (0 : ℝ) ≤ r * e)
      linarith
    have h8 : 0 < D * (1 - r) := mul_pos hpos (by linarith)
    linarith

/-- A step from markups that are consistently below equilibrium ones. -/
theorem step_below (z : J → ℝ) (hz : step firm E z = z) (mu d : J → ℝ) (j : J) (hcommon : ∀ k, firm k = firm j → mu k = mu j)
    (hlow : ∀ k, z k - d k ≤ mu k) (hhigh : mu j ≤ z j) (hmu : 1 ≤ mu j) (hstep : step firm E mu j ≤ mu j) :
    (z j - step firm E mu j) * (1 - ∑ k with firm k = firm j, share E z k) *
        (1 + ∑ k with firm k ≠ firm j, share E z k * (Real.exp (d k) - 1)) ≤
      (∑ k with firm k = firm j, share E z k) * ∑ k with firm k ≠ firm j, share E z k * (Real.exp (d k) - 1) := by
  have hH := denom_ge E hE z
  set H := denom E z with hHdef
  have hH0 : H ≠ 0 := by linarith
  obtain ⟨h1, h2, h3⟩ := fixed_eq firm E hE z hz j
  have hz1 := fixed_gt firm E hE z hz j
  set S := size firm E (firm j) with hS
  have hSpos : 0 < S := size_pos firm E hE j
  set s := ∑ k with firm k = firm j, share E z k with hs
  have hsH : s * H = own firm E z (firm j) := by
    rw [hs, own, Finset.sum_mul]
    exact Finset.sum_congr rfl fun k _ => by rw [share, div_mul_cancel₀ _ hH0]
  set R := rival firm E z (firm j) with hR
  have hRH : R = H * (1 - s) := by
    have := denom_eq firm E z (firm j)
    rw [← hHdef, ← hsH] at this
    linarith
  set X := ∑ k with firm k ≠ firm j, share E z k * (Real.exp (d k) - 1) with hX
  set R' := rival firm E mu (firm j) with hR'
  have hRX : R' ≤ R + H * X := by
    rw [hR, hR', hX, rival, rival, Finset.mul_sum, add_assoc, ← Finset.sum_add_distrib, add_le_add_iff_left]
    refine Finset.sum_le_sum fun k _ => ?_
    have : E k * Real.exp (-z k) + H * (share E z k * (Real.exp (d k) - 1)) = E k * Real.exp (-(z k - d k)) := by
      have e : H * share E z k = E k * Real.exp (-z k) := by rw [share, mul_div_cancel₀ _ hH0]
      rw [← mul_assoc, e, show -(z k - d k) = -z k + d k by ring, Real.exp_add]
      ring
    rw [this]
    exact mul_le_mul_of_nonneg_left (Real.exp_le_exp.mpr (by linarith [hlow k])) (hE k).le
  have hR1 : 1 ≤ R' := rival_ge firm E hE mu (firm j)
  set B := R + H * X with hB
  have hB1 : 1 ≤ B := hR1.trans hRX
  obtain ⟨-, hpr⟩ := profit_common firm E hE mu (firm j) (mu j) hcommon
  set m := mu j with hm
  set t := step firm E mu j with ht
  have hprofit : profit firm E mu (firm j) = t - 1 := by simp only [ht, step]; ring
  rw [hprofit, ← hR', ← hS] at hpr
  have ht1 : 0 ≤ t - 1 := by
    have hpos : 0 < R' + S * Real.exp (-m) := by positivity
    have : 0 ≤ (t - 1) * (R' + S * Real.exp (-m)) := by rw [hpr]; positivity
    exact nonneg_of_mul_nonneg_left this hpos
  -- with rivals' lower markups, profits are at least those with the bounds
  have hlow' : S * Real.exp (-m) * m ≤ (t - 1) * (B + S * Real.exp (-m)) := by
    rw [← hpr]
    exact mul_le_mul_of_nonneg_left (by linarith) ht1
  have hlow2 : S * m ≤ (t - 1) * (B * Real.exp m + S) := by
    have := mul_le_mul_of_nonneg_right hlow' (Real.exp_pos m).le
    have e : Real.exp (-m) * Real.exp m = 1 := by rw [← Real.exp_add, neg_add_cancel, Real.exp_zero]
    calc S * m = S * Real.exp (-m) * m * Real.exp m := by linear_combination (-S * m) * e
      _ ≤ _ := this
      _ = _ := by linear_combination ((t - 1) * S) * e
  -- since the next markup is lower, markups are above the best response
  have hbest : S ≤ (m - 1) * (B * Real.exp m) := by
    have hle : (t - 1) * (B * Real.exp m + S) ≤ (m - 1) * (B * Real.exp m + S) :=
      mul_le_mul_of_nonneg_right (by linarith) (by positivity)
    nlinarith
  -- so that profits at the equilibrium markup are lower
  have hgoal : S * z j ≤ (t - 1) * (B * Real.exp (z j) + S) := by
    have hx : m * (1 + (z j - m)) ≤ m * Real.exp (z j - m) :=
      mul_le_mul_of_nonneg_left (by linarith [Real.add_one_le_exp (z j - m)]) (by linarith)
    have hez : Real.exp (z j) = Real.exp (z j - m) * Real.exp m := by rw [← Real.exp_add]; ring_nf
    set g := Real.exp (z j - m) with hg
    set K := B * Real.exp m with hK
    have hKpos : 0 < K := by positivity
    have hz' : z j * (K + S) ≤ m * (g * K + S) := by
      have h5 : (z j - m) * S ≤ (z j - m) * ((m - 1) * K) := mul_le_mul_of_nonneg_left hbest (by linarith)
      have h6 : (m * (1 + (z j - m))) * K ≤ (m * g) * K := mul_le_mul_of_nonneg_right hx hKpos.le
      nlinarith
    rw [hez, show B * (g * Real.exp m) = g * K by rw [hK]; ring]
    have hKS : 0 < K + S := by positivity
    have h7 : S * z j * (K + S) ≤ (t - 1) * (g * K + S) * (K + S) := by
      calc S * z j * (K + S) = S * (z j * (K + S)) := by ring
        _ ≤ S * (m * (g * K + S)) := mul_le_mul_of_nonneg_left hz' hSpos.le
        _ = S * m * (g * K + S) := by ring
        _ ≤ (t - 1) * (K + S) * (g * K + S) := by
            apply mul_le_mul_of_nonneg_right hlow2
            have : 0 < g := Real.exp_pos _
            positivity
        _ = _ := by ring
    exact le_of_mul_le_mul_right h7 hKS
  -- in terms of shares
  have hSe : S = s * H * Real.exp (z j) := by
    rw [hsH, h3, mul_assoc, ← Real.exp_add, neg_add_cancel, Real.exp_zero, mul_one]
  have h8 : s * z j ≤ (t - 1) * (1 + X) := by
    have : s * z j * (H * Real.exp (z j)) ≤ (t - 1) * (1 + X) * (H * Real.exp (z j)) := by
      calc _ = S * z j := by rw [hSe]; ring
        _ ≤ _ := hgoal
        _ = (t - 1) * ((B + s * H) * Real.exp (z j)) := by rw [hSe]; ring
        _ = _ := by rw [hB, hRH]; ring
    exact le_of_mul_le_mul_right this (by positivity)
  have h9 : z j * (1 - s) = 1 := by
    rw [hRH, ← h3, ← hsH] at h1
    have : H * (z j * (1 - s)) = H * 1 := by linear_combination h1
    exact mul_left_cancel₀ hH0 this
  have hs1 : 0 < 1 - s := by
    have : 0 < z j * (1 - s) := by rw [h9]; exact one_pos
    exact (mul_pos_iff_of_pos_left (by linarith)).mp this
  have h10 := mul_le_mul_of_nonneg_right h8 hs1.le
  have h11 : s * z j * (1 - s) = s := by rw [mul_assoc, h9, mul_one]
  rw [h11] at h10
  linear_combination h10 + (1 + X) * h9

end pos

/-- Cluster points of a bounded sequence of iterates: they are images of cluster points. -/
theorem cluster_image {α : Type} [TopologicalSpace α] [FirstCountableTopology α] [T2Space α] (T : α → α) (hT : Continuous T) (B : Set α) (hB : IsCompact B)
    (u : ℕ → α) (hu : ∀ n, u n ∈ B) (hstep : ∀ n, u (n + 1) = T (u n)) (x : α) (hx : MapClusterPt x Filter.atTop u) :
    ∃ y, MapClusterPt y Filter.atTop u ∧ T y = x := by
  obtain ⟨φ, hφ, hlim⟩ := hx.tendsto_subseq
  obtain ⟨y, -, ψ, hψ, hy⟩ := hB.tendsto_subseq (x := fun n => u (φ (n + 1) - 1)) fun n => hu _
  have htop : Filter.Tendsto (fun n => φ (ψ n + 1) - 1) Filter.atTop Filter.atTop := by
    refine Filter.tendsto_atTop_mono (fun n => ?_) hψ.tendsto_atTop
    have := hφ.id_le (ψ n + 1)
    simp only [id] at this ⊢
    omega
  refine ⟨y, MapClusterPt.of_comp htop hy.mapClusterPt, ?_⟩
  refine tendsto_nhds_unique ((hT.tendsto y).comp hy) ?_
  have h2 : Filter.Tendsto (fun n => u (φ (ψ n + 1))) Filter.atTop (nhds x) :=
    hlim.comp ((Filter.tendsto_add_atTop_nat 1).comp hψ.tendsto_atTop)
  refine h2.congr fun n => ?_
  have : 1 ≤ φ (ψ n + 1) := by
    have := hφ.id_le (ψ n + 1)
    simp only [id] at this
    omega
  simp only [Function.comp]
  rw [← hstep, Nat.sub_add_cancel this]

/-- From any markups, iteration converges to equilibrium ones. -/
theorem tendsto_fixed [Nonempty J] (hE : ∀ k, 0 < E k) (z : J → ℝ) (hz : step firm E z = z) (start : J → ℝ) :
    Filter.Tendsto (fun n => (step firm E)^[n] start) Filter.atTop (nhds z) := by
  obtain ⟨i, -, hi⟩ := Finset.exists_min_image (univ : Finset J) start univ_nonempty
  set l := min 0 (start i) with hl
  have hl0 : l ≤ 0 := min_le_left _ _
  set B : Set (J → ℝ) := Set.univ.pi fun j => Set.Icc l (max (start j) (1 + size firm E (firm j))) with hB
  have hBc : IsCompact B := isCompact_univ_pi fun j => isCompact_Icc
  set u := fun n => (step firm E)^[n] start with hu
  have hustep : ∀ n, u (n + 1) = step firm E (u n) := fun n => Function.iterate_succ_apply' _ _ _
  have huB : ∀ n, u n ∈ B := by
    intro n
    induction n with
    | zero => exact fun j _ => ⟨(min_le_right _ _).trans (hi j (mem_univ _)), le_max_left _ _⟩
    | succ n ih =>
      intro j _
      rw [hustep]
      refine ⟨?_, (step_le firm E hE _ j).trans (le_max_right _ _)⟩
      have := step_ge firm E hE (u n) l hl0 (fun k => (ih k trivial).1) j
      linarith
  set C := {x | MapClusterPt x Filter.atTop u} with hC
  have hCB : C ⊆ B := by
    intro x hx
    obtain ⟨φ, -, hlim⟩ := MapClusterPt.tendsto_subseq hx
    exact hBc.isClosed.mem_of_tendsto hlim (Filter.Eventually.of_forall fun n => huB _)
  have hCc : IsCompact C := hBc.of_isClosed_subset isClosed_setOfPred_clusterPt hCB
  have hCimage : ∀ x ∈ C, ∃ y ∈ C, step firm E y = x := fun x hx =>
    cluster_image (step firm E) (continuous_step firm E hE) B hBc u huB hustep x hx
  refine hBc.tendsto_nhds_of_unique_mapClusterPt (Filter.Eventually.of_forall huB) fun x _ hx => ?_
  have hne : C.Nonempty := ⟨x, hx⟩
  have hcommon : ∀ y ∈ C, ∀ j k, firm k = firm j → y k = y j := by
    intro y hy j k hk
    obtain ⟨w, -, rfl⟩ := hCimage y hy
    simp only [step, hk]
  -- from above
  have hup : ∀ y ∈ C, ∀ j, y j ≤ z j := by
    have hmax : ∀ j, ∃ y ∈ C, ∀ w ∈ C, w j - z j ≤ y j - z j := by
      intro j
      obtain ⟨y, hy, h⟩ := hCc.exists_isMaxOn (f := fun y : J → ℝ => y j - z j) hne (Continuous.continuousOn (by fun_prop))
      exact ⟨y, hy, fun w hw => h hw⟩
    choose Y hY hYmax using hmax
    obtain ⟨j, -, hj⟩ := Finset.exists_max_image (univ : Finset J) (fun j => Y j j - z j) univ_nonempty
    suffices hle : Y j j - z j ≤ 0 by
      intro y hy k
      linarith [hYmax k y hy, hj k (mem_univ _)]
    by_contra hpos
    push Not at hpos
    obtain ⟨w, hw, hwY⟩ := hCimage (Y j) (hY j)
    have h := step_above firm E hE z hz w (Y j j - z j) hpos.le (fun k => by linarith [hYmax k w hw, hj k (mem_univ _)]) j (by rw [hwY]; linarith)
    rw [hwY] at h
    have h1 : 1 < Real.exp (Y j j - z j) := Real.one_lt_exp_iff.mpr hpos
    nlinarith [denom_ge E hE z]
  -- from below
  have hmin : ∀ j, ∃ y ∈ C, ∀ w ∈ C, y j ≤ w j := by
    intro j
    obtain ⟨y, hy, h⟩ := hCc.exists_isMinOn (f := fun y : J → ℝ => y j) hne (Continuous.continuousOn (by fun_prop))
    exact ⟨y, hy, fun w hw => h hw⟩
  choose Y hY hYmin using hmin
  have hone : ∀ j, 1 ≤ Y j j := by
    intro j
    obtain ⟨w, hw, hwY⟩ := hCimage (Y j) (hY j)
    have hwj := hYmin j w hw
    have hcw := hcommon w hw
    obtain ⟨-, hpr⟩ := profit_common firm E hE w (firm j) (w j) fun k hk => hcw j k hk
    have hYj : Y j j = 1 + profit firm E w (firm j) := by rw [← hwY]; rfl
    by_contra hlt
    push Not at hlt
    have hp0 : profit firm E w (firm j) < 0 := by linarith
    have hS := mul_pos (size_pos firm E hE j) (Real.exp_pos (-w j))
    have hR := rival_ge firm E hE w (firm j)
    set S := size firm E (firm j) * Real.exp (-w j)
    have hw0 : w j < 0 := by
      by_contra hn
      push Not at hn
      have : 0 ≤ S * w j := mul_nonneg hS.le hn
      rw [← hpr] at this
      have := mul_neg_of_neg_of_pos hp0 (by linarith : 0 < rival firm E w (firm j) + S)
      linarith
    have : w j ≤ profit firm E w (firm j) := by
      by_contra hn
      push Not at hn
      nlinarith
    linarith
  set d : J → ℝ := fun j => z j - Y j j with hd
  have hd0 : ∀ k, 0 ≤ d k := fun k => by linarith [hup (Y k) (hY k) k]
  have hzero := deviations_zero firm E hE z d hd0 fun j => by
    obtain ⟨w, hw, hwY⟩ := hCimage (Y j) (hY j)
    have hstep : step firm E w j = Y j j := by rw [hwY]
    have := step_below firm E hE z hz w d j (fun k hk => hcommon w hw j k hk) (fun k => by simp only [hd]; linarith [hYmin k w hw])
      (hup w hw j) ((hone j).trans (hYmin j w hw)) (by rw [hstep]; exact hYmin j w hw)
    rw [hstep] at this
    exact this
  funext j
  refine le_antisymm (hup x hx j) ?_
  have h0 := hzero j
  simp only [hd] at h0
  linarith [hYmin j x hx]

/-- Equilibrium markups exist. -/
theorem exists_fixed (hE : ∀ k, 0 < E k) : ∃ z, step firm E z = z := by
  obtain ⟨z, hz, -⟩ := exists_fixed_above firm E hE (fun _ => 0) fun j => by
    have := step_ge firm E hE (fun _ => 0) 0 le_rfl (fun _ => le_rfl) j
    linarith
  exact ⟨z, hz⟩


/-! ## No firm can gain -/

theorem fixed_optimal (hE : ∀ k, 0 < E k) (z : J → ℝ) (hz : step firm E z = z) (f : F) (y : J → ℝ) (hy : ∀ k, firm k ≠ f → y k = z k) :
    profit firm E y f ≤ profit firm E z f := by
  have hR : rival firm E y f = rival firm E z f := by
    simp only [rival, add_right_inj]
    exact Finset.sum_congr rfl fun k hk => by rw [hy k (by simpa using hk)]
  by_cases hf : ∃ j, firm j = f
  · obtain ⟨j, rfl⟩ := hf
    obtain ⟨h1, h2, -⟩ := fixed_eq firm E hE z hz j
    have h := profit_sub firm E hE y (firm j) (profit firm E z (firm j))
    have hle : (∑ k with firm k = firm j, E k * (Real.exp (-y k) * (y k - profit firm E z (firm j)))) ≤
        size firm E (firm j) * Real.exp (-(1 + profit firm E z (firm j))) := by
      rw [size, Finset.sum_mul]
      exact Finset.sum_le_sum fun k _ => mul_le_mul_of_nonneg_left (exp_mul_le _ _) (hE k).le
    rw [← h2, add_sub_cancel, ← h1, ← hR, h2] at hle
    have hle' : (profit firm E y (firm j) - profit firm E z (firm j)) * denom E y ≤ 0 := by
      rw [h]
      linarith
    by_contra hlt
    push Not at hlt
    have := mul_pos (sub_pos.mpr hlt) (lt_of_lt_of_le one_pos (denom_ge E hE y))
    linarith
  · push Not at hf
    have : ∀ mu, profit firm E mu f = 0 := by
      intro mu
      rw [profit, Finset.filter_false_of_mem fun k _ => hf k]
      simp
    rw [this, this]

/-- If markups are not those of an equilibrium, a firm gains by using the next ones. -/
theorem step_gains [DecidableEq J] (hE : ∀ k, 0 < E k) (z : J → ℝ) (j : J) (h : step firm E z j ≠ z j) :
    profit firm E z (firm j) < profit firm E (fun k => if firm k = firm j then step firm E z k else z k) (firm j) := by
  set p := profit firm E z (firm j) with hp
  set y := fun k => if firm k = firm j then step firm E z k else z k with hy
  have hR : rival firm E y (firm j) = rival firm E z (firm j) := by
    simp only [rival, add_right_inj]
    refine Finset.sum_congr rfl fun k hk => ?_
    rw [Finset.mem_filter] at hk
    simp only [hy, if_neg hk.2]
  have hb := profit_bound_lt firm E hE z (firm j) j rfl (fun he => h he.symm)
  have h1 := profit_sub firm E hE y (firm j) p
  have hsum : (∑ k with firm k = firm j, E k * (Real.exp (-y k) * (y k - p))) = size firm E (firm j) * Real.exp (-(1 + p)) := by
    rw [size, Finset.sum_mul]
    refine Finset.sum_congr rfl fun k hk => ?_
    have hk' : firm k = firm j := by simpa using hk
    have e : y k = 1 + p := by
      simp only [hy, if_pos hk', step, hk', hp]
    rw [e, add_sub_cancel_right, mul_one]
  rw [hsum, hR] at h1
  have hpos : 0 < (profit firm E y (firm j) - p) * denom E y := by
    rw [h1]
    linarith
  have := (mul_pos_iff_of_pos_right (lt_of_lt_of_le one_pos (denom_ge E hE y))).mp hpos
  linarith

/-! ## Mergers -/

section merger

variable {F' : Type} [DecidableEq F'] (firm' : J → F') (hcoarse : ∀ j k, firm j = firm k → firm' j = firm' k)

include hcoarse

theorem merger_step (hE : ∀ k, 0 < E k) (z : J → ℝ) (hz : step firm E z = z) (j : J) :
    z j ≤ step firm' E z j ∧ ((∃ k, firm' k = firm' j ∧ firm k ≠ firm j) → z j < step firm' E z j) := by
  have hd : 0 < denom E z := lt_of_lt_of_le one_pos (denom_ge E hE z)
  have hsub : (univ.filter fun k => firm k = firm j) ⊆ univ.filter fun k => firm' k = firm' j := by
    intro k hk
    simp only [mem_filter, mem_univ, true_and] at hk ⊢
    exact hcoarse k j hk
  have hpos : ∀ k, 0 < E k * Real.exp (-z k) * z k := fun k =>
    mul_pos (mul_pos (hE k) (Real.exp_pos _)) (by linarith [fixed_gt firm E hE z hz k])
  have h : z j = step firm E z j := by rw [hz]
  constructor
  · conv_lhs => rw [h]
    simp only [step, profit, add_le_add_iff_left]
    exact div_le_div_of_nonneg_right (Finset.sum_le_sum_of_subset_of_nonneg hsub fun k _ _ => (hpos k).le) hd.le
  · rintro ⟨k, hk, hk'⟩
    conv_lhs => rw [h]
    simp only [step, profit, add_lt_add_iff_left]
    refine div_lt_div_of_pos_right (Finset.sum_lt_sum_of_subset hsub (i := k) (by simp [hk]) (by simp [hk']) (hpos k) fun k _ _ => (hpos k).le) hd

theorem merger_le [Nonempty J] (hE : ∀ k, 0 < E k) (z z' : J → ℝ) (hz : step firm E z = z) (hz' : step firm' E z' = z') (j : J) :
    z j ≤ z' j ∧ step firm' E z j ≤ z' j := by
  obtain ⟨y, hy, h1, h2, -⟩ := exists_fixed_above firm' E hE z fun j => (merger_step firm E firm' hcoarse hE z hz j).1
  rw [fixed_unique firm' E hE y z' hy hz']
  exact ⟨h1 j, h2 j⟩

theorem merger_lt [Nonempty J] (hE : ∀ k, 0 < E k) (z z' : J → ℝ) (hz : step firm E z = z) (hz' : step firm' E z' = z')
    (hmerge : ∃ i k, firm' i = firm' k ∧ firm i ≠ firm k) (j : J) : z j < z' j := by
  have hle := fun j => (merger_le firm E firm' hcoarse hE z z' hz hz' j).1
  obtain ⟨i, k, hik, hne⟩ := hmerge
  have hi : z i < z' i :=
    lt_of_lt_of_le ((merger_step firm E firm' hcoarse hE z hz i).2 ⟨k, hik.symm, hne.symm⟩) (merger_le firm E firm' hcoarse hE z z' hz hz' i).2
  by_cases hj : ∃ k, firm' k = firm' j ∧ firm k ≠ firm j
  · exact lt_of_lt_of_le ((merger_step firm E firm' hcoarse hE z hz j).2 hj) (merger_le firm E firm' hcoarse hE z z' hz hz' j).2
  · push Not at hj
    refine lt_of_le_of_ne (hle j) fun he => ?_
    have hiff : ∀ l, firm' l = firm' j ↔ firm l = firm j := fun l => ⟨hj l, hcoarse l j⟩
    have hij : firm i ≠ firm j := by
      intro hij
      have h1 := (hiff i).mpr hij
      have h2 := hj k (hik ▸ h1)
      exact hne (hij.trans h2.symm)
    have hS : size firm' E (firm' j) = size firm E (firm j) := by
      simp only [size, hiff]
    have hR : rival firm' E z' (firm' j) < rival firm E z (firm j) := by
      simp only [rival, add_lt_add_iff_left, ne_eq, hiff]
      refine Finset.sum_lt_sum (fun l _ => mul_le_mul_of_nonneg_left (Real.exp_le_exp.mpr (by linarith [hle l])) (hE l).le) ⟨i, by simp [hij], ?_⟩
      exact mul_lt_mul_of_pos_left (Real.exp_lt_exp.mpr (by linarith)) (hE i)
    have h1 := (fixed_eq firm E hE z hz j).1
    have h2 := (fixed_eq firm' E hE z' hz' j).1
    rw [hS, ← he, ← h1] at h2
    have := mul_left_cancel₀ (by linarith [fixed_gt firm E hE z hz j]) h2
    linarith

/-- Profits of all firms after the merger go up. -/
theorem merger_profit [Nonempty J] (hE : ∀ k, 0 < E k) (z z' : J → ℝ) (hz : step firm E z = z) (hz' : step firm' E z' = z')
    (hmerge : ∃ i k, firm' i = firm' k ∧ firm i ≠ firm k) (j : J) : profit firm' E z (firm' j) < profit firm' E z' (firm' j) := by
  have h1 := (fixed_eq firm' E hE z' hz' j)
  have hle := (merger_le firm E firm' hcoarse hE z z' hz hz' j).2
  rw [← h1.2.1]
  have hstep : step firm' E z j = 1 + profit firm' E z (firm' j) := rfl
  suffices h : step firm' E z j < z' j by linarith
  refine lt_of_le_of_ne hle fun he => ?_
  by_cases hj : z j = step firm' E z j
  · exact absurd (hj.trans he) (merger_lt firm E firm' hcoarse hE z z' hz hz' hmerge j).ne
  · have hb := profit_bound_lt firm' E hE z (firm' j) j rfl (by rw [← hstep]; exact hj)
    rw [← hstep, he, ← h1.1, show profit firm' E z (firm' j) = z' j - 1 by linarith] at hb
    have := rival_anti firm' E hE z z' (fun k => (merger_le firm E firm' hcoarse hE z z' hz hz' k).1) (firm' j)
    have hz1 := fixed_gt firm' E hE z' hz' j
    have := mul_le_mul_of_nonneg_left this (by linarith : 0 ≤ z' j - 1)
    linarith

end merger

end Pyblp.Oligopoly
