import Verif.Model.QuadratureTables
import Verif.Props.Quadrature
import Mathlib.Data.Nat.Factorial.DoubleFactorial
import Mathlib.MeasureTheory.Integral.Gamma
import Mathlib.Probability.Distributions.Gaussian.Real

/-!
# Tables of quadrature rules: C78
-/

set_option linter.unusedSectionVars false
set_option maxRecDepth 100000

namespace Pyblp

open Nat MeasureTheory ProbabilityTheory

namespace Spec

/-- Moments of the standard normal distribution. -/
noncomputable def normalMoment (a : ℕ) : ℝ := ∫ x, x ^ a ∂gaussianReal 0 1

end Spec

/-! ### Moments of the normal distribution -/

theorem normalMoment_odd (k : ℕ) : Spec.normalMoment (2 * k + 1) = 0 := by
  have h : Spec.normalMoment (2 * k + 1) = -Spec.normalMoment (2 * k + 1) := by
    unfold Spec.normalMoment
    have hm : (gaussianReal 0 1).map (fun x : ℝ => -x) = gaussianReal 0 1 := by
      rw [gaussianReal_map_neg, neg_zero]
    nth_rewrite 1 [← hm]
    rw [integral_map (by fun_prop) (by fun_prop), ← integral_neg]
    congr 1
    funext x
    rw [Odd.neg_pow ⟨k, rfl⟩]
  linarith

theorem normalMoment_even (k : ℕ) : Spec.normalMoment (2 * k) = ((2 * k - 1 : ℕ)‼ : ℕ) := by
  unfold Spec.normalMoment
  rw [integral_gaussianReal_eq_integral_smul one_ne_zero]
  have h1 : (fun x : ℝ => gaussianPDFReal 0 1 x • x ^ (2 * k)) =
      fun x => (fun y : ℝ => (√(2 * Real.pi))⁻¹ * (y ^ ((2 * k : ℕ) : ℝ) * Real.exp (-(1 / 2) * y ^ (2 : ℝ)))) |x| := by
    funext x
    dsimp only
    rw [gaussianPDFReal, Real.rpow_natCast, show ((2 : ℝ)) = ((2 : ℕ) : ℝ) by norm_num, Real.rpow_natCast, (even_two_mul k).pow_abs,
      sq_abs, smul_eq_mul]
    simp only [NNReal.coe_one, mul_one, sub_zero, Nat.cast_ofNat]
    have : -x ^ 2 / 2 = -(1 / 2) * x ^ 2 := by ring
    rw [this]
    ring
  rw [h1, integral_comp_abs (f := fun y : ℝ => (√(2 * Real.pi))⁻¹ * (y ^ ((2 * k : ℕ) : ℝ) * Real.exp (-(1 / 2) * y ^ (2 : ℝ)))),
    integral_const_mul, integral_rpow_mul_exp_neg_mul_rpow (by norm_num) (by
      have : (0 : ℝ) ≤ ((2 * k : ℕ) : ℝ) := Nat.cast_nonneg _
      linarith) (by norm_num)]
  have h2 : (((2 * k : ℕ) : ℝ) + 1) / 2 = k + 1 / 2 := by
    push_cast
    ring
  have h3 : -(((2 * k : ℕ) : ℝ) + 1) / 2 = -(k + 1 / 2) := by
    rw [neg_div, h2]
  rw [h2, h3, Real.Gamma_nat_add_half, one_div (2 : ℝ), Real.inv_rpow (by norm_num), Real.rpow_neg (by norm_num), inv_inv,
    Real.rpow_add (by norm_num), Real.rpow_natCast, show (2 : ℝ) ^ (2⁻¹ : ℝ) = √2 by rw [Real.sqrt_eq_rpow, one_div], Real.sqrt_mul (by norm_num)]
  have hp : √Real.pi ≠ 0 := (Real.sqrt_pos.2 Real.pi_pos).ne'
  have h2' : √(2 : ℝ) ≠ 0 := (Real.sqrt_pos.2 (by norm_num)).ne'
  field_simp

/-! ### Checks of complete tables -/

/-- Even moments of the symmetric rule with rational nodes and weights. -/
def evenMoment (nodes weights : List ℚ) (k : ℕ) : ℚ :=
  ((List.zip nodes weights).map fun r => r.2 * r.1 ^ (2 * k) * (if r.1 = 0 then 1 else 2)).sum

/-- Number of nodes that are not mirrored. -/
def middleNodes (nested : Bool) (level : ℕ) : ℕ := if nested then 1 else level % 2

/-- What is checked for each rule. -/
def ruleHolds (nested : Bool) (level : ℕ) (nodes weights : List ℚ) : Prop :=
  nodes.length = weights.length ∧
    nodes.take (middleNodes nested level) = List.replicate (middleNodes nested level) 0 ∧
      (∀ x ∈ nodes.drop (middleNodes nested level), 0 < x) ∧
        nodes.Pairwise (· < ·) ∧
          (nested = false → 2 * nodes.length - middleNodes nested level = level ∧ ∀ w ∈ weights, 0 < w) ∧
            ∀ k < level, |evenMoment nodes weights k - ((2 * k - 1 : ℕ)‼ : ℕ)| * 10 ^ 13 ≤ ((2 * k - 1 : ℕ)‼ : ℕ)

instance (nested : Bool) (level : ℕ) (nodes weights : List ℚ) : Decidable (ruleHolds nested level nodes weights) := by
  unfold ruleHolds
  infer_instance

def tableHolds (nested : Bool) : Prop :=
  (nodeData nested).length = 25 ∧ (weightData nested).length = 25 ∧ ∀ i < 25,
    ruleHolds nested (i + 1) ((nodeData nested).getD i []) ((weightData nested).getD i [])

instance (nested : Bool) : Decidable (tableHolds nested) := by
  unfold tableHolds
  infer_instance

theorem tableHolds_gauss : tableHolds false := by decide +kernel

theorem tableHolds_nested : tableHolds true := by decide +kernel

theorem tableHolds_all (nested : Bool) : tableHolds nested := by
  cases nested
  · exact tableHolds_gauss
  · exact tableHolds_nested

theorem getQuadratureData_ok (nested : Bool) (level : ℕ) (h1 : 1 ≤ level) (h2 : level ≤ 25) :
    ∃ nodes weights, getQuadratureData level nested = .ok (nodes, weights) ∧ ruleHolds nested level nodes weights := by
  obtain ⟨hn, hw, h⟩ := tableHolds_all nested
  have hl : level - 1 + 1 = level := by omega
  refine ⟨(nodeData nested).getD (level - 1) [], (weightData nested).getD (level - 1) [], ?_, ?_⟩
  · unfold getQuadratureData levelEntry
    rw [if_neg (by omega), if_neg (by omega), List.getElem?_eq_getElem (by omega), List.getElem?_eq_getElem (by omega),
      List.getD_eq_getElem _ _ (by omega), List.getD_eq_getElem _ _ (by omega)]
  · have := h (level - 1) (by omega)
    rw [hl] at this
    exact this

/-- **C78.** Rules exist exactly for levels up to 25; other levels are rejected. -/
theorem C78_levels (nested : Bool) (level : ℕ) (h : 1 ≤ level) :
    (level ≤ 25 → ∃ rule, getQuadratureData level nested = .ok rule) ∧
      (25 < level → getQuadratureData level nested = .error .valueError) := by
  constructor
  · intro h2
    obtain ⟨n, w, h3, _⟩ := getQuadratureData_ok nested level h h2
    exact ⟨_, h3⟩
  · intro h2
    obtain ⟨hn, _, _⟩ := tableHolds_all nested
    unfold getQuadratureData levelEntry
    rw [if_neg (by omega), List.getElem?_eq_none (by omega)]

/-- **C78.** Level zero, which is not rejected here, gives the rule of the last level. -/
theorem C78_level_zero (nested : Bool) : getQuadratureData 0 nested = getQuadratureData 25 nested := by
  obtain ⟨hn, hw, _⟩ := tableHolds_all nested
  unfold getQuadratureData levelEntry
  rw [if_pos rfl, if_pos rfl, if_neg (by omega), if_neg (by omega), List.getLast?_eq_getElem?, List.getLast?_eq_getElem?, hn, hw]

/-- **C78.** All nested rules contain the nodes of lower levels. -/
theorem C78_nested (l m : ℕ) (h1 : 1 ≤ l) (hlm : l ≤ m) (hm : m ≤ 25) :
    (quadratureData true l).1 ⊆ (quadratureData true m).1 := by
  have key : ∀ i < 24, ((nodeData true).getD i []) ⊆ ((nodeData true).getD (i + 1) []) := by
    decide +kernel
  have hn := (tableHolds_all true).1
  have hdata : ∀ l, 1 ≤ l → l ≤ 25 → (quadratureData true l).1 = ((nodeData true).getD (l - 1) []).map fun q : ℚ => (q : ℝ) := by
    intro l hl hl'
    obtain ⟨n, w, h3, _⟩ := getQuadratureData_ok true l hl hl'
    unfold quadratureData
    rw [h3]
    dsimp only
    have hw := (tableHolds_all true).2.1
    unfold getQuadratureData levelEntry at h3
    rw [if_neg (by omega), if_neg (by omega), List.getElem?_eq_getElem (by omega), List.getElem?_eq_getElem (by omega)] at h3
    dsimp only at h3
    rw [List.getD_eq_getElem _ _ (by omega)]
    injection h3 with h3
    rw [(Prod.mk.inj h3).1]
  induction m, hlm using Nat.le_induction with
  | base => exact fun x hx => hx
  | succ m hlm ih =>
    refine fun x hx => ?_
    have := ih (by omega) hx
    rw [hdata m (by omega) (by omega)] at this
    rw [hdata (m + 1) (by omega) (by omega)]
    rw [List.mem_map] at this ⊢
    obtain ⟨q, hq, rfl⟩ := this
    have h := key (m - 1) (by omega) hq
    rw [show m - 1 + 1 = m + 1 - 1 by omega] at h
    exact ⟨q, h, rfl⟩

/-- The base rule of a product rule with data of the code. -/
noncomputable def tableRule (nested : Bool) (level : ℕ) : List (ℝ × ℝ) :=
  List.zip (baseRule (quadratureData nested level) level nested).1 (baseRule (quadratureData nested level) level nested).2

theorem quadratureData_cast (nested : Bool) (level : ℕ) (h1 : 1 ≤ level) (h2 : level ≤ 25) :
    ∃ nodes weights : List ℚ, quadratureData nested level = (nodes.map fun q : ℚ => (q : ℝ), weights.map fun q : ℚ => (q : ℝ)) ∧
      ruleHolds nested level nodes weights := by
  obtain ⟨n, w, h3, h4⟩ := getQuadratureData_ok nested level h1 h2
  refine ⟨n, w, ?_, h4⟩
  unfold quadratureData
  rw [h3]

theorem full_odd (rule : List (ℝ × ℝ)) (k : ℕ) : Spec.sum1 (Spec.fullRule 0 rule) (fun x => x ^ (2 * k + 1)) = 0 := by
  induction rule with
  | nil => rfl
  | cons r rule ih =>
    unfold Spec.fullRule at ih ⊢
    rw [List.flatMap_cons, sum1_append, ih, add_zero]
    split
    · rename_i h
      simp [Spec.sum1, h]
    · simp only [Spec.sum1, List.map_cons, List.map_nil, List.sum_cons, List.sum_nil, mul_zero, zero_sub]
      rw [Odd.neg_pow ⟨k, rfl⟩]
      ring

theorem full_even (nodes weights : List ℚ) (k : ℕ) :
    Spec.sum1 (Spec.fullRule 0 (List.zip (nodes.map fun q : ℚ => (q : ℝ)) (weights.map fun q : ℚ => (q : ℝ)))) (fun x => x ^ (2 * k)) =
      ((evenMoment nodes weights k : ℚ) : ℝ) := by
  induction nodes generalizing weights with
  | nil => simp [Spec.fullRule, Spec.sum1, evenMoment]
  | cons x nodes ih =>
    cases weights with
    | nil => simp [Spec.fullRule, Spec.sum1, evenMoment]
    | cons w weights =>
      have ih' := ih weights
      unfold Spec.fullRule at ih' ⊢
      unfold evenMoment at ih' ⊢
      rw [List.map_cons, List.map_cons, List.zip_cons_cons, List.zip_cons_cons, List.flatMap_cons, sum1_append, ih', List.map_cons,
        List.sum_cons]
      push_cast
      congr 1
      by_cases h : x = 0
      · subst h
        simp [Spec.sum1]
      · rw [if_neg (by exact_mod_cast h), if_neg h]
        simp only [Spec.sum1, List.map_cons, List.map_nil, List.sum_cons, List.sum_nil, mul_zero, zero_sub]
        rw [(even_two_mul k).neg_pow]
        push_cast
        ring

theorem tableRule_full (nested : Bool) (level : ℕ) (h1 : 1 ≤ level) (h2 : level ≤ 25) (g : ℝ → ℝ) :
    Spec.sum1 (tableRule nested level) g =
      Spec.sum1 (Spec.fullRule 0 (List.zip (quadratureData nested level).1 (quadratureData nested level).2)) g := by
  obtain ⟨n, w, h3, h4, h5, h6, _⟩ := quadratureData_cast nested level h1 h2
  refine C59_base_rule _ ?_ level nested ?_ ?_ g
  · rw [h3]
    simpa using h4
  · rw [h3]
    dsimp only
    have := congrArg (List.map fun q : ℚ => (q : ℝ)) h5
    rw [List.map_take, List.map_replicate, Rat.cast_zero] at this
    exact this
  · rw [h3]
    intro x hx
    dsimp only at hx
    rw [← List.map_drop, List.mem_map] at hx
    obtain ⟨q, hq, rfl⟩ := hx
    exact_mod_cast h6 q hq

/-- **C78.** All rules of the code, nested or not, integrate powers up to twice their level minus one against the standard normal
distribution, up to one part in `10 ^ 13`: odd powers exactly. -/
theorem C78_normal_moments (nested : Bool) (level a : ℕ) (h1 : 1 ≤ level) (h2 : level ≤ 25) (ha : a ≤ 2 * level - 1) :
    |Spec.sum1 (tableRule nested level) (fun x => x ^ a) - ∫ x, x ^ a ∂gaussianReal 0 1| ≤
      1 / 10 ^ 13 * ∫ x, x ^ a ∂gaussianReal 0 1 := by
  change |_ - Spec.normalMoment a| ≤ 1 / 10 ^ 13 * Spec.normalMoment a
  rw [tableRule_full nested level h1 h2]
  obtain ⟨n, w, h3, _, _, _, _, _, h4⟩ := quadratureData_cast nested level h1 h2
  rcases Nat.even_or_odd' a with ⟨k, rfl | rfl⟩
  · rw [h3, full_even, normalMoment_even]
    have h5 := h4 k (by omega)
    have h6 : |((evenMoment n w k : ℚ) : ℝ) - (((2 * k - 1 : ℕ)‼ : ℕ) : ℝ)| * 10 ^ 13 ≤ (((2 * k - 1 : ℕ)‼ : ℕ) : ℝ) := by
      exact_mod_cast h5
    rw [one_div, inv_mul_eq_div, le_div_iff₀ (by norm_num)]
    exact h6
  · rw [full_odd, normalMoment_odd]
    simp

/-- **C78.** Rules that are not nested have as many nodes as their level and positive weights. -/
theorem C78_gauss (level : ℕ) (h1 : 1 ≤ level) (h2 : level ≤ 25) :
    (tableRule false level).length = level ∧ ∀ r ∈ tableRule false level, 0 < r.2 := by
  obtain ⟨n, w, h3, h4, _, _, _, h5, _⟩ := quadratureData_cast false level h1 h2
  obtain ⟨h6, h7⟩ := h5 rfl
  unfold tableRule baseRule
  rw [h3]
  simp only [Bool.false_eq_true, if_false]
  unfold middleNodes at h6
  simp only [Bool.false_eq_true, if_false] at h6
  constructor
  · simp only [List.length_zip, List.length_append, List.length_map, List.length_reverse, List.length_drop]
    omega
  · intro r hr
    have h8 := (List.of_mem_zip (a := r.1) (b := r.2) hr).2
    have h9 : r.2 ∈ w.map fun q : ℚ => (q : ℝ) := by
      rcases List.mem_append.1 h8 with h | h
      · exact List.mem_reverse.1 h
      · exact List.mem_of_mem_drop h
    obtain ⟨q, hq, hq'⟩ := List.mem_map.1 h9
    rw [← hq']
    exact_mod_cast h7 q hq

theorem prod_close (ε : ℝ) (hε : 0 ≤ ε) (as : List ℕ) (u m : ℕ → ℝ) (h : ∀ a ∈ as, |u a - m a| ≤ ε * m a) (hm : ∀ a, 0 ≤ m a) :
    |(as.map u).prod - (as.map m).prod| ≤ ((1 + ε) ^ as.length - 1) * (as.map m).prod := by
  induction as with
  | nil => simp
  | cons a as ih =>
    have ih' := ih fun b hb => h b (List.mem_cons_of_mem _ hb)
    have ha := h a (List.mem_cons_self ..)
    rw [List.map_cons, List.prod_cons, List.map_cons, List.prod_cons, List.length_cons, pow_succ]
    have hM : 0 ≤ (as.map m).prod := List.prod_nonneg (by
      intro x hx
      obtain ⟨b, _, rfl⟩ := List.mem_map.1 hx
      exact hm b)
    generalize (as.map u).prod = U at *
    generalize (as.map m).prod = M at *
    have hP : 1 ≤ (1 + ε) ^ as.length := one_le_pow₀ (by linarith)
    generalize (1 + ε) ^ as.length = P at *
    have e : u a * U - m a * M = u a * (U - M) + (u a - m a) * M := by ring
    have hu : |u a| ≤ (1 + ε) * m a := by
      have := abs_sub_abs_le_abs_sub (u a) (m a)
      rw [abs_of_nonneg (hm a)] at this
      linarith
    rw [e]
    refine (abs_add_le _ _).trans ?_
    rw [abs_mul, abs_mul, abs_of_nonneg hM]
    have b1 : |u a| * |U - M| ≤ (1 + ε) * m a * ((P - 1) * M) :=
      mul_le_mul hu ih' (abs_nonneg _) (mul_nonneg (by linarith) (hm a))
    have b2 : |u a - m a| * M ≤ ε * m a * M := mul_le_mul_of_nonneg_right ha hM
    nlinarith

theorem normalMoment_nonneg (a : ℕ) : 0 ≤ Spec.normalMoment a := by
  rcases Nat.even_or_odd' a with ⟨k, rfl | rfl⟩
  · rw [normalMoment_even]
    exact Nat.cast_nonneg _
  · rw [normalMoment_odd]

/-- **C78.** In any number of dimensions, the product rule of a level integrates monomials with exponents up to twice the level minus one
against the multivariate standard normal distribution, up to an error that is given. -/
theorem C78_product (nested : Bool) (level : ℕ) (h1 : 1 ≤ level) (h2 : level ≤ 25) (exponents : List ℕ) (hne : exponents ≠ [])
    (hdeg : ∀ a ∈ exponents, a ≤ 2 * level - 1) :
    |Spec.integral (List.zip (productRule (quadratureData nested) exponents.length level nested).1
        (productRule (quadratureData nested) exponents.length level nested).2) (Spec.monomial exponents) -
      (exponents.map fun a => ∫ x, x ^ a ∂gaussianReal 0 1).prod| ≤
      ((1 + 1 / 10 ^ 13) ^ exponents.length - 1) * (exponents.map fun a => ∫ x, x ^ a ∂gaussianReal 0 1).prod := by
  have hdata : ∀ l, (quadratureData nested l).1.length = (quadratureData nested l).2.length := by
    intro l
    by_cases hl : 1 ≤ l ∧ l ≤ 25
    · obtain ⟨n, w, h3, h4, _⟩ := quadratureData_cast nested l hl.1 hl.2
      rw [h3]
      simpa using h4
    · by_cases h0 : l = 0
      · subst h0
        have e : quadratureData nested 0 = quadratureData nested 25 := by
          unfold quadratureData
          rw [C78_level_zero]
        obtain ⟨n, w, h3, h4, _⟩ := quadratureData_cast nested 25 (by norm_num) le_rfl
        rw [e, h3]
        simpa using h4
      · unfold quadratureData
        rw [(C78_levels nested l (by omega)).2 (by omega)]
  have h := C59_product_functions (quadratureData nested) hdata level nested (exponents.map fun a x => x ^ a) (by simpa using hne)
  rw [List.length_map, List.map_map] at h
  unfold Spec.monomial
  rw [h]
  exact prod_close (1 / 10 ^ 13) (by norm_num) exponents (fun a => Spec.sum1 (tableRule nested level) fun x => x ^ a) Spec.normalMoment
    (fun a ha => C78_normal_moments nested level a h1 h2 (hdeg a ha)) normalMoment_nonneg

/-- The rule of level three: nodes `0` and `√3`, weights two thirds and one sixth. -/
example : getQuadratureData 3 false = .ok ([0.0000000000000000e0, 1.7320508075688772e0], [6.6666666666666663e-1, 1.6666666666666674e-1]) := by
  decide +kernel

end Pyblp
