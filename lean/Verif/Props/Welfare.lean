import Verif.Lemmas.LogSum
import Verif.Lemmas.PathDeriv
import Verif.Props.Textbook
import Mathlib.Analysis.Calculus.MeanValue
import Mathlib.MeasureTheory.Integral.IntegralEqImproper
import Mathlib.MeasureTheory.Integral.IntervalIntegral.FundThmCalculus

/-!
# C145: changes in consumer surplus are areas under demand curves

pyblp/results/economy_results.py:1068-1099 documents consumer surplus, "assuming away nonlinear income effects", and says that
comparing it with the surplus after eliminating products "gives a measure of willingness to pay".
-/

set_option linter.unusedSectionVars false

namespace Pyblp

open Filter Topology MeasureTheory

variable {J A G K1 K2 : Type} [Fintype J] [DecidableEq J] [Nonempty J] [Fintype G] [DecidableEq G] [Fintype A]
  [Fintype K1] [Fintype K2]

/-- No nonlinear income effects: utility of agent `i` for every product changes by `alpha i` per unit of its price, at all
prices. -/
def Spec.LinearInPrices (m : Market J A G) (c : Characteristic J A K1 K2) (alpha : A → ℝ) : Prop :=
  ∀ x j i, utilityDerivatives m c x j i = alpha i

/-- Demand at prices `p` when products `out` are not offered. -/
noncomputable def Spec.demand (m : Market J A G) (c : Characteristic J A K1 K2) (out : J → Bool) (p : J → ℝ) (j : J) : ℝ :=
  computeShares m { eliminateMask := out } (updateDelta c p) (updateMu c p) j

variable (m : Market J A G) (hm : WellFormed m) (he : m.epsilonScale = 1) (c : Characteristic J A K1 K2) (hc : c.Smooth)
  (alpha : A → ℝ) (hlin : Spec.LinearInPrices m c alpha)

include he hc hlin

lemma path_linear (x : ℝ → J → ℝ) (x' : J → ℝ) (t : ℝ) (hx : ∀ k, HasDerivAt (fun r => x r k) (x' k) t) (k : J) (i : A) :
    HasDerivAt (fun r => updateDelta c (x r) k + updateMu c (x r) k i) (alpha i * x' k) t := by
  have := path_utility m c hc x x' t hx k i
  simpa only [he, div_one, hlin (x t) k i] using this

/-- Utilities are affine in prices. -/
lemma utility_affine (p q : J → ℝ) (k : J) (i : A) :
    updateDelta c p k + updateMu c p k i = updateDelta c q k + updateMu c q k i + alpha i * (p k - q k) := by
  have hpath : ∀ (k : J) (t : ℝ), HasDerivAt (fun r : ℝ => (fun k => q k + r * (p k - q k)) k) (p k - q k) t := fun k t => by
    simpa using ((hasDerivAt_id t).mul_const (p k - q k)).const_add (q k)
  have hd : ∀ t, HasDerivAt (fun r => updateDelta c (fun k => q k + r * (p k - q k)) k + updateMu c (fun k => q k + r * (p k - q k)) k i -
      r * (alpha i * (p k - q k))) 0 t := fun t => by
    have h1 := path_linear m he c hc alpha hlin (fun r k => q k + r * (p k - q k)) (fun k => p k - q k) t (fun k => hpath k t) k i
    have h2 := (hasDerivAt_id t).mul_const (alpha i * (p k - q k))
    simpa using h1.fun_sub h2
  have := is_const_of_deriv_eq_zero (fun t => (hd t).differentiableAt) (fun t => (hd t).deriv) 1 0
  simp only [one_mul, zero_mul, add_sub_cancel, add_zero, sub_zero] at this
  linarith

include hm

/-- Consumer surplus is a weighted sum of log-sums divided by price coefficients. -/
lemma consumerSurplus_linear (first : J) (p : J → ℝ) (out : J → Bool) :
    consumerSurplus m c first p out = ∑ i, m.weights i * (Spec.logSum m.nesting (fun j => updateDelta c p j + updateMu c p j i)
      (multiplier m { eliminateMask := out } i) / -(alpha i)) := by
  rw [C37_surplus_partial m hm he c first p out]
  refine Finset.sum_congr rfl fun i _ => ?_
  rw [surplusMultiplier_eq, ← hlin c.x0 first i, utilityDerivatives_eq, he, div_one]

/-- C145: consumers who buy a product lose what its price rises by. When prices move along any path, consumer surplus falls by
demand for each product times the change in its price (all nesting parameters, availability and eliminated products). -/
theorem C145_marginal (halpha : ∀ i, alpha i ≠ 0) (first : J) (out : J → Bool) (p : ℝ → J → ℝ) (p' : J → ℝ) (t : ℝ)
    (hp : ∀ k, HasDerivAt (fun r => p r k) (p' k) t) :
    HasDerivAt (fun r => consumerSurplus m c first (p r) out) (-∑ j, Spec.demand m c out (p t) j * p' j) t := by
  simp only [consumerSurplus_linear m hm he c hc alpha hlin]
  have h := HasDerivAt.fun_sum (u := Finset.univ) fun i _ => ((hasDerivAt_logSum m hm he { eliminateMask := out } rfl rfl i
    (fun r => updateDelta c (p r)) (fun r => updateMu c (p r)) (fun k => alpha i * p' k) t
    (fun k => path_linear m he c hc alpha hlin p p' t hp k i)).div_const (-(alpha i))).const_mul (m.weights i)
  refine h.congr_deriv ?_
  simp only [Spec.demand, computeShares, Finset.sum_mul]
  rw [Finset.sum_comm, ← Finset.sum_neg_distrib]
  refine Finset.sum_congr rfl fun i _ => ?_
  have h0 := halpha i
  rw [Finset.sum_div, Finset.mul_sum, ← Finset.sum_neg_distrib]
  refine Finset.sum_congr rfl fun j _ => ?_
  field_simp

/-- Demand is continuous along paths of prices. -/
lemma continuousAt_demand (out : J → Bool) (p : ℝ → J → ℝ) (p' : J → ℝ) (t : ℝ) (hp : ∀ k, HasDerivAt (fun r => p r k) (p' k) t) (j : J) :
    ContinuousAt (fun r => Spec.demand m c out (p r) j) t := by
  unfold Spec.demand computeShares
  refine tendsto_finsetSum _ fun i _ => ContinuousAt.mul ?_ continuousAt_const
  exact (hasDerivAt_computeProbabilities_options m hm { eliminateMask := out } rfl (fun r => updateDelta c (p r))
    (fun r => updateMu c (p r)) i (Or.inl rfl) (fun k => alpha i * p' k) t
    (fun k => by simpa only [he, div_one] using path_linear m he c hc alpha hlin p p' t hp k i) j).continuousAt

/-- C145: the change in consumer surplus between two price vectors is minus the integral of demand along any smooth path of
prices that joins them. In particular the integral does not depend on the path. -/
theorem C145_area (halpha : ∀ i, alpha i ≠ 0) (first : J) (out : J → Bool) (p p' : ℝ → J → ℝ) (a b : ℝ)
    (hp : ∀ t k, HasDerivAt (fun r => p r k) (p' t k) t) (hp' : ∀ k, Continuous fun r => p' r k) :
    consumerSurplus m c first (p b) out - consumerSurplus m c first (p a) out =
      -∫ t in a..b, ∑ j, Spec.demand m c out (p t) j * p' t j := by
  rw [← intervalIntegral.integral_neg]
  refine (intervalIntegral.integral_eq_sub_of_hasDerivAt
    (fun t _ => C145_marginal m hm he c hc alpha hlin halpha first out p (p' t) t (hp t)) ?_).symm
  refine (Continuous.neg ?_).intervalIntegrable a b
  refine continuous_finsetSum _ fun j _ => Continuous.mul ?_ (hp' j)
  exact continuous_iff_continuousAt.mpr fun t => continuousAt_demand m hm he c hc alpha hlin out p (p' t) t (hp t) j

omit hm in
/-- Exponentiated utilities when the price of one product goes to infinity. -/
lemma tendsto_expUtility (hneg : ∀ i, alpha i < 0) (out : J → Bool) (p : J → ℝ) (j : J) (i : A) (k : J) (s : ℝ) (hs : 0 < s) :
    Tendsto (fun x : ℝ => multiplier m { eliminateMask := out } i k *
        Real.exp ((updateDelta c (Function.update p j x) k + updateMu c (Function.update p j x) k i) / s)) atTop
      (𝓝 (multiplier m { eliminateMask := Function.update out j true } i k * Real.exp ((updateDelta c p k + updateMu c p k i) / s))) := by
  by_cases hk : k = j
  · subst hk
    have h0 : multiplier m { eliminateMask := Function.update out k true } i k = 0 := by simp [multiplier]
    rw [h0, zero_mul]
    have hu : ∀ x : ℝ, (updateDelta c (Function.update p k x) k + updateMu c (Function.update p k x) k i) / s =
        (alpha i / s) * x + (updateDelta c p k + updateMu c p k i - alpha i * p k) / s := fun x => by
      rw [utility_affine m he c hc alpha hlin (Function.update p k x) p k i, Function.update_self]; ring
    simp only [hu]
    have h1 : Tendsto (fun x : ℝ => (alpha i / s) * x + (updateDelta c p k + updateMu c p k i - alpha i * p k) / s) atTop atBot :=
      tendsto_atBot_add_const_right _ _ (tendsto_id.const_mul_atTop_of_neg (div_neg_of_neg_of_pos (hneg i) hs))
    simpa using (Real.tendsto_exp_atBot.comp h1).const_mul (multiplier m { eliminateMask := out } i k)
  · have h1 : multiplier m { eliminateMask := Function.update out j true } i k = multiplier m { eliminateMask := out } i k := by
      simp [multiplier, Function.update_of_ne hk]
    have hu : ∀ x : ℝ, updateDelta c (Function.update p j x) k + updateMu c (Function.update p j x) k i =
        updateDelta c p k + updateMu c p k i := fun x => by
      rw [utility_affine m he c hc alpha hlin (Function.update p j x) p k i, Function.update_of_ne hk]; ring
    simp only [hu, h1]
    exact tendsto_const_nhds

/-- C145: eliminating a product is the limit of raising its price: consumer surplus with the product eliminated is the limit of
surplus as its price goes to infinity. -/
theorem C145_elimination (hneg : ∀ i, alpha i < 0) (first : J) (out : J → Bool) (p : J → ℝ) (j : J) :
    Tendsto (fun x : ℝ => consumerSurplus m c first (Function.update p j x) out) atTop
      (𝓝 (consumerSurplus m c first p (Function.update out j true))) := by
  simp only [consumerSurplus_linear m hm he c hc alpha hlin]
  refine tendsto_finsetSum _ fun i _ => Tendsto.const_mul _ (Tendsto.div_const ?_ _)
  exact tendsto_logSum m.nesting hm.regular.rhoBelowOne _ _ _ _ (multiplier_nonneg (hm.availNonneg _ rfl i))
    (fun k s hs => tendsto_expUtility m he c hc alpha hlin hneg out p j i k s hs)

/-- C145: demand for every product when one is eliminated is the limit of demand as its price goes to infinity. -/
theorem C145_demand (hneg : ∀ i, alpha i < 0) (out : J → Bool) (p : J → ℝ) (j k : J) :
    Tendsto (fun x : ℝ => Spec.demand m c out (Function.update p j x) k) atTop
      (𝓝 (Spec.demand m c (Function.update out j true) p k)) := by
  unfold Spec.demand computeShares
  refine tendsto_finsetSum _ fun i _ => Tendsto.mul_const _ ?_
  have hex := fun k s hs => tendsto_expUtility m he c hc alpha hlin hneg out p j i k s hs
  have hb := multiplier_nonneg (hm.availNonneg { eliminateMask := Function.update out j true } rfl i)
  cases hn : m.nesting with
  | none =>
    simp only [computeProbabilities_plain m _ _ _ hn, he, div_one, Bool.false_eq_true, if_false]
    exact tendsto_logit _ _ _ _ hb (fun k => by simpa using hex k 1 one_pos) k
  | some n =>
    have hr : ∀ g, n.rho.groupRho g < 1 := hm.regular.rhoBelowOne n hn
    have ho : ∀ o : J → Bool, AvailabilityNonneg m { eliminateMask := o } i := fun o => hm.availNonneg _ rfl i
    simp only [computeProbabilities_nested m _ _ _ n hn i (ho _) (fun g => (hr g).ne), Bool.false_eq_true, if_false]
    exact tendsto_nested n.group n.rho.groupRho hr _ _ _ _ (multiplier_nonneg (ho out)) hb hex k

/-- C145: willingness to pay. What consumers lose when a product is eliminated is the area under its demand curve above its price,
prices of other products being held fixed. -/
theorem C145_lost (hw : ∀ i, 0 ≤ m.weights i) (hneg : ∀ i, alpha i < 0) (first : J) (out : J → Bool) (p : J → ℝ) (j : J) :
    consumerSurplus m c first p out - consumerSurplus m c first p (Function.update out j true) =
      ∫ x in Set.Ioi (p j), Spec.demand m c out (Function.update p j x) j := by
  have hderiv : ∀ x : ℝ, HasDerivAt (fun r => consumerSurplus m c first (Function.update p j r) out)
      (-Spec.demand m c out (Function.update p j x) j) x := fun x => by
    have h := C145_marginal m hm he c hc alpha hlin (fun i => (hneg i).ne) first out (fun r => Function.update p j r)
      (fun k => if k = j then 1 else 0) x (fun k => by
        by_cases hk : k = j
        · subst hk; simpa using hasDerivAt_id' x
        · simpa [hk, Function.update_of_ne hk] using hasDerivAt_const x (p k))
    simpa using h
  have hpos : ∀ x : ℝ, 0 ≤ Spec.demand m c out (Function.update p j x) j := fun x =>
    Finset.sum_nonneg fun i _ => mul_nonneg ((C17_probabilities m _ _ _ i (hm.availNonneg _ rfl i)
      hm.regular.rhoBelowOne (Or.inl rfl)).1 j) (hw i)
  have h := integral_Ioi_of_hasDerivAt_of_nonpos' (a := p j) (fun x _ => hderiv x) (fun x _ => by linarith [hpos x])
    (C145_elimination m hm he c hc alpha hlin hneg first out p j)
  rw [integral_neg, Function.update_eq_self] at h
  linarith

/-- C145: bounds without knowing demand in between. A price change costs consumers at most
what it adds to the bill for what they bought before, and at least what it adds to the bill for what they buy after. -/
theorem C145_bounds (hw : ∀ i, 0 ≤ m.weights i) (hneg : ∀ i, alpha i < 0) (first : J) (out : J → Bool) (p q : J → ℝ) :
    ∑ j, Spec.demand m c out q j * (q j - p j) ≤ consumerSurplus m c first p out - consumerSurplus m c first q out ∧
    consumerSurplus m c first p out - consumerSurplus m c first q out ≤ ∑ j, Spec.demand m c out p j * (q j - p j) := by
  set d : J → ℝ := fun k => q k - p k with hd
  set path : ℝ → J → ℝ := fun r k => p k + r * d k with hpath
  have hp : ∀ t k, HasDerivAt (fun r => path r k) (d k) t := fun t k => by
    simpa [hpath] using ((hasDerivAt_id t).mul_const (d k)).const_add (p k)
  have h1 : ∀ t, HasDerivAt (fun r => consumerSurplus m c first (path r) out) (-∑ j, Spec.demand m c out (path t) j * d j) t := fun t =>
    C145_marginal m hm he c hc alpha hlin (fun i => (hneg i).ne) first out path d t (hp t)
  have h2 : ∀ t, HasDerivAt (fun r => -∑ j, Spec.demand m c out (path r) j * d j)
      (∑ i, m.weights i * (-(alpha i) * ∑ j, d j * dProb m (fun k => computeProbabilities m { eliminateMask := out } (updateDelta c (path t)) (updateMu c (path t)) k i)
        (fun k => computeConditionals m { eliminateMask := out } (updateDelta c (path t)) (updateMu c (path t)) k i) d j)) t := fun t => by
    unfold Spec.demand computeShares
    have hi : ∀ j i, HasDerivAt (fun r => computeProbabilities m { eliminateMask := out } (updateDelta c (path r)) (updateMu c (path r)) j i)
        (alpha i * dProb m (fun k => computeProbabilities m { eliminateMask := out } (updateDelta c (path t)) (updateMu c (path t)) k i)
        (fun k => computeConditionals m { eliminateMask := out } (updateDelta c (path t)) (updateMu c (path t)) k i) d j) t := fun j i => by
      rw [← dProb_const_mul]
      exact hasDerivAt_computeProbabilities_options m hm { eliminateMask := out } rfl (fun r => updateDelta c (path r))
        (fun r => updateMu c (path r)) i (Or.inl rfl) (fun k => alpha i * d k) t
        (fun k => by simpa only [he, div_one] using path_linear m he c hc alpha hlin path d t (hp t) k i) j
    refine (HasDerivAt.fun_sum fun j _ => (HasDerivAt.fun_sum fun i _ => (hi j i).mul_const (m.weights i)).mul_const (d j)).fun_neg.congr_deriv ?_
    simp only [Finset.sum_mul, Finset.mul_sum]
    rw [Finset.sum_comm, ← Finset.sum_neg_distrib]
    refine Finset.sum_congr rfl fun i _ => ?_
    rw [← Finset.sum_neg_distrib]
    exact Finset.sum_congr rfl fun j _ => by ring
  have hmono : Monotone fun r => -∑ j, Spec.demand m c out (path r) j * d j := by
    refine monotone_of_deriv_nonneg (fun t => (h2 t).differentiableAt) fun t => ?_
    rw [(h2 t).deriv]
    exact Finset.sum_nonneg fun i _ => mul_nonneg (hw i) (mul_nonneg (by linarith [hneg i])
      (dProb_quadratic m hm { eliminateMask := out } rfl rfl _ _ i d))
  obtain ⟨z, hz, hslope⟩ := exists_hasDerivAt_eq_slope (fun r => consumerSurplus m c first (path r) out)
    (fun t => -∑ j, Spec.demand m c out (path t) j * d j) (zero_lt_one (α := ℝ))
    (fun t _ => (h1 t).continuousAt.continuousWithinAt) (fun t _ => h1 t)
  have e0 : path 0 = p := by funext k; simp [hpath]
  have e1 : path 1 = q := by funext k; simp [hpath, hd]
  have m0 := hmono hz.1.le
  have m1 := hmono hz.2.le
  simp only [e0, e1] at hslope m0 m1
  constructor <;> linarith

/-- C145: the law of demand. Between any two price vectors, changes in demand and in prices are never positively related. -/
theorem C145_law_of_demand (hw : ∀ i, 0 ≤ m.weights i) (hneg : ∀ i, alpha i < 0) (out : J → Bool) (p q : J → ℝ) :
    ∑ j, (Spec.demand m c out q j - Spec.demand m c out p j) * (q j - p j) ≤ 0 := by
  obtain ⟨h1, h2⟩ := C145_bounds m hm he c hc alpha hlin hw hneg (Classical.arbitrary J) out p q
  simp only [sub_mul, Finset.sum_sub_distrib]
  linarith

omit hm he hc hlin

/-! ## Non-vacuity -/

theorem nestedDuopoly_wellFormed : WellFormed nestedDuopoly where
  regular := ⟨fun n h g => by
    obtain rfl : (⟨fun _ => (), .single (1 / 2)⟩ : Nesting (Fin 2) Unit) = n := by simpa [nestedDuopoly] using h
    simp only [RhoParam.groupRho]; norm_num, by simp [nestedDuopoly, duopoly]⟩
  scale := fun _ => rfl
  avail := fun a h => by simp [nestedDuopoly, duopoly] at h

theorem nestedDuopoly_linear : Spec.LinearInPrices nestedDuopoly duopolyPrices fun _ => -1 := fun x j i => by
  simp [utilityDerivatives, nestedDuopoly, duopoly, duopolyPrices]

/-- What the two products in a nest are worth: the willingness to pay for the second one is the area under its demand curve above
its price of 3. -/
example : consumerSurplus nestedDuopoly duopolyPrices 0 (fun _ => 3) (fun _ => false) -
    consumerSurplus nestedDuopoly duopolyPrices 0 (fun _ => 3) (Function.update (fun _ => false) 1 true) =
      ∫ x in Set.Ioi 3, Spec.demand nestedDuopoly duopolyPrices (fun _ => false) (Function.update (fun _ => 3) 1 x) 1 :=
  C145_lost nestedDuopoly nestedDuopoly_wellFormed rfl duopolyPrices duopolyPrices_smooth _ nestedDuopoly_linear
    (fun _ => zero_le_one) (fun _ => by norm_num) 0 _ _ 1

/-- That willingness to pay is not zero: it is `log (1 + √2) - log 2`. -/
example : consumerSurplus nestedDuopoly duopolyPrices 0 (fun _ => 3) (fun _ => false) = Real.log (1 + 2 ^ (1 / 2 : ℝ)) ∧
    consumerSurplus nestedDuopoly duopolyPrices 0 (fun _ => 3) (Function.update (fun _ => false) 1 true) = Real.log 2 := by
  have hu : ∀ j : Fin 2, updateDelta duopolyPrices (fun _ => 3) j + updateMu duopolyPrices (fun _ => 3) j () = 0 := fun j => by
    simp [updateDelta, updateMu, duopolyPrices]
  constructor
  · rw [consumerSurplus_linear nestedDuopoly nestedDuopoly_wellFormed rfl duopolyPrices duopolyPrices_smooth _ nestedDuopoly_linear]
    simp [hu, nestedDuopoly, duopoly, Spec.logSum, multiplier, RhoParam.groupRho]
    norm_num
  · rw [consumerSurplus_linear nestedDuopoly nestedDuopoly_wellFormed rfl duopolyPrices duopolyPrices_smooth _ nestedDuopoly_linear]
    simp [hu, nestedDuopoly, duopoly, Spec.logSum, multiplier, RhoParam.groupRho]
    norm_num

/-- Doubling one price of the duopoly. -/
example : consumerSurplus nestedDuopoly duopolyPrices 0 (fun _ => 3) (fun _ => false) - consumerSurplus nestedDuopoly duopolyPrices 0 ![6, 3] (fun _ => false) ≤
    ∑ j, Spec.demand nestedDuopoly duopolyPrices (fun _ => false) (fun _ => 3) j * ((![6, 3] : Fin 2 → ℝ) j - 3) :=
  (C145_bounds nestedDuopoly nestedDuopoly_wellFormed rfl duopolyPrices duopolyPrices_smooth _ nestedDuopoly_linear
    (fun _ => zero_le_one) (fun _ => by norm_num) 0 _ _ _).2

/-- One product at a price of one whose utility falls in the square of its price. -/
noncomputable def squaredPrices : Characteristic Unit Unit Unit (Fin 0) where
  delta := fun _ => 0
  x0 := fun _ => 1
  beta := fun _ => -1
  has1 := fun _ => true
  x1 := fun _ _ t => t ^ 2
  d1 := fun _ _ t => 2 * t
  dd1 := fun _ _ _ => 2
  coef := fun _ _ _ => 0
  has2 := fun _ => false
  x2 := fun _ _ _ => 0
  d2 := fun _ _ _ => 0
  dd2 := fun _ _ _ => 0

theorem squaredPrices_smooth : squaredPrices.Smooth where
  x1 := fun _ _ _ t => by
    have h : HasDerivAt (fun t : ℝ => t ^ 2) (2 * t) t := by simpa using hasDerivAt_pow 2 t
    exact h
  d1 := fun _ _ _ t => by
    have h : HasDerivAt (fun t : ℝ => 2 * t) 2 t := by simpa using (hasDerivAt_id t).const_mul 2
    exact h
  x2 := fun k => k.elim0
  d2 := fun k => k.elim0

/-- C37 fails for the documented argument `prices` (pyblp/results/economy_results.py:1102-1104), "prices at which utilities and price
derivatives will be evaluated": utilities are evaluated at these prices, price derivatives at unchanged prices. With one product
whose utility falls in its squared price, surplus at a price of 2 is divided by 2, the slope at the unchanged price of 1, not by 4. -/
theorem C37_prices_refuted : ∃ (m : Market Unit Unit Unit) (c : Characteristic Unit Unit Unit (Fin 0)) (p : Unit → ℝ),
    WellFormed m ∧ m.epsilonScale = 1 ∧ c.Smooth ∧
    consumerSurplus m c () p (fun _ => false) ≠ ∑ i, m.weights i *
      (Spec.logSum m.nesting (fun j => updateDelta c p j + updateMu c p j i)
        (Spec.surplusMultiplier (m.availability.map fun a => a i) fun _ => false) / -(utilityDerivatives m c p () i)) := by
  refine ⟨oneProduct 1, squaredPrices, fun _ => 2, oneProduct_wellFormed, rfl, squaredPrices_smooth, ?_⟩
  rw [C37_surplus_partial _ oneProduct_wellFormed rfl]
  have hpos : 0 < Real.log (1 + Real.exp (-3)) := Real.log_pos (by linarith [Real.exp_pos (-3)])
  have hu : updateDelta squaredPrices (fun _ => 2) () + updateMu squaredPrices (fun _ => 2) () () = -3 := by
    simp [updateDelta, updateMu, squaredPrices]; norm_num
  simp only [Finset.univ_unique, Finset.sum_singleton, PUnit.default_eq_unit, utilityDerivatives_eq]
  simp only [Spec.logSum, oneProduct, Spec.surplusMultiplier, Option.map_none, Bool.false_eq_true, if_false, Finset.univ_unique,
    Finset.sum_singleton, PUnit.default_eq_unit, one_mul, hu]
  simp [squaredPrices]
  intro h
  field_simp at h
  linarith

end Pyblp
