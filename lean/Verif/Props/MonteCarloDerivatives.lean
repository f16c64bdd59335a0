import Verif.Props.MonteCarlo
import Verif.Props.Demand
import Verif.Lemmas.ContinuousDelta
import Verif.Model.PostEstimation
import Mathlib.Analysis.Calculus.ParametricIntegral

/-!
# C128: Demand Jacobians, elasticities and marginal costs converge to those of the population
-/

set_option linter.unusedSectionVars false

open MeasureTheory ProbabilityTheory Filter Topology

namespace Pyblp

variable {J G K1 K2 ι Ω : Type} [Fintype J] [DecidableEq J] [Nonempty J] [Fintype G] [DecidableEq G] [Fintype K1] [Fintype K2]
  [MeasurableSpace Ω] {dimensions : ℕ}

/-! ## Specification -/

/-- Preferences of a population, with how characteristics depend on prices. -/
structure Spec.Priced (J G K1 K2 : Type) (dimensions : ℕ) where
  nesting : Option (Nesting J G)
  epsilonScale : ℝ
  rcType : K2 → RcType
  sigma : K2 → Fin dimensions → ℝ
  formulas : PriceFormulas J K1 K2

/-- The population at prices `x`. -/
def Spec.Priced.at (q : Spec.Priced J G K1 K2 dimensions) (x : J → ℝ) : Spec.Population J G K2 dimensions where
  nesting := q.nesting
  epsilonScale := q.epsilonScale
  X2 j k := q.formulas.x2 k j (x j)
  rcType := q.rcType
  sigma := q.sigma

/-- Mean utilities at prices `x` if they are `delta` at prices in the data. -/
def Spec.Priced.meanUtility (q : Spec.Priced J G K1 K2 dimensions) (delta x : J → ℝ) (j : J) : ℝ :=
  delta j + ∑ k, q.formulas.beta k * (q.formulas.x1 k j (x j) - q.formulas.x1 k j (q.formulas.prices j))

/-- Demand of the population for product `j` at prices `x`. -/
noncomputable def Spec.Priced.demand (q : Spec.Priced J G K1 K2 dimensions) (delta x : J → ℝ) (j : J) : ℝ :=
  (q.at x).share (q.meanUtility delta x) j

/-- The derivative of demand for product `j` with respect to the price of product `k`, at prices in the data. -/
noncomputable def Spec.Priced.slope (q : Spec.Priced J G K1 K2 dimensions) (delta : J → ℝ) (j k : J) : ℝ :=
  deriv (fun price => q.demand delta (Function.update q.formulas.prices k price) j) (q.formulas.prices k)

/-- Formulas that do not contain prices do not depend on them, and derivatives of formulas are right (they are taken by SymPy). Nesting parameters
are in `[0, 1)` and the scale of taste shocks is positive, and one if there are nests. -/
structure Spec.Priced.Valid (q : Spec.Priced J G K1 K2 dimensions) : Prop where
  rho : ∀ n, q.nesting = some n → ∀ g, 0 ≤ n.rho.groupRho g ∧ n.rho.groupRho g < 1
  eps : 0 < q.epsilonScale
  scale : q.nesting ≠ none → q.epsilonScale = 1
  const1 : ∀ k, q.formulas.has1 k = false → ∀ j t u, q.formulas.x1 k j t = q.formulas.x1 k j u
  const2 : ∀ k, q.formulas.has2 k = false → ∀ j t u, q.formulas.x2 k j t = q.formulas.x2 k j u
  x1 : ∀ k, q.formulas.has1 k = true → ∀ j t, HasDerivAt (q.formulas.x1 k j) (q.formulas.d1 k j t) t
  d1 : ∀ k, q.formulas.has1 k = true → ∀ j t, HasDerivAt (q.formulas.d1 k j) (q.formulas.dd1 k j t) t
  x2 : ∀ k, q.formulas.has2 k = true → ∀ j t, HasDerivAt (q.formulas.x2 k j) (q.formulas.d2 k j t) t
  d2 : ∀ k, q.formulas.has2 k = true → ∀ j t, HasDerivAt (q.formulas.d2 k j) (q.formulas.dd2 k j t) t

/-- The demand Jacobian that is computed for the market at position `t` of all markets if `size` nodes are built for each. -/
noncomputable def Spec.Priced.jacobian (q : Spec.Priced J G K1 K2 dimensions) (ids : List ι) (t : Fin ids.length) (size : ℕ) (numbers : ℕ → ℝ)
    (delta : J → ℝ) (j k : J) : ℝ :=
  match (monteCarloMany dimensions size numbers ids)[(t : ℕ)]? with
  | some b => integratedJacobian q.nesting q.epsilonScale q.formulas q.rcType q.sigma b.2 delta j k
  | none => 0

/-- Marginal costs that are computed for the market at position `t` of all markets if `size` nodes are built for each. -/
noncomputable def Spec.Priced.costs (q : Spec.Priced J G K1 K2 dimensions) (ids : List ι) (t : Fin ids.length) (size : ℕ) (numbers : ℕ → ℝ)
    (O : J → J → ℝ) (s delta : J → ℝ) (j : J) : ℝ :=
  match (monteCarloMany dimensions size numbers ids)[(t : ℕ)]? with
  | some b => integratedCosts q.nesting q.epsilonScale q.formulas q.rcType q.sigma b.2 O s delta j
  | none => 0

/-! ## Derivatives of choice probabilities -/

section choosers

variable (p : Spec.Population J G K2 dimensions)

/-- The probability of choosing product `j` in its nest. -/
noncomputable def Spec.Population.inNest (n : Nesting J G) (delta : J → ℝ) (nu : Fin dimensions → ℝ) (j : J) : ℝ :=
  Spec.within n.group n.rho.groupRho (p.utility delta nu) (fun _ => 1) j

/-- The derivative of the probability of choosing product `j` with respect to the utility of product `k`. -/
noncomputable def Spec.Population.response (delta : J → ℝ) (nu : Fin dimensions → ℝ) (j k : J) : ℝ :=
  match p.nesting with
  | none => (if j = k then 1 else 0) * p.chooses delta nu k - p.chooses delta nu j * p.chooses delta nu k
  | some n => (if j = k then (1 - n.productRho k)⁻¹ else 0) * p.chooses delta nu k - p.chooses delta nu j * p.chooses delta nu k -
      (n.productRho j / (1 - n.productRho j) * membership n j k) * (p.inNest n delta nu j * p.chooses delta nu k)

lemma inNest_tame (hp : p.Regular) (n : Nesting J G) (hn : p.nesting = some n) (j : J) :
    Sampling.Tame (fun x nu => p.inNest n x nu j) (2 / (1 - n.productRho j)) 1 := by
  have hτ : 0 < 1 - n.productRho j := by have := (hp.rho n hn (n.group j)).2; unfold Nesting.productRho; linarith
  have hu := utility_measurable p
  set S : (J → ℝ) → (Fin dimensions → ℝ) → ℝ := fun x nu => ∑ k with n.group k = n.group j, Real.exp (p.utility x nu k / (1 - n.productRho j)) with hS
  have hin : ∀ x nu, p.inNest n x nu j = Real.exp (p.utility x nu j / (1 - n.productRho j)) / S x nu := fun x nu => by
    unfold Spec.Population.inNest Spec.within Spec.groupSum
    simp only [one_mul, hS]
    rfl
  have hle : ∀ x nu, Real.exp (p.utility x nu j / (1 - n.productRho j)) ≤ S x nu := fun x nu =>
    Finset.single_le_sum (f := fun k => Real.exp (p.utility x nu k / (1 - n.productRho j))) (fun k _ => (Real.exp_pos _).le) (by simp)
  have hSpos : ∀ x nu, 0 < S x nu := fun x nu => (Real.exp_pos _).trans_le (hle x nu)
  have h0 : ∀ x nu, 0 ≤ p.inNest n x nu j := fun x nu => by rw [hin]; exact div_nonneg (Real.exp_pos _).le (hSpos x nu).le
  have h1 : ∀ x nu, p.inNest n x nu j ≤ 1 := fun x nu => by rw [hin, div_le_one (hSpos x nu)]; exact hle x nu
  refine ⟨fun x => ?_, fun x nu => by rw [abs_of_nonneg (h0 x nu)]; exact h1 x nu, fun x y nu c hc => ?_⟩
  · simp only [hin, hS]
    exact (Real.measurable_exp.comp ((hu x j).div_const _)).div
      (Finset.measurable_sum _ fun k _ => Real.measurable_exp.comp ((hu x k).div_const _))
  · have hc0 : 0 ≤ c := (abs_nonneg _).trans (hc j)
    have key : ∀ x y : J → ℝ, (∀ k, |x k - y k| ≤ c) → p.inNest n x nu j - p.inNest n y nu j ≤ 2 / (1 - n.productRho j) * c := by
      intro x y hxy
      have hexp : ∀ k, Real.exp (p.utility y nu k / (1 - n.productRho j)) ≤
          Real.exp (c / (1 - n.productRho j)) * Real.exp (p.utility x nu k / (1 - n.productRho j)) := fun k => by
        rw [← Real.exp_add, Real.exp_le_exp, ← add_div, div_le_div_iff_of_pos_right hτ]
        unfold Spec.Population.utility
        linarith [(abs_le.mp (hxy k)).1]
      have hexp' : ∀ k, Real.exp (-(c / (1 - n.productRho j))) * Real.exp (p.utility x nu k / (1 - n.productRho j)) ≤
          Real.exp (p.utility y nu k / (1 - n.productRho j)) := fun k => by
        rw [← Real.exp_add, Real.exp_le_exp, ← neg_div, ← add_div, div_le_div_iff_of_pos_right hτ]
        unfold Spec.Population.utility
        linarith [(abs_le.mp (hxy k)).2]
      have hSS : S y nu ≤ Real.exp (c / (1 - n.productRho j)) * S x nu := by
        simp only [hS]
        rw [Finset.mul_sum]
        exact Finset.sum_le_sum fun k _ => hexp k
      have hW : p.inNest n x nu j * Real.exp (-(2 * c / (1 - n.productRho j))) ≤ p.inNest n y nu j := by
        rw [hin, hin, div_mul_eq_mul_div, div_le_div_iff₀ (hSpos x nu) (hSpos y nu)]
        have e1 : Real.exp (-(2 * c / (1 - n.productRho j))) = Real.exp (-(c / (1 - n.productRho j))) * Real.exp (-(c / (1 - n.productRho j))) := by
          rw [← Real.exp_add]; congr 1; ring
        have e2 : Real.exp (-(c / (1 - n.productRho j))) * S y nu ≤ S x nu := by
          have := mul_le_mul_of_nonneg_left hSS (Real.exp_pos (-(c / (1 - n.productRho j)))).le
          rwa [← mul_assoc, ← Real.exp_add, neg_add_cancel, Real.exp_zero, one_mul] at this
        have := mul_le_mul (hexp' j) e2 (mul_nonneg (Real.exp_pos _).le (hSpos y nu).le) (Real.exp_pos _).le
        rw [e1]
        calc _ = _ := by ring
          _ ≤ _ := this
      have h6 := Real.add_one_le_exp (-(2 * c / (1 - n.productRho j)))
      have h9 : 0 ≤ 2 * c / (1 - n.productRho j) := by positivity
      have e3 : 2 / (1 - n.productRho j) * c = 2 * c / (1 - n.productRho j) := by ring
      rw [e3]
      nlinarith [h0 x nu, h1 x nu]
    rw [abs_le]
    refine ⟨?_, key x y hc⟩
    have := key y x (fun k => by rw [abs_sub_comm]; exact hc k)
    linarith

/-- Responses are tame, with constants that do not depend on characteristics. -/
lemma response_tame (hp : p.Regular) (j k : J) : ∃ L B, ∀ X2 : J → K2 → ℝ,
    Sampling.Tame (fun x nu => ({ p with X2 := X2 } : Spec.Population J G K2 dimensions).response x nu j k) L B := by
  have hreg : ∀ X2 : J → K2 → ℝ, ({ p with X2 := X2 } : Spec.Population J G K2 dimensions).Regular := fun _ => ⟨hp.rho, hp.eps⟩
  obtain ⟨nesting, eps, X, rc, sigma⟩ := p
  set scale := (⟨nesting, eps, X, rc, sigma⟩ : Spec.Population J G K2 dimensions).scale with hscale
  have hsc : ∀ X2, (⟨nesting, eps, X2, rc, sigma⟩ : Spec.Population J G K2 dimensions).scale = scale := fun _ => rfl
  unfold Spec.Population.response
  cases nesting with
  | none =>
    refine ⟨|if j = k then 1 else 0| * (2 / scale k) + (2 / scale j * 1 + 1 * (2 / scale k)), |if j = k then 1 else 0| * 1 + 1 * 1, fun X2 => ?_⟩
    have hc := choosers _ (hreg X2)
    exact ((hc.tame k).const_mul _).sub ((hc.tame j).mul (hc.tame k))
  | some n =>
    refine ⟨|if j = k then (1 - n.productRho k)⁻¹ else 0| * (2 / scale k) + (2 / scale j * 1 + 1 * (2 / scale k)) +
      |n.productRho j / (1 - n.productRho j) * membership n j k| * (2 / (1 - n.productRho j) * 1 + 1 * (2 / scale k)),
      |if j = k then (1 - n.productRho k)⁻¹ else 0| * 1 + 1 * 1 + |n.productRho j / (1 - n.productRho j) * membership n j k| * (1 * 1), fun X2 => ?_⟩
    have hc := choosers _ (hreg X2)
    have hi := inNest_tame _ (hreg X2) n rfl j
    exact (((hc.tame k).const_mul _).sub ((hc.tame j).mul (hc.tame k))).sub ((hi.mul (hc.tame k)).const_mul _)

lemma taste_integrable (k : K2) : Integrable (fun nu => p.taste nu k) (Measure.pi fun _ : Fin dimensions => gaussianReal 0 1) := by
  have hm := taste_measurable p k
  unfold Spec.Population.taste at hm ⊢
  cases h : p.rcType k with
  | linear =>
    simp only []
    refine integrable_finsetSum _ fun d _ => Integrable.const_mul ?_ _
    refine integrable_comp_eval (μ := fun _ : Fin dimensions => gaussianReal 0 1) (f := fun x : ℝ => x) ?_
    exact (memLp_id_gaussianReal 1).integrable (by norm_num)
  | log =>
    simp only [Real.exp_sum]
    exact Integrable.fintype_prod (μ := fun _ : Fin dimensions => gaussianReal 0 1) (f := fun d x => Real.exp (p.sigma k d * x))
      fun d => integrable_exp_mul_gaussianReal _
  | logit =>
    simp only [h] at hm ⊢
    refine Integrable.of_bound hm.aestronglyMeasurable 1 (Eventually.of_forall fun nu => ?_)
    have := Real.exp_pos (-∑ d, p.sigma k d * nu d)
    rw [Real.norm_eq_abs, abs_of_pos (by positivity), div_le_one (by positivity)]
    linarith

end choosers

/-! ## Jacobians are averages -/

variable (q : Spec.Priced J G K1 K2 dimensions)

lemma at_regular (hq : q.Valid) (x : J → ℝ) : (q.at x).Regular := ⟨hq.rho, hq.eps⟩

lemma integrated_wellFormed {size : ℕ} (hq : q.Valid) (b : NodesWeights dimensions size) :
    WellFormed (integratedMarket q.nesting q.epsilonScale b : Market J (Fin size) G) :=
  ⟨⟨hq.rho, hq.eps⟩, hq.scale, fun a h => by simp [integratedMarket] at h⟩

lemma characteristic_smooth {size : ℕ} (hq : q.Valid) (b : NodesWeights dimensions size) (delta : J → ℝ) :
    (q.formulas.characteristic q.rcType q.sigma b delta).Smooth := ⟨hq.x1, hq.d1, hq.x2, hq.d2⟩

lemma updateDelta_integrated {size : ℕ} (hq : q.Valid) (b : NodesWeights dimensions size) (delta x : J → ℝ) :
    updateDelta (q.formulas.characteristic q.rcType q.sigma b delta) x = q.meanUtility delta x := by
  funext j
  unfold updateDelta Spec.Priced.meanUtility
  congr 1
  rw [Finset.sum_filter]
  refine Finset.sum_congr rfl fun k _ => ?_
  change (if q.formulas.has1 k = true then q.formulas.beta k * (q.formulas.x1 k j (x j) - q.formulas.x1 k j (q.formulas.prices j)) else 0) = _
  by_cases h : q.formulas.has1 k = true
  · rw [if_pos h]
  · rw [if_neg h, hq.const1 k (by simpa using h) j (x j) (q.formulas.prices j), sub_self, mul_zero]

lemma updateMu_integrated {size : ℕ} (hq : q.Valid) (b : NodesWeights dimensions size) (delta x : J → ℝ) :
    updateMu (q.formulas.characteristic q.rcType q.sigma b delta) x = computeMu (integratedTastes (q.at x).X2 q.rcType b) q.sigma fun _ d => d.elim := by
  funext j i
  unfold updateMu computeMu
  refine Finset.sum_congr rfl fun k _ => ?_
  congr 1
  change (if q.formulas.has2 k = true then q.formulas.x2 k j (x j) else q.formulas.x2 k j (q.formulas.prices j)) = q.formulas.x2 k j (x j)
  by_cases h : q.formulas.has2 k = true
  · rw [if_pos h]
  · rw [if_neg h, hq.const2 k (by simpa using h) j (x j) (q.formulas.prices j)]

lemma probabilitiesAt_integrated {size : ℕ} (hq : q.Valid) (b : NodesWeights dimensions size) (delta x : J → ℝ) (j : J) (i : Fin size) :
    probabilitiesAt (integratedMarket q.nesting q.epsilonScale b) (q.formulas.characteristic q.rcType q.sigma b delta) x j i =
      (q.at x).chooses (q.meanUtility delta x) (b.nodes i) j := by
  unfold probabilitiesAt
  rw [updateDelta_integrated q hq, updateMu_integrated q hq]
  exact integrated_probability (q.at x) (at_regular q hq x) b _ j i

lemma conditionalsAt_integrated {size : ℕ} (hq : q.Valid) (b : NodesWeights dimensions size) (delta x : J → ℝ) (n : Nesting J G)
    (hn : q.nesting = some n) (j : J) (i : Fin size) :
    conditionalsAt (integratedMarket q.nesting q.epsilonScale b) (q.formulas.characteristic q.rcType q.sigma b delta) x j i =
      (q.at x).inNest n (q.meanUtility delta x) (b.nodes i) j := by
  unfold conditionalsAt
  have := computeConditionals_nested (integratedMarket q.nesting q.epsilonScale b : Market J (Fin size) G) {} (q.meanUtility delta x)
    (computeMu (integratedTastes (q.at x).X2 q.rcType b) q.sigma fun _ d => d.elim) n hn i (integrated_available (q.at x) b i)
    (fun g => ((hq.rho n hn g).2).ne) j
  rw [multiplier_one _ _ rfl rfl rfl (fun _ => rfl) i] at this
  rw [updateDelta_integrated q hq, updateMu_integrated q hq, this]
  unfold Spec.Population.inNest
  congr 1
  funext k
  exact computeMu_integrated (q.at x) b _ k i

/-- The derivative of utility with respect to prices. -/
noncomputable def Spec.Priced.marginal (x : J → ℝ) (k : J) (nu : Fin dimensions → ℝ) : ℝ :=
  ((∑ l, (if q.formulas.has1 l then q.formulas.d1 l k (x k) else 0) * q.formulas.beta l) +
    ∑ l, (if q.formulas.has2 l then q.formulas.d2 l k (x k) else 0) * (q.at x).taste nu l) / q.epsilonScale

lemma utilityDerivatives_integrated {size : ℕ} (b : NodesWeights dimensions size) (delta x : J → ℝ) (k : J) (i : Fin size) :
    utilityDerivatives (integratedMarket q.nesting q.epsilonScale b : Market J (Fin size) G) (q.formulas.characteristic q.rcType q.sigma b delta) x k i =
      q.marginal x k (b.nodes i) := by
  rw [utilityDerivatives_eq]
  unfold Spec.Priced.marginal
  congr 2
  refine Finset.sum_congr rfl fun l _ => ?_
  congr 1
  simp only [PriceFormulas.characteristic]
  unfold randomCoefficient coefficientIndex Spec.Population.taste
  simp only [integratedTastes, Finset.univ_eq_empty, Finset.sum_empty, add_zero, Spec.Priced.at]
  cases q.rcType l <;> rfl

lemma jacobian_integrated {size : ℕ} (hq : q.Valid) (b : NodesWeights dimensions size) (delta x : J → ℝ) (j k : J) :
    sharesJacobian (integratedMarket q.nesting q.epsilonScale b)
      (probabilitiesAt (integratedMarket q.nesting q.epsilonScale b) (q.formulas.characteristic q.rcType q.sigma b delta) x)
      (conditionalsAt (integratedMarket q.nesting q.epsilonScale b) (q.formulas.characteristic q.rcType q.sigma b delta) x)
      (utilityDerivatives (integratedMarket q.nesting q.epsilonScale b) (q.formulas.characteristic q.rcType q.sigma b delta) x) j k =
      ∑ i, (q.at x).response (q.meanUtility delta x) (b.nodes i) j k * q.marginal x k (b.nodes i) * b.weights i := by
  unfold sharesJacobian capitalLamda capitalGamma Spec.Population.response
  cases hn : q.nesting with
  | none =>
    have e1 : (integratedMarket (none : Option (Nesting J G)) q.epsilonScale b).nesting = none := rfl
    have e2 : (q.at x).nesting = none := hn
    rw [← hn]
    simp only [probabilitiesAt_integrated q hq, utilityDerivatives_integrated q]
    rw [hn]
    simp only [e1, e2]
    simp only [integratedMarket]
    by_cases h : j = k
    · subst h
      simp only [if_true]
      rw [← Finset.sum_sub_distrib]
      exact Finset.sum_congr rfl fun i _ => by ring
    · simp only [if_neg h, zero_sub, zero_mul]
      rw [← Finset.sum_neg_distrib]
      exact Finset.sum_congr rfl fun i _ => by ring
  | some n =>
    have e1 : (integratedMarket (some n) q.epsilonScale b).nesting = some n := rfl
    have e2 : (q.at x).nesting = some n := hn
    rw [← hn]
    simp only [probabilitiesAt_integrated q hq, utilityDerivatives_integrated q, conditionalsAt_integrated q hq b delta x n hn]
    rw [hn]
    simp only [e1, e2]
    simp only [integratedMarket]
    rw [Finset.mul_sum]
    by_cases h : j = k
    · subst h
      simp only [if_true]
      rw [Finset.sum_div, ← Finset.sum_add_distrib, ← Finset.sum_sub_distrib]
      exact Finset.sum_congr rfl fun i _ => by ring
    · simp only [if_neg h, zero_sub, zero_mul]
      rw [← Finset.sum_add_distrib, ← Finset.sum_neg_distrib]
      exact Finset.sum_congr rfl fun i _ => by ring

lemma marginal_measurable (x : J → ℝ) (k : J) : Measurable (q.marginal x k) := by
  unfold Spec.Priced.marginal
  exact (measurable_const.add (Finset.measurable_sum _ fun l _ => (taste_measurable (q.at x) l).const_mul _)).div_const _

lemma marginal_integrable (x : J → ℝ) (k : J) : Integrable (q.marginal x k) (Measure.pi fun _ : Fin dimensions => gaussianReal 0 1) := by
  unfold Spec.Priced.marginal
  exact ((integrable_const _).add (integrable_finsetSum _ fun l _ => (taste_integrable (q.at x) l).const_mul _)).div_const _

/-- Choice probabilities are differentiable in prices. -/
lemma chooses_deriv (hq : q.Valid) (delta x : J → ℝ) (nu : Fin dimensions → ℝ) (j k : J) :
    HasDerivAt (fun t => (q.at (Function.update x k t)).chooses (q.meanUtility delta (Function.update x k t)) nu j)
      ((q.at x).response (q.meanUtility delta x) nu j k * q.marginal x k nu) (x k) := by
  have h := C26_demand_jacobian (integratedMarket q.nesting q.epsilonScale (oneChooser nu)) (integrated_wellFormed q hq _)
    (q.formulas.characteristic q.rcType q.sigma (oneChooser nu) delta) (characteristic_smooth q hq _ delta) x j k
  rw [jacobian_integrated q hq] at h
  unfold sharesAt at h
  simp only [probabilitiesAt_integrated q hq] at h
  simpa [oneChooser, integratedMarket] using h

/-- Derivatives of formulas are bounded near prices. -/
lemma formulas_bounded (d : ℝ → ℝ) (dd : ℝ → ℝ) (h : ∀ t, HasDerivAt d (dd t) t) (a : ℝ) : ∃ M, ∀ t ∈ Set.Icc (a - 1) (a + 1), |d t| ≤ M := by
  have hc : Continuous d := continuous_iff_continuousAt.mpr fun t => (h t).continuousAt
  obtain ⟨M, hM⟩ := isCompact_Icc.exists_bound_of_continuousOn (s := Set.Icc (a - 1) (a + 1)) hc.continuousOn
  exact ⟨M, fun t ht => by simpa [Real.norm_eq_abs] using hM t ht⟩

/-- Demand of the population is differentiable, and its derivative is the mean of derivatives. -/
lemma demand_deriv (hq : q.Valid) (delta x : J → ℝ) (j k : J) :
    HasDerivAt (fun t => q.demand delta (Function.update x k t) j)
      (∫ nu, (q.at x).response (q.meanUtility delta x) nu j k * q.marginal x k nu ∂Measure.pi fun _ : Fin dimensions => gaussianReal 0 1) (x k) := by
  obtain ⟨L, B, hT⟩ := response_tame (q.at x) (at_regular q hq x) j k
  have hT' : ∀ y, Sampling.Tame (fun d nu => (q.at y).response d nu j k) L B := fun y => hT (q.at y).X2
  have hB : 0 ≤ B := (abs_nonneg _).trans ((hT' x).bound 0 0)
  have h1 : ∀ l, ∃ M, ∀ t ∈ Set.Icc (x k - 1) (x k + 1), |if q.formulas.has1 l then q.formulas.d1 l k t else 0| ≤ M := fun l => by
    by_cases h : q.formulas.has1 l = true
    · simp only [h, if_true]
      exact formulas_bounded _ _ (hq.d1 l h k) (x k)
    · simp only [h]
      exact ⟨0, fun t _ => by simp⟩
  have h2 : ∀ l, ∃ M, ∀ t ∈ Set.Icc (x k - 1) (x k + 1), |if q.formulas.has2 l then q.formulas.d2 l k t else 0| ≤ M := fun l => by
    by_cases h : q.formulas.has2 l = true
    · simp only [h, if_true]
      exact formulas_bounded _ _ (hq.d2 l h k) (x k)
    · simp only [h]
      exact ⟨0, fun t _ => by simp⟩
  choose M1 hM1 using h1
  choose M2 hM2 using h2
  set bound : (Fin dimensions → ℝ) → ℝ := fun nu =>
    B * (((∑ l, M1 l * |q.formulas.beta l|) + ∑ l, M2 l * |(q.at x).taste nu l|) / q.epsilonScale) with hbound
  have hbi : Integrable bound (Measure.pi fun _ : Fin dimensions => gaussianReal 0 1) :=
    (((integrable_const _).add (integrable_finsetSum _ fun l _ => (taste_integrable (q.at x) l).abs.const_mul _)).div_const _).const_mul _
  have hmarg : ∀ t ∈ Set.Icc (x k - 1) (x k + 1), ∀ nu, |q.marginal (Function.update x k t) k nu| ≤
      ((∑ l, M1 l * |q.formulas.beta l|) + ∑ l, M2 l * |(q.at x).taste nu l|) / q.epsilonScale := by
    intro t ht nu
    unfold Spec.Priced.marginal
    rw [abs_div, abs_of_pos hq.eps, div_le_div_iff_of_pos_right hq.eps, Function.update_self]
    refine (abs_add_le _ _).trans (add_le_add ?_ ?_)
    · refine (Finset.abs_sum_le_sum_abs _ _).trans (Finset.sum_le_sum fun l _ => ?_)
      rw [abs_mul]
      exact mul_le_mul_of_nonneg_right (hM1 l t ht) (abs_nonneg _)
    · refine (Finset.abs_sum_le_sum_abs _ _).trans (Finset.sum_le_sum fun l _ => ?_)
      rw [abs_mul]
      exact mul_le_mul_of_nonneg_right (hM2 l t ht) (abs_nonneg _)
  have hc := fun y => choosers (q.at y) (at_regular q hq y)
  have key := hasDerivAt_integral_of_dominated_loc_of_deriv_le (μ := Measure.pi fun _ : Fin dimensions => gaussianReal 0 1)
    (F := fun t nu => (q.at (Function.update x k t)).chooses (q.meanUtility delta (Function.update x k t)) nu j)
    (F' := fun t nu => (q.at (Function.update x k t)).response (q.meanUtility delta (Function.update x k t)) nu j k *
      q.marginal (Function.update x k t) k nu) (x₀ := x k) (s := Set.Icc (x k - 1) (x k + 1)) (bound := bound)
    (Icc_mem_nhds (by linarith) (by linarith))
    (Eventually.of_forall fun t => ((hc _).measurable _ j).aestronglyMeasurable)
    ((hc _).integrable _ j)
    ((((hT' _).measurable _).mul (marginal_measurable q _ k)).aestronglyMeasurable)
    (Eventually.of_forall fun nu t ht => by
      rw [Real.norm_eq_abs, abs_mul]
      exact mul_le_mul ((hT' _).bound _ nu) (hmarg t ht nu) (abs_nonneg _) hB)
    hbi
    (Eventually.of_forall fun nu t _ => by
      have h := chooses_deriv q hq delta (Function.update x k t) nu j k
      simpa [Function.update_idem] using h)
  have h := key.2
  simp only [Function.update_eq_self] at h
  exact h

/-- Mean utilities at prices in the data. -/
lemma meanUtility_self (delta : J → ℝ) : q.meanUtility delta q.formulas.prices = delta := by
  funext j
  simp [Spec.Priced.meanUtility]

lemma slope_eq (hq : q.Valid) (delta : J → ℝ) (j k : J) : q.slope delta j k =
    ∫ nu, (q.at q.formulas.prices).response delta nu j k * q.marginal q.formulas.prices k nu ∂Measure.pi fun _ : Fin dimensions => gaussianReal 0 1 := by
  have h := demand_deriv q hq delta q.formulas.prices j k
  rw [meanUtility_self] at h
  exact h.deriv

lemma jacobian_eq (hq : q.Valid) (ids : List ι) (t : Fin ids.length) (size : ℕ) (stream : ℕ → Ω → ℝ) (ω : Ω) (delta : J → ℝ) (j k : J) :
    q.jacobian ids t size (fun n => stream n ω) delta j k =
      (∑ i : Fin size, (q.at q.formulas.prices).response delta (fun d : Fin dimensions => stream ((t * size + i) * dimensions + d) ω) j k *
        q.marginal q.formulas.prices k (fun d : Fin dimensions => stream ((t * size + i) * dimensions + d) ω)) / size := by
  unfold Spec.Priced.jacobian
  rw [monteCarloMany_get _ _ _ _ t.2]
  simp only [integratedJacobian]
  rw [jacobian_integrated q hq, meanUtility_self]
  have hnode : ∀ i : Fin size, (monteCarlo dimensions size fun n => stream (t * (size * dimensions) + n) ω).nodes i =
      fun d : Fin dimensions => stream ((t * size + i) * dimensions + d) ω := fun i => by
    funext d
    simp only [monteCarlo]
    congr 1
    ring
  simp only [hnode]
  simp only [monteCarlo]
  rw [← Finset.sum_mul, mul_one_div]

/-! ## C128 -/

variable {μ : Measure Ω} [IsProbabilityMeasure μ] {stream : ℕ → Ω → ℝ}

/-- **C128, demand.** Demand of the population is differentiable in prices. -/
theorem C128_demand (hq : q.Valid) (delta : J → ℝ) (j k : J) :
    HasDerivAt (fun price => q.demand delta (Function.update q.formulas.prices k price) j) (q.slope delta j k) (q.formulas.prices k) :=
  (demand_deriv q hq delta q.formulas.prices j k).differentiableAt.hasDerivAt

/-- **C128, demand Jacobians.** With probability one, in every market, demand Jacobians that are computed at mean utilities for which computed shares
are, or approach, the shares of the population converge to derivatives of demand of the population as the number of nodes grows. -/
theorem C128_jacobian (hq : q.Valid) (hs : Spec.StandardNormal μ stream) (ids : List ι) :
    ∀ᵐ ω ∂μ, ∀ (t : Fin ids.length) (delta : J → ℝ) (estimates : ℕ → J → ℝ),
      (∀ j, Tendsto (fun size => (q.at q.formulas.prices).simulated ids t size (fun n => stream n ω) (estimates size) j) atTop
        (𝓝 ((q.at q.formulas.prices).share delta j))) → ∀ j k,
          Tendsto (fun size => q.jacobian ids t size (fun n => stream n ω) (estimates size) j k) atTop (𝓝 (q.slope delta j k)) := by
  have hreg := at_regular q hq q.formulas.prices
  have hd := Sampling.draws_of_stream hs.measurable hs.indep _ hs.normal dimensions
  have hall : ∀ᵐ ω ∂μ, ∀ (t : Fin ids.length) (j k : J), ∀ (x : J → ℝ) (d : ℕ → J → ℝ), Tendsto d atTop (𝓝 x) →
      Tendsto (fun size => q.jacobian ids t size (fun n => stream n ω) (d size) j k) atTop (𝓝 (q.slope x j k)) := by
    rw [ae_all_iff]
    intro t
    rw [ae_all_iff]
    intro j
    rw [ae_all_iff]
    intro k
    obtain ⟨L, B, hT⟩ := response_tame (q.at q.formulas.prices) hreg j k
    filter_upwards [Sampling.tendsto_weighted (hT (q.at q.formulas.prices).X2) (marginal_measurable q q.formulas.prices k)
      (marginal_integrable q q.formulas.prices k) hd t] with ω hω
    intro x d hxd
    simp only [jacobian_eq q hq, slope_eq q hq]
    exact hω x d hxd
  filter_upwards [hall, C127_mean_utilities (q.at q.formulas.prices) hreg hs ids] with ω h1 h2
  intro t delta estimates hest j k
  exact h1 t j k delta estimates (h2 t delta estimates hest)

/-- **C128, elasticities.** With probability one, computed price elasticities converge to those of demand of the population. -/
theorem C128_elasticities (hq : q.Valid) (hs : Spec.StandardNormal μ stream) (ids : List ι) :
    ∀ᵐ ω ∂μ, ∀ (t : Fin ids.length) (delta : J → ℝ) (estimates : ℕ → J → ℝ),
      (∀ j, Tendsto (fun size => (q.at q.formulas.prices).simulated ids t size (fun n => stream n ω) (estimates size) j) atTop
        (𝓝 ((q.at q.formulas.prices).share delta j))) → ∀ j k,
          Tendsto (fun size => elasticities (q.jacobian ids t size (fun n => stream n ω) (estimates size)) q.formulas.prices
            ((q.at q.formulas.prices).share delta) j k) atTop
            (𝓝 (q.slope delta j k * q.formulas.prices k / q.demand delta q.formulas.prices j)) := by
  filter_upwards [C128_jacobian q hq hs ids] with ω hω
  intro t delta estimates hest j k
  unfold elasticities Spec.Priced.demand
  rw [meanUtility_self]
  exact ((hω t delta estimates hest j k).mul_const _).div_const _

/-- First-order conditions of firms that own products according to `O` and face demand of the population. -/
def Spec.Priced.FirstOrder (O : J → J → ℝ) (delta costs : J → ℝ) : Prop :=
  ∀ j, q.demand delta q.formulas.prices j + ∑ k, O j k * q.slope delta k j * (q.formulas.prices k - costs k) = 0

/-- **C128, marginal costs.** If first-order conditions of firms that face demand of the population can be solved for marginal costs, then there is one
solution, and with probability one, in every market, marginal costs that are computed from shares of the population converge to it as the number of
nodes grows. -/
theorem C128_costs (hq : q.Valid) (hs : Spec.StandardNormal μ stream) (ids : List ι) (O : J → J → ℝ) :
    ∀ᵐ ω ∂μ, ∀ (t : Fin ids.length) (delta : J → ℝ) (estimates : ℕ → J → ℝ),
      (Matrix.of fun j k => O j k * q.slope delta k j).det ≠ 0 →
      (∀ j, Tendsto (fun size => (q.at q.formulas.prices).simulated ids t size (fun n => stream n ω) (estimates size) j) atTop
        (𝓝 ((q.at q.formulas.prices).share delta j))) →
          ∃ costs, (∀ x, q.FirstOrder O delta x ↔ x = costs) ∧ ∀ j,
            Tendsto (fun size => q.costs ids t size (fun n => stream n ω) O ((q.at q.formulas.prices).share delta) (estimates size) j) atTop
              (𝓝 (costs j)) := by
  filter_upwards [C128_jacobian q hq hs ids] with ω hω
  intro t delta estimates hdet hest
  have hjac := hω t delta estimates hest
  set s := (q.at q.formulas.prices).share delta with hs'
  have hdemand : q.demand delta q.formulas.prices = s := by
    funext j
    unfold Spec.Priced.demand
    rw [meanUtility_self]
  -- the matrix that defines markups, as a function of the Jacobian
  set S : (J → J → ℝ) → Matrix J J ℝ := fun D => Matrix.of fun j k => -(O j k * D k j) with hS
  have hScont : ∀ j k, Continuous fun D => S D j k := fun j k => by
    simp only [hS, Matrix.of_apply]
    exact (continuous_const.mul (continuous_apply_apply k j)).neg
  have hSdet : (S (q.slope delta)).det ≠ 0 := by
    have : S (q.slope delta) = -(Matrix.of fun j k => O j k * q.slope delta k j) := by ext j k; simp [hS]
    rw [this, Matrix.det_neg]
    exact mul_ne_zero (pow_ne_zero _ (by norm_num)) hdet
  have hunit : IsUnit (S (q.slope delta)).det := isUnit_iff_ne_zero.mpr hSdet
  have hcosts : ∀ size, ∀ j, q.costs ids t size (fun n => stream n ω) O s (estimates size) j =
      q.formulas.prices j - ∑ k, (S (q.jacobian ids t size (fun n => stream n ω) (estimates size)))⁻¹ j k * s k := by
    intro size j
    unfold Spec.Priced.costs Spec.Priced.jacobian
    rw [monteCarloMany_get _ _ _ _ t.2]
    simp only [integratedCosts, integratedJacobian, computeCosts, computeEta]
    have hx0 : ∀ b : NodesWeights dimensions size, (q.formulas.characteristic q.rcType q.sigma b (estimates size)).x0 = q.formulas.prices := fun _ => rfl
    simp only [hx0]
    congr 1
    unfold Matrix.mulVec dotProduct
    refine Finset.sum_congr rfl fun k _ => ?_
    congr 1
    refine congrFun (congrFun (congrArg (fun M : Matrix J J ℝ => M⁻¹) ?_) j) k
    ext a b
    simp only [capitalDelta, hS, Matrix.of_apply, sharesJacobian, hx0]
    by_cases h : b = a
    · subst h
      simp only [if_true]
      ring
    · simp only [if_neg h]
      ring
  refine ⟨fun j => q.formulas.prices j - ∑ k, (S (q.slope delta))⁻¹ j k * s k, fun x => ?_, fun j => ?_⟩
  · have hiff : q.FirstOrder O delta x ↔ (S (q.slope delta)).mulVec (fun k => q.formulas.prices k - x k) = s := by
      unfold Spec.Priced.FirstOrder
      rw [funext_iff]
      refine forall_congr' fun j => ?_
      rw [hdemand]
      simp only [Matrix.mulVec, dotProduct, hS, Matrix.of_apply, neg_mul, Finset.sum_neg_distrib]
      constructor <;> intro h <;> linarith
    rw [hiff]
    constructor
    · intro h
      funext j
      have h1 := congrArg (fun v => (S (q.slope delta))⁻¹.mulVec v j) h
      simp only [Matrix.mulVec_mulVec, Matrix.nonsing_inv_mul _ hunit, Matrix.one_mulVec] at h1
      have h2 : (S (q.slope delta))⁻¹.mulVec s j = ∑ k, (S (q.slope delta))⁻¹ j k * s k := rfl
      linarith
    · rintro rfl
      have : (fun k => q.formulas.prices k - (q.formulas.prices k - ∑ l, (S (q.slope delta))⁻¹ k l * s l)) = (S (q.slope delta))⁻¹.mulVec s := by
        funext k
        simp [Matrix.mulVec, dotProduct]
      rw [this, Matrix.mulVec_mulVec, Matrix.mul_nonsing_inv _ hunit, Matrix.one_mulVec]
  · simp only [hcosts]
    refine tendsto_const_nhds.sub (tendsto_finsetSum _ fun k _ => Tendsto.mul_const _ ?_)
    have h1 := continuousAt_inv_apply S hScont (q.slope delta) hSdet j k
    exact h1.tendsto.comp (tendsto_pi_nhds.mpr fun a => tendsto_pi_nhds.mpr fun b => hjac a b)

/-! ## Hypotheses can be met -/

/-- Two products, utility that falls in prices, and normal tastes for a constant. -/
noncomputable def examplePriced : Spec.Priced (Fin 2) (Fin 1) (Fin 1) (Fin 1) 1 where
  nesting := none
  epsilonScale := 1
  rcType _ := .linear
  sigma _ _ := 1
  formulas :=
    { prices := fun j => j + 1
      beta := fun _ => -1
      has1 := fun _ => true
      x1 := fun _ _ t => t
      d1 := fun _ _ _ => 1
      dd1 := fun _ _ _ => 0
      has2 := fun _ => false
      x2 := fun _ _ _ => 1
      d2 := fun _ _ _ => 0
      dd2 := fun _ _ _ => 0 }

lemma examplePriced_valid : examplePriced.Valid where
  rho n h := by simp [examplePriced] at h
  eps := one_pos
  scale h := by simp [examplePriced] at h
  const1 k h := by simp [examplePriced] at h
  const2 k h j t u := rfl
  x1 k h j t := hasDerivAt_id t
  d1 k h j t := hasDerivAt_const t 1
  x2 k h := by simp [examplePriced] at h
  d2 k h := by simp [examplePriced] at h

/-- Own-price derivatives of demand are negative. -/
lemma examplePriced_slope (delta : Fin 2 → ℝ) (j : Fin 2) : examplePriced.slope delta j j < 0 := by
  have hc := choosers (examplePriced.at examplePriced.formulas.prices) (at_regular _ examplePriced_valid _)
  set P := fun nu => (examplePriced.at examplePriced.formulas.prices).chooses delta nu j with hP
  have hform : ∀ nu, P nu = Spec.logit (fun k => (examplePriced.at examplePriced.formulas.prices).utility delta nu k / 1) (fun _ => 1) 1 j :=
    fun nu => rfl
  have hin : ∀ nu, 0 < P nu ∧ P nu < 1 := fun nu => by
    rw [hform]
    unfold Spec.logit
    simp only [one_mul, div_one]
    have hp := Real.exp_pos ((examplePriced.at examplePriced.formulas.prices).utility delta nu j)
    have hle : Real.exp ((examplePriced.at examplePriced.formulas.prices).utility delta nu j) ≤
        ∑ k, Real.exp ((examplePriced.at examplePriced.formulas.prices).utility delta nu k) :=
      Finset.single_le_sum (f := fun k => Real.exp ((examplePriced.at examplePriced.formulas.prices).utility delta nu k))
        (fun k _ => (Real.exp_pos _).le) (Finset.mem_univ j)
    exact ⟨by positivity, by rw [div_lt_one (by linarith)]; linarith⟩
  have hmarg : ∀ nu, examplePriced.marginal examplePriced.formulas.prices j nu = -1 := fun nu => by
    simp [Spec.Priced.marginal, examplePriced]
  have hresp : ∀ nu, (examplePriced.at examplePriced.formulas.prices).response delta nu j j = P nu - P nu * P nu := fun nu => by
    change (if j = j then 1 else 0) * P nu - P nu * P nu = _
    rw [if_pos rfl, one_mul]
  rw [slope_eq _ examplePriced_valid]
  simp only [hmarg, hresp]
  have hm : Measurable P := hc.measurable delta j
  have hi : Integrable (fun nu => P nu - P nu * P nu) (Measure.pi fun _ : Fin 1 => gaussianReal 0 1) :=
    Integrable.of_bound (hm.sub (hm.mul hm)).aestronglyMeasurable 1 (Eventually.of_forall fun nu => by
      rw [Real.norm_eq_abs, abs_of_nonneg] <;> nlinarith [(hin nu).1, (hin nu).2])
  have hpos : 0 < ∫ nu, (P nu - P nu * P nu) ∂Measure.pi fun _ : Fin 1 => gaussianReal 0 1 := by
    rw [integral_pos_iff_support_of_nonneg (fun nu => by
      change 0 ≤ P nu - P nu * P nu
      nlinarith [(hin nu).1, (hin nu).2]) hi]
    have : Function.support (fun nu => P nu - P nu * P nu) = Set.univ := by
      ext nu
      simp only [Function.mem_support, Set.mem_univ, iff_true]
      nlinarith [(hin nu).1, (hin nu).2, mul_pos (hin nu).1 (sub_pos.mpr (hin nu).2)]
    rw [this]
    simp
  rw [integral_mul_const]
  linarith

/-- First-order conditions of firms with one product each can be solved for marginal costs. -/
example (delta : Fin 2 → ℝ) : (Matrix.of fun j k : Fin 2 => (if j = k then 1 else 0) * examplePriced.slope delta k j).det ≠ 0 := by
  rw [Matrix.det_fin_two]
  simp only [Matrix.of_apply]
  have h0 := examplePriced_slope delta 0
  have h1 := examplePriced_slope delta 1
  simp
  exact ⟨h0.ne, h1.ne⟩

end Pyblp
