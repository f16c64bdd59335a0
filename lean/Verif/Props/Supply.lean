import Verif.Model.Supply
import Verif.Props.Demand

/-!
# C30–C32, C70, C74: markups, costs, equilibrium prices
-/

set_option linter.unusedSectionVars false

namespace Pyblp

variable {J A G K1 K2 K3 : Type} [Fintype J] [DecidableEq J] [Nonempty J] [Fintype G] [DecidableEq G] [Fintype A]
  [Fintype K1] [Fintype K2] [Fintype K3]

/-- Specification: the profit that counts when setting the price of product `j`, with weights `w k` on the profits of each
product `k`, as a function of that price `t` (other prices fixed at `p`). -/
noncomputable def Spec.pricingProfit (shares : (J → ℝ) → J → ℝ) (w costs p : J → ℝ) (j : J) (t : ℝ) : ℝ :=
  ∑ k, w k * ((Function.update p j t k - costs k) * shares (Function.update p j t) k)

/-- Specification: `p` satisfies the first order condition for the price of `j`. -/
def Spec.FirstOrderCondition (shares : (J → ℝ) → J → ℝ) (w costs p : J → ℝ) (j : J) : Prop :=
  HasDerivAt (Spec.pricingProfit shares w costs p j) 0 (p j)

/-- Shorthand: the model's demand Jacobian at `x`. -/
noncomputable def jacobianAt (m : Market J A G) (c : Characteristic J A K1 K2) (x : J → ℝ) (j k : J) : ℝ :=
  sharesJacobian m (probabilitiesAt m c x) (conditionalsAt m c x) (utilityDerivatives m c x) j k

lemma hasDerivAt_pricingProfit (m : Market J A G) (hm : WellFormed m) (c : Characteristic J A K1 K2) (hc : c.Smooth)
    (w costs p : J → ℝ) (j : J) :
    HasDerivAt (Spec.pricingProfit (sharesAt m c) w costs p j)
      (w j * sharesAt m c p j + ∑ k, w k * ((p k - costs k) * jacobianAt m c p k j)) (p j) := by
  unfold Spec.pricingProfit
  refine (HasDerivAt.fun_sum (u := Finset.univ)
    (A := fun k t => w k * ((Function.update p j t k - costs k) * sharesAt m c (Function.update p j t) k))
    fun k _ => (C29_profit_jacobian m hm c hc costs p k j).const_mul (w k)).congr_deriv ?_
  unfold profitJacobian jacobianAt
  simp only [mul_add, Finset.sum_add_distrib, mul_ite, mul_zero, Finset.sum_ite_eq', Finset.mem_univ, if_true]

lemma firstOrderCondition_iff (m : Market J A G) (hm : WellFormed m) (c : Characteristic J A K1 K2) (hc : c.Smooth)
    (w costs p : J → ℝ) (j : J) :
    Spec.FirstOrderCondition (sharesAt m c) w costs p j ↔
      w j * sharesAt m c p j + ∑ k, w k * ((p k - costs k) * jacobianAt m c p k j) = 0 := by
  have h := hasDerivAt_pricingProfit m hm c hc w costs p j
  constructor
  · intro h0; exact h.unique h0
  · intro h0; rw [h0] at h; exact h

lemma capitalDelta_apply (m : Market J A G) (c : Characteristic J A K1 K2) (O : J → J → ℝ) (j k : J) :
    capitalDelta m c O j k = -(O j k * jacobianAt m c c.x0 k j) := by
  simp only [capitalDelta, Matrix.of_apply, jacobianAt, sharesJacobian]
  ring

/-- C30: the costs returned by `compute_costs` are exactly those with which the observed prices satisfy the first order
condition of every product `j` for the profits its owner cares about (row `j` of the ownership matrix): these costs do,
and any costs that do are these. Needs an invertible intra-firm matrix, unit own weights, and observed shares that are
those of the model. -/
theorem C30_costs (m : Market J A G) (hm : WellFormed m) (c : Characteristic J A K1 K2) (hc : c.Smooth)
    (O : J → J → ℝ) (hO : ∀ j, O j j = 1) (s : J → ℝ) (hs : ∀ j, s j = sharesAt m c c.x0 j)
    (hdet : IsUnit (capitalDelta m c O).det) (costs : J → ℝ) :
    (∀ j, Spec.FirstOrderCondition (sharesAt m c) (O j) costs c.x0 j) ↔ costs = computeCosts m c O s := by
  have key : (∀ j, Spec.FirstOrderCondition (sharesAt m c) (O j) costs c.x0 j) ↔
      (capitalDelta m c O).mulVec (fun k => c.x0 k - costs k) = s := by
    rw [funext_iff]
    refine forall_congr' fun j => ?_
    rw [firstOrderCondition_iff m hm c hc]
    have : (capitalDelta m c O).mulVec (fun k => c.x0 k - costs k) j =
        -∑ k, O j k * ((c.x0 k - costs k) * jacobianAt m c c.x0 k j) := by
      simp only [Matrix.mulVec, dotProduct, capitalDelta_apply]
      rw [← Finset.sum_neg_distrib]
      exact Finset.sum_congr rfl fun k _ => by ring
    rw [this, hs j, hO j]
    constructor <;> intro h <;> linarith
  rw [key]
  unfold computeCosts computeEta
  constructor
  · intro h
    rw [← h, Matrix.mulVec_mulVec, Matrix.nonsing_inv_mul _ hdet, Matrix.one_mulVec]
    funext j; ring
  · intro h
    have : (fun k => c.x0 k - costs k) = (capitalDelta m c O)⁻¹.mulVec s := by funext k; rw [h]; ring
    rw [this, Matrix.mulVec_mulVec, Matrix.mul_nonsing_inv _ hdet, Matrix.one_mulVec]

/-- With approximate prices evaluated at the costs implied by the same ownership, prices do not change. -/
theorem C30_approximate_prices (m : Market J A G) (c : Characteristic J A K1 K2) (O : J → J → ℝ) (s : J → ℝ) :
    approximatePrices m c O s (computeCosts m c O s) = c.x0 := by
  funext j; simp [approximatePrices, computeCosts]

/-- C31: prices are a fixed point of the zeta-markup contraction if and only if they satisfy the first order condition of
every product `j` with weights `O k j` (column `j` of the ownership matrix), at the marginal costs implied by their
shares. -/
theorem C31_fixed_point_iff_foc (m : Market J A G) (hm : WellFormed m) (c : Characteristic J A K1 K2) (hc : c.Smooth)
    (O : J → J → ℝ) (hO : ∀ j, O j j = 1) (costOf : J → ℝ → ℝ) (x : J → ℝ)
    (hl : ∀ j, capitalLamda m (probabilitiesAt m c x) (utilityDerivatives m c x) j ≠ 0) :
    priceContraction m c O costOf x = x ↔
      ∀ j, Spec.FirstOrderCondition (sharesAt m c) (fun k => O k j) (fun k => costOf k (sharesAt m c x k)) x j := by
  rw [funext_iff]
  refine forall_congr' fun j => ?_
  rw [firstOrderCondition_iff m hm c hc, hO j]
  set cost := fun k => costOf k (sharesAt m c x k) with hcost
  set L := capitalLamda m (probabilitiesAt m c x) (utilityDerivatives m c x) j with hL
  have hLne : L ≠ 0 := hl j
  have hinv : capitalLamdaInverse m c x j = 1 / L := by simp [capitalLamdaInverse, ← hL, hLne]
  set Gam := capitalGamma m (probabilitiesAt m c x) (conditionalsAt m c x) (utilityDerivatives m c x) with hG
  have hsum : ∑ k, O k j * ((x k - cost k) * jacobianAt m c x k j) =
      L * (x j - cost j) - ∑ k, O k j * Gam k j * (x k - cost k) := by
    have : ∀ k, O k j * ((x k - cost k) * jacobianAt m c x k j) =
        (if k = j then L * (x j - cost j) else 0) - O k j * Gam k j * (x k - cost k) := by
      intro k
      simp only [jacobianAt, sharesJacobian, ← hG]
      by_cases h : k = j
      · subst h; simp only [if_true, ← hL, hO k]; ring
      · simp only [h, if_false]; ring
    simp only [this, Finset.sum_sub_distrib, Finset.sum_ite_eq', Finset.mem_univ, if_true]
  rw [hsum]
  simp only [priceContraction, zeta, hinv, ← hG]
  have hcost' : ∀ k, costOf k (sharesAt m c x k) = cost k := fun _ => rfl
  simp only [hcost']
  set S := ∑ k, O k j * Gam k j * (x k - cost k)
  constructor
  · intro h
    have h' : L * (x j - cost j) = S - sharesAt m c x j := by
      have : x j - cost j = 1 / L * S - 1 / L * sharesAt m c x j := by linarith
      rw [this]; field_simp
    linarith
  · intro h
    have h' : x j - cost j = (S - sharesAt m c x j) / L := by
      field_simp; linarith
    have : 1 / L * S - 1 / L * sharesAt m c x j = (S - sharesAt m c x j) / L := by ring
    linarith

/-- The data after prices have been replaced by `x` and mean utilities by the implied ones (what one gets by storing
computed prices and shares and evaluating the same model there). -/
noncomputable def Characteristic.moveTo (c : Characteristic J A K1 K2) (x : J → ℝ) : Characteristic J A K1 K2 :=
  { c with delta := updateDelta c x, x0 := x }

lemma updateDelta_moveTo (c : Characteristic J A K1 K2) (x : J → ℝ) : updateDelta (c.moveTo x) x = updateDelta c x := by
  funext j; simp [updateDelta, Characteristic.moveTo]

lemma updateMu_moveTo (c : Characteristic J A K1 K2) (hconst : ∀ k, c.has2 k = false → ∀ j t t', c.x2 k j t = c.x2 k j t')
    (x : J → ℝ) : updateMu (c.moveTo x) x = updateMu c x := by
  funext j i
  simp only [updateMu, Characteristic.moveTo]
  refine Finset.sum_congr rfl fun k _ => ?_
  by_cases h : c.has2 k = true
  · simp [h]
  · simp only [h]; rw [hconst k (by simpa using h) j (x j) (c.x0 j)]

/-- C31, for symmetric ownership: prices are a fixed point of the contraction if and only if `compute_costs`, at these
prices and the implied shares, returns the costs that were used. Formulas that do not mention prices do not depend on
them (`hconst`). -/
theorem C31_fixed_point_iff_costs_partial (m : Market J A G) (hm : WellFormed m) (c : Characteristic J A K1 K2)
    (hc : c.Smooth) (hconst : ∀ k, c.has2 k = false → ∀ j t t', c.x2 k j t = c.x2 k j t')
    (O : J → J → ℝ) (hO : ∀ j, O j j = 1) (hsymm : ∀ j k, O j k = O k j) (costs x : J → ℝ)
    (hl : ∀ j, capitalLamda m (probabilitiesAt m c x) (utilityDerivatives m c x) j ≠ 0)
    (hdet : IsUnit (capitalDelta m (c.moveTo x) O).det) :
    priceContraction m c O (fun k _ => costs k) x = x ↔
      computeCosts m (c.moveTo x) O (sharesAt m c x) = costs := by
  rw [C31_fixed_point_iff_foc m hm c hc O hO _ x hl]
  have hP : probabilitiesAt m (c.moveTo x) x = probabilitiesAt m c x := by
    simp [probabilitiesAt, updateDelta_moveTo, updateMu_moveTo c hconst]
  have hC : conditionalsAt m (c.moveTo x) x = conditionalsAt m c x := by
    simp [conditionalsAt, updateDelta_moveTo, updateMu_moveTo c hconst]
  have hS : sharesAt m (c.moveTo x) x = sharesAt m c x := by funext j; simp [sharesAt, hP]
  have hJ : jacobianAt m (c.moveTo x) x = jacobianAt m c x := by
    funext j k; simp only [jacobianAt, hP, hC]; rfl
  have hc' : (c.moveTo x).Smooth := ⟨hc.x1, hc.d1, hc.x2, hc.d2⟩
  have h30 := C30_costs m hm (c.moveTo x) hc' O hO (sharesAt m c x) (fun j => by rw [← hS]; rfl) hdet costs
  rw [eq_comm, ← h30]
  refine forall_congr' fun j => ?_
  rw [firstOrderCondition_iff m hm c hc, firstOrderCondition_iff m hm _ hc',
    show (c.moveTo x).x0 = x from rfl, hS, hJ]
  simp only [hsymm _ j]

/-! ### A duopoly with plain logit demand -/

/-- Two products, one agent. -/
noncomputable def duopoly : Market (Fin 2) Unit Unit where
  nesting := none
  epsilonScale := 1
  weights := fun _ => 1
  availability := none

/-- Both prices are 3, utility is linear in prices with coefficient -1, and mean utilities are zero. -/
noncomputable def duopolyPrices : Characteristic (Fin 2) Unit Unit (Fin 0) where
  delta := fun _ => 0
  x0 := fun _ => 3
  beta := fun _ => -1
  has1 := fun _ => true
  x1 := fun _ _ t => t
  d1 := fun _ _ _ => 1
  dd1 := fun _ _ _ => 0
  coef := fun _ _ _ => 0
  has2 := fun _ => false
  x2 := fun _ _ _ => 0
  d2 := fun _ _ _ => 0
  dd2 := fun _ _ _ => 0

lemma duopoly_wellFormed : WellFormed duopoly where
  regular := ⟨by simp [duopoly], by simp [duopoly]⟩
  scale := by simp [duopoly]
  avail := by simp [duopoly]

lemma duopolyPrices_smooth : duopolyPrices.Smooth where
  x1 := fun _ _ _ t => hasDerivAt_id t
  d1 := fun _ _ _ t => hasDerivAt_const t 1
  x2 := fun k => k.elim0
  d2 := fun k => k.elim0

lemma duopoly_probabilities (j : Fin 2) (i : Unit) : probabilitiesAt duopoly duopolyPrices (fun _ => 3) j i = 1 / 3 := by
  unfold probabilitiesAt
  rw [computeProbabilities_plain _ _ _ _ rfl, multiplier_one _ _ rfl rfl rfl (fun _ => rfl)]
  simp [Spec.logit, duopoly, updateDelta, updateMu, duopolyPrices]
  norm_num

lemma duopoly_utilityDerivatives (x : Fin 2 → ℝ) (j : Fin 2) (i : Unit) :
    utilityDerivatives duopoly duopolyPrices x j i = -1 := by
  simp [utilityDerivatives, duopoly, duopolyPrices]

lemma duopoly_lamda (j : Fin 2) : capitalLamda duopoly (probabilitiesAt duopoly duopolyPrices (fun _ => 3))
    (utilityDerivatives duopoly duopolyPrices (fun _ => 3)) j = -(1 / 3) := by
  simp [capitalLamda, show duopoly.nesting = none from rfl, duopoly_probabilities, duopoly_utilityDerivatives,
    show duopoly.weights = fun _ => 1 from rfl]

lemma duopoly_gamma (j k : Fin 2) : capitalGamma duopoly (probabilitiesAt duopoly duopolyPrices (fun _ => 3))
    (conditionalsAt duopoly duopolyPrices (fun _ => 3))
    (utilityDerivatives duopoly duopolyPrices (fun _ => 3)) j k = -(1 / 9) := by
  simp [capitalGamma, show duopoly.nesting = none from rfl, duopoly_probabilities, duopoly_utilityDerivatives,
    show duopoly.weights = fun _ => 1 from rfl]
  norm_num

lemma duopoly_shares (j : Fin 2) : sharesAt duopoly duopolyPrices (fun _ => 3) j = 1 / 3 := by
  simp [sharesAt, duopoly_probabilities, show duopoly.weights = fun _ => 1 from rfl]

lemma duopoly_capitalDelta (O : Fin 2 → Fin 2 → ℝ) (j k : Fin 2) :
    capitalDelta duopoly duopolyPrices O j k = (-(1 / 9) + (if k = j then 1 / 3 else 0)) * O j k := by
  have : duopolyPrices.x0 = fun _ => 3 := rfl
  simp only [capitalDelta, Matrix.of_apply, this, duopoly_lamda, duopoly_gamma]
  split_ifs <;> ring

/-- C31 fails for asymmetric ownership: when the owner of product 0 also cares about product 1 but not the other way
around, prices that are a fixed point of the price contraction do not satisfy the documented first order conditions, and
`compute_costs` at these very prices does not return the costs that were used. -/
theorem C31_asymmetric_refuted : ∃ (O : Fin 2 → Fin 2 → ℝ) (costs : Fin 2 → ℝ), (∀ j, O j j = 1) ∧
    IsUnit (capitalDelta duopoly duopolyPrices O).det ∧
    priceContraction duopoly duopolyPrices O (fun k _ => costs k) duopolyPrices.x0 = duopolyPrices.x0 ∧
    ¬ (∀ j, Spec.FirstOrderCondition (sharesAt duopoly duopolyPrices) (O j) costs duopolyPrices.x0 j) ∧
    computeCosts duopoly duopolyPrices O (sharesAt duopoly duopolyPrices duopolyPrices.x0) ≠ costs := by
  refine ⟨![![1, 1], ![0, 1]], ![3/2, 3/4], by intro j; fin_cases j <;> rfl, ?_, ?_, ?_⟩
  · rw [Matrix.det_fin_two]
    simp only [duopoly_capitalDelta]
    norm_num
  · funext j
    have : duopolyPrices.x0 = fun _ => 3 := rfl
    simp only [priceContraction, zeta, this, capitalLamdaInverse, duopoly_lamda, duopoly_gamma, duopoly_shares,
      Fin.sum_univ_two]
    fin_cases j <;> norm_num
  · have hO : ∀ j : Fin 2, (![![1, 1], ![0, 1]] : Fin 2 → Fin 2 → ℝ) j j = 1 := by intro j; fin_cases j <;> rfl
    have hdet : IsUnit (capitalDelta duopoly duopolyPrices ![![1, 1], ![0, 1]]).det := by
      rw [Matrix.det_fin_two]
      simp only [duopoly_capitalDelta]
      norm_num
    have h30 := C30_costs duopoly duopoly_wellFormed duopolyPrices duopolyPrices_smooth ![![1, 1], ![0, 1]] hO
      (sharesAt duopoly duopolyPrices duopolyPrices.x0) (fun _ => rfl) hdet ![3/2, 3/4]
    have hnot : ¬ (∀ j, Spec.FirstOrderCondition (sharesAt duopoly duopolyPrices)
        ((![![1, 1], ![0, 1]] : Fin 2 → Fin 2 → ℝ) j) ![3/2, 3/4] duopolyPrices.x0 j) := by
      intro h
      have h1 := (firstOrderCondition_iff duopoly duopoly_wellFormed duopolyPrices duopolyPrices_smooth _ _ _ 1).mp (h 1)
      have : duopolyPrices.x0 = fun _ => 3 := rfl
      simp only [this, jacobianAt, sharesJacobian, duopoly_lamda, duopoly_gamma, duopoly_shares, Fin.sum_univ_two] at h1
      norm_num at h1
    exact ⟨hnot, fun h => hnot (h30.mpr h.symm)⟩

/-- Non-vacuity of C30 and C31: with two single-product firms, the duopoly meets the hypotheses and its prices are a fixed
point for marginal costs of 3/2. -/
example : priceContraction duopoly duopolyPrices (ownershipFromIds (id : Fin 2 → Fin 2)) (fun _ _ => 3/2) duopolyPrices.x0 =
    duopolyPrices.x0 ∧
    (∀ j, Spec.FirstOrderCondition (sharesAt duopoly duopolyPrices) (ownershipFromIds (id : Fin 2 → Fin 2) j)
      (fun _ => 3/2) duopolyPrices.x0 j) ∧
    computeCosts duopoly duopolyPrices (ownershipFromIds (id : Fin 2 → Fin 2))
      (sharesAt duopoly duopolyPrices duopolyPrices.x0) = fun _ => 3/2 := by
  have hO : ∀ j : Fin 2, ownershipFromIds (id : Fin 2 → Fin 2) j j = 1 := fun j => by simp [ownershipFromIds]
  have hdet : IsUnit (capitalDelta duopoly duopolyPrices (ownershipFromIds (id : Fin 2 → Fin 2))).det := by
    rw [Matrix.det_fin_two]
    simp only [duopoly_capitalDelta, ownershipFromIds]
    norm_num
  have hfp : priceContraction duopoly duopolyPrices (ownershipFromIds (id : Fin 2 → Fin 2)) (fun _ _ => 3/2)
      duopolyPrices.x0 = duopolyPrices.x0 := by
    funext j
    have : duopolyPrices.x0 = fun _ => 3 := rfl
    simp only [priceContraction, zeta, this, capitalLamdaInverse, duopoly_lamda, duopoly_gamma, duopoly_shares,
      Fin.sum_univ_two, ownershipFromIds]
    fin_cases j <;> norm_num
  have hl : ∀ j, capitalLamda duopoly (probabilitiesAt duopoly duopolyPrices duopolyPrices.x0)
      (utilityDerivatives duopoly duopolyPrices duopolyPrices.x0) j ≠ 0 := by
    intro j
    rw [show duopolyPrices.x0 = fun _ => 3 from rfl, duopoly_lamda]; norm_num
  have hfoc := (C31_fixed_point_iff_foc duopoly duopoly_wellFormed duopolyPrices duopolyPrices_smooth _ hO
    (fun _ _ => 3/2) duopolyPrices.x0 hl).mp hfp
  have hfoc' : ∀ j, Spec.FirstOrderCondition (sharesAt duopoly duopolyPrices) (ownershipFromIds (id : Fin 2 → Fin 2) j)
      (fun _ => 3/2) duopolyPrices.x0 j := by
    intro j
    have hsymm : (fun k => ownershipFromIds (id : Fin 2 → Fin 2) k j) = ownershipFromIds (id : Fin 2 → Fin 2) j := by
      funext k; simp [ownershipFromIds, eq_comm]
    rw [← hsymm]
    exact hfoc j
  exact ⟨hfp, hfoc', ((C30_costs duopoly duopoly_wellFormed duopolyPrices duopolyPrices_smooth _ hO
    (sharesAt duopoly duopolyPrices duopolyPrices.x0) (fun _ => rfl) hdet _).mp hfoc').symm⟩

/-! ## C32 -/

/-- C32 does not hold for `compute_prices`: whatever the iteration returns (converged or not), no convergence error is
added to those of `compute_costs`. -/
theorem C32_compute_prices_refuted {P : Type} (costsErrors : List MarketError) (result : P × SolverStats) :
    (safelyComputePrices costsErrors result).2 = costsErrors := by
  simp [safelyComputePrices, SolverStats.truth]

/-- C32 for bootstrapping and optimal instruments: an error is reported if and only if the iteration did not converge. -/
theorem C32_realization_partial {P : Type} (result : P × SolverStats) :
    MarketError.equilibriumPricesConvergence ∈ (safelySolveRealization result).2 ↔ result.2.converged = false := by
  unfold safelySolveRealization
  cases result.2.converged <;> simp

/-- The two functions disagree on an iteration that did not converge. -/
example : (safelyComputePrices [] ((), ⟨false, 5000, 5000⟩)).2 = [] ∧
    (safelySolveRealization ((), ⟨false, 5000, 5000⟩)).2 = [.equilibriumPricesConvergence] := by
  constructor <;> rfl

/-! ## C70 -/

/-- C70: with linear costs, updated costs differ from the old ones by the change in the index; with log-linear costs this is
so for logarithms; costs at unchanged shares are unchanged. -/
theorem C70_update (q : CostSide J K3) (costs shares : J → ℝ) (j : J) :
    (q.log = false → updateCosts q costs shares j - costs j =
      ∑ k, if q.has3 k then q.gamma k * q.x3 k j (shares j) - q.gamma k * q.x3 k j (q.s0 j) else 0) ∧
    (q.log = true → 0 < costs j → 0 < updateCosts q costs shares j ∧
      Real.log (updateCosts q costs shares j) - Real.log (costs j) =
      ∑ k, if q.has3 k then q.gamma k * q.x3 k j (shares j) - q.gamma k * q.x3 k j (q.s0 j) else 0) ∧
    updateCosts q costs q.s0 j = costs j := by
  have hsum : (∑ k with q.has3 k = true, q.gamma k * (q.x3 k j (shares j) - q.x3 k j (q.s0 j))) =
      ∑ k, if q.has3 k then q.gamma k * q.x3 k j (shares j) - q.gamma k * q.x3 k j (q.s0 j) else 0 := by
    rw [Finset.sum_filter]
    exact Finset.sum_congr rfl fun k _ => by rw [mul_sub]
  refine ⟨fun h => ?_, fun h hpos => ?_, ?_⟩
  · simp only [updateCosts, h, Bool.false_eq_true, if_false]
    rw [hsum]; ring
  · simp only [updateCosts, h, if_true]
    rw [← Real.exp_sum]
    refine ⟨mul_pos hpos (Real.exp_pos _), ?_⟩
    rw [Real.log_mul hpos.ne' (Real.exp_pos _).ne', Real.log_exp, ← hsum]; ring
  · simp [updateCosts]

/-- C70: updating costs to new shares and, from there, back to the original ones restores them. -/
theorem C70_round_trip (q : CostSide J K3) (costs shares : J → ℝ) :
    updateCosts { q with s0 := shares } (updateCosts q costs shares) q.s0 = costs := by
  funext j
  unfold updateCosts
  by_cases h : q.log = true
  · simp only [h, if_true]
    rw [← Real.exp_sum, ← Real.exp_sum, mul_assoc, ← Real.exp_add, ← Finset.sum_add_distrib]
    rw [Finset.sum_eq_zero (fun k _ => by ring), Real.exp_zero, mul_one]
  · simp only [if_neg h]
    rw [add_assoc, ← Finset.sum_add_distrib, Finset.sum_eq_zero (fun k _ => by ring), add_zero]

/-- C70: `compute_costs_derivatives` is the derivative of updated costs with respect to the product's own share. -/
theorem C70_derivative (q : CostSide J K3) (hq : ∀ k, q.has3 k = true → ∀ j t, HasDerivAt (q.x3 k j) (q.d3 k j t) t)
    (costs shares : J → ℝ) (j : J) :
    HasDerivAt (fun t => updateCosts q costs (Function.update shares j t) j)
      (costsDerivatives q (updateCosts q costs shares) shares j) (shares j) := by
  have hidx : HasDerivAt (fun t => ∑ k with q.has3 k = true, q.gamma k * (q.x3 k j t - q.x3 k j (q.s0 j)))
      (∑ k, (if q.has3 k then q.d3 k j (shares j) else 0) * q.gamma k) (shares j) := by
    refine (HasDerivAt.fun_sum (u := Finset.univ.filter fun k => q.has3 k = true)
      (A := fun k t => q.gamma k * (q.x3 k j t - q.x3 k j (q.s0 j))) (A' := fun k => q.gamma k * q.d3 k j (shares j))
      fun k hk => ((hq k (Finset.mem_filter.mp hk).2 j _).sub_const _).const_mul _).congr_deriv ?_
    rw [Finset.sum_filter]
    refine Finset.sum_congr rfl fun k _ => ?_
    by_cases h : q.has3 k = true
    · simp only [if_pos h]; ring
    · simp only [if_neg h]; ring
  unfold updateCosts costsDerivatives
  simp only [Function.update_self]
  by_cases h : q.log = true
  · simp only [h, if_true, ← Real.exp_sum]
    refine (hidx.exp.const_mul (costs j)).congr_deriv ?_
    ring
  · simp only [if_neg h]
    exact hidx.const_add _

/-- A log-linear cost side in which the second of two characteristics is the share. -/
noncomputable def exampleCostSide : CostSide (Fin 3) (Fin 2) where
  log := true
  gamma := ![1, -1/2]
  has3 := ![false, true]
  x3 := fun _ _ t => t
  d3 := fun _ _ _ => 1
  s0 := ![1/5, 1/5, 1/4]

/-- Non-vacuity of C70: the hypothesis of `C70_derivative` holds, and costs do change. -/
example : (∀ k, exampleCostSide.has3 k = true → ∀ j t, HasDerivAt (exampleCostSide.x3 k j) (exampleCostSide.d3 k j t) t) ∧
    updateCosts exampleCostSide (fun _ => 1) ![1/5, 2/5, 1/4] 1 = Real.exp (-1/10) := by
  refine ⟨fun k _ j t => hasDerivAt_id t, ?_⟩
  simp [updateCosts, exampleCostSide, Finset.prod_filter]
  norm_num

/-! ## C74 -/

/-- C74: the Jacobian handed to Newton-type routines for the price contraction is the derivative of the contraction, also
when costs depend on shares, where capital lambda has no zero. -/
theorem C74_price_contraction_jacobian (m : Market J A G) (hm : WellFormed m) (c : Characteristic J A K1 K2) (hc : c.Smooth)
    (O : J → J → ℝ) (costOf dcostOf : J → ℝ → ℝ) (hcost : ∀ k t, HasDerivAt (costOf k) (dcostOf k t) t) (x : J → ℝ)
    (j l : J) (hl : capitalLamda m (probabilitiesAt m c x) (utilityDerivatives m c x) j ≠ 0) :
    HasDerivAt (fun t => priceContraction m c O costOf (Function.update x l t) j)
      (priceContractionJacobian m c O costOf dcostOf x j l) (x l) := by
  have hL := hasDerivAt_capitalLamda m hm c hc x j l
  have hG := fun k => hasDerivAt_capitalGamma m hm c hc x k j l
  have hS := fun k => C26_demand_jacobian m hm c hc x k l
  have hcostAt : ∀ k, HasDerivAt (fun t => costOf k (sharesAt m c (Function.update x l t) k))
      (dcostOf k (sharesAt m c x k) * sharesJacobian m (probabilitiesAt m c x) (conditionalsAt m c x)
        (utilityDerivatives m c x) k l) (x l) := by
    intro k
    have h1 : HasDerivAt (costOf k) (dcostOf k (sharesAt m c x k)) (sharesAt m c (Function.update x l (x l)) k) := by
      rw [Function.update_eq_self]; exact hcost k _
    exact h1.comp (x l) (hS k)
  have hx : ∀ k, HasDerivAt (fun t => Function.update x l t k) (if k = l then 1 else 0) (x l) := by
    intro k
    by_cases h : k = l
    · subst h; simp only [Function.update_self, if_true]; exact hasDerivAt_id _
    · simp only [Function.update_of_ne h, if_neg h]; exact hasDerivAt_const _ _
  have hmargin := fun k => (hx k).fun_sub (hcostAt k)
  have hsum := HasDerivAt.fun_sum (u := Finset.univ) fun k (_ : k ∈ Finset.univ) =>
    (((hG k).const_mul (O k j)).fun_mul (hmargin k))
  simp only [Function.update_eq_self] at hsum
  -- close to `x`, capital lambda is nonzero
  have hne : ∀ᶠ t in nhds (x l), capitalLamda m (probabilitiesAt m c (Function.update x l t))
      (utilityDerivatives m c (Function.update x l t)) j ≠ 0 :=
    hL.continuousAt.eventually_ne (by simpa using hl)
  have hev : (fun t => priceContraction m c O costOf (Function.update x l t) j) =ᶠ[nhds (x l)] fun t =>
      costOf j (sharesAt m c (Function.update x l t) j) +
      ((capitalLamda m (probabilitiesAt m c (Function.update x l t)) (utilityDerivatives m c (Function.update x l t)) j)⁻¹ *
        ((∑ k, O k j * capitalGamma m (probabilitiesAt m c (Function.update x l t))
          (conditionalsAt m c (Function.update x l t)) (utilityDerivatives m c (Function.update x l t)) k j *
          (Function.update x l t k - costOf k (sharesAt m c (Function.update x l t) k))) -
        sharesAt m c (Function.update x l t) j)) := by
    filter_upwards [hne] with t ht
    simp only [priceContraction, zeta, capitalLamdaInverse, if_neg ht, one_div]
    ring
  refine HasDerivAt.congr_of_eventuallyEq ?_ hev
  have hinv := hL.fun_inv (by simpa using hl)
  refine ((hcostAt j).fun_add (hinv.fun_mul (hsum.fun_sub (hS j)))).congr_deriv ?_
  simp only [Function.update_eq_self, priceContractionJacobian, capitalLamdaInverse, if_neg hl, one_div]
  rw [Finset.sum_add_distrib]
  set L := capitalLamda m (probabilitiesAt m c x) (utilityDerivatives m c x) j
  field_simp
  ring

/-- Non-vacuity of C74: the duopoly with log-linear costs in shares. -/
example (j l : Fin 2) : HasDerivAt (fun t => priceContraction duopoly duopolyPrices (ownershipFromIds (id : Fin 2 → Fin 2))
      (fun _ s => 2 * Real.exp s) (Function.update duopolyPrices.x0 l t) j)
    (priceContractionJacobian duopoly duopolyPrices (ownershipFromIds (id : Fin 2 → Fin 2)) (fun _ s => 2 * Real.exp s)
      (fun _ s => 2 * Real.exp s) duopolyPrices.x0 j l) (duopolyPrices.x0 l) := by
  refine C74_price_contraction_jacobian _ duopoly_wellFormed _ duopolyPrices_smooth _ _ _
    (fun _ t => (Real.hasDerivAt_exp t).const_mul 2) _ _ _ ?_
  rw [show duopolyPrices.x0 = fun _ => 3 from rfl, duopoly_lamda]; norm_num

/-! ## C29: profit gradients and Hessians of firms in a simulation -/

/-- C29: with ownership from firm IDs, the reported profit gradient of product `k` is the derivative of the total profit of
the firm that owns `k` with respect to its price. -/
theorem C29_firm_gradient {F : Type} [DecidableEq F] (m : Market J A G) (hm : WellFormed m) (c : Characteristic J A K1 K2)
    (hc : c.Smooth) (firm : J → F) (costs p : J → ℝ) (k : J) :
    HasDerivAt (fun t => ∑ j with firm j = firm k,
        (Function.update p k t j - costs j) * sharesAt m c (Function.update p k t) j)
      (firmProfitGradient m c (ownershipFromIds firm) costs p k) (p k) := by
  refine (HasDerivAt.fun_sum (u := Finset.univ.filter fun j => firm j = firm k)
    (A := fun j t => (Function.update p k t j - costs j) * sharesAt m c (Function.update p k t) j)
    fun j _ => C29_profit_jacobian m hm c hc costs p j k).congr_deriv ?_
  unfold firmProfitGradient ownershipFromIds
  rw [Finset.sum_filter]
  exact Finset.sum_congr rfl fun j _ => by split_ifs <;> ring

/-- C29: the reported profit Hessian entry of products `k` and `l` is the derivative of the gradient for `k` with respect to
the price of `l`. -/
theorem C29_firm_hessian {F : Type} [DecidableEq F] (m : Market J A G) (hm : WellFormed m) (c : Characteristic J A K1 K2)
    (hc : c.Smooth) (firm : J → F) (costs p : J → ℝ) (k l : J) :
    HasDerivAt (fun t => firmProfitGradient m c (ownershipFromIds firm) costs (Function.update p l t) k)
      (firmProfitHessian m c (ownershipFromIds firm) costs p k l) (p l) :=
  HasDerivAt.fun_sum (u := Finset.univ)
    (A := fun j t => ownershipFromIds firm j k * profitJacobian m c costs (Function.update p l t) j k)
    fun j _ => (C29_profit_hessian m hm c hc costs p j k l).const_mul _

end Pyblp
