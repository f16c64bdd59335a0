import Verif.Props.Welfare
import Verif.Props.LogitPricing

/-!
# C146: demand slopes down, products are substitutes, and markups are positive

Signs of what `compute_demand_jacobians`, `compute_elasticities`, `compute_diversion_ratios`, `compute_costs`, `compute_markups`,
`compute_prices` and `compute_approximate_prices` return.
-/

set_option linter.unusedSectionVars false

namespace Pyblp

variable {J A G K1 K2 : Type} [Fintype J] [DecidableEq J] [Nonempty J] [Fintype G] [DecidableEq G] [Fintype A]
  [Fintype K1] [Fintype K2]

/-! ## Matrices with a dominant diagonal -/

/-- Positive row sums and no positive entries off the diagonal. -/
def Dominant (M : Matrix J J ℝ) : Prop := (∀ j k, k ≠ j → M j k ≤ 0) ∧ ∀ j, 0 < ∑ k, M j k

lemma Dominant.nonneg {M : Matrix J J ℝ} (h : Dominant M) (v : J → ℝ) (hv : ∀ j, 0 ≤ M.mulVec v j) (j : J) : 0 ≤ v j := by
  obtain ⟨l, hl⟩ := Finite.exists_min v
  refine le_trans ?_ (hl j)
  by_contra hneg
  push Not at hneg
  have h1 : M.mulVec v l ≤ ∑ k, M l k * v l := by
    refine Finset.sum_le_sum fun k _ => ?_
    by_cases hk : k = l
    · rw [hk]
    · exact mul_le_mul_of_nonpos_left (hl k) (h.1 l k hk)
  rw [← Finset.sum_mul] at h1
  have := mul_neg_of_pos_of_neg (h.2 l) hneg
  linarith [hv l]

lemma Dominant.pos {M : Matrix J J ℝ} (h : Dominant M) (v : J → ℝ) (hv : ∀ j, 0 < M.mulVec v j) (j : J) : 0 < v j := by
  have h0 := h.nonneg v fun j => (hv j).le
  refine lt_of_le_of_ne (h0 j) fun hj => ?_
  have h1 : M.mulVec v j ≤ 0 := by
    refine Finset.sum_nonpos fun k _ => ?_
    by_cases hk : k = j
    · rw [hk, ← hj, mul_zero]
    · exact mul_nonpos_of_nonpos_of_nonneg (h.1 j k hk) (h0 k)
  linarith [hv j]

lemma Dominant.det {M : Matrix J J ℝ} (h : Dominant M) : IsUnit M.det := by
  rw [← Matrix.isUnit_iff_isUnit_det, ← Matrix.mulVec_injective_iff_isUnit]
  intro v w hvw
  have hz : ∀ a b : J → ℝ, M.mulVec a = M.mulVec b → ∀ j, b j ≤ a j := fun a b hab j => by
    have := h.nonneg (a - b) (fun j => by rw [Matrix.mulVec_sub, hab, sub_self]; exact le_rfl) j
    simpa using this
  funext j
  exact le_antisymm (hz w v hvw.symm j) (hz v w hvw j)

/-! ## Signs -/

lemma sharesJacobian_eq_sum (m : Market J A G) (P C U : J → A → ℝ) (j k : J) :
    sharesJacobian m P C U j k = ∑ i, probabilityDerivatives m P C U k j i * m.weights i := by
  unfold sharesJacobian capitalLamda capitalGamma probabilityDerivatives
  cases hn : m.nesting with
  | none =>
    simp only []
    by_cases h : j = k
    · subst h
      simp only [if_true]
      rw [← Finset.sum_sub_distrib]
      exact Finset.sum_congr rfl fun i _ => by ring
    · simp only [h, if_false, zero_sub]
      rw [← Finset.sum_neg_distrib]
      exact Finset.sum_congr rfl fun i _ => by ring
  | some n =>
    simp only []
    by_cases h : j = k
    · subst h
      simp only [if_true]
      rw [Finset.sum_div, Finset.mul_sum, ← Finset.sum_add_distrib, ← Finset.sum_sub_distrib]
      exact Finset.sum_congr rfl fun i _ => by ring
    · simp only [h, if_false, zero_sub]
      rw [Finset.mul_sum, ← Finset.sum_add_distrib, ← Finset.sum_neg_distrib]
      exact Finset.sum_congr rfl fun i _ => by ring

lemma outside_pos (m : Market J A G) (hm : WellFormed m) (delta : J → ℝ) (mu : J → A → ℝ) (i : A) : 0 < Spec.outside m {} delta mu i := by
  have ha := hm.availNonneg {} rfl i
  unfold Spec.outside Spec.logitOutside Spec.nestedOutside
  cases hn : m.nesting with
  | none => exact div_pos (by simp) (plain_denominator_pos false (multiplier_nonneg ha) (Or.inl rfl))
  | some n => exact div_pos (by simp) (nested_denominator_pos false (multiplier_nonneg ha) (Or.inl rfl))

/-- What other products and the outside option gain when a characteristic changes utility of one product. -/
lemma probabilityDerivatives_signs (m : Market J A G) (hm : WellFormed m) (delta : J → ℝ) (mu : J → A → ℝ) (U : J → A → ℝ) (l : J) (i : A) :
    (∀ j, j ≠ l → computeProbabilities m {} delta mu j i * computeProbabilities m {} delta mu l i * -(U l i) ≤
      probabilityDerivatives m (computeProbabilities m {} delta mu) (computeConditionals m {} delta mu) U l j i ∨ 0 < U l i) ∧
    ∑ j, probabilityDerivatives m (computeProbabilities m {} delta mu) (computeConditionals m {} delta mu) U l j i =
      computeProbabilities m {} delta mu l i * U l i * Spec.outside m {} delta mu i := by
  have ha := hm.availNonneg {} rfl i
  obtain ⟨hP0, -, hsum⟩ := C17_probabilities m {} delta mu i ha hm.regular.rhoBelowOne (Or.inl rfl)
  have hout : Spec.outside m {} delta mu i = 1 - ∑ k, computeProbabilities m {} delta mu k i := by linarith
  unfold probabilityDerivatives
  cases hn : m.nesting with
  | none =>
    simp only []
    constructor
    · intro j hj
      left
      rw [if_neg hj]
      linarith
    · rw [Finset.sum_add_distrib, Finset.sum_ite_eq', if_pos (Finset.mem_univ _), ← Finset.sum_mul, Finset.sum_neg_distrib, hout]
      ring
  | some n =>
    have hr := hm.regular.rho n hn
    have hrne : ∀ g, n.rho.groupRho g ≠ 1 := fun g => (hr g).2.ne
    have hmul := multiplier_nonneg ha
    have hC0 : ∀ j, 0 ≤ computeConditionals m {} delta mu j i := fun j => by
      rw [computeConditionals_nested m _ _ _ n hn i ha hrne]
      exact within_nonneg _ _ _ _ hmul j
    have hq : ∀ k, 0 ≤ n.productRho k / (1 - n.productRho k) := fun k =>
      div_nonneg (hr (n.group k)).1 (by have := (hr (n.group k)).2; unfold Nesting.productRho; linarith)
    simp only []
    constructor
    · intro j hj
      rcases lt_or_ge 0 (U l i) with hU | hU
      · exact Or.inr hU
      left
      rw [if_neg hj]
      have h2 : 0 ≤ n.productRho j / (1 - n.productRho j) * membership n j l * computeConditionals m {} delta mu j i *
          (computeProbabilities m {} delta mu l i * -(U l i)) := by
        refine mul_nonneg (mul_nonneg (mul_nonneg (hq j) ?_) (hC0 j)) (mul_nonneg (hP0 l) (by linarith))
        unfold membership
        split_ifs <;> norm_num
      linarith
    · -- conditional probabilities in the group of a product that is chosen sum to one
      have hcond : (∑ j, n.productRho j / (1 - n.productRho j) * membership n j l * computeConditionals m {} delta mu j i) *
          computeProbabilities m {} delta mu l i = n.productRho l / (1 - n.productRho l) * computeProbabilities m {} delta mu l i := by
        have h1 : ∑ j, n.productRho j / (1 - n.productRho j) * membership n j l * computeConditionals m {} delta mu j i =
            n.productRho l / (1 - n.productRho l) * ∑ j with n.group j = n.group l, computeConditionals m {} delta mu j i := by
          rw [Finset.mul_sum, Finset.sum_filter]
          refine Finset.sum_congr rfl fun j _ => ?_
          unfold membership
          by_cases h : n.group j = n.group l
          · rw [if_pos h, if_pos h, mul_one]; unfold Nesting.productRho; rw [h]
          · rw [if_neg h, if_neg h]; ring
        rw [h1, mul_assoc]
        congr 1
        simp only [computeConditionals_nested m _ _ _ n hn i ha hrne, computeProbabilities_nested m _ _ _ n hn i ha hrne]
        by_cases hz : Spec.groupSum n.group n.rho.groupRho (fun k => delta k + mu k i) (multiplier m {} i) (n.group l) = 0
        · simp only [Spec.nested, Spec.within, hz, div_zero, zero_mul, mul_zero]
        · rw [within_group_sum _ _ _ _ _ hz, one_mul]
      have hρ : 1 - n.productRho l ≠ 0 := by have := (hr (n.group l)).2; unfold Nesting.productRho; linarith
      have hexp : ∑ j, (-(computeProbabilities m {} delta mu j i * (computeProbabilities m {} delta mu l i * U l i) +
          n.productRho j / (1 - n.productRho j) * membership n j l * computeConditionals m {} delta mu j i *
            (computeProbabilities m {} delta mu l i * U l i)) +
          if j = l then computeProbabilities m {} delta mu l i * U l i / (1 - n.productRho l) else 0) =
          -((∑ j, computeProbabilities m {} delta mu j i) * (computeProbabilities m {} delta mu l i * U l i)) -
          (∑ j, n.productRho j / (1 - n.productRho j) * membership n j l * computeConditionals m {} delta mu j i) *
            computeProbabilities m {} delta mu l i * U l i +
          computeProbabilities m {} delta mu l i * U l i / (1 - n.productRho l) := by
        rw [Finset.sum_add_distrib, Finset.sum_ite_eq', if_pos (Finset.mem_univ _), Finset.sum_neg_distrib, Finset.sum_add_distrib,
          ← Finset.sum_mul, ← Finset.sum_mul]
        ring
      rw [hexp, hcond, hout]
      field_simp
      ring

/-- Every agent's utility falls in the price of every product at prices `x`, agents' weights are not negative, and every product is
bought. -/
structure Spec.Falling (m : Market J A G) (c : Characteristic J A K1 K2) (x : J → ℝ) : Prop where
  wellFormed : WellFormed m
  weights : ∀ i, 0 ≤ m.weights i
  falls : ∀ j i, utilityDerivatives m c x j i < 0
  bought : ∀ j, 0 < sharesAt m c x j

variable {m : Market J A G} {c : Characteristic J A K1 K2} {x : J → ℝ}

lemma Spec.Falling.nonneg (h : Spec.Falling m c x) (j : J) (i : A) : 0 ≤ probabilitiesAt m c x j i :=
  (C17_probabilities m {} _ _ i (h.wellFormed.availNonneg {} rfl i) h.wellFormed.regular.rhoBelowOne (Or.inl rfl)).1 j

lemma Spec.Falling.buyer (h : Spec.Falling m c x) (j : J) : ∃ i, 0 < m.weights i ∧ 0 < probabilitiesAt m c x j i := by
  by_contra hno
  push Not at hno
  have : sharesAt m c x j ≤ 0 := Finset.sum_nonpos fun i _ => by
    rcases (h.weights i).lt_or_eq with hw | hw
    · exact mul_nonpos_of_nonpos_of_nonneg (hno i hw) hw.le
    · rw [← hw, mul_zero]
  linarith [h.bought j]

/-- **C146.** Products are substitutes: demand for a product never falls when the price of another one rises. -/
theorem C146_substitutes (h : Spec.Falling m c x) (j k : J) (hjk : k ≠ j) : 0 ≤ jacobianAt m c x k j := by
  rw [jacobianAt, sharesJacobian_eq_sum]
  refine Finset.sum_nonneg fun i _ => mul_nonneg ?_ (h.weights i)
  rcases (probabilityDerivatives_signs m h.wellFormed (updateDelta c x) (updateMu c x) (utilityDerivatives m c x) j i).1 k hjk with h1 | h1
  · refine le_trans ?_ h1
    exact mul_nonneg (mul_nonneg (h.nonneg k i) (h.nonneg j i)) (by linarith [h.falls j i])
  · linarith [h.falls j i]

/-- **C146.** Demand rises if some agent buys both products. -/
theorem C146_strict (h : Spec.Falling m c x) (j k : J) (hjk : k ≠ j) (i : A) (hi : 0 < m.weights i) (hk : 0 < probabilitiesAt m c x k i)
    (hj : 0 < probabilitiesAt m c x j i) : 0 < jacobianAt m c x k j := by
  rw [jacobianAt, sharesJacobian_eq_sum]
  have hterm : ∀ i, probabilitiesAt m c x k i * probabilitiesAt m c x j i * -(utilityDerivatives m c x j i) ≤
      probabilityDerivatives m (probabilitiesAt m c x) (conditionalsAt m c x) (utilityDerivatives m c x) j k i := fun i => by
    rcases (probabilityDerivatives_signs m h.wellFormed (updateDelta c x) (updateMu c x) (utilityDerivatives m c x) j i).1 k hjk with h1 | h1
    · exact h1
    · linarith [h.falls j i]
  refine Finset.sum_pos' (fun i _ => mul_nonneg (le_trans ?_ (hterm i)) (h.weights i)) ⟨i, Finset.mem_univ _, mul_pos (lt_of_lt_of_le ?_ (hterm i)) hi⟩
  · exact mul_nonneg (mul_nonneg (h.nonneg k i) (h.nonneg j i)) (by linarith [h.falls j i])
  · exact mul_pos (mul_pos hk hj) (by linarith [h.falls j i])

/-- **C146.** When a price rises, demand for all products together falls: some consumers leave the market. -/
theorem C146_total (h : Spec.Falling m c x) (j : J) : ∑ k, jacobianAt m c x k j < 0 := by
  simp only [jacobianAt, sharesJacobian_eq_sum]
  rw [Finset.sum_comm]
  simp only [← Finset.sum_mul]
  have hs : ∀ i, ∑ k, probabilityDerivatives m (probabilitiesAt m c x) (conditionalsAt m c x) (utilityDerivatives m c x) j k i =
      probabilitiesAt m c x j i * utilityDerivatives m c x j i * Spec.outside m {} (updateDelta c x) (updateMu c x) i := fun i =>
    (probabilityDerivatives_signs m h.wellFormed (updateDelta c x) (updateMu c x) (utilityDerivatives m c x) j i).2
  obtain ⟨i, hi, hb⟩ := h.buyer j
  have ho := fun i => outside_pos m h.wellFormed (updateDelta c x) (updateMu c x) i
  simp only [hs]
  refine Finset.sum_neg' (fun i _ => mul_nonpos_of_nonpos_of_nonneg (mul_nonpos_of_nonpos_of_nonneg
    (mul_nonpos_of_nonneg_of_nonpos (h.nonneg j i) (h.falls j i).le) (ho i).le) (h.weights i)) ⟨i, Finset.mem_univ _, ?_⟩
  exact mul_neg_of_neg_of_pos (mul_neg_of_neg_of_pos (mul_neg_of_pos_of_neg hb (h.falls j i)) (ho i)) hi

/-- **C146.** Demand for a product falls in its price. -/
theorem C146_own (h : Spec.Falling m c x) (j : J) : jacobianAt m c x j j < 0 := by
  have h1 := C146_total h j
  rw [← Finset.add_sum_erase _ _ (Finset.mem_univ j)] at h1
  have h2 : 0 ≤ ∑ k ∈ Finset.univ.erase j, jacobianAt m c x k j :=
    Finset.sum_nonneg fun k hk => C146_substitutes h j k (Finset.ne_of_mem_erase hk)
  linarith

/-- **C146.** Elasticities: with positive prices, own ones are negative and others are not. -/
theorem C146_elasticities (h : Spec.Falling m c x) (hx : ∀ j, 0 < x j) (j k : J) :
    elasticities (jacobianAt m c x) x (sharesAt m c x) j j < 0 ∧ (k ≠ j → 0 ≤ elasticities (jacobianAt m c x) x (sharesAt m c x) k j) :=
  ⟨div_neg_of_neg_of_pos (mul_neg_of_neg_of_pos (C146_own h j) (hx j)) (h.bought j), fun hk =>
    div_nonneg (mul_nonneg (C146_substitutes h j k hk) (hx j).le) (h.bought k).le⟩

/-- **C146.** Diversion ratios, when utility falls at the same rate in prices of all products: they are fractions, and some consumers
who leave a product choose the outside option. -/
theorem C146_diversion (h : Spec.Falling m c x) (hU : ∀ j k i, utilityDerivatives m c x j i = utilityDerivatives m c x k i) (j k : J) :
    0 ≤ diversionRatios (jacobianAt m c x) j k ∧ diversionRatios (jacobianAt m c x) j k ≤ 1 ∧ 0 < diversionRatios (jacobianAt m c x) j j := by
  have hsym : ∀ k l, jacobianAt m c x k l = jacobianAt m c x l k := fun k l => sharesJacobian_symm m h.wellFormed _ _ _ hU k l
  have hjj := C146_own h j
  have hown : 0 < diversionRatios (jacobianAt m c x) j j := by
    unfold diversionRatios
    rw [if_pos rfl, neg_neg]
    refine div_pos_of_neg_of_neg ?_ hjj
    simp only [hsym j]
    exact C146_total h j
  have hnn : ∀ k, 0 ≤ diversionRatios (jacobianAt m c x) j k := fun k => by
    by_cases hk : j = k
    · rw [← hk]; exact hown.le
    · unfold diversionRatios
      rw [if_neg hk, hsym]
      exact div_nonneg_of_nonpos (by linarith [C146_substitutes h j k (Ne.symm hk)]) hjj.le
  refine ⟨hnn k, ?_, hown⟩
  rw [← C33_rows_sum (jacobianAt m c x) j hjj.ne]
  exact Finset.single_le_sum (f := fun k => diversionRatios (jacobianAt m c x) j k) (fun k _ => hnn k) (Finset.mem_univ k)

/-- Ownership: firms weigh profits of their own products by one, and those of other firms by at most one. -/
structure Spec.Ownership (O : J → J → ℝ) : Prop where
  own : ∀ j, O j j = 1
  nonneg : ∀ j k, 0 ≤ O j k
  le_one : ∀ j k, O j k ≤ 1

lemma dominant_ownership (h : Spec.Falling m c x) {O : J → J → ℝ} (hO : Spec.Ownership O) :
    Dominant (Matrix.of fun j k => -(O j k * jacobianAt m c x k j)) := by
  refine ⟨fun j k hk => ?_, fun j => ?_⟩
  · have := mul_nonneg (hO.nonneg j k) (C146_substitutes h j k hk)
    simp only [Matrix.of_apply]; linarith
  · simp only [Matrix.of_apply]
    rw [Finset.sum_neg_distrib, neg_pos]
    refine lt_of_le_of_lt (Finset.sum_le_sum fun k _ => ?_) (C146_total h j)
    by_cases hk : k = j
    · rw [hk, hO.own, one_mul]
    · exact mul_le_of_le_one_left (C146_substitutes h j k hk) (hO.le_one j k)

lemma dominant_capitalDelta (h : Spec.Falling m c c.x0) {O : J → J → ℝ} (hO : Spec.Ownership O) : Dominant (capitalDelta m c O) := by
  have : capitalDelta m c O = Matrix.of fun j k => -(O j k * jacobianAt m c c.x0 k j) := by
    ext j k; rw [capitalDelta_apply]; rfl
  rw [this]
  exact dominant_ownership h hO

/-- **C146.** Markups: the system of equations for them has exactly one solution, and all markups are positive: computed marginal costs
are below prices. -/
theorem C146_markups (h : Spec.Falling m c c.x0) {O : J → J → ℝ} (hO : Spec.Ownership O) (s : J → ℝ) (hs : ∀ j, 0 < s j) :
    IsUnit (capitalDelta m c O).det ∧ (∀ j, 0 < computeEta m c O s j) ∧ ∀ j, computeCosts m c O s j < c.x0 j := by
  have hd := dominant_capitalDelta h hO
  have hpos : ∀ j, 0 < computeEta m c O s j := hd.pos _ fun j => by
    rw [computeEta, Matrix.mulVec_mulVec, Matrix.mul_nonsing_inv _ hd.det, Matrix.one_mulVec]; exact hs j
  exact ⟨hd.det, hpos, fun j => by unfold computeCosts; linarith [hpos j]⟩

/-- **C146.** Marginal costs that rationalize prices always exist and are unique: they are those that are computed. -/
theorem C146_costs (h : Spec.Falling m c c.x0) (hc : c.Smooth) {O : J → J → ℝ} (hO : Spec.Ownership O) (costs : J → ℝ) :
    (∀ j, Spec.FirstOrderCondition (sharesAt m c) (O j) costs c.x0 j) ↔ costs = computeCosts m c O (sharesAt m c c.x0) :=
  C30_costs m h.wellFormed c hc O hO.own _ (fun _ => rfl) (dominant_capitalDelta h hO).det costs

/-- **C146.** All prices that satisfy first order conditions are above marginal costs. -/
theorem C146_equilibrium (h : Spec.Falling m c x) (hc : c.Smooth) {O : J → J → ℝ} (hO : Spec.Ownership O) (costs : J → ℝ)
    (hfoc : ∀ j, Spec.FirstOrderCondition (sharesAt m c) (O j) costs x j) (j : J) : costs j < x j := by
  have := (dominant_ownership h hO).pos (fun k => x k - costs k) (fun j => by
    have h1 := (firstOrderCondition_iff m h.wellFormed c hc _ _ _ _).mp (hfoc j)
    rw [hO.own, one_mul] at h1
    have h2 : (Matrix.of fun j k => -(O j k * jacobianAt m c x k j)).mulVec (fun k => x k - costs k) j = sharesAt m c x j := by
      have : (Matrix.of fun j k => -(O j k * jacobianAt m c x k j)).mulVec (fun k => x k - costs k) j =
          -∑ k, O j k * ((x k - costs k) * jacobianAt m c x k j) := by
        simp only [Matrix.mulVec, dotProduct, Matrix.of_apply]
        rw [← Finset.sum_neg_distrib]
        exact Finset.sum_congr rfl fun k _ => by ring
      rw [this]; linarith
    rw [h2]; exact h.bought j) j
  linarith

lemma Spec.Falling.lamda (h : Spec.Falling m c x) (j : J) : capitalLamda m (probabilitiesAt m c x) (utilityDerivatives m c x) j < 0 := by
  have hs : ∑ i, probabilitiesAt m c x j i * utilityDerivatives m c x j i * m.weights i < 0 := by
    obtain ⟨i, hi, hb⟩ := h.buyer j
    exact Finset.sum_neg' (fun i _ => mul_nonpos_of_nonpos_of_nonneg (mul_nonpos_of_nonneg_of_nonpos (h.nonneg j i) (h.falls j i).le)
      (h.weights i)) ⟨i, Finset.mem_univ _, mul_neg_of_neg_of_pos (mul_neg_of_pos_of_neg hb (h.falls j i)) hi⟩
  unfold capitalLamda
  cases hn : m.nesting with
  | none => exact hs
  | some n =>
    have := (h.wellFormed.regular.rho n hn (n.group j)).2
    exact div_neg_of_neg_of_pos hs (by unfold Nesting.productRho; linarith)

/-- **C146.** Prices at which the iteration for equilibrium prices stays are above marginal costs, which may depend on shares. -/
theorem C146_fixed_point (h : Spec.Falling m c x) (hc : c.Smooth) {O : J → J → ℝ} (hO : Spec.Ownership O) (costOf : J → ℝ → ℝ)
    (hx : priceContraction m c O costOf x = x) (j : J) : costOf j (sharesAt m c x j) < x j :=
  C146_equilibrium h hc (O := fun j k => O k j) ⟨hO.own, fun j k => hO.nonneg k j, fun j k => hO.le_one k j⟩
    (fun k => costOf k (sharesAt m c x k))
    ((C31_fixed_point_iff_foc m h.wellFormed c hc O hO.own costOf x fun j => (h.lamda j).ne).mp hx) j

/-- **C146.** The more firms care about each other's profits, the higher are markups and the lower are marginal costs that rationalize
prices. -/
theorem C146_ownership (h : Spec.Falling m c c.x0) {O O' : J → J → ℝ} (hO : Spec.Ownership O) (hO' : Spec.Ownership O')
    (hle : ∀ j k, O j k ≤ O' j k) (s : J → ℝ) (hs : ∀ j, 0 < s j) (j : J) :
    computeEta m c O s j ≤ computeEta m c O' s j ∧ computeCosts m c O' s j ≤ computeCosts m c O s j := by
  have hd' := dominant_capitalDelta h hO'
  obtain ⟨hdet, hpos, -⟩ := C146_markups h hO s hs
  have hmain : computeEta m c O s j ≤ computeEta m c O' s j := by
    have := hd'.nonneg (computeEta m c O' s - computeEta m c O s) (fun j => by
      have e1 : (capitalDelta m c O').mulVec (computeEta m c O' s) = s := by
        rw [computeEta, Matrix.mulVec_mulVec, Matrix.mul_nonsing_inv _ hd'.det, Matrix.one_mulVec]
      have e2 : (capitalDelta m c O).mulVec (computeEta m c O s) = s := by
        rw [computeEta, Matrix.mulVec_mulVec, Matrix.mul_nonsing_inv _ hdet, Matrix.one_mulVec]
      have e3 : (capitalDelta m c O').mulVec (computeEta m c O s) j ≤ (capitalDelta m c O).mulVec (computeEta m c O s) j := by
        simp only [Matrix.mulVec, dotProduct, capitalDelta_apply]
        refine Finset.sum_le_sum fun k _ => mul_le_mul_of_nonneg_right ?_ (hpos k).le
        by_cases hk : k = j
        · rw [hk, hO.own, hO'.own]
        · exact neg_le_neg (mul_le_mul_of_nonneg_right (hle j k) (C146_substitutes h j k hk))
      rw [Matrix.mulVec_sub, Pi.sub_apply, e1]
      rw [e2] at e3
      linarith) j
    simpa using this
  exact ⟨hmain, by unfold computeCosts; linarith⟩

lemma ownershipFromIds_ownership {F : Type} [DecidableEq F] (firm : J → F) : Spec.Ownership (ownershipFromIds (J := J) firm) where
  own := fun j => by simp [ownershipFromIds]
  nonneg := fun j k => by unfold ownershipFromIds; split_ifs <;> norm_num
  le_one := fun j k => by unfold ownershipFromIds; split_ifs <;> norm_num

/-- **C146.** Mergers: approximate prices after a merger, from costs that rationalize prices before it, are not lower than prices before,
and those of a product of a merging firm are higher if some consumers switch between merging products. -/
theorem C146_merger {F F' : Type} [DecidableEq F] [DecidableEq F'] (h : Spec.Falling m c c.x0) (firm : J → F) (firm' : J → F')
    (hmerge : ∀ j k, firm j = firm k → firm' j = firm' k) (s : J → ℝ) (hs : ∀ j, 0 < s j) (j : J) :
    c.x0 j ≤ approximatePrices m c (ownershipFromIds firm') s (computeCosts m c (ownershipFromIds firm) s) j ∧
    ((∃ k, firm k ≠ firm j ∧ firm' k = firm' j ∧ 0 < jacobianAt m c c.x0 k j) →
      c.x0 j < approximatePrices m c (ownershipFromIds firm') s (computeCosts m c (ownershipFromIds firm) s) j) := by
  have hO := ownershipFromIds_ownership (J := J) firm
  have hO' := ownershipFromIds_ownership (J := J) firm'
  have hle : ∀ j k, ownershipFromIds firm j k ≤ ownershipFromIds firm' j k := fun j k => by
    unfold ownershipFromIds
    by_cases hf : firm j = firm k
    · rw [if_pos hf, if_pos (hmerge j k hf)]
    · rw [if_neg hf]; split_ifs <;> norm_num
  have hall := fun k => (C146_ownership h hO hO' hle s hs k).1
  refine ⟨by unfold approximatePrices computeCosts; linarith [hall j], fun ⟨k, hk, hk', hsw⟩ => ?_⟩
  have hd' := dominant_capitalDelta h hO'
  obtain ⟨hdet, hpos, -⟩ := C146_markups h hO s hs
  have e1 : (capitalDelta m c (ownershipFromIds firm')).mulVec (computeEta m c (ownershipFromIds firm') s) = s := by
    rw [computeEta, Matrix.mulVec_mulVec, Matrix.mul_nonsing_inv _ hd'.det, Matrix.one_mulVec]
  have e2 : (capitalDelta m c (ownershipFromIds firm)).mulVec (computeEta m c (ownershipFromIds firm) s) = s := by
    rw [computeEta, Matrix.mulVec_mulVec, Matrix.mul_nonsing_inv _ hdet, Matrix.one_mulVec]
  have hkj : k ≠ j := fun he => hk (by rw [he])
  have hstrict : computeEta m c (ownershipFromIds firm) s j < computeEta m c (ownershipFromIds firm') s j := by
    refine lt_of_le_of_ne (hall j) fun heq => ?_
    have hlt : (capitalDelta m c (ownershipFromIds firm')).mulVec (computeEta m c (ownershipFromIds firm') s) j <
        (capitalDelta m c (ownershipFromIds firm)).mulVec (computeEta m c (ownershipFromIds firm) s) j := by
      simp only [Matrix.mulVec, dotProduct, capitalDelta_apply]
      refine Finset.sum_lt_sum (fun l _ => ?_) ⟨k, Finset.mem_univ _, ?_⟩
      · by_cases hl : l = j
        · rw [hl, hO.own, hO'.own, heq]
        · have hsub := C146_substitutes h j l hl
          have h1 := mul_le_mul_of_nonneg_right (hle j l) hsub
          have h2 := mul_le_mul h1 (hall l) (hpos l).le (mul_nonneg (hO'.nonneg j l) hsub)
          linarith
      · have o1 : ownershipFromIds firm j k = 0 := by unfold ownershipFromIds; rw [if_neg (Ne.symm hk)]
        have o2 : ownershipFromIds firm' j k = 1 := by unfold ownershipFromIds; rw [if_pos hk'.symm]
        rw [o1, o2]
        have := mul_pos hsw (lt_of_lt_of_le (hpos k) (hall k))
        linarith
    rw [e1, e2] at hlt
    exact lt_irrefl _ hlt
  unfold approximatePrices computeCosts
  linarith

/-! ## Non-vacuity -/

theorem nestedDuopoly_falling (x : Fin 2 → ℝ) : Spec.Falling nestedDuopoly duopolyPrices x where
  wellFormed := nestedDuopoly_wellFormed
  weights := fun _ => zero_le_one
  falls := fun j i => by rw [nestedDuopoly_linear x j i]; norm_num
  bought := fun j => Finset.sum_pos (fun i _ => mul_pos ((C17_probabilities nestedDuopoly {} _ _ i
    (nestedDuopoly_wellFormed.availNonneg {} rfl i) nestedDuopoly_wellFormed.regular.rhoBelowOne (Or.inl rfl)).2.1 j
    ⟨by simp, rfl, by simp [nestedDuopoly, duopoly]⟩) zero_lt_one) Finset.univ_nonempty

/-- When the two firms of the nested duopoly merge, approximate prices of both products rise. -/
example (j : Fin 2) : duopolyPrices.x0 j < approximatePrices nestedDuopoly duopolyPrices (ownershipFromIds fun _ => ()) (fun _ => 1 / 3)
    (computeCosts nestedDuopoly duopolyPrices (ownershipFromIds id) fun _ => 1 / 3) j := by
  have hP : ∀ k, 0 < probabilitiesAt nestedDuopoly duopolyPrices duopolyPrices.x0 k () := fun k =>
    (C17_probabilities nestedDuopoly {} _ _ () (nestedDuopoly_wellFormed.availNonneg {} rfl ()) nestedDuopoly_wellFormed.regular.rhoBelowOne
      (Or.inl rfl)).2.1 k ⟨by simp, rfl, by simp [nestedDuopoly, duopoly]⟩
  refine (C146_merger (nestedDuopoly_falling _) id (fun _ => ()) (fun _ _ _ => rfl) _ (fun _ => by norm_num) j).2 ?_
  have hne : j + 1 ≠ j := by fin_cases j <;> decide
  exact ⟨j + 1, hne, rfl, C146_strict (nestedDuopoly_falling _) j (j + 1) hne () zero_lt_one (hP _) (hP _)⟩

end Pyblp
