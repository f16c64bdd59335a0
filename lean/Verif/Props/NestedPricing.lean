import Verif.Props.BestResponses
import Verif.Lemmas.NestedStart
import Verif.Lemmas.NestedExistence

/-!
# C150: simulated equilibria with nested logit demand

Prices are fixed points of `priceContraction` (pyblp/markets/market.py:813-848), ownership comes from firm IDs and costs are constant.
`Simulation.replace_endogenous` starts at marginal costs (pyblp/economies/simulation.py:758-764). The economics is in
`Verif/Lemmas/NestedOligopoly.lean`, `Verif/Lemmas/NestedIteration.lean` and `Verif/Lemmas/NestedExistence.lean`.
-/

set_option linter.unusedSectionVars false

namespace Pyblp

open Finset

variable {J A G K1 K2 F F' : Type} [Fintype J] [DecidableEq J] [Nonempty J] [Fintype G] [DecidableEq G] [Fintype A]
  [Fintype K1] [Fintype K2] [DecidableEq F] [DecidableEq F']

section General

/-- A step for prices is a step along reported profit gradients. -/
lemma contraction_gradient (m : Market J A G) (c : Characteristic J A K1 K2) (firm : J → F) (costs x : J → ℝ) (k : J)
    (hl : capitalLamda m (probabilitiesAt m c x) (utilityDerivatives m c x) k ≠ 0) :
    priceContraction m c (ownershipFromIds firm) (fun k _ => costs k) x k =
      x k - firmProfitGradient m c (ownershipFromIds firm) costs x k / capitalLamda m (probabilitiesAt m c x) (utilityDerivatives m c x) k := by
  set L := capitalLamda m (probabilitiesAt m c x) (utilityDerivatives m c x) k with hL
  have hinv : capitalLamdaInverse m c x k = 1 / L := by simp [capitalLamdaInverse, ← hL, hl]
  set Gam := capitalGamma m (probabilitiesAt m c x) (conditionalsAt m c x) (utilityDerivatives m c x) with hG
  have hO : ∀ j, ownershipFromIds firm j j = 1 := fun j => by simp [ownershipFromIds]
  have hsum : firmProfitGradient m c (ownershipFromIds firm) costs x k =
      sharesAt m c x k + L * (x k - costs k) - ∑ j, ownershipFromIds firm j k * Gam j k * (x j - costs j) := by
    have : ∀ j, ownershipFromIds firm j k * profitJacobian m c costs x j k =
        (if j = k then sharesAt m c x k + L * (x k - costs k) else 0) - ownershipFromIds firm j k * Gam j k * (x j - costs j) := by
      intro j
      simp only [profitJacobian, sharesJacobian, ← hG]
      by_cases h : j = k
      · subst h; simp only [if_true, ← hL, hO j]; ring
      · simp only [h, if_false]; ring
    simp only [firmProfitGradient, this, Finset.sum_sub_distrib, Finset.sum_ite_eq', Finset.mem_univ, if_true]
  rw [hsum]
  simp only [priceContraction, zeta, hinv, ← hG]
  field_simp
  ring

/-- If iterates converge and weights are bounded, simple iteration reports convergence once it may evaluate often enough. -/
lemma simple_reports (m : Market J A G) (c : Characteristic J A K1 K2) (O : J → J → ℝ) (costs initial x : J → ℝ) (W : ℝ) (hW : 0 < W)
    (hweight : ∀ x j, priceWeights m c x j ≤ W)
    (hf : Filter.Tendsto (fun n => (priceContraction m c O (fun k _ => costs k))^[n] initial) Filter.atTop (nhds x)) (atol : ℝ) (hatol : 0 < atol) :
    ∃ budget, ∀ maxEvaluations, budget ≤ maxEvaluations →
      (simpleIterator ⟨maxEvaluations, atol, 0, infinityNorm⟩ (priceStep m c O fun k _ => costs k) (lift initial)).converged = true := by
  set f := priceContraction m c O (fun k _ => costs k) with hfdef
  set step := priceStep m c O (fun k _ => costs k) with hstep
  have hlim : Filter.Tendsto (fun n => ‖f^[n + 1] initial - f^[n] initial‖) Filter.atTop (nhds 0) := by
    have := ((hf.comp (Filter.tendsto_add_atTop_nat 1)).sub hf).norm
    simpa using this
  obtain ⟨n, hn⟩ := (hlim.eventually (gt_mem_nhds (div_pos hatol hW))).exists
  have hiter : ∀ k, Spec.iterate step (lift initial) k = lift (f^[k] initial) := by
    intro k
    induction k with
    | zero => rfl
    | succ k ih =>
      rw [Function.iterate_succ_apply']
      simp only [Spec.iterate, ih]
      rfl
  have hweights : ∀ k, Spec.weights step (lift initial) k = some (lift (priceWeights m c (f^[k] initial))) := by
    intro k
    simp only [Spec.weights, hiter]
    rfl
  refine ⟨n + 2, fun maxEvaluations hmax => ?_⟩
  set r := simpleIterator ⟨maxEvaluations, atol, 0, infinityNorm⟩ step (lift initial) with hr
  obtain ⟨h1, h2, h3, h4, h5⟩ := C14_simple ⟨maxEvaluations, atol, 0, infinityNorm⟩ (by simp; omega) step (lift initial)
  change 1 ≤ r.calls at h1
  change r.calls ≤ maxEvaluations at h2
  have hgood : ∀ k, Spec.Good step (lift initial) k := by
    intro k
    refine ⟨fun i => ?_, fun w hw i => ?_⟩
    · rw [hiter]; rfl
    · rw [hweights, Option.some.injEq] at hw
      rw [← hw]
      rfl
  have hcalls : r.calls ≤ n + 1 := by
    by_contra hc
    have := (h3 n (by change n + 1 < r.calls; omega)).2
    rw [hiter, hiter, hweights] at this
    apply this
    refine ⟨_, infinityNorm_lift fun i => priceWeights m c (f^[n] initial) i * (f^[n + 1] initial i - f^[n] initial i), ?_⟩
    rw [if_neg (lt_irrefl _)]
    refine lt_of_le_of_lt ?_ ((lt_div_iff₀ hW).mp hn)
    refine (pi_norm_le_iff_of_nonneg (mul_nonneg (norm_nonneg _) hW.le)).mpr fun i => ?_
    have h6 := norm_le_pi_norm (f^[n + 1] initial - f^[n] initial) i
    rw [norm_mul, mul_comm]
    refine mul_le_mul h6 ?_ (norm_nonneg _) (norm_nonneg _)
    rw [Real.norm_eq_abs, abs_of_nonneg (show 0 ≤ priceWeights m c (f^[n] initial) i from abs_nonneg _)]
    exact hweight _ i
  by_contra hc
  rcases h5 (by change r.converged = false; simpa using hc) with ⟨h, _, _⟩ | ⟨h, _⟩
  · change r.calls = maxEvaluations at h; omega
  · exact h (hgood _)

end General

section Nested

variable [IsEmpty K2] {m : Market J A G} {c : Characteristic J A K1 K2} {n : Nesting J G} (h : Spec.NestedLogit m n c)

include h

theorem nested_lamda_eq (x : J → ℝ) (j : J) : capitalLamda m (probabilitiesAt m c x) (utilityDerivatives m c x) j =
    -(Spec.sensitivity m c / (1 - n.rho.groupRho (n.group j)) * sharesAt m c x j) := by
  simp only [capitalLamda, h.nesting, nested_shares h, nested_derivative h, Nesting.productRho]
  rw [← Finset.mul_sum, h.weights, mul_one]
  ring

/-- A step for prices is a step for markups. -/
theorem nested_contraction (firm : J → F) (costs x : J → ℝ) (k : J) :
    priceContraction m c (ownershipFromIds firm) (fun k _ => costs k) x k = costs k +
      NestedOligopoly.step n.group n.rho.groupRho (Spec.sensitivity m c) (nestedAtCost c n costs) firm (fun k => x k - costs k) k := by
  have hs := (nested_share_pos h x k).ne'
  have ha := (nested_sensitivity h).ne'
  have hr : (1 : ℝ) - n.rho.groupRho (n.group k) ≠ 0 := by have := h.below (n.group k); linarith
  rw [contraction_gradient m c firm costs x k (nested_lamda h x k), nested_gradient_foc h, nested_lamda_eq h, NestedOligopoly.step]
  generalize NestedOligopoly.profit n.group n.rho.groupRho (Spec.sensitivity m c) (nestedAtCost c n costs) (fun j => firm j = firm k) (fun k => x k - costs k) = P
  generalize (∑ j with n.group j = n.group k ∧ firm j = firm k, (x j - costs j) *
    NestedOligopoly.mass n.group n.rho.groupRho (Spec.sensitivity m c) (nestedAtCost c n costs) (fun k => x k - costs k) j) /
    NestedOligopoly.nestMass n.group n.rho.groupRho (Spec.sensitivity m c) (nestedAtCost c n costs) (fun k => x k - costs k) (n.group k) = Q
  field_simp
  ring

theorem nested_fixed_iff (firm : J → F) (costs x : J → ℝ) :
    priceContraction m c (ownershipFromIds firm) (fun k _ => costs k) x = x ↔
      NestedOligopoly.step n.group n.rho.groupRho (Spec.sensitivity m c) (nestedAtCost c n costs) firm (fun k => x k - costs k) = fun k => x k - costs k := by
  rw [funext_iff, funext_iff]
  refine forall_congr' fun k => ?_
  rw [nested_contraction h]
  constructor <;> intro h' <;> linarith

theorem nested_fixed_foc (firm : J → F) (costs x : J → ℝ) :
    priceContraction m c (ownershipFromIds firm) (fun k _ => costs k) x = x ↔
      ∀ f, NestedOligopoly.Foc n.group n.rho.groupRho (Spec.sensitivity m c) (nestedAtCost c n costs) (fun k => firm k = f) (fun k => x k - costs k) := by
  rw [nested_fixed_iff h, NestedOligopoly.step_fixed_iff (nested_sensitivity h) h.below]

/-- **C150, uniqueness.** There are no two different sets of prices at which iteration stops. -/
theorem C150_unique (hr : ∀ g, 0 ≤ n.rho.groupRho g) (firm : J → F) (costs x y : J → ℝ)
    (hx : priceContraction m c (ownershipFromIds firm) (fun k _ => costs k) x = x)
    (hy : priceContraction m c (ownershipFromIds firm) (fun k _ => costs k) y = y) : x = y := by
  rw [nested_fixed_foc h] at hx hy
  have h1 := NestedOligopoly.unique (nested_sensitivity h) hr h.below (fun j => Real.exp_pos _) firm _ _ hx hy
  have h2 := NestedOligopoly.unique (nested_sensitivity h) hr h.below (fun j => Real.exp_pos _) firm _ _ hy hx
  funext k
  linarith [h1 k, h2 k]

/-- **C150, uniqueness.** There are no two different sets of prices at which no firm can gain by changing its prices. -/
theorem C150_unique_nash (hr : ∀ g, 0 ≤ n.rho.groupRho g) (firm : J → F) (costs x y : J → ℝ)
    (hx : Spec.NashEquilibrium (sharesAt m c) costs firm x) (hy : Spec.NashEquilibrium (sharesAt m c) costs firm y) : x = y :=
  C150_unique h hr firm costs x y ((C149_nested_partial h hr firm costs x).mpr hx) ((C149_nested_partial h hr firm costs y).mpr hy)

/-- **C150, existence.** Whatever costs are and whoever owns products, in whatever nests, there is exactly one set of prices at which iteration
stops. -/
theorem C150_exists_unique (hr : ∀ g, 0 ≤ n.rho.groupRho g) (firm : J → F) (costs : J → ℝ) :
    ∃! x, priceContraction m c (ownershipFromIds firm) (fun k _ => costs k) x = x := by
  obtain ⟨z, hz⟩ := NestedOligopoly.exists_equilibrium (group := n.group) (A := nestedAtCost c n costs) (nested_sensitivity h) hr h.below (fun j => Real.exp_pos _)
    firm fun z k => by
      have hd := nested_derivative_profit h hr firm costs (fun j => z j + costs j) k
      rw [nested_gradient_foc h, nested_oligopoly_share h costs] at hd
      simp only [add_sub_cancel_right] at hd
      have h1 := hd.scomp_of_eq (z k) ((hasDerivAt_id' (z k)).add_const (costs k)) rfl
      rw [one_smul] at h1
      refine h1.congr_of_eventuallyEq (Filter.Eventually.of_forall fun t => ?_)
      simp only [Function.comp, nested_profit h]
      congr 1
      funext j
      by_cases hj : j = k
      · subst hj; simp
      · simp [Function.update_of_ne hj]
  have hfix : priceContraction m c (ownershipFromIds firm) (fun k _ => costs k) (fun j => z j + costs j) = fun j => z j + costs j := by
    rw [nested_fixed_foc h]
    simpa only [add_sub_cancel_right] using hz
  exact ⟨_, hfix, fun y hy => C150_unique h hr firm costs y _ hy hfix⟩

/-- **C150, existence.** There is exactly one set of prices at which no firm can gain by changing its prices. -/
theorem C150_exists_unique_nash (hr : ∀ g, 0 ≤ n.rho.groupRho g) (firm : J → F) (costs : J → ℝ) :
    ∃! x, Spec.NashEquilibrium (sharesAt m c) costs firm x := by
  obtain ⟨x, hx, hu⟩ := C150_exists_unique h hr firm costs
  exact ⟨x, (C149_nested_partial h hr firm costs x).mp hx, fun y hy => hu y ((C149_nested_partial h hr firm costs y).mpr hy)⟩

/-- **C150, markups.** In equilibrium all prices are above costs, and the markup of a product is the inverse of sensitivity plus what its firm earns,
times a factor that increases with the share of its firm in its nest. -/
theorem C150_markups (hr : ∀ g, 0 ≤ n.rho.groupRho g) (firm : J → F) (costs x : J → ℝ)
    (hx : priceContraction m c (ownershipFromIds firm) (fun k _ => costs k) x = x) (k : J) :
    costs k < x k ∧ x k - costs k = (1 - n.productRho k) /
        (1 - n.productRho k * ∑ j with n.group j = n.group k ∧ firm j = firm k, Spec.nestShare n (sharesAt m c x) j) *
      (1 / Spec.sensitivity m c + Spec.jointProfit (sharesAt m c) costs firm (firm k) x) := by
  rw [nested_fixed_foc h] at hx
  have ha := nested_sensitivity h
  obtain ⟨M, hM, hP, hcond⟩ := NestedOligopoly.foc_markups (A := nestedAtCost c n costs) ha hr h.below (fun j => Real.exp_pos _) _ _ (hx (firm k))
  obtain ⟨hMp, hN, heq⟩ := hcond (n.group k) ⟨k, rfl, rfl⟩
  have hMk := hM k rfl
  refine ⟨by linarith, ?_⟩
  rw [nested_profit h]
  have hshare : ∑ j with n.group j = n.group k ∧ firm j = firm k, Spec.nestShare n (sharesAt m c x) j =
      NestedOligopoly.ownMass n.group n.rho.groupRho (Spec.sensitivity m c) (nestedAtCost c n costs) (fun j => firm j = firm k) (fun k => x k - costs k) (n.group k) /
        NestedOligopoly.nestMass n.group n.rho.groupRho (Spec.sensitivity m c) (nestedAtCost c n costs) (fun k => x k - costs k) (n.group k) := by
    rw [NestedOligopoly.ownMass, Finset.sum_div]
    refine Finset.sum_congr rfl fun j hj => ?_
    rw [nested_oligopoly_nestShare h costs, (Finset.mem_filter.mp hj).2.1]
  rw [hshare, hMk]
  change _ = (1 - n.rho.groupRho (n.group k)) / (1 - n.rho.groupRho (n.group k) * _) * _
  have hb := h.below (n.group k)
  have hgap : (1 : ℝ) - n.rho.groupRho (n.group k) * (NestedOligopoly.ownMass n.group n.rho.groupRho (Spec.sensitivity m c) (nestedAtCost c n costs) (fun j => firm j = firm k) (fun k => x k - costs k) (n.group k) /
        NestedOligopoly.nestMass n.group n.rho.groupRho (Spec.sensitivity m c) (nestedAtCost c n costs) (fun k => x k - costs k) (n.group k)) ≠ 0 := by
    intro h0
    rw [h0, mul_zero] at heq
    have := mul_nonneg ha.le hP
    linarith
  have hb' : (1 : ℝ) - n.rho.groupRho (n.group k) ≠ 0 := by linarith
  have heq' := heq
  generalize NestedOligopoly.ownMass n.group n.rho.groupRho (Spec.sensitivity m c) (nestedAtCost c n costs) (fun j => firm j = firm k) (fun k => x k - costs k) (n.group k) /
    NestedOligopoly.nestMass n.group n.rho.groupRho (Spec.sensitivity m c) (nestedAtCost c n costs) (fun k => x k - costs k) (n.group k) = C at *
  generalize NestedOligopoly.profit n.group n.rho.groupRho (Spec.sensitivity m c) (nestedAtCost c n costs) (fun j => firm j = firm k) (fun k => x k - costs k) = P at *
  rw [div_mul_eq_mul_div, eq_div_iff hgap]
  have ha' := ha.ne'
  field_simp at heq' ⊢
  linarith

section Mergers

variable (hr : ∀ g, 0 ≤ n.rho.groupRho g) (costs : J → ℝ) (firm : J → F) (firm' : J → F') (hm : Spec.Merger firm firm') (x x' : J → ℝ)
  (hx : priceContraction m c (ownershipFromIds firm) (fun k _ => costs k) x = x)
  (hx' : priceContraction m c (ownershipFromIds firm') (fun k _ => costs k) x' = x')

include hr hm hx hx'

/-- **C150, mergers.** Whatever nests products of firms that merge are in, no price falls and some prices rise. -/
theorem C150_merger_prices : (∀ k, x k ≤ x' k) ∧ ∃ k, x k < x' k := by
  have ha := nested_sensitivity h
  rw [nested_fixed_foc h] at hx hx'
  have hle : ∀ k, x k ≤ x' k := fun k => by
    have := NestedOligopoly.merger_up (A := nestedAtCost c n costs) ha hr h.below (fun j => Real.exp_pos _) firm firm' hm.1 _ _ hx hx' k
    linarith
  refine ⟨hle, ?_⟩
  by_contra hno
  push Not at hno
  have heq : x' = x := funext fun k => le_antisymm (hno k) (hle k)
  obtain ⟨j, k, hjk, hne⟩ := hm.2
  rw [heq] at hx'
  exact NestedOligopoly.merger_changes (A := nestedAtCost c n costs) ha hr h.below (fun j => Real.exp_pos _) firm firm' hm.1 j k hjk hne _ hx hx'

/-- **C150, mergers.** Each firm earns at least what its products did before. -/
theorem C150_merger_profits (f : F') : Spec.jointProfit (sharesAt m c) costs firm' f x ≤ Spec.jointProfit (sharesAt m c) costs firm' f x' := by
  have hle := (C150_merger_prices h hr costs firm firm' hm x x' hx hx').1
  rw [nested_fixed_foc h] at hx'
  rw [nested_profit h, nested_profit h]
  exact NestedOligopoly.optimal (A := nestedAtCost c n costs) (nested_sensitivity h) hr h.below (fun j => Real.exp_pos _) (fun k => firm' k = f) _ (hx' f) _
    fun k _ => by linarith [hle k]

/-- **C150, mergers.** More consumers choose the outside good. -/
theorem C150_merger_outside : Spec.outsideShare (sharesAt m c x) < Spec.outsideShare (sharesAt m c x') := by
  obtain ⟨hle, k, hlt⟩ := C150_merger_prices h hr costs firm firm' hm x x' hx hx'
  have hA : ∀ j, 0 < nestedAtCost c n costs j := fun j => Real.exp_pos _
  have hout : ∀ x : J → ℝ, Spec.outsideShare (sharesAt m c x) =
      1 / NestedOligopoly.denom n.group n.rho.groupRho (Spec.sensitivity m c) (nestedAtCost c n costs) (fun k => x k - costs k) := fun x => by
    rw [Spec.outsideShare, Finset.sum_congr rfl fun j _ => nested_oligopoly_share h costs x j, NestedOligopoly.total_share h.below hA]
    ring
  rw [hout, hout]
  exact one_div_lt_one_div_of_lt (NestedOligopoly.denom_pos hA _) (NestedOligopoly.denom_lt (nested_sensitivity h) h.below hA _ _ (fun j => by linarith [hle j]) k (by linarith))

/-- **C150, mergers.** Consumer surplus falls. -/
theorem C150_merger_surplus (first : J) : consumerSurplus m c first x' (fun _ => false) < consumerSurplus m c first x (fun _ => false) := by
  have hlt := C150_merger_outside h hr costs firm firm' hm x x' hx hx'
  have hA : ∀ j, 0 < nestedAtCost c n costs j := fun j => Real.exp_pos _
  have hpos : 0 < Spec.outsideShare (sharesAt m c x) := by
    rw [Spec.outsideShare, Finset.sum_congr rfl fun j _ => nested_oligopoly_share h costs x j, NestedOligopoly.total_share h.below hA, sub_sub_cancel]
    exact one_div_pos.mpr (NestedOligopoly.denom_pos hA _)
  rw [C126_nested_surplus h, C126_nested_surplus h]
  exact div_lt_div_of_pos_right (neg_lt_neg (Real.log_lt_log hpos hlt)) (nested_sensitivity h)

end Mergers

variable (hr : ∀ g, 0 ≤ n.rho.groupRho g) (firm : J → F) (hone : ∀ j k, firm j = firm k → n.group j = n.group k)

include hr hone

/-- **C150, simulation.** If products of each firm are in one nest, iteration that starts at prices that are at least marginal costs and that its first step does
not lower raises prices in each step, never to more than the equilibrium, and converges to it. -/
theorem C150_rises_from (costs initial : J → ℝ) (hcosts : ∀ k, costs k ≤ initial k)
    (hfirst : ∀ k, initial k ≤ priceContraction m c (ownershipFromIds firm) (fun k _ => costs k) initial k) :
    ∃ x, priceContraction m c (ownershipFromIds firm) (fun k _ => costs k) x = x ∧
      (∀ i k, (priceContraction m c (ownershipFromIds firm) (fun k _ => costs k))^[i] initial k ≤
        (priceContraction m c (ownershipFromIds firm) (fun k _ => costs k))^[i + 1] initial k) ∧
      (∀ i k, (priceContraction m c (ownershipFromIds firm) (fun k _ => costs k))^[i] initial k ≤ x k) ∧
      Filter.Tendsto (fun i => (priceContraction m c (ownershipFromIds firm) (fun k _ => costs k))^[i] initial) Filter.atTop (nhds x) := by
  have ha := nested_sensitivity h
  set S := NestedOligopoly.step n.group n.rho.groupRho (Spec.sensitivity m c) (nestedAtCost c n costs) firm with hS
  set y : J → ℝ := fun k => initial k - costs k with hy
  have hup0 : ∀ k, y k ≤ S y k := fun k => by
    have := hfirst k
    rw [nested_contraction h] at this
    simp only [hy]
    linarith
  obtain ⟨z, hz, hup, hle, hlim⟩ := NestedOligopoly.converges_from (A := nestedAtCost c n costs) ha hr h.below (fun j => Real.exp_pos _) hone y
    (fun k => sub_nonneg.mpr (hcosts k)) hup0
  have hiter : ∀ i k, (priceContraction m c (ownershipFromIds firm) (fun k _ => costs k))^[i] initial k = costs k + S^[i] y k := by
    intro i
    induction i with
    | zero => intro k; simp [hy]
    | succ i ih =>
      intro k
      rw [Function.iterate_succ_apply', Function.iterate_succ_apply', nested_contraction h]
      have : (fun k => (priceContraction m c (ownershipFromIds firm) (fun k _ => costs k))^[i] initial k - costs k) = S^[i] y := by
        funext k
        rw [ih k]
        ring
      rw [this]
  refine ⟨fun k => costs k + z k, ?_, fun i k => ?_, fun i k => ?_, ?_⟩
  · rw [nested_fixed_iff h]
    have : (fun k => costs k + z k - costs k) = z := by funext k; ring
    rw [this]
    exact hz
  · rw [hiter, hiter]
    linarith [hup i k]
  · rw [hiter]
    linarith [hle i k]
  · rw [tendsto_pi_nhds] at hlim ⊢
    intro k
    simp only [hiter]
    exact (hlim k).const_add _

/-- **C150, simulation.** If products of each firm are in one nest, iteration that starts at marginal costs, as it does by default, raises all prices in each
step, never to more than the equilibrium, and converges to it. -/
theorem C150_rises (costs : J → ℝ) :
    ∃ x, priceContraction m c (ownershipFromIds firm) (fun k _ => costs k) x = x ∧
      (∀ i k, (priceContraction m c (ownershipFromIds firm) (fun k _ => costs k))^[i] costs k ≤
        (priceContraction m c (ownershipFromIds firm) (fun k _ => costs k))^[i + 1] costs k) ∧
      (∀ i k, (priceContraction m c (ownershipFromIds firm) (fun k _ => costs k))^[i] costs k ≤ x k) ∧
      Filter.Tendsto (fun i => (priceContraction m c (ownershipFromIds firm) (fun k _ => costs k))^[i] costs) Filter.atTop (nhds x) := by
  refine C150_rises_from h hr firm hone costs costs (fun _ => le_rfl) fun k => ?_
  rw [nested_contraction h]
  simp only [NestedOligopoly.step, NestedOligopoly.profit, sub_self, zero_mul, Finset.sum_const_zero, zero_div, mul_zero, add_zero]
  have := div_pos (show 0 < 1 - n.rho.groupRho (n.group k) by linarith [h.below (n.group k)]) (nested_sensitivity h)
  linarith

/-- **C150, `simple` iteration.** With a positive absolute tolerance and enough evaluations, simple iteration from prices that are at least marginal costs and that
its first step does not lower reports convergence. -/
theorem C150_simple_from (costs initial : J → ℝ) (hcosts : ∀ k, costs k ≤ initial k)
    (hfirst : ∀ k, initial k ≤ priceContraction m c (ownershipFromIds firm) (fun k _ => costs k) initial k) (atol : ℝ) (hatol : 0 < atol) :
    ∃ budget, ∀ maxEvaluations, budget ≤ maxEvaluations →
      (simpleIterator ⟨maxEvaluations, atol, 0, infinityNorm⟩ (priceStep m c (ownershipFromIds firm) fun k _ => costs k)
        (lift initial)).converged = true := by
  have ha := nested_sensitivity h
  obtain ⟨x, -, -, -, hlim⟩ := C150_rises_from h hr firm hone costs initial hcosts hfirst
  have hb : ∀ j, 0 < Spec.sensitivity m c / (1 - n.rho.groupRho (n.group j)) := fun j => div_pos ha (by linarith [h.below (n.group j)])
  refine simple_reports m c _ costs initial x (∑ j, Spec.sensitivity m c / (1 - n.rho.groupRho (n.group j))) (Finset.sum_pos (fun j _ => hb j) Finset.univ_nonempty)
    (fun x j => ?_) hlim atol hatol
  have hs := nested_share_pos h x j
  have hs1 : sharesAt m c x j ≤ 1 := by
    have h1 := NestedOligopoly.total_share_lt (group := n.group) (a := Spec.sensitivity m c) (A := nestedAtCost c n x) h.below (fun j => Real.exp_pos _) (fun k => k = j) (fun k => x k - x k)
    rw [Finset.sum_filter, Finset.sum_ite_eq', if_pos (Finset.mem_univ j), ← nested_oligopoly_share h x x j] at h1
    exact h1.le
  rw [priceWeights, nested_lamda_eq h, abs_neg, abs_of_pos (mul_pos (hb j) hs)]
  refine (mul_le_of_le_one_right (hb j).le hs1).trans ?_
  exact Finset.single_le_sum (f := fun j => Spec.sensitivity m c / (1 - n.rho.groupRho (n.group j))) (fun j _ => (hb j).le) (Finset.mem_univ j)

/-- **C150, `simple` iteration.** With a positive absolute tolerance and enough evaluations, simple iteration from marginal costs reports convergence. -/
theorem C150_simple (costs : J → ℝ) (atol : ℝ) (hatol : 0 < atol) :
    ∃ budget, ∀ maxEvaluations, budget ≤ maxEvaluations →
      (simpleIterator ⟨maxEvaluations, atol, 0, infinityNorm⟩ (priceStep m c (ownershipFromIds firm) fun k _ => costs k)
        (lift costs)).converged = true := by
  refine C150_simple_from h hr firm hone costs costs (fun _ => le_rfl) (fun k => ?_) atol hatol
  obtain ⟨x, -, hup, -, -⟩ := C150_rises h hr firm hone costs
  exact hup 0 k

/-- What a merger does to the first step from equilibrium prices before it. -/
theorem merger_first_step {F' : Type} [DecidableEq F'] (old : J → F') (hm : ∀ j k, old j = old k → firm j = firm k) (costs x : J → ℝ)
    (hx : priceContraction m c (ownershipFromIds old) (fun k _ => costs k) x = x) (k : J) :
    costs k ≤ x k ∧ x k ≤ priceContraction m c (ownershipFromIds firm) (fun k _ => costs k) x k := by
  have hpos := fun k => (C150_markups h hr old costs x hx k).1
  refine ⟨(hpos k).le, ?_⟩
  have h1 := congrFun hx k
  rw [nested_contraction h] at h1 ⊢
  have h2 := NestedOligopoly.step_coarser (group := n.group) (a := Spec.sensitivity m c) (A := nestedAtCost c n costs) hr h.below (fun j => Real.exp_pos _) hm (fun k => x k - costs k) (fun k => by linarith [hpos k]) k
  linarith

/-- **C150, mergers.** If products of each firm after the merger are in one nest, iteration that starts at equilibrium prices before the merger, as merger simulation
with estimated demand does by default, raises prices in each step and converges to equilibrium prices after it. -/
theorem C150_merger_rises {F' : Type} [DecidableEq F'] (old : J → F') (hm : ∀ j k, old j = old k → firm j = firm k) (costs x x' : J → ℝ)
    (hx : priceContraction m c (ownershipFromIds old) (fun k _ => costs k) x = x) (hx' : priceContraction m c (ownershipFromIds firm) (fun k _ => costs k) x' = x') :
    (∀ i k, (priceContraction m c (ownershipFromIds firm) (fun k _ => costs k))^[i] x k ≤ (priceContraction m c (ownershipFromIds firm) (fun k _ => costs k))^[i + 1] x k) ∧
      (∀ i k, (priceContraction m c (ownershipFromIds firm) (fun k _ => costs k))^[i] x k ≤ x' k) ∧
      Filter.Tendsto (fun i => (priceContraction m c (ownershipFromIds firm) (fun k _ => costs k))^[i] x) Filter.atTop (nhds x') := by
  have hfirst := merger_first_step h hr firm hone old hm costs x hx
  obtain ⟨y, hy, hup, hle, hlim⟩ := C150_rises_from h hr firm hone costs x (fun k => (hfirst k).1) fun k => (hfirst k).2
  have : y = x' := C150_unique h hr firm costs y x' hy hx'
  subst this
  exact ⟨hup, hle, hlim⟩

/-- **C150, mergers.** So with a positive absolute tolerance and enough evaluations, simple iteration from equilibrium prices before the merger reports convergence. -/
theorem C150_merger_simple {F' : Type} [DecidableEq F'] (old : J → F') (hm : ∀ j k, old j = old k → firm j = firm k) (costs x : J → ℝ)
    (hx : priceContraction m c (ownershipFromIds old) (fun k _ => costs k) x = x) (atol : ℝ) (hatol : 0 < atol) :
    ∃ budget, ∀ maxEvaluations, budget ≤ maxEvaluations →
      (simpleIterator ⟨maxEvaluations, atol, 0, infinityNorm⟩ (priceStep m c (ownershipFromIds firm) fun k _ => costs k)
        (lift x)).converged = true := by
  have hfirst := merger_first_step h hr firm hone old hm costs x hx
  exact C150_simple_from h hr firm hone costs x (fun k => (hfirst k).1) (fun k => (hfirst k).2) atol hatol

end Nested

/-! ## Non-vacuity -/

private lemma nestedDuopoly_nonneg (g : Unit) : 0 ≤ (⟨fun _ : Fin 2 => (), .single (1 / 2)⟩ : Nesting (Fin 2) Unit).rho.groupRho g := by
  simp only [RhoParam.groupRho]
  norm_num

example (costs : Fin 2 → ℝ) : ∃! x, Spec.NashEquilibrium (sharesAt nestedDuopoly duopolyPrices) costs (id : Fin 2 → Fin 2) x := by
  obtain ⟨x, hx, hu⟩ := C150_exists_unique nestedDuopoly_nested nestedDuopoly_nonneg (id : Fin 2 → Fin 2) costs
  have hiff := fun x => C149_nested_partial nestedDuopoly_nested nestedDuopoly_nonneg (id : Fin 2 → Fin 2) costs x
  exact ⟨x, (hiff x).mp hx, fun y hy => hu y ((hiff y).mpr hy)⟩

example : ∃ x : Fin 2 → ℝ, (∀ k, 1 < x k) ∧
    Filter.Tendsto (fun i => (priceContraction nestedDuopoly duopolyPrices (ownershipFromIds fun _ : Fin 2 => (0 : Fin 1)) (fun _ _ => 1))^[i] fun _ => 1) Filter.atTop (nhds x) := by
  obtain ⟨x, hx, -, -, hlim⟩ := C150_rises nestedDuopoly_nested nestedDuopoly_nonneg (fun _ : Fin 2 => (0 : Fin 1)) (fun _ _ _ => rfl) fun _ => 1
  exact ⟨x, fun k => (C150_markups nestedDuopoly_nested nestedDuopoly_nonneg _ _ x hx k).1, hlim⟩

/-- A merger of both firms of the nest. -/
example : ∃ x x' : Fin 2 → ℝ, priceContraction nestedDuopoly duopolyPrices (ownershipFromIds (id : Fin 2 → Fin 2)) (fun _ _ => 1) x = x ∧
    priceContraction nestedDuopoly duopolyPrices (ownershipFromIds fun _ : Fin 2 => ()) (fun _ _ => 1) x' = x' ∧ (∀ k, x k ≤ x' k) ∧ ∃ k, x k < x' k := by
  obtain ⟨x, hx, -⟩ := C150_exists_unique nestedDuopoly_nested nestedDuopoly_nonneg (id : Fin 2 → Fin 2) fun _ => 1
  obtain ⟨x', hx', -⟩ := C150_exists_unique nestedDuopoly_nested nestedDuopoly_nonneg (fun _ : Fin 2 => ()) fun _ => 1
  exact ⟨x, x', hx, hx', C150_merger_prices nestedDuopoly_nested nestedDuopoly_nonneg _ _ _ duopoly_merger x x' hx hx'⟩

/-- Iteration after the merger from prices before it. -/
example : ∃ x x' : Fin 2 → ℝ, priceContraction nestedDuopoly duopolyPrices (ownershipFromIds (id : Fin 2 → Fin 2)) (fun _ _ => 1) x = x ∧ x ≠ x' ∧
    Filter.Tendsto (fun i => (priceContraction nestedDuopoly duopolyPrices (ownershipFromIds fun _ : Fin 2 => ()) (fun _ _ => 1))^[i] x) Filter.atTop (nhds x') := by
  obtain ⟨x, hx, -⟩ := C150_exists_unique nestedDuopoly_nested nestedDuopoly_nonneg (id : Fin 2 → Fin 2) fun _ => 1
  obtain ⟨x', hx', -⟩ := C150_exists_unique nestedDuopoly_nested nestedDuopoly_nonneg (fun _ : Fin 2 => ()) fun _ => 1
  obtain ⟨-, k, hlt⟩ := C150_merger_prices nestedDuopoly_nested nestedDuopoly_nonneg _ _ _ duopoly_merger x x' hx hx'
  refine ⟨x, x', hx, fun he => ?_, (C150_merger_rises nestedDuopoly_nested nestedDuopoly_nonneg (fun _ : Fin 2 => ()) (fun _ _ _ => rfl) (id : Fin 2 → Fin 2) (fun _ _ _ => rfl) (fun _ => 1) x x' hx hx').2.2⟩
  rw [he] at hlt
  exact lt_irrefl _ hlt

/-- Two nests with two products each. -/
noncomputable def twoNestMarket : Market (Fin 2 × Fin 2) Unit (Fin 2) where
  nesting := some ⟨Prod.fst, .single (1 / 2)⟩
  epsilonScale := 1
  weights := fun _ => 1
  availability := none

/-- Prices of all four products are 3, and utility is linear in prices with coefficient -1. -/
noncomputable def twoNestPrices : Characteristic (Fin 2 × Fin 2) Unit Unit (Fin 0) where
  delta := fun _ => 0
  x0 := fun _ => 3
  beta := fun _ => -1
  has1 := fun _ => true
  x1 := fun _ _ t => t
  d1 := fun _ _ _ => 1
  dd1 := fun _ _ _ => 0
  coef := fun k => k.elim0
  has2 := fun k => k.elim0
  x2 := fun k => k.elim0
  d2 := fun k => k.elim0
  dd2 := fun k => k.elim0

theorem twoNests_nested : Spec.NestedLogit twoNestMarket ⟨Prod.fst, .single (1 / 2)⟩ twoNestPrices where
  nesting := rfl
  availability := rfl
  scale := rfl
  weights := by simp [twoNestMarket]
  below := fun _ => by simp only [RhoParam.groupRho]; norm_num
  linear := fun _ _ _ _ => ⟨rfl, rfl⟩
  decreasing := by simp [twoNestPrices]

/-- Two firms that have one product in each nest. -/
example (costs : Fin 2 × Fin 2 → ℝ) : ∃! x, Spec.NashEquilibrium (sharesAt twoNestMarket twoNestPrices) costs (Prod.snd : Fin 2 × Fin 2 → Fin 2) x :=
  C150_exists_unique_nash twoNests_nested (fun g => by simp only [RhoParam.groupRho]; norm_num) Prod.snd costs

end Pyblp
