import Verif.Props.Supply
import Verif.Props.Iteration

/-!
# C86: when the iteration for equilibrium prices stops

docs/background.rst:370: iteration terminates when the norm of firms' first order conditions is small. The contraction hands the
iteration routine weights (pyblp/markets/market.py:843), and the routine looks at weighted differences.
-/

set_option linter.unusedSectionVars false

namespace Pyblp

variable {J A G K1 K2 : Type} [Fintype J] [DecidableEq J] [Nonempty J] [Fintype G] [DecidableEq G] [Fintype A]
  [Fintype K1] [Fintype K2]

/-- The contraction of `compute_equilibrium_prices` as the iteration routines see it, pyblp/markets/market.py:813-848: the next
prices, and weights. Prices that are not finite are not modelled (`getD 0`): iterates are finite, see `C14_simple`. -/
noncomputable def priceStep (m : Market J A G) (c : Characteristic J A K1 K2) (O : J → J → ℝ) (costOf : J → ℝ → ℝ) :
    Contraction J := fun _ x =>
  let prices := fun j => (x j).getD 0
  (lift (priceContraction m c O costOf prices), some (lift (priceWeights m c prices)))

/-- Specification: the derivative of the profit that counts when setting the price of `j` is less than `tolerance` in absolute
value. -/
def Spec.NearlyFirstOrder (shares : (J → ℝ) → J → ℝ) (w costs p : J → ℝ) (tolerance : ℝ) (j : J) : Prop :=
  ∃ slope, HasDerivAt (Spec.pricingProfit shares w costs p j) slope (p j) ∧ |slope| < tolerance

/-- **C86.** The weighted step from `x` to the next prices is, in absolute value, the derivative at `x` of the profit that counts
when setting the price of `j`. -/
theorem C86_weights (m : Market J A G) (hm : WellFormed m) (c : Characteristic J A K1 K2) (hc : c.Smooth)
    (O : J → J → ℝ) (hO : ∀ j, O j j = 1) (costOf : J → ℝ → ℝ) (x : J → ℝ) (j : J)
    (hl : capitalLamda m (probabilitiesAt m c x) (utilityDerivatives m c x) j ≠ 0) :
    ∃ slope, HasDerivAt (Spec.pricingProfit (sharesAt m c) (fun k => O k j) (fun k => costOf k (sharesAt m c x k)) x j)
        slope (x j) ∧
      |priceWeights m c x j * (priceContraction m c O costOf x j - x j)| = |slope| := by
  refine ⟨_, hasDerivAt_pricingProfit m hm c hc _ _ x j, ?_⟩
  simp only [hO j, one_mul]
  set cost := fun k => costOf k (sharesAt m c x k) with hcost
  set L := capitalLamda m (probabilitiesAt m c x) (utilityDerivatives m c x) j with hL
  have hinv : capitalLamdaInverse m c x j = 1 / L := by simp [capitalLamdaInverse, ← hL, hl]
  set Gam := capitalGamma m (probabilitiesAt m c x) (conditionalsAt m c x) (utilityDerivatives m c x) with hG
  have hsum : ∑ k, O k j * ((x k - costOf k (sharesAt m c x k)) * jacobianAt m c x k j) =
      L * (x j - cost j) - ∑ k, O k j * Gam k j * (x k - cost k) := by
    have : ∀ k, O k j * ((x k - costOf k (sharesAt m c x k)) * jacobianAt m c x k j) =
        (if k = j then L * (x j - cost j) else 0) - O k j * Gam k j * (x k - cost k) := by
      intro k
      simp only [jacobianAt, sharesJacobian, ← hG]
      by_cases h : k = j
      · subst h; simp only [if_true, ← hL, hO k, hcost]; ring
      · simp only [h, if_false, hcost]; ring
    rw [Finset.sum_congr rfl fun k _ => this k]
    simp only [Finset.sum_sub_distrib, Finset.sum_ite_eq', Finset.mem_univ, if_true]
  rw [hsum]
  simp only [priceContraction, zeta, hinv, ← hG, priceWeights, ← hL]
  have hcost' : ∀ k, costOf k (sharesAt m c x k) = cost k := fun _ => rfl
  simp only [hcost']
  set S := ∑ k, O k j * Gam k j * (x k - cost k)
  rw [abs_mul, abs_abs, ← abs_mul, ← abs_neg]
  congr 1
  field_simp
  ring

lemma within_weighted (atol : ℝ) (x y w : J → ℝ) (h : Spec.Within infinityNorm atol 0 (lift x) (lift y) (some (lift w))) (j : J) :
    |w j * (y j - x j)| < atol := by
  unfold Spec.Within at h
  obtain ⟨d, hd, hlt⟩ := h
  have hd : infinityNorm (lift fun i => w i * (y i - x i)) = some d := hd
  rw [infinityNorm_lift] at hd
  rw [if_neg (lt_irrefl _)] at hlt
  have := norm_le_pi_norm (fun i => w i * (y i - x i)) j
  rw [Real.norm_eq_abs] at this
  rw [Option.some.injEq] at hd
  linarith

lemma finite_of_infinityNorm (z : FVec J) (d : ℝ) (h : infinityNorm z = some d) (j : J) : (z j).isSome := by
  unfold infinityNorm at h
  by_cases hf : z.Finite
  · exact hf j
  · rw [if_neg hf] at h; simp at h

lemma within_finite (atol rtol : ℝ) (last y w : FVec J) (h : Spec.Within infinityNorm atol rtol last y (some w)) (j : J) :
    (last j).isSome := by
  obtain ⟨d, hd, -⟩ := h
  have hj := finite_of_infinityNorm _ d hd j
  revert hj
  cases hl : last j <;> cases w j <;> cases y j <;> simp [hl]

lemma iterate_priceStep (m : Market J A G) (c : Characteristic J A K1 K2) (O : J → J → ℝ) (costOf : J → ℝ → ℝ) (x : J → ℝ) (n : ℕ) :
    ∃ y, Spec.iterate (priceStep m c O costOf) (lift x) n = lift y := by
  cases n with
  | zero => exact ⟨x, rfl⟩
  | succ n => exact ⟨_, rfl⟩

/-- **C86, `simple` iteration.** If the iteration for equilibrium prices with the default norm and no relative tolerance reports
convergence, the prices it returns are the image under the contraction of prices at which all first order conditions hold up to
the absolute tolerance. -/
theorem C86_simple (m : Market J A G) (hm : WellFormed m) (c : Characteristic J A K1 K2) (hc : c.Smooth)
    (O : J → J → ℝ) (hO : ∀ j, O j j = 1) (costOf : J → ℝ → ℝ) (initial : J → ℝ) (maxEvaluations : ℕ) (hmax : 1 ≤ maxEvaluations)
    (atol : ℝ) (hl : ∀ x j, capitalLamda m (probabilitiesAt m c x) (utilityDerivatives m c x) j ≠ 0)
    (hconv : (simpleIterator ⟨maxEvaluations, atol, 0, infinityNorm⟩ (priceStep m c O costOf) (lift initial)).converged = true) :
    ∃ last, (simpleIterator ⟨maxEvaluations, atol, 0, infinityNorm⟩ (priceStep m c O costOf) (lift initial)).x =
        lift (priceContraction m c O costOf last) ∧
      ∀ j, Spec.NearlyFirstOrder (sharesAt m c) (fun k => O k j) (fun k => costOf k (sharesAt m c last k)) last atol j := by
  obtain ⟨h1, -, -, h4, -⟩ := C14_simple ⟨maxEvaluations, atol, 0, infinityNorm⟩ hmax (priceStep m c O costOf) (lift initial)
  obtain ⟨-, hx, -, hw⟩ := h4 hconv
  set r := simpleIterator ⟨maxEvaluations, atol, 0, infinityNorm⟩ (priceStep m c O costOf) (lift initial)
  obtain ⟨n, hn⟩ : ∃ n, r.calls = n + 1 := ⟨r.calls - 1, by omega⟩
  rw [hn] at hx hw
  simp only [Nat.add_sub_cancel] at hw
  obtain ⟨y, hy⟩ := iterate_priceStep m c O costOf initial n
  have hnext : Spec.iterate (priceStep m c O costOf) (lift initial) (n + 1) = lift (priceContraction m c O costOf y) := by
    simp only [Spec.iterate, hy]; rfl
  have hweights : Spec.weights (priceStep m c O costOf) (lift initial) n = some (lift (priceWeights m c y)) := by
    simp only [Spec.weights, hy]; rfl
  refine ⟨y, hx.trans hnext, fun j => ?_⟩
  rw [hnext, hweights, hy] at hw
  obtain ⟨slope, hs, he⟩ := C86_weights m hm c hc O hO costOf y j (hl y j)
  exact ⟨slope, hs, he ▸ within_weighted atol y _ _ hw j⟩

/-- **C86, SQUAREM.** The same for accelerated iteration, for the prices at which the contraction was evaluated last. -/
theorem C86_squarem (m : Market J A G) (hm : WellFormed m) (c : Characteristic J A K1 K2) (hc : c.Smooth)
    (O : J → J → ℝ) (hO : ∀ j, O j j = 1) (costOf : J → ℝ → ℝ) (initial : J → ℝ) (maxEvaluations : ℕ) (hmax : 1 ≤ maxEvaluations)
    (atol : ℝ) (s : SquaremOptions) (stepMin stepMax : ℝ)
    (hl : ∀ x j, capitalLamda m (probabilitiesAt m c x) (utilityDerivatives m c x) j ≠ 0)
    (hconv : (squaremIterator ⟨maxEvaluations, atol, 0, infinityNorm⟩ s stepMin stepMax (priceStep m c O costOf)
      (lift initial)).converged = true) :
    ∃ last, (squaremIterator ⟨maxEvaluations, atol, 0, infinityNorm⟩ s stepMin stepMax (priceStep m c O costOf)
        (lift initial)).x = lift (priceContraction m c O costOf last) ∧
      ∀ j, Spec.NearlyFirstOrder (sharesAt m c) (fun k => O k j) (fun k => costOf k (sharesAt m c last k)) last atol j := by
  obtain ⟨-, -, last, h4, -⟩ := C15_squarem ⟨maxEvaluations, atol, 0, infinityNorm⟩ hmax s stepMin stepMax
    (priceStep m c O costOf) (lift initial)
  obtain ⟨-, hx, -, hw⟩ := h4 hconv
  have hfin : ∀ j, (last j).isSome := by
    intro j
    exact within_finite _ _ _ _ _ hw j
  obtain ⟨y, rfl⟩ : ∃ y, last = lift y := ⟨fun j => (last j).getD 0, by
    funext j
    obtain ⟨v, hv⟩ := Option.isSome_iff_exists.mp (hfin j)
    simp [lift, hv]⟩
  refine ⟨y, hx, fun j => ?_⟩
  obtain ⟨slope, hs, he⟩ := C86_weights m hm c hc O hO costOf y j (hl y j)
  exact ⟨slope, hs, he ▸ within_weighted atol y _ _ hw j⟩

/-- Without any demand a product does not move the iteration: its next price is its marginal cost, and it does not count. -/
theorem C86_no_demand (m : Market J A G) (c : Characteristic J A K1 K2) (O : J → J → ℝ) (costOf : J → ℝ → ℝ) (x : J → ℝ) (j : J)
    (hn : m.nesting = none) (h : ∀ i, probabilitiesAt m c x j i = 0) :
    priceContraction m c O costOf x j = costOf j (sharesAt m c x j) ∧ priceWeights m c x j = 0 := by
  have hL : capitalLamda m (probabilitiesAt m c x) (utilityDerivatives m c x) j = 0 := by
    simp [capitalLamda, hn, h]
  have hG : ∀ k, capitalGamma m (probabilitiesAt m c x) (conditionalsAt m c x) (utilityDerivatives m c x) k j = 0 := by
    intro k; simp [capitalGamma, hn, h]
  have hs : sharesAt m c x j = 0 := by simp [sharesAt, h]
  simp [priceContraction, zeta, priceWeights, hL, hG, hs]

/-- Non-vacuity: in the duopoly at prices of 3 and costs of 1, the step is -1/3, the weight 1/3 and the slope -1/9. -/
example : ∃ slope, HasDerivAt (Spec.pricingProfit (sharesAt duopoly duopolyPrices)
      (fun k => ownershipFromIds (id : Fin 2 → Fin 2) k 0) (fun _ => 1) (fun _ => 3) 0) slope 3 ∧
    |priceWeights duopoly duopolyPrices (fun _ => 3) 0 *
      (priceContraction duopoly duopolyPrices (ownershipFromIds (id : Fin 2 → Fin 2)) (fun _ _ => 1) (fun _ => 3) 0 - 3)| =
      |slope| ∧ |slope| = 1 / 9 := by
  have hl : capitalLamda duopoly (probabilitiesAt duopoly duopolyPrices (fun _ => 3))
      (utilityDerivatives duopoly duopolyPrices (fun _ => 3)) 0 ≠ 0 := by rw [duopoly_lamda]; norm_num
  obtain ⟨slope, h1, h2⟩ := C86_weights duopoly duopoly_wellFormed duopolyPrices duopolyPrices_smooth
    (ownershipFromIds (id : Fin 2 → Fin 2)) (fun j => by simp [ownershipFromIds]) (fun _ _ => 1) (fun _ => 3) 0 hl
  refine ⟨slope, h1, h2, ?_⟩
  rw [← h2]
  simp only [priceWeights, priceContraction, zeta, capitalLamdaInverse, duopoly_lamda, duopoly_gamma, duopoly_shares,
    Fin.sum_univ_two, ownershipFromIds]
  norm_num

end Pyblp
