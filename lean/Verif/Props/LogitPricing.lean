import Verif.Lemmas.Oligopoly
import Verif.Props.PriceIteration
import Verif.Props.Inversion
import Verif.Props.PostEstimation

/-!
# C125: merger simulation with plain logit demand

Equilibrium prices are fixed points of `priceContraction` (pyblp/markets/market.py:813-848), ownership comes from firm IDs and costs are
constant. The economics is in `Verif/Lemmas/Oligopoly.lean`; this file links it to the model of the code.
-/

set_option linter.unusedSectionVars false

namespace Pyblp

open Finset

variable {J A G K1 K2 F F' : Type} [Fintype J] [DecidableEq J] [Nonempty J] [Fintype G] [DecidableEq G] [Fintype A]
  [Fintype K1] [Fintype K2] [IsEmpty K2] [DecidableEq F] [DecidableEq F']

namespace Spec

/-- Plain logit demand: there are no nesting groups, random coefficients (`K2` is empty) or availability, weights sum to one, and utility is linear and
decreasing in prices. -/
structure PlainLogit (m : Market J A G) (c : Characteristic J A K1 K2) : Prop where
  nesting : m.nesting = none
  availability : m.availability = none
  scale : 0 < m.epsilonScale
  weights : ∑ i, m.weights i = 1
  linear : ∀ k, c.has1 k = true → ∀ j t, c.x1 k j t = t ∧ c.d1 k j t = 1
  decreasing : ∑ k with c.has1 k = true, c.beta k < 0

/-- By how much utility, relative to the scale of idiosyncratic preferences, decreases with a price. -/
noncomputable def sensitivity (m : Market J A G) (c : Characteristic J A K1 K2) : ℝ := -(∑ k with c.has1 k = true, c.beta k) / m.epsilonScale

/-- The total share of a firm. -/
def firmShare (shares : J → ℝ) (firm : J → F) (f : F) : ℝ := ∑ k with firm k = f, shares k

/-- Profits of a firm. -/
def jointProfit (shares : (J → ℝ) → J → ℝ) (costs : J → ℝ) (firm : J → F) (f : F) (p : J → ℝ) : ℝ :=
  ∑ k with firm k = f, shares p k * (p k - costs k)

/-- No firm can gain by changing any of its prices in any way. -/
def NashEquilibrium (shares : (J → ℝ) → J → ℝ) (costs : J → ℝ) (firm : J → F) (p : J → ℝ) : Prop :=
  ∀ f q, (∀ k, firm k ≠ f → q k = p k) → jointProfit shares costs firm f q ≤ jointProfit shares costs firm f p

/-- Products of the same firm stay with the same firm, and some firms merge. -/
def Merger (firm : J → F) (firm' : J → F') : Prop :=
  (∀ j k, firm j = firm k → firm' j = firm' k) ∧ ∃ j k, firm' j = firm' k ∧ firm j ≠ firm k

end Spec

variable (m : Market J A G) (c : Characteristic J A K1 K2)

/-- Exponentials of utilities at cost. -/
noncomputable def atCost (costs : J → ℝ) (j : J) : ℝ :=
  Real.exp ((c.delta j - (∑ k with c.has1 k = true, c.beta k) * c.x0 j) / m.epsilonScale - Spec.sensitivity m c * costs j)

/-- Markups relative to sensitivity. -/
noncomputable def relativeMarkup (costs x : J → ℝ) (j : J) : ℝ := Spec.sensitivity m c * (x j - costs j)

theorem atCost_pos (costs : J → ℝ) (j : J) : 0 < atCost m c costs j := Real.exp_pos _

section

variable {m c} (h : Spec.PlainLogit m c)

include h

theorem sensitivity_pos : 0 < Spec.sensitivity m c := div_pos (by linarith [h.decreasing]) h.scale

theorem plain_utility (costs x : J → ℝ) (j : J) (i : A) :
    Real.exp ((updateDelta c x j + updateMu c x j i) / m.epsilonScale) = atCost m c costs j * Real.exp (-relativeMarkup m c costs x j) := by
  have hd : updateDelta c x j = c.delta j + (∑ k with c.has1 k = true, c.beta k) * (x j - c.x0 j) := by
    rw [updateDelta, Finset.sum_mul]
    congr 1
    refine Finset.sum_congr rfl fun k hk => ?_
    have := h.linear k (by simpa using hk) j
    rw [(this _).1, (this _).1]
  have hm : updateMu c x j i = 0 := by simp [updateMu]
  rw [hd, hm, atCost, ← Real.exp_add, relativeMarkup, Spec.sensitivity]
  congr 1
  field_simp
  ring

theorem plain_probabilities (costs x : J → ℝ) (j : J) (i : A) :
    probabilitiesAt m c x j i = Oligopoly.share (atCost m c costs) (relativeMarkup m c costs x) j := by
  have hmul : ∀ k, multiplier m {} i k = 1 := by
    intro k
    simp [multiplier, h.availability]
  rw [probabilitiesAt, computeProbabilities_plain m {} _ _ h.nesting i j]
  simp only [Spec.logit, hmul, one_mul, Oligopoly.share, Oligopoly.denom, plain_utility h costs x, Bool.false_eq_true, if_false]

theorem plain_shares (costs x : J → ℝ) (j : J) : sharesAt m c x j = Oligopoly.share (atCost m c costs) (relativeMarkup m c costs x) j := by
  simp only [sharesAt, plain_probabilities h costs x]
  rw [← Finset.mul_sum, h.weights, mul_one]

theorem plain_derivative (x : J → ℝ) (j : J) (i : A) : utilityDerivatives m c x j i = -Spec.sensitivity m c := by
  have hd : (∑ k, (if c.has1 k then c.d1 k j (x j) else 0) * c.beta k) = ∑ k with c.has1 k = true, c.beta k := by
    rw [Finset.sum_filter]
    refine Finset.sum_congr rfl fun k _ => ?_
    by_cases hk : c.has1 k = true
    · rw [if_pos hk, if_pos hk, (h.linear k hk j _).2, one_mul]
    · rw [if_neg hk, if_neg hk, zero_mul]
  simp only [utilityDerivatives, hd, Finset.univ_eq_empty, Finset.sum_empty, add_zero, Spec.sensitivity]
  split
  · ring
  · rename_i he
    push Not at he
    rw [he]
    ring

theorem share_pos (costs x : J → ℝ) (j : J) : 0 < Oligopoly.share (atCost m c costs) (relativeMarkup m c costs x) j :=
  div_pos (mul_pos (Real.exp_pos _) (Real.exp_pos _)) (lt_of_lt_of_le one_pos (Oligopoly.denom_ge _ (atCost_pos m c costs) _))

theorem plain_lamda (x : J → ℝ) (j : J) :
    capitalLamda m (probabilitiesAt m c x) (utilityDerivatives m c x) j = -(Spec.sensitivity m c * sharesAt m c x j) := by
  simp only [capitalLamda, h.nesting, plain_derivative h, sharesAt, Finset.mul_sum, ← Finset.sum_neg_distrib]
  exact Finset.sum_congr rfl fun i _ => by ring

theorem plain_gamma (x : J → ℝ) (j k : J) :
    capitalGamma m (probabilitiesAt m c x) (conditionalsAt m c x) (utilityDerivatives m c x) j k =
      -(Spec.sensitivity m c * sharesAt m c x j * sharesAt m c x k) := by
  simp only [capitalGamma, h.nesting, plain_derivative h, plain_probabilities h (fun _ => 0), plain_shares h (fun _ => 0)]
  have : ∀ (p q s : ℝ), ∑ i, p * (m.weights i * (q * s)) = p * q * s := by
    intro p q s
    have : ∑ i, p * (m.weights i * (q * s)) = (∑ i, m.weights i) * (p * q * s) := by
      rw [Finset.sum_mul]
      exact Finset.sum_congr rfl fun i _ => by ring
    rw [this, h.weights, one_mul]
  rw [this]
  ring

theorem jointProfit_eq (costs : J → ℝ) (firm : J → F) (f : F) (x : J → ℝ) :
    Spec.sensitivity m c * Spec.jointProfit (sharesAt m c) costs firm f x =
      Oligopoly.profit firm (atCost m c costs) (relativeMarkup m c costs x) f := by
  simp only [Spec.jointProfit, Oligopoly.profit, Finset.mul_sum, Finset.sum_div, plain_shares h costs, Oligopoly.share, relativeMarkup]
  exact Finset.sum_congr rfl fun k _ => by ring

theorem contraction_eq (costs : J → ℝ) (firm : J → F) (x : J → ℝ) (j : J) :
    priceContraction m c (ownershipFromIds firm) (fun k _ => costs k) x j =
      costs j + Oligopoly.step firm (atCost m c costs) (relativeMarkup m c costs x) j / Spec.sensitivity m c := by
  have ha := sensitivity_pos h
  have hs : 0 < sharesAt m c x j := by rw [plain_shares h costs]; exact share_pos h costs x j
  have hinv : capitalLamdaInverse m c x j = -(1 / (Spec.sensitivity m c * sharesAt m c x j)) := by
    simp only [capitalLamdaInverse, plain_lamda h]
    rw [if_neg (by have := mul_pos ha hs; linarith)]
    rw [div_neg]
  simp only [priceContraction, zeta, hinv, plain_gamma h, Oligopoly.step, ← jointProfit_eq h costs firm, Spec.jointProfit]
  have hsum : (∑ k, ownershipFromIds firm k j * -(Spec.sensitivity m c * sharesAt m c x k * sharesAt m c x j) * (x k - costs k)) =
      -(Spec.sensitivity m c * sharesAt m c x j * ∑ k with firm k = firm j, sharesAt m c x k * (x k - costs k)) := by
    rw [Finset.mul_sum, ← Finset.sum_neg_distrib, Finset.sum_filter]
    refine Finset.sum_congr rfl fun k _ => ?_
    simp only [ownershipFromIds]
    split <;> ring
  rw [hsum]
  field_simp
  ring

theorem relativeMarkup_contraction (costs : J → ℝ) (firm : J → F) (x : J → ℝ) :
    relativeMarkup m c costs (priceContraction m c (ownershipFromIds firm) (fun k _ => costs k) x) =
      Oligopoly.step firm (atCost m c costs) (relativeMarkup m c costs x) := by
  have ha := (sensitivity_pos h).ne'
  funext j
  rw [relativeMarkup, contraction_eq h, add_sub_cancel_left, mul_div_cancel₀ _ ha]

theorem relativeMarkup_injective (costs : J → ℝ) : Function.Injective (relativeMarkup m c costs) := by
  intro x y hxy
  funext j
  have := congrFun hxy j
  simp only [relativeMarkup] at this
  linarith [mul_left_cancel₀ (sensitivity_pos h).ne' this]

theorem fixed_iff (costs : J → ℝ) (firm : J → F) (x : J → ℝ) :
    priceContraction m c (ownershipFromIds firm) (fun k _ => costs k) x = x ↔
      Oligopoly.step firm (atCost m c costs) (relativeMarkup m c costs x) = relativeMarkup m c costs x := by
  rw [← relativeMarkup_contraction h]
  exact ⟨fun he => by rw [he], fun he => relativeMarkup_injective h costs he⟩

theorem relativeMarkup_prices (costs z : J → ℝ) : relativeMarkup m c costs (fun j => costs j + z j / Spec.sensitivity m c) = z := by
  funext j
  rw [relativeMarkup, add_sub_cancel_left, mul_div_cancel₀ _ (sensitivity_pos h).ne']

/-! ## Equilibria -/

/-- **C125.** Prices at which the iteration for equilibrium prices stops are those at which each firm's products have the same
markup, one over sensitivity times one minus the firm's share. -/
theorem C125_markups (costs : J → ℝ) (firm : J → F) (x : J → ℝ) :
    priceContraction m c (ownershipFromIds firm) (fun k _ => costs k) x = x ↔
      ∀ j, x j - costs j = 1 / (Spec.sensitivity m c * (1 - Spec.firmShare (sharesAt m c x) firm (firm j))) := by
  have ha := sensitivity_pos h
  have hE := atCost_pos m c costs
  set mu := relativeMarkup m c costs x with hmu
  have hH : (0 : ℝ) < Oligopoly.denom (atCost m c costs) mu := lt_of_lt_of_le one_pos (Oligopoly.denom_ge _ hE mu)
  have hshare : ∀ f, Spec.firmShare (sharesAt m c x) firm f = Oligopoly.own firm (atCost m c costs) mu f / Oligopoly.denom (atCost m c costs) mu := by
    intro f
    simp only [Spec.firmShare, plain_shares h costs, Oligopoly.share, Oligopoly.own, Finset.sum_div, hmu]
  have hone : ∀ f, 1 - Spec.firmShare (sharesAt m c x) firm f =
      Oligopoly.rival firm (atCost m c costs) mu f / Oligopoly.denom (atCost m c costs) mu := by
    intro f
    rw [hshare, eq_div_iff hH.ne', sub_mul, div_mul_cancel₀ _ hH.ne', one_mul, Oligopoly.denom_eq firm _ mu f]
    ring
  have hR : ∀ f, 0 < Oligopoly.rival firm (atCost m c costs) mu f := fun f => lt_of_lt_of_le one_pos (Oligopoly.rival_ge firm _ hE mu f)
  rw [fixed_iff h]
  constructor
  · intro hfix j
    obtain ⟨h1, -, h3⟩ := Oligopoly.fixed_eq firm _ hE mu hfix j
    rw [hone, eq_div_iff (mul_pos ha (div_pos (hR _) hH)).ne']
    have : mu j * Oligopoly.rival firm (atCost m c costs) mu (firm j) = Oligopoly.denom (atCost m c costs) mu := by
      rw [Oligopoly.denom_eq firm _ mu (firm j), h3, ← h1]
      ring
    rw [show (x j - costs j) * (Spec.sensitivity m c * (Oligopoly.rival firm (atCost m c costs) mu (firm j) / Oligopoly.denom (atCost m c costs) mu)) =
      mu j * Oligopoly.rival firm (atCost m c costs) mu (firm j) / Oligopoly.denom (atCost m c costs) mu by
        simp only [hmu, relativeMarkup]; ring, this, div_self hH.ne']
  · intro hx
    have hmuj : ∀ j, mu j * Oligopoly.rival firm (atCost m c costs) mu (firm j) = Oligopoly.denom (atCost m c costs) mu := by
      intro j
      have := hx j
      rw [hone, eq_div_iff (mul_pos ha (div_pos (hR _) hH)).ne'] at this
      have e : (x j - costs j) * (Spec.sensitivity m c * (Oligopoly.rival firm (atCost m c costs) mu (firm j) / Oligopoly.denom (atCost m c costs) mu)) =
        mu j * Oligopoly.rival firm (atCost m c costs) mu (firm j) / Oligopoly.denom (atCost m c costs) mu := by
          simp only [hmu, relativeMarkup]; ring
      rw [e, div_eq_one_iff_eq hH.ne'] at this
      exact this
    funext j
    have hcommon : ∀ k, firm k = firm j → mu k = mu j := by
      intro k hk
      have h1 := hmuj k
      rw [hk, ← hmuj j] at h1
      exact mul_right_cancel₀ (hR _).ne' h1
    obtain ⟨ho, hp⟩ := Oligopoly.profit_common firm _ hE mu (firm j) (mu j) hcommon
    rw [← ho, ← Oligopoly.denom_eq] at hp
    have hpj : Oligopoly.profit firm (atCost m c costs) mu (firm j) = mu j - 1 := by
      apply mul_right_cancel₀ hH.ne'
      rw [hp]
      have := hmuj j
      have hd := Oligopoly.denom_eq firm (atCost m c costs) mu (firm j)
      linear_combination -this - mu j * hd
    rw [← hmu, Oligopoly.step, hpj]
    ring

/-- **C125.** These are exactly the prices at which no firm can gain by changing any of its prices in any way, not only a little. -/
theorem C125_nash (costs : J → ℝ) (firm : J → F) (x : J → ℝ) :
    priceContraction m c (ownershipFromIds firm) (fun k _ => costs k) x = x ↔ Spec.NashEquilibrium (sharesAt m c) costs firm x := by
  have ha := sensitivity_pos h
  have hE := atCost_pos m c costs
  rw [fixed_iff h]
  constructor
  · intro hfix f q hq
    have := Oligopoly.fixed_optimal firm _ hE _ hfix f (relativeMarkup m c costs q) fun k hk => by simp only [relativeMarkup, hq k hk]
    rw [← jointProfit_eq h, ← jointProfit_eq h] at this
    exact le_of_mul_le_mul_left this ha
  · intro hnash
    by_contra hne
    obtain ⟨j, hj⟩ := Function.ne_iff.mp hne
    have hgain := Oligopoly.step_gains firm _ hE _ j hj
    set y : J → ℝ := fun k => if firm k = firm j then Oligopoly.step firm (atCost m c costs) (relativeMarkup m c costs x) k else relativeMarkup m c costs x k with hy
    have := hnash (firm j) (fun k => costs k + y k / Spec.sensitivity m c) fun k hk => by
      simp only [hy, if_neg hk, relativeMarkup]
      rw [mul_div_cancel_left₀ _ ha.ne']
      ring
    have h2 := mul_le_mul_of_nonneg_left this ha.le
    rw [jointProfit_eq h, jointProfit_eq h, relativeMarkup_prices h] at h2
    linarith

/-- **C125.** There are such prices, and only one set of them. -/
theorem C125_exists_unique (costs : J → ℝ) (firm : J → F) :
    ∃! x, priceContraction m c (ownershipFromIds firm) (fun k _ => costs k) x = x := by
  have hE := atCost_pos m c costs
  obtain ⟨z, hz⟩ := Oligopoly.exists_fixed firm _ hE
  refine ⟨fun j => costs j + z j / Spec.sensitivity m c, ?_, fun y hy => ?_⟩
  · simp only
    rw [fixed_iff h, relativeMarkup_prices h, hz]
  · apply relativeMarkup_injective h costs
    rw [relativeMarkup_prices h]
    exact Oligopoly.fixed_unique firm _ hE z _ hz ((fixed_iff h costs firm y).mp hy)

/-- **C125.** From any initial prices, iteration converges to them. -/
theorem C125_converges (costs : J → ℝ) (firm : J → F) (x : J → ℝ)
    (hx : priceContraction m c (ownershipFromIds firm) (fun k _ => costs k) x = x) (initial : J → ℝ) :
    Filter.Tendsto (fun n => (priceContraction m c (ownershipFromIds firm) (fun k _ => costs k))^[n] initial) Filter.atTop (nhds x) := by
  have ha := (sensitivity_pos h).ne'
  have hE := atCost_pos m c costs
  have hlim := Oligopoly.tendsto_fixed firm _ hE _ ((fixed_iff h costs firm x).mp hx) (relativeMarkup m c costs initial)
  have hiter : ∀ n, (Oligopoly.step firm (atCost m c costs))^[n] (relativeMarkup m c costs initial) =
      relativeMarkup m c costs ((priceContraction m c (ownershipFromIds firm) (fun k _ => costs k))^[n] initial) := by
    intro n
    induction n with
    | zero => rfl
    | succ n ih => rw [Function.iterate_succ_apply', Function.iterate_succ_apply', ih, relativeMarkup_contraction h]
  simp only [hiter] at hlim
  rw [tendsto_pi_nhds] at hlim ⊢
  intro j
  have := ((hlim j).div_const (Spec.sensitivity m c)).const_add (costs j)
  simp only [relativeMarkup, mul_div_cancel_left₀ _ ha, add_sub_cancel] at this
  exact this

/-- **C125, `simple` iteration.** With a positive absolute tolerance and enough evaluations, simple iteration reports convergence from
whatever initial prices. What can be said about the prices it then returns is the subject of `C86_simple`. -/
theorem C125_simple (costs : J → ℝ) (firm : J → F) (initial : J → ℝ) (atol : ℝ) (hatol : 0 < atol) :
    ∃ budget, ∀ maxEvaluations, budget ≤ maxEvaluations →
      (simpleIterator ⟨maxEvaluations, atol, 0, infinityNorm⟩ (priceStep m c (ownershipFromIds firm) fun k _ => costs k)
        (lift initial)).converged = true := by
  have ha := sensitivity_pos h
  obtain ⟨z, hz, -⟩ := C125_exists_unique h costs firm
  have hf := C125_converges h costs firm z hz initial
  set f := priceContraction m c (ownershipFromIds firm) (fun k _ => costs k) with hfdef
  set step := priceStep m c (ownershipFromIds firm) (fun k _ => costs k) with hstep
  have hlim : Filter.Tendsto (fun n => ‖f^[n + 1] initial - f^[n] initial‖) Filter.atTop (nhds 0) := by
    have := ((hf.comp (Filter.tendsto_add_atTop_nat 1)).sub hf).norm
    simpa using this
  obtain ⟨n, hn⟩ := (hlim.eventually (gt_mem_nhds (div_pos hatol ha))).exists
  have hiter : ∀ k, Spec.iterate step (lift initial) k = lift (f^[k] initial) := by
    intro k
    induction k with
    | zero => rfl
    | succ k ih =>
      rw [Function.iterate_succ_apply']
      simp only [Spec.iterate, ih]
      rfl
  have hweights : ∀ k, Spec.weights step (lift initial) k = some (lift (priceWeights m c (f^[k] initial))) := by
    intro k
    simp only [Spec.weights, hiter]
    rfl
  refine ⟨n + 2, fun maxEvaluations hmax => ?_⟩
  set r := simpleIterator ⟨maxEvaluations, atol, 0, infinityNorm⟩ step (lift initial) with hr
  obtain ⟨h1, h2, h3, h4, h5⟩ := C14_simple ⟨maxEvaluations, atol, 0, infinityNorm⟩ (by simp; omega) step (lift initial)
  change 1 ≤ r.calls at h1
  change r.calls ≤ maxEvaluations at h2
  have hgood : ∀ k, Spec.Good step (lift initial) k := by
    intro k
    refine ⟨fun i => ?_, fun w hw i => ?_⟩
    · rw [hiter]; rfl
    · rw [hweights, Option.some.injEq] at hw
      rw [← hw]
      rfl
  have hcalls : r.calls ≤ n + 1 := by
    by_contra hc
    have := (h3 n (by change n + 1 < r.calls; omega)).2
    rw [hiter, hiter, hweights] at this
    apply this
    refine ⟨_, infinityNorm_lift fun i => priceWeights m c (f^[n] initial) i * (f^[n + 1] initial i - f^[n] initial i), ?_⟩
    rw [if_neg (lt_irrefl _)]
    refine lt_of_le_of_lt ?_ ((lt_div_iff₀ ha).mp hn)
    refine (pi_norm_le_iff_of_nonneg (mul_nonneg (norm_nonneg _) ha.le)).mpr fun i => ?_
    have h6 := norm_le_pi_norm (f^[n + 1] initial - f^[n] initial) i
    rw [norm_mul, mul_comm]
    refine mul_le_mul h6 ?_ (norm_nonneg _) (norm_nonneg _)
    rw [priceWeights, plain_lamda h, plain_shares h costs, Real.norm_eq_abs, abs_abs, abs_neg, abs_mul, abs_of_pos ha, abs_of_pos (share_pos h costs _ i)]
    refine mul_le_of_le_one_right ha.le ?_
    refine div_le_one_of_le₀ ?_ (zero_le_one.trans (Oligopoly.denom_ge _ (atCost_pos m c costs) _))
    refine le_trans ?_ (le_add_of_nonneg_left zero_le_one)
    exact Finset.single_le_sum (f := fun k => atCost m c costs k * Real.exp (-relativeMarkup m c costs (f^[n] initial) k))
      (fun k _ => (mul_pos (atCost_pos m c costs k) (Real.exp_pos _)).le) (Finset.mem_univ i)
  by_contra hc
  rcases h5 (by change r.converged = false; simpa using hc) with ⟨h, _, _⟩ | ⟨h, _⟩
  · change r.calls = maxEvaluations at h; omega
  · exact h (hgood _)

/-! ## Mergers -/

theorem total_share (x : J → ℝ) : ∑ j, sharesAt m c x j < 1 := by
  have hE := atCost_pos m c (fun _ => 0)
  have hd := Oligopoly.denom_ge _ hE (relativeMarkup m c (fun _ => 0) x)
  simp only [plain_shares h (fun _ => 0), Oligopoly.share, ← Finset.sum_div]
  rw [div_lt_one (by linarith)]
  simp only [Oligopoly.denom]
  linarith

theorem firmShare_lt (firm : J → F) (x : J → ℝ) (f : F) : Spec.firmShare (sharesAt m c x) firm f < 1 := by
  refine lt_of_le_of_lt ?_ (total_share h x)
  exact Finset.sum_le_sum_of_subset_of_nonneg (Finset.filter_subset _ _) fun j _ _ => by
    rw [plain_shares h (fun _ => 0)]; exact (share_pos h _ x j).le

/-- **C125.** After a merger, equilibrium prices of all products are higher, whether they belong to firms that merged or not. -/
theorem C125_merger_prices (costs : J → ℝ) (firm : J → F) (firm' : J → F') (hm : Spec.Merger firm firm') (x x' : J → ℝ)
    (hx : priceContraction m c (ownershipFromIds firm) (fun k _ => costs k) x = x)
    (hx' : priceContraction m c (ownershipFromIds firm') (fun k _ => costs k) x' = x') (j : J) : x j < x' j := by
  have := Oligopoly.merger_lt firm _ firm' hm.1 (atCost_pos m c costs) _ _ ((fixed_iff h costs firm x).mp hx)
    ((fixed_iff h costs firm' x').mp hx') hm.2 j
  simp only [relativeMarkup] at this
  linarith [lt_of_mul_lt_mul_left this (sensitivity_pos h).le]

/-- **C125.** Started from prices before the merger, which is the default, iteration only ever raises prices, and never above those after
the merger. -/
theorem C125_merger_iterates (costs : J → ℝ) (firm : J → F) (firm' : J → F') (hm : Spec.Merger firm firm') (x x' : J → ℝ)
    (hx : priceContraction m c (ownershipFromIds firm) (fun k _ => costs k) x = x)
    (hx' : priceContraction m c (ownershipFromIds firm') (fun k _ => costs k) x' = x') (n : ℕ) (j : J) :
    (priceContraction m c (ownershipFromIds firm') (fun k _ => costs k))^[n] x j ≤
        (priceContraction m c (ownershipFromIds firm') (fun k _ => costs k))^[n + 1] x j ∧
      (priceContraction m c (ownershipFromIds firm') (fun k _ => costs k))^[n] x j ≤ x' j := by
  have ha := sensitivity_pos h
  have hE := atCost_pos m c costs
  have hmono : ∀ n j, (priceContraction m c (ownershipFromIds firm') (fun k _ => costs k))^[n] x j ≤
      (priceContraction m c (ownershipFromIds firm') (fun k _ => costs k))^[n + 1] x j := by
    have hsub : ∀ n j, relativeMarkup m c costs ((priceContraction m c (ownershipFromIds firm') (fun k _ => costs k))^[n] x) j ≤
        Oligopoly.step firm' (atCost m c costs)
          (relativeMarkup m c costs ((priceContraction m c (ownershipFromIds firm') (fun k _ => costs k))^[n] x)) j := by
      intro n
      induction n with
      | zero => exact fun j => (Oligopoly.merger_step firm _ firm' hm.1 hE _ ((fixed_iff h costs firm x).mp hx) j).1
      | succ n ih =>
        intro j
        rw [Function.iterate_succ_apply', relativeMarkup_contraction h]
        exact Oligopoly.step_mono firm' _ hE _ ih j
    intro n j
    have := hsub n j
    rw [← relativeMarkup_contraction h, ← Function.iterate_succ_apply' (priceContraction m c (ownershipFromIds firm') (fun k _ => costs k))] at this
    simp only [relativeMarkup] at this
    linarith [le_of_mul_le_mul_left this ha]
  refine ⟨hmono n j, ?_⟩
  have hlim := tendsto_pi_nhds.mp (C125_converges h costs firm' x' hx' x) j
  exact (monotone_nat_of_le_succ fun n => hmono n j).ge_of_tendsto hlim n

/-- **C125.** After a merger, every firm, whether it merged or not, earns more than its products did before. -/
theorem C125_merger_profits (costs : J → ℝ) (firm : J → F) (firm' : J → F') (hm : Spec.Merger firm firm') (x x' : J → ℝ)
    (hx : priceContraction m c (ownershipFromIds firm) (fun k _ => costs k) x = x)
    (hx' : priceContraction m c (ownershipFromIds firm') (fun k _ => costs k) x' = x') (j : J) :
    Spec.jointProfit (sharesAt m c) costs firm' (firm' j) x < Spec.jointProfit (sharesAt m c) costs firm' (firm' j) x' := by
  have := Oligopoly.merger_profit firm _ firm' hm.1 (atCost_pos m c costs) _ _ ((fixed_iff h costs firm x).mp hx)
    ((fixed_iff h costs firm' x').mp hx') hm.2 j
  rw [← jointProfit_eq h, ← jointProfit_eq h] at this
  exact lt_of_mul_lt_mul_left this (sensitivity_pos h).le

theorem denom_lt (costs x x' : J → ℝ) (hlt : ∀ j, x j < x' j) :
    Oligopoly.denom (atCost m c costs) (relativeMarkup m c costs x') < Oligopoly.denom (atCost m c costs) (relativeMarkup m c costs x) := by
  have ha := sensitivity_pos h
  simp only [Oligopoly.denom]
  refine add_lt_add_right ?_ 1
  refine Finset.sum_lt_sum_of_nonempty Finset.univ_nonempty fun k _ => ?_
  refine mul_lt_mul_of_pos_left (Real.exp_lt_exp.mpr ?_) (atCost_pos m c costs k)
  simp only [relativeMarkup]
  have := mul_lt_mul_of_pos_left (hlt k) ha
  linarith

theorem inside_eq (costs x : J → ℝ) :
    1 - ∑ j, sharesAt m c x j = 1 / Oligopoly.denom (atCost m c costs) (relativeMarkup m c costs x) := by
  have hd := Oligopoly.denom_ge _ (atCost_pos m c costs) (relativeMarkup m c costs x)
  have hd0 : Oligopoly.denom (atCost m c costs) (relativeMarkup m c costs x) ≠ 0 := by linarith
  simp only [plain_shares h costs, Oligopoly.share, ← Finset.sum_div]
  rw [eq_div_iff hd0, sub_mul, div_mul_cancel₀ _ hd0]
  simp only [Oligopoly.denom]
  ring

/-- **C125.** After a merger, more consumers choose the outside good, firms that did not merge sell more, and if only one firm
results from the merger, it sells less than its products did before. -/
theorem C125_merger_shares (costs : J → ℝ) (firm : J → F) (firm' : J → F') (hm : Spec.Merger firm firm') (x x' : J → ℝ)
    (hx : priceContraction m c (ownershipFromIds firm) (fun k _ => costs k) x = x)
    (hx' : priceContraction m c (ownershipFromIds firm') (fun k _ => costs k) x' = x') :
    1 - ∑ j, sharesAt m c x j < 1 - ∑ j, sharesAt m c x' j ∧
    (∀ f', (∀ j k, firm' j = f' → firm' k = f' → firm j = firm k) → (∃ j, firm' j = f') →
      Spec.firmShare (sharesAt m c x) firm' f' < Spec.firmShare (sharesAt m c x') firm' f') ∧
    (∀ f', (∀ j k, firm' j = firm' k → firm' j ≠ f' → firm j = firm k) →
      Spec.firmShare (sharesAt m c x') firm' f' < Spec.firmShare (sharesAt m c x) firm' f') := by
  have ha := sensitivity_pos h
  have hlt := C125_merger_prices h costs firm firm' hm x x' hx hx'
  have hout : 1 - ∑ j, sharesAt m c x j < 1 - ∑ j, sharesAt m c x' j := by
    rw [inside_eq h costs, inside_eq h costs]
    exact one_div_lt_one_div_of_lt (by linarith [Oligopoly.denom_ge _ (atCost_pos m c costs) (relativeMarkup m c costs x')]) (denom_lt h costs x x' hlt)
  have hrival : ∀ f', (∀ j k, firm' j = f' → firm' k = f' → firm j = firm k) → (∃ j, firm' j = f') →
      Spec.firmShare (sharesAt m c x) firm' f' < Spec.firmShare (sharesAt m c x') firm' f' := by
    rintro f' hsame ⟨j, rfl⟩
    have h1 := (C125_markups h costs firm x).mp hx j
    have h2 := (C125_markups h costs firm' x').mp hx' j
    have hset : Spec.firmShare (sharesAt m c x) firm (firm j) = Spec.firmShare (sharesAt m c x) firm' (firm' j) := by
      simp only [Spec.firmShare]
      congr 1
      ext k
      simp only [Finset.mem_filter, Finset.mem_univ, true_and]
      exact ⟨fun hk => hm.1 k j hk, fun hk => hsame k j hk rfl⟩
    rw [hset] at h1
    have hp1 : 0 < Spec.sensitivity m c * (1 - Spec.firmShare (sharesAt m c x) firm' (firm' j)) :=
      mul_pos ha (by linarith [firmShare_lt h firm' x (firm' j)])
    have hp2 : 0 < Spec.sensitivity m c * (1 - Spec.firmShare (sharesAt m c x') firm' (firm' j)) :=
      mul_pos ha (by linarith [firmShare_lt h firm' x' (firm' j)])
    have h3 : 1 / (Spec.sensitivity m c * (1 - Spec.firmShare (sharesAt m c x) firm' (firm' j))) <
        1 / (Spec.sensitivity m c * (1 - Spec.firmShare (sharesAt m c x') firm' (firm' j))) := by
      rw [← h1, ← h2]
      linarith [hlt j]
    have h4 := (one_div_lt_one_div hp1 hp2).mp h3
    linarith [lt_of_mul_lt_mul_left h4 ha.le]
  refine ⟨hout, hrival, fun f' honly => ?_⟩
  have hsplit : ∀ y, ∑ j, sharesAt m c y j = Spec.firmShare (sharesAt m c y) firm' f' + ∑ g ∈ (Finset.univ.image firm').erase f', Spec.firmShare (sharesAt m c y) firm' g := by
    intro y
    have hall : ∑ j, sharesAt m c y j = ∑ g ∈ Finset.univ.image firm', Spec.firmShare (sharesAt m c y) firm' g :=
      (Finset.sum_fiberwise_of_maps_to (fun j _ => Finset.mem_image_of_mem firm' (Finset.mem_univ j)) _).symm
    rw [hall]
    by_cases hf : f' ∈ Finset.univ.image firm'
    · rw [Finset.add_sum_erase _ _ hf]
    · have hempty : Spec.firmShare (sharesAt m c y) firm' f' = 0 := by
        refine Finset.sum_eq_zero fun k hk => ?_
        simp only [Finset.mem_filter, Finset.mem_univ, true_and] at hk
        exact absurd (Finset.mem_image.mpr ⟨k, Finset.mem_univ k, hk⟩) hf
      rw [hempty, Finset.erase_eq_of_notMem hf, zero_add]
  have hothers : ∑ g ∈ (Finset.univ.image firm').erase f', Spec.firmShare (sharesAt m c x) firm' g ≤
      ∑ g ∈ (Finset.univ.image firm').erase f', Spec.firmShare (sharesAt m c x') firm' g := by
    refine Finset.sum_le_sum fun g hg => ?_
    obtain ⟨hne, himg⟩ := Finset.mem_erase.mp hg
    obtain ⟨j, -, hj⟩ := Finset.mem_image.mp himg
    exact (hrival g (fun a b hA hB => honly a b (hA.trans hB.symm) (hA ▸ hne)) ⟨j, hj⟩).le
  have := hsplit x
  have := hsplit x'
  linarith

/-- Consumer surplus with plain logit demand. -/
theorem plain_surplus (first : J) (p : J → ℝ) :
    consumerSurplus m c first p (fun _ => false) =
      Real.log (1 + ∑ j, Real.exp (c.delta j + (∑ k with c.has1 k = true, c.beta k) * (p j - c.x0 j))) / Spec.sensitivity m c := by
  have hd : ∀ j, updateDelta c p j = c.delta j + (∑ k with c.has1 k = true, c.beta k) * (p j - c.x0 j) := by
    intro j
    rw [updateDelta, Finset.sum_mul]
    congr 1
    refine Finset.sum_congr rfl fun k hk => ?_
    have := h.linear k (by simpa using hk) j
    rw [(this _).1, (this _).1]
  have hm : ∀ j i, updateMu c p j i = 0 := by simp [updateMu]
  have hnum : ∀ i, surplusNumerator m.nesting (fun j => updateDelta c p j + updateMu c p j i) (m.availability.map fun a => a i) (fun _ => false) =
      Real.log (1 + ∑ j, Real.exp (c.delta j + (∑ k with c.has1 k = true, c.beta k) * (p j - c.x0 j))) := by
    intro i
    rw [C37_numerator _ (by simp [h.nesting]) _ _ (by simp [h.availability])]
    simp [Spec.logSum, h.nesting, h.availability, Spec.surplusMultiplier, hd, hm]
  simp only [consumerSurplus, hnum, plain_derivative h, neg_neg]
  rw [← Finset.mul_sum, h.weights, mul_one]

/-- **C125.** A merger lowers consumer surplus. -/
theorem C125_merger_surplus (costs : J → ℝ) (firm : J → F) (firm' : J → F') (hm : Spec.Merger firm firm') (x x' : J → ℝ)
    (hx : priceContraction m c (ownershipFromIds firm) (fun k _ => costs k) x = x)
    (hx' : priceContraction m c (ownershipFromIds firm') (fun k _ => costs k) x' = x') (first : J) :
    consumerSurplus m c first x' (fun _ => false) < consumerSurplus m c first x (fun _ => false) := by
  rw [plain_surplus h, plain_surplus h]
  refine div_lt_div_of_pos_right (Real.log_lt_log ?_ ?_) (sensitivity_pos h)
  · have : 0 ≤ ∑ j, Real.exp (c.delta j + (∑ k with c.has1 k = true, c.beta k) * (x' j - c.x0 j)) := Finset.sum_nonneg fun j _ => (Real.exp_pos _).le
    linarith
  · refine add_lt_add_right (Finset.sum_lt_sum_of_nonempty Finset.univ_nonempty fun j _ => Real.exp_lt_exp.mpr ?_) 1
    have := mul_lt_mul_of_neg_left (C125_merger_prices h costs firm firm' hm x x' hx hx' j) h.decreasing
    linarith

/-! ## Costs and approximate prices -/

theorem plain_delta (firm : J → F) (v : J → ℝ) (j : J) :
    (capitalDelta m c (ownershipFromIds firm)).mulVec v j =
      Spec.sensitivity m c * sharesAt m c c.x0 j * (v j - ∑ k with firm k = firm j, sharesAt m c c.x0 k * v k) := by
  simp only [Matrix.mulVec, dotProduct, capitalDelta, Matrix.of_apply, plain_gamma h, plain_lamda h]
  have : ∀ k, (-(Spec.sensitivity m c * sharesAt m c c.x0 k * sharesAt m c c.x0 j) -
        if k = j then -(Spec.sensitivity m c * sharesAt m c c.x0 k) else 0) * ownershipFromIds firm j k * v k =
      (if k = j then Spec.sensitivity m c * sharesAt m c c.x0 j * v j else 0) -
        Spec.sensitivity m c * sharesAt m c c.x0 j * (if firm k = firm j then sharesAt m c c.x0 k * v k else 0) := by
    intro k
    by_cases hkj : k = j
    · subst hkj
      simp only [if_true, ownershipFromIds]
      ring
    · simp only [if_neg hkj, ownershipFromIds]
      by_cases hf : firm k = firm j
      · rw [if_pos hf, if_pos hf.symm]; ring
      · rw [if_neg hf, if_neg fun he => hf he.symm]; ring
  rw [Finset.sum_congr rfl fun k _ => this k, Finset.sum_sub_distrib, Finset.sum_ite_eq' Finset.univ j, if_pos (Finset.mem_univ j), ← Finset.mul_sum,
    ← Finset.sum_filter]
  ring

theorem plain_eta (firm : J → F) (j : J) :
    computeEta m c (ownershipFromIds firm) (sharesAt m c c.x0) j =
      1 / (Spec.sensitivity m c * (1 - Spec.firmShare (sharesAt m c c.x0) firm (firm j))) := by
  have ha := sensitivity_pos h
  have hs : ∀ k, 0 < sharesAt m c c.x0 k := fun k => by rw [plain_shares h (fun _ => 0)]; exact share_pos h _ _ k
  have hsum : ∀ j (v : J → ℝ), (∀ k, firm k = firm j → v k = v j) →
      ∑ k with firm k = firm j, sharesAt m c c.x0 k * v k = Spec.firmShare (sharesAt m c c.x0) firm (firm j) * v j := by
    intro j v hv
    rw [Spec.firmShare, Finset.sum_mul]
    refine Finset.sum_congr rfl fun k hk => ?_
    rw [hv k (by simpa using hk)]
  have hinj : Function.Injective (capitalDelta m c (ownershipFromIds firm)).mulVec := by
    rw [← Matrix.coe_mulVecLin, ← LinearMap.ker_eq_bot, LinearMap.ker_eq_bot']
    intro v hv
    rw [Matrix.coe_mulVecLin] at hv
    have heq : ∀ j, v j = ∑ k with firm k = firm j, sharesAt m c c.x0 k * v k := by
      intro j
      have := congrFun hv j
      rw [plain_delta h, Pi.zero_apply] at this
      rcases mul_eq_zero.mp this with h0 | h0
      · exact absurd h0 (mul_pos ha (hs j)).ne'
      · linarith
    funext j
    have h1 := heq j
    rw [hsum j v fun k hk => by rw [heq k, heq j, hk]] at h1
    have h2 : (1 - Spec.firmShare (sharesAt m c c.x0) firm (firm j)) * v j = 0 := by linarith
    rcases mul_eq_zero.mp h2 with h0 | h0
    · linarith [firmShare_lt h firm c.x0 (firm j)]
    · exact h0
  have hunit : IsUnit (capitalDelta m c (ownershipFromIds firm)) := Matrix.mulVec_injective_iff_isUnit.mp hinj
  have hdet := (Matrix.isUnit_iff_isUnit_det _).mp hunit
  have hsol : (capitalDelta m c (ownershipFromIds firm)).mulVec
      (fun j => 1 / (Spec.sensitivity m c * (1 - Spec.firmShare (sharesAt m c c.x0) firm (firm j)))) = sharesAt m c c.x0 := by
    funext j
    rw [plain_delta h, hsum j _ fun k hk => by simp only [hk]]
    have : (1 - Spec.firmShare (sharesAt m c c.x0) firm (firm j)) ≠ 0 := by linarith [firmShare_lt h firm c.x0 (firm j)]
    field_simp
  have := congrArg ((capitalDelta m c (ownershipFromIds firm))⁻¹).mulVec hsol
  rw [Matrix.mulVec_mulVec, Matrix.nonsing_inv_mul _ hdet, Matrix.one_mulVec] at this
  rw [computeEta, ← this]

/-- **C125.** Costs recovered from observed prices and shares that demand explains are the only costs for which observed prices are an
equilibrium. -/
theorem C125_costs (firm : J → F) (costs : J → ℝ) :
    computeCosts m c (ownershipFromIds firm) (sharesAt m c c.x0) = costs ↔ Spec.NashEquilibrium (sharesAt m c) costs firm c.x0 := by
  rw [← C125_nash h, C125_markups h]
  constructor
  · rintro rfl j
    rw [computeCosts, plain_eta h]
    ring
  · intro hx
    funext j
    rw [computeCosts, plain_eta h, ← hx j]
    ring

/-- **C125.** After a merger, approximate prices of firms that did not merge are their old prices, which is too low, and if only one
firm results from the merger, its approximate prices are too high. -/
theorem C125_approximate (firm : J → F) (firm' : J → F') (hm : Spec.Merger firm firm') (x' : J → ℝ)
    (hx' : priceContraction m c (ownershipFromIds firm')
      (fun k _ => computeCosts m c (ownershipFromIds firm) (sharesAt m c c.x0) k) x' = x') (j : J) :
    ((∀ k, firm' k = firm' j → firm k = firm j) →
      approximatePrices m c (ownershipFromIds firm') (sharesAt m c c.x0) (computeCosts m c (ownershipFromIds firm) (sharesAt m c c.x0)) j = c.x0 j ∧
      c.x0 j < x' j) ∧
    ((∀ a b, firm' a = firm' b → firm' a ≠ firm' j → firm a = firm b) →
      x' j < approximatePrices m c (ownershipFromIds firm') (sharesAt m c c.x0) (computeCosts m c (ownershipFromIds firm) (sharesAt m c c.x0)) j) := by
  have ha := sensitivity_pos h
  set costs := computeCosts m c (ownershipFromIds firm) (sharesAt m c c.x0) with hcosts
  have hx : priceContraction m c (ownershipFromIds firm) (fun k _ => costs k) c.x0 = c.x0 := (C125_nash h costs firm c.x0).mpr ((C125_costs h firm costs).mp rfl)
  have hlt := C125_merger_prices h costs firm firm' hm c.x0 x' hx hx'
  have hshares := (C125_merger_shares h costs firm firm' hm c.x0 x' hx hx').2.2 (firm' j)
  rw [approximatePrices, plain_eta h]
  constructor
  · intro hsame
    refine ⟨?_, hlt j⟩
    have h1 := (C125_markups h costs firm c.x0).mp hx j
    have hset : Spec.firmShare (sharesAt m c c.x0) firm (firm j) = Spec.firmShare (sharesAt m c c.x0) firm' (firm' j) := by
      simp only [Spec.firmShare]
      congr 1
      ext k
      simp only [Finset.mem_filter, Finset.mem_univ, true_and]
      exact ⟨fun hk => hm.1 k j hk, fun hk => hsame k hk⟩
    rw [hset] at h1
    rw [← h1]
    ring
  · intro honly
    have h2 := (C125_markups h costs firm' x').mp hx' j
    have hp2 : 0 < 1 - Spec.firmShare (sharesAt m c c.x0) firm' (firm' j) := by linarith [firmShare_lt h firm' c.x0 (firm' j)]
    have h3 : 1 / (Spec.sensitivity m c * (1 - Spec.firmShare (sharesAt m c x') firm' (firm' j))) <
        1 / (Spec.sensitivity m c * (1 - Spec.firmShare (sharesAt m c c.x0) firm' (firm' j))) := by
      refine one_div_lt_one_div_of_lt (mul_pos ha hp2) (mul_lt_mul_of_pos_left ?_ ha)
      linarith [hshares honly]
    linarith

end

/-! ## Non-vacuity -/

theorem duopoly_plain : Spec.PlainLogit duopoly duopolyPrices where
  nesting := rfl
  availability := rfl
  scale := by simp [duopoly]
  weights := by simp [duopoly]
  linear := fun _ _ _ _ => ⟨rfl, rfl⟩
  decreasing := by simp [duopolyPrices]

/-- Two firms merge. -/
theorem duopoly_merger : Spec.Merger (id : Fin 2 → Fin 2) (fun _ => ()) := ⟨fun _ _ _ => rfl, 0, 1, rfl, by decide⟩

/-- Non-vacuity: in the duopoly, prices of 3 are an equilibrium if costs are 3/2. -/
theorem duopoly_equilibrium :
    priceContraction duopoly duopolyPrices (ownershipFromIds (id : Fin 2 → Fin 2)) (fun _ _ => 3 / 2) (fun _ => 3) = fun _ => 3 := by
  refine (C125_markups duopoly_plain (fun _ => 3 / 2) (id : Fin 2 → Fin 2) (fun _ => 3)).mpr fun j => ?_
  have hs : ∀ k, sharesAt duopoly duopolyPrices (fun _ => 3) k = 1 / 3 := duopoly_shares
  simp only [Spec.firmShare, hs]
  have : (Finset.univ.filter fun k : Fin 2 => id k = id j) = {j} := by
    ext k; simp
  rw [this, Finset.sum_singleton]
  simp [Spec.sensitivity, duopoly, duopolyPrices]
  norm_num

/-- Non-vacuity: merging firms of the duopoly raises both prices above 3. -/
example : ∃ x', priceContraction duopoly duopolyPrices (ownershipFromIds fun _ : Fin 2 => ()) (fun _ _ => 3 / 2) x' = x' ∧ ∀ j, 3 < x' j := by
  obtain ⟨x', hx', -⟩ := C125_exists_unique duopoly_plain (fun _ => 3 / 2) (fun _ : Fin 2 => ())
  exact ⟨x', hx', C125_merger_prices duopoly_plain _ _ _ duopoly_merger _ x' duopoly_equilibrium hx'⟩

end Pyblp
