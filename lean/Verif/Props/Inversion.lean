import Verif.Props.Delta
import Verif.Props.Iteration
import Verif.Props.PriceIteration
import Mathlib.Order.FixedPoints
import Mathlib.Order.CompleteLatticeIntervals
import Mathlib.Dynamics.FixedPoints.Topology
import Mathlib.Topology.Order.MonotoneConvergence
import Mathlib.Topology.MetricSpace.Lipschitz
import Mathlib.Analysis.Convex.SpecificFunctions.Basic

/-!
# C117: the shares of every data set can be explained, and iterating over the contraction finds the mean utilities that do

Existence of mean utilities by monotonicity (Knaster and Tarski), convergence of the iterates from every starting value by
squeezing them between two monotone sequences, and a bound for the distance to the solution in terms of the distance of shares.
-/

set_option linter.unusedSectionVars false

namespace Pyblp

variable {J A G : Type} [Fintype J] [DecidableEq J] [Nonempty J] [Fintype G] [DecidableEq G] [Fintype A]

/-! ## Monotone maps -/

/-- A monotone map that keeps an order interval has a fixed point in it. -/
lemma exists_fixed_of_monotone {T : (J → ℝ) → (J → ℝ)} (hT : Monotone T) {lo hi : J → ℝ} (hle : lo ≤ hi) (h1 : lo ≤ T lo)
    (h2 : T hi ≤ hi) : ∃ x, lo ≤ x ∧ x ≤ hi ∧ T x = x := by
  let S : Set (J → ℝ) := {x | lo ≤ x ∧ x ≤ hi ∧ x ≤ T x}
  have hne : S.Nonempty := ⟨lo, le_rfl, hle, h1⟩
  have hbdd : BddAbove S := ⟨hi, fun x hx => hx.2.1⟩
  have hlub := isLUB_csSup hne hbdd
  set z := sSup S
  have hz1 : lo ≤ z := hlub.1 ⟨le_rfl, hle, h1⟩
  have hz2 : z ≤ hi := hlub.2 fun x hx => hx.2.1
  have hz3 : z ≤ T z := hlub.2 fun x hx => hx.2.2.trans (hT (hlub.1 hx))
  refine ⟨z, hz1, hz2, le_antisymm (hlub.1 ⟨hz1.trans hz3, (hT hz2).trans h2, hT hz3⟩) hz3⟩

/-- Positive demands that fall, relative to the exponentiated own argument, when arguments rise take any value between one that is
attained from below and one that is exceeded in total once a single argument is large. -/
lemma exists_solution (S : (J → ℝ) → J → ℝ) (t : J → ℝ) (ht : ∀ j, 0 < t j) (hpos : ∀ x j, 0 < S x j)
    (hmono : ∀ x y, (∀ j, x j ≤ y j) → ∀ j, S y j * Real.exp (-(y j) / t j) ≤ S x j * Real.exp (-(x j) / t j)) (s : J → ℝ)
    (hs : ∀ j, 0 < s j) (hlow : ∃ lo, ∀ j, S lo j ≤ s j) (hup : ∃ M, ∀ x j, M ≤ x j → ∑ k, s k < ∑ k, S x k) :
    ∃ x, ∀ j, S x j = s j := by
  obtain ⟨lo, hlo⟩ := hlow
  obtain ⟨M, hM⟩ := hup
  let top : J → ℝ := fun j => max M (lo j)
  let F : (J → ℝ) → J → ℝ := fun x j => x j + t j * (Real.log (s j) - Real.log (S x j))
  have hF : ∀ x y, x ≤ y → F x ≤ F y := by
    intro x y hxy j
    have h := Real.log_le_log (mul_pos (hpos y j) (Real.exp_pos _)) (hmono x y hxy j)
    rw [Real.log_mul (hpos y j).ne' (Real.exp_pos _).ne', Real.log_mul (hpos x j).ne' (Real.exp_pos _).ne', Real.log_exp,
      Real.log_exp] at h
    have h' := mul_le_mul_of_nonneg_left h (ht j).le
    have e : ∀ z : ℝ, t j * (-z / t j) = -z := fun z => by have := (ht j).ne'; field_simp
    rw [mul_add, mul_add, e, e] at h'
    simp only [F]
    linarith
  obtain ⟨x, hx1, hx2, hx⟩ := exists_fixed_of_monotone (T := fun x j => min (F x j) (top j)) (lo := lo) (hi := top)
    (fun x y hxy j => min_le_min_right _ (hF x y hxy j)) (fun j => le_max_right _ _)
    (fun j => le_min (by
      have h1 := Real.log_le_log (hpos lo j) (hlo j)
      have := mul_nonneg (ht j).le (sub_nonneg.mpr h1)
      simp only [F]
      linarith) (le_max_right _ _)) (fun j => min_le_right _ _)
  have hle : ∀ j, S x j ≤ s j := by
    intro j
    have h1 : x j ≤ F x j := by
      have h : min (F x j) (top j) = x j := congrFun hx j
      exact h.ge.trans (min_le_left _ _)
    have h2 : 0 ≤ t j * (Real.log (s j) - Real.log (S x j)) := by simp only [F] at h1; linarith
    have h3 : 0 ≤ Real.log (s j) - Real.log (S x j) := nonneg_of_mul_nonneg_right h2 (ht j)
    exact (Real.log_le_log_iff (hpos x j) (hs j)).mp (by linarith)
  refine ⟨x, fun j => ?_⟩
  have hj : min (F x j) (top j) = x j := congrFun hx j
  rcases min_choice (F x j) (top j) with h | h <;> rw [h] at hj
  · have h2 : t j * (Real.log (s j) - Real.log (S x j)) = 0 := by simp only [F] at hj; linarith
    have h3 : Real.log (s j) - Real.log (S x j) = 0 := (mul_eq_zero.mp h2).resolve_left (ht j).ne'
    exact Real.log_injOn_pos (hpos x j) (hs j) (by linarith)
  · have := hM x j (by rw [← hj]; exact le_max_left _ _)
    exact absurd (Finset.sum_le_sum fun k _ => hle k) (not_le.mpr this)

/-- Iterates of a monotone map that does not increase distances converge to its only fixed point, from everywhere. -/
lemma tendsto_iterate (T : (J → ℝ) → (J → ℝ)) (hT : Monotone T) (hlip : ∀ x y : J → ℝ, ∀ c, (∀ j, |x j - y j| ≤ c) → ∀ j, |T x j - T y j| ≤ c)
    (z : J → ℝ) (hz : T z = z) (huniq : ∀ x, T x = x → x = z) (initial : J → ℝ) :
    Filter.Tendsto (fun n => T^[n] initial) Filter.atTop (nhds z) := by
  have hcont : Continuous T := by
    refine LipschitzWith.continuous (K := 1) (LipschitzWith.of_dist_le_mul fun x y => ?_)
    rw [NNReal.coe_one, one_mul, dist_pi_le_iff dist_nonneg]
    intro j
    rw [Real.dist_eq]
    exact hlip x y _ (fun k => by rw [← Real.dist_eq]; exact dist_le_pi_dist x y k) j
  have hfix : ∀ y L, Filter.Tendsto (fun n => T^[n] y) Filter.atTop (nhds L) → L = z := fun y L h =>
    huniq L (isFixedPt_of_tendsto_iterate h hcont.continuousAt)
  obtain ⟨c, hc⟩ : ∃ c, ∀ j, |initial j - z j| ≤ c := ⟨‖initial - z‖, fun j => norm_le_pi_norm (initial - z) j⟩
  have hc0 : 0 ≤ c := (abs_nonneg _).trans (hc (Classical.arbitrary J))
  let hi : J → ℝ := fun j => z j + c
  let lo : J → ℝ := fun j => z j - c
  have hhi : T hi ≤ hi := fun j => by
    have := hlip hi z c (fun k => by simp [hi, abs_of_nonneg hc0]) j
    rw [hz] at this
    have := (abs_le.mp this).2
    simp only [hi] at this ⊢
    linarith
  have hlo : lo ≤ T lo := fun j => by
    have := hlip lo z c (fun k => by simp [lo, abs_of_nonneg hc0]) j
    rw [hz] at this
    have := (abs_le.mp this).1
    simp only [lo] at this ⊢
    linarith
  have hit : ∀ n, z ≤ T^[n] hi ∧ T^[n] lo ≤ z := by
    intro n
    have hzn : T^[n] z = z := Function.iterate_fixed hz n
    refine ⟨?_, ?_⟩
    · calc z = T^[n] z := hzn.symm
        _ ≤ _ := hT.iterate n (fun j => by simp only [hi]; linarith)
    · calc _ ≤ T^[n] z := hT.iterate n (fun j => by simp only [lo]; linarith)
        _ = z := hzn
  have hanti : Antitone fun n => T^[n] hi := hT.antitone_iterate_of_map_le hhi
  have hmono : Monotone fun n => T^[n] lo := hT.monotone_iterate_of_le_map hlo
  have h1 : Filter.Tendsto (fun n => T^[n] hi) Filter.atTop (nhds z) := by
    have h : Filter.Tendsto (fun n => T^[n] hi) Filter.atTop (nhds fun j => ⨅ n, T^[n] hi j) :=
      tendsto_pi_nhds.mpr fun j => tendsto_atTop_ciInf (fun a b hab => hanti hab j) ⟨z j, by rintro _ ⟨n, rfl⟩; exact (hit n).1 j⟩
    rwa [hfix _ _ h] at h
  have h2 : Filter.Tendsto (fun n => T^[n] lo) Filter.atTop (nhds z) := by
    have h : Filter.Tendsto (fun n => T^[n] lo) Filter.atTop (nhds fun j => ⨆ n, T^[n] lo j) :=
      tendsto_pi_nhds.mpr fun j => tendsto_atTop_ciSup (fun a b hab => hmono hab j) ⟨z j, by rintro _ ⟨n, rfl⟩; exact (hit n).2 j⟩
    rwa [hfix _ _ h] at h
  refine tendsto_pi_nhds.mpr fun j => ?_
  refine tendsto_of_tendsto_of_tendsto_of_le_of_le (tendsto_pi_nhds.mp h2 j) (tendsto_pi_nhds.mp h1 j) (fun n => ?_) (fun n => ?_)
  · exact hT.iterate n (fun k => by simp only [lo]; linarith [(abs_le.mp (hc k)).1]) j
  · exact hT.iterate n (fun k => by simp only [hi]; linarith [(abs_le.mp (hc k)).2]) j

/-! ## Limits of choice probabilities -/

/-- Choice probabilities vanish when all mean utilities fall together. -/
lemma tendsto_prob_low (m : Market J A G) (hm : Regular m) (safe : Bool) (mu : J → A → ℝ) (i : A)
    (ha : AvailabilityNonneg m { safe } i) (j : J) :
    Filter.Tendsto (fun c : ℝ => computeProbabilities m { safe } (fun _ => c) mu j i) Filter.atBot (nhds 0) := by
  have hnn : ∀ c : ℝ, 0 ≤ computeProbabilities m { safe } (fun _ => c) mu j i := fun c =>
    (C17_probabilities m _ _ mu i ha hm.rhoBelowOne (Or.inl rfl)).1 j
  cases hn : m.nesting with
  | none =>
    have hlim : Filter.Tendsto (fun c : ℝ => multiplier m { safe } i j * Real.exp ((c + mu j i) / m.epsilonScale)) Filter.atBot
        (nhds (multiplier m { safe } i j * 0)) :=
      ((Real.tendsto_exp_atBot.comp ((Filter.tendsto_atBot_add_const_right _ _ Filter.tendsto_id).atBot_div_const hm.eps))).const_mul _
    rw [mul_zero] at hlim
    refine squeeze_zero hnn (fun c => ?_) hlim
    rw [computeProbabilities_plain _ _ _ _ hn]
    unfold Spec.logit
    have hnum : 0 ≤ multiplier m { safe } i j * Real.exp ((c + mu j i) / m.epsilonScale) :=
      mul_nonneg (multiplier_nonneg ha j) (Real.exp_pos _).le
    refine div_le_self hnum ?_
    have : 0 ≤ ∑ k, multiplier m { safe } i k * Real.exp ((c + mu k i) / m.epsilonScale) :=
      Finset.sum_nonneg fun k _ => mul_nonneg (multiplier_nonneg ha k) (Real.exp_pos _).le
    simpa using this
  | some n =>
    have hr : ∀ g, n.rho.groupRho g < 1 := fun g => (hm.rho n hn g).2
    have hlim : Filter.Tendsto (fun c : ℝ => Spec.expInclusive n.group n.rho.groupRho (fun k => mu k i) (multiplier m { safe } i) (n.group j) *
        Real.exp c) Filter.atBot (nhds (Spec.expInclusive n.group n.rho.groupRho (fun k => mu k i) (multiplier m { safe } i) (n.group j) * 0)) :=
      Real.tendsto_exp_atBot.const_mul _
    rw [mul_zero] at hlim
    refine squeeze_zero hnn (fun c => ?_) hlim
    rw [computeProbabilities_nested _ _ _ _ n hn i ha (fun g => (hr g).ne)]
    have hshift := expInclusive_shift n.group n.rho.groupRho hr (multiplier m { safe } i) (fun k => mu k i) (multiplier_nonneg ha) c (n.group j)
    rw [← hshift]
    have hv : (fun k => mu k i + c) = fun k => c + mu k i := by funext k; ring
    rw [hv]
    have hinc : ∀ g, 0 ≤ Spec.expInclusive n.group n.rho.groupRho (fun k => c + mu k i) (multiplier m { safe } i) g := fun g =>
      expInclusive_nonneg _ _ _ _ (multiplier_nonneg ha) g
    have hgs := groupSum_nonneg n.group n.rho.groupRho (fun k => c + mu k i) (multiplier m { safe } i) (multiplier_nonneg ha) (n.group j)
    have hw : Spec.within n.group n.rho.groupRho (fun k => c + mu k i) (multiplier m { safe } i) j ≤ 1 := by
      unfold Spec.within
      refine div_le_one_of_le₀ ?_ hgs
      unfold Spec.groupSum
      exact Finset.single_le_sum (f := fun k => multiplier m { safe } i k * Real.exp ((c + mu k i) / (1 - n.rho.groupRho (n.group j))))
        (fun k _ => mul_nonneg (multiplier_nonneg ha k) (Real.exp_pos _).le) (by simp)
    have hgp : Spec.groupProb n.group n.rho.groupRho (fun k => c + mu k i) (multiplier m { safe } i) 1 (n.group j) ≤
        Spec.expInclusive n.group n.rho.groupRho (fun k => c + mu k i) (multiplier m { safe } i) (n.group j) := by
      unfold Spec.groupProb
      refine div_le_self (hinc _) ?_
      have := Finset.sum_nonneg fun g (_ : g ∈ Finset.univ) => hinc g
      linarith
    have hgp0 : 0 ≤ Spec.groupProb n.group n.rho.groupRho (fun k => c + mu k i) (multiplier m { safe } i) 1 (n.group j) := by
      unfold Spec.groupProb
      refine div_nonneg (hinc _) ?_
      have := Finset.sum_nonneg fun g (_ : g ∈ Finset.univ) => hinc g
      linarith
    unfold Spec.nested
    simp only [Bool.false_eq_true, if_false]
    calc _ ≤ 1 * Spec.groupProb n.group n.rho.groupRho (fun k => c + mu k i) (multiplier m { safe } i) 1 (n.group j) :=
          mul_le_mul_of_nonneg_right hw hgp0
      _ ≤ _ := by rw [one_mul]; exact hgp

/-- Nobody chooses the outside option when the mean utility of a product they are offered is large, whatever the others are. -/
lemma outside_high (m : Market J A G) (hm : Regular m) (safe : Bool) (mu : J → A → ℝ) (i : A)
    (ha : AvailabilityNonneg m { safe } i) (j : J) (hj : Offered m { safe } i j) :
    ∃ B : ℝ → ℝ, Filter.Tendsto B Filter.atTop (nhds 0) ∧ ∀ x : J → ℝ, Spec.outside m { safe } x mu i ≤ B (x j) := by
  have hmul := multiplier_pos hj
  cases hn : m.nesting with
  | none =>
    refine ⟨fun t => (1 + multiplier m { safe } i j * Real.exp ((t + mu j i) / m.epsilonScale))⁻¹, ?_, fun x => ?_⟩
    · refine Filter.Tendsto.inv_tendsto_atTop (Filter.tendsto_atTop_add_const_left _ _ ?_)
      exact ((Real.tendsto_exp_atTop.comp ((Filter.tendsto_atTop_add_const_right _ _ Filter.tendsto_id).atTop_div_const hm.eps))).const_mul_atTop hmul
    · unfold Spec.outside
      simp only [hn]
      unfold Spec.logitOutside
      simp only [Bool.false_eq_true, if_false, one_div]
      have hpos : 0 < multiplier m { safe } i j * Real.exp ((x j + mu j i) / m.epsilonScale) := mul_pos hmul (Real.exp_pos _)
      refine inv_anti₀ (by linarith) ?_
      have := Finset.single_le_sum (f := fun k => multiplier m { safe } i k * Real.exp ((x k + mu k i) / m.epsilonScale))
        (fun k _ => mul_nonneg (multiplier_nonneg ha k) (Real.exp_pos _).le) (Finset.mem_univ j)
      linarith
  | some n =>
    have hr : ∀ g, n.rho.groupRho g < 1 := fun g => (hm.rho n hn g).2
    have hrj : 0 < 1 - n.rho.groupRho (n.group j) := by linarith [hr (n.group j)]
    refine ⟨fun t => (1 + (multiplier m { safe } i j * Real.exp ((t + mu j i) / (1 - n.rho.groupRho (n.group j)))) ^
      (1 - n.rho.groupRho (n.group j)))⁻¹, ?_, fun x => ?_⟩
    · refine Filter.Tendsto.inv_tendsto_atTop (Filter.tendsto_atTop_add_const_left _ _ ?_)
      refine (tendsto_rpow_atTop hrj).comp ?_
      exact ((Real.tendsto_exp_atTop.comp ((Filter.tendsto_atTop_add_const_right _ _ Filter.tendsto_id).atTop_div_const hrj))).const_mul_atTop hmul
    · unfold Spec.outside
      simp only [hn]
      unfold Spec.nestedOutside
      simp only [Bool.false_eq_true, if_false, one_div]
      have hpos : 0 < multiplier m { safe } i j * Real.exp ((x j + mu j i) / (1 - n.rho.groupRho (n.group j))) :=
        mul_pos hmul (Real.exp_pos _)
      have hpow := Real.rpow_pos_of_pos hpos (1 - n.rho.groupRho (n.group j))
      refine inv_anti₀ (by linarith) ?_
      have h1 := Finset.single_le_sum (f := fun g => Spec.expInclusive n.group n.rho.groupRho (fun k => x k + mu k i) (multiplier m { safe } i) g)
        (fun g _ => expInclusive_nonneg _ _ _ _ (multiplier_nonneg ha) g) (Finset.mem_univ (n.group j))
      have h2 : multiplier m { safe } i j * Real.exp ((x j + mu j i) / (1 - n.rho.groupRho (n.group j))) ≤
          Spec.groupSum n.group n.rho.groupRho (fun k => x k + mu k i) (multiplier m { safe } i) (n.group j) := by
        unfold Spec.groupSum
        exact Finset.single_le_sum (f := fun k => multiplier m { safe } i k * Real.exp ((x k + mu k i) / (1 - n.rho.groupRho (n.group j))))
          (fun k _ => mul_nonneg (multiplier_nonneg ha k) (Real.exp_pos _).le) (by simp)
      have h3 := Real.rpow_le_rpow hpos.le h2 hrj.le
      unfold Spec.expInclusive at h1
      unfold Spec.expInclusive
      linarith

lemma sum_shares (m : Market J A G) (hm : Regular m) (safe : Bool) (mu : J → A → ℝ) (hav : ∀ i, AvailabilityNonneg m { safe } i)
    (x : J → ℝ) : ∑ j, computeShares m { safe } x mu j = ∑ i, m.weights i - ∑ i, m.weights i * Spec.outside m { safe } x mu i := by
  unfold computeShares
  rw [Finset.sum_comm, ← Finset.sum_sub_distrib]
  refine Finset.sum_congr rfl fun i _ => ?_
  rw [← Finset.sum_mul]
  have := (C17_probabilities m { safe } x mu i (hav i) hm.rhoBelowOne (Or.inl rfl)).2.2
  rw [show ∑ j, computeProbabilities m { safe } x mu j i = 1 - Spec.outside m { safe } x mu i by linarith]
  ring

/-! ## Existence -/

/-- Everybody who counts is offered everything, as is the case unless agent data have an availability field with zeros. -/
def Spec.AllOffered (m : Market J A G) (safe : Bool) : Prop := ∀ i, 0 < m.weights i → ∀ j, Offered m { safe } i j

/-- **C117, existence.** In a market in which everybody is offered everything there are mean utilities that explain given shares if
and only if all of them are positive and they leave something to the outside option: with or without random coefficients and nesting,
for any weights that are not negative, and any positive scale of epsilon. -/
theorem C117_exists (m : Market J A G) (hm : Regular m) (safe : Bool) (mu : J → A → ℝ) (hav : ∀ i, AvailabilityNonneg m { safe } i)
    (hw : ∀ i, 0 ≤ m.weights i) (hsome : ∃ i, 0 < m.weights i) (hall : Spec.AllOffered m safe) (s : J → ℝ) :
    (∃ x, ∀ j, computeShares m { safe } x mu j = s j) ↔ (∀ j, 0 < s j) ∧ ∑ j, s j < ∑ i, m.weights i := by
  obtain ⟨i₀, hi₀⟩ := hsome
  have hoff : ∀ j, ∃ i, 0 < m.weights i ∧ Offered m { safe } i j := fun j => ⟨i₀, hi₀, hall i₀ hi₀ j⟩
  have hpos : ∀ x j, 0 < computeShares m { safe } x mu j := fun x j => computeShares_pos m safe mu x hm.rhoBelowOne hav hw hoff j
  constructor
  · rintro ⟨x, hx⟩
    refine ⟨fun j => hx j ▸ hpos x j, ?_⟩
    simp only [← hx]
    rw [sum_shares m hm safe mu hav x]
    have hout : ∀ i, 0 < Spec.outside m { safe } x mu i := by
      intro i
      unfold Spec.outside
      cases hn : m.nesting with
      | none => exact div_pos (by simp) (plain_denominator_pos _ (multiplier_nonneg (hav i)) (Or.inl rfl))
      | some n => exact div_pos (by simp) (nested_denominator_pos _ (multiplier_nonneg (hav i)) (Or.inl rfl))
    have : 0 < ∑ i, m.weights i * Spec.outside m { safe } x mu i :=
      Finset.sum_pos' (fun i _ => mul_nonneg (hw i) (hout i).le) ⟨i₀, Finset.mem_univ _, mul_pos hi₀ (hout i₀)⟩
    linarith
  · rintro ⟨hs, hsum⟩
    refine exists_solution (fun x => computeShares m { safe } x mu) (tau m) hm.tau_pos hpos ?_ s hs ?_ ?_
    · intro x y hxy j
      simp only [computeShares]
      rw [Finset.sum_mul, Finset.sum_mul]
      refine Finset.sum_le_sum fun i _ => ?_
      have := mul_le_mul_of_nonneg_right (prob_scaled_antitone m hm safe mu i (hav i) x y hxy j) (hw i)
      linarith
    · have hlim : ∀ j, Filter.Tendsto (fun c : ℝ => computeShares m { safe } (fun _ => c) mu j) Filter.atBot (nhds 0) := by
        intro j
        have : Filter.Tendsto (fun c : ℝ => ∑ i, computeProbabilities m { safe } (fun _ => c) mu j i * m.weights i) Filter.atBot
            (nhds (∑ i : A, 0 * m.weights i)) :=
          tendsto_finsetSum _ fun i _ => (tendsto_prob_low m hm safe mu i (hav i) j).mul_const _
        simpa [computeShares] using this
      have hev : ∀ᶠ c : ℝ in Filter.atBot, ∀ j, computeShares m { safe } (fun _ => c) mu j < s j :=
        Filter.eventually_all.mpr fun j => (hlim j).eventually (gt_mem_nhds (hs j))
      obtain ⟨c, hc⟩ := hev.exists
      exact ⟨fun _ => c, fun j => (hc j).le⟩
    · have hB : ∀ i j, ∃ B : ℝ → ℝ, Filter.Tendsto B Filter.atTop (nhds 0) ∧
          ∀ x : J → ℝ, m.weights i * Spec.outside m { safe } x mu i ≤ B (x j) := by
        intro i j
        rcases (hw i).lt_or_eq with hi | hi
        · obtain ⟨B, hB1, hB2⟩ := outside_high m hm safe mu i (hav i) j (hall i hi j)
          refine ⟨fun t => m.weights i * B t, by simpa using hB1.const_mul (m.weights i), fun x => ?_⟩
          exact mul_le_mul_of_nonneg_left (hB2 x) hi.le
        · exact ⟨fun _ => 0, tendsto_const_nhds, fun x => by rw [← hi]; simp⟩
      choose B hB1 hB2 using hB
      have hev : ∀ᶠ t : ℝ in Filter.atTop, ∀ j, ∑ i, B i j t < ∑ i, m.weights i - ∑ j, s j := by
        refine Filter.eventually_all.mpr fun j => ?_
        have : Filter.Tendsto (fun t => ∑ i, B i j t) Filter.atTop (nhds (∑ i : A, (0 : ℝ))) :=
          tendsto_finsetSum _ fun i _ => hB1 i j
        rw [Finset.sum_const_zero] at this
        exact this.eventually (gt_mem_nhds (by linarith))
      obtain ⟨M, hM⟩ := Filter.eventually_atTop.mp hev
      refine ⟨M, fun x j hx => ?_⟩
      have h1 := hM (x j) hx j
      have h2 := Finset.sum_le_sum fun i (_ : i ∈ Finset.univ) => hB2 i j x
      change _ < ∑ k, computeShares m { safe } x mu k
      rw [sum_shares m hm safe mu hav x]
      linarith

/-- The example market: nested, with an agent who is not offered everything; here everybody is. -/
noncomputable def openMarket : Market (Fin 3) (Fin 2) (Fin 2) := { exampleMarket with availability := none }

lemma openMarket_regular : Regular openMarket := ⟨exampleMarket_regular.rho, exampleMarket_regular.eps⟩

lemma openMarket_avail (safe : Bool) (i : Fin 2) : AvailabilityNonneg openMarket { safe } i := by intro a h; simp [openMarket] at h

lemma openMarket_offered (safe : Bool) : Spec.AllOffered openMarket safe := by
  intro i _ j
  refine ⟨by simp, rfl, ?_⟩
  intro a h
  simp [openMarket] at h

lemma openMarket_weights (i : Fin 2) : 0 < openMarket.weights i := by
  fin_cases i <;> (simp [openMarket, exampleMarket]; try norm_num)

/-- Non-vacuity of `C117_exists`. -/
example (mu : Fin 3 → Fin 2 → ℝ) : ∃ x, ∀ j, computeShares openMarket {} x mu j = ![1/5, 1/4, 1/3] j :=
  (C117_exists openMarket openMarket_regular true mu (openMarket_avail true) (fun i => (openMarket_weights i).le)
    ⟨0, openMarket_weights 0⟩ (openMarket_offered true) _).mpr
    ⟨by intro j; fin_cases j <;> norm_num, by simp [openMarket, exampleMarket, Fin.sum_univ_succ]; norm_num⟩

/-! ## Convergence -/

/-- Observed shares are strictly between the bounds for simulated shares. -/
def Spec.Interior (b : SharesBounds) (s : J → ℝ) : Prop :=
  (∀ l, b.lb = some l → ∀ j, l < s j) ∧ ∀ u, b.ub = some u → ∀ j, s j < u

/-- **C117, convergence.** Iterating over the contraction converges to the mean utilities that explain shares, from whatever starting
values. Without nesting this needs `epsilon_scale ≥ 1`, see `C23_small_epsilon_refuted`. -/
theorem C117_converges (m : Market J A G) (hm : Regular m) (heps : m.nesting = none → 1 ≤ m.epsilonScale) (safe : Bool)
    (b : SharesBounds) (hb : b.Positive) (mu : J → A → ℝ) (hav : ∀ i, AvailabilityNonneg m { safe } i) (hw : ∀ i, 0 ≤ m.weights i)
    (hoff : ∀ j, ∃ i, 0 < m.weights i ∧ Offered m { safe } i j) (s : J → ℝ) (hint : Spec.Interior b s) (z : J → ℝ)
    (hz : ∀ j, computeShares m { safe } z mu j = s j) (initial : J → ℝ) :
    Filter.Tendsto (fun n => (linearContraction m safe b mu s)^[n] initial) Filter.atTop (nhds z) := by
  have hpos : ∀ x j, 0 < computeShares m { safe } x mu j := fun x j => computeShares_pos m safe mu x hm.rhoBelowOne hav hw hoff j
  have hs : ∀ j, 0 < s j := fun j => hz j ▸ hpos z j
  have hfix : ∀ x, linearContraction m safe b mu s x = x ↔ ∀ j, computeShares m { safe } x mu j = s j := fun x =>
    C22_fixed_points m safe b mu s x hs hint.1 hint.2 hm.rhoBelowOne (Or.inr (hpos x))
  refine tendsto_iterate _ (fun x y hxy j => ?_) (fun x y c h => ?_) z ((hfix z).mpr hz) (fun x hx => ?_) initial
  · have := contraction_one_sided m hm heps safe b hb mu s hav hw hoff x y 0 le_rfl (fun k => by simpa using hxy k) j
    simpa using this
  · exact C23_nonexpansive_partial m hm heps safe b hb mu s hav hw hoff x y c h
  · exact C23_unique m hm safe mu hav hw hoff x z fun j => ((hfix x).mp hx j).trans (hz j).symm

/-- Simple iteration over a function whose iterates converge reports convergence once the budget is large enough. -/
lemma simple_converges (f : (J → ℝ) → (J → ℝ)) (z initial : J → ℝ)
    (hf : Filter.Tendsto (fun n => f^[n] initial) Filter.atTop (nhds z)) (atol rtol : ℝ) (ha : 0 < atol) :
    ∃ budget, ∀ maxEvaluations, budget ≤ maxEvaluations →
      (simpleIterator ⟨maxEvaluations, atol, rtol, infinityNorm⟩ (realContraction f) (lift initial)).converged = true := by
  have hlim : Filter.Tendsto (fun n => ‖f^[n + 1] initial - f^[n] initial‖) Filter.atTop (nhds 0) := by
    have := ((hf.comp (Filter.tendsto_add_atTop_nat 1)).sub hf).norm
    simpa using this
  obtain ⟨n, hn⟩ := (hlim.eventually (gt_mem_nhds ha)).exists
  refine ⟨n + 2, fun maxEvaluations hmax => ?_⟩
  set r := simpleIterator ⟨maxEvaluations, atol, rtol, infinityNorm⟩ (realContraction f) (lift initial) with hr
  obtain ⟨h1, h2, h3, h4, h5⟩ := C14_simple ⟨maxEvaluations, atol, rtol, infinityNorm⟩ (by simp; omega)
    (realContraction f) (lift initial)
  change 1 ≤ r.calls at h1
  change r.calls ≤ maxEvaluations at h2
  have hgood : ∀ k, Spec.Good (realContraction f) (lift initial) k := by
    intro k
    refine ⟨fun i => ?_, fun w hw => ?_⟩
    · rw [iterate_real]; rfl
    · simp [Spec.weights, realContraction] at hw
  have hcalls : r.calls ≤ n + 1 := by
    by_contra hc
    have := (h3 n (by change n + 1 < r.calls; omega)).2
    rw [iterate_real, iterate_real] at this
    apply this
    refine (within_real atol rtol _ _).mpr (lt_of_lt_of_le hn ?_)
    split
    · rename_i hr; have := mul_nonneg hr.le (norm_nonneg (f^[n + 1] initial)); linarith
    · exact le_rfl
  by_contra hc
  rcases h5 (by change r.converged = false; simpa using hc) with ⟨h, _, _⟩ | ⟨h, _⟩
  · change r.calls = maxEvaluations at h; omega
  · exact h (hgood _)

/-- **C117, simple iteration.** With simple iteration, a positive absolute tolerance and enough evaluations, the inner loop reports
convergence from whatever starting values, for every data set whose shares can be explained. -/
theorem C117_simple (m : Market J A G) (hm : Regular m) (heps : m.nesting = none → 1 ≤ m.epsilonScale) (safe : Bool)
    (b : SharesBounds) (hb : b.Positive) (mu : J → A → ℝ) (hav : ∀ i, AvailabilityNonneg m { safe } i) (hw : ∀ i, 0 ≤ m.weights i)
    (hsome : ∃ i, 0 < m.weights i) (hall : Spec.AllOffered m safe) (s : J → ℝ) (hint : Spec.Interior b s) (hs : ∀ j, 0 < s j)
    (hsum : ∑ j, s j < ∑ i, m.weights i) (initial : J → ℝ) (atol rtol : ℝ) (ha : 0 < atol) :
    ∃ budget, ∀ maxEvaluations, budget ≤ maxEvaluations →
      (simpleIterator ⟨maxEvaluations, atol, rtol, infinityNorm⟩ (realContraction (linearContraction m safe b mu s))
        (lift initial)).converged = true := by
  obtain ⟨z, hz⟩ := (C117_exists m hm safe mu hav hw hsome hall s).mpr ⟨hs, hsum⟩
  obtain ⟨i, hi⟩ := hsome
  exact simple_converges _ z initial (C117_converges m hm heps safe b hb mu hav hw (fun j => ⟨i, hi, hall i hi j⟩) s hint z hz initial)
    atol rtol ha

/-! ## Accuracy -/

/-- The scale of utilities in exponents: with nesting, epsilon is not scaled. -/
noncomputable def Spec.scale (m : Market J A G) : ℝ :=
  match m.nesting with
  | none => m.epsilonScale
  | some _ => 1

lemma scale_pos (m : Market J A G) (hm : Regular m) : 0 < Spec.scale m := by
  unfold Spec.scale
  cases m.nesting with
  | none => exact hm.eps
  | some n => exact one_pos

/-- What happens to choice probabilities when all mean utilities change by the same amount. -/
lemma prob_shift_formula (m : Market J A G) (hm : Regular m) (safe : Bool) (mu : J → A → ℝ) (i : A)
    (ha : AvailabilityNonneg m { safe } i) (x : J → ℝ) (c : ℝ) (j : J) :
    computeProbabilities m { safe } (fun k => x k + c) mu j i *
      (Spec.outside m { safe } x mu i + (1 - Spec.outside m { safe } x mu i) * Real.exp (c / Spec.scale m)) =
      computeProbabilities m { safe } x mu j i * Real.exp (c / Spec.scale m) := by
  unfold Spec.outside Spec.scale
  cases hn : m.nesting with
  | none =>
    rw [computeProbabilities_plain _ _ _ _ hn, computeProbabilities_plain _ _ _ _ hn]
    unfold Spec.logit Spec.logitOutside
    simp only [Bool.false_eq_true, if_false]
    have h1 : ∀ k, multiplier m { safe } i k * Real.exp ((x k + c + mu k i) / m.epsilonScale) =
        multiplier m { safe } i k * Real.exp ((x k + mu k i) / m.epsilonScale) * Real.exp (c / m.epsilonScale) := by
      intro k; rw [mul_assoc, ← Real.exp_add]; congr 2; ring
    simp only [h1]
    rw [← Finset.sum_mul]
    have hS : 0 ≤ ∑ k, multiplier m { safe } i k * Real.exp ((x k + mu k i) / m.epsilonScale) :=
      Finset.sum_nonneg fun k _ => mul_nonneg (multiplier_nonneg ha k) (Real.exp_pos _).le
    set S := ∑ k, multiplier m { safe } i k * Real.exp ((x k + mu k i) / m.epsilonScale)
    set E := Real.exp (c / m.epsilonScale) with hE
    have hEp : 0 < E := Real.exp_pos _
    have h2 : 1 + S ≠ 0 := by positivity
    have h3 : 1 + S * E ≠ 0 := by positivity
    field_simp
    ring
  | some n =>
    have hr : ∀ g, n.rho.groupRho g < 1 := fun g => (hm.rho n hn g).2
    rw [computeProbabilities_nested _ _ _ _ n hn i ha (fun g => (hr g).ne),
      computeProbabilities_nested _ _ _ _ n hn i ha (fun g => (hr g).ne)]
    have hv : (fun k => x k + c + mu k i) = fun k => x k + mu k i + c := by funext k; ring
    rw [hv]
    unfold Spec.nested Spec.groupProb Spec.nestedOutside
    rw [within_shift]
    simp only [expInclusive_shift n.group n.rho.groupRho hr _ (fun k => x k + mu k i) (multiplier_nonneg ha) c, Bool.false_eq_true,
      if_false, div_one]
    rw [← Finset.sum_mul]
    have hS : 0 ≤ ∑ g, Spec.expInclusive n.group n.rho.groupRho (fun k => x k + mu k i) (multiplier m { safe } i) g :=
      Finset.sum_nonneg fun g _ => expInclusive_nonneg _ _ _ _ (multiplier_nonneg ha) g
    set S := ∑ g, Spec.expInclusive n.group n.rho.groupRho (fun k => x k + mu k i) (multiplier m { safe } i) g
    set E := Real.exp c with hE
    have hEp : 0 < E := Real.exp_pos _
    have h2 : 1 + S ≠ 0 := by positivity
    have h3 : 1 + S * E ≠ 0 := by positivity
    field_simp
    ring

lemma outside_bounds (m : Market J A G) (hm : Regular m) (safe : Bool) (mu : J → A → ℝ) (i : A)
    (ha : AvailabilityNonneg m { safe } i) (x : J → ℝ) : 0 < Spec.outside m { safe } x mu i ∧ Spec.outside m { safe } x mu i ≤ 1 := by
  constructor
  · unfold Spec.outside
    cases hn : m.nesting with
    | none => exact div_pos (by simp) (plain_denominator_pos _ (multiplier_nonneg ha) (Or.inl rfl))
    | some n => exact div_pos (by simp) (nested_denominator_pos _ (multiplier_nonneg ha) (Or.inl rfl))
  · have h := C17_probabilities m { safe } x mu i ha hm.rhoBelowOne (Or.inl rfl)
    have := Finset.sum_nonneg fun j (_ : j ∈ Finset.univ) => h.1 j
    linarith [h.2.2]

/-- When all mean utilities fall by `c`, each share falls at least by the factor `exp(-q c)`, if everybody chooses the outside option
with at least probability `q`. -/
lemma shares_drop (m : Market J A G) (hm : Regular m) (safe : Bool) (mu : J → A → ℝ) (hav : ∀ i, AvailabilityNonneg m { safe } i)
    (hw : ∀ i, 0 ≤ m.weights i) (x : J → ℝ) (q : ℝ) (hq : ∀ i, 0 < m.weights i → q ≤ Spec.outside m { safe } x mu i) (c : ℝ) (hc : 0 ≤ c) (j : J) :
    computeShares m { safe } (fun k => x k - c) mu j * Real.exp (q * (c / Spec.scale m)) ≤ computeShares m { safe } x mu j := by
  unfold computeShares
  rw [Finset.sum_mul]
  refine Finset.sum_le_sum fun i _ => ?_
  rcases (hw i).lt_or_eq with hi | hi
  swap
  · rw [← hi]; simp
  have hC : 0 ≤ c / Spec.scale m := div_nonneg hc (scale_pos m hm).le
  have h := prob_shift_formula m hm safe mu i (hav i) x (-c) j
  simp only [← sub_eq_add_neg] at h
  obtain ⟨ho1, ho2⟩ := outside_bounds m hm safe mu i (hav i) x
  set o := Spec.outside m { safe } x mu i
  set C := c / Spec.scale m
  have hneg : -c / Spec.scale m = -C := by simp only [C]; ring
  rw [hneg] at h
  have hE : Real.exp (-C) * Real.exp C = 1 := by rw [← Real.exp_add]; simp
  have h' : computeProbabilities m { safe } (fun k => x k - c) mu j i * (o * Real.exp C + (1 - o)) =
      computeProbabilities m { safe } x mu j i := by
    have := congrArg (· * Real.exp C) h
    rw [mul_assoc (computeProbabilities m { safe } x mu j i), hE, mul_one] at this
    rw [← this, mul_assoc]
    congr 1
    rw [add_mul, mul_assoc (1 - o), hE, mul_one]
  have hconv : Real.exp (o * C) ≤ o * Real.exp C + (1 - o) := by
    have := convexOn_exp.2 (Set.mem_univ C) (Set.mem_univ 0) ho1.le (sub_nonneg.mpr ho2) (by ring)
    simpa using this
  have hexp : Real.exp (q * C) ≤ o * Real.exp C + (1 - o) :=
    (Real.exp_le_exp.mpr (mul_le_mul_of_nonneg_right (hq i hi) hC)).trans hconv
  have hnn := (C17_probabilities m { safe } (fun k => x k - c) mu i (hav i) hm.rhoBelowOne (Or.inl rfl)).1 j
  calc _ = computeProbabilities m { safe } (fun k => x k - c) mu j i * Real.exp (q * C) * m.weights i := by ring
    _ ≤ computeProbabilities m { safe } (fun k => x k - c) mu j i * (o * Real.exp C + (1 - o)) * m.weights i := by gcongr
    _ = _ := by rw [h']

/-- When all mean utilities rise by `c`, each share rises at least by the factor `exp(q (1 - exp(-c)))`. -/
lemma shares_rise (m : Market J A G) (hm : Regular m) (safe : Bool) (mu : J → A → ℝ) (hav : ∀ i, AvailabilityNonneg m { safe } i)
    (hw : ∀ i, 0 ≤ m.weights i) (x : J → ℝ) (q : ℝ) (hq : ∀ i, 0 < m.weights i → q ≤ Spec.outside m { safe } x mu i) (c : ℝ) (hc : 0 ≤ c) (j : J) :
    computeShares m { safe } x mu j * Real.exp (q * (1 - Real.exp (-(c / Spec.scale m)))) ≤
      computeShares m { safe } (fun k => x k + c) mu j := by
  unfold computeShares
  rw [Finset.sum_mul]
  refine Finset.sum_le_sum fun i _ => ?_
  rcases (hw i).lt_or_eq with hi | hi
  swap
  · rw [← hi]; simp
  have hC : 0 ≤ c / Spec.scale m := div_nonneg hc (scale_pos m hm).le
  have h := prob_shift_formula m hm safe mu i (hav i) x c j
  obtain ⟨ho1, ho2⟩ := outside_bounds m hm safe mu i (hav i) x
  set o := Spec.outside m { safe } x mu i
  set C := c / Spec.scale m
  have hE : Real.exp C * Real.exp (-C) = 1 := by rw [← Real.exp_add]; simp
  have h' : computeProbabilities m { safe } (fun k => x k + c) mu j i * (1 - o * (1 - Real.exp (-C))) =
      computeProbabilities m { safe } x mu j i := by
    have := congrArg (· * Real.exp (-C)) h
    rw [mul_assoc (computeProbabilities m { safe } x mu j i), hE, mul_one] at this
    rw [← this, mul_assoc]
    congr 1
    rw [add_mul, mul_assoc (1 - o), hE]
    ring
  have hlow : 0 ≤ 1 - Real.exp (-C) := by
    have : Real.exp (-C) ≤ 1 := Real.exp_le_one_iff.mpr (by linarith)
    linarith
  have hexp : (1 - o * (1 - Real.exp (-C))) * Real.exp (q * (1 - Real.exp (-C))) ≤ 1 := by
    have h1 : 1 - o * (1 - Real.exp (-C)) ≤ Real.exp (-(o * (1 - Real.exp (-C)))) := by
      have := Real.add_one_le_exp (-(o * (1 - Real.exp (-C)))); linarith
    have h2 : Real.exp (q * (1 - Real.exp (-C))) ≤ Real.exp (o * (1 - Real.exp (-C))) :=
      Real.exp_le_exp.mpr (mul_le_mul_of_nonneg_right (hq i hi) hlow)
    calc _ ≤ Real.exp (-(o * (1 - Real.exp (-C)))) * Real.exp (o * (1 - Real.exp (-C))) :=
          mul_le_mul h1 h2 (Real.exp_pos _).le (Real.exp_pos _).le
      _ = 1 := by rw [← Real.exp_add]; simp
  have hnn := (C17_probabilities m { safe } (fun k => x k + c) mu i (hav i) hm.rhoBelowOne (Or.inl rfl)).1 j
  calc _ = computeProbabilities m { safe } (fun k => x k + c) mu j i *
        ((1 - o * (1 - Real.exp (-C))) * Real.exp (q * (1 - Real.exp (-C)))) * m.weights i := by rw [← h']; ring
    _ ≤ computeProbabilities m { safe } (fun k => x k + c) mu j i * 1 * m.weights i := by gcongr
    _ = _ := by ring

/-- The share of the product with the largest difference of mean utilities: no smaller than if all had risen by that difference. -/
lemma shares_at_max (m : Market J A G) (hm : Regular m) (safe : Bool) (mu : J → A → ℝ) (hav : ∀ i, AvailabilityNonneg m { safe } i)
    (hw : ∀ i, 0 ≤ m.weights i) (x y : J → ℝ) (hxy : ∀ k, x k ≤ y k) (j : J) (hj : x j = y j) :
    computeShares m { safe } y mu j ≤ computeShares m { safe } x mu j := by
  unfold computeShares
  refine Finset.sum_le_sum fun i _ => mul_le_mul_of_nonneg_right ?_ (hw i)
  have := prob_scaled_antitone m hm safe mu i (hav i) x y hxy j
  rw [hj] at this
  exact le_of_mul_le_mul_right this (Real.exp_pos _)

lemma distance_one_sided (m : Market J A G) (hm : Regular m) (safe : Bool) (mu : J → A → ℝ) (hav : ∀ i, AvailabilityNonneg m { safe } i)
    (hw : ∀ i, 0 ≤ m.weights i) (hoff : ∀ j, ∃ i, 0 < m.weights i ∧ Offered m { safe } i j) (x y : J → ℝ) (q t : ℝ) (hq0 : 0 < q)
    (ht : 0 ≤ t) (hq : ∀ i, 0 < m.weights i → q ≤ Spec.outside m { safe } x mu i)
    (h : ∀ k, Real.log (computeShares m { safe } x mu k) - Real.log (computeShares m { safe } y mu k) ≤ t) (j : J) :
    q * (x j - y j) ≤ Spec.scale m * t := by
  have hsc := scale_pos m hm
  have hpos : ∀ x j, 0 < computeShares m { safe } x mu j := fun x j => computeShares_pos m safe mu x hm.rhoBelowOne hav hw hoff j
  obtain ⟨k, -, hk⟩ := Finset.exists_max_image Finset.univ (fun j => x j - y j) Finset.univ_nonempty
  have hjk := hk j (Finset.mem_univ _)
  rcases le_total (x k - y k) 0 with hneg | hc
  · have : q * (x j - y j) ≤ 0 := mul_nonpos_of_nonneg_of_nonpos hq0.le (hjk.trans hneg)
    exact this.trans (mul_nonneg hsc.le ht)
  · set c := x k - y k with hcdef
    have h1 : computeShares m { safe } y mu k ≤ computeShares m { safe } (fun l => x l - c) mu k :=
      shares_at_max m hm safe mu hav hw (fun l => x l - c) y (fun l => by have := hk l (Finset.mem_univ _); linarith) k
        (by simp [hcdef])
    have h2 := shares_drop m hm safe mu hav hw x q hq c hc k
    have h3 : computeShares m { safe } y mu k * Real.exp (q * (c / Spec.scale m)) ≤ computeShares m { safe } x mu k :=
      (mul_le_mul_of_nonneg_right h1 (Real.exp_pos _).le).trans h2
    have h4 := Real.log_le_log (mul_pos (hpos y k) (Real.exp_pos _)) h3
    rw [Real.log_mul (hpos y k).ne' (Real.exp_pos _).ne', Real.log_exp] at h4
    have h5 : q * (c / Spec.scale m) ≤ t := by linarith [h k]
    have h6 : q * c ≤ Spec.scale m * t := by
      have := mul_le_mul_of_nonneg_left h5 hsc.le
      have e : Spec.scale m * (q * (c / Spec.scale m)) = q * c := by field_simp
      linarith
    have h7 : q * (x j - y j) ≤ q * c := mul_le_mul_of_nonneg_left hjk hq0.le
    linarith

/-- **C117, accuracy.** Mean utilities whose shares are close are close: differences of mean utilities are at most those of logarithms of
shares (times the scale of epsilon), divided by the smallest probability with which somebody chooses the outside option. -/
theorem C117_distance (m : Market J A G) (hm : Regular m) (safe : Bool) (mu : J → A → ℝ) (hav : ∀ i, AvailabilityNonneg m { safe } i)
    (hw : ∀ i, 0 ≤ m.weights i) (hoff : ∀ j, ∃ i, 0 < m.weights i ∧ Offered m { safe } i j) (x y : J → ℝ) (q t : ℝ) (hq0 : 0 < q)
    (hq : ∀ i, 0 < m.weights i → q ≤ Spec.outside m { safe } x mu i ∧ q ≤ Spec.outside m { safe } y mu i)
    (h : ∀ k, |Real.log (computeShares m { safe } x mu k) - Real.log (computeShares m { safe } y mu k)| ≤ t) (j : J) :
    |x j - y j| ≤ Spec.scale m * t / q := by
  have ht : 0 ≤ t := (abs_nonneg _).trans (h j)
  have h1 := distance_one_sided m hm safe mu hav hw hoff x y q t hq0 ht (fun i hi => (hq i hi).1) (fun k => (abs_le.mp (h k)).2) j
  have h2 := distance_one_sided m hm safe mu hav hw hoff y x q t hq0 ht (fun i hi => (hq i hi).2)
    (fun k => by linarith [(abs_le.mp (h k)).1]) j
  rw [abs_le, neg_le, le_div_iff₀ hq0, le_div_iff₀ hq0]
  constructor <;> linarith

lemma clip_interior (b : SharesBounds) (v : ℝ) (h1 : ∀ l, b.lb = some l → l < (clipShare b v).1)
    (h2 : ∀ u, b.ub = some u → (clipShare b v).1 < u) : (clipShare b v).1 = v := by
  rw [clipShare_eq] at h1 h2 ⊢
  cases hl : b.lb with
  | none =>
    cases hu : b.ub with
    | none => rfl
    | some u =>
      have := h2 u hu
      simp only [hl, hu] at this ⊢
      rcases min_choice v u with h | h
      · exact h
      · rw [h] at this; exact absurd this (lt_irrefl _)
  | some l =>
    have h1' := h1 l hl
    cases hu : b.ub with
    | none =>
      simp only [hl, hu] at h1' ⊢
      rcases max_choice v l with h | h
      · exact h
      · rw [h] at h1'; exact absurd h1' (lt_irrefl _)
    | some u =>
      have h2' := h2 u hu
      simp only [hl, hu] at h1' h2' ⊢
      rcases min_choice (max v l) u with h | h
      · rw [h] at h1' ⊢
        rcases max_choice v l with h | h
        · exact h
        · rw [h] at h1'; exact absurd h1' (lt_irrefl _)
      · rw [h] at h2'; exact absurd h2' (lt_irrefl _)

lemma dampener_pos (m : Market J A G) (hm : Regular m) (j : J) : 0 < dampener m j := by
  unfold dampener
  cases hn : m.nesting with
  | none => exact one_pos
  | some n => have := (hm.rho n hn (n.group j)).2; simp only; unfold Nesting.productRho; linarith

/-- Shares that are close to observed ones, in logarithms, are not clipped, so one can read them off the contraction. -/
lemma exists_unclipped (b : SharesBounds) (s : J → ℝ) (hs : ∀ j, 0 < s j) (hint : Spec.Interior b s) :
    ∃ e, 0 < e ∧ ∀ j v, 0 < (clipShare b v).1 → |Real.log (s j) - Real.log (clipShare b v).1| < e → (clipShare b v).1 = v := by
  have hev : ∀ᶠ e : ℝ in nhdsWithin 0 (Set.Ioi 0), ∀ j, (∀ l, b.lb = some l → l < s j * Real.exp (-e)) ∧
      ∀ u, b.ub = some u → s j * Real.exp e < u := by
    refine Filter.eventually_all.mpr fun j => Filter.Eventually.and ?_ ?_
    · cases hl : b.lb with
      | none => simp
      | some l =>
        have hc : Filter.Tendsto (fun e : ℝ => s j * Real.exp (-e)) (nhdsWithin 0 (Set.Ioi 0)) (nhds (s j * Real.exp (-0))) :=
          ((continuous_const.mul (Real.continuous_exp.comp continuous_neg)).tendsto 0).mono_left nhdsWithin_le_nhds
        have := hc.eventually (lt_mem_nhds (by simpa using hint.1 l hl j))
        filter_upwards [this] with e he l' hl'
        rw [← Option.some.inj hl']
        exact he
    · cases hu : b.ub with
      | none => simp
      | some u =>
        have hc : Filter.Tendsto (fun e : ℝ => s j * Real.exp e) (nhdsWithin 0 (Set.Ioi 0)) (nhds (s j * Real.exp 0)) :=
          ((continuous_const.mul Real.continuous_exp).tendsto 0).mono_left nhdsWithin_le_nhds
        have := hc.eventually (gt_mem_nhds (by simpa using hint.2 u hu j))
        filter_upwards [this] with e he u' hu'
        rw [← Option.some.inj hu']
        exact he
  obtain ⟨e, he, he0⟩ := (hev.and self_mem_nhdsWithin).exists
  refine ⟨e, he0, fun j v hv hlog => clip_interior b v (fun l hl => ?_) fun u hu => ?_⟩
  · refine ((he j).1 l hl).trans ?_
    rw [← Real.log_lt_log_iff (mul_pos (hs j) (Real.exp_pos _)) hv, Real.log_mul (hs j).ne' (Real.exp_pos _).ne', Real.log_exp]
    linarith [(abs_lt.mp hlog).2]
  · refine lt_trans ?_ ((he j).2 u hu)
    rw [← Real.log_lt_log_iff hv (mul_pos (hs j) (Real.exp_pos _)), Real.log_mul (hs j).ne' (Real.exp_pos _).ne', Real.log_exp]
    linarith [(abs_lt.mp hlog).1]

lemma clip_pos (b : SharesBounds) (hb : b.Positive) (v : ℝ) (hv : 0 < v) : 0 < (clipShare b v).1 := by
  rw [clipShare_eq]
  cases hl : b.lb with
  | none =>
    cases hu : b.ub with
    | none => exact hv
    | some u => exact lt_min hv (hb.2 u hu)
  | some l =>
    cases hu : b.ub with
    | none => exact lt_max_of_lt_left hv
    | some u => exact lt_min (lt_max_of_lt_left hv) (hb.2 u hu)

/-- **C117, accuracy.** For every accuracy there is a tolerance such that a step of the contraction below the tolerance, from wherever,
ends that close to the mean utilities that explain shares. -/
theorem C117_accuracy (m : Market J A G) (hm : Regular m) (heps : m.nesting = none → 1 ≤ m.epsilonScale) (safe : Bool)
    (b : SharesBounds) (hb : b.Positive) (mu : J → A → ℝ) (hav : ∀ i, AvailabilityNonneg m { safe } i) (hw : ∀ i, 0 ≤ m.weights i)
    (hoff : ∀ j, ∃ i, 0 < m.weights i ∧ Offered m { safe } i j) (s : J → ℝ) (hint : Spec.Interior b s) (z : J → ℝ)
    (hz : ∀ j, computeShares m { safe } z mu j = s j) (accuracy : ℝ) (hacc : 0 < accuracy) :
    ∃ tolerance, 0 < tolerance ∧ ∀ x : J → ℝ, (∀ j, |linearContraction m safe b mu s x j - x j| < tolerance) →
      ∀ j, |linearContraction m safe b mu s x j - z j| ≤ accuracy := by
  have hpos : ∀ x j, 0 < computeShares m { safe } x mu j := fun x j => computeShares_pos m safe mu x hm.rhoBelowOne hav hw hoff j
  have hs : ∀ j, 0 < s j := fun j => hz j ▸ hpos z j
  have hsc := scale_pos m hm
  obtain ⟨e, he0, he⟩ := exists_unclipped b s hs hint
  obtain ⟨i₀, -, hq⟩ := Finset.exists_min_image (Finset.univ : Finset A) (fun i => Spec.outside m { safe } z mu i)
    ⟨(hoff (Classical.arbitrary J)).choose, Finset.mem_univ _⟩
  set q := Spec.outside m { safe } z mu i₀ with hqdef
  have hq0 : 0 < q := (outside_bounds m hm safe mu i₀ (hav i₀) z).1
  have hqi : ∀ i, 0 < m.weights i → q ≤ Spec.outside m { safe } z mu i := fun i _ => hq i (Finset.mem_univ _)
  obtain ⟨j₀, -, hd⟩ := Finset.exists_min_image Finset.univ (dampener m) Finset.univ_nonempty
  have hd0 := dampener_pos m hm j₀
  have hgap : 0 < 1 - Real.exp (-(accuracy / Spec.scale m)) := by
    have : Real.exp (-(accuracy / Spec.scale m)) < 1 := Real.exp_lt_one_iff.mpr (by have := div_pos hacc hsc; linarith)
    linarith
  set t := min e (min (q * (accuracy / Spec.scale m)) (q * (1 - Real.exp (-(accuracy / Spec.scale m))))) with htdef
  have ht0 : 0 < t := lt_min he0 (lt_min (mul_pos hq0 (div_pos hacc hsc)) (mul_pos hq0 hgap))
  refine ⟨dampener m j₀ * t, mul_pos hd0 ht0, fun x hx => ?_⟩
  have hlog : ∀ j, |Real.log (s j) - Real.log (clipShare b (computeShares m { safe } x mu j)).1| < t := by
    intro j
    have h := hx j
    unfold linearContraction at h
    rw [add_sub_cancel_left, abs_mul, abs_of_pos (dampener_pos m hm j)] at h
    have hle : dampener m j₀ * t ≤ dampener m j * t := mul_le_mul_of_nonneg_right (hd j (Finset.mem_univ _)) ht0.le
    have h' : dampener m j * |Real.log (s j) - Real.log (clipShare b (computeShares m { safe } x mu j)).1| < dampener m j * t := by
      rw [mul_comm]; exact h.trans_le hle
    exact lt_of_mul_lt_mul_left h' (dampener_pos m hm j).le
  have hclip : ∀ j, (clipShare b (computeShares m { safe } x mu j)).1 = computeShares m { safe } x mu j := fun j =>
    he j _ (clip_pos b hb _ (hpos x j)) ((hlog j).trans_le (min_le_left _ _))
  simp only [hclip] at hlog
  have hup : ∀ j, z j - x j ≤ accuracy := by
    intro j
    have h := distance_one_sided m hm safe mu hav hw hoff z x q t hq0 ht0.le hqi
      (fun k => by rw [hz]; exact (abs_lt.mp (hlog k)).2.le) j
    have h1 : t ≤ q * (accuracy / Spec.scale m) := (min_le_right _ _).trans (min_le_left _ _)
    have h2 : q * (z j - x j) ≤ q * accuracy := by
      refine h.trans ((mul_le_mul_of_nonneg_left h1 hsc.le).trans_eq ?_)
      field_simp
    exact le_of_mul_le_mul_left h2 hq0
  have hdown : ∀ j, x j - z j ≤ accuracy := by
    obtain ⟨k, -, hk⟩ := Finset.exists_max_image Finset.univ (fun j => x j - z j) Finset.univ_nonempty
    intro j
    refine (hk j (Finset.mem_univ _)).trans ?_
    by_contra hc
    push Not at hc
    set c := x k - z k with hcdef
    have h1 : computeShares m { safe } (fun l => z l + c) mu k ≤ computeShares m { safe } x mu k :=
      shares_at_max m hm safe mu hav hw x (fun l => z l + c) (fun l => by have := hk l (Finset.mem_univ _); linarith) k (by simp [hcdef])
    have h2 := (shares_rise m hm safe mu hav hw z q hqi c (by linarith) k).trans h1
    rw [hz] at h2
    have h3 := Real.log_le_log (mul_pos (hs k) (Real.exp_pos _)) h2
    rw [Real.log_mul (hs k).ne' (Real.exp_pos _).ne', Real.log_exp] at h3
    have h4 : q * (1 - Real.exp (-(accuracy / Spec.scale m))) < q * (1 - Real.exp (-(c / Spec.scale m))) := by
      refine mul_lt_mul_of_pos_left ?_ hq0
      have : Real.exp (-(c / Spec.scale m)) < Real.exp (-(accuracy / Spec.scale m)) :=
        Real.exp_lt_exp.mpr (neg_lt_neg (div_lt_div_of_pos_right hc hsc))
      linarith
    have h5 : t ≤ q * (1 - Real.exp (-(accuracy / Spec.scale m))) := (min_le_right _ _).trans (min_le_right _ _)
    linarith [(abs_lt.mp (hlog k)).1]
  have hfix : linearContraction m safe b mu s z = z :=
    (C22_fixed_points m safe b mu s z hs hint.1 hint.2 hm.rhoBelowOne (Or.inr (hpos z))).mpr hz
  intro j
  have := C23_nonexpansive_partial m hm heps safe b hb mu s hav hw hoff x z accuracy
    (fun k => abs_le.mpr ⟨by linarith [hup k], hdown k⟩) j
  rwa [hfix] at this

/-- **C117, what is reported.** For every accuracy there is an absolute tolerance such that whenever simple or SQUAREM iteration with this
tolerance, or a smaller one, reports convergence, the mean utilities it returns are that close to the ones that explain shares, whatever
the starting values, the budget and the step lengths. -/
theorem C117_reported (m : Market J A G) (hm : Regular m) (heps : m.nesting = none → 1 ≤ m.epsilonScale) (safe : Bool)
    (b : SharesBounds) (hb : b.Positive) (mu : J → A → ℝ) (hav : ∀ i, AvailabilityNonneg m { safe } i) (hw : ∀ i, 0 ≤ m.weights i)
    (hoff : ∀ j, ∃ i, 0 < m.weights i ∧ Offered m { safe } i j) (s : J → ℝ) (hint : Spec.Interior b s) (z : J → ℝ)
    (hz : ∀ j, computeShares m { safe } z mu j = s j) (accuracy : ℝ) (hacc : 0 < accuracy) :
    ∃ tolerance, 0 < tolerance ∧ ∀ atol, atol ≤ tolerance → ∀ (maxEvaluations : ℕ), 1 ≤ maxEvaluations → ∀ initial r,
      (r = simpleIterator ⟨maxEvaluations, atol, 0, infinityNorm⟩ (realContraction (linearContraction m safe b mu s)) (lift initial) ∨
        ∃ o stepMin stepMax, r = squaremIterator ⟨maxEvaluations, atol, 0, infinityNorm⟩ o stepMin stepMax
          (realContraction (linearContraction m safe b mu s)) (lift initial)) →
      r.converged = true → ∃ x, r.x = lift x ∧ ∀ j, |x j - z j| ≤ accuracy := by
  obtain ⟨tol, htol, h⟩ := C117_accuracy m hm heps safe b hb mu hav hw hoff s hint z hz accuracy hacc
  refine ⟨tol, htol, fun atol hatol maxEvaluations hmax initial r hr hconv => ?_⟩
  obtain ⟨n, last, hx, hwithin⟩ : ∃ n last, r.x = (realContraction (linearContraction m safe b mu s) n last).1 ∧
      Spec.Within infinityNorm atol 0 last (realContraction (linearContraction m safe b mu s) n last).1 none := by
    rcases hr with hr | ⟨o, stepMin, stepMax, hr⟩
    · obtain ⟨h1, -, -, h4, -⟩ := C14_simple ⟨maxEvaluations, atol, 0, infinityNorm⟩ hmax
        (realContraction (linearContraction m safe b mu s)) (lift initial)
      rw [← hr] at h1 h4
      obtain ⟨-, hx, -, hw⟩ := h4 hconv
      obtain ⟨n, hn⟩ : ∃ n, r.calls = n + 1 := ⟨r.calls - 1, by omega⟩
      rw [hn] at hx hw
      exact ⟨n, _, hx, hw⟩
    · obtain ⟨-, -, last, h4, -⟩ := C15_squarem ⟨maxEvaluations, atol, 0, infinityNorm⟩ hmax o stepMin stepMax
        (realContraction (linearContraction m safe b mu s)) (lift initial)
      rw [← hr] at h4
      obtain ⟨-, hx, -, hw⟩ := h4 hconv
      exact ⟨_, last, hx, hw⟩
  have hfin : last = lift fun j => (last j).getD 0 := by
    obtain ⟨d, hd, -⟩ := hwithin
    funext j
    have hj := finite_of_infinityNorm _ d hd j
    revert hj
    cases hl : last j <;> simp [hl, lift, realContraction]
  refine ⟨_, hx, h _ fun j => ?_⟩
  have hreal : Spec.Within infinityNorm atol 0 (lift fun j => (last j).getD 0)
      (lift (linearContraction m safe b mu s fun j => (last j).getD 0)) none := by
    rw [← hfin]; exact hwithin
  have hn := (within_real atol 0 _ _).mp hreal
  rw [if_neg (lt_irrefl _)] at hn
  have := norm_le_pi_norm ((linearContraction m safe b mu s fun j => (last j).getD 0) - fun j => (last j).getD 0) j
  rw [Real.norm_eq_abs] at this
  exact lt_of_le_of_lt this (hn.trans_le hatol)

/-- Non-vacuity of `C117_simple`, `C117_converges`, `C117_accuracy` and `C117_reported`: nested demand, two agents and default bounds. -/
example (mu : Fin 3 → Fin 2 → ℝ) (initial : Fin 3 → ℝ) :
    let T := linearContraction openMarket true ⟨some (1/1000000), none⟩ mu ![1/5, 1/4, 1/3]
    (∃ budget, (simpleIterator ⟨budget, 1/100, 0, infinityNorm⟩ (realContraction T) (lift initial)).converged = true) ∧
    ∃ z, (∀ j, computeShares openMarket {} z mu j = ![1/5, 1/4, 1/3] j) ∧
      Filter.Tendsto (fun n => T^[n] initial) Filter.atTop (nhds z) ∧
      ∃ tolerance, 0 < tolerance ∧ ∀ (maxEvaluations : ℕ), 1 ≤ maxEvaluations → ∀ o,
        let r := squaremIterator ⟨maxEvaluations, tolerance, 0, infinityNorm⟩ o 1 1 (realContraction T) (lift initial)
        r.converged = true → ∃ x, r.x = lift x ∧ ∀ j, |x j - z j| ≤ 1 / 100 := by
  intro T
  have hs : ∀ j : Fin 3, (0 : ℝ) < ![1/5, 1/4, 1/3] j := by intro j; fin_cases j <;> norm_num
  have hsum : ∑ j : Fin 3, (![1/5, 1/4, 1/3] j : ℝ) < ∑ i, openMarket.weights i := by
    simp [openMarket, exampleMarket, Fin.sum_univ_succ]; norm_num
  have hb : SharesBounds.Positive ⟨some (1/1000000), none⟩ := ⟨by intro l h; simp at h; subst h; norm_num, by simp⟩
  have hint : Spec.Interior (J := Fin 3) ⟨some (1/1000000), none⟩ ![1/5, 1/4, 1/3] :=
    ⟨by intro l h j; simp at h; subst h; fin_cases j <;> norm_num, by simp⟩
  have hw := fun i => (openMarket_weights i).le
  have hoff : ∀ j, ∃ i, 0 < openMarket.weights i ∧ Offered openMarket { safe := true } i j := fun j =>
    ⟨0, openMarket_weights 0, openMarket_offered true 0 (openMarket_weights 0) j⟩
  have heps : openMarket.nesting = none → 1 ≤ openMarket.epsilonScale := by simp [openMarket, exampleMarket]
  refine ⟨?_, ?_⟩
  · obtain ⟨budget, h⟩ := C117_simple openMarket openMarket_regular heps true _ hb mu (openMarket_avail true) hw ⟨0, openMarket_weights 0⟩
      (openMarket_offered true) _ hint hs hsum initial (1/100) 0 (by norm_num)
    exact ⟨budget, h budget le_rfl⟩
  · obtain ⟨z, hz⟩ := (C117_exists openMarket openMarket_regular true mu (openMarket_avail true) hw ⟨0, openMarket_weights 0⟩
      (openMarket_offered true) _).mpr ⟨hs, hsum⟩
    obtain ⟨tol, htol, h⟩ := C117_reported openMarket openMarket_regular heps true _ hb mu (openMarket_avail true) hw hoff _ hint z hz
      (1/100) (by norm_num)
    exact ⟨z, hz, C117_converges openMarket openMarket_regular heps true _ hb mu (openMarket_avail true) hw hoff _ hint z hz initial,
      tol, htol, fun n hn o hc => h tol le_rfl n hn initial _ (Or.inr ⟨o, 1, 1, rfl⟩) hc⟩

/-- Non-vacuity of `C117_distance`: there always is such a `q`. -/
example (mu : Fin 3 → Fin 2 → ℝ) (x y : Fin 3 → ℝ) (t : ℝ)
    (h : ∀ k, |Real.log (computeShares openMarket {} x mu k) - Real.log (computeShares openMarket {} y mu k)| ≤ t) :
    ∃ q, 0 < q ∧ ∀ j, |x j - y j| ≤ t / q := by
  have ho := fun z i => outside_bounds openMarket openMarket_regular true mu i (openMarket_avail true i) z
  obtain ⟨i, -, hi⟩ := Finset.exists_min_image (Finset.univ : Finset (Fin 2))
    (fun i => min (Spec.outside openMarket {} x mu i) (Spec.outside openMarket {} y mu i)) ⟨0, Finset.mem_univ _⟩
  refine ⟨_, lt_min (ho x i).1 (ho y i).1, fun j => ?_⟩
  have := C117_distance openMarket openMarket_regular true mu (openMarket_avail true) (fun i => (openMarket_weights i).le)
    (fun j => ⟨0, openMarket_weights 0, openMarket_offered true 0 (openMarket_weights 0) j⟩) x y _ t (lt_min (ho x i).1 (ho y i).1)
    (fun k _ => le_min_iff.mp (hi k (Finset.mem_univ _))) h j
  simpa [Spec.scale, openMarket, exampleMarket] using this

/-! ## Small scales of epsilon -/

lemma quarter_up (safe : Bool) : linearContraction (oneProduct (1/4)) safe ⟨none, none⟩ (fun _ _ => 0) (fun _ => 2/5)
    (fun _ => -(Real.log 2 / 2)) = fun _ => Real.log 2 / 2 := by
  funext j
  simp only [linearContraction, clipShare, dampener, oneProduct]
  have e1 : Real.exp (-(Real.log 2 / 2) / (1/4)) = 1/4 := by
    rw [show -(Real.log 2 / 2) / (1/4) = -(((2:ℕ):ℝ) * Real.log 2) by push_cast; ring, Real.exp_neg, Real.exp_nat_mul,
      Real.exp_log (by norm_num)]; norm_num
  have hsh := oneProduct_shares (1/4) (-(Real.log 2 / 2)) safe
  simp only [oneProduct] at hsh
  rw [hsh, e1, ← Real.log_div (by norm_num) (by norm_num)]
  norm_num
  ring

lemma quarter_down (safe : Bool) : linearContraction (oneProduct (1/4)) safe ⟨none, none⟩ (fun _ _ => 0) (fun _ => 2/5)
    (fun _ => Real.log 2 / 2) = fun _ => -(Real.log 2 / 2) := by
  funext j
  simp only [linearContraction, clipShare, dampener, oneProduct]
  have e1 : Real.exp (Real.log 2 / 2 / (1/4)) = 4 := by
    rw [show Real.log 2 / 2 / (1/4) = ((2:ℕ):ℝ) * Real.log 2 by push_cast; ring, Real.exp_nat_mul,
      Real.exp_log (by norm_num)]; norm_num
  have hsh := oneProduct_shares (1/4) (Real.log 2 / 2) safe
  simp only [oneProduct] at hsh
  rw [hsh, e1, ← Real.log_div (by norm_num) (by norm_num)]
  rw [show (2/5 : ℝ) / (4 / (1 + 4)) = 2⁻¹ by norm_num, Real.log_inv]
  ring

/-- **C117 with a small `epsilon_scale`.** With `epsilon_scale = 1/4`, one product with share `2/5` and starting values at which the share
is `1/5`, the iterates jump back and forth forever: simple iteration does not converge, whatever the budget, with any tolerance up to
`log 2`. (Mean utilities that explain shares exist.) -/
theorem C117_small_epsilon_cycles (safe : Bool) (maxEvaluations : ℕ) (hmax : 1 ≤ maxEvaluations) (atol : ℝ) (hatol : atol ≤ Real.log 2) :
    (∃ z, ∀ j, computeShares (oneProduct (1/4)) { safe } z (fun _ _ => 0) j = 2/5) ∧
    (simpleIterator ⟨maxEvaluations, atol, 0, infinityNorm⟩ (realContraction (linearContraction (oneProduct (1/4)) safe ⟨none, none⟩
      (fun _ _ => 0) fun _ => 2/5)) (lift fun _ => -(Real.log 2 / 2))).converged = false := by
  have hl2 : 0 < Real.log 2 := Real.log_pos (by norm_num)
  constructor
  · refine (C117_exists (oneProduct (1/4)) ⟨by simp [oneProduct], by simp [oneProduct]⟩ safe _ (fun i a h => by simp [oneProduct] at h)
      (fun i => by simp [oneProduct]) ⟨(), by simp [oneProduct]⟩ (fun i _ j => ⟨by simp, rfl, fun a h => by simp [oneProduct] at h⟩)
      (fun _ => 2/5)).mpr ⟨fun j => by norm_num, by simp [oneProduct]; norm_num⟩
  · set T := linearContraction (oneProduct (1/4)) safe ⟨none, none⟩ (fun _ _ => 0) fun _ => (2/5 : ℝ) with hT
    have hcycle : ∀ n, (T^[n] fun _ => -(Real.log 2 / 2)) = (fun _ => -(Real.log 2 / 2)) ∧
          (T^[n + 1] fun _ => -(Real.log 2 / 2)) = (fun _ => Real.log 2 / 2) ∨
        (T^[n] fun _ => -(Real.log 2 / 2)) = (fun _ => Real.log 2 / 2) ∧
          (T^[n + 1] fun _ => -(Real.log 2 / 2)) = fun _ => -(Real.log 2 / 2) := by
      intro n
      induction n with
      | zero => exact Or.inl ⟨rfl, quarter_up safe⟩
      | succ n ih =>
        rw [Function.iterate_succ_apply' T (n + 1)]
        rcases ih with ⟨-, h⟩ | ⟨-, h⟩ <;> rw [h]
        · exact Or.inr ⟨rfl, quarter_down safe⟩
        · exact Or.inl ⟨rfl, quarter_up safe⟩
    have hstep : ∀ n, Real.log 2 ≤ ‖(T^[n + 1] fun _ => -(Real.log 2 / 2)) - (T^[n] fun _ => -(Real.log 2 / 2))‖ := by
      intro n
      have := norm_le_pi_norm ((T^[n + 1] fun _ => -(Real.log 2 / 2)) - (T^[n] fun _ => -(Real.log 2 / 2))) ()
      refine le_trans ?_ this
      rw [Pi.sub_apply, Real.norm_eq_abs]
      rcases hcycle n with ⟨h1, h2⟩ | ⟨h1, h2⟩ <;> rw [h1, h2]
      · rw [show Real.log 2 / 2 - -(Real.log 2 / 2) = Real.log 2 by ring, abs_of_pos hl2]
      · rw [show -(Real.log 2 / 2) - Real.log 2 / 2 = -Real.log 2 by ring, abs_neg, abs_of_pos hl2]
    obtain ⟨h1, -, -, h4, -⟩ := C14_simple ⟨maxEvaluations, atol, 0, infinityNorm⟩ hmax (realContraction T) (lift fun _ => -(Real.log 2 / 2))
    by_contra hc
    obtain ⟨-, -, -, hw⟩ := h4 (by simpa using hc)
    set r := simpleIterator ⟨maxEvaluations, atol, 0, infinityNorm⟩ (realContraction T) (lift fun _ => -(Real.log 2 / 2))
    obtain ⟨n, hn⟩ : ∃ n, r.calls = n + 1 := ⟨r.calls - 1, by omega⟩
    rw [hn, Nat.add_sub_cancel, iterate_real, iterate_real] at hw
    have := (within_real atol 0 _ _).mp hw
    rw [if_neg (lt_irrefl _)] at this
    linarith [hstep n]

end Pyblp
