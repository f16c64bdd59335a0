import Verif.Lemmas.NestedOligopoly
import Mathlib.Topology.Algebra.Order.LiminfLimsup
import Mathlib.Topology.Order.IntermediateValue
import Mathlib.Analysis.SpecialFunctions.Pow.Continuity
import Mathlib.Dynamics.FixedPoints.Topology

/-! Iteration for markups when demand is nested logit and products of each firm are in one nest. -/

set_option linter.unusedSectionVars false

namespace Pyblp

namespace NestedOligopoly

open Finset

section One

variable {a r E0 : ℝ}

/-- What one markup contributes to the next, per unit. -/
noncomputable def slopeW (a r E0 R K t : ℝ) : ℝ :=
  r * (E0 * Real.exp (-(a / (1 - r) * t)) / (R + E0 * Real.exp (-(a / (1 - r) * t)))) +
    (1 - r) * (E0 * Real.exp (-(a / (1 - r) * t)) * (R + E0 * Real.exp (-(a / (1 - r) * t))) ^ (-r) /
      (K + (R + E0 * Real.exp (-(a / (1 - r) * t))) ^ (1 - r)))

/-- The next markup. -/
noncomputable def nextMarkup (a r E0 R K t : ℝ) : ℝ := (1 - r) / a + t * slopeW a r E0 R K t

variable (ha : 0 < a) (hr0 : 0 ≤ r) (hr1 : r < 1) (hE0 : 0 < E0)

include ha hr0 hr1 hE0

/-- Shares and their derivatives. -/
lemma one_shares {R K : ℝ} (hR : 0 ≤ R) (hK : 1 ≤ K) (t : ℝ) :
    ∃ C S, 0 < S ∧ S ≤ C ∧ C ≤ 1 ∧ slopeW a r E0 R K t = r * C + (1 - r) * S ∧
      HasDerivAt (slopeW a r E0 R K) (-(a / (1 - r) * (r * (C * (1 - C)) + (1 - r) * (S * (1 - (r * C + (1 - r) * S)))))) t := by
  set b := a / (1 - r) with hb
  set T : ℝ → ℝ := fun t => E0 * Real.exp (-(b * t)) with hT
  have hTp : ∀ t, 0 < T t := fun t => mul_pos hE0 (Real.exp_pos _)
  have hTd : HasDerivAt T (-(b * T t)) t := by
    have h1 : HasDerivAt (fun t => -(b * t)) (-b) t := ((hasDerivAt_id' t).const_mul b).fun_neg.congr_deriv (by ring)
    exact (h1.exp.const_mul E0).congr_deriv (by simp only [hT]; ring)
  have hN : 0 < R + T t := by linarith [hTp t]
  have hNd : HasDerivAt (fun t => R + T t) (-(b * T t)) t := hTd.const_add R
  have hpow := Real.rpow_pos_of_pos hN (1 - r)
  have hpow' := Real.rpow_pos_of_pos hN (-r)
  have hD : 0 < K + (R + T t) ^ (1 - r) := by linarith
  have hrel : (R + T t) ^ (1 - r) = (R + T t) * (R + T t) ^ (-r) := by
    rw [sub_eq_add_neg, Real.rpow_add hN, Real.rpow_one]
  refine ⟨T t / (R + T t), T t * (R + T t) ^ (-r) / (K + (R + T t) ^ (1 - r)), div_pos (mul_pos (hTp t) hpow') hD, ?_,
    (div_le_one hN).mpr (by linarith), rfl, ?_⟩
  · rw [div_le_div_iff₀ hD hN, hrel]
    nlinarith [mul_pos (hTp t) (by linarith : 0 < K)]
  · have h1 := (hTd.fun_div hNd hN.ne').const_mul r
    have h2 := ((hTd.fun_mul (hNd.rpow_const (p := -r) (Or.inl hN.ne'))).fun_div ((hNd.rpow_const (p := 1 - r) (Or.inl hN.ne')).const_add K) hD.ne').const_mul (1 - r)
    refine (h1.fun_add h2).congr_deriv ?_
    have e1 : (R + T t) ^ (-r - 1) = (R + T t) ^ (-r) / (R + T t) := by rw [Real.rpow_sub_one hN.ne']
    have e2 : (R + T t) ^ (1 - r - 1) = (R + T t) ^ (-r) := by congr 1; ring
    rw [e1, e2]
    have hr' : (1 : ℝ) - r ≠ 0 := by linarith
    generalize hQ : (R + T t) ^ (1 - r) = Q at *
    generalize hq : (R + T t) ^ (-r) = q at *
    have hN' := hN.ne'
    have hD' := hD.ne'
    field_simp
    ring

lemma slopeW_antitone {R K : ℝ} (hR : 0 ≤ R) (hK : 1 ≤ K) : Antitone (slopeW a r E0 R K) := by
  refine antitone_of_deriv_nonpos (fun t => ?_) fun t => ?_
  · obtain ⟨C, S, -, -, -, -, hd⟩ := one_shares ha hr0 hr1 hE0 hR hK t
    exact hd.differentiableAt
  · obtain ⟨C, S, hS, hSC, hC, -, hd⟩ := one_shares ha hr0 hr1 hE0 hR hK t
    rw [hd.deriv]
    have hb : 0 < a / (1 - r) := div_pos ha (by linarith)
    have h1 : 0 ≤ r * (C * (1 - C)) := mul_nonneg hr0 (mul_nonneg (by linarith) (by linarith))
    have h2 : 0 ≤ (1 - r) * (S * (1 - (r * C + (1 - r) * S))) := mul_nonneg (by linarith) (mul_nonneg hS.le (by nlinarith))
    have := mul_nonneg hb.le (add_nonneg h1 h2)
    linarith

lemma slopeW_bounds {R K : ℝ} (hR : 0 ≤ R) (hK : 1 ≤ K) (t : ℝ) : 0 ≤ slopeW a r E0 R K t ∧ slopeW a r E0 R K t ≤ 1 := by
  obtain ⟨C, S, hS, hSC, hC, hw, -⟩ := one_shares ha hr0 hr1 hE0 hR hK t
  rw [hw]
  constructor <;> nlinarith

lemma below_iff (R K t : ℝ) : t ≤ nextMarkup a r E0 R K t ↔ a / (1 - r) * (t * (1 - slopeW a r E0 R K t)) ≤ 1 := by
  have h1 : (0 : ℝ) < 1 - r := by linarith
  rw [nextMarkup, div_mul_eq_mul_div, div_le_one h1, ← sub_nonneg, ← sub_nonneg (b := a * _)]
  have : (1 - r) / a + t * slopeW a r E0 R K t - t = (1 - r - a * (t * (1 - slopeW a r E0 R K t))) / a := by field_simp; ring
  rw [this, div_nonneg_iff]
  constructor
  · rintro (h | h)
    · exact h.1
    · linarith
  · exact fun h => Or.inl ⟨h, ha.le⟩

/-- Below the markup that satisfies the first order condition, the next markup increases with the markup. -/
lemma nextMarkup_monotoneOn {R K t1 : ℝ} (hR : 0 ≤ R) (hK : 1 ≤ K) (ht1 : t1 ≤ nextMarkup a r E0 R K t1) :
    MonotoneOn (nextMarkup a r E0 R K) (Set.Icc 0 t1) := by
  have hb : 0 < a / (1 - r) := div_pos ha (by linarith)
  have hd : ∀ t, ∃ C S, 0 < S ∧ S ≤ C ∧ C ≤ 1 ∧ slopeW a r E0 R K t = r * C + (1 - r) * S ∧
      HasDerivAt (nextMarkup a r E0 R K) (slopeW a r E0 R K t + t * (-(a / (1 - r) * (r * (C * (1 - C)) + (1 - r) * (S * (1 - (r * C + (1 - r) * S))))))) t := fun t => by
    obtain ⟨C, S, hS, hSC, hC, hw, hd⟩ := one_shares ha hr0 hr1 hE0 hR hK t
    exact ⟨C, S, hS, hSC, hC, hw, (((hasDerivAt_id' t).fun_mul hd).const_add _).congr_deriv (by ring)⟩
  refine monotoneOn_of_deriv_nonneg (convex_Icc 0 t1) (fun t _ => ?_) (fun t _ => ?_) fun t ht => ?_
  · obtain ⟨_, _, -, -, -, -, h⟩ := hd t
    exact h.continuousAt.continuousWithinAt
  · obtain ⟨_, _, -, -, -, -, h⟩ := hd t
    exact h.differentiableAt.differentiableWithinAt
  · rw [interior_Icc] at ht
    obtain ⟨C, S, hS, hSC, hC, hw, h⟩ := hd t
    rw [h.deriv]
    have hsub := (below_iff ha hr0 hr1 hE0 R K t1).mp ht1
    have hbt := slopeW_bounds ha hr0 hr1 hE0 hR hK t1
    have h1 : t * (1 - slopeW a r E0 R K t) ≤ t1 * (1 - slopeW a r E0 R K t1) :=
      mul_le_mul ht.2.le (by linarith [slopeW_antitone ha hr0 hr1 hE0 hR hK ht.2.le]) (by linarith [(slopeW_bounds ha hr0 hr1 hE0 hR hK t).2]) (ht.1.le.trans ht.2.le)
    have h2 : a / (1 - r) * (t * (1 - slopeW a r E0 R K t)) ≤ 1 := (mul_le_mul_of_nonneg_left h1 hb.le).trans hsub
    rw [hw] at h2 ⊢
    set b := a / (1 - r)
    have hbt' : 0 ≤ b * t := mul_nonneg hb.le ht.1.le
    have h3 : b * t * (1 - C) ≤ 1 := by
      have : b * t * (1 - C) ≤ b * t * (1 - (r * C + (1 - r) * S)) := mul_le_mul_of_nonneg_left (by nlinarith) hbt'
      linarith
    have h4 : r * C * (b * t * (1 - C)) ≤ r * C * 1 := mul_le_mul_of_nonneg_left h3 (mul_nonneg hr0 (by linarith))
    have h5 : (1 - r) * S * (b * (t * (1 - (r * C + (1 - r) * S)))) ≤ (1 - r) * S * 1 := mul_le_mul_of_nonneg_left h2 (mul_nonneg (by linarith) hS.le)
    linarith

lemma nextMarkup_continuous {R K : ℝ} (hR : 0 ≤ R) (hK : 1 ≤ K) : Continuous (nextMarkup a r E0 R K) :=
  continuous_iff_continuousAt.mpr fun t => by
    obtain ⟨_, _, -, -, -, -, h⟩ := one_shares ha hr0 hr1 hE0 hR hK t
    exact (continuousAt_id.mul h.continuousAt).const_add _

/-- Iteration from below never overshoots. -/
lemma nextMarkup_again {R K t : ℝ} (hR : 0 ≤ R) (hK : 1 ≤ K) (ht0 : 0 ≤ t) (ht : t ≤ nextMarkup a r E0 R K t) :
    nextMarkup a r E0 R K t ≤ nextMarkup a r E0 R K (nextMarkup a r E0 R K t) := by
  set h := nextMarkup a r E0 R K with hh
  by_contra hlt
  push Not at hlt
  have hcont : ContinuousOn (fun s => h s - s) (Set.Icc t (h t)) := ((nextMarkup_continuous ha hr0 hr1 hE0 hR hK).sub continuous_id).continuousOn
  obtain ⟨s, hs, hs0⟩ := intermediate_value_Icc' ht hcont (show (0 : ℝ) ∈ Set.Icc (h (h t) - h t) (h t - t) from ⟨by linarith, by linarith⟩)
  have hfix : h s = s := by simp only at hs0; linarith
  have := nextMarkup_monotoneOn ha hr0 hr1 hE0 hR hK hfix.ge ⟨ht0, hs.1⟩ ⟨ht0.trans hs.1, le_rfl⟩ hs.1
  rw [← hh, hfix] at this
  have heq : h t = s := le_antisymm this hs.2
  rw [heq, hfix] at hlt
  exact lt_irrefl _ hlt

/-- Markups are higher if others have less. -/
lemma slopeW_mono {R R' K K' : ℝ} (hR' : 0 ≤ R') (hRR : R' ≤ R) (hK' : 1 ≤ K') (hKK : K' ≤ K) (t : ℝ) : slopeW a r E0 R K t ≤ slopeW a r E0 R' K' t := by
  unfold slopeW
  set T := E0 * Real.exp (-(a / (1 - r) * t))
  have hT : 0 < T := mul_pos hE0 (Real.exp_pos _)
  have hN' : 0 < R' + T := by linarith
  have hN : 0 < R + T := by linarith
  have h1 : (R + T) ^ (-r) ≤ (R' + T) ^ (-r) := Real.rpow_le_rpow_of_nonpos hN' (by linarith) (by linarith)
  have h2 : (R' + T) ^ (1 - r) ≤ (R + T) ^ (1 - r) := Real.rpow_le_rpow hN'.le (by linarith) (by linarith)
  have h3 := Real.rpow_pos_of_pos hN' (1 - r)
  refine add_le_add (mul_le_mul_of_nonneg_left (div_le_div_of_nonneg_left hT.le hN' (by linarith)) hr0) (mul_le_mul_of_nonneg_left ?_ (by linarith))
  exact div_le_div₀ (mul_nonneg hT.le (Real.rpow_nonneg hN'.le _)) (mul_le_mul_of_nonneg_left h1 hT.le) (by linarith) (by linarith)

/-- Markups stay bounded. -/
lemma nextMarkup_le {R K t B : ℝ} (hR : 0 ≤ R) (hK : 1 ≤ K) (ht0 : 0 ≤ t) (ht : t ≤ B) (hB : 1 / a + E0 ^ (1 - r) / a ≤ B) : nextMarkup a r E0 R K t ≤ B := by
  set T := E0 * Real.exp (-(a / (1 - r) * t)) with hT
  have hTp : 0 < T := mul_pos hE0 (Real.exp_pos _)
  have hN : 0 < R + T := by linarith
  have hpow := Real.rpow_pos_of_pos hN (1 - r)
  have hpow' := Real.rpow_pos_of_pos hN (-r)
  have hC : T / (R + T) ≤ 1 := (div_le_one hN).mpr (by linarith)
  have hS : T * (R + T) ^ (-r) / (K + (R + T) ^ (1 - r)) ≤ E0 ^ (1 - r) * Real.exp (-(a * t)) := by
    have h1 : T * (R + T) ^ (-r) / (K + (R + T) ^ (1 - r)) ≤ T * (R + T) ^ (-r) := div_le_self (mul_pos hTp hpow').le (by linarith)
    have h2 : T * (R + T) ^ (-r) ≤ T * T ^ (-r) := mul_le_mul_of_nonneg_left (Real.rpow_le_rpow_of_nonpos hTp (by linarith) (by linarith)) hTp.le
    have h3 : T * T ^ (-r) = T ^ (1 - r) := by rw [sub_eq_add_neg, Real.rpow_add hTp, Real.rpow_one]
    have h4 : T ^ (1 - r) = E0 ^ (1 - r) * Real.exp (-(a * t)) := by
      rw [hT, Real.mul_rpow hE0.le (Real.exp_pos _).le, ← Real.exp_mul]
      congr 2
      have : (1 : ℝ) - r ≠ 0 := by linarith
      field_simp
    linarith
  have hte : t * Real.exp (-(a * t)) ≤ 1 / a := by
    rw [Real.exp_neg, ← div_eq_mul_inv, div_le_div_iff₀ (Real.exp_pos _) ha]
    linarith [Real.add_one_le_exp (a * t)]
  have hE := Real.rpow_pos_of_pos hE0 (1 - r)
  have htS : t * (T * (R + T) ^ (-r) / (K + (R + T) ^ (1 - r))) ≤ E0 ^ (1 - r) / a := by
    refine (mul_le_mul_of_nonneg_left hS ht0).trans ?_
    have := mul_le_mul_of_nonneg_left hte hE.le
    calc _ = E0 ^ (1 - r) * (t * Real.exp (-(a * t))) := by ring
      _ ≤ _ := this
      _ = _ := by ring
  have htC : t * (T / (R + T)) ≤ B := by nlinarith
  have hw : slopeW a r E0 R K t = r * (T / (R + T)) + (1 - r) * (T * (R + T) ^ (-r) / (K + (R + T) ^ (1 - r))) := rfl
  rw [nextMarkup, hw]
  have h1 : r * (t * (T / (R + T))) ≤ r * B := mul_le_mul_of_nonneg_left htC hr0
  have h2 : (1 - r) * (t * (T * (R + T) ^ (-r) / (K + (R + T) ^ (1 - r)))) ≤ (1 - r) * (E0 ^ (1 - r) / a) := mul_le_mul_of_nonneg_left htS (by linarith)
  have h3 : (1 - r) * (1 / a + E0 ^ (1 - r) / a) ≤ (1 - r) * B := mul_le_mul_of_nonneg_left hB (by linarith)
  have h4 : (1 - r) / a = (1 - r) * (1 / a) := by ring
  rw [h4]
  nlinarith

end One

section Many

variable {J G F : Type} [Fintype J] [Fintype G] [DecidableEq G] [DecidableEq F] (group : J → G) (rho : G → ℝ) (a : ℝ) (A : J → ℝ) (firm : J → F)

/-- One iteration for markups. -/
noncomputable def step (z : J → ℝ) (k : J) : ℝ :=
  (1 - rho (group k)) / a +
    rho (group k) * ((∑ j with group j = group k ∧ firm j = firm k, z j * mass group rho a A z j) / nestMass group rho a A z (group k)) +
    (1 - rho (group k)) * profit group rho a A (fun j => firm j = firm k) z

variable {group rho a A firm} (ha : 0 < a) (hr0 : ∀ g, 0 ≤ rho g) (hr1 : ∀ g, rho g < 1) (hA : ∀ j, 0 < A j)

include ha hr1 in
/-- Iteration stops where first order conditions hold. -/
lemma step_fixed_iff (z : J → ℝ) : step group rho a A firm z = z ↔ ∀ f, Foc group rho a A (fun k => firm k = f) z := by
  have hrel : ∀ k, step group rho a A firm z k - z k = (1 - rho (group k)) / a * (1 - a / (1 - rho (group k)) * z k +
      a / (1 - rho (group k)) * rho (group k) * ((∑ j with group j = group k ∧ firm j = firm k, z j * mass group rho a A z j) / nestMass group rho a A z (group k)) +
      a * profit group rho a A (fun j => firm j = firm k) z) := fun k => by
    have : (1 : ℝ) - rho (group k) ≠ 0 := by linarith [hr1 (group k)]
    rw [step]
    field_simp
    ring
  have hne : ∀ k, (1 - rho (group k)) / a ≠ 0 := fun k => (div_pos (by linarith [hr1 (group k)]) ha).ne'
  constructor
  · intro h f k hk
    have h1 := hrel k
    rw [h, sub_self] at h1
    have h2 := (mul_eq_zero.mp h1.symm).resolve_left (hne k)
    rwa [hk] at h2
  · intro h
    funext k
    have h1 := hrel k
    rw [h (firm k) k rfl, mul_zero] at h1
    linarith

/-- What is elsewhere. -/
noncomputable def elsewhere (group : J → G) (rho : G → ℝ) (a : ℝ) (A : J → ℝ) (z : J → ℝ) (g : G) : ℝ :=
  1 + ∑ h ∈ Finset.univ.erase g, nestMass group rho a A z h ^ (1 - rho h)

include hA

lemma elsewhere_ge (z : J → ℝ) (g : G) : 1 ≤ elsewhere group rho a A z g := by
  have := Finset.sum_nonneg fun h (_ : h ∈ Finset.univ.erase g) => Real.rpow_nonneg (nestMass_nonneg (group := group) (rho := rho) (a := a) hA z h) (1 - rho h)
  rw [elsewhere]
  linarith

variable (hone : ∀ j k, firm j = firm k → group j = group k)

include hone

/-- What a firm has at cost. -/
lemma step_common (z : J → ℝ) (hz : ∀ j k, firm j = firm k → z j = z k) (k : J) :
    step group rho a A firm z k = nextMarkup a (rho (group k)) (∑ j with firm j = firm k, A j)
      (rivalMass group rho a A (fun j => firm j = firm k) z (group k)) (elsewhere group rho a A z (group k)) (z k) := by
  set g := group k with hg
  set own : J → Prop := fun j => firm j = firm k with hown
  have hset : (Finset.univ.filter fun j => group j = g ∧ own j) = Finset.univ.filter own := by
    ext j
    simp only [Finset.mem_filter, Finset.mem_univ, true_and, and_iff_right_iff_imp]
    exact fun h => hone j k h
  have hE : ownMass group rho a A own z g = (∑ j with own j, A j) * Real.exp (-(a / (1 - rho g) * z k)) := by
    rw [ownMass, hset, Finset.sum_mul]
    refine Finset.sum_congr rfl fun j hj => ?_
    have hj' := (Finset.mem_filter.mp hj).2
    rw [mass, hz j k hj', hone j k hj']
  have hN : nestMass group rho a A z g = rivalMass group rho a A own z g + (∑ j with own j, A j) * Real.exp (-(a / (1 - rho g) * z k)) := by
    rw [nestMass_split own, hE]
  have hsum : ∑ j with group j = g ∧ own j, z j * mass group rho a A z j = z k * ((∑ j with own j, A j) * Real.exp (-(a / (1 - rho g) * z k))) := by
    rw [← hE, ownMass, Finset.mul_sum]
    refine Finset.sum_congr rfl fun j hj => ?_
    rw [hz j k (Finset.mem_filter.mp hj).2.2]
  have hden : denom group rho a A z = elsewhere group rho a A z g + nestMass group rho a A z g ^ (1 - rho g) := by
    rw [denom, elsewhere, ← Finset.sum_erase_add _ _ (Finset.mem_univ g)]
    ring
  have hprofit : profit group rho a A own z = z k * ((∑ j with own j, A j) * Real.exp (-(a / (1 - rho g) * z k)) * nestMass group rho a A z g ^ (-rho g) / denom group rho a A z) := by
    have : profit group rho a A own z = ∑ j with own j, z k * mass group rho a A z j * (nestMass group rho a A z g ^ (-rho g) / denom group rho a A z) := by
      refine Finset.sum_congr rfl fun j hj => ?_
      have hj' := (Finset.mem_filter.mp hj).2
      rw [share, hz j k hj', hone j k hj']
      ring
    rw [this, ← Finset.sum_mul, ← Finset.mul_sum, ← hE, ownMass, hset]
    ring
  rw [step, ← hg, hsum, hprofit, nextMarkup, slopeW, hden, hN]
  ring

include ha hr0 hr1

lemma base_pos (k : J) : 0 < ∑ j with firm j = firm k, A j := Finset.sum_pos (fun j _ => hA j) ⟨k, by simp⟩

/-- A step keeps markups common, not negative and bounded, and increasing if they were. -/
lemma step_invariant (B : ℝ) (hB : ∀ k, 1 / a + (∑ j with firm j = firm k, A j) ^ (1 - rho (group k)) / a ≤ B) (z : J → ℝ)
    (hz : ∀ j k, firm j = firm k → z j = z k) (hz0 : ∀ k, 0 ≤ z k) (hzB : ∀ k, z k ≤ B) (hup : ∀ k, z k ≤ step group rho a A firm z k) :
    (∀ j k, firm j = firm k → step group rho a A firm z j = step group rho a A firm z k) ∧ (∀ k, 0 ≤ step group rho a A firm z k) ∧
      (∀ k, step group rho a A firm z k ≤ B) ∧ ∀ k, step group rho a A firm z k ≤ step group rho a A firm (step group rho a A firm z) k := by
  have hcommon : ∀ j k, firm j = firm k → step group rho a A firm z j = step group rho a A firm z k := fun j k hjk => by
    simp only [step, hone j k hjk, hjk]
  have hform := step_common (rho := rho) (a := a) hA hone z hz
  refine ⟨hcommon, fun k => (hz0 k).trans (hup k), fun k => ?_, fun k => ?_⟩
  · rw [hform]
    exact nextMarkup_le ha (hr0 _) (hr1 _) (base_pos ha hr0 hr1 hA hone k) (rivalMass_nonneg hA _ z _) (elsewhere_ge hA z _) (hz0 k) (hzB k) (hB k)
  · have hmass : ∀ j, mass group rho a A (step group rho a A firm z) j ≤ mass group rho a A z j := fun j => by
      refine mul_le_mul_of_nonneg_left (Real.exp_le_exp.mpr (neg_le_neg (mul_le_mul_of_nonneg_left (hup j) ?_))) (hA j).le
      exact div_nonneg ha.le (by linarith [hr1 (group j)])
    have hR : rivalMass group rho a A (fun j => firm j = firm k) (step group rho a A firm z) (group k) ≤ rivalMass group rho a A (fun j => firm j = firm k) z (group k) :=
      Finset.sum_le_sum fun j _ => hmass j
    have hK : elsewhere group rho a A (step group rho a A firm z) (group k) ≤ elsewhere group rho a A z (group k) := by
      unfold elsewhere
      gcongr with h _
      · exact nestMass_nonneg hA _ _
      · linarith [hr1 h]
      · exact Finset.sum_le_sum fun j _ => hmass j
    have hEp := base_pos ha hr0 hr1 hA hone k
    rw [step_common hA hone (step group rho a A firm z) hcommon k]
    have h1 := nextMarkup_again ha (hr0 (group k)) (hr1 (group k)) hEp (rivalMass_nonneg hA (fun j => firm j = firm k) z (group k)) (elsewhere_ge (group := group) (rho := rho) (a := a) hA z (group k)) (hz0 k)
      (by rw [← hform]; exact hup k)
    rw [← hform] at h1
    refine h1.trans ?_
    have h2 := slopeW_mono (R' := rivalMass group rho a A (fun j => firm j = firm k) (step group rho a A firm z) (group k)) (R := rivalMass group rho a A (fun j => firm j = firm k) z (group k))
      (K' := elsewhere group rho a A (step group rho a A firm z) (group k)) (K := elsewhere group rho a A z (group k)) ha (hr0 (group k)) (hr1 (group k)) hEp (rivalMass_nonneg hA _ _ _) hR
      (elsewhere_ge hA _ _) hK (step group rho a A firm z k)
    exact add_le_add le_rfl (mul_le_mul_of_nonneg_left h2 ((hz0 k).trans (hup k)))

omit hone ha hr0 in
lemma step_continuous : Continuous (step group rho a A firm) := by
  have hmass : ∀ j, Continuous fun z => mass group rho a A z j := fun j => by unfold mass; fun_prop
  have hN : ∀ g, Continuous fun z => nestMass group rho a A z g := fun g => continuous_finsetSum _ fun j _ => hmass j
  have hpos : ∀ (z : J → ℝ) j, nestMass group rho a A z (group j) ≠ 0 := fun z j => (Finset.sum_pos (fun i _ => mass_pos hA z i) ⟨j, by simp⟩).ne'
  have hden : Continuous fun z => denom group rho a A z :=
    continuous_const.add (continuous_finsetSum _ fun g _ => (hN g).rpow_const fun _ => Or.inr (by linarith [hr1 g]))
  have hshare : ∀ j, Continuous fun z => share group rho a A z j := fun j =>
    ((hmass j).mul ((hN _).rpow_const fun z => Or.inl (hpos z j))).div hden fun z => (denom_pos hA z).ne'
  refine continuous_pi fun k => ?_
  refine (continuous_const.add (continuous_const.mul ((continuous_finsetSum _ fun j _ => (continuous_apply j).mul (hmass j)).div (hN _) fun z => hpos z k))).add
    (continuous_const.mul (continuous_finsetSum _ fun j _ => (continuous_apply j).mul (hshare j)))

/-- From markups of zero, iteration increases to an equilibrium. -/
theorem converges : ∃ z, step group rho a A firm z = z ∧ (∀ n k, (step group rho a A firm)^[n] (fun _ => 0) k ≤ (step group rho a A firm)^[n + 1] (fun _ => 0) k) ∧
    (∀ n k, (step group rho a A firm)^[n] (fun _ => 0) k ≤ z k) ∧ Filter.Tendsto (fun n => (step group rho a A firm)^[n] (fun _ => 0)) Filter.atTop (nhds z) := by
  set B := 1 / a + ∑ k, (∑ j with firm j = firm k, A j) ^ (1 - rho (group k)) / a with hBdef
  have hnn : ∀ k, 0 ≤ (∑ j with firm j = firm k, A j) ^ (1 - rho (group k)) / a := fun k =>
    div_nonneg (Real.rpow_nonneg (base_pos ha hr0 hr1 hA hone k).le _) ha.le
  have hB : ∀ k, 1 / a + (∑ j with firm j = firm k, A j) ^ (1 - rho (group k)) / a ≤ B := fun k => by
    have := Finset.single_le_sum (f := fun k => (∑ j with firm j = firm k, A j) ^ (1 - rho (group k)) / a) (fun k _ => hnn k) (Finset.mem_univ k)
    linarith
  have hB0 : 0 ≤ B := add_nonneg (div_pos one_pos ha).le (Finset.sum_nonneg fun k _ => hnn k)
  set T := step group rho a A firm with hT
  set w : ℕ → J → ℝ := fun n => T^[n] (fun _ => 0) with hw
  have hsucc : ∀ n, w (n + 1) = T (w n) := fun n => Function.iterate_succ_apply' T n _
  have hinv : ∀ n, (∀ j k, firm j = firm k → w n j = w n k) ∧ (∀ k, 0 ≤ w n k) ∧ (∀ k, w n k ≤ B) ∧ ∀ k, w n k ≤ T (w n) k := by
    intro n
    induction n with
    | zero =>
      refine ⟨fun _ _ _ => rfl, fun _ => le_rfl, fun _ => hB0, fun k => ?_⟩
      change 0 ≤ step group rho a A firm (fun _ => 0) k
      simp only [step, profit, zero_mul, Finset.sum_const_zero, zero_div, mul_zero, add_zero]
      exact div_nonneg (by linarith [hr1 (group k)]) ha.le
    | succ n ih =>
      rw [hsucc]
      exact step_invariant ha hr0 hr1 hA hone B hB (w n) ih.1 ih.2.1 ih.2.2.1 ih.2.2.2
  have hmono : Monotone w := monotone_nat_of_le_succ fun n k => by rw [hsucc]; exact (hinv n).2.2.2 k
  have hbdd : ∀ k, BddAbove (Set.range fun n => w n k) := fun k => ⟨B, by rintro _ ⟨n, rfl⟩; exact (hinv n).2.2.1 k⟩
  set z : J → ℝ := fun k => ⨆ n, w n k with hzdef
  have hlim : Filter.Tendsto w Filter.atTop (nhds z) :=
    tendsto_pi_nhds.mpr fun k => tendsto_atTop_ciSup (fun m n hmn => hmono hmn k) (hbdd k)
  have hfix : T z = z := isFixedPt_of_tendsto_iterate hlim (step_continuous hr1 hA).continuousAt
  exact ⟨z, hfix, fun n k => hmono (Nat.le_succ n) k, fun n k => le_ciSup (hbdd k) n, hlim⟩

end Many

end NestedOligopoly

end Pyblp
