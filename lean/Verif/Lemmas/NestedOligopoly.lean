import Verif.Tactics
import Mathlib.Analysis.Calculus.Deriv.MeanValue
import Mathlib.Analysis.SpecialFunctions.Pow.Deriv
import Mathlib.Analysis.SpecialFunctions.ExpDeriv
import Mathlib.Analysis.Convex.SpecificFunctions.Basic

/-! Best responses of firms with many products when demand is nested logit. -/

set_option linter.unusedSectionVars false

namespace Pyblp

namespace NestedOligopoly

open Finset

/-- Given what a firm earns elsewhere, the same markup for all its products of a nest that satisfies the first order condition is the best. -/
lemma nest_best {ι : Type} (S : Finset ι) (hS : S.Nonempty) (w : ι → ℝ) (hw : ∀ k ∈ S, 0 < w k) {R b r P M : ℝ} (hR : 0 ≤ R) (hb : 0 < b)
    (hr0 : 0 ≤ r) (hr1 : r < 1) (hP : 0 < 1 + b * (1 - r) * P) (hM : b * M * (1 - r * ((∑ k ∈ S, w k) / (R + ∑ k ∈ S, w k))) = 1 + b * (1 - r) * P)
    (z : ι → ℝ) :
    (R + ∑ k ∈ S, w k * Real.exp (-(b * (z k - M)))) ^ (-r) * (∑ k ∈ S, w k * Real.exp (-(b * (z k - M))) * z k) -
        P * (R + ∑ k ∈ S, w k * Real.exp (-(b * (z k - M)))) ^ (1 - r) ≤
      (R + ∑ k ∈ S, w k) ^ (-r) * ((∑ k ∈ S, w k) * M) - P * (R + ∑ k ∈ S, w k) ^ (1 - r) := by
  set E0 := ∑ k ∈ S, w k with hE0
  have hE0p : 0 < E0 := Finset.sum_pos hw hS
  set E := ∑ k ∈ S, w k * Real.exp (-(b * (z k - M))) with hE
  have hEp : 0 < E := Finset.sum_pos (fun k hk => mul_pos (hw k hk) (Real.exp_pos _)) hS
  -- the common markup with the same total
  set u := M - Real.log (E / E0) / b with hu
  have hEu : E0 * Real.exp (-(b * (u - M))) = E := by
    rw [show -(b * (u - M)) = Real.log (E / E0) by rw [hu]; field_simp; ring, Real.exp_log (div_pos hEp hE0p)]
    field_simp
  have hcommon : ∑ k ∈ S, w k * Real.exp (-(b * (z k - M))) * z k ≤ E * u := by
    have h1 : ∀ k ∈ S, b * (w k * Real.exp (-(b * (z k - M))) * (z k - u)) ≤ w k * Real.exp (-(b * (u - M))) - w k * Real.exp (-(b * (z k - M))) := by
      intro k hk
      have hx := Real.add_one_le_exp (b * (z k - u))
      have he : Real.exp (-(b * (u - M))) = Real.exp (-(b * (z k - M))) * Real.exp (b * (z k - u)) := by
        rw [← Real.exp_add]
        congr 1
        ring
      rw [he]
      nlinarith [mul_le_mul_of_nonneg_left hx (mul_pos (hw k hk) (Real.exp_pos (-(b * (z k - M))))).le]
    have h2 := Finset.sum_le_sum h1
    rw [Finset.sum_sub_distrib, ← Finset.sum_mul, ← hE0, hEu, ← hE, sub_self, ← Finset.mul_sum] at h2
    have h3 : ∑ k ∈ S, w k * Real.exp (-(b * (z k - M))) * (z k - u) ≤ 0 := by
      by_contra hpos
      push Not at hpos
      exact absurd h2 (not_le.mpr (mul_pos hb hpos))
    have h4 : ∑ k ∈ S, w k * Real.exp (-(b * (z k - M))) * (z k - u) = ∑ k ∈ S, w k * Real.exp (-(b * (z k - M))) * z k - E * u := by
      rw [hE, Finset.sum_mul, ← Finset.sum_sub_distrib]
      exact Finset.sum_congr rfl fun k _ => mul_sub _ _ _
    linarith
  have hstep : (R + E) ^ (-r) * (∑ k ∈ S, w k * Real.exp (-(b * (z k - M))) * z k) ≤ (R + E) ^ (-r) * (E * u) :=
    mul_le_mul_of_nonneg_left hcommon (Real.rpow_nonneg (by linarith) _)
  -- one dimension
  set T : ℝ → ℝ := fun t => E0 * Real.exp (-(b * (t - M))) with hT
  have hTp : ∀ t, 0 < T t := fun t => mul_pos hE0p (Real.exp_pos _)
  have hTd : ∀ t, HasDerivAt T (-(b * T t)) t := fun t => by
    have h1 : HasDerivAt (fun t => -(b * (t - M))) (-b) t := by
      exact (((hasDerivAt_id t).sub_const M).const_mul b).fun_neg.congr_deriv (by simp)
    exact (h1.exp.const_mul E0).congr_deriv (by simp only [hT]; ring)
  have hTanti : Antitone T := antitone_of_deriv_nonpos (fun t => (hTd t).differentiableAt) fun t => by
    rw [(hTd t).deriv]
    have := mul_pos hb (hTp t)
    linarith
  have hDp : ∀ t, 0 < R + T t := fun t => by linarith [hTp t]
  set ψ : ℝ → ℝ := fun t => (R + T t) ^ (-r) * (T t * t) - P * (R + T t) ^ (1 - r) with hψ
  set slope : ℝ → ℝ := fun t => T t * (R + T t) ^ (-r) * (1 + b * (1 - r) * P - b * t * (1 - r * (T t / (R + T t)))) with hslope
  have hψd : ∀ t, HasDerivAt ψ (slope t) t := fun t => by
    have hD : HasDerivAt (fun t => R + T t) (-(b * T t)) t := (hTd t).const_add R
    have h1 := (hD.rpow_const (p := -r) (Or.inl (hDp t).ne')).fun_mul ((hTd t).fun_mul (hasDerivAt_id' t))
    have h2 := (hD.rpow_const (p := 1 - r) (Or.inl (hDp t).ne')).const_mul P
    refine (h1.fun_sub h2).congr_deriv ?_
    have e1 : (R + T t) ^ (-r - 1) = (R + T t) ^ (-r) / (R + T t) := by rw [Real.rpow_sub_one (hDp t).ne']
    have e2 : (R + T t) ^ (1 - r - 1) = (R + T t) ^ (-r) := by congr 1; ring
    rw [e1, e2]
    simp only [hslope]
    have := (hDp t).ne'
    field_simp
    ring
  have hψc : Continuous ψ := continuous_iff_continuousAt.mpr fun t => (hψd t).continuousAt
  have hTM : T M = E0 := by simp [hT]
  have hshare : ∀ t, T t / (R + T t) < 1 ∨ T t / (R + T t) = 1 := fun t => lt_or_eq_of_le ((div_le_one (hDp t)).mpr (by linarith))
  have hgap : ∀ t, 0 < 1 - r * (T t / (R + T t)) := fun t => by
    have h1 : T t / (R + T t) ≤ 1 := (div_le_one (hDp t)).mpr (by linarith)
    have h2 : 0 ≤ T t / (R + T t) := div_nonneg (hTp t).le (hDp t).le
    nlinarith
  have hMp : 0 < M := by
    have h1 := hgap M
    rw [hTM] at h1
    by_contra hneg
    push Not at hneg
    have := mul_nonneg hb.le h1.le
    nlinarith
  have hratio : ∀ s t, s ≤ t → T t / (R + T t) ≤ T s / (R + T s) := fun s t hst => by
    rw [div_le_div_iff₀ (hDp t) (hDp s)]
    nlinarith [hTanti hst, hTp t, hTp s, mul_le_mul_of_nonneg_right (hTanti hst) hR]
  have hpre : ∀ t, 0 ≤ T t * (R + T t) ^ (-r) := fun t => mul_nonneg (hTp t).le (Real.rpow_nonneg (hDp t).le _)
  have hmax : ψ u ≤ ψ M := by
    rcases le_total u M with hle | hle
    · refine monotoneOn_of_deriv_nonneg (convex_Iic M) hψc.continuousOn (fun t _ => (hψd t).differentiableAt.differentiableWithinAt)
        (fun t ht => ?_) (Set.mem_Iic.mpr hle) (Set.mem_Iic.mpr le_rfl) hle
      rw [interior_Iic] at ht
      have htM : t ≤ M := le_of_lt ht
      rw [(hψd t).deriv]
      refine mul_nonneg (hpre t) ?_
      have h1 := hratio t M htM
      rw [hTM] at h1
      rcases le_total t 0 with h0 | h0
      · have := mul_nonneg hb.le (hgap t).le
        nlinarith
      · have h2 := mul_le_mul_of_nonneg_left h1 hr0
        have h3 : t * (1 - r * (T t / (R + T t))) ≤ M * (1 - r * (E0 / (R + E0))) := mul_le_mul htM (by linarith) (hgap t).le hMp.le
        have h4 := mul_le_mul_of_nonneg_left h3 hb.le
        nlinarith
    · refine antitoneOn_of_deriv_nonpos (convex_Ici M) hψc.continuousOn (fun t _ => (hψd t).differentiableAt.differentiableWithinAt)
        (fun t ht => ?_) (Set.mem_Ici.mpr le_rfl) (Set.mem_Ici.mpr hle) hle
      rw [interior_Ici] at ht
      have htM : M ≤ t := le_of_lt ht
      rw [(hψd t).deriv]
      refine mul_nonpos_of_nonneg_of_nonpos (hpre t) ?_
      have h1 := hratio M t htM
      rw [hTM] at h1
      have h2 := mul_le_mul_of_nonneg_left h1 hr0
      have hg := hgap M
      rw [hTM] at hg
      have h3 : M * (1 - r * (E0 / (R + E0))) ≤ t * (1 - r * (T t / (R + T t))) := mul_le_mul htM (by linarith) hg.le (hMp.le.trans htM)
      have h4 := mul_le_mul_of_nonneg_left h3 hb.le
      nlinarith
  simp only [hψ] at hmax
  rw [hTM, show T u = E from hEu] at hmax
  linarith

variable {J G : Type} [Fintype J] [Fintype G] [DecidableEq G] (group : J → G) (rho : G → ℝ) (a : ℝ) (A : J → ℝ)

/-- Exponentials of utilities that are divided by one minus nesting parameters, given markups. -/
noncomputable def mass (z : J → ℝ) (j : J) : ℝ := A j * Real.exp (-(a / (1 - rho (group j)) * z j))

/-- Their sum in a nest. -/
noncomputable def nestMass (z : J → ℝ) (g : G) : ℝ := ∑ j with group j = g, mass group rho a A z j

/-- The denominator of probabilities of nests. -/
noncomputable def denom (z : J → ℝ) : ℝ := 1 + ∑ g, nestMass group rho a A z g ^ (1 - rho g)

/-- Shares given markups. -/
noncomputable def share (z : J → ℝ) (j : J) : ℝ :=
  mass group rho a A z j * nestMass group rho a A z (group j) ^ (-rho (group j)) / denom group rho a A z

/-- Profits of a firm. -/
noncomputable def profit (own : J → Prop) [DecidablePred own] (z : J → ℝ) : ℝ := ∑ j with own j, z j * share group rho a A z j

variable {group rho a A} (ha : 0 < a) (hr0 : ∀ g, 0 ≤ rho g) (hr1 : ∀ g, rho g < 1) (hA : ∀ j, 0 < A j)

include hA

lemma mass_pos (z : J → ℝ) (j : J) : 0 < mass group rho a A z j := mul_pos (hA j) (Real.exp_pos _)

lemma nestMass_nonneg (z : J → ℝ) (g : G) : 0 ≤ nestMass group rho a A z g := Finset.sum_nonneg fun j _ => (mass_pos hA z j).le

lemma denom_pos (z : J → ℝ) : 0 < denom group rho a A z :=
  add_pos_of_pos_of_nonneg one_pos (Finset.sum_nonneg fun g _ => Real.rpow_nonneg (nestMass_nonneg hA z g) _)

omit hA in
/-- Revenue net of costs in all nests. -/
lemma profit_mul (own : J → Prop) [DecidablePred own] (z : J → ℝ) (hd : denom group rho a A z ≠ 0) :
    profit group rho a A own z * denom group rho a A z =
      ∑ g, nestMass group rho a A z g ^ (-rho g) * ∑ j with group j = g ∧ own j, mass group rho a A z j * z j := by
  have h1 : profit group rho a A own z * denom group rho a A z =
      ∑ j with own j, nestMass group rho a A z (group j) ^ (-rho (group j)) * (mass group rho a A z j * z j) := by
    rw [profit, Finset.sum_mul]
    refine Finset.sum_congr rfl fun j _ => ?_
    rw [share]
    field_simp
  rw [h1, ← Finset.sum_fiberwise_of_maps_to (s := Finset.univ.filter own) (t := Finset.univ) (g := group) (fun _ _ => Finset.mem_univ _)]
  refine Finset.sum_congr rfl fun g _ => ?_
  rw [Finset.mul_sum, Finset.filter_filter]
  have hset : (Finset.univ.filter fun j => own j ∧ group j = g) = Finset.univ.filter fun j => group j = g ∧ own j := by
    ext j; simp [and_comm]
  rw [hset]
  refine Finset.sum_congr rfl fun j hj => ?_
  rw [(Finset.mem_filter.mp hj).2.1]

/-- First order conditions of a firm. -/
def Foc (group : J → G) (rho : G → ℝ) (a : ℝ) (A : J → ℝ) (own : J → Prop) [DecidablePred own] (z : J → ℝ) : Prop :=
  ∀ k, own k → 1 - a / (1 - rho (group k)) * z k +
    a / (1 - rho (group k)) * rho (group k) * ((∑ j with group j = group k ∧ own j, z j * mass group rho a A z j) / nestMass group rho a A z (group k)) +
    a * profit group rho a A own z = 0

/-- What a firm has in a nest. -/
noncomputable def ownMass (group : J → G) (rho : G → ℝ) (a : ℝ) (A : J → ℝ) (own : J → Prop) [DecidablePred own] (z : J → ℝ) (g : G) : ℝ :=
  ∑ j with group j = g ∧ own j, mass group rho a A z j

/-- What others have in a nest. -/
noncomputable def rivalMass (group : J → G) (rho : G → ℝ) (a : ℝ) (A : J → ℝ) (own : J → Prop) [DecidablePred own] (z : J → ℝ) (g : G) : ℝ :=
  ∑ j with group j = g ∧ ¬ own j, mass group rho a A z j

omit hA in
lemma nestMass_split (own : J → Prop) [DecidablePred own] (z : J → ℝ) (g : G) :
    nestMass group rho a A z g = rivalMass group rho a A own z g + ownMass group rho a A own z g := by
  simp only [nestMass, rivalMass, ownMass]
  rw [← Finset.sum_filter_add_sum_filter_not (Finset.univ.filter fun j => group j = g) own, Finset.filter_filter, Finset.filter_filter, add_comm]

lemma rivalMass_nonneg (own : J → Prop) [DecidablePred own] (z : J → ℝ) (g : G) : 0 ≤ rivalMass group rho a A own z g :=
  Finset.sum_nonneg fun j _ => (mass_pos hA z j).le

lemma ownMass_nonneg (own : J → Prop) [DecidablePred own] (z : J → ℝ) (g : G) : 0 ≤ ownMass group rho a A own z g :=
  Finset.sum_nonneg fun j _ => (mass_pos hA z j).le

lemma share_nonneg (z : J → ℝ) (j : J) : 0 ≤ share group rho a A z j :=
  div_nonneg (mul_nonneg (mass_pos hA z j).le (Real.rpow_nonneg (nestMass_nonneg hA z _) _)) (denom_pos hA z).le

include hr1 in
lemma total_share (z : J → ℝ) : ∑ j, share group rho a A z j = 1 - 1 / denom group rho a A z := by
  have hd := (denom_pos (group := group) (rho := rho) (a := a) hA z).ne'
  have h1 : ∑ j, share group rho a A z j = (∑ g, nestMass group rho a A z g ^ (1 - rho g)) / denom group rho a A z := by
    rw [Finset.sum_div, ← Finset.sum_fiberwise_of_maps_to (t := Finset.univ) (g := group) (fun _ _ => Finset.mem_univ _)]
    refine Finset.sum_congr rfl fun g _ => ?_
    have h2 : ∀ j ∈ Finset.univ.filter (fun j => group j = g), share group rho a A z j =
        mass group rho a A z j * (nestMass group rho a A z g ^ (-rho g) / denom group rho a A z) := fun j hj => by
      rw [share, (Finset.mem_filter.mp hj).2, mul_div_assoc]
    rw [Finset.sum_congr rfl h2, ← Finset.sum_mul]
    change nestMass group rho a A z g * _ = _
    rcases (nestMass_nonneg hA z g).lt_or_eq with hpos | hzero
    · rw [← mul_div_assoc, sub_eq_add_neg, Real.rpow_add hpos, Real.rpow_one]
    · rw [← hzero, zero_mul, Real.zero_rpow (by linarith [hr1 g]), zero_div]
  have h3 : ∑ g, nestMass group rho a A z g ^ (1 - rho g) = denom group rho a A z - 1 := by rw [denom]; ring
  rw [h1, h3, sub_div, div_self hd]

include hr1 in
lemma total_share_lt (own : J → Prop) [DecidablePred own] (z : J → ℝ) : ∑ j with own j, share group rho a A z j < 1 := by
  refine lt_of_le_of_lt (Finset.sum_le_sum_of_subset_of_nonneg (Finset.filter_subset _ _) fun j _ _ => share_nonneg hA z j) ?_
  rw [total_share hr1 hA]
  have := div_pos one_pos (denom_pos (group := group) (rho := rho) (a := a) hA z)
  linarith

include ha hr0 hr1

/-- First order conditions: markups are the same in a nest and are positive, and so are profits. -/
theorem foc_markups (own : J → Prop) [DecidablePred own] (z : J → ℝ) (hfoc : Foc group rho a A own z) :
    ∃ M : G → ℝ, (∀ k, own k → z k = M (group k)) ∧ 0 ≤ profit group rho a A own z ∧
      ∀ g, (∃ k, group k = g ∧ own k) → 0 < M g ∧ 0 < nestMass group rho a A z g ∧
        a / (1 - rho g) * M g * (1 - rho g * (ownMass group rho a A own z g / nestMass group rho a A z g)) = 1 + a * profit group rho a A own z := by
  set P := profit group rho a A own z with hP
  have hm := mass_pos (group := group) (rho := rho) (a := a) hA
  set E := ownMass group rho a A own z with hE
  set N := nestMass group rho a A z with hN
  set M : G → ℝ := fun g => (1 - rho g) / a * (1 + a * P) +
    rho g * ((∑ j with group j = g ∧ own j, z j * mass group rho a A z j) / N g) with hM
  have hzM : ∀ k, own k → z k = M (group k) := fun k hk => by
    have h1 := hfoc k hk
    have h2 : (1 : ℝ) - rho (group k) ≠ 0 := by linarith [hr1 (group k)]
    simp only [hM]
    simp only [← hN, ← hP] at h1
    field_simp at h1 ⊢
    linarith
  have hcond : ∀ g, (∃ k, group k = g ∧ own k) → a / (1 - rho g) * M g * (1 - rho g * (E g / N g)) = 1 + a * P := fun g ⟨k, hkg, hk⟩ => by
    have hS : ∑ j with group j = g ∧ own j, z j * mass group rho a A z j = M g * E g := by
      simp only [hE, ownMass, Finset.mul_sum]
      refine Finset.sum_congr rfl fun j hj => ?_
      have hj' := (Finset.mem_filter.mp hj).2
      rw [hzM j hj'.2, hj'.1]
    have h2 : (1 : ℝ) - rho g ≠ 0 := by linarith [hr1 g]
    have h1 : M g = (1 - rho g) / a * (1 + a * P) + rho g * (M g * E g / N g) := by
      conv_lhs => rw [hM]
      simp only []
      rw [hS]
    have h3 : M g * (1 - rho g * (E g / N g)) = (1 - rho g) / a * (1 + a * P) := by
      rw [mul_div_assoc] at h1
      linear_combination h1
    rw [mul_assoc, h3]
    field_simp
  have hNp : ∀ g, (∃ k, group k = g ∧ own k) → 0 < N g := fun g ⟨k, hkg, hk⟩ => Finset.sum_pos (fun j _ => hm z j) ⟨k, by simp [hkg]⟩
  have hgap : ∀ g, (∃ k, group k = g ∧ own k) → 1 - rho g ≤ 1 - rho g * (E g / N g) := fun g hg => by
    have hq1 : E g / N g ≤ 1 := (div_le_one (hNp g hg)).mpr (by rw [hN, nestMass_split own]; linarith [rivalMass_nonneg (group := group) (rho := rho) (a := a) hA own z g])
    nlinarith [hr0 g]
  -- what the firm earns is not too negative
  have hpos : 0 < 1 + a * P := by
    by_contra hneg
    push Not at hneg
    have hMneg : ∀ k, own k → 1 + a * P ≤ a * z k := fun k hk => by
      have h1 := hcond (group k) ⟨k, rfl, hk⟩
      have hr := hr1 (group k)
      have hg := hgap (group k) ⟨k, rfl, hk⟩
      have hb : 0 < a / (1 - rho (group k)) := div_pos ha (by linarith)
      rw [hzM k hk]
      have hM0 : M (group k) ≤ 0 := by
        by_contra hMp
        push Not at hMp
        have := mul_pos (mul_pos hb hMp) (by linarith : 0 < 1 - rho (group k) * (E (group k) / N (group k)))
        linarith
      have h3 : a / (1 - rho (group k)) * M (group k) * (1 - rho (group k) * (E (group k) / N (group k))) ≤
          a / (1 - rho (group k)) * M (group k) * (1 - rho (group k)) :=
        mul_le_mul_of_nonpos_left hg (mul_nonpos_of_nonneg_of_nonpos hb.le hM0)
      rw [h1] at h3
      have h4 : a / (1 - rho (group k)) * M (group k) * (1 - rho (group k)) = a * M (group k) := by
        have : (1 : ℝ) - rho (group k) ≠ 0 := by linarith
        field_simp
      linarith
    have htot := total_share_lt (group := group) (a := a) hr1 hA own z
    have h5 : (1 + a * P) * ∑ j with own j, share group rho a A z j ≤ a * P := by
      have h7 : a * P = ∑ j with own j, a * (z j * share group rho a A z j) := by rw [hP, profit, Finset.mul_sum]
      refine le_trans (le_of_eq (Finset.mul_sum _ _ _)) (le_trans (Finset.sum_le_sum fun j hj => ?_) h7.ge)
      have := mul_le_mul_of_nonneg_right (hMneg j (Finset.mem_filter.mp hj).2) (share_nonneg (group := group) (rho := rho) (a := a) hA z j)
      linarith
    have h6 : 0 ≤ ∑ j with own j, share group rho a A z j := Finset.sum_nonneg fun j _ => share_nonneg hA z j
    nlinarith
  have hMp : ∀ g, (∃ k, group k = g ∧ own k) → 0 < M g := fun g hg => by
    by_contra hneg
    push Not at hneg
    have h1 := hcond g hg
    have hb : 0 < a / (1 - rho g) := div_pos ha (by linarith [hr1 g])
    have h2 : a / (1 - rho g) * M g ≤ 0 := mul_nonpos_of_nonneg_of_nonpos hb.le hneg
    have h3 := mul_nonpos_of_nonpos_of_nonneg h2 (by linarith [hgap g hg, hr1 g] : 0 ≤ 1 - rho g * (E g / N g))
    linarith
  refine ⟨M, hzM, ?_, fun g hg => ⟨hMp g hg, hNp g hg, hcond g hg⟩⟩
  exact Finset.sum_nonneg fun j hj => mul_nonneg (by rw [hzM j (Finset.mem_filter.mp hj).2]; exact (hMp _ ⟨j, rfl, (Finset.mem_filter.mp hj).2⟩).le) (share_nonneg hA z j)

omit [Fintype J] [Fintype G] [DecidableEq G] hA ha hr0 hr1 in
/-- What a firm gains over leaving a nest. -/
lemma nest_leave {R E r P M b : ℝ} (hR : 0 ≤ R) (hE : 0 < E) (hr0 : 0 ≤ r) (hr1 : r < 1) (hb : 0 < b) (hP : 0 ≤ P)
    (hM : b * M * (1 - r * (E / (R + E))) = 1 + b * (1 - r) * P) : -(P * R ^ (1 - r)) ≤ (R + E) ^ (-r) * (E * M) - P * (R + E) ^ (1 - r) := by
  have hN : 0 < R + E := by linarith
  set C := E / (R + E) with hC
  have hC0 : 0 < C := div_pos hE hN
  have hC1 : C ≤ 1 := (div_le_one hN).mpr (by linarith)
  have hgap : 0 < 1 - r * C := by nlinarith
  have hRC : R = (R + E) * (1 - C) := by rw [hC]; field_simp; ring
  have hbern : (1 - C) ^ r ≤ 1 - r * C := by
    have := rpow_one_add_le_one_add_mul_self (s := -C) (by linarith) hr0 hr1.le
    simpa [sub_eq_add_neg, mul_neg] using this
  have hone : P * (1 - (1 - C) ^ (1 - r)) ≤ C * M := by
    have h1 : (1 - r) * P ≤ M * (1 - r * C) := by
      have : b * ((1 - r) * P) ≤ b * (M * (1 - r * C)) := by linarith
      exact le_of_mul_le_mul_left this hb
    have h2 : 1 - C ≤ (1 - C) ^ (1 - r) * (1 - r * C) := by
      rcases (sub_nonneg.mpr hC1).lt_or_eq with hpos | hzero
      · have h3 : (1 - C) ^ (1 - r) * (1 - C) ^ r = 1 - C := by rw [← Real.rpow_add hpos]; simp
        calc 1 - C = (1 - C) ^ (1 - r) * (1 - C) ^ r := h3.symm
          _ ≤ _ := mul_le_mul_of_nonneg_left hbern (Real.rpow_nonneg hpos.le _)
      · rw [← hzero]
        exact mul_nonneg (Real.rpow_nonneg le_rfl _) hgap.le
    have h4 : (1 - (1 - C) ^ (1 - r)) * (1 - r * C) ≤ C * (1 - r) := by nlinarith
    have h5 : P * (1 - (1 - C) ^ (1 - r)) * (1 - r * C) ≤ C * M * (1 - r * C) := by
      nlinarith [mul_le_mul_of_nonneg_left h4 hP, mul_le_mul_of_nonneg_left h1 hC0.le]
    exact le_of_mul_le_mul_right h5 hgap
  have h6 : R ^ (1 - r) = (R + E) ^ (1 - r) * (1 - C) ^ (1 - r) := by
    rw [← Real.mul_rpow hN.le (sub_nonneg.mpr hC1), ← hRC]
  have h7 : (R + E) ^ (-r) * (E * M) = (R + E) ^ (1 - r) * (C * M) := by
    rw [sub_eq_add_neg, Real.rpow_add hN, Real.rpow_one, hC]
    field_simp
  rw [h6, h7]
  nlinarith [mul_le_mul_of_nonneg_left hone (Real.rpow_nonneg hN.le (1 - r))]

/-- First order conditions are sufficient, even against others that charge less. -/
theorem optimal (own : J → Prop) [DecidablePred own] (z : J → ℝ) (hfoc : Foc group rho a A own z)
    (y : J → ℝ) (hy : ∀ k, ¬ own k → y k ≤ z k) : profit group rho a A own y ≤ profit group rho a A own z := by
  obtain ⟨M, hzM, hP0, hcond'⟩ := foc_markups ha hr0 hr1 hA own z hfoc
  set P := profit group rho a A own z with hP
  have hm := mass_pos (group := group) (rho := rho) (a := a) hA
  have hden := denom_pos (group := group) (rho := rho) (a := a) hA
  set E : (J → ℝ) → G → ℝ := ownMass group rho a A own with hE
  set R : (J → ℝ) → G → ℝ := rivalMass group rho a A own with hR
  have hR0 : ∀ z g, 0 ≤ R z g := fun z g => rivalMass_nonneg hA own z g
  have hE0 : ∀ z g, 0 ≤ E z g := fun z g => ownMass_nonneg hA own z g
  have hRR : ∀ g, R z g ≤ R y g := fun g => Finset.sum_le_sum fun j hj => by
    refine mul_le_mul_of_nonneg_left (Real.exp_le_exp.mpr (neg_le_neg (mul_le_mul_of_nonneg_left (hy j (Finset.mem_filter.mp hj).2.2) ?_))) (hA j).le
    exact div_nonneg ha.le (by linarith [hr1 (group j)])
  have hsplit : ∀ z g, nestMass group rho a A z g = R z g + E z g := nestMass_split own
  have hnest : ∀ g, nestMass group rho a A y g ^ (-rho g) * (∑ j with group j = g ∧ own j, mass group rho a A y j * y j) -
        P * nestMass group rho a A y g ^ (1 - rho g) ≤
      nestMass group rho a A z g ^ (-rho g) * (∑ j with group j = g ∧ own j, mass group rho a A z j * z j) -
        P * nestMass group rho a A z g ^ (1 - rho g) := by
    intro g
    rw [hsplit y, hsplit z]
    have hr := hr1 g
    have hpowR : R z g ^ (1 - rho g) ≤ R y g ^ (1 - rho g) := Real.rpow_le_rpow (hR0 z g) (hRR g) (by linarith)
    by_cases hex : ∃ k, group k = g ∧ own k
    · obtain ⟨hMp, hNp, hcond⟩ := hcond' g hex
      rw [hsplit z] at hcond
      have hmass : ∀ j ∈ Finset.univ.filter (fun j => group j = g ∧ own j), mass group rho a A y j =
          mass group rho a A z j * Real.exp (-(a / (1 - rho g) * (y j - M g))) := fun j hj => by
        have hj' := (Finset.mem_filter.mp hj).2
        rw [mass, mass, hzM j hj'.2, hj'.1, mul_assoc, ← Real.exp_add]
        congr 2
        ring
      have hEy : E y g = ∑ j with group j = g ∧ own j, mass group rho a A z j * Real.exp (-(a / (1 - rho g) * (y j - M g))) :=
        Finset.sum_congr rfl hmass
      have hSy : ∑ j with group j = g ∧ own j, mass group rho a A y j * y j =
          ∑ j with group j = g ∧ own j, mass group rho a A z j * Real.exp (-(a / (1 - rho g) * (y j - M g))) * y j :=
        Finset.sum_congr rfl fun j hj => by rw [hmass j hj]
      have hSz : ∑ j with group j = g ∧ own j, mass group rho a A z j * z j = E z g * M g := by
        simp only [hE, ownMass, Finset.sum_mul]
        refine Finset.sum_congr rfl fun j hj => ?_
        have hj' := (Finset.mem_filter.mp hj).2
        rw [hzM j hj'.2, hj'.1]
      obtain ⟨k, hk⟩ := hex
      have hEp : ∀ z, 0 < E z g := fun z => Finset.sum_pos (fun j _ => hm z j) ⟨k, by simpa using hk⟩
      have hcancel : a / (1 - rho g) * (1 - rho g) = a := div_mul_cancel₀ _ (by linarith [hr1 g])
      have hb : 0 < a / (1 - rho g) := div_pos ha (by linarith [hr1 g])
      have hbest := nest_best (R := R z g) (P := P) (M := M g) (Finset.univ.filter fun j => group j = g ∧ own j) ⟨k, by simpa using hk⟩ (mass group rho a A z) (fun j _ => hm z j) (hR0 z g) hb (hr0 g) (hr1 g)
        (by rw [hcancel]; nlinarith) (by rw [hcancel]; exact hcond) y
      rw [← hEy, ← hSy] at hbest
      have hleave := nest_leave (R := R z g) (E := E z g) (P := P) (M := M g) (hR0 z g) (hEp z) (hr0 g) (hr1 g) hb hP0 (by rw [hcancel]; exact hcond)
      rw [hSz]
      set X := ∑ j with group j = g ∧ own j, mass group rho a A y j * y j with hX
      have hNz : 0 < R z g + E y g := by linarith [hR0 z g, hEp y]
      have hpowN : (R z g + E y g) ^ (1 - rho g) ≤ (R y g + E y g) ^ (1 - rho g) := Real.rpow_le_rpow hNz.le (by linarith [hRR g]) (by linarith)
      rcases le_total 0 X with hXp | hXn
      · have hpowr : (R y g + E y g) ^ (-rho g) ≤ (R z g + E y g) ^ (-rho g) :=
          Real.rpow_le_rpow_of_nonpos hNz (by linarith [hRR g]) (by linarith [hr0 g])
        have h1 := mul_le_mul_of_nonneg_right hpowr hXp
        have h2 := mul_le_mul_of_nonneg_left hpowN hP0
        have h3 : (R z g + E y g) ^ (-rho g) * X - P * (R z g + E y g) ^ (1 - rho g) ≤ (R z g + E z g) ^ (-rho g) * (E z g * M g) - P * (R z g + E z g) ^ (1 - rho g) := hbest
        linarith
      · have h1 : (R y g + E y g) ^ (-rho g) * X ≤ 0 := mul_nonpos_of_nonneg_of_nonpos (Real.rpow_nonneg (by linarith [hR0 y g, hE0 y g]) _) hXn
        have h2 : R z g ^ (1 - rho g) ≤ (R y g + E y g) ^ (1 - rho g) := Real.rpow_le_rpow (hR0 z g) (by linarith [hRR g, hE0 y g]) (by linarith)
        have h3 := mul_le_mul_of_nonneg_left h2 hP0
        linarith
    · have hempty : (Finset.univ.filter fun j => group j = g ∧ own j) = ∅ := by
        ext j
        simp only [Finset.mem_filter, Finset.mem_univ, true_and, Finset.notMem_empty, iff_false]
        exact fun h => hex ⟨j, h⟩
      simp only [hE, ownMass, hempty, Finset.sum_empty, mul_zero, add_zero, zero_sub]
      exact neg_le_neg (mul_le_mul_of_nonneg_left hpowR hP0)
  have htotal := Finset.sum_le_sum fun g (_ : g ∈ Finset.univ) => hnest g
  rw [Finset.sum_sub_distrib, Finset.sum_sub_distrib, ← profit_mul own y (hden y).ne', ← profit_mul own z (hden z).ne', ← Finset.mul_sum, ← Finset.mul_sum, ← hP] at htotal
  have hz : ∑ g, nestMass group rho a A z g ^ (1 - rho g) = denom group rho a A z - 1 := by rw [denom]; ring
  have hy' : ∑ g, nestMass group rho a A y g ^ (1 - rho g) = denom group rho a A y - 1 := by rw [denom]; ring
  rw [hz, hy'] at htotal
  have : (profit group rho a A own y - P) * denom group rho a A y ≤ 0 := by linarith
  by_contra hlt
  push Not at hlt
  exact absurd this (not_le.mpr (mul_pos (by linarith) (hden y)))

omit ha hr0 in
/-- If all markups fall by the same amount, all shares rise by the same factor. -/
lemma share_shift (z : J → ℝ) (D : ℝ) : ∃ q, (0 ≤ a * D → 1 ≤ q) ∧ ∀ j, share group rho a A (fun k => z k - D) j = q * share group rho a A z j := by
  have hmass : ∀ j, mass group rho a A (fun k => z k - D) j = Real.exp (a / (1 - rho (group j)) * D) * mass group rho a A z j := fun j => by
    rw [mass, mass, mul_left_comm, ← Real.exp_add]
    congr 2
    ring
  have hN : ∀ g, nestMass group rho a A (fun k => z k - D) g = Real.exp (a / (1 - rho g) * D) * nestMass group rho a A z g := fun g => by
    rw [nestMass, nestMass, Finset.mul_sum]
    refine Finset.sum_congr rfl fun j hj => ?_
    rw [hmass, (Finset.mem_filter.mp hj).2]
  have hpow : ∀ g e, nestMass group rho a A (fun k => z k - D) g ^ e = Real.exp (a / (1 - rho g) * D * e) * nestMass group rho a A z g ^ e := fun g e => by
    rw [hN, Real.mul_rpow (Real.exp_pos _).le (nestMass_nonneg hA z g), ← Real.exp_mul]
  have hcancel : ∀ g, a / (1 - rho g) * D * (1 - rho g) = a * D := fun g => by
    have : (1 : ℝ) - rho g ≠ 0 := by linarith [hr1 g]
    field_simp
  have hd : denom group rho a A (fun k => z k - D) = 1 + Real.exp (a * D) * (denom group rho a A z - 1) := by
    simp only [denom, hpow, hcancel, ← Finset.mul_sum]
    ring
  have hdp := denom_pos (group := group) (rho := rho) (a := a) hA z
  have hdp' := denom_pos (group := group) (rho := rho) (a := a) hA (fun k => z k - D)
  refine ⟨Real.exp (a * D) * denom group rho a A z / denom group rho a A (fun k => z k - D), fun hD => ?_, fun j => ?_⟩
  · rw [le_div_iff₀ hdp', hd]
    linarith [Real.one_le_exp hD]
  · rw [share, share, hmass, hpow]
    have : Real.exp (a / (1 - rho (group j)) * D) * Real.exp (a / (1 - rho (group j)) * D * -rho (group j)) = Real.exp (a * D) := by
      rw [← Real.exp_add, ← hcancel (group j)]
      congr 1
      ring
    rw [← this]
    field_simp

/-- If all others raise markups by at most some amount, a firm earns less than this amount more. -/
lemma profit_gap (own : J → Prop) [DecidablePred own] (z q : J → ℝ) (hz : Foc group rho a A own z) (D : ℝ) (hD : 0 < D) (hq : ∀ k, q k ≤ z k + D) :
    profit group rho a A own q < profit group rho a A own z + D := by
  obtain ⟨-, -, hP0, -⟩ := foc_markups ha hr0 hr1 hA own z hz
  obtain ⟨c, hc, hshare⟩ := share_shift (group := group) (rho := rho) (a := a) hr1 hA q D
  have hc1 := hc (mul_pos ha hD).le
  have hopt := optimal ha hr0 hr1 hA own z hz (fun k => q k - D) fun k _ => by linarith [hq k]
  have htot := total_share_lt (group := group) (a := a) hr1 hA own q
  have heq : profit group rho a A own (fun k => q k - D) = c * (profit group rho a A own q - D * ∑ j with own j, share group rho a A q j) := by
    rw [profit, profit, Finset.mul_sum, ← Finset.sum_sub_distrib, Finset.mul_sum]
    refine Finset.sum_congr rfl fun j _ => ?_
    rw [hshare]
    ring
  rw [heq] at hopt
  set S := ∑ j with own j, share group rho a A q j
  have hDS : D * S < D := by nlinarith
  rcases le_total (D * S) (profit group rho a A own q) with h | h
  · nlinarith
  · linarith

/-- Markups of a firm that takes over others do not fall more than markups of others. -/
lemma no_fall (own own' : J → Prop) [DecidablePred own] [DecidablePred own'] (hown : ∀ j, own j → own' j) (q z : J → ℝ) (hq : Foc group rho a A own q)
    (hz : Foc group rho a A own' z) (hqpos : ∀ j, own' j → 0 ≤ q j) (k : J) (hk : own k) (D : ℝ) (hD : q k = z k + D) (hDp : 0 < D)
    (hle : ∀ j, q j ≤ z j + D) : False := by
  have hgap := profit_gap ha hr0 hr1 hA own' z q hz D hDp hle
  have hmore : profit group rho a A own q ≤ profit group rho a A own' q := by
    refine Finset.sum_le_sum_of_subset_of_nonneg (fun j hj => ?_) fun j hj _ => mul_nonneg (hqpos j (Finset.mem_filter.mp hj).2) (share_nonneg hA q j)
    simp only [Finset.mem_filter, Finset.mem_univ, true_and] at hj ⊢
    exact hown j hj
  obtain ⟨M, hM, hP0, hMc⟩ := foc_markups ha hr0 hr1 hA _ z hz
  obtain ⟨M', hM', hP0', hMc'⟩ := foc_markups ha hr0 hr1 hA _ q hq
  obtain ⟨hMp, hNp, hc⟩ := hMc (group k) ⟨k, rfl, hown k hk⟩
  obtain ⟨hMp', hNp', hc'⟩ := hMc' (group k) ⟨k, rfl, hk⟩
  set g := group k
  have hMD : M' g = M g + D := by rw [← hM k (hown k hk), ← hM' k hk, hD]
  set b := a / (1 - rho g) with hb
  have hbp : 0 < b := div_pos ha (by linarith [hr1 g])
  have hE : ownMass group rho a A own q g = Real.exp (-(b * D)) * ownMass group rho a A own z g := by
    rw [ownMass, ownMass, Finset.mul_sum]
    refine Finset.sum_congr rfl fun j hj => ?_
    have hj' := (Finset.mem_filter.mp hj).2
    rw [mass, mass, hM' j hj'.2, hM j (hown j hj'.2), hj'.1, hMD, mul_left_comm, ← Real.exp_add]
    congr 2
    ring
  have hN : Real.exp (-(b * D)) * nestMass group rho a A z g ≤ nestMass group rho a A q g := by
    rw [nestMass, nestMass, Finset.mul_sum]
    refine Finset.sum_le_sum fun j hj => ?_
    rw [mass, mass, (Finset.mem_filter.mp hj).2, mul_left_comm, ← Real.exp_add]
    refine mul_le_mul_of_nonneg_left (Real.exp_le_exp.mpr ?_) (hA j).le
    have := mul_le_mul_of_nonneg_left (hle j) hbp.le
    linarith
  set C := ownMass group rho a A own' z g / nestMass group rho a A z g with hC
  set C' := ownMass group rho a A own q g / nestMass group rho a A q g with hC'
  have hCC : C' ≤ C := by
    refine le_trans ?_ (div_le_div_of_nonneg_right (show ownMass group rho a A own z g ≤ ownMass group rho a A own' z g from
      Finset.sum_le_sum_of_subset_of_nonneg (fun j hj => by
        simp only [Finset.mem_filter, Finset.mem_univ, true_and] at hj ⊢
        exact ⟨hj.1, hown j hj.2⟩) fun j _ _ => (mass_pos hA z j).le) hNp.le)
    rw [hC', hE, div_le_div_iff₀ hNp' hNp]
    have := mul_le_mul_of_nonneg_left hN (ownMass_nonneg (group := group) (rho := rho) (a := a) hA own z g)
    nlinarith
  have hC1 : C ≤ 1 := (div_le_one hNp).mpr (by rw [nestMass_split own']; linarith [rivalMass_nonneg (group := group) (rho := rho) (a := a) hA own' z g])
  have hr := hr1 g
  have hrr := hr0 g
  have hr' : (1 : ℝ) - rho g ≠ 0 := by linarith
  have e1 : a * M g * (1 - rho g * C) = (1 - rho g) * (1 + a * profit group rho a A own' z) := by
    rw [← hc, hb]; field_simp
  have e2 : a * M' g * (1 - rho g * C') = (1 - rho g) * (1 + a * profit group rho a A own q) := by
    rw [← hc', hb]; field_simp
  have h1 : a * M' g * (1 - rho g * C) ≤ a * M' g * (1 - rho g * C') :=
    mul_le_mul_of_nonneg_left (by nlinarith) (mul_pos ha hMp').le
  rw [hMD] at h1 e2
  have h2 : a * D * (1 - rho g * C) ≤ (1 - rho g) * a * (profit group rho a A own q - profit group rho a A own' z) := by nlinarith
  have h3 : (1 - rho g) * a * (profit group rho a A own q - profit group rho a A own' z) < (1 - rho g) * a * D :=
    mul_lt_mul_of_pos_left (by linarith) (mul_pos (by linarith) ha)
  have h4 : (1 - rho g) * (a * D) ≤ (1 - rho g * C) * (a * D) := mul_le_mul_of_nonneg_right (by nlinarith) (mul_pos ha hDp).le
  linarith

/-- If firms merge, no markup falls. -/
theorem merger_up {F F' : Type} [DecidableEq F] [DecidableEq F'] (firm : J → F) (firm' : J → F') (hmerge : ∀ j k, firm j = firm k → firm' j = firm' k)
    (q z : J → ℝ) (hq : ∀ f, Foc group rho a A (fun k => firm k = f) q) (hz : ∀ f, Foc group rho a A (fun k => firm' k = f) z) : ∀ k, q k ≤ z k := by
  by_contra hne
  push Not at hne
  obtain ⟨k₀, hk₀⟩ := hne
  obtain ⟨k, -, hk⟩ := Finset.exists_max_image Finset.univ (fun k => q k - z k) ⟨k₀, Finset.mem_univ _⟩
  set D := q k - z k with hD
  have hDp : 0 < D := lt_of_lt_of_le (by linarith) (hk k₀ (Finset.mem_univ _))
  have hle : ∀ j, q j ≤ z j + D := fun j => by linarith [hk j (Finset.mem_univ _)]
  have hqpos : ∀ j, 0 < q j := fun j => by
    obtain ⟨M, hM, -, hMc⟩ := foc_markups ha hr0 hr1 hA _ q (hq (firm j))
    rw [hM j rfl]
    exact (hMc (group j) ⟨j, rfl, rfl⟩).1
  exact no_fall ha hr0 hr1 hA (fun j => firm j = firm k) (fun j => firm' j = firm' k) (fun j hj => hmerge j k hj) q z (hq _) (hz _) (fun j _ => (hqpos j).le) k rfl D
    (by rw [hD]; ring) hDp hle

/-- There is at most one equilibrium. -/
theorem unique {F : Type} [DecidableEq F] (firm : J → F) (z q : J → ℝ) (hz : ∀ f, Foc group rho a A (fun k => firm k = f) z)
    (hq : ∀ f, Foc group rho a A (fun k => firm k = f) q) : ∀ k, q k ≤ z k := merger_up ha hr0 hr1 hA firm firm (fun _ _ h => h) q z hq hz

/-- If firms merge, some markups rise. -/
theorem merger_changes {F F' : Type} [DecidableEq F] [DecidableEq F'] (firm : J → F) (firm' : J → F') (hmerge : ∀ j k, firm j = firm k → firm' j = firm' k)
    (j k : J) (hjk : firm' j = firm' k) (hne : firm j ≠ firm k)
    (z : J → ℝ) (hz : ∀ f, Foc group rho a A (fun k => firm k = f) z) : ¬ ∀ f, Foc group rho a A (fun k => firm' k = f) z := by
  intro hz'
  have hpos : ∀ j, 0 < z j := fun j => by
    obtain ⟨M, hM, -, hMc⟩ := foc_markups ha hr0 hr1 hA _ z (hz (firm j))
    rw [hM j rfl]
    exact (hMc (group j) ⟨j, rfl, rfl⟩).1
  have h1 := hz (firm j) j rfl
  have h2 := hz' (firm' j) j rfl
  have hN : 0 < nestMass group rho a A z (group j) := Finset.sum_pos (fun i _ => mass_pos hA z i) ⟨j, by simp⟩
  have hNk : 0 < nestMass group rho a A z (group k) := Finset.sum_pos (fun i _ => mass_pos hA z i) ⟨k, by simp⟩
  have h3 : (∑ i with group i = group j ∧ firm i = firm j, z i * mass group rho a A z i) / nestMass group rho a A z (group j) ≤
      (∑ i with group i = group j ∧ firm' i = firm' j, z i * mass group rho a A z i) / nestMass group rho a A z (group j) := by
    refine div_le_div_of_nonneg_right (Finset.sum_le_sum_of_subset_of_nonneg (fun i hi => ?_) fun i _ _ => (mul_pos (hpos i) (mass_pos hA z i)).le) hN.le
    simp only [Finset.mem_filter, Finset.mem_univ, true_and] at hi ⊢
    exact ⟨hi.1, hmerge i j hi.2⟩
  have h4 : profit group rho a A (fun i => firm i = firm j) z < profit group rho a A (fun i => firm' i = firm' j) z := by
    refine Finset.sum_lt_sum_of_subset (i := k) (fun i hi => ?_) (by simp [hjk]) (by simpa using fun h => hne h.symm) ?_ fun i _ _ => mul_nonneg (hpos i).le (share_nonneg hA z i)
    · simp only [Finset.mem_filter, Finset.mem_univ, true_and] at hi ⊢
      exact hmerge i j hi
    · exact mul_pos (hpos k) (div_pos (mul_pos (mass_pos hA z k) (Real.rpow_pos_of_pos hNk _)) (denom_pos hA z))
  have hb : 0 ≤ a / (1 - rho (group j)) * rho (group j) := mul_nonneg (div_pos ha (by linarith [hr1 (group j)])).le (hr0 _)
  have h5 := mul_le_mul_of_nonneg_left h3 hb
  have h6 := mul_lt_mul_of_pos_left h4 ha
  linarith

omit hr0 in
/-- Higher markups lower the denominator. -/
lemma denom_lt (z z' : J → ℝ) (hle : ∀ k, z k ≤ z' k) (k : J) (hlt : z k < z' k) : denom group rho a A z' < denom group rho a A z := by
  have hb : ∀ j, 0 < a / (1 - rho (group j)) := fun j => div_pos ha (by linarith [hr1 (group j)])
  have hmass : ∀ j, mass group rho a A z' j ≤ mass group rho a A z j := fun j =>
    mul_le_mul_of_nonneg_left (Real.exp_le_exp.mpr (neg_le_neg (mul_le_mul_of_nonneg_left (hle j) (hb j).le))) (hA j).le
  have hmassk : mass group rho a A z' k < mass group rho a A z k :=
    mul_lt_mul_of_pos_left (Real.exp_lt_exp.mpr (neg_lt_neg (mul_lt_mul_of_pos_left hlt (hb k)))) (hA k)
  rw [denom, denom]
  refine add_lt_add_right (Finset.sum_lt_sum (fun g _ => ?_) ⟨group k, Finset.mem_univ _, ?_⟩) 1
  · exact Real.rpow_le_rpow (nestMass_nonneg hA z' g) (Finset.sum_le_sum fun j _ => hmass j) (by linarith [hr1 g])
  · exact Real.rpow_lt_rpow (nestMass_nonneg hA z' _) (Finset.sum_lt_sum (fun j _ => hmass j) ⟨k, by simp, hmassk⟩) (by linarith [hr1 (group k)])

end NestedOligopoly

end Pyblp
