import Verif.Model.Delta
import Verif.Props.Probabilities

set_option linter.unusedSectionVars false

namespace Pyblp

variable {J A G : Type} [Fintype J] [DecidableEq J] [Nonempty J] [Fintype G] [DecidableEq G]

lemma logit_eq_iff (v s : J → ℝ) (hs : ∀ j, 0 < s j) (hsum : ∑ j, s j < 1) :
    (∀ j, Spec.logit v (fun _ => 1) 1 j = s j) ↔ ∀ j, v j = Real.log (s j) - Real.log (1 - ∑ k, s k) := by
  have h0 : 0 < 1 - ∑ k, s k := by linarith
  have hden : 0 < 1 + ∑ k, Real.exp (v k) := by
    have : 0 ≤ ∑ k, Real.exp (v k) := Finset.sum_nonneg fun k _ => (Real.exp_pos _).le
    linarith
  unfold Spec.logit
  simp only [one_mul]
  constructor
  · intro h j
    have hS : 1 - ∑ k, s k = 1 / (1 + ∑ k, Real.exp (v k)) := by
      simp only [← h]
      rw [← Finset.sum_div]
      field_simp
      ring
    rw [hS, ← h j, Real.log_div (Real.exp_pos _).ne' hden.ne', Real.log_div one_ne_zero hden.ne', Real.log_exp,
      Real.log_one]
    ring
  · intro h j
    have he : ∀ k, Real.exp (v k) = s k / (1 - ∑ k, s k) := by
      intro k
      rw [h k, ← Real.log_div (hs k).ne' h0.ne', Real.exp_log (div_pos (hs k) h0)]
    simp only [he]
    rw [← Finset.sum_div]
    field_simp
    ring

lemma groupShare_pos (group : J → G) (s : J → ℝ) (hs : ∀ j, 0 < s j) (j : J) :
    0 < ∑ k with group k = group j, s k :=
  Finset.sum_pos (fun k _ => hs k) ⟨j, by simp⟩

lemma nested_eq_iff (group : J → G) (rho : G → ℝ) (hrho : ∀ g, rho g < 1) (v s : J → ℝ) (hs : ∀ j, 0 < s j)
    (hsum : ∑ j, s j < 1) :
    (∀ j, Spec.nested group rho v (fun _ => 1) 1 j = s j) ↔
      ∀ j, v j = Real.log (s j) - Real.log (1 - ∑ k, s k) -
        rho (group j) * (Real.log (s j) - Real.log (∑ k with group k = group j, s k)) := by
  have h0 : 0 < 1 - ∑ k, s k := by linarith
  have hr : ∀ g, rho g ≠ 1 := fun g => (hrho g).ne
  have ha : ∀ j : J, (0 : ℝ) ≤ (fun _ => (1 : ℝ)) j := fun _ => zero_le_one
  have hden : 0 < 1 + ∑ h, Spec.expInclusive group rho v (fun _ => 1) h := by
    have := nested_denominator_pos (group := group) (rho := rho) (v := v) (a := fun _ => 1) false ha (Or.inl rfl)
    simpa using this
  constructor
  · intro h j
    have hS : 1 - ∑ k, s k = 1 / (1 + ∑ h, Spec.expInclusive group rho v (fun _ => 1) h) := by
      have := nested_sum group rho v (fun _ => 1) 1 hr hden.ne'
      simp only [h] at this
      unfold Spec.nestedOutside at this
      linarith
    have hD : 0 < Spec.groupSum group rho v (fun _ => 1) (group j) := groupSum_pos ha (zero_lt_one)
    have hg : ∑ k with group k = group j, s k = Spec.groupSum group rho v (fun _ => 1) (group j) ^ (1 - rho (group j)) /
        (1 + ∑ h, Spec.expInclusive group rho v (fun _ => 1) h) := by
      have := nested_group_sum group rho v (fun _ => 1) 1 (group j) (hr _)
      simp only [h] at this
      rw [this]; rfl
    have hsj : s j = Real.exp (v j / (1 - rho (group j))) / Spec.groupSum group rho v (fun _ => 1) (group j) *
        (Spec.groupSum group rho v (fun _ => 1) (group j) ^ (1 - rho (group j)) /
        (1 + ∑ h, Spec.expInclusive group rho v (fun _ => 1) h)) := by
      rw [← h j]
      unfold Spec.nested Spec.within Spec.groupProb
      rw [one_mul]; rfl
    have hp : 0 < Spec.groupSum group rho v (fun _ => 1) (group j) ^ (1 - rho (group j)) := Real.rpow_pos_of_pos hD _
    have e1 : Real.log (∑ k with group k = group j, s k) =
        (1 - rho (group j)) * Real.log (Spec.groupSum group rho v (fun _ => 1) (group j)) -
        Real.log (1 + ∑ h, Spec.expInclusive group rho v (fun _ => 1) h) := by
      rw [hg, Real.log_div hp.ne' hden.ne', Real.log_rpow hD]
    have e2 : Real.log (s j) = v j / (1 - rho (group j)) - Real.log (Spec.groupSum group rho v (fun _ => 1) (group j)) +
        Real.log (∑ k with group k = group j, s k) := by
      rw [hsj, hg, Real.log_mul (div_pos (Real.exp_pos _) hD).ne' (div_pos hp hden).ne',
        Real.log_div (Real.exp_pos _).ne' hD.ne', Real.log_exp]
    have e3 : Real.log (1 - ∑ k, s k) = - Real.log (1 + ∑ h, Spec.expInclusive group rho v (fun _ => 1) h) := by
      rw [hS, Real.log_div one_ne_zero hden.ne', Real.log_one, zero_sub]
    have hr1 : 1 - rho (group j) ≠ 0 := sub_ne_zero.mpr (Ne.symm (hr _))
    rw [e3, e2, e1]
    field_simp
    ring
  · intro h j
    have hexp : ∀ k, Real.exp (v k / (1 - rho (group k))) =
        s k * Real.exp ((rho (group k) * Real.log (∑ l with group l = group k, s l) - Real.log (1 - ∑ l, s l)) /
          (1 - rho (group k))) := by
      intro k
      have hr1 : 1 - rho (group k) ≠ 0 := sub_ne_zero.mpr (Ne.symm (hr _))
      have : v k / (1 - rho (group k)) = Real.log (s k) +
          (rho (group k) * Real.log (∑ l with group l = group k, s l) - Real.log (1 - ∑ l, s l)) /
          (1 - rho (group k)) := by
        rw [h k]; field_simp; ring
      rw [this, Real.exp_add, Real.exp_log (hs k)]
    have hD : ∀ k, Spec.groupSum group rho v (fun _ => 1) (group k) = (∑ l with group l = group k, s l) *
        Real.exp ((rho (group k) * Real.log (∑ l with group l = group k, s l) - Real.log (1 - ∑ l, s l)) /
          (1 - rho (group k))) := by
      intro k
      unfold Spec.groupSum
      rw [Finset.sum_mul]
      refine Finset.sum_congr rfl fun l hl => ?_
      have hl' := (Finset.mem_filter.mp hl).2
      have := hexp l
      rw [hl'] at this
      rw [one_mul, this]
    have hW : ∀ k, Spec.expInclusive group rho v (fun _ => 1) (group k) =
        (∑ l with group l = group k, s l) / (1 - ∑ l, s l) := by
      intro k
      have hgp := groupShare_pos group s hs k
      have hr1 : 1 - rho (group k) ≠ 0 := sub_ne_zero.mpr (Ne.symm (hr _))
      unfold Spec.expInclusive
      rw [hD k, Real.rpow_def_of_pos (mul_pos hgp (Real.exp_pos _)), Real.log_mul hgp.ne' (Real.exp_pos _).ne',
        Real.log_exp]
      have : (Real.log (∑ l with group l = group k, s l) +
          (rho (group k) * Real.log (∑ l with group l = group k, s l) - Real.log (1 - ∑ l, s l)) /
          (1 - rho (group k))) * (1 - rho (group k)) =
          Real.log (∑ l with group l = group k, s l) - Real.log (1 - ∑ l, s l) := by
        field_simp; ring
      rw [this, ← Real.log_div hgp.ne' h0.ne', Real.exp_log (div_pos hgp h0)]
    have hW' : ∀ g, Spec.expInclusive group rho v (fun _ => 1) g = (∑ l with group l = g, s l) / (1 - ∑ l, s l) := by
      intro g
      by_cases hg : ∃ k, group k = g
      · obtain ⟨k, rfl⟩ := hg; exact hW k
      · push Not at hg
        have he : (Finset.univ.filter fun l => group l = g) = ∅ := by
          rw [Finset.filter_eq_empty_iff]; intro k _; exact hg k
        unfold Spec.expInclusive Spec.groupSum
        rw [he, Finset.sum_empty, Finset.sum_empty, Real.zero_rpow (sub_ne_zero.mpr (Ne.symm (hr g))), zero_div]
    have hden' : 1 + ∑ g, Spec.expInclusive group rho v (fun _ => 1) g = 1 / (1 - ∑ l, s l) := by
      simp only [hW']
      rw [← Finset.sum_div, Finset.sum_fiberwise]
      field_simp
      ring
    unfold Spec.nested Spec.within Spec.groupProb
    rw [hden', hW j, hD j, hexp j, one_mul]
    have hgp := groupShare_pos group s hs j
    have := (Real.exp_pos ((rho (group j) * Real.log (∑ l with group l = group j, s l) - Real.log (1 - ∑ l, s l)) /
          (1 - rho (group j)))).ne'
    field_simp

/-- Without availability and elimination all multipliers are one. -/
lemma multiplier_one (m : Market J A G) (o : ProbOpts J A) (hm : m.availability = none) (ho : o.availability = none)
    (h1 : o.eliminateProduct = none) (h2 : ∀ j, o.eliminateMask j = false) (i : A) :
    multiplier m o i = fun _ => 1 := by
  funext j
  unfold multiplier
  simp [hm, ho, h1, h2]

end Pyblp
