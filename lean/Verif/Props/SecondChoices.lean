import Verif.Lemmas.DemandDeriv
import Verif.Model.MicroProbabilities

/-!
# C81: probabilities of first and second choices in micro datasets
-/

set_option linter.unusedSectionVars false

namespace Pyblp

variable {J A G B : Type} [Fintype J] [DecidableEq J] [Nonempty J] [Fintype G] [DecidableEq G] [DecidableEq B]

namespace Spec

/-- Probability of choosing `c` (`none` is the outside option). -/
noncomputable def choice (m : Market J A G) (delta : J → ℝ) (mu : J → A → ℝ) (i : A) (o : ProbOpts J A) : Option J → ℝ
  | some j => computeProbabilities m o delta mu j i
  | none => outside m o delta mu i

/-- The option that is removed from the choice set. -/
def without (removed : Option J) : ProbOpts J A :=
  match removed with
  | some j => { eliminateProduct := some j }
  | none => { eliminateOutside := true }

/-- Probability of choosing `c` first. -/
noncomputable def firstChoice (m : Market J A G) (delta : J → ℝ) (mu : J → A → ℝ) (i : A) (c : Option J) : ℝ := choice m delta mu i {} c

/-- Probability of choosing `c2` when `c` is removed from the choice set. -/
noncomputable def choiceWithout (m : Market J A G) (delta : J → ℝ) (mu : J → A → ℝ) (i : A) (c c2 : Option J) : ℝ :=
  choice m delta mu i (without c) c2

/-- An agent has something left to choose when `c` is removed. -/
def SomethingLeft (m : Market J A G) (i : A) (c : Option J) : Prop := c = none → ∃ j, Offered m {} i j

end Spec

/-! ## Probabilities after options are removed -/

lemma multiplier_removal (m : Market J A G) (ids : Option (J → B)) (i : A) (j k : J) :
    multiplier m (removalOptions ids j) i k = if removedWith ids j k = true then 0 else multiplier m {} i k := by
  unfold multiplier removalOptions removedWith
  cases ids with
  | none =>
    by_cases h : k = j
    · subst h; simp
    · have h' : j ≠ k := fun e => h e.symm
      simp [h, h']
  | some id => by_cases h : id k = id j <;> simp [h]

lemma multiplier_outside (m : Market J A G) (i : A) (k : J) :
    multiplier m { eliminateOutside := true } i k = multiplier m {} i k := rfl

lemma availNonneg_of (m : Market J A G) (i : A) (ha : AvailabilityNonneg m {} i) (o : ProbOpts J A) (ho : o.availability = none) :
    AvailabilityNonneg m o i := by
  unfold AvailabilityNonneg at *
  rw [ho]
  exact ha

/-- Rescaling logit probabilities after some options are removed. -/
lemma logit_remove (v a : J → ℝ) (o : ℝ) (rem : J → Bool) (h : o + ∑ l, a l * Real.exp (v l) ≠ 0) (k : J) :
    Spec.logit v (fun l => if rem l = true then 0 else a l) o k =
      if rem k then 0 else Spec.logit v a o k / (1 - ∑ l with rem l = true, Spec.logit v a o l) := by
  unfold Spec.logit
  have hsum : ∑ l, (if rem l = true then 0 else a l) * Real.exp (v l) =
      ∑ l, a l * Real.exp (v l) - ∑ l with rem l = true, a l * Real.exp (v l) := by
    rw [Finset.sum_filter, ← Finset.sum_sub_distrib]
    refine Finset.sum_congr rfl fun l _ => ?_
    split_ifs <;> simp
  have hden : 1 - ∑ l with rem l = true, a l * Real.exp (v l) / (o + ∑ k, a k * Real.exp (v k)) =
      (o + ∑ l, (if rem l = true then 0 else a l) * Real.exp (v l)) / (o + ∑ k, a k * Real.exp (v k)) := by
    rw [← Finset.sum_div, hsum]
    field_simp
    ring
  rw [hden]
  by_cases hk : rem k = true
  · simp [hk]
  · rw [if_neg hk, div_div_div_cancel_right₀ h]
    simp only [if_neg hk]

/-- Probabilities of one of which the code rescales or recomputes are those with the products removed. -/
lemma eliminated_eq (m : Market J A G) (delta : J → ℝ) (mu : J → A → ℝ) (ids : Option (J → B)) (j k : J) (i : A)
    (ha : AvailabilityNonneg m {} i) :
    eliminatedProbabilities m (computeProbabilities m {} delta mu) delta mu ids j k i =
      computeProbabilities m (removalOptions ids j) delta mu k i := by
  unfold eliminatedProbabilities
  simp only []
  split_ifs with h hk
  · have hn : m.nesting = none := Option.isNone_iff_eq_none.mp h.1
    rw [computeProbabilities_plain m _ _ _ hn]
    unfold Spec.logit
    rw [multiplier_removal, if_pos hk, zero_mul, zero_div]
  · have hn : m.nesting = none := Option.isNone_iff_eq_none.mp h.1
    simp only [computeProbabilities_plain m _ _ _ hn]
    rw [funext (multiplier_removal m ids i j)]
    have ho : (removalOptions ids j : ProbOpts J A).eliminateOutside = false := by unfold removalOptions; cases ids <;> rfl
    have hpos := plain_denominator_pos (u := fun k => (delta k + mu k i) / m.epsilonScale) false
      (multiplier_nonneg ha) (Or.inl rfl)
    rw [ho]
    simp only [Bool.false_eq_true, if_false] at hpos ⊢
    rw [logit_remove _ _ _ (removedWith ids j) hpos.ne', if_neg hk]
  · rfl

lemma outsideEliminated_eq (m : Market J A G) (delta : J → ℝ) (mu : J → A → ℝ) (k : J) (i : A) (ha : AvailabilityNonneg m {} i) :
    outsideEliminatedProbabilities m (computeProbabilities m {} delta mu) delta mu k i =
      computeProbabilities m { eliminateOutside := true } delta mu k i := by
  unfold outsideEliminatedProbabilities
  split_ifs with h
  · have hn : m.nesting = none := Option.isNone_iff_eq_none.mp h.1
    simp only [computeProbabilities_plain m _ _ _ hn]
    have hpos := plain_denominator_pos (u := fun k => (delta k + mu k i) / m.epsilonScale) false
      (multiplier_nonneg ha) (Or.inl rfl)
    simp only [Bool.false_eq_true, if_false] at hpos
    unfold Spec.logit
    simp only [Bool.false_eq_true, if_false, if_true, zero_add]
    rw [← Finset.sum_div, div_div_div_cancel_right₀ hpos.ne']
    rfl
  · rfl

lemma choice_sum (m : Market J A G) (delta : J → ℝ) (mu : J → A → ℝ) (i : A) (o : ProbOpts J A) (ha : AvailabilityNonneg m o i)
    (hrho : RhoBelowOne m) (hset : o.eliminateOutside = false ∨ ∃ j, Offered m o i j) : ∑ c, Spec.choice m delta mu i o c = 1 := by
  rw [Fintype.sum_option]
  have := (C17_probabilities m o delta mu i ha hrho hset).2.2
  unfold Spec.choice
  linarith

lemma outside_eq (m : Market J A G) (delta : J → ℝ) (mu : J → A → ℝ) (i : A) (o : ProbOpts J A) (ha : AvailabilityNonneg m o i)
    (hrho : RhoBelowOne m) (hset : o.eliminateOutside = false ∨ ∃ j, Offered m o i j) :
    1 - ∑ j, computeProbabilities m o delta mu j i = Spec.outside m o delta mu i := by
  have := (C17_probabilities m o delta mu i ha hrho hset).2.2
  linarith

lemma without_availability (c : Option J) : (Spec.without c : ProbOpts J A).availability = none := by
  cases c <;> rfl

lemma removal_none (j : J) : (removalOptions (none : Option (J → B)) j : ProbOpts J A) = Spec.without (some j) := rfl

lemma without_set (m : Market J A G) (i : A) (c : Option J) (h : Spec.SomethingLeft m i c) :
    (Spec.without c : ProbOpts J A).eliminateOutside = false ∨ ∃ j, Offered m (Spec.without c) i j := by
  cases c with
  | none => exact Or.inr (h rfl)
  | some j => exact Or.inl rfl

/-! ## C81 -/

/-- **C81.** With only first choices, weights are multiplied by choice probabilities. -/
theorem C81_first (m : Market J A G) (delta : J → ℝ) (mu : J → A → ℝ) (ids : Option (J → B)) (c : Option J) (i : A)
    (ha : AvailabilityNonneg m {} i) (hrho : RhoBelowOne m) :
    cellProbability m (computeProbabilities m {} delta mu) delta mu ids (.first c) i = Spec.firstChoice m delta mu i c := by
  unfold cellProbability microProduct Spec.firstChoice Spec.choice
  cases c with
  | none => exact outside_eq m delta mu i {} ha hrho (Or.inl rfl)
  | some j => rfl

/-- **C81.** With second choices, the weight of a first choice `c` and a second choice `c2` is multiplied by how much the probability of
`c2` increases when `c` is removed from the choice set, and by zero if both are the same. -/
theorem C81_difference (m : Market J A G) (delta : J → ℝ) (mu : J → A → ℝ) (c c2 : Option J) (i : A)
    (ha : AvailabilityNonneg m {} i) (hrho : RhoBelowOne m) :
    cellProbability m (computeProbabilities m {} delta mu) delta mu (none : Option (J → B)) (.second c c2) i =
      if c = c2 then 0 else Spec.choiceWithout m delta mu i c c2 - Spec.firstChoice m delta mu i c2 := by
  have hout := outside_eq m delta mu i {} ha hrho (Or.inl rfl)
  unfold cellProbability microProduct Spec.choiceWithout Spec.firstChoice Spec.choice
  cases c with
  | none =>
    cases c2 with
    | none => rw [if_pos rfl]
    | some k =>
      rw [if_neg (by simp)]
      simp only [outsideEliminated_eq m delta mu k i ha]
      rfl
  | some j =>
    cases c2 with
    | none =>
      rw [if_neg (by simp)]
      simp only [eliminated_eq m delta mu _ j _ i ha, removal_none]
      rw [hout, outside_eq m delta mu i _ (availNonneg_of m i ha _ (without_availability _)) hrho (Or.inl rfl)]
    | some k =>
      simp only [eliminated_eq m delta mu _ j _ i ha, removal_none, Option.some.injEq]

/-- Removing an option with nothing left of it. -/
lemma choiceWithout_self (m : Market J A G) (delta : J → ℝ) (mu : J → A → ℝ) (i : A) (c : Option J)
    (ha : AvailabilityNonneg m {} i) (hrho : RhoBelowOne m) : Spec.choiceWithout m delta mu i c c = 0 := by
  unfold Spec.choiceWithout Spec.choice Spec.without
  cases c with
  | none =>
    unfold Spec.outside Spec.logitOutside Spec.nestedOutside
    cases m.nesting <;> simp
  | some j =>
    simp only []
    have ha' := availNonneg_of m i ha ({ eliminateProduct := some j } : ProbOpts J A) rfl
    have h0 : multiplier m { eliminateProduct := some j } i j = 0 := by simp [multiplier]
    cases hn : m.nesting with
    | none =>
      rw [computeProbabilities_plain m _ _ _ hn]
      unfold Spec.logit
      rw [h0, zero_mul, zero_div]
    | some n =>
      rw [computeProbabilities_nested m _ _ _ n hn i ha' fun g => (hrho n hn g).ne]
      unfold Spec.nested Spec.within
      rw [h0, zero_mul, zero_div, zero_mul]

/-- **C81.** Summed over second choices, including the outside option, what weights are multiplied by is the probability of the first
choice. -/
theorem C81_sum (m : Market J A G) (delta : J → ℝ) (mu : J → A → ℝ) (c : Option J) (i : A)
    (ha : AvailabilityNonneg m {} i) (hrho : RhoBelowOne m) (hleft : Spec.SomethingLeft m i c) :
    ∑ c2, cellProbability m (computeProbabilities m {} delta mu) delta mu (none : Option (J → B)) (.second c c2) i =
      Spec.firstChoice m delta mu i c := by
  simp only [C81_difference m delta mu c _ i ha hrho]
  have h1 : ∀ c2, (if c = c2 then (0 : ℝ) else Spec.choiceWithout m delta mu i c c2 - Spec.firstChoice m delta mu i c2) =
      Spec.choiceWithout m delta mu i c c2 - Spec.firstChoice m delta mu i c2 +
        if c = c2 then Spec.firstChoice m delta mu i c2 - Spec.choiceWithout m delta mu i c c2 else 0 := by
    intro c2
    split_ifs <;> ring
  rw [Finset.sum_congr rfl fun c2 _ => h1 c2, Finset.sum_add_distrib, Finset.sum_sub_distrib, Finset.sum_ite_eq,
    if_pos (Finset.mem_univ _), choiceWithout_self m delta mu i c ha hrho]
  have h2 := choice_sum m delta mu i {} ha hrho (Or.inl rfl)
  have h3 := choice_sum m delta mu i (Spec.without c) (availNonneg_of m i ha _ (without_availability c)) hrho (without_set m i c hleft)
  unfold Spec.choiceWithout Spec.firstChoice
  rw [h2, h3]
  ring

/-- **C81.** Without nesting this is the documented probability: of choosing `c` times that of choosing `c2` when `c` is removed from the
choice set. -/
theorem C81_product (m : Market J A G) (hn : m.nesting = none) (delta : J → ℝ) (mu : J → A → ℝ) (c c2 : Option J) (i : A)
    (ha : AvailabilityNonneg m {} i) (hleft : Spec.SomethingLeft m i c) :
    cellProbability m (computeProbabilities m {} delta mu) delta mu (none : Option (J → B)) (.second c c2) i =
      Spec.firstChoice m delta mu i c * Spec.choiceWithout m delta mu i c c2 := by
  have hrho : RhoBelowOne m := fun n h => by rw [hn] at h; cases h
  rw [C81_difference m delta mu c c2 i ha hrho]
  by_cases hc : c = c2
  · subst hc
    rw [if_pos rfl, choiceWithout_self m delta mu i c ha hrho, mul_zero]
  rw [if_neg hc]
  have hpos := plain_denominator_pos (u := fun k => (delta k + mu k i) / m.epsilonScale) false (multiplier_nonneg ha) (Or.inl rfl)
  simp only [Bool.false_eq_true, if_false] at hpos
  have hposw := plain_denominator_pos (u := fun k => (delta k + mu k i) / m.epsilonScale) (Spec.without c : ProbOpts J A).eliminateOutside
    (multiplier_nonneg (availNonneg_of m i ha (Spec.without c) (without_availability c)))
    ((without_set m i c hleft).imp id fun ⟨j, hj⟩ => ⟨j, multiplier_pos hj⟩)
  unfold Spec.choiceWithout Spec.firstChoice Spec.choice
  unfold Spec.outside
  simp only [computeProbabilities_plain m _ _ _ hn, hn]
  unfold Spec.logit Spec.logitOutside
  simp only [Bool.false_eq_true, if_false]
  set e := fun k => Real.exp ((delta k + mu k i) / m.epsilonScale) with he
  cases c with
  | none =>
    cases c2 with
    | none => exact absurd rfl hc
    | some k =>
      simp only [Spec.without, if_true, zero_add] at hposw ⊢
      simp only [multiplier_outside] at hposw ⊢
      field_simp
      ring
  | some j =>
    have hm : ∀ k, multiplier m (Spec.without (some j)) i k = if k = j then 0 else multiplier m {} i k := fun k => by
      have := multiplier_removal m (none : Option (J → J)) i j k
      rw [removal_none] at this
      simpa [removedWith] using this
    have hsum : ∑ k, (if k = j then 0 else multiplier m {} i k) * e k = ∑ k, multiplier m {} i k * e k - multiplier m {} i j * e j := by
      have : ∀ k, (if k = j then 0 else multiplier m {} i k) * e k = multiplier m {} i k * e k -
          if k = j then multiplier m {} i k * e k else 0 := fun k => by split_ifs <;> simp
      rw [Finset.sum_congr rfl fun k _ => this k, Finset.sum_sub_distrib, Finset.sum_ite_eq', if_pos (Finset.mem_univ _)]
    have hw : (Spec.without (some j) : ProbOpts J A).eliminateOutside = false := rfl
    simp only [hm, hw, Bool.false_eq_true, if_false] at hposw ⊢
    rw [hsum] at hposw ⊢
    cases c2 with
    | none =>
      simp only []
      field_simp
      ring
    | some k =>
      simp only []
      rw [if_neg (fun h => hc (by rw [h]))]
      field_simp
      ring

/-! ### No negative probabilities -/

/-- With nesting parameters that are not negative, products that remain are chosen more often when others are removed. -/
lemma nested_mono (group : J → G) (rho : G → ℝ) (hr : ∀ g, 0 ≤ rho g ∧ rho g < 1) (v a a' : J → ℝ) (o o' : ℝ) (ha' : ∀ j, 0 ≤ a' j)
    (hle : ∀ j, a' j ≤ a j) (ho : o' ≤ o) (hpos : 0 < o' + ∑ g, Spec.expInclusive group rho v a' g) (k : J) (hk : a' k = a k) :
    Spec.nested group rho v a o k ≤ Spec.nested group rho v a' o' k := by
  have ha : ∀ j, 0 ≤ a j := fun j => (ha' j).trans (hle j)
  have hD : ∀ g, Spec.groupSum group rho v a' g ≤ Spec.groupSum group rho v a g := fun g =>
    Finset.sum_le_sum fun l _ => mul_le_mul_of_nonneg_right (hle l) (Real.exp_pos _).le
  have hD0 : ∀ g, 0 ≤ Spec.groupSum group rho v a' g := fun g => groupSum_nonneg _ _ _ _ ha' g
  have hI : ∀ g, Spec.expInclusive group rho v a' g ≤ Spec.expInclusive group rho v a g := fun g =>
    Real.rpow_le_rpow (hD0 g) (hD g) (by linarith [(hr g).2])
  have hS : o' + ∑ g, Spec.expInclusive group rho v a' g ≤ o + ∑ g, Spec.expInclusive group rho v a g :=
    add_le_add ho (Finset.sum_le_sum fun g _ => hI g)
  unfold Spec.nested Spec.within Spec.groupProb
  rcases (ha' k).eq_or_lt with h0 | h0
  · rw [← hk, ← h0]; simp
  · have hg' : 0 < Spec.groupSum group rho v a' (group k) := groupSum_pos ha' h0
    have hg : 0 < Spec.groupSum group rho v a (group k) := hg'.trans_le (hD _)
    have key : ∀ (b : J → ℝ) (S : ℝ), 0 < Spec.groupSum group rho v b (group k) →
        b k * Real.exp (v k / (1 - rho (group k))) / Spec.groupSum group rho v b (group k) *
          (Spec.expInclusive group rho v b (group k) / S) =
        b k * Real.exp (v k / (1 - rho (group k))) * Spec.groupSum group rho v b (group k) ^ (-rho (group k)) / S := by
      intro b S hb
      unfold Spec.expInclusive
      rw [show (1 : ℝ) - rho (group k) = 1 + -rho (group k) by ring, Real.rpow_add hb, Real.rpow_one]
      field_simp
    rw [key a _ hg, key a' _ hg', hk]
    refine div_le_div₀ ?_ ?_ hpos hS
    · exact mul_nonneg (mul_nonneg (ha k) (Real.exp_pos _).le) (Real.rpow_nonneg hg'.le _)
    · exact mul_le_mul_of_nonneg_left (Real.rpow_le_rpow_of_nonpos hg' (hD _) (by linarith [(hr (group k)).1]))
        (mul_nonneg (ha k) (Real.exp_pos _).le)

/-- **C81.** With nesting parameters in `[0, 1)`, what weights are multiplied by is never negative, so that truncating negative numbers has
no effect. -/
theorem C81_nonneg [Fintype A] (m : Market J A G) (hm : WellFormed m) (delta : J → ℝ) (mu : J → A → ℝ) (c c2 : Option J) (i : A)
    (hleft : Spec.SomethingLeft m i c) :
    0 ≤ cellProbability m (computeProbabilities m {} delta mu) delta mu (none : Option (J → B)) (.second c c2) i := by
  have ha := hm.availNonneg {} rfl i
  have hrho := hm.regular.rhoBelowOne
  have haw := availNonneg_of m i ha (Spec.without c) (without_availability c)
  cases hn : m.nesting with
  | none =>
    rw [C81_product m hn delta mu c c2 i ha hleft]
    have hc : ∀ o : ProbOpts J A, AvailabilityNonneg m o i → (o.eliminateOutside = false ∨ ∃ j, Offered m o i j) → ∀ c,
        0 ≤ Spec.choice m delta mu i o c := by
      intro o hao hset c
      cases c with
      | some j => exact (C17_probabilities m o delta mu i hao hrho hset).1 j
      | none =>
        unfold Spec.choice Spec.outside
        rw [hn]
        unfold Spec.logitOutside
        refine div_nonneg (by split_ifs <;> norm_num) (plain_denominator_pos _ (multiplier_nonneg hao)
          (hset.imp id fun ⟨j, hj⟩ => ⟨j, multiplier_pos hj⟩)).le
    exact mul_nonneg (hc {} ha (Or.inl rfl) c) (hc _ haw (without_set m i c hleft) c2)
  | some n =>
    rw [C81_difference m delta mu c c2 i ha hrho]
    by_cases hc : c = c2
    · rw [if_pos hc]
    rw [if_neg hc, sub_nonneg]
    have hr := hm.regular.rho n hn
    have hpos := nested_denominator_pos (group := n.group) (rho := n.rho.groupRho) (v := fun k => delta k + mu k i)
      (Spec.without c : ProbOpts J A).eliminateOutside (multiplier_nonneg haw)
      ((without_set m i c hleft).imp id fun ⟨j, hj⟩ => ⟨j, multiplier_pos hj⟩)
    have hmult : ∀ k, some k ≠ c → multiplier m (Spec.without c) i k = multiplier m {} i k := by
      intro k hk
      cases c with
      | none => rfl
      | some j =>
        have := multiplier_removal m (none : Option (J → J)) i j k
        rw [if_neg (by simp only [removedWith, decide_eq_true_eq]; exact fun h => hk (by rw [h]))] at this
        exact this
    have hle : ∀ k, multiplier m (Spec.without c) i k ≤ multiplier m {} i k := by
      intro k
      by_cases hk : some k = c
      · subst hk
        have := multiplier_removal m (none : Option (J → J)) i k k
        rw [if_pos (by simp [removedWith])] at this
        rw [show multiplier m (Spec.without (some k)) i k = 0 from this]
        exact multiplier_nonneg ha k
      · exact (hmult k hk).le
    have hole : (if (Spec.without c : ProbOpts J A).eliminateOutside = true then (0 : ℝ) else 1) ≤ 1 := by
      split_ifs <;> norm_num
    unfold Spec.choiceWithout Spec.firstChoice Spec.choice
    cases c2 with
    | some k =>
      simp only [computeProbabilities_nested m _ _ _ n hn i ha fun g => (hr g).2.ne,
        computeProbabilities_nested m _ _ _ n hn i haw fun g => (hr g).2.ne]
      exact nested_mono n.group _ hr _ _ _ _ _ (multiplier_nonneg haw) hle (by simpa using hole) hpos k
        (hmult k fun h => hc h.symm)
    | none =>
      have ho : (Spec.without c : ProbOpts J A).eliminateOutside = false := by
        cases c with
        | none => exact absurd rfl hc
        | some j => rfl
      unfold Spec.outside
      rw [hn]
      unfold Spec.nestedOutside
      rw [ho] at hpos ⊢
      simp only [Bool.false_eq_true, if_false] at hpos ⊢
      refine div_le_div_of_nonneg_left zero_le_one hpos (add_le_add le_rfl (Finset.sum_le_sum fun g _ => ?_))
      exact Real.rpow_le_rpow (groupSum_nonneg _ _ _ _ (multiplier_nonneg haw) g)
        (Finset.sum_le_sum fun l _ => mul_le_mul_of_nonneg_right (hle l) (Real.exp_pos _).le) (by linarith [(hr g).2])

/-! ### Choices of consumers who rank options -/

namespace Spec

/-- A consumer with utilities `u` chooses `c`. -/
def Best (u : Option J → ℝ) (c : Option J) : Prop := ∀ c', c' ≠ c → u c' < u c

/-- A consumer with utilities `u` chooses `c2` when `c` is not available. -/
def BestWithout (u : Option J → ℝ) (c c2 : Option J) : Prop := c2 ≠ c ∧ ∀ c', c' ≠ c2 → c' ≠ c → u c' < u c2

end Spec

open Classical in
/-- **C81.** With or without nesting: if an agent stands for a population of consumers `w` (with measure `q w`), each of whom chooses what
maximizes utility `u w`, and choice probabilities before and after an option is removed are those of this population, then what weights
are multiplied by is the measure of consumers with first choice `c` and second choice `c2`. -/
theorem C81_random_utility {W : Type} [Fintype W] (q : W → ℝ) (u : W → Option J → ℝ) (hu : ∀ w, Function.Injective (u w))
    (m : Market J A G) (delta : J → ℝ) (mu : J → A → ℝ) (i : A) (ha : AvailabilityNonneg m {} i) (hrho : RhoBelowOne m) (c c2 : Option J)
    (h1 : ∑ w with Spec.Best (u w) c2, q w = Spec.firstChoice m delta mu i c2)
    (h2 : c ≠ c2 → ∑ w with Spec.BestWithout (u w) c c2, q w = Spec.choiceWithout m delta mu i c c2) :
    cellProbability m (computeProbabilities m {} delta mu) delta mu (none : Option (J → B)) (.second c c2) i =
      ∑ w with Spec.Best (u w) c ∧ Spec.BestWithout (u w) c c2, q w := by
  rw [C81_difference m delta mu c c2 i ha hrho]
  by_cases hc : c = c2
  · rw [if_pos hc, Finset.sum_eq_zero]
    intro w hw
    exact absurd hc.symm (Finset.mem_filter.mp hw).2.2.1
  rw [if_neg hc, ← h1, ← h2 hc, Finset.sum_filter, Finset.sum_filter, Finset.sum_filter, ← Finset.sum_sub_distrib]
  refine Finset.sum_congr rfl fun w _ => ?_
  by_cases hb2 : Spec.Best (u w) c2
  · have hw : Spec.BestWithout (u w) c c2 := ⟨fun h => hc h.symm, fun c' h _ => hb2 c' h⟩
    have hn : ¬Spec.Best (u w) c := fun h => lt_asymm (h c2 fun h => hc h.symm) (hb2 c hc)
    rw [if_pos hb2, if_pos hw, if_neg fun h => hn h.1, sub_self]
  · rw [if_neg hb2, sub_zero]
    by_cases hw : Spec.BestWithout (u w) c c2
    · have hlt : u w c2 < u w c := by
        by_contra hle
        push Not at hle
        refine hb2 fun c' h => ?_
        by_cases hcc : c' = c
        · subst hcc
          exact lt_of_le_of_ne hle fun h' => h (hu w h')
        · exact hw.2 c' h hcc
      have hb : Spec.Best (u w) c := by
        intro c' h
        by_cases hcc : c' = c2
        · rw [hcc]; exact hlt
        · exact (hw.2 c' hcc h).trans hlt
      rw [if_pos hw, if_pos ⟨hb, hw⟩]
    · rw [if_neg hw, if_neg fun h => hw h.2]

/-! ### Groups of products -/

/-- **C81** (what holds when products are removed by ID). Without nesting, for a second choice that is not removed together with the first,
weights are multiplied by the probability of choosing any of the removed products, times the probability of the second choice after they
are removed. -/
theorem C81_groups_partial (m : Market J A G) (hn : m.nesting = none) (delta : J → ℝ) (mu : J → A → ℝ) (id : J → B) (j : J) (c2 : Option J)
    (i : A) (ha : AvailabilityNonneg m {} i) (hc : ∀ k, c2 = some k → id k ≠ id j) :
    cellProbability m (computeProbabilities m {} delta mu) delta mu (some id) (.second (some j) c2) i =
      (∑ l with id l = id j, Spec.firstChoice m delta mu i (some l)) *
        Spec.choice m delta mu i { eliminateMask := fun k => decide (id k = id j) } c2 := by
  have hrho : RhoBelowOne m := fun n h => by rw [hn] at h; cases h
  have ha' := availNonneg_of m i ha ({ eliminateMask := fun k => decide (id k = id j) } : ProbOpts J A) rfl
  have hpos := plain_denominator_pos (u := fun k => (delta k + mu k i) / m.epsilonScale) false (multiplier_nonneg ha) (Or.inl rfl)
  have hposw := plain_denominator_pos (u := fun k => (delta k + mu k i) / m.epsilonScale) false (multiplier_nonneg ha') (Or.inl rfl)
  have hm : ∀ k, multiplier m { eliminateMask := fun k => decide (id k = id j) } i k = if id k = id j then 0 else multiplier m {} i k :=
    fun k => by
      have := multiplier_removal m (some id) i j k
      simp only [removedWith, decide_eq_true_eq] at this
      exact this
  simp only [Bool.false_eq_true, if_false, hm] at hpos hposw
  have hE : ∀ k, eliminatedProbabilities m (computeProbabilities m {} delta mu) delta mu (some id) j k i =
      computeProbabilities m { eliminateMask := fun k => decide (id k = id j) } delta mu k i :=
    fun k => eliminated_eq m delta mu (some id) j k i ha
  unfold cellProbability microProduct
  set e := fun k => Real.exp ((delta k + mu k i) / m.epsilonScale) with he
  have hsum : ∑ k, (if id k = id j then 0 else multiplier m {} i k) * e k =
      ∑ k, multiplier m {} i k * e k - ∑ k with id k = id j, multiplier m {} i k * e k := by
    rw [Finset.sum_filter, ← Finset.sum_sub_distrib]
    refine Finset.sum_congr rfl fun k _ => ?_
    split_ifs <;> simp
  have hF : ∑ l with id l = id j, Spec.firstChoice m delta mu i (some l) =
      (∑ l with id l = id j, multiplier m {} i l * e l) / (1 + ∑ k, multiplier m {} i k * e k) := by
    unfold Spec.firstChoice Spec.choice
    simp only [computeProbabilities_plain m _ _ _ hn]
    unfold Spec.logit
    simp only [Bool.false_eq_true, if_false]
    rw [← Finset.sum_div]
  have hpos' : (1 : ℝ) + ∑ k, multiplier m {} i k * e k ≠ 0 := hpos.ne'
  have hposw' : (1 : ℝ) + (∑ k, multiplier m {} i k * e k - ∑ k with id k = id j, multiplier m {} i k * e k) ≠ 0 := by
    rw [← hsum]; exact hposw.ne'
  rw [hF]
  cases c2 with
  | none =>
    simp only [hE]
    rw [outside_eq m delta mu i _ ha' hrho (Or.inl rfl), outside_eq m delta mu i _ ha hrho (Or.inl rfl)]
    unfold Spec.choice Spec.outside
    simp only [hn]
    unfold Spec.logitOutside
    simp only [Bool.false_eq_true, if_false, hm]
    change 1 / (1 + ∑ k, (if id k = id j then 0 else multiplier m {} i k) * e k) - 1 / (1 + ∑ k, multiplier m {} i k * e k) =
      _ * (1 / (1 + ∑ k, (if id k = id j then 0 else multiplier m {} i k) * e k))
    rw [hsum]
    field_simp
    ring
  | some k =>
    have hk := hc k rfl
    simp only [hE]
    rw [if_neg fun h => hk (by rw [h])]
    unfold Spec.choice
    simp only [computeProbabilities_plain m _ _ _ hn]
    unfold Spec.logit
    simp only [Bool.false_eq_true, if_false, hm]
    rw [if_neg hk]
    change _ * e k / (1 + ∑ k, (if id k = id j then 0 else multiplier m {} i k) * e k) -
      _ * e k / (1 + ∑ k, multiplier m {} i k * e k) =
      _ * (_ * e k / (1 + ∑ k, (if id k = id j then 0 else multiplier m {} i k) * e k))
    rw [hsum]
    field_simp
    ring

/-- If no other product has its ID, removing a product by ID is removing the product. -/
theorem C81_groups_alone (m : Market J A G) (delta : J → ℝ) (mu : J → A → ℝ) (id : J → B) (hid : Function.Injective id)
    (c : MicroCell J) (i : A) (ha : AvailabilityNonneg m {} i) :
    cellProbability m (computeProbabilities m {} delta mu) delta mu (some id) c i =
      cellProbability m (computeProbabilities m {} delta mu) delta mu (none : Option (J → B)) c i := by
  have : ∀ j k, eliminatedProbabilities m (computeProbabilities m {} delta mu) delta mu (some id) j k i =
      eliminatedProbabilities m (computeProbabilities m {} delta mu) delta mu (none : Option (J → B)) j k i := by
    intro j k
    have h : removedWith (some id) = removedWith (none : Option (J → B)) := by
      funext a b
      simp [removedWith, hid.eq_iff]
    rw [eliminated_eq m delta mu _ j k i ha, eliminated_eq m delta mu _ j k i ha]
    have hmul : multiplier m (removalOptions (some id) j) i = multiplier m (removalOptions (none : Option (J → B)) j) i := by
      funext l
      rw [multiplier_removal, multiplier_removal, h]
    cases hn : m.nesting with
    | none =>
      rw [computeProbabilities_plain m _ _ _ hn, computeProbabilities_plain m _ _ _ hn, hmul]
      rfl
    | some n =>
      unfold computeProbabilities agentProbabilities
      have hres : ∀ e, restrict m (removalOptions (some id) j) e i = restrict m (removalOptions (none : Option (J → B)) j) e i := by
        intro e
        funext l
        rw [restrict_eq, restrict_eq, hmul]
      simp only [hn, hres]
      rfl
  unfold cellProbability
  simp only [this]

/-- Three products without nesting. -/
noncomputable def threeProducts : Market (Fin 3) Unit Unit where
  nesting := none
  epsilonScale := 1
  weights := fun _ => 1
  availability := none

/-- **C81** does not hold when products are removed by ID: the documented probability is the one of the first choice times the one of the
second choice after all products with the first choice's ID are removed. Here three products and the outside option are equally likely
and the first two products have the same ID: the documented probability is one eighth, but weights are multiplied by one fourth. -/
theorem C81_groups_refuted : ∃ (m : Market (Fin 3) Unit Unit) (delta : Fin 3 → ℝ) (mu : Fin 3 → Unit → ℝ) (id : Fin 3 → Fin 2),
    AvailabilityNonneg m {} () ∧ m.nesting = none ∧ id 2 ≠ id 0 ∧
    cellProbability m (computeProbabilities m {} delta mu) delta mu (some id) (.second (some 0) (some 2)) () = 1 / 4 ∧
    Spec.firstChoice m delta mu () (some 0) *
      Spec.choice m delta mu () { eliminateMask := fun k => decide (id k = id 0) } (some 2) = 1 / 8 := by
  refine ⟨threeProducts, fun _ => 0, fun _ _ => 0, ![0, 0, 1], ?_, rfl, by decide, ?_, ?_⟩
  · intro a h
    simp [threeProducts] at h
  · rw [C81_groups_partial threeProducts rfl _ _ _ _ _ _ (by intro a h; simp [threeProducts] at h)
      (by intro k hk; simp only [Option.some.injEq] at hk; subst hk; decide)]
    unfold Spec.firstChoice Spec.choice
    simp only [computeProbabilities_plain threeProducts _ _ _ rfl]
    rw [Finset.sum_filter]
    simp [Spec.logit, multiplier, threeProducts, Fin.sum_univ_three]
    norm_num
  · unfold Spec.firstChoice Spec.choice
    simp only [computeProbabilities_plain threeProducts _ _ _ rfl]
    simp [Spec.logit, multiplier, threeProducts, Fin.sum_univ_three]
    norm_num

/-- Two products in one nest. -/
noncomputable def oneNest : Market (Fin 2) Unit Unit where
  nesting := some { group := fun _ => (), rho := .single (1 / 2) }
  epsilonScale := 1
  weights := fun _ => 1
  availability := none

lemma oneNest_wellFormed : WellFormed oneNest where
  regular := {
    rho := by
      intro n hn g
      simp only [oneNest, Option.some.injEq] at hn
      subst hn
      simp only [RhoParam.groupRho]
      norm_num
    eps := one_pos }
  scale := fun _ => rfl
  avail := by intro a h; simp [oneNest] at h

/-- **C81** with nesting: weights are not multiplied by the documented probability, that of the first choice times that of the second choice
after the first is removed (here 5/18), but by the measure of consumers with these choices (here 1/3; see `C81_random_utility`). -/
theorem C81_nested_refuted : ∃ delta : Fin 2 → ℝ,
    cellProbability oneNest (computeProbabilities oneNest {} delta fun _ _ => 0) delta (fun _ _ => 0) (none : Option (Fin 2 → ℕ))
      (.second (some 0) (some 1)) () = 1 / 3 ∧
    Spec.firstChoice oneNest delta (fun _ _ => 0) () (some 0) * Spec.choiceWithout oneNest delta (fun _ _ => 0) () (some 0) (some 1) =
      5 / 18 := by
  refine ⟨![Real.log 5 / 2, Real.log 4 / 2], ?_⟩
  have ha : AvailabilityNonneg oneNest {} () := oneNest_wellFormed.availNonneg {} rfl ()
  have e5 : Real.exp (Real.log 5 / 2 / (1 - 1 / 2)) = 5 := by
    rw [show Real.log 5 / 2 / (1 - 1 / 2) = Real.log 5 by ring, Real.exp_log (by norm_num)]
  have e4 : Real.exp (Real.log 4 / 2 / (1 - 1 / 2)) = 4 := by
    rw [show Real.log 4 / 2 / (1 - 1 / 2) = Real.log 4 by ring, Real.exp_log (by norm_num)]
  have r9 : (9 : ℝ) ^ ((1 : ℝ) - 1 / 2) = 3 := by
    rw [show (9 : ℝ) = 3 ^ (2 : ℝ) by norm_num, ← Real.rpow_mul (by norm_num)]
    norm_num
  have r4 : (4 : ℝ) ^ ((1 : ℝ) - 1 / 2) = 2 := by
    rw [show (4 : ℝ) = 2 ^ (2 : ℝ) by norm_num, ← Real.rpow_mul (by norm_num)]
    norm_num
  have hP : ∀ (o : ProbOpts (Fin 2) Unit) (ho : o.availability = none) (j : Fin 2),
      computeProbabilities oneNest o ![Real.log 5 / 2, Real.log 4 / 2] (fun _ _ => 0) j () =
      Spec.nested (fun _ => ()) (fun _ => 1 / 2) (fun k => ![Real.log 5 / 2, Real.log 4 / 2] k + 0) (multiplier oneNest o ())
        (if o.eliminateOutside then 0 else 1) j := fun o ho j =>
    computeProbabilities_nested oneNest o _ _ _ rfl () (oneNest_wellFormed.availNonneg o ho ()) (by intro g; simp [RhoParam.groupRho]) j
  have hN : ∀ (a : Fin 2 → ℝ) (x : ℝ), a 0 * 5 + a 1 * 4 = x → ∀ y, x ^ ((1 : ℝ) - 1 / 2) = y →
      Spec.nested (fun _ => ()) (fun _ : Unit => 1 / 2) (fun k => ![Real.log 5 / 2, Real.log 4 / 2] k + 0) a 1 0 =
        a 0 * 5 / x * (y / (1 + y)) ∧
      Spec.nested (fun _ => ()) (fun _ : Unit => 1 / 2) (fun k => ![Real.log 5 / 2, Real.log 4 / 2] k + 0) a 1 1 =
        a 1 * 4 / x * (y / (1 + y)) := by
    intro a x hx y hy
    have hg : Spec.groupSum (fun _ => ()) (fun _ : Unit => (1 : ℝ) / 2) (fun k => ![Real.log 5 / 2, Real.log 4 / 2] k + 0) a () = x := by
      unfold Spec.groupSum
      rw [← hx]
      simp only [Finset.filter_true, Fin.sum_univ_two, Matrix.cons_val_zero, Matrix.cons_val_one, add_zero, e5, e4]
    unfold Spec.nested Spec.within Spec.groupProb Spec.expInclusive
    rw [Fintype.sum_unique]
    simp only [show (default : Unit) = () from rfl, hg, hy]
    simp only [Matrix.cons_val_zero, Matrix.cons_val_one, add_zero, e5, e4]
    exact ⟨trivial, trivial⟩
  have h1 := hN (multiplier oneNest {} ()) 9 (by simp [multiplier, oneNest]; norm_num) 3 r9
  have h2 := hN (multiplier oneNest { eliminateProduct := some 0 } ()) 4 (by simp [multiplier, oneNest]) 2 r4
  have m1 : ∀ k, multiplier oneNest {} () k = 1 := fun k => by simp [multiplier, oneNest]
  have m2 : multiplier oneNest { eliminateProduct := some 0 } () 1 = 1 := by simp [multiplier, oneNest]
  rw [m1, m1] at h1
  rw [m2] at h2
  rw [C81_difference oneNest _ _ _ _ _ ha oneNest_wellFormed.regular.rhoBelowOne, if_neg (by decide)]
  unfold Spec.choiceWithout Spec.firstChoice Spec.choice Spec.without
  simp only []
  rw [hP _ rfl, hP _ rfl, hP _ rfl]
  simp only [Bool.false_eq_true, if_false]
  rw [h1.1, h1.2, h2.2]
  norm_num

/-! ### Datasets -/

namespace Spec

/-- Probability that an agent makes these choices: the measure of consumers (see `C81_random_utility`), which without nesting is the
documented product (see `C81_product`). -/
noncomputable def observation (m : Market J A G) (delta : J → ℝ) (mu : J → A → ℝ) (i : A) : MicroCell J → ℝ
  | .first c => firstChoice m delta mu i c
  | .second c c2 => if c = c2 then 0 else choiceWithout m delta mu i c c2 - firstChoice m delta mu i c2

end Spec

/-- **C81.** In a dataset in which products are not removed by ID, each weight that the user computed for an agent and for choices is
multiplied by the agent's integration weight and by the probability of these choices. -/
theorem C81_dataset {K2 N D Ds Q P : Type} [Fintype K2] [Fintype N] [Fintype D] [Fintype A] (m : Market J A G) (hm : WellFormed m)
    (hw : ∀ i, 0 ≤ m.weights i) (hoff : ∀ i, ∃ j, Offered m {} i j) (T : Tastes J A K2 N D) (sigma : K2 → N → ℝ) (pi : K2 → D → ℝ)
    (delta : J → ℝ) (I : ℕ) (agent : ℕ → A) (included : Ds → Bool) (ids : Ds → Option (J → B)) (param : Q → TangentParam J G K2 N D)
    (tangent : Q → J → A → ℝ) (xiJacobian : Q → J → ℝ) (u : MicroFunctions A MicroShape (MicroCell J) Ds P) (d : Ds) (hd : ids d = none)
    (indices : List ℕ) (chunk : DatasetChunk MicroShape (MicroCell J) Q)
    (h : datasetContributions (microMarket m T sigma pi delta I agent included ids param tangent xiJacobian) u d indices = .ok chunk) :
    ∃ w, u.weights d (indices.map agent) = some w ∧ chunk.shape = w.shape ∧ ∀ (n i : ℕ) (r : MicroCell J → ℝ), indices[n]? = some i →
      w.rows[n]? = some r → ∃ row : MicroCell J → ℝ, chunk.weights[n]? = some row ∧ ∀ c ∈ w.shape.cells,
        row c = r c * (m.weights (agent i) * Spec.observation m delta (computeMu T sigma pi) (agent i) c) := by
  unfold datasetContributions computeMicroWeights at h
  have hrow : (microMarket m T sigma pi delta I agent included ids param tangent xiJacobian).row = agent := rfl
  rw [hrow] at h
  cases hu : u.weights d (indices.map agent) with
  | none => simp [hu] at h
  | some w =>
    simp only [hu] at h
    by_cases hlen : w.rows.length ≠ indices.length
    · simp [hlen] at h
    simp only [if_neg hlen] at h
    by_cases hneg : ∃ r ∈ w.rows, ∃ c ∈ (microMarket m T sigma pi delta I agent included ids param tangent xiJacobian).cells w.shape, r c < 0
    · simp only [if_pos hneg] at h
      cases h
    simp only [if_neg hneg, Except.ok.injEq] at h
    subst h
    refine ⟨w, rfl, rfl, fun n i r hi hr => ⟨fun c => max (r c *
      (microMarket m T sigma pi delta I agent included ids param tangent xiJacobian).factor d i c) 0,
      by simp only [List.getElem?_zipWith, hi, hr], fun c hc => ?_⟩⟩
    have hr0 : 0 ≤ r c := by
      by_contra hlt
      push Not at hlt
      exact hneg ⟨r, List.mem_of_getElem? hr, c, hc, hlt⟩
    have ha := hm.availNonneg {} rfl (agent i)
    have hrho := hm.regular.rhoBelowOne
    have hcell : ∀ c : MicroCell J,
        cellProbability m (computeProbabilities m {} delta (computeMu T sigma pi)) delta (computeMu T sigma pi) (none : Option (J → B)) c (agent i) =
        Spec.observation m delta (computeMu T sigma pi) (agent i) c ∧
        0 ≤ cellProbability m (computeProbabilities m {} delta (computeMu T sigma pi)) delta (computeMu T sigma pi) (none : Option (J → B)) c
          (agent i) := by
      intro c
      cases c with
      | first c =>
        refine ⟨C81_first m delta _ _ c _ ha hrho, ?_⟩
        rw [C81_first m delta _ _ c _ ha hrho, ← C81_sum (B := B) m delta _ c _ ha hrho fun _ => hoff _]
        exact Finset.sum_nonneg fun c2 _ => C81_nonneg m hm delta _ c c2 _ fun _ => hoff _
      | second c c2 => exact ⟨C81_difference m delta _ c c2 _ ha hrho, C81_nonneg m hm delta _ c c2 _ fun _ => hoff _⟩
    have hf : (microMarket m T sigma pi delta I agent included ids param tangent xiJacobian).factor d i c =
        m.weights (agent i) * Spec.observation m delta (computeMu T sigma pi) (agent i) c := by
      rw [← (hcell c).1, ← hd]
      rfl
    beta_reduce
    rw [hf, max_eq_left]
    rw [← (hcell c).1]
    exact mul_nonneg hr0 (mul_nonneg (hw _) (hcell c).2)

namespace Spec

/-- Choices that an array of weights covers: all products, and the outside option if the array has a row, or a column, for it. -/
def Covers : MicroShape → MicroCell J → Prop
  | .first o, .first c => c = none → o = true
  | .second o o2, .second c c2 => (c = none → o = true) ∧ (c2 = none → o2 = true)
  | _, _ => False

end Spec

/-- **C81.** Contributions to micro moments are sums over choices that the weights cover and over no others. -/
theorem C81_cells (shape : MicroShape) (c : MicroCell J) : c ∈ shape.cells ↔ Spec.Covers shape c := by
  have h : ∀ (o : Bool) (c : Option J), c ∈ choices o ↔ (c = none → o = true) := by
    intro o c
    unfold choices
    cases o <;> cases c <;> simp
  cases shape <;> cases c <;> simp [MicroShape.cells, Spec.Covers, h]

/-! ### Examples -/

/-- Non-vacuity of `C81_nonneg`, `C81_sum` and `C81_dataset`: the example market with two nests. -/
example (delta : Fin 3 → ℝ) (mu : Fin 3 → Fin 2 → ℝ) :
    ∑ c2, cellProbability exampleMarket (computeProbabilities exampleMarket {} delta mu) delta mu (none : Option (Fin 3 → ℕ))
      (.second (some 1) c2) 0 = computeProbabilities exampleMarket {} delta mu 1 0 :=
  C81_sum exampleMarket delta mu (some 1) 0 (exampleMarket_avail {} rfl 0) exampleMarket_rho (by intro h; cases h)

/-- Two products without nesting. -/
noncomputable def twoProducts : Market (Fin 2) Unit Unit where
  nesting := none
  epsilonScale := 1
  weights := fun _ => 1
  availability := none

open Classical in
/-- Non-vacuity of `C81_random_utility`: two products and the outside option with the same mean utility. Their choice probabilities are those
of a population in which all six rankings are equally frequent. -/
example : ∃ (q : (Option (Fin 2) ≃ Fin 3) → ℝ) (u : (Option (Fin 2) ≃ Fin 3) → Option (Fin 2) → ℝ), (∀ w, Function.Injective (u w)) ∧
    (∑ w with Spec.Best (u w) none, q w = Spec.firstChoice twoProducts (fun _ => 0) (fun _ _ => 0) () none) ∧
    ∑ w with Spec.BestWithout (u w) (some 0) none, q w = Spec.choiceWithout twoProducts (fun _ => 0) (fun _ _ => 0) () (some 0) none := by
  refine ⟨fun _ => 1 / 6, fun w c => ((w c : ℕ) : ℝ), fun w a b h => ?_, ?_, ?_⟩
  · have h' : ((w a : ℕ) : ℝ) = ((w b : ℕ) : ℝ) := h
    exact w.injective (Fin.val_injective (by exact_mod_cast h'))
  · have : (Finset.univ.filter fun w : Option (Fin 2) ≃ Fin 3 => Spec.Best (fun c => ((w c : ℕ) : ℝ)) none) =
        Finset.univ.filter fun w : Option (Fin 2) ≃ Fin 3 => ∀ c', c' ≠ none → w c' < w none := by
      refine Finset.filter_congr fun w _ => ?_
      simp [Spec.Best]
    rw [this, Finset.sum_const, nsmul_eq_mul,
      show (Finset.univ.filter fun w : Option (Fin 2) ≃ Fin 3 => ∀ c', c' ≠ none → w c' < w none).card = 2 by
        rw [← Fintype.card_coe]; decide]
    simp [Spec.firstChoice, Spec.choice, Spec.outside, twoProducts, Spec.logitOutside, multiplier]
    norm_num
  · have : (Finset.univ.filter fun w : Option (Fin 2) ≃ Fin 3 => Spec.BestWithout (fun c => ((w c : ℕ) : ℝ)) (some 0) none) =
        Finset.univ.filter fun w : Option (Fin 2) ≃ Fin 3 => ∀ c', c' ≠ none → c' ≠ some 0 → w c' < w none := by
      refine Finset.filter_congr fun w _ => ?_
      simp [Spec.BestWithout]
    rw [this, Finset.sum_const, nsmul_eq_mul,
      show (Finset.univ.filter fun w : Option (Fin 2) ≃ Fin 3 => ∀ c', c' ≠ none → c' ≠ some 0 → w c' < w none).card = 3 by
        rw [← Fintype.card_coe]; decide]
    simp [Spec.choiceWithout, Spec.choice, Spec.without, Spec.outside, twoProducts, Spec.logitOutside, multiplier]
    norm_num

end Pyblp
