import Verif.Props.Implicit
import Verif.Props.SecondChoices

/-!
# C82: derivatives of contributions to micro moments
-/

set_option linter.unusedSectionVars false

namespace Pyblp

variable {J A G K2 N D B : Type} [Fintype J] [DecidableEq J] [Nonempty J] [Fintype G] [DecidableEq G]
  [Fintype K2] [DecidableEq K2] [Fintype N] [DecidableEq N] [Fintype D] [DecidableEq D] [Fintype A] [DecidableEq B]

/-! ## Probabilities after options are removed, without nesting -/

lemma removal_plain (m : Market J A G) (hn : m.nesting = none) (delta : J → ℝ) (mu : J → A → ℝ) (ids : Option (J → B)) (j k : J) (i : A)
    (ha : AvailabilityNonneg m {} i) :
    computeProbabilities m (removalOptions ids j) delta mu k i =
      if removedWith ids j k then 0 else computeProbabilities m {} delta mu k i /
        (1 - ∑ l with removedWith ids j l = true, computeProbabilities m {} delta mu l i) := by
  simp only [computeProbabilities_plain m _ _ _ hn]
  rw [funext (multiplier_removal m ids i j)]
  have ho : (removalOptions ids j : ProbOpts J A).eliminateOutside = false := by unfold removalOptions; cases ids <;> rfl
  have hpos := plain_denominator_pos (u := fun k => (delta k + mu k i) / m.epsilonScale) false (multiplier_nonneg ha) (Or.inl rfl)
  rw [ho]
  simp only [Bool.false_eq_true, if_false] at hpos ⊢
  exact logit_remove _ _ _ (removedWith ids j) hpos.ne' k

lemma removal_denominator (m : Market J A G) (hn : m.nesting = none) (delta : J → ℝ) (mu : J → A → ℝ) (ids : Option (J → B)) (j : J) (i : A)
    (ha : AvailabilityNonneg m {} i) :
    0 < 1 - ∑ l with removedWith ids j l = true, computeProbabilities m {} delta mu l i := by
  have hrho : RhoBelowOne m := fun n h => by rw [hn] at h; cases h
  have h := C17_probabilities m {} delta mu i ha hrho (Or.inl rfl)
  have hout : 0 < Spec.outside m {} delta mu i := by
    unfold Spec.outside
    rw [hn]
    exact div_pos (by simp) (plain_denominator_pos false (multiplier_nonneg ha) (Or.inl rfl))
  have hle : ∑ l with removedWith ids j l = true, computeProbabilities m {} delta mu l i ≤ ∑ l, computeProbabilities m {} delta mu l i :=
    Finset.sum_le_sum_of_subset_of_nonneg (Finset.filter_subset _ _) fun l _ _ => h.1 l
  linarith [h.2.2]

lemma outside_plain (m : Market J A G) (hn : m.nesting = none) (delta : J → ℝ) (mu : J → A → ℝ) (k : J) (i : A)
    (ha : AvailabilityNonneg m {} i) :
    computeProbabilities m { eliminateOutside := true } delta mu k i =
      computeProbabilities m {} delta mu k i / ∑ l, computeProbabilities m {} delta mu l i := by
  simp only [computeProbabilities_plain m _ _ _ hn]
  have hpos := plain_denominator_pos (u := fun k => (delta k + mu k i) / m.epsilonScale) false (multiplier_nonneg ha) (Or.inl rfl)
  simp only [Bool.false_eq_true, if_false] at hpos
  unfold Spec.logit
  simp only [Bool.false_eq_true, if_false, if_true, zero_add]
  rw [← Finset.sum_div, div_div_div_cancel_right₀ hpos.ne']
  rfl

lemma plain_eq_zero_iff (m : Market J A G) (hn : m.nesting = none) (delta : J → ℝ) (mu : J → A → ℝ) (k : J) (i : A)
    (ha : AvailabilityNonneg m {} i) : computeProbabilities m {} delta mu k i = 0 ↔ multiplier m {} i k = 0 := by
  rw [computeProbabilities_plain m _ _ _ hn]
  have hpos := plain_denominator_pos (u := fun k => (delta k + mu k i) / m.epsilonScale) false (multiplier_nonneg ha) (Or.inl rfl)
  simp only [Bool.false_eq_true, if_false] at hpos
  unfold Spec.logit
  simp only [Bool.false_eq_true, if_false]
  rw [div_eq_zero_iff]
  simp [hpos.ne', (Real.exp_pos _).ne']

section

variable (m : Market J A G) (hm : WellFormed m) (T : Tastes J A K2 N D) (sigma : K2 → N → ℝ) (pi : K2 → D → ℝ)
  (delta : J → ℝ) (p : TangentParam J G K2 N D) (x : J → ℝ) (d : ℝ → J → ℝ)

/-- Derivatives of probabilities that the code computes, with the contribution of unobserved characteristics with derivatives `x`. -/
noncomputable def tangentWith : J → A → ℝ :=
  updateTangent m (computeProbabilities m {} delta (computeMu T sigma pi)) (computeConditionals m {} delta (computeMu T sigma pi)) p
    (probabilitiesTangent m T sigma pi {} delta (computeProbabilities m {} delta (computeMu T sigma pi))
      (computeConditionals m {} delta (computeMu T sigma pi)) p).1 x

/-- Mean utilities start at `delta`, and derivatives of probabilities along their path are those computed with `x`. -/
def MovesWith : Prop :=
  d 0 = delta ∧ ∀ o : ProbOpts J A, o.availability = none → ∀ j i, SomethingOffered m o i →
    HasDerivAt (fun t => Spec.probabilitiesOf m T sigma pi o p j i (t, d t))
      (updateTangent m (computeProbabilities m o delta (computeMu T sigma pi)) (computeConditionals m o delta (computeMu T sigma pi)) p
        (probabilitiesTangent m T sigma pi o delta (computeProbabilities m o delta (computeMu T sigma pi))
          (computeConditionals m o delta (computeMu T sigma pi)) p).1 x j i) 0

variable (hd : MovesWith m T sigma pi delta p x d)

/-- What weights are multiplied by, as a function of the increase of parameter `p` and of mean utilities. -/
noncomputable def Spec.cellOf (ids : Option (J → B)) (c : MicroCell J) (i : A) (x : ℝ × (J → ℝ)) : ℝ :=
  cellProbability (Spec.shiftMarket p m x.1)
    (computeProbabilities (Spec.shiftMarket p m x.1) {} (Spec.shiftDelta p x.2 x.1)
      (computeMu T (Spec.shiftSigma p sigma x.1) (Spec.shiftPi p pi x.1)))
    (Spec.shiftDelta p x.2 x.1) (computeMu T (Spec.shiftSigma p sigma x.1) (Spec.shiftPi p pi x.1)) ids c i

include hd in
lemma hasDerivAt_first (j : J) (i : A) :
    HasDerivAt (fun t => Spec.probabilitiesOf m T sigma pi {} p j i (t, d t)) (tangentWith m T sigma pi delta p x j i) 0 :=
  hd.2 {} rfl j i (Or.inl rfl)

include hm in
lemma availNonneg_shift (t : ℝ) (i : A) : AvailabilityNonneg (Spec.shiftMarket p m t) {} i :=
  hm.availNonneg {} rfl i

lemma probabilitiesOf_start (hd0 : d 0 = delta) (o : ProbOpts J A) (j : J) (i : A) :
    Spec.probabilitiesOf m T sigma pi o p j i (0, d 0) = computeProbabilities m o delta (computeMu T sigma pi) j i := by
  unfold Spec.probabilitiesOf
  simp only [shift_zero_market, shift_zero_delta, shift_zero_sigma, shift_zero_pi, hd0]

include hm hd in
lemma hasDerivAt_eliminated (ids : Option (J → B)) (j k : J) (i : A) :
    HasDerivAt (fun t => Spec.probabilitiesOf m T sigma pi (removalOptions ids j) p k i (t, d t))
      (eliminatedTangent m T sigma pi (computeProbabilities m {} delta (computeMu T sigma pi)) delta ids p
        (tangentWith m T sigma pi delta p x) x j k i) 0 := by
  have ha := hm.availNonneg {} rfl i
  have hoE : (removalOptions ids j : ProbOpts J A).eliminateOutside = false := by unfold removalOptions; cases ids <;> rfl
  have hoA : (removalOptions ids j : ProbOpts J A).availability = none := by unfold removalOptions; cases ids <;> rfl
  unfold eliminatedTangent
  cases hn : m.nesting with
  | some n =>
    have h := hd.2 (removalOptions ids j) hoA k i (Or.inl hoE)
    have hE : eliminatedProbabilities m (computeProbabilities m {} delta (computeMu T sigma pi)) delta (computeMu T sigma pi) ids j =
        computeProbabilities m (removalOptions ids j) delta (computeMu T sigma pi) := by
      funext k i
      exact eliminated_eq m delta _ ids j k i (hm.availNonneg {} rfl i)
    simp only [hE]
    exact h
  | none =>
    simp only [eliminated_eq m delta _ ids j _ i ha, removal_plain m hn _ _ ids j _ i ha]
    have hnt : ∀ t, (Spec.shiftMarket p m t).nesting = none := fun t => by unfold Spec.shiftMarket; rw [hn]; rfl
    have hpath : ∀ t, Spec.probabilitiesOf m T sigma pi (removalOptions ids j) p k i (t, d t) =
        if removedWith ids j k then 0 else Spec.probabilitiesOf m T sigma pi {} p k i (t, d t) /
          (1 - ∑ l with removedWith ids j l = true, Spec.probabilitiesOf m T sigma pi {} p l i (t, d t)) := fun t =>
      removal_plain _ (hnt t) _ _ ids j k i (availNonneg_shift m hm p t i)
    simp only [hpath]
    by_cases hr : removedWith ids j k = true
    · simp only [if_pos hr, zero_div, ite_self, zero_mul]
      exact hasDerivAt_const _ _
    simp only [if_neg hr]
    by_cases h0 : computeProbabilities m {} delta (computeMu T sigma pi) k i = 0
    · rw [if_pos h0, zero_mul]
      have hz : ∀ t, Spec.probabilitiesOf m T sigma pi {} p k i (t, d t) = 0 := fun t => by
        have := (plain_eq_zero_iff m hn _ _ k i ha).mp h0
        exact (plain_eq_zero_iff _ (hnt t) _ _ k i (availNonneg_shift m hm p t i)).mpr this
      simp only [hz, zero_div]
      exact hasDerivAt_const _ _
    · rw [if_neg h0]
      have h1 := hasDerivAt_first m T sigma pi delta p x d hd
      have h2 : HasDerivAt (fun t => 1 - ∑ l with removedWith ids j l = true, Spec.probabilitiesOf m T sigma pi {} p l i (t, d t))
          (-∑ l with removedWith ids j l = true, tangentWith m T sigma pi delta p x l i) 0 :=
        (HasDerivAt.fun_sum fun l _ => h1 l i).const_sub 1
      have hne := (removal_denominator m hn delta (computeMu T sigma pi) ids j i ha).ne'
      have h3 := (h1 k i).fun_div h2 (by
        simp only [probabilitiesOf_start m T sigma pi delta p d hd.1]
        exact hne)
      refine h3.congr_deriv ?_
      simp only [probabilitiesOf_start m T sigma pi delta p d hd.1]
      field_simp
      ring

include hm hd in
lemma hasDerivAt_outsideEliminated (k : J) (i : A) (hi : ∃ j, Offered m {} i j) :
    HasDerivAt (fun t => Spec.probabilitiesOf m T sigma pi { eliminateOutside := true } p k i (t, d t))
      (outsideEliminatedTangent m T sigma pi (computeProbabilities m {} delta (computeMu T sigma pi)) delta p
        (tangentWith m T sigma pi delta p x) x k i) 0 := by
  have ha := hm.availNonneg {} rfl i
  unfold outsideEliminatedTangent
  cases hn : m.nesting with
  | some n =>
    have h := hd.2 { eliminateOutside := true } rfl k i (Or.inr hi)
    have hE : outsideEliminatedProbabilities m (computeProbabilities m {} delta (computeMu T sigma pi)) delta (computeMu T sigma pi) =
        computeProbabilities m { eliminateOutside := true } delta (computeMu T sigma pi) := by
      funext k i
      exact outsideEliminated_eq m delta _ k i (hm.availNonneg {} rfl i)
    simp only [hE]
    exact h
  | none =>
    simp only [outsideEliminated_eq m delta _ _ i ha, outside_plain m hn _ _ _ i ha]
    have hnt : ∀ t, (Spec.shiftMarket p m t).nesting = none := fun t => by unfold Spec.shiftMarket; rw [hn]; rfl
    have hpath : ∀ t, Spec.probabilitiesOf m T sigma pi { eliminateOutside := true } p k i (t, d t) =
        Spec.probabilitiesOf m T sigma pi {} p k i (t, d t) / ∑ l, Spec.probabilitiesOf m T sigma pi {} p l i (t, d t) := fun t =>
      outside_plain _ (hnt t) _ _ k i (availNonneg_shift m hm p t i)
    simp only [hpath]
    by_cases h0 : computeProbabilities m {} delta (computeMu T sigma pi) k i = 0
    · rw [if_pos h0, zero_mul]
      have hz : ∀ t, Spec.probabilitiesOf m T sigma pi {} p k i (t, d t) = 0 := fun t => by
        have := (plain_eq_zero_iff m hn _ _ k i ha).mp h0
        exact (plain_eq_zero_iff _ (hnt t) _ _ k i (availNonneg_shift m hm p t i)).mpr this
      simp only [hz, zero_div]
      exact hasDerivAt_const _ _
    · rw [if_neg h0]
      have h1 := hasDerivAt_first m T sigma pi delta p x d hd
      have h2 : HasDerivAt (fun t => ∑ l, Spec.probabilitiesOf m T sigma pi {} p l i (t, d t))
          (∑ l, tangentWith m T sigma pi delta p x l i) 0 := HasDerivAt.fun_sum fun l _ => h1 l i
      have hne : ∑ l, computeProbabilities m {} delta (computeMu T sigma pi) l i ≠ 0 := by
        obtain ⟨j, hj⟩ := hi
        have hP := C17_probabilities m {} delta (computeMu T sigma pi) i ha hm.regular.rhoBelowOne (Or.inl rfl)
        exact (Finset.sum_pos' (fun l _ => hP.1 l) ⟨j, Finset.mem_univ _, hP.2.1 j hj⟩).ne'
      have h3 := (h1 k i).fun_div h2 (by
        simp only [probabilitiesOf_start m T sigma pi delta p d hd.1]
        exact hne)
      refine h3.congr_deriv ?_
      simp only [probabilitiesOf_start m T sigma pi delta p d hd.1]
      field_simp

include hm hd in
lemma hasDerivAt_cells (ids : Option (J → B)) (c : MicroCell J) (i : A) (hi : (∃ c2, c = .second none c2) → ∃ j, Offered m {} i j) :
    HasDerivAt (fun t => Spec.cellOf m T sigma pi p ids c i (t, d t))
      (cellTangent m T sigma pi (computeProbabilities m {} delta (computeMu T sigma pi)) delta ids p
        (tangentWith m T sigma pi delta p x) x c i) 0 := by
  have h1 := hasDerivAt_first m T sigma pi delta p x d hd
  have hE := hasDerivAt_eliminated m hm T sigma pi delta p x d hd ids
  have hEq : ∀ t j k, eliminatedProbabilities (Spec.shiftMarket p m t)
      (computeProbabilities (Spec.shiftMarket p m t) {} (Spec.shiftDelta p (d t) t)
        (computeMu T (Spec.shiftSigma p sigma t) (Spec.shiftPi p pi t)))
      (Spec.shiftDelta p (d t) t) (computeMu T (Spec.shiftSigma p sigma t) (Spec.shiftPi p pi t)) ids j k i =
      Spec.probabilitiesOf m T sigma pi (removalOptions ids j) p k i (t, d t) := fun t j k =>
    eliminated_eq _ _ _ ids j k i (availNonneg_shift m hm p t i)
  have hOq : ∀ t k, outsideEliminatedProbabilities (Spec.shiftMarket p m t)
      (computeProbabilities (Spec.shiftMarket p m t) {} (Spec.shiftDelta p (d t) t)
        (computeMu T (Spec.shiftSigma p sigma t) (Spec.shiftPi p pi t)))
      (Spec.shiftDelta p (d t) t) (computeMu T (Spec.shiftSigma p sigma t) (Spec.shiftPi p pi t)) k i =
      Spec.probabilitiesOf m T sigma pi { eliminateOutside := true } p k i (t, d t) := fun t k =>
    outsideEliminated_eq _ _ _ k i (availNonneg_shift m hm p t i)
  have hout : HasDerivAt (fun t => 1 - ∑ j, Spec.probabilitiesOf m T sigma pi {} p j i (t, d t))
      (-∑ j, tangentWith m T sigma pi delta p x j i) 0 := (HasDerivAt.fun_sum fun j _ => h1 j i).const_sub 1
  unfold Spec.cellOf cellProbability cellTangent microProduct
  simp only [hEq, hOq]
  cases c with
  | first c =>
    cases c with
    | some j => exact h1 j i
    | none => exact hout
  | second c c2 =>
    cases c with
    | some j =>
      cases c2 with
      | some k =>
        by_cases hjk : j = k
        · simp only [if_pos hjk]
          exact hasDerivAt_const _ _
        · simp only [if_neg hjk]
          exact (hE j k i).fun_sub (h1 k i)
      | none => exact ((HasDerivAt.fun_sum fun k _ => hE j k i).const_sub 1).fun_sub hout
    | none =>
      cases c2 with
      | some k =>
        exact (hasDerivAt_outsideEliminated m hm T sigma pi delta p x d hd k i (hi ⟨_, rfl⟩)).fun_sub (h1 k i)
      | none => exact hasDerivAt_const _ _

end

section

variable (m : Market J A G) (hm : WellFormed m) (T : Tastes J A K2 N D) (sigma : K2 → N → ℝ) (pi : K2 → D → ℝ)
  (delta : J → ℝ) (p : TangentParam J G K2 N D) (hp : Spec.Fits p m)
  (hw : ∀ i, 0 ≤ m.weights i) (hoff : ∀ j, ∃ i, 0 < m.weights i ∧ Offered m {} i j)
  (hint : RhoInterior m p) (inverse : J → J → ℝ)
  (hinverse : ∀ j l, ∑ k, inverse j k * sharesByXiJacobian m (computeShares m {} delta (computeMu T sigma pi))
    (computeProbabilities m {} delta (computeMu T sigma pi)) (computeConditionals m {} delta (computeMu T sigma pi)) k l =
    if j = l then 1 else 0) (d : ℝ → J → ℝ) (hd : SolvesNear m T sigma pi true delta p d)

/-- The column of the Jacobian of unobserved characteristics that the code computes. -/
noncomputable def xiColumn : J → ℝ :=
  xiByTheta m inverse (probabilitiesTangent m T sigma pi {} delta (computeProbabilities m {} delta (computeMu T sigma pi))
    (computeConditionals m {} delta (computeMu T sigma pi)) p).1

/-- Derivatives of probabilities that the code computes, with the contribution of unobserved characteristics. -/
noncomputable def totalTangent : J → A → ℝ :=
  tangentWith m T sigma pi delta p (xiColumn m T sigma pi delta p inverse)

include hm hp hw hoff hint hinverse hd in
lemma movesWith_solution : MovesWith m T sigma pi delta p (xiColumn m T sigma pi delta p inverse) d :=
  ⟨hd.1, fun o ho j i hset =>
    C84_total_probabilities_options m hm T sigma pi true delta p hp hw hoff hint inverse hinverse d hd o ho j i hset⟩

include hm hp hw hoff hint hinverse hd in
/-- **C82.** When a parameter changes, and unobserved characteristics with it so that market shares stay fixed, the derivative of what the
weight of any first choice, or of any pair of first and second choices, is multiplied by is what the code computes: with or without nesting,
and with products removed one by one or by ID. -/
theorem C82_cells (ids : Option (J → B)) (c : MicroCell J) (i : A) (hi : (∃ c2, c = .second none c2) → ∃ j, Offered m {} i j) :
    HasDerivAt (fun t => Spec.cellOf m T sigma pi p ids c i (t, d t))
      (cellTangent m T sigma pi (computeProbabilities m {} delta (computeMu T sigma pi)) delta ids p
        (totalTangent m T sigma pi delta p inverse) (xiColumn m T sigma pi delta p inverse) c i) 0 :=
  hasDerivAt_cells m hm T sigma pi delta p _ d
    (movesWith_solution m hm T sigma pi delta p hp hw hoff hint inverse hinverse d hd) ids c i hi

include hm hp hint in
/-- The market stays well-formed if a parameter changes a little. -/
lemma wellFormed_near : ∀ᶠ t in nhds (0 : ℝ), WellFormed (Spec.shiftMarket p m t) := by
  filter_upwards [regular_near m hm p hp hint] with t ht
  refine ⟨ht, fun h => ?_, hm.avail⟩
  refine hm.scale fun hn => h ?_
  unfold Spec.shiftMarket
  rw [hn]
  rfl

lemma offered_shift (t : ℝ) (i : A) (h : ∃ j, Offered m {} i j) : ∃ j, Offered (Spec.shiftMarket p m t) {} i j := h

include hm hp hw hoff hint hinverse hd in
/-- Derivatives add up over second choices, as probabilities do. -/
lemma tangent_sum (c : Option J) (i : A) (hi : ∃ j, Offered m {} i j) :
    ∑ c2, cellTangent m T sigma pi (computeProbabilities m {} delta (computeMu T sigma pi)) delta (none : Option (J → B)) p
        (totalTangent m T sigma pi delta p inverse) (xiColumn m T sigma pi delta p inverse) (.second c c2) i =
      cellTangent m T sigma pi (computeProbabilities m {} delta (computeMu T sigma pi)) delta (none : Option (J → B)) p
        (totalTangent m T sigma pi delta p inverse) (xiColumn m T sigma pi delta p inverse) (.first c) i := by
  have h1 : HasDerivAt (fun t => ∑ c2, Spec.cellOf m T sigma pi p (none : Option (J → B)) (.second c c2) i (t, d t)) _ 0 :=
    HasDerivAt.fun_sum fun c2 _ => C82_cells m hm T sigma pi delta p hp hw hoff hint inverse hinverse d hd none (.second c c2) i
      fun _ => hi
  have h2 := C82_cells m hm T sigma pi delta p hp hw hoff hint inverse hinverse d hd (none : Option (J → B)) (.first c) i fun _ => hi
  refine h1.unique (h2.congr_of_eventuallyEq ?_)
  filter_upwards [wellFormed_near m hm p hp hint] with t ht
  unfold Spec.cellOf
  rw [C81_sum _ _ _ _ _ (ht.availNonneg {} rfl i) ht.regular.rhoBelowOne fun _ => offered_shift m p t i hi,
    C81_first _ _ _ _ _ _ (ht.availNonneg {} rfl i) ht.regular.rhoBelowOne]

include hm hp hw hoff hint hinverse in
/-- Derivatives of probabilities of first choices integrate to zero. -/
lemma tangent_integral (ids : Option (J → B)) (c : Option J) :
    ∑ i, m.weights i * cellTangent m T sigma pi (computeProbabilities m {} delta (computeMu T sigma pi)) delta ids p
      (totalTangent m T sigma pi delta p inverse) (xiColumn m T sigma pi delta p inverse) (.first c) i = 0 := by
  have h : ∀ j, ∑ i, m.weights i * totalTangent m T sigma pi delta p inverse j i = 0 := fun j => by
    rw [Finset.sum_congr rfl fun i _ => mul_comm (m.weights i) _]
    exact C84_total_shares m hm T sigma pi true delta p hp hw hoff hint inverse hinverse j
  unfold cellTangent microProduct
  cases c with
  | some j => exact h j
  | none =>
    simp only [mul_neg, Finset.sum_neg_distrib, Finset.mul_sum]
    rw [Finset.sum_comm, Finset.sum_eq_zero fun j _ => h j, neg_zero]

end

/-! ## Datasets -/

lemma hasDerivAt_sumRows {C R : Type} (cells : Finset C) (f : ℝ → ℕ → R → C → ℝ) (f' : ℕ → R → C → ℝ) (rows : List R)
    (h : ∀ i, ∀ r ∈ rows, ∀ c ∈ cells, HasDerivAt (fun t => f t i r c) (f' i r c) 0) (indices : List ℕ) :
    HasDerivAt (fun t => sumRows cells (List.zipWith (f t) indices rows)) (sumRows cells (List.zipWith f' indices rows)) 0 := by
  induction indices generalizing rows with
  | nil => simpa [sumRows] using hasDerivAt_const (0 : ℝ) (0 : ℝ)
  | cons i indices ih =>
    cases rows with
    | nil => simpa [sumRows] using hasDerivAt_const (0 : ℝ) (0 : ℝ)
    | cons r rows =>
      have h1 := ih rows fun i r hr => h i r (List.mem_cons_of_mem _ hr)
      have h2 : HasDerivAt (fun t => ∑ c ∈ cells, f t i r c) (∑ c ∈ cells, f' i r c) 0 :=
        HasDerivAt.fun_sum fun c hc => h i r List.mem_cons_self c hc
      have h3 := h2.fun_add h1
      simp only [sumRows, List.zipWith_cons_cons, List.map_cons, List.sum_cons] at h3 ⊢
      exact h3

lemma sumRows_constant {C : Type} (cells : Finset C) (r0 : C → ℝ) (g : ℕ → C → ℝ) (rows : List (C → ℝ))
    (h : ∀ r ∈ rows, ∀ c ∈ cells, r c = r0 c) (indices : List ℕ) (hlen : rows.length = indices.length) :
    sumRows cells (List.zipWith (fun i r c => r c * g i c) indices rows) = (indices.map fun i => ∑ c ∈ cells, r0 c * g i c).sum := by
  induction indices generalizing rows with
  | nil => simp [sumRows]
  | cons i indices ih =>
    cases rows with
    | nil => simp at hlen
    | cons r rows =>
      have h1 := ih rows (fun r hr => h r (List.mem_cons_of_mem _ hr)) (by simpa using hlen)
      simp only [sumRows, List.zipWith_cons_cons, List.map_cons, List.sum_cons] at h1 ⊢
      rw [h1, Finset.sum_congr rfl fun c hc => by rw [h r List.mem_cons_self c hc]]

section

variable {Ds Q P : Type} (m : Market J A G) (hm : WellFormed m) (T : Tastes J A K2 N D) (sigma : K2 → N → ℝ) (pi : K2 → D → ℝ)
  (delta : J → ℝ) (param : Q → TangentParam J G K2 N D) (q : Q) (hp : Spec.Fits (param q) m)
  (hw : ∀ i, 0 ≤ m.weights i) (hoff : ∀ j, ∃ i, 0 < m.weights i ∧ Offered m {} i j) (hsome : ∀ i, ∃ j, Offered m {} i j)
  (hint : RhoInterior m (param q)) (inverse : J → J → ℝ)
  (hinverse : ∀ j l, ∑ k, inverse j k * sharesByXiJacobian m (computeShares m {} delta (computeMu T sigma pi))
    (computeProbabilities m {} delta (computeMu T sigma pi)) (computeConditionals m {} delta (computeMu T sigma pi)) k l =
    if j = l then 1 else 0) (d : ℝ → J → ℝ) (hd : SolvesNear m T sigma pi true delta (param q) d)
  (I : ℕ) (agent : ℕ → A) (included : Ds → Bool) (ids : Ds → Option (J → B)) (u : MicroFunctions A MicroShape (MicroCell J) Ds P)

/-- The market as seen by the code that computes micro moments, with the derivatives that it computes for all parameters. -/
noncomputable def observedMarket : MicroMarket A MicroShape (MicroCell J) Ds Q :=
  microMarket m T sigma pi delta I agent included ids param (fun q => totalTangent m T sigma pi delta (param q) inverse)
    (fun q => xiColumn m T sigma pi delta (param q) inverse)

/-- The same market after parameter `p` is increased by `t` and mean utilities have become `x`. -/
noncomputable def Spec.movedMarket (p : TangentParam J G K2 N D) (t : ℝ) (x : J → ℝ) : MicroMarket A MicroShape (MicroCell J) Ds Q :=
  observedMarket (Spec.shiftMarket p m t) T (Spec.shiftSigma p sigma t) (Spec.shiftPi p pi t) (Spec.shiftDelta p x t) param inverse I agent
    included ids

lemma observedMarket_row : (observedMarket m T sigma pi delta param inverse I agent included ids).row = agent := rfl

lemma observedMarket_cells : (observedMarket m T sigma pi delta param inverse I agent included ids).cells = MicroShape.cells := rfl

lemma movedMarket_row (p : TangentParam J G K2 N D) (t : ℝ) (x : J → ℝ) :
    (Spec.movedMarket m T sigma pi param inverse I agent included ids p t x).row = agent := rfl

lemma movedMarket_cells (p : TangentParam J G K2 N D) (t : ℝ) (x : J → ℝ) :
    (Spec.movedMarket m T sigma pi param inverse I agent included ids p t x).cells = MicroShape.cells := rfl

lemma datasetContributions_ok {R S C : Type} {mm : MicroMarket R S C Ds Q} {u : MicroFunctions R S C Ds P} {ds : Ds}
    {indices : List ℕ} {chunk : DatasetChunk S C Q} (h : datasetContributions mm u ds indices = .ok chunk) :
    ∃ w, u.weights ds (indices.map mm.row) = some w ∧ w.rows.length = indices.length ∧
      (∀ r ∈ w.rows, ∀ c ∈ mm.cells w.shape, 0 ≤ r c) ∧
      chunk = {
        shape := w.shape
        weights := List.zipWith (fun i r c => max (r c * mm.factor ds i c) 0) indices w.rows
        tangents := fun q => List.zipWith (fun i r c => r c * mm.tangent ds q i c) indices w.rows
        denominator := sumRows (mm.cells w.shape) (List.zipWith (fun i r c => max (r c * mm.factor ds i c) 0) indices w.rows)
        denominatorTangent := fun q => if constantDenominator mm w then 0 else
          sumRows (mm.cells w.shape) (List.zipWith (fun i r c => r c * mm.tangent ds q i c) indices w.rows) } := by
  unfold datasetContributions computeMicroWeights at h
  cases hu : u.weights ds (indices.map mm.row) with
  | none => simp [hu] at h
  | some w =>
    simp only [hu] at h
    by_cases hlen : w.rows.length ≠ indices.length
    · simp [hlen] at h
    simp only [if_neg hlen] at h
    by_cases hneg : ∃ r ∈ w.rows, ∃ c ∈ mm.cells w.shape, r c < 0
    · simp only [if_pos hneg] at h
      cases h
    simp only [if_neg hneg, Except.ok.injEq] at h
    push Not at hneg hlen
    exact ⟨w, rfl, hlen, hneg, h.symm⟩

lemma datasetContributions_of {R S C : Type} (mm : MicroMarket R S C Ds Q) (u : MicroFunctions R S C Ds P) (ds : Ds)
    (indices : List ℕ) (w : UserArray S C) (hu : u.weights ds (indices.map mm.row) = some w) (hlen : w.rows.length = indices.length)
    (hneg : ∀ r ∈ w.rows, ∀ c ∈ mm.cells w.shape, 0 ≤ r c) :
    datasetContributions mm u ds indices = .ok {
        shape := w.shape
        weights := List.zipWith (fun i r c => max (r c * mm.factor ds i c) 0) indices w.rows
        tangents := fun q => List.zipWith (fun i r c => r c * mm.tangent ds q i c) indices w.rows
        denominator := sumRows (mm.cells w.shape) (List.zipWith (fun i r c => max (r c * mm.factor ds i c) 0) indices w.rows)
        denominatorTangent := fun q => if constantDenominator mm w then 0 else
          sumRows (mm.cells w.shape) (List.zipWith (fun i r c => r c * mm.tangent ds q i c) indices w.rows) } := by
  unfold datasetContributions computeMicroWeights
  have h1 : ¬w.rows.length ≠ indices.length := not_not.mpr hlen
  have h2 : ¬∃ r ∈ w.rows, ∃ c ∈ mm.cells w.shape, r c < 0 := by
    push Not
    exact hneg
  simp only [hu, if_neg h1, if_neg h2]

include hm hp hint in
lemma cellOf_nonneg_near (hsome : ∀ i, ∃ j, Offered m {} i j) : ∀ᶠ t in nhds (0 : ℝ), ∀ (c : MicroCell J) (i : A),
    0 ≤ Spec.cellOf m T sigma pi (param q) (none : Option (J → B)) c i (t, d t) := by
  filter_upwards [wellFormed_near m hm (param q) hp hint] with t ht c i
  unfold Spec.cellOf
  have hleft : ∀ c, Spec.SomethingLeft (Spec.shiftMarket (param q) m t) i c := fun c _ => offered_shift m (param q) t i (hsome i)
  cases c with
  | first c =>
    rw [C81_first _ _ _ _ c _ (ht.availNonneg {} rfl i) ht.regular.rhoBelowOne,
      ← C81_sum (B := B) _ _ _ c _ (ht.availNonneg {} rfl i) ht.regular.rhoBelowOne (hleft c)]
    exact Finset.sum_nonneg fun c2 _ => C81_nonneg _ ht _ _ c c2 _ (hleft c)
  | second c c2 => exact C81_nonneg _ ht _ _ c c2 _ (hleft c)

include hm hp hw hoff hsome hint hinverse hd in
lemma hasDerivAt_contribution (ds : Ds) (hids : ids ds = none) (i : ℕ) (r : MicroCell J → ℝ) (c : MicroCell J) (hr : 0 ≤ r c) :
    HasDerivAt (fun t => max (r c *
        (Spec.movedMarket m T sigma pi param inverse I agent included ids (param q) t (d t)).factor ds i c) 0)
      (r c * (observedMarket m T sigma pi delta param inverse I agent included ids).tangent ds q i c) 0 := by
  have h1 := C82_cells m hm T sigma pi delta (param q) hp hw hoff hint inverse hinverse d hd (none : Option (J → B)) c (agent i)
    fun _ => hsome _
  have hf : ∀ t, (Spec.movedMarket m T sigma pi param inverse I agent included ids (param q) t (d t)).factor ds i c =
      m.weights (agent i) * Spec.cellOf m T sigma pi (param q) (none : Option (J → B)) c (agent i) (t, d t) := fun t => by
    unfold Spec.movedMarket observedMarket microMarket Spec.cellOf
    simp only [hids]
    rfl
  have ht : (observedMarket m T sigma pi delta param inverse I agent included ids).tangent ds q i c = m.weights (agent i) *
      cellTangent m T sigma pi (computeProbabilities m {} delta (computeMu T sigma pi)) delta (none : Option (J → B)) (param q)
        (totalTangent m T sigma pi delta (param q) inverse) (xiColumn m T sigma pi delta (param q) inverse) c (agent i) := by
    unfold observedMarket microMarket
    simp only [hids]
  rw [ht]
  simp only [hf]
  refine ((h1.const_mul (m.weights (agent i))).const_mul (r c)).congr_of_eventuallyEq ?_
  filter_upwards [cellOf_nonneg_near (B := B) m hm T sigma pi param q hp hint d hsome] with t hn
  exact max_eq_left (mul_nonneg hr (mul_nonneg (hw _) (hn c _)))

include hm hp hw hoff hsome hint hinverse hd in
/-- **C82.** In a dataset in which products are not removed by ID, what the code computes for each agent and choice as the derivative of a
contribution is its derivative. (Contributions are truncated from below by zero and derivatives are not, but this has no effect.) -/
theorem C82_weights_partial (ds : Ds) (hids : ids ds = none) (indices : List ℕ) (chunk : DatasetChunk MicroShape (MicroCell J) Q)
    (h : datasetContributions (observedMarket m T sigma pi delta param inverse I agent included ids) u ds indices = .ok chunk) :
    ∃ moved : ℝ → DatasetChunk MicroShape (MicroCell J) Q,
      (∀ t, datasetContributions (Spec.movedMarket m T sigma pi param inverse I agent included ids (param q) t (d t)) u ds indices =
        .ok (moved t)) ∧
      (chunk.tangents q).length = indices.length ∧
      ∀ (n : ℕ) (tangents : MicroCell J → ℝ), (chunk.tangents q)[n]? = some tangents → ∀ c ∈ chunk.shape.cells,
        HasDerivAt (fun t => (moved t).weights.getD n (fun _ => 0) c) (tangents c) 0 := by
  obtain ⟨w, hu, hlen, hneg, rfl⟩ := datasetContributions_ok h
  rw [observedMarket_row] at hu
  rw [observedMarket_cells] at hneg
  refine ⟨_, fun t => datasetContributions_of _ u ds indices w (by rw [movedMarket_row]; exact hu) hlen
    (by rw [movedMarket_cells]; exact hneg), by simp [hlen], fun n tangents hn c hc => ?_⟩
  rw [List.getElem?_zipWith] at hn
  cases hi : indices[n]? with
  | none => simp [hi] at hn
  | some i =>
    cases hr : w.rows[n]? with
    | none => simp [hi, hr] at hn
    | some r =>
      simp only [hi, hr, Option.some.injEq] at hn
      subst hn
      have h1 := hasDerivAt_contribution m hm T sigma pi delta param q hp hw hoff hsome hint inverse hinverse d hd I agent included ids ds
        hids i r c (hneg r (List.mem_of_getElem? hr) c hc)
      refine h1.congr_of_eventuallyEq (Filter.Eventually.of_forall fun t => ?_)
      simp only [List.getD_eq_getElem?_getD, List.getElem?_zipWith, hi, hr, Option.getD_some]

include hm hp hw hoff hsome hint hinverse hd in
/-- **C82.** If contributions are computed for all agents at once, then the derivative of the denominator of a dataset in which products are
not removed by ID is what the code computes, also when it takes it to be zero because weights are the same for all agents (and for all
second choices). -/
theorem C82_denominator_partial (ds : Ds) (hids : ids ds = none) (indices : List ℕ)
    (hall : ((indices.map agent : List A) : Multiset A) = Finset.univ.val) (chunk : DatasetChunk MicroShape (MicroCell J) Q)
    (h : datasetContributions (observedMarket m T sigma pi delta param inverse I agent included ids) u ds indices = .ok chunk) :
    ∃ moved : ℝ → DatasetChunk MicroShape (MicroCell J) Q,
      (∀ t, datasetContributions (Spec.movedMarket m T sigma pi param inverse I agent included ids (param q) t (d t)) u ds indices =
        .ok (moved t)) ∧ HasDerivAt (fun t => (moved t).denominator) (chunk.denominatorTangent q) 0 := by
  obtain ⟨w, hu, hlen, hneg, rfl⟩ := datasetContributions_ok h
  rw [observedMarket_row] at hu
  rw [observedMarket_cells] at hneg
  refine ⟨_, fun t => datasetContributions_of _ u ds indices w (by rw [movedMarket_row]; exact hu) hlen
    (by rw [movedMarket_cells]; exact hneg), ?_⟩
  have h1 := hasDerivAt_sumRows (MicroShape.cells w.shape)
    (fun t i r c => max (r c * (Spec.movedMarket m T sigma pi param inverse I agent included ids (param q) t (d t)).factor ds i c) 0)
    (fun i r c => r c * (observedMarket m T sigma pi delta param inverse I agent included ids).tangent ds q i c) w.rows
    (fun i r hr c hc => hasDerivAt_contribution m hm T sigma pi delta param q hp hw hoff hsome hint inverse hinverse d hd I agent included
      ids ds hids i r c (hneg r hr c hc)) indices
  refine h1.congr_deriv ?_
  simp only []
  by_cases hconst : constantDenominator (observedMarket m T sigma pi delta param inverse I agent included ids) w = true
  swap
  · rw [if_neg hconst]
    rfl
  rw [if_pos hconst]
  unfold constantDenominator at hconst
  simp only [decide_eq_true_eq] at hconst
  cases hrows : w.rows with
  | nil => simp [sumRows]
  | cons r0 rest =>
    have hsame : ∀ r ∈ w.rows, ∀ c ∈ w.shape.cells, r c = r0 c := fun r hr c hc => hconst.1 r hr r0 (by rw [hrows]; rfl) c hc
    have hflat := hconst.2 r0 (by rw [hrows]; exact List.mem_cons_self)
    rw [← hrows, sumRows_constant w.shape.cells r0 _ w.rows hsame indices hlen]
    have ht : ∀ i c, (observedMarket m T sigma pi delta param inverse I agent included ids).tangent ds q i c = m.weights (agent i) *
        cellTangent m T sigma pi (computeProbabilities m {} delta (computeMu T sigma pi)) delta (none : Option (J → B)) (param q)
          (totalTangent m T sigma pi delta (param q) inverse) (xiColumn m T sigma pi delta (param q) inverse) c (agent i) := fun i c => by
      unfold observedMarket microMarket
      simp only [hids]
    simp only [ht]
    set F := cellTangent m T sigma pi (computeProbabilities m {} delta (computeMu T sigma pi)) delta (none : Option (J → B)) (param q)
          (totalTangent m T sigma pi delta (param q) inverse) (xiColumn m T sigma pi delta (param q) inverse) with hF
    have hsum : (indices.map fun i => ∑ c ∈ w.shape.cells, r0 c * (m.weights (agent i) * F c (agent i))).sum =
        ∑ a, ∑ c ∈ w.shape.cells, r0 c * (m.weights a * F c a) := by
      have h2 : (indices.map fun i => ∑ c ∈ w.shape.cells, r0 c * (m.weights (agent i) * F c (agent i))) =
          (indices.map agent).map fun a => ∑ c ∈ w.shape.cells, r0 c * (m.weights a * F c a) := by
        rw [List.map_map]
        rfl
      rw [h2, ← Multiset.sum_coe, ← Multiset.map_coe, hall]
      rfl
    rw [hsum, Finset.sum_comm]
    have hzero := tangent_integral m hm T sigma pi delta (param q) hp hw hoff hint inverse hinverse (none : Option (J → B))
    have hadd := fun c a => tangent_sum (B := B) m hm T sigma pi delta (param q) hp hw hoff hint inverse hinverse d hd c a (hsome a)
    rw [← hF] at hzero hadd
    cases hs : w.shape with
    | first o =>
      refine Finset.sum_eq_zero fun c hc => ?_
      obtain ⟨c', _, rfl⟩ := Finset.mem_image.mp hc
      rw [← Finset.mul_sum, hzero, mul_zero]
    | second o o2 =>
      rw [hs] at hflat
      simp only [observedMarket, microMarket, Bool.and_eq_true, decide_eq_true_eq] at hflat
      obtain ⟨ho2, hfl⟩ := hflat
      subst ho2
      have hcells : (MicroShape.second o true).cells (J := J) = (choices o ×ˢ (Finset.univ : Finset (Option J))).image
          fun c => .second c.1 c.2 := rfl
      rw [hcells, Finset.sum_image (by
        rintro ⟨a, b⟩ _ ⟨a', b'⟩ _ hab
        simp only [MicroCell.second.injEq] at hab
        rw [hab.1, hab.2]), Finset.sum_product]
      refine Finset.sum_eq_zero fun c hc => ?_
      rw [Finset.sum_comm]
      have h3 : ∀ a, ∑ c2, r0 (.second c c2) * (m.weights a * F (.second c c2) a) =
          r0 (.second c none) * (m.weights a * F (.first c) a) := fun a => by
        rw [← hadd c a, Finset.mul_sum, Finset.mul_sum]
        refine Finset.sum_congr rfl fun c2 _ => ?_
        rw [hfl c hc c2]
      simp only [h3]
      rw [← Finset.mul_sum, hzero, mul_zero]

end

/-- Non-vacuity of C82: two nests with different nesting parameters, agents with different choice sets, and a survey that asks everyone for
both choices. Contributions can be computed, and all other hypotheses hold. -/
example (sigma : Fin 2 → Fin 2 → ℝ) (pi : Fin 2 → Fin 1 → ℝ) (delta : Fin 3 → ℝ) :
    let param : Unit → TangentParam (Fin 3) (Fin 2) (Fin 2) (Fin 2) (Fin 1) := fun _ => .rhoOne (some 1)
    let u : MicroFunctions (Fin 2) MicroShape (MicroCell (Fin 3)) Unit Unit :=
      { weights := fun _ agents => some ⟨.second true true, agents.map fun _ _ => 1⟩, values := fun _ _ => none }
    let agent : ℕ → Fin 2 := fun i => if i = 0 then 0 else 1
    ∃ inverse d chunk, SolvesNear exampleMarket exampleTastes sigma pi true delta (param ()) d ∧
      datasetContributions (observedMarket exampleMarket exampleTastes sigma pi delta param inverse 2 agent (fun _ => true)
        (fun _ => (none : Option (Fin 3 → Unit)))) u () [0, 1] = .ok chunk ∧
      ∃ moved : ℝ → DatasetChunk MicroShape (MicroCell (Fin 3)) Unit,
        (∀ t, datasetContributions (Spec.movedMarket exampleMarket exampleTastes sigma pi param inverse 2 agent (fun _ => true)
          (fun _ => (none : Option (Fin 3 → Unit))) (param ()) t (d t)) u () [0, 1] = .ok (moved t)) ∧
        HasDerivAt (fun t => (moved t).denominator) (chunk.denominatorTangent ()) 0 := by
  intro param u agent
  have hp : Spec.Fits (param ()) exampleMarket := by
    intro n hn; simp only [exampleMarket, Option.some.injEq] at hn; subst hn; trivial
  have hw : ∀ i, 0 ≤ exampleMarket.weights i := by
    intro i; fin_cases i <;> (simp [exampleMarket]; try norm_num)
  have hint : RhoInterior exampleMarket (param ()) := by
    intro n hn g _
    simp only [exampleMarket, Option.some.injEq] at hn
    subst hn
    fin_cases g <;> simp [RhoParam.groupRho]
  have hsome : ∀ i, ∃ j, Offered exampleMarket {} i j := fun i =>
    ⟨0, by simp, rfl, by intro a h; simp [exampleMarket] at h; subst h; fin_cases i <;> simp⟩
  obtain ⟨d, hd, -⟩ := C84_exists exampleMarket exampleMarket_wellFormed exampleTastes sigma pi true delta (param ()) hp hw
    exampleMarket_offered
  set M := Matrix.of (sharesByXiJacobian exampleMarket (computeShares exampleMarket {} delta (computeMu exampleTastes sigma pi))
      (computeProbabilities exampleMarket {} delta (computeMu exampleTastes sigma pi))
      (computeConditionals exampleMarket {} delta (computeMu exampleTastes sigma pi))) with hM
  have hdet : IsUnit M.det :=
    isUnit_iff_ne_zero.mpr (C84_nonsingular exampleMarket exampleMarket_wellFormed true delta _ hw exampleMarket_offered)
  have hinverse : ∀ j l, ∑ k, M⁻¹ j k * sharesByXiJacobian exampleMarket
      (computeShares exampleMarket {} delta (computeMu exampleTastes sigma pi))
      (computeProbabilities exampleMarket {} delta (computeMu exampleTastes sigma pi))
      (computeConditionals exampleMarket {} delta (computeMu exampleTastes sigma pi)) k l = if j = l then 1 else 0 := fun j l => by
    have := congrFun (congrFun (Matrix.nonsing_inv_mul M hdet) j) l
    rw [Matrix.mul_apply, Matrix.one_apply] at this
    exact this
  have hall : (([0, 1].map agent : List (Fin 2)) : Multiset (Fin 2)) = Finset.univ.val := by
    simp only [agent, List.map_cons, List.map_nil, if_true, one_ne_zero, if_false]
    decide
  have hok := datasetContributions_of (observedMarket exampleMarket exampleTastes sigma pi delta param (fun j k => M⁻¹ j k) 2 agent
    (fun _ => true) (fun _ => (none : Option (Fin 3 → Unit)))) u () [0, 1] ⟨.second true true, [fun _ => 1, fun _ => 1]⟩ rfl rfl (by
      intro r hr c _
      simp only [List.mem_cons, List.not_mem_nil, or_false, or_self] at hr
      subst hr
      exact zero_le_one)
  exact ⟨_, d, _, hd, hok, C82_denominator_partial exampleMarket exampleMarket_wellFormed exampleTastes sigma pi delta param () hp hw
    exampleMarket_offered hsome hint _ hinverse d hd 2 agent (fun _ => true) (fun _ => none) u () rfl [0, 1] hall _ hok⟩

/-! ### Products removed by ID -/

/-- Two products and two agents without nesting. -/
noncomputable def twoAgents : Market (Fin 2) (Fin 2) Unit where
  nesting := none
  epsilonScale := 1
  weights := fun _ => 1 / 2
  availability := none

/-- A random coefficient on a constant, with opposite draws for the two agents. -/
noncomputable def oppositeTastes : Tastes (Fin 2) (Fin 2) Unit Unit Unit where
  X2 := fun _ _ => 1
  nodes := fun i _ => if i = 0 then 1 else -1
  demographics := fun _ _ _ => 0
  rcType := fun _ => .linear

lemma twoAgents_wellFormed : WellFormed twoAgents where
  regular := { rho := by intro n hn; simp [twoAgents] at hn, eps := one_pos }
  scale := fun _ => rfl
  avail := by intro a h; simp [twoAgents] at h

/-- **C82** does not hold when products are removed by ID: the contribution of a first and a second choice that are removed together is
truncated to zero whatever parameters are, but what the code computes as its derivative is not zero. Here both products have the
same ID. -/
theorem C82_groups_refuted : ∃ (m : Market (Fin 2) (Fin 2) Unit) (T : Tastes (Fin 2) (Fin 2) Unit Unit Unit) (sigma pi : Unit → Unit → ℝ)
    (delta : Fin 2 → ℝ) (p : TangentParam (Fin 2) Unit Unit Unit Unit) (id : Fin 2 → Unit),
    WellFormed m ∧ (∀ i, 0 ≤ m.weights i) ∧
    (∀ x, max (m.weights 0 * Spec.cellOf m T sigma pi p (some id) (.second (some 0) (some 1)) 0 x) 0 = 0) ∧
    ∀ inverse, m.weights 0 * cellTangent m T sigma pi (computeProbabilities m {} delta (computeMu T sigma pi)) delta (some id) p
      (totalTangent m T sigma pi delta p inverse) (xiColumn m T sigma pi delta p inverse) (.second (some 0) (some 1)) 0 ≠ 0 := by
  refine ⟨twoAgents, oppositeTastes, fun _ _ => 0, fun _ _ => 0, fun _ => 0, .sigma () (), fun _ => (), twoAgents_wellFormed,
    fun i => by simp [twoAgents], fun x => ?_, fun inverse => ?_⟩
  · refine max_eq_right (mul_nonpos_of_nonneg_of_nonpos (by simp [twoAgents]) ?_)
    have ha := availNonneg_shift twoAgents twoAgents_wellFormed (.sigma () () : TangentParam (Fin 2) Unit Unit Unit Unit) x.1 0
    have hn : (Spec.shiftMarket (.sigma () () : TangentParam (Fin 2) Unit Unit Unit Unit) twoAgents x.1).nesting = none := rfl
    unfold Spec.cellOf cellProbability microProduct
    simp only [eliminated_eq _ _ _ (some fun _ : Fin 2 => ()) 0 _ 0 ha, removal_plain _ hn _ _ _ _ _ _ ha]
    simp only [removedWith, decide_true, if_true, zero_sub]
    rw [if_neg (by decide)]
    have := (C17_probabilities _ {} (Spec.shiftDelta (.sigma () () : TangentParam (Fin 2) Unit Unit Unit Unit) x.2 x.1)
      (computeMu oppositeTastes (Spec.shiftSigma (.sigma () () : TangentParam (Fin 2) Unit Unit Unit Unit) (fun _ _ => 0) x.1)
        (Spec.shiftPi (.sigma () () : TangentParam (Fin 2) Unit Unit Unit Unit) (fun _ _ => 0) x.1)) 0 ha
      (fun n h => by rw [hn] at h; cases h) (Or.inl rfl)).1 1
    linarith
  · have hP : ∀ j i, computeProbabilities twoAgents {} (fun _ => 0) (computeMu oppositeTastes (fun _ _ => 0) (fun _ _ => 0)) j i = 1 / 3 := by
      intro j i
      rw [computeProbabilities_plain twoAgents _ _ _ rfl]
      simp [Spec.logit, multiplier, twoAgents, computeMu, randomCoefficient, coefficientIndex, oppositeTastes, transformCoefficient]
      norm_num
    have ht : ∀ j i, (probabilitiesTangent twoAgents oppositeTastes (fun _ _ => 0) (fun _ _ => 0) {} (fun _ => 0)
        (computeProbabilities twoAgents {} (fun _ => 0) (computeMu oppositeTastes (fun _ _ => 0) (fun _ _ => 0)))
        (computeConditionals twoAgents {} (fun _ => 0) (computeMu oppositeTastes (fun _ _ => 0) (fun _ _ => 0)))
        (.sigma () () : TangentParam (Fin 2) Unit Unit Unit Unit)).1 j i = (if i = 0 then 1 else -1) / 9 := by
      intro j i
      unfold probabilitiesTangent
      have hn : twoAgents.nesting = none := rfl
      simp only [hn]
      unfold plainTangent
      simp only [hP]
      simp [twoAgents, utilityTangent, coefficientTangent, oppositeTastes]
      split_ifs <;> norm_num
    have hx : xiColumn twoAgents oppositeTastes (fun _ _ => 0) (fun _ _ => 0) (fun _ => 0)
        (.sigma () () : TangentParam (Fin 2) Unit Unit Unit Unit) inverse = fun _ => 0 := by
      funext j
      unfold xiColumn xiByTheta sharesByTheta
      simp only [ht]
      simp [twoAgents, Fin.sum_univ_two]
      norm_num
    have htot : totalTangent twoAgents oppositeTastes (fun _ _ => 0) (fun _ _ => 0) (fun _ => 0)
        (.sigma () () : TangentParam (Fin 2) Unit Unit Unit Unit) inverse 1 0 = 1 / 9 := by
      unfold totalTangent tangentWith updateTangent
      simp only [hx, ht]
      simp
    have hn : twoAgents.nesting = none := rfl
    unfold cellTangent microProduct eliminatedTangent
    simp only [hn, eliminated_eq _ _ _ (some fun _ : Fin 2 => ()) 0 _ 0 (twoAgents_wellFormed.availNonneg {} rfl 0),
      removal_plain _ hn _ _ _ _ _ _ (twoAgents_wellFormed.availNonneg {} rfl 0), htot]
    simp only [removedWith, decide_true, if_true, zero_div, ite_self, zero_mul, zero_sub]
    rw [if_neg (by decide)]
    simp [twoAgents]

end Pyblp
