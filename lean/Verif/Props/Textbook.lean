import Verif.Props.LogitPricing

/-!
# C126: special cases agree with textbook formulas
-/

set_option linter.unusedSectionVars false

namespace Pyblp

open Finset

variable {J A G K1 K2 : Type} [Fintype J] [DecidableEq J] [Nonempty J] [Fintype G] [DecidableEq G] [Fintype A]
  [Fintype K1] [Fintype K2] [IsEmpty K2]

namespace Spec

/-- Nested logit demand: as `PlainLogit`, with nests. -/
structure NestedLogit (m : Market J A G) (n : Nesting J G) (c : Characteristic J A K1 K2) : Prop where
  nesting : m.nesting = some n
  availability : m.availability = none
  scale : m.epsilonScale = 1
  weights : ∑ i, m.weights i = 1
  below : ∀ g, n.rho.groupRho g < 1
  linear : ∀ k, c.has1 k = true → ∀ j t, c.x1 k j t = t ∧ c.d1 k j t = 1
  decreasing : ∑ k with c.has1 k = true, c.beta k < 0

/-- The share of the outside good. -/
def outsideShare (s : J → ℝ) : ℝ := 1 - ∑ j, s j

/-- The share of a product among products of its nest. -/
noncomputable def nestShare (n : Nesting J G) (s : J → ℝ) (j : J) : ℝ := s j / ∑ k with n.group k = n.group j, s k

end Spec

variable {m : Market J A G} {c : Characteristic J A K1 K2}

/-! ## Plain logit -/

/-- **C126.** Derivatives of shares with respect to prices. -/
theorem C126_jacobian (h : Spec.PlainLogit m c) (x : J → ℝ) (j k : J) :
    jacobianAt m c x j k =
      if j = k then -(Spec.sensitivity m c * sharesAt m c x j * (1 - sharesAt m c x j)) else Spec.sensitivity m c * sharesAt m c x j * sharesAt m c x k := by
  simp only [jacobianAt, sharesJacobian, plain_lamda h, plain_gamma h]
  split
  · rename_i he
    subst he
    ring
  · ring

theorem plain_share_pos (h : Spec.PlainLogit m c) (x : J → ℝ) (j : J) : 0 < sharesAt m c x j := by
  rw [plain_shares h (fun _ => 0)]; exact share_pos h _ x j

theorem plain_share_lt (h : Spec.PlainLogit m c) (x : J → ℝ) (j : J) : sharesAt m c x j < 1 :=
  lt_of_le_of_lt (Finset.single_le_sum (fun k _ => (plain_share_pos h x k).le) (Finset.mem_univ j)) (total_share h x)

/-- **C126.** Price elasticities: those with respect to another price are the same for all products. -/
theorem C126_elasticities (h : Spec.PlainLogit m c) (x : J → ℝ) (j k : J) :
    elasticities (jacobianAt m c x) x (sharesAt m c x) j k =
      if j = k then -(Spec.sensitivity m c * x j * (1 - sharesAt m c x j)) else Spec.sensitivity m c * x k * sharesAt m c x k := by
  have hs := (plain_share_pos h x j).ne'
  rw [elasticities, C126_jacobian h]
  split
  · rename_i he
    subst he
    field_simp
  · field_simp

/-- **C126.** Consumers who leave a product because its price rises divert to others in proportion to shares. -/
theorem C126_diversion (h : Spec.PlainLogit m c) (x : J → ℝ) (j k : J) :
    diversionRatios (jacobianAt m c x) j k =
      (if j = k then Spec.outsideShare (sharesAt m c x) else sharesAt m c x k) / (1 - sharesAt m c x j) := by
  have ha := (sensitivity_pos h).ne'
  have hs := (plain_share_pos h x j).ne'
  have h1 : 1 - sharesAt m c x j ≠ 0 := by linarith [plain_share_lt h x j]
  have hrow : ∑ l, jacobianAt m c x j l = -(Spec.sensitivity m c * sharesAt m c x j * Spec.outsideShare (sharesAt m c x)) := by
    have : ∀ l, jacobianAt m c x j l = Spec.sensitivity m c * sharesAt m c x j * sharesAt m c x l -
        if j = l then Spec.sensitivity m c * sharesAt m c x j else 0 := by
      intro l
      rw [C126_jacobian h]
      split
      · rename_i he
        subst he
        ring
      · ring
    simp only [this, Finset.sum_sub_distrib, Finset.sum_ite_eq, Finset.mem_univ, if_true, ← Finset.mul_sum, Spec.outsideShare]
    ring
  have hjj : jacobianAt m c x j j = -(Spec.sensitivity m c * sharesAt m c x j * (1 - sharesAt m c x j)) := by rw [C126_jacobian h, if_pos rfl]
  rw [diversionRatios, hjj, hrow]
  split
  · field_simp
  · rename_i he
    rw [C126_jacobian h, if_neg he]
    field_simp

theorem plain_without (h : Spec.PlainLogit m c) (x : J → ℝ) (j k : J) :
    computeShares m { eliminateProduct := some j } (updateDelta c x) (updateMu c x) k =
      if j = k then 0 else sharesAt m c x k / (1 - sharesAt m c x j) := by
  set e := fun l => atCost m c (fun _ => 0) l * Real.exp (-relativeMarkup m c (fun _ => 0) x l) with he
  have hepos : ∀ l, 0 < e l := fun l => mul_pos (atCost_pos m c _ l) (Real.exp_pos _)
  have hmul : ∀ i l, multiplier m { eliminateProduct := some j } i l = if j = l then 0 else 1 := by
    intro i l
    by_cases hl : j = l
    · simp [multiplier, hl]
    · simp [multiplier, h.availability, hl]
  have hp : ∀ i, computeProbabilities m { eliminateProduct := some j } (updateDelta c x) (updateMu c x) k i =
      (if j = k then 0 else e k) / (1 + ∑ l, e l - e j) := by
    intro i
    rw [computeProbabilities_plain m _ _ _ h.nesting i k]
    simp only [Spec.logit, hmul, plain_utility h (fun _ => 0) x, Bool.false_eq_true, if_false, ite_mul, zero_mul, one_mul]
    congr 1
    have : ∀ l, (if j = l then 0 else atCost m c (fun _ => 0) l * Real.exp (-relativeMarkup m c (fun _ => 0) x l)) = e l - if j = l then e j else 0 := by
      intro l
      split
      · rename_i hl; rw [hl]; ring
      · rw [sub_zero]
    simp only [this, Finset.sum_sub_distrib, Finset.sum_ite_eq, Finset.mem_univ, if_true]
    ring
  simp only [computeShares, hp]
  rw [← Finset.mul_sum, h.weights, mul_one, plain_shares h (fun _ => 0), plain_shares h (fun _ => 0)]
  split
  · rw [zero_div]
  · simp only [Oligopoly.share, Oligopoly.denom]
    change e k / _ = e k / (1 + ∑ l, e l) / (1 - e j / (1 + ∑ l, e l))
    have hle : e j ≤ ∑ l, e l := Finset.single_le_sum (fun l _ => (hepos l).le) (Finset.mem_univ j)
    have h1 : 1 + ∑ l, e l ≠ 0 := by linarith [hepos j]
    have h2 : 1 + ∑ l, e l - e j ≠ 0 := by linarith
    field_simp

/-- **C126.** Consumers who leave a product because it is gone divert to the same products as those who leave because its price rises. -/
theorem C126_long_run (h : Spec.PlainLogit m c) (x : J → ℝ) (j k : J) :
    longRunDiversionRatios (sharesAt m c x) (fun q => computeShares m { eliminateProduct := some q } (updateDelta c x) (updateMu c x)) j k =
      diversionRatios (jacobianAt m c x) j k := by
  have hs := (plain_share_pos h x j).ne'
  have h1 : 1 - sharesAt m c x j ≠ 0 := by linarith [plain_share_lt h x j]
  rw [C126_diversion h]
  simp only [longRunDiversionRatios, plain_without h]
  split
  · rename_i he
    have : ∀ l, ((if j = l then 0 else sharesAt m c x l / (1 - sharesAt m c x j)) - sharesAt m c x l) / sharesAt m c x j =
        sharesAt m c x l / (1 - sharesAt m c x j) - if j = l then 1 / (1 - sharesAt m c x j) else 0 := by
      intro l
      split
      · rename_i hl
        subst hl
        field_simp
        ring
      · field_simp
        ring
    simp only [this, Finset.sum_sub_distrib, Finset.sum_ite_eq, Finset.mem_univ, if_true, ← Finset.sum_div, Spec.outsideShare]
    field_simp
    ring
  · field_simp
    ring

/-- **C126.** Consumer surplus is minus the log of the share of the outside good over sensitivity. -/
theorem C126_surplus (h : Spec.PlainLogit m c) (he : m.epsilonScale = 1) (first : J) (x : J → ℝ) :
    consumerSurplus m c first x (fun _ => false) = -Real.log (Spec.outsideShare (sharesAt m c x)) / Spec.sensitivity m c := by
  rw [plain_surplus h, Spec.outsideShare, inside_eq h (fun _ => 0), one_div, Real.log_inv, neg_neg]
  congr 2
  simp only [Oligopoly.denom]
  congr 1
  refine Finset.sum_congr rfl fun j _ => ?_
  simp only [atCost, relativeMarkup, ← Real.exp_add, Spec.sensitivity, he]
  congr 1
  ring

/-- **C126.** A monopolist with one product passes on one minus its share of a change of its costs. -/
theorem C126_passthrough {m : Market Unit A G} {c : Characteristic Unit A K1 K2} (h : Spec.PlainLogit m c)
    (hdd : ∀ k t, c.has1 k = true → c.dd1 k () t = 0) (firm : Unit → Unit) :
    passthrough m c (ownershipFromIds firm) (sharesAt m c c.x0) () () = 1 - sharesAt m c c.x0 () := by
  have ha := sensitivity_pos h
  have hs := plain_share_pos h c.x0 ()
  have hs1 := plain_share_lt h c.x0 ()
  set a := Spec.sensitivity m c with hadef
  set s := sharesAt m c c.x0 () with hsdef
  have hP : ∀ i, probabilitiesAt m c c.x0 () i = s := fun i => by rw [hsdef, plain_probabilities h (fun _ => 0), plain_shares h (fun _ => 0)]
  have hU2 : ∀ i, utilitySecondDerivatives m c c.x0 () i = 0 := by
    intro i
    have : (∑ k, (if c.has1 k then c.dd1 k () (c.x0 ()) else 0) * c.beta k) = 0 := Finset.sum_eq_zero fun k _ => by
      split
      · rename_i hk; rw [hdd k _ hk, zero_mul]
      · rw [zero_mul]
    simp only [utilitySecondDerivatives, this, Finset.univ_eq_empty, Finset.sum_empty, add_zero, zero_div, ite_self]
  have hjac : sharesJacobian m (probabilitiesAt m c c.x0) (conditionalsAt m c c.x0) (utilityDerivatives m c c.x0) () () = -(a * s * (1 - s)) := by
    have := C126_jacobian h c.x0 () ()
    rw [if_pos rfl] at this
    exact this
  have hconst : ∀ q : ℝ, ∑ i, q * m.weights i = q := fun q => by rw [← Finset.mul_sum, h.weights, mul_one]
  have hhess : sharesHessian m (probabilitiesAt m c c.x0) (conditionalsAt m c c.x0) (utilityDerivatives m c c.x0) (utilitySecondDerivatives m c c.x0)
      () () () = a ^ 2 * s * (1 - s) * (1 - 2 * s) := by
    simp only [sharesHessian, if_true, capitalLamdaTensor, capitalGammaTensor, h.nesting, probabilityUtilitySecondDerivatives, probabilityDerivatives, hP, hU2,
      plain_derivative h, ← hadef]
    have e1 : ∀ q r : ℝ, ∑ i, q * (m.weights i * r) = q * r := fun q r => by
      rw [← hconst (q * r)]
      exact Finset.sum_congr rfl fun i _ => by ring
    rw [hconst, e1, e1]
    ring
  have hinv : (passthroughInverse m c (ownershipFromIds firm) (sharesAt m c c.x0)) = Matrix.of fun _ _ => 1 / (1 - s) := by
    have hd : (Matrix.of fun j k => -(ownershipFromIds firm j k) * sharesJacobian m (probabilitiesAt m c c.x0) (conditionalsAt m c c.x0) (utilityDerivatives m c c.x0) j k :
        Matrix Unit Unit ℝ)⁻¹ = Matrix.of fun _ _ => 1 / (a * s * (1 - s)) := by
      ext ⟨⟩ ⟨⟩
      rw [Matrix.inv_def, Matrix.adjugate_subsingleton, Matrix.det_unique]
      simp [ownershipFromIds, hjac]
    ext ⟨⟩ ⟨⟩
    simp only [passthroughInverse]
    rw [hd]
    simp only [Matrix.add_apply, Matrix.of_apply, Matrix.sub_apply, Matrix.one_apply_eq, Matrix.mul_apply, Matrix.mulVec, dotProduct,
      Finset.univ_unique, Finset.sum_singleton, PUnit.default_eq_unit, hjac, hhess, ownershipFromIds, if_true, ← hsdef]
    have h1 : 1 - s ≠ 0 := by linarith
    field_simp
    ring
  rw [passthrough, hinv, Matrix.inv_def, Matrix.adjugate_subsingleton, Matrix.det_unique]
  simp

/-! ## Nested logit -/

section

variable {n : Nesting J G} (h : Spec.NestedLogit m n c)

include h

theorem nested_sensitivity : 0 < Spec.sensitivity m c := div_pos (by linarith [h.decreasing]) (by rw [h.scale]; exact one_pos)

theorem nested_multiplier (i : A) : multiplier m {} i = fun _ => 1 := by
  funext j
  simp [multiplier, h.availability]

theorem nested_available (i : A) : AvailabilityNonneg m {} i := by
  intro a ha
  simp [h.availability] at ha

theorem nested_probabilities (x : J → ℝ) (j : J) (i : A) : probabilitiesAt m c x j i = Spec.nested n.group n.rho.groupRho (updateDelta c x) (fun _ => 1) 1 j := by
  have hm : ∀ k, updateMu c x k i = 0 := by simp [updateMu]
  rw [probabilitiesAt, computeProbabilities_nested m {} _ _ n h.nesting i (nested_available h i) fun g => (h.below g).ne]
  simp only [nested_multiplier h, hm, add_zero, Bool.false_eq_true, if_false]

theorem nested_shares (x : J → ℝ) (j : J) (i : A) : probabilitiesAt m c x j i = sharesAt m c x j := by
  simp only [sharesAt, nested_probabilities h]
  rw [← Finset.mul_sum, h.weights, mul_one]

theorem nested_share_pos (x : J → ℝ) (j : J) : 0 < sharesAt m c x j := by
  obtain ⟨i, -⟩ : (Finset.univ : Finset A).Nonempty := by
    by_contra hne
    have := h.weights
    rw [Finset.not_nonempty_iff_eq_empty.mp hne] at this
    simp at this
  rw [← nested_shares h x j i, nested_probabilities h]
  have hg : ∀ g, 0 ≤ Spec.expInclusive n.group n.rho.groupRho (updateDelta c x) (fun _ => 1) g := fun g => expInclusive_nonneg _ _ _ _ (fun _ => zero_le_one) g
  have hgj : 0 < Spec.groupSum n.group n.rho.groupRho (updateDelta c x) (fun _ => 1) (n.group j) := by
    refine Finset.sum_pos (fun k _ => mul_pos one_pos (Real.exp_pos _)) ⟨j, by simp⟩
  refine mul_pos (div_pos (mul_pos one_pos (Real.exp_pos _)) hgj) (div_pos (Real.rpow_pos_of_pos hgj _) ?_)
  have := Finset.sum_nonneg fun g (_ : g ∈ Finset.univ) => hg g
  linarith

theorem nested_conditionals (x : J → ℝ) (j : J) (i : A) : conditionalsAt m c x j i = Spec.nestShare n (sharesAt m c x) j := by
  obtain ⟨h1, -, -⟩ := C19_nested m {} (updateDelta c x) (updateMu c x) i n h.nesting (nested_available h i)
    (fun n' hn' => by rw [h.nesting, Option.some.injEq] at hn'; exact hn' ▸ h.below) (Or.inl rfl)
  have h2 := h1 j
  change probabilitiesAt m c x j i = conditionalsAt m c x j i * ∑ k with n.group k = n.group j, probabilitiesAt m c x k i at h2
  simp only [nested_shares h] at h2
  have hpos : 0 < ∑ k with n.group k = n.group j, sharesAt m c x k := Finset.sum_pos (fun k _ => nested_share_pos h x k) ⟨j, by simp⟩
  rw [Spec.nestShare, h2, mul_div_cancel_right₀ _ hpos.ne']

theorem nested_derivative (x : J → ℝ) (j : J) (i : A) : utilityDerivatives m c x j i = -Spec.sensitivity m c := by
  have hd : (∑ k, (if c.has1 k then c.d1 k j (x j) else 0) * c.beta k) = ∑ k with c.has1 k = true, c.beta k := by
    rw [Finset.sum_filter]
    refine Finset.sum_congr rfl fun k _ => ?_
    by_cases hk : c.has1 k = true
    · rw [if_pos hk, if_pos hk, (h.linear k hk j _).2, one_mul]
    · rw [if_neg hk, if_neg hk, zero_mul]
  simp only [utilityDerivatives, hd, Finset.univ_eq_empty, Finset.sum_empty, add_zero, Spec.sensitivity, h.scale, ne_eq, not_true_eq_false, if_false, div_one, neg_neg]

/-- **C126.** Derivatives of shares with nested logit demand. -/
theorem C126_nested_jacobian (x : J → ℝ) (j k : J) :
    let a := Spec.sensitivity m c
    let s := sharesAt m c x
    let rho := n.productRho j
    jacobianAt m c x j k =
      if j = k then -(a * s j * (1 / (1 - rho) - rho / (1 - rho) * Spec.nestShare n s j - s j))
      else if n.group j = n.group k then a * s k * (s j + rho / (1 - rho) * Spec.nestShare n s j)
      else a * s j * s k := by
  intro a s rho
  have hconst : ∀ q : ℝ, ∑ i, q * m.weights i = q := fun q => by rw [← Finset.mul_sum, h.weights, mul_one]
  have e1 : ∀ q r : ℝ, ∑ i, q * (m.weights i * r) = q * r := fun q r => by
    rw [← hconst (q * r)]
    exact Finset.sum_congr rfl fun i _ => by ring
  have hr : (1 : ℝ) - rho ≠ 0 := by have := h.below (n.group j); simp only [rho, Nesting.productRho]; linarith
  simp only [jacobianAt, sharesJacobian, capitalLamda, capitalGamma, h.nesting, nested_shares h, nested_conditionals h, nested_derivative h, hconst, e1, membership]
  by_cases hjk : j = k
  · subst hjk
    simp only [if_true, s, a, rho]
    field_simp
    ring
  · simp only [if_neg hjk]
    by_cases hg : n.group j = n.group k
    · rw [if_pos hg, if_pos hg]
      simp only [s, a, rho]
      ring
    · rw [if_neg hg, if_neg hg]
      simp only [s, a]
      ring

/-- **C126.** Consumer surplus with nested logit demand. -/
theorem C126_nested_surplus (first : J) (x : J → ℝ) :
    consumerSurplus m c first x (fun _ => false) = -Real.log (Spec.outsideShare (sharesAt m c x)) / Spec.sensitivity m c := by
  obtain ⟨i₀, -⟩ : (Finset.univ : Finset A).Nonempty := by
    by_contra hne
    have := h.weights
    rw [Finset.not_nonempty_iff_eq_empty.mp hne] at this
    simp at this
  have hm : ∀ j i, updateMu c x j i = 0 := by simp [updateMu]
  set D := 1 + ∑ g, Spec.expInclusive n.group n.rho.groupRho (updateDelta c x) (fun _ => 1) g with hD
  have hDpos : 0 < D := by
    have : 0 ≤ ∑ g, Spec.expInclusive n.group n.rho.groupRho (updateDelta c x) (fun _ => 1) g :=
      Finset.sum_nonneg fun g _ => expInclusive_nonneg _ _ _ _ (fun _ => zero_le_one) g
    linarith
  have hnum : ∀ i, surplusNumerator m.nesting (fun j => updateDelta c x j + updateMu c x j i) (m.availability.map fun a => a i) (fun _ => false) = Real.log D := by
    intro i
    rw [C37_numerator _ (fun n' hn' => by rw [h.nesting, Option.some.injEq] at hn'; exact hn' ▸ h.below) _ _ (by simp [h.availability])]
    simp [Spec.logSum, h.nesting, h.availability, Spec.surplusMultiplier, hm, hD, Spec.expInclusive, Spec.groupSum]
  have hout : Spec.outsideShare (sharesAt m c x) = 1 / D := by
    obtain ⟨-, -, h3⟩ := C19_nested m {} (updateDelta c x) (updateMu c x) i₀ n h.nesting (nested_available h i₀)
      (fun n' hn' => by rw [h.nesting, Option.some.injEq] at hn'; exact hn' ▸ h.below) (Or.inl rfl)
    rw [Finset.sum_fiberwise Finset.univ n.group fun k => computeProbabilities m {} (updateDelta c x) (updateMu c x) k i₀] at h3
    have h4 : ∑ k, computeProbabilities m {} (updateDelta c x) (updateMu c x) k i₀ = ∑ k, sharesAt m c x k :=
      Finset.sum_congr rfl fun k _ => nested_shares h x k i₀
    rw [h4] at h3
    have h5 : Spec.outside m {} (updateDelta c x) (updateMu c x) i₀ = 1 / D := by
      simp only [Spec.outside, h.nesting, Spec.nestedOutside, nested_multiplier h, hm, add_zero, Bool.false_eq_true, if_false, hD]
    rw [Spec.outsideShare, ← h5]
    linarith
  simp only [consumerSurplus, hnum, nested_derivative h, neg_neg]
  rw [← Finset.mul_sum, h.weights, mul_one, hout, one_div, Real.log_inv, neg_neg]

end

/-- **C126.** Nests of one product each do not matter, whatever the nesting parameter. -/
theorem C126_singleton_nests (m : Market J A G) (o : ProbOpts J A) (delta : J → ℝ) (mu : J → A → ℝ) (n : Nesting J G) (hn : m.nesting = some n)
    (hone : Function.Injective n.group) (hrho : ∀ g, n.rho.groupRho g < 1) (hav : m.availability = none) (ho : o.availability = none) (j : J) (i : A) :
    computeProbabilities m o delta mu j i = computeProbabilities ({ m with nesting := none, epsilonScale := 1 } : Market J A G) o delta mu j i := by
  have hmul : ∀ k, multiplier m o i k = 0 ∨ multiplier m o i k = 1 := by
    intro k
    unfold multiplier
    split_ifs
    · exact .inl rfl
    · right; simp [hav, ho]
  rw [computeProbabilities_nested m o delta mu n hn i (fun a ha => by simp [hav, ho] at ha) fun g => (hrho g).ne,
    computeProbabilities_plain _ _ _ _ rfl]
  have hsingle : ∀ k, (Finset.univ.filter fun l => n.group l = n.group k) = {k} := by
    intro k
    ext l
    simp only [Finset.mem_filter, Finset.mem_univ, true_and, Finset.mem_singleton]
    exact ⟨fun he => hone he, fun he => he ▸ rfl⟩
  have hsum : ∀ k, Spec.groupSum n.group n.rho.groupRho (fun k => delta k + mu k i) (multiplier m o i) (n.group k) =
      multiplier m o i k * Real.exp ((delta k + mu k i) / (1 - n.rho.groupRho (n.group k))) := by
    intro k
    rw [Spec.groupSum, hsingle, Finset.sum_singleton]
  have hincl : ∀ k, Spec.expInclusive n.group n.rho.groupRho (fun k => delta k + mu k i) (multiplier m o i) (n.group k) =
      multiplier m o i k * Real.exp (delta k + mu k i) := by
    intro k
    have hr : 1 - n.rho.groupRho (n.group k) ≠ 0 := by linarith [hrho (n.group k)]
    rw [Spec.expInclusive, hsum]
    rcases hmul k with h0 | h1
    · rw [h0, zero_mul, zero_mul, Real.zero_rpow hr]
    · rw [h1, one_mul, one_mul, ← Real.exp_mul]
      congr 1
      field_simp
  have htotal : ∑ g, Spec.expInclusive n.group n.rho.groupRho (fun k => delta k + mu k i) (multiplier m o i) g =
      ∑ k, multiplier m o i k * Real.exp (delta k + mu k i) := by
    rw [← Finset.sum_subset (Finset.subset_univ (Finset.univ.image n.group)), Finset.sum_image fun a _ b _ hab => hone hab]
    · exact Finset.sum_congr rfl fun k _ => hincl k
    · intro g _ hg
      have : Spec.groupSum n.group n.rho.groupRho (fun k => delta k + mu k i) (multiplier m o i) g = 0 := by
        refine Finset.sum_eq_zero fun k hk => ?_
        simp only [Finset.mem_filter, Finset.mem_univ, true_and] at hk
        exact absurd (Finset.mem_image.mpr ⟨k, Finset.mem_univ k, hk⟩) hg
      rw [Spec.expInclusive, this, Real.zero_rpow (by linarith [hrho g])]
  have hmul' : multiplier ({ m with nesting := none, epsilonScale := 1 } : Market J A G) o i = multiplier m o i := rfl
  simp only [Spec.nested, Spec.within, Spec.groupProb, hincl, htotal, hsum, Spec.logit, hmul', div_one]
  rcases hmul j with h0 | h1
  · rw [h0]
    simp
  · rw [h1]
    simp only [one_mul]
    rw [div_self (Real.exp_pos _).ne', one_mul]

/-- **C126.** Without random coefficients, all agents have the same probabilities and weights do not matter. -/
theorem C126_no_random_coefficients (m : Market J A G) (hav : m.availability = none) (o : ProbOpts J A) (ho : o.availability = none)
    (hw : ∑ i, m.weights i = 1) (delta : J → ℝ) (mu : J → A → ℝ) (hmu : ∀ j i, mu j i = 0) (j : J) (i : A) :
    computeShares m o delta mu j = computeProbabilities m o delta mu j i := by
  have hsame : ∀ i', computeProbabilities m o delta mu j i' = computeProbabilities m o delta mu j i := by
    intro i'
    have hr : ∀ e k, restrict m o e i' k = restrict m o e i k := by
      intro e k
      simp [restrict, hav, ho]
    have hu : ∀ k, utilities m delta mu k i' = utilities m delta mu k i := by
      intro k
      simp [utilities, hmu]
    have : agentProbabilities m o delta mu i' = agentProbabilities m o delta mu i := by
      unfold agentProbabilities
      simp only [hu]
      have hr' : ∀ e, restrict m o e i' = restrict m o e i := fun e => funext (hr e)
      simp only [hr']
    simp only [computeProbabilities, this]
  simp only [computeShares, hsame]
  rw [← Finset.mul_sum, hw, mul_one]

/-! ## Non-vacuity -/

/-- Half of those who leave a product of the duopoly at prices of 3 buy the other one. -/
example : diversionRatios (jacobianAt duopoly duopolyPrices fun _ => 3) 0 1 = 1 / 2 := by
  have hs : ∀ k, sharesAt duopoly duopolyPrices (fun _ => 3) k = 1 / 3 := duopoly_shares
  rw [C126_diversion duopoly_plain, if_neg (by decide), hs, hs]
  norm_num

/-- The duopoly with both products in one nest. -/
noncomputable def nestedDuopoly : Market (Fin 2) Unit Unit := { duopoly with nesting := some ⟨fun _ => (), .single (1 / 2)⟩ }

theorem nestedDuopoly_nested : Spec.NestedLogit nestedDuopoly ⟨fun _ => (), .single (1 / 2)⟩ duopolyPrices where
  nesting := rfl
  availability := rfl
  scale := rfl
  weights := by simp [nestedDuopoly, duopoly]
  below := fun _ => by simp only [RhoParam.groupRho]; norm_num
  linear := fun _ _ _ _ => ⟨rfl, rfl⟩
  decreasing := by simp [duopolyPrices]

/-- With one nest, a product's own price matters more than without. -/
example (x : Fin 2 → ℝ) : jacobianAt nestedDuopoly duopolyPrices x 0 0 =
    -(sharesAt nestedDuopoly duopolyPrices x 0 * (2 - Spec.nestShare ⟨fun _ => (), .single (1 / 2)⟩ (sharesAt nestedDuopoly duopolyPrices x) 0 -
      sharesAt nestedDuopoly duopolyPrices x 0)) := by
  have h := C126_nested_jacobian nestedDuopoly_nested x 0 0
  simp only [if_true] at h
  rw [h]
  simp only [Spec.sensitivity, Nesting.productRho, RhoParam.groupRho]
  simp [duopolyPrices, nestedDuopoly, duopoly]
  norm_num

/-- A monopolist. -/
noncomputable def monopolyMarket : Market Unit Unit Unit := ⟨none, 1, fun _ => 1, none⟩

/-- Utility is three minus the price, which is two. -/
noncomputable def monopolyPrices : Characteristic Unit Unit Unit (Fin 0) where
  delta := fun _ => 1
  x0 := fun _ => 2
  beta := fun _ => -1
  has1 := fun _ => true
  x1 := fun _ _ t => t
  d1 := fun _ _ _ => 1
  dd1 := fun _ _ _ => 0
  coef := fun _ _ _ => 0
  has2 := fun _ => false
  x2 := fun _ _ _ => 0
  d2 := fun _ _ _ => 0
  dd2 := fun _ _ _ => 0

example : passthrough monopolyMarket monopolyPrices (ownershipFromIds (id : Unit → Unit)) (sharesAt monopolyMarket monopolyPrices monopolyPrices.x0) () () =
    1 - sharesAt monopolyMarket monopolyPrices monopolyPrices.x0 () :=
  C126_passthrough ⟨rfl, rfl, one_pos, by simp [monopolyMarket], fun _ _ _ _ => ⟨rfl, rfl⟩, by simp [monopolyPrices]⟩ (fun _ _ _ => rfl) id

end Pyblp
