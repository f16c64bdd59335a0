import Verif.Lemmas.ProbDeriv
import Verif.Model.Demand

/-! Derivatives of the model's probabilities, conditional probabilities, utilities and shares. -/

set_option linter.unusedSectionVars false

namespace Pyblp

variable {J A G K1 K2 : Type} [Fintype J] [DecidableEq J] [Nonempty J] [Fintype G] [DecidableEq G] [Fintype A]
  [Fintype K1] [Fintype K2]

/-- A market as the economy constructs it: nesting parameters in `[0, 1)`, a positive scale that is one with nesting, and
nonnegative availability. -/
structure WellFormed (m : Market J A G) : Prop where
  regular : Regular m
  scale : m.nesting ≠ none → m.epsilonScale = 1
  avail : ∀ a, m.availability = some a → ∀ i j, 0 ≤ a i j

lemma WellFormed.availNonneg {m : Market J A G} (h : WellFormed m) (o : ProbOpts J A) (ho : o.availability = none) (i : A) :
    AvailabilityNonneg m o i := by
  intro a ha j
  simp [ho] at ha
  exact h.avail a ha i j

/-- Directional derivative of probabilities in terms of (scaled) utility derivatives. -/
noncomputable def dProb (m : Market J A G) (P C U : J → ℝ) (j : J) : ℝ :=
  match m.nesting with
  | none => P j * (U j - ∑ k, P k * U k)
  | some n => P j * (U j / (1 - n.productRho j) - n.productRho j / (1 - n.productRho j) *
      (∑ k with n.group k = n.group j, C k * U k) - ∑ k, P k * U k)

lemma hasDerivAt_computeProbabilities_options (m : Market J A G) (hm : WellFormed m) (o : ProbOpts J A) (ho : o.availability = none)
    (delta : ℝ → J → ℝ) (mu : ℝ → J → A → ℝ) (i : A) (hset : o.eliminateOutside = false ∨ ∃ j, Offered m o i j) (U : J → ℝ) (t : ℝ)
    (h : ∀ k, HasDerivAt (fun t => (delta t k + mu t k i) / m.epsilonScale) (U k) t) (j : J) :
    HasDerivAt (fun t => computeProbabilities m o (delta t) (mu t) j i)
      (dProb m (fun k => computeProbabilities m o (delta t) (mu t) k i)
        (fun k => computeConditionals m o (delta t) (mu t) k i) U j) t := by
  have ha := hm.availNonneg o ho i
  have hset' : o.eliminateOutside = false ∨ ∃ j, 0 < multiplier m o i j :=
    hset.imp id fun ⟨j, hj⟩ => ⟨j, multiplier_pos hj⟩
  unfold dProb
  cases hn : m.nesting with
  | none =>
    simp only [computeProbabilities_plain m _ _ _ hn]
    exact hasDerivAt_logit (fun k t => (delta t k + mu t k i) / m.epsilonScale) U t h _ _
      (plain_denominator_pos o.eliminateOutside (multiplier_nonneg ha) hset').ne' j
  | some n =>
    have hr : ∀ g, n.rho.groupRho g < 1 := hm.regular.rhoBelowOne n hn
    have he : m.epsilonScale = 1 := hm.scale (by rw [hn]; simp)
    simp only [he, div_one] at h
    simp only [computeProbabilities_nested m _ _ _ n hn i ha (fun g => (hr g).ne),
      computeConditionals_nested m _ _ _ n hn i ha (fun g => (hr g).ne)]
    exact hasDerivAt_nested n.group n.rho.groupRho hr (fun k t => delta t k + mu t k i) U t h _
      (multiplier_nonneg ha) _ (nested_denominator_pos o.eliminateOutside (multiplier_nonneg ha) hset').ne' j

lemma hasDerivAt_computeProbabilities (m : Market J A G) (hm : WellFormed m) (safe : Bool) (delta : ℝ → J → ℝ)
    (mu : ℝ → J → A → ℝ) (i : A) (U : J → ℝ) (t : ℝ)
    (h : ∀ k, HasDerivAt (fun t => (delta t k + mu t k i) / m.epsilonScale) (U k) t) (j : J) :
    HasDerivAt (fun t => computeProbabilities m { safe } (delta t) (mu t) j i)
      (dProb m (fun k => computeProbabilities m { safe } (delta t) (mu t) k i)
        (fun k => computeConditionals m { safe } (delta t) (mu t) k i) U j) t :=
  hasDerivAt_computeProbabilities_options m hm { safe } rfl delta mu i (Or.inl rfl) U t h j

/-- Directional derivative of conditional probabilities. -/
lemma hasDerivAt_computeConditionals (m : Market J A G) (hm : WellFormed m) (safe : Bool) (delta : ℝ → J → ℝ)
    (mu : ℝ → J → A → ℝ) (i : A) (U : J → ℝ) (t : ℝ)
    (h : ∀ k, HasDerivAt (fun t => (delta t k + mu t k i) / m.epsilonScale) (U k) t) (n : Nesting J G)
    (hn : m.nesting = some n) (j : J) :
    HasDerivAt (fun t => computeConditionals m { safe } (delta t) (mu t) j i)
      (computeConditionals m { safe } (delta t) (mu t) j i *
        ((U j - ∑ k with n.group k = n.group j, computeConditionals m { safe } (delta t) (mu t) k i * U k) /
          (1 - n.productRho j))) t := by
  have ha := hm.availNonneg { safe } rfl i
  have hr : ∀ g, n.rho.groupRho g < 1 := hm.regular.rhoBelowOne n hn
  have he : m.epsilonScale = 1 := hm.scale (by rw [hn]; simp)
  simp only [he, div_one] at h
  simp only [computeConditionals_nested m _ _ _ n hn i ha (fun g => (hr g).ne)]
  exact hasDerivAt_within n.group n.rho.groupRho hr (fun k t => delta t k + mu t k i) U t h _
    (multiplier_nonneg ha) j

/-- Within a group, probabilities are proportional to conditional probabilities. -/
lemma cond_mul_prob (m : Market J A G) (hm : WellFormed m) (o : ProbOpts J A) (ho : o.availability = none)
    (delta : J → ℝ) (mu : J → A → ℝ) (i : A) (n : Nesting J G) (hn : m.nesting = some n) (j k : J)
    (hjk : n.group j = n.group k) :
    computeConditionals m o delta mu j i * computeProbabilities m o delta mu k i =
      computeConditionals m o delta mu k i * computeProbabilities m o delta mu j i := by
  have ha := hm.availNonneg o ho i
  have hr : ∀ g, n.rho.groupRho g < 1 := hm.regular.rhoBelowOne n hn
  simp only [computeProbabilities_nested m _ _ _ n hn i ha (fun g => (hr g).ne),
    computeConditionals_nested m _ _ _ n hn i ha (fun g => (hr g).ne)]
  unfold Spec.nested
  rw [hjk]; ring

/-- The derivative in direction of one product is the code's formula. -/
lemma dProb_single_options (m : Market J A G) (hm : WellFormed m) (o : ProbOpts J A) (ho : o.availability = none) (delta : J → ℝ) (mu : J → A → ℝ) (i : A)
    (U : J → A → ℝ) (l j : J) :
    dProb m (fun k => computeProbabilities m o delta mu k i)
      (fun k => computeConditionals m o delta mu k i) (fun k => if k = l then U l i else 0) j =
    probabilityDerivatives m (computeProbabilities m o delta mu) (computeConditionals m o delta mu) U l j i := by
  unfold dProb probabilityDerivatives
  cases hn : m.nesting with
  | none =>
    simp only [mul_ite, mul_zero, Finset.sum_ite_eq', Finset.mem_univ, if_true]
    by_cases h : j = l
    · subst h; simp; ring
    · simp [h]
  | some n =>
    simp only [mul_ite, mul_zero, Finset.sum_ite_eq', Finset.mem_univ, if_true, Finset.mem_filter, true_and]
    unfold membership
    by_cases hg : n.group l = n.group j
    · have hc := cond_mul_prob m hm o ho delta mu i n hn j l hg.symm
      by_cases h : j = l
      · subst h
        simp
        ring
      · simp only [hg, h, if_true, if_false]
        linear_combination (n.productRho j / (1 - n.productRho j) * U l i) * hc
    · have h : j ≠ l := fun h => hg (by rw [h])
      simp [hg, h, Ne.symm hg]

lemma dProb_single (m : Market J A G) (hm : WellFormed m) (safe : Bool) (delta : J → ℝ) (mu : J → A → ℝ) (i : A)
    (U : J → A → ℝ) (l j : J) :
    dProb m (fun k => computeProbabilities m { safe } delta mu k i)
      (fun k => computeConditionals m { safe } delta mu k i) (fun k => if k = l then U l i else 0) j =
    probabilityDerivatives m (computeProbabilities m { safe } delta mu) (computeConditionals m { safe } delta mu) U l j i :=
  dProb_single_options m hm { safe } rfl delta mu i U l j

/-- The formulas handed to pyblp are differentiated correctly (by SymPy). -/
structure Characteristic.Smooth (c : Characteristic J A K1 K2) : Prop where
  x1 : ∀ k, c.has1 k = true → ∀ j t, HasDerivAt (c.x1 k j) (c.d1 k j t) t
  d1 : ∀ k, c.has1 k = true → ∀ j t, HasDerivAt (c.d1 k j) (c.dd1 k j t) t
  x2 : ∀ k, c.has2 k = true → ∀ j t, HasDerivAt (c.x2 k j) (c.d2 k j t) t
  d2 : ∀ k, c.has2 k = true → ∀ j t, HasDerivAt (c.d2 k j) (c.dd2 k j t) t

lemma utilityDerivatives_eq (m : Market J A G) (c : Characteristic J A K1 K2) (x : J → ℝ) (j : J) (i : A) :
    utilityDerivatives m c x j i = ((∑ k, (if c.has1 k then c.d1 k j (x j) else 0) * c.beta k) +
    ∑ k, (if c.has2 k then c.d2 k j (x j) else 0) * c.coef k i j) / m.epsilonScale := by
  unfold utilityDerivatives
  simp only []
  split_ifs with h
  · rfl
  · push Not at h; rw [h, div_one]

lemma utilitySecondDerivatives_eq (m : Market J A G) (c : Characteristic J A K1 K2) (x : J → ℝ) (j : J) (i : A) :
    utilitySecondDerivatives m c x j i = ((∑ k, (if c.has1 k then c.dd1 k j (x j) else 0) * c.beta k) +
    ∑ k, (if c.has2 k then c.dd2 k j (x j) else 0) * c.coef k i j) / m.epsilonScale := by
  unfold utilitySecondDerivatives
  simp only []
  split_ifs with h
  · rfl
  · push Not at h; rw [h, div_one]

lemma hasDerivAt_utility (m : Market J A G) (c : Characteristic J A K1 K2) (hc : c.Smooth) (x : J → ℝ) (l k : J) (i : A) :
    HasDerivAt (fun t => (updateDelta c (Function.update x l t) k + updateMu c (Function.update x l t) k i) / m.epsilonScale)
      (if k = l then utilityDerivatives m c x l i else 0) (x l) := by
  by_cases h : k = l
  · subst h
    rw [if_pos rfl, utilityDerivatives_eq]
    apply HasDerivAt.div_const
    unfold updateDelta updateMu
    simp only [Function.update_self]
    apply HasDerivAt.add
    · have h1 := HasDerivAt.fun_sum (u := Finset.univ.filter fun q => c.has1 q = true)
        (A := fun q t => c.beta q * (c.x1 q k t - c.x1 q k (c.x0 k))) (A' := fun q => c.beta q * c.d1 q k (x k))
        (x := x k) (fun q hq => ((hc.x1 q (Finset.mem_filter.mp hq).2 k (x k)).sub_const _).const_mul _)
      refine (h1.const_add (c.delta k)).congr_deriv ?_
      rw [Finset.sum_filter]
      refine Finset.sum_congr rfl fun q _ => ?_
      split_ifs <;> ring
    · refine HasDerivAt.fun_sum (u := Finset.univ)
        (A := fun q t => (if c.has2 q then c.x2 q k t else c.x2 q k (c.x0 k)) * c.coef q i k) fun q _ => ?_
      by_cases hq : c.has2 q = true
      · simp only [if_pos hq]; exact (hc.x2 q hq k (x k)).mul_const _
      · simp only [if_neg hq, zero_mul]; exact hasDerivAt_const _ _
  · rw [if_neg h]
    unfold updateDelta updateMu
    simp only [Function.update_of_ne h]
    exact hasDerivAt_const _ _

lemma hasDerivAt_utilityDerivatives (m : Market J A G) (c : Characteristic J A K1 K2) (hc : c.Smooth) (x : J → ℝ) (l k : J)
    (i : A) :
    HasDerivAt (fun t => utilityDerivatives m c (Function.update x l t) k i)
      (if k = l then utilitySecondDerivatives m c x l i else 0) (x l) := by
  simp only [utilityDerivatives_eq, utilitySecondDerivatives_eq]
  by_cases h : k = l
  · subst h
    rw [if_pos rfl]
    apply HasDerivAt.div_const
    simp only [Function.update_self]
    apply HasDerivAt.add
    · refine HasDerivAt.fun_sum (u := Finset.univ)
        (A := fun q t => (if c.has1 q then c.d1 q k t else 0) * c.beta q) fun q _ => ?_
      by_cases hq : c.has1 q = true
      · simp only [if_pos hq]; exact (hc.d1 q hq k (x k)).mul_const _
      · simp only [if_neg hq, zero_mul]; exact hasDerivAt_const _ _
    · refine HasDerivAt.fun_sum (u := Finset.univ)
        (A := fun q t => (if c.has2 q then c.d2 q k t else 0) * c.coef q i k) fun q _ => ?_
      by_cases hq : c.has2 q = true
      · simp only [if_pos hq]; exact (hc.d2 q hq k (x k)).mul_const _
      · simp only [if_neg hq, zero_mul]; exact hasDerivAt_const _ _
  · rw [if_neg h]
    simp only [Function.update_of_ne h]
    exact hasDerivAt_const _ _

lemma hasDerivAt_probabilitiesAt (m : Market J A G) (hm : WellFormed m) (c : Characteristic J A K1 K2) (hc : c.Smooth)
    (x : J → ℝ) (l j : J) (i : A) :
    HasDerivAt (fun t => probabilitiesAt m c (Function.update x l t) j i)
      (probabilityDerivatives m (probabilitiesAt m c x) (conditionalsAt m c x) (utilityDerivatives m c x) l j i) (x l) := by
  have := hasDerivAt_computeProbabilities m hm true (fun t => updateDelta c (Function.update x l t))
    (fun t => updateMu c (Function.update x l t)) i (fun k => if k = l then utilityDerivatives m c x l i else 0) (x l)
    (fun k => hasDerivAt_utility m c hc x l k i) j
  simp only [Function.update_eq_self] at this
  rw [dProb_single m hm] at this
  exact this

lemma hasDerivAt_conditionalsAt (m : Market J A G) (hm : WellFormed m) (c : Characteristic J A K1 K2) (hc : c.Smooth)
    (n : Nesting J G) (hn : m.nesting = some n) (x : J → ℝ) (l j : J) (i : A) :
    HasDerivAt (fun t => conditionalsAt m c (Function.update x l t) j i)
      (conditionalDerivatives n (conditionalsAt m c x) (utilityDerivatives m c x) l j i) (x l) := by
  have := hasDerivAt_computeConditionals m hm true (fun t => updateDelta c (Function.update x l t))
    (fun t => updateMu c (Function.update x l t)) i (fun k => if k = l then utilityDerivatives m c x l i else 0) (x l)
    (fun k => hasDerivAt_utility m c hc x l k i) n hn j
  simp only [Function.update_eq_self] at this
  refine this.congr_deriv ?_
  unfold conditionalDerivatives membership conditionalsAt
  simp only [mul_ite, mul_zero, Finset.sum_ite_eq', Finset.mem_univ, Finset.mem_filter, true_and]
  by_cases hg : n.group l = n.group j
  · by_cases h : j = l
    · subst h; simp; ring
    · simp only [hg, h, if_true, if_false, Nesting.productRho]; ring
  · have h : j ≠ l := fun h => hg (by rw [h])
    simp [hg, h, Ne.symm hg]

end Pyblp
