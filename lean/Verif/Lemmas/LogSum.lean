import Verif.Props.PostEstimation
import Mathlib.Analysis.SpecialFunctions.Log.Deriv

/-! Derivatives and limits of log-sums and of choice probabilities. -/

set_option linter.unusedSectionVars false

namespace Pyblp

open Filter Topology

variable {J A G K1 K2 : Type} [Fintype J] [DecidableEq J] [Nonempty J] [Fintype G] [DecidableEq G] [Fintype A]
  [Fintype K1] [Fintype K2]

lemma logSum_nested (n : Nesting J G) (v a : J → ℝ) :
    Spec.logSum (some n) v a = Real.log (1 + ∑ g, Spec.expInclusive n.group n.rho.groupRho v a g) := rfl

/-- The weighted sum of nested probabilities by group. -/
lemma nested_weighted (group : J → G) (rho : G → ℝ) (v a d : J → ℝ) (o : ℝ) :
    ∑ k, Spec.nested group rho v a o k * d k =
      (∑ g, Spec.expInclusive group rho v a g * withinMean group rho v a d g) / (o + ∑ g, Spec.expInclusive group rho v a g) := by
  rw [← Finset.sum_fiberwise Finset.univ group, Finset.sum_div]
  refine Finset.sum_congr rfl fun g _ => ?_
  unfold withinMean
  rw [Finset.mul_sum, Finset.sum_div]
  refine Finset.sum_congr rfl fun k hk => ?_
  unfold Spec.nested Spec.groupProb
  rw [(Finset.mem_filter.mp hk).2]
  ring

/-- The derivative of a log-sum is the probability-weighted derivative of utilities. -/
lemma hasDerivAt_logSum (m : Market J A G) (hm : WellFormed m) (he : m.epsilonScale = 1) (o : ProbOpts J A) (ho : o.availability = none)
    (hout : o.eliminateOutside = false) (i : A) (delta : ℝ → J → ℝ) (mu : ℝ → J → A → ℝ) (v' : J → ℝ) (t : ℝ)
    (h : ∀ k, HasDerivAt (fun r => delta r k + mu r k i) (v' k) t) :
    HasDerivAt (fun r => Spec.logSum m.nesting (fun k => delta r k + mu r k i) (multiplier m o i))
      (∑ k, computeProbabilities m o (delta t) (mu t) k i * v' k) t := by
  have ha := hm.availNonneg o ho i
  have hmul := multiplier_nonneg ha
  cases hn : m.nesting with
  | none =>
    have hpos : 0 < 1 + ∑ k, multiplier m o i k * Real.exp (delta t k + mu t k i) := by
      have : 0 ≤ ∑ k, multiplier m o i k * Real.exp (delta t k + mu t k i) :=
        Finset.sum_nonneg fun k _ => mul_nonneg (hmul k) (Real.exp_pos _).le
      linarith
    have hd := ((hasDerivAt_expsum (fun k r => delta r k + mu r k i) v' t h (multiplier m o i) Finset.univ).const_add 1).log hpos.ne'
    refine hd.congr_deriv ?_
    rw [Finset.sum_div]
    refine Finset.sum_congr rfl fun k _ => ?_
    rw [computeProbabilities_plain m o _ _ hn, hout, he]
    simp only [Spec.logit, div_one, Bool.false_eq_true, if_false]
    ring
  | some n =>
    have hr : ∀ g, n.rho.groupRho g < 1 := hm.regular.rhoBelowOne n hn
    have hpos : 0 < 1 + ∑ g, Spec.expInclusive n.group n.rho.groupRho (fun k => delta t k + mu t k i) (multiplier m o i) g := by
      have : 0 ≤ ∑ g, Spec.expInclusive n.group n.rho.groupRho (fun k => delta t k + mu t k i) (multiplier m o i) g :=
        Finset.sum_nonneg fun g _ => expInclusive_nonneg _ _ _ _ hmul g
      linarith
    have hd := ((HasDerivAt.fun_sum (u := Finset.univ) fun g _ => hasDerivAt_expInclusive n.group n.rho.groupRho hr
      (fun k r => delta r k + mu r k i) v' t h (multiplier m o i) hmul g).const_add 1).log hpos.ne'
    refine hd.congr_deriv ?_
    simp only [computeProbabilities_nested m o _ _ n hn i ha (fun g => (hr g).ne), hout, Bool.false_eq_true, if_false]
    rw [nested_weighted]

/-- Log-sums converge when all exponentiated utilities do. -/
lemma tendsto_logSum {X : Type} {l : Filter X} (nesting : Option (Nesting J G)) (hrho : ∀ n, nesting = some n → ∀ g, n.rho.groupRho g < 1)
    (v : X → J → ℝ) (w a b : J → ℝ) (hb : ∀ j, 0 ≤ b j)
    (h : ∀ k (s : ℝ), 0 < s → Tendsto (fun x => a k * Real.exp (v x k / s)) l (𝓝 (b k * Real.exp (w k / s)))) :
    Tendsto (fun x => Spec.logSum nesting (v x) a) l (𝓝 (Spec.logSum nesting w b)) := by
  cases nesting with
  | none =>
    have h0 : 0 ≤ ∑ j, b j * Real.exp (w j) := Finset.sum_nonneg fun j _ => mul_nonneg (hb j) (Real.exp_pos _).le
    have h1 : ∀ k, Tendsto (fun x => a k * Real.exp (v x k)) l (𝓝 (b k * Real.exp (w k))) := fun k => by
      simpa using h k 1 one_pos
    exact ((tendsto_finsetSum _ fun k _ => h1 k).const_add 1).log (by linarith)
  | some n =>
    have hr := hrho n rfl
    have h0 : 0 ≤ ∑ g, Spec.expInclusive n.group n.rho.groupRho w b g :=
      Finset.sum_nonneg fun g _ => expInclusive_nonneg _ _ _ _ hb g
    have hg : ∀ g, Tendsto (fun x => Spec.expInclusive n.group n.rho.groupRho (v x) a g) l
        (𝓝 (Spec.expInclusive n.group n.rho.groupRho w b g)) := fun g =>
      (tendsto_finsetSum _ fun k _ => h k _ (by linarith [hr g])).rpow_const (Or.inr (by linarith [hr g]))
    exact ((tendsto_finsetSum _ fun g _ => hg g).const_add 1).log (by linarith)

/-- Plain logit probabilities converge when all exponentiated utilities do. -/
lemma tendsto_logit {X : Type} {l : Filter X} (v : X → J → ℝ) (w a b : J → ℝ) (hb : ∀ j, 0 ≤ b j)
    (h : ∀ k, Tendsto (fun x => a k * Real.exp (v x k)) l (𝓝 (b k * Real.exp (w k)))) (j : J) :
    Tendsto (fun x => Spec.logit (v x) a 1 j) l (𝓝 (Spec.logit w b 1 j)) := by
  have h0 : 0 ≤ ∑ j, b j * Real.exp (w j) := Finset.sum_nonneg fun j _ => mul_nonneg (hb j) (Real.exp_pos _).le
  exact (h j).div ((tendsto_finsetSum _ fun k _ => h k).const_add 1) (by linarith)

lemma within_le_one (group : J → G) (rho : G → ℝ) (v a : J → ℝ) (ha : ∀ j, 0 ≤ a j) (j : J) : Spec.within group rho v a j ≤ 1 := by
  refine div_le_one_of_le₀ ?_ (groupSum_nonneg group rho v a ha _)
  refine Finset.single_le_sum (f := fun k => a k * Real.exp (v k / (1 - rho (group j)))) (fun k _ => mul_nonneg (ha k) (Real.exp_pos _).le)
    (Finset.mem_filter.mpr ⟨Finset.mem_univ j, rfl⟩)

lemma within_nonneg (group : J → G) (rho : G → ℝ) (v a : J → ℝ) (ha : ∀ j, 0 ≤ a j) (j : J) : 0 ≤ Spec.within group rho v a j :=
  div_nonneg (mul_nonneg (ha j) (Real.exp_pos _).le) (groupSum_nonneg group rho v a ha _)

/-- Nested logit probabilities converge when all exponentiated utilities do. -/
lemma tendsto_nested {X : Type} {l : Filter X} (group : J → G) (rho : G → ℝ) (hr : ∀ g, rho g < 1) (v : X → J → ℝ) (w a b : J → ℝ)
    (ha : ∀ j, 0 ≤ a j) (hb : ∀ j, 0 ≤ b j)
    (h : ∀ k (s : ℝ), 0 < s → Tendsto (fun x => a k * Real.exp (v x k / s)) l (𝓝 (b k * Real.exp (w k / s)))) (j : J) :
    Tendsto (fun x => Spec.nested group rho (v x) a 1 j) l (𝓝 (Spec.nested group rho w b 1 j)) := by
  have h0 : 0 ≤ ∑ g, Spec.expInclusive group rho w b g := Finset.sum_nonneg fun g _ => expInclusive_nonneg _ _ _ _ hb g
  have hs : ∀ g, Tendsto (fun x => Spec.groupSum group rho (v x) a g) l (𝓝 (Spec.groupSum group rho w b g)) := fun g =>
    tendsto_finsetSum _ fun k _ => h k _ (by linarith [hr g])
  have hg : ∀ g, Tendsto (fun x => Spec.expInclusive group rho (v x) a g) l (𝓝 (Spec.expInclusive group rho w b g)) := fun g =>
    (hs g).rpow_const (Or.inr (by linarith [hr g]))
  have hp : Tendsto (fun x => Spec.groupProb group rho (v x) a 1 (group j)) l (𝓝 (Spec.groupProb group rho w b 1 (group j))) :=
    (hg _).div ((tendsto_finsetSum _ fun g _ => hg g).const_add 1) (by linarith)
  by_cases hz : Spec.groupSum group rho w b (group j) = 0
  · -- nothing is left of the group
    have hp0 : Spec.groupProb group rho w b 1 (group j) = 0 := by
      unfold Spec.groupProb Spec.expInclusive
      rw [hz, Real.zero_rpow (by linarith [hr (group j)]), zero_div]
    have hlim : Spec.nested group rho w b 1 j = 0 := by rw [Spec.nested, hp0, mul_zero]
    rw [hlim]
    rw [hp0] at hp
    refine squeeze_zero (fun x => ?_) (fun x => ?_) hp
    · exact mul_nonneg (within_nonneg group rho _ _ ha j) (div_nonneg (expInclusive_nonneg _ _ _ _ ha _)
        (add_nonneg zero_le_one (Finset.sum_nonneg fun g _ => expInclusive_nonneg _ _ _ _ ha g)))
    · exact mul_le_of_le_one_left (div_nonneg (expInclusive_nonneg _ _ _ _ ha _)
        (add_nonneg zero_le_one (Finset.sum_nonneg fun g _ => expInclusive_nonneg _ _ _ _ ha g))) (within_le_one group rho _ _ ha j)
  · exact ((h j _ (by linarith [hr (group j)])).div (hs _) hz).mul hp

/-- Multipliers in consumer surplus are those of probabilities. -/
lemma surplusMultiplier_eq (m : Market J A G) (out : J → Bool) (i : A) :
    Spec.surplusMultiplier (m.availability.map fun a => a i) out = multiplier m { eliminateMask := out } i := by
  funext j
  unfold Spec.surplusMultiplier multiplier
  cases h : m.availability <;> cases ho : out j <;> simp [ho]

lemma dProb_const_mul (m : Market J A G) (P C U : J → ℝ) (r : ℝ) (j : J) : dProb m P C (fun k => r * U k) j = r * dProb m P C U j := by
  have h : ∀ (S : Finset J) (f : J → ℝ), ∑ k ∈ S, f k * (r * U k) = r * ∑ k ∈ S, f k * U k := fun S f => by
    rw [Finset.mul_sum]; exact Finset.sum_congr rfl fun k _ => by ring
  unfold dProb
  cases m.nesting with
  | none => simp only [h]; ring
  | some n => simp only [h]; ring

/-- The mean of squares is at least the squared mean, for weights that sum to at most one. -/
lemma sq_mean_le (S : Finset J) (w d : J → ℝ) (hw : ∀ j, 0 ≤ w j) (h1 : ∑ j ∈ S, w j ≤ 1) :
    (∑ j ∈ S, w j * d j) ^ 2 ≤ ∑ j ∈ S, w j * d j ^ 2 := by
  refine (Finset.sum_sq_le_sum_mul_sum_of_sq_eq_mul S (f := w) (g := fun j => w j * d j ^ 2) (fun j _ => hw j)
    (fun j _ => mul_nonneg (hw j) (sq_nonneg _)) (fun j _ => by ring)).trans ?_
  exact mul_le_of_le_one_left (Finset.sum_nonneg fun j _ => mul_nonneg (hw j) (sq_nonneg _)) h1

/-- Derivatives of probabilities with respect to utilities form a positive semidefinite matrix. -/
lemma dProb_quadratic (m : Market J A G) (hm : WellFormed m)
    (o : ProbOpts J A) (ho : o.availability = none) (hout : o.eliminateOutside = false) (delta : J → ℝ) (mu : J → A → ℝ) (i : A) (d : J → ℝ) :
    0 ≤ ∑ j, d j * dProb m (fun k => computeProbabilities m o delta mu k i) (fun k => computeConditionals m o delta mu k i) d j := by
  have ha := hm.availNonneg o ho i
  have hmul := multiplier_nonneg ha
  obtain ⟨hP, -, hsum⟩ := C17_probabilities m o delta mu i ha hm.regular.rhoBelowOne (Or.inl hout)
  have hle : ∑ j, computeProbabilities m o delta mu j i ≤ 1 := by
    have : 0 ≤ Spec.outside m o delta mu i := by
      unfold Spec.outside
      cases hn : m.nesting with
      | none => exact div_nonneg (by split_ifs <;> norm_num) (plain_denominator_pos _ hmul (Or.inl hout)).le
      | some n => exact div_nonneg (by split_ifs <;> norm_num) (nested_denominator_pos _ hmul (Or.inl hout)).le
    linarith
  have hmain := sq_mean_le Finset.univ _ d hP hle
  unfold dProb
  cases hn : m.nesting with
  | none =>
    simp only []
    have : ∑ j, d j * (computeProbabilities m o delta mu j i * (d j - ∑ k, computeProbabilities m o delta mu k i * d k)) =
        ∑ j, computeProbabilities m o delta mu j i * d j ^ 2 - (∑ j, computeProbabilities m o delta mu j i * d j) ^ 2 := by
      rw [sq (∑ j, _), Finset.sum_mul, ← Finset.sum_sub_distrib]
      exact Finset.sum_congr rfl fun j _ => by ring
    rw [this]; linarith
  | some n =>
    have hr : ∀ g, n.rho.groupRho g < 1 := hm.regular.rhoBelowOne n hn
    set P := fun k => computeProbabilities m o delta mu k i with hPdef
    set C := fun k => computeConditionals m o delta mu k i with hCdef
    set Q := fun g => Spec.groupProb n.group n.rho.groupRho (fun k => delta k + mu k i) (multiplier m o i) (if o.eliminateOutside then 0 else 1) g with hQdef
    have hPC : ∀ k, P k = C k * Q (n.group k) := fun k => by
      simp only [hPdef, hCdef, hQdef]
      rw [computeProbabilities_nested m o delta mu n hn i ha (fun g => (hr g).ne),
        computeConditionals_nested m o delta mu n hn i ha (fun g => (hr g).ne)]
      rfl
    have hC0 : ∀ k, 0 ≤ C k := fun k => by
      simp only [hCdef]
      rw [computeConditionals_nested m o delta mu n hn i ha (fun g => (hr g).ne)]
      exact within_nonneg _ _ _ _ hmul k
    have hQ0 : ∀ g, 0 ≤ Q g := fun g => div_nonneg (expInclusive_nonneg _ _ _ _ hmul g) (nested_denominator_pos _ hmul (Or.inl hout)).le
    have hC1 : ∀ g, ∑ k with n.group k = g, C k ≤ 1 := fun g => by
      simp only [hCdef, computeConditionals_nested m o delta mu n hn i ha (fun g => (hr g).ne)]
      by_cases hz : Spec.groupSum n.group n.rho.groupRho (fun k => delta k + mu k i) (multiplier m o i) g = 0
      · rw [Finset.sum_eq_zero fun k hk => by rw [Spec.within, (Finset.mem_filter.mp hk).2, hz, div_zero]]
        exact zero_le_one
      · exact (within_group_sum _ _ _ _ _ hz).le
    have hsplit : ∑ j, d j * (P j * (d j / (1 - n.productRho j) - n.productRho j / (1 - n.productRho j) *
        (∑ k with n.group k = n.group j, C k * d k) - ∑ k, P k * d k)) =
        ∑ g, Q g * ((∑ k with n.group k = g, C k * d k ^ 2) / (1 - n.rho.groupRho g) -
          n.rho.groupRho g / (1 - n.rho.groupRho g) * (∑ k with n.group k = g, C k * d k) ^ 2) - (∑ k, P k * d k) ^ 2 := by
      have h1 : ∑ j, d j * (P j * (d j / (1 - n.productRho j) - n.productRho j / (1 - n.productRho j) *
          (∑ k with n.group k = n.group j, C k * d k) - ∑ k, P k * d k)) =
          ∑ j, d j * (P j * (d j / (1 - n.productRho j) - n.productRho j / (1 - n.productRho j) *
            (∑ k with n.group k = n.group j, C k * d k))) - (∑ k, P k * d k) ^ 2 := by
        rw [sq, Finset.sum_mul, ← Finset.sum_sub_distrib]
        exact Finset.sum_congr rfl fun j _ => by ring
      rw [h1, ← Finset.sum_fiberwise Finset.univ n.group]
      congr 1
      refine Finset.sum_congr rfl fun g _ => ?_
      have h2 : ∀ j ∈ Finset.univ.filter (fun j => n.group j = g), d j * (P j * (d j / (1 - n.productRho j) -
          n.productRho j / (1 - n.productRho j) * (∑ k with n.group k = n.group j, C k * d k))) =
          Q g / (1 - n.rho.groupRho g) * (C j * d j ^ 2) - Q g * (n.rho.groupRho g / (1 - n.rho.groupRho g)) *
            (∑ k with n.group k = g, C k * d k) * (C j * d j) := fun j hj => by
        have hg := (Finset.mem_filter.mp hj).2
        rw [hPC j, show n.productRho j = n.rho.groupRho g from by rw [← hg]; rfl, hg]; ring
      rw [Finset.sum_congr rfl h2, Finset.sum_sub_distrib, ← Finset.mul_sum, ← Finset.mul_sum]
      ring
    show 0 ≤ ∑ j, d j * (P j * (d j / (1 - n.productRho j) - n.productRho j / (1 - n.productRho j) *
        (∑ k with n.group k = n.group j, C k * d k) - ∑ k, P k * d k))
    rw [hsplit]
    have hE : ∑ k, P k * d k ^ 2 = ∑ g, Q g * ∑ k with n.group k = g, C k * d k ^ 2 := by
      rw [← Finset.sum_fiberwise Finset.univ n.group]
      refine Finset.sum_congr rfl fun g _ => ?_
      rw [Finset.mul_sum]
      exact Finset.sum_congr rfl fun k hk => by rw [hPC k, (Finset.mem_filter.mp hk).2]; ring
    have hterm : ∑ g, Q g * ∑ k with n.group k = g, C k * d k ^ 2 ≤ ∑ g, Q g * ((∑ k with n.group k = g, C k * d k ^ 2) / (1 - n.rho.groupRho g) -
          n.rho.groupRho g / (1 - n.rho.groupRho g) * (∑ k with n.group k = g, C k * d k) ^ 2) := by
      refine Finset.sum_le_sum fun g _ => mul_le_mul_of_nonneg_left ?_ (hQ0 g)
      have hsq := sq_mean_le (Finset.univ.filter fun k => n.group k = g) C d hC0 (hC1 g)
      have hpos : 0 < 1 - n.rho.groupRho g := by linarith [hr g]
      rw [div_mul_eq_mul_div, ← sub_div, le_div_iff₀ hpos]
      nlinarith [(hm.regular.rho n hn g).1]
    have hfinal : (∑ k, P k * d k) ^ 2 ≤ ∑ k, P k * d k ^ 2 := hmain
    linarith

end Pyblp
