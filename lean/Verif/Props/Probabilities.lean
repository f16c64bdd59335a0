import Verif.Lemmas.Probabilities

/-!
# C17–C20: choice probabilities
-/

set_option linter.unusedSectionVars false

namespace Pyblp

variable {J A G : Type} [Fintype J] [DecidableEq J] [Nonempty J] [Fintype G] [DecidableEq G]

/-- Availability multipliers that matter for agent `i` are nonnegative (documented: zeros and ones). -/
def AvailabilityNonneg (m : Market J A G) (o : ProbOpts J A) (i : A) : Prop :=
  ∀ a, (o.availability <|> m.availability) = some a → ∀ j, 0 ≤ a i j

/-- Product `j` is in the choice set of agent `i`: it is not eliminated and is available. -/
def Offered (m : Market J A G) (o : ProbOpts J A) (i : A) (j : J) : Prop :=
  o.eliminateProduct ≠ some j ∧ o.eliminateMask j = false ∧
    ∀ a, (o.availability <|> m.availability) = some a → 0 < a i j

/-- Nesting parameters are below one, as the code needs (it divides by `1 - rho`). -/
def RhoBelowOne (m : Market J A G) : Prop := ∀ n, m.nesting = some n → ∀ g, n.rho.groupRho g < 1

lemma multiplier_nonneg {m : Market J A G} {o : ProbOpts J A} {i : A} (h : AvailabilityNonneg m o i) (j : J) :
    0 ≤ multiplier m o i j := by
  unfold multiplier
  split_ifs
  · exact le_rfl
  · cases ha : (o.availability <|> m.availability) with
    | none => exact zero_le_one
    | some a => exact h a ha j

lemma multiplier_pos {m : Market J A G} {o : ProbOpts J A} {i : A} {j : J} (h : Offered m o i j) :
    0 < multiplier m o i j := by
  unfold multiplier
  rw [if_neg (by simp [h.1, h.2.1])]
  cases ha : (o.availability <|> m.availability) with
  | none => exact zero_lt_one
  | some a => exact h.2.2 a ha

/-- The choice probability of the outside option of agent `i`, as documented (zero if it is not offered). -/
noncomputable def Spec.outside (m : Market J A G) (o : ProbOpts J A) (delta : J → ℝ) (mu : J → A → ℝ) (i : A) : ℝ :=
  match m.nesting with
  | none => Spec.logitOutside (fun k => (delta k + mu k i) / m.epsilonScale) (multiplier m o i)
      (if o.eliminateOutside then 0 else 1)
  | some n => Spec.nestedOutside n.group n.rho.groupRho (fun k => delta k + mu k i) (multiplier m o i)
      (if o.eliminateOutside then 0 else 1)

section spec_facts

lemma within_group_sum (group : J → G) (rho : G → ℝ) (v a : J → ℝ) (g : G)
    (hg : Spec.groupSum group rho v a g ≠ 0) : ∑ k with group k = g, Spec.within group rho v a k = 1 := by
  unfold Spec.within
  have : ∀ k ∈ Finset.univ.filter (fun k => group k = g),
      a k * Real.exp (v k / (1 - rho (group k))) / Spec.groupSum group rho v a (group k) =
      a k * Real.exp (v k / (1 - rho g)) / Spec.groupSum group rho v a g := by
    intro k hk; rw [(Finset.mem_filter.mp hk).2]
  rw [Finset.sum_congr rfl this, ← Finset.sum_div]
  exact div_self hg

lemma nested_group_sum (group : J → G) (rho : G → ℝ) (v a : J → ℝ) (o : ℝ) (g : G) (hr : rho g ≠ 1) :
    ∑ k with group k = g, Spec.nested group rho v a o k = Spec.groupProb group rho v a o g := by
  unfold Spec.nested
  have : ∀ k ∈ Finset.univ.filter (fun k => group k = g),
      Spec.within group rho v a k * Spec.groupProb group rho v a o (group k) =
      Spec.within group rho v a k * Spec.groupProb group rho v a o g := by
    intro k hk; rw [(Finset.mem_filter.mp hk).2]
  rw [Finset.sum_congr rfl this, ← Finset.sum_mul]
  by_cases hg : Spec.groupSum group rho v a g = 0
  · have : Spec.groupProb group rho v a o g = 0 := by
      unfold Spec.groupProb Spec.expInclusive
      rw [hg, Real.zero_rpow (sub_ne_zero.mpr (Ne.symm hr)), zero_div]
    rw [this, mul_zero]
  · rw [within_group_sum _ _ _ _ _ hg, one_mul]

lemma nested_sum (group : J → G) (rho : G → ℝ) (v a : J → ℝ) (o : ℝ) (hr : ∀ g, rho g ≠ 1)
    (hd : o + ∑ h, Spec.expInclusive group rho v a h ≠ 0) :
    ∑ k, Spec.nested group rho v a o k + Spec.nestedOutside group rho v a o = 1 := by
  rw [← Finset.sum_fiberwise Finset.univ group]
  simp only [nested_group_sum group rho v a o _ (hr _)]
  unfold Spec.groupProb Spec.nestedOutside
  rw [← Finset.sum_div, ← add_div, add_comm, div_self hd]

end spec_facts

/-- The sum that is the denominator of probabilities is positive if the outside option or some product is offered. -/
lemma plain_denominator_pos {a u : J → ℝ} (o : Bool) (ha : ∀ j, 0 ≤ a j) (h : o = false ∨ ∃ j, 0 < a j) :
    0 < (if o then (0 : ℝ) else 1) + ∑ k, a k * Real.exp (u k) := by
  have hs : 0 ≤ ∑ k, a k * Real.exp (u k) := Finset.sum_nonneg fun k _ => mul_nonneg (ha k) (Real.exp_pos _).le
  rcases h with h | ⟨j, hj⟩
  · rw [h]; simp only [Bool.false_eq_true, if_false]; linarith
  · have : 0 < ∑ k, a k * Real.exp (u k) :=
      Finset.sum_pos' (fun k _ => mul_nonneg (ha k) (Real.exp_pos _).le)
        ⟨j, Finset.mem_univ _, mul_pos hj (Real.exp_pos _)⟩
    split_ifs <;> linarith

lemma groupSum_pos {group : J → G} {rho : G → ℝ} {v a : J → ℝ} (ha : ∀ j, 0 ≤ a j) {j : J} (hj : 0 < a j) :
    0 < Spec.groupSum group rho v a (group j) :=
  Finset.sum_pos' (fun k _ => mul_nonneg (ha k) (Real.exp_pos _).le)
    ⟨j, by simp, mul_pos hj (Real.exp_pos _)⟩

lemma nested_denominator_pos {group : J → G} {rho : G → ℝ} {v a : J → ℝ} (o : Bool) (ha : ∀ j, 0 ≤ a j)
    (h : o = false ∨ ∃ j, 0 < a j) :
    0 < (if o then (0 : ℝ) else 1) + ∑ g, Spec.expInclusive group rho v a g := by
  have hs : 0 ≤ ∑ g, Spec.expInclusive group rho v a g :=
    Finset.sum_nonneg fun g _ => expInclusive_nonneg _ _ _ _ ha g
  rcases h with h | ⟨j, hj⟩
  · rw [h]; simp only [Bool.false_eq_true, if_false]; linarith
  · have : 0 < ∑ g, Spec.expInclusive group rho v a g :=
      Finset.sum_pos' (fun g _ => expInclusive_nonneg _ _ _ _ ha g)
        ⟨group j, Finset.mem_univ _, Real.rpow_pos_of_pos (groupSum_pos ha hj) _⟩
    split_ifs <;> linarith

lemma computeProbabilities_nested (m : Market J A G) (o : ProbOpts J A) (delta : J → ℝ) (mu : J → A → ℝ)
    (n : Nesting J G) (hn : m.nesting = some n) (i : A) (ha : AvailabilityNonneg m o i)
    (hrho : ∀ g, n.rho.groupRho g ≠ 1) (j : J) :
    computeProbabilities m o delta mu j i =
      Spec.nested n.group n.rho.groupRho (fun k => delta k + mu k i) (multiplier m o i)
        (if o.eliminateOutside then 0 else 1) j := by
  unfold computeProbabilities
  rw [agentProbabilities_nested m o delta mu n hn i (multiplier_nonneg ha) hrho]

lemma computeConditionals_nested (m : Market J A G) (o : ProbOpts J A) (delta : J → ℝ) (mu : J → A → ℝ)
    (n : Nesting J G) (hn : m.nesting = some n) (i : A) (ha : AvailabilityNonneg m o i)
    (hrho : ∀ g, n.rho.groupRho g ≠ 1) (j : J) :
    computeConditionals m o delta mu j i =
      Spec.within n.group n.rho.groupRho (fun k => delta k + mu k i) (multiplier m o i) j := by
  unfold computeConditionals
  rw [agentProbabilities_nested m o delta mu n hn i (multiplier_nonneg ha) hrho]

/-! ## C17 -/

/-- **C17.** For every agent, with or without nesting, with or without the overflow safeguard, with any availability and
any eliminated products: probabilities are nonnegative, strictly positive for every product in the choice set, and
together with the documented outside probability they sum to one. (`hset`: the outside option or some product is
offered, otherwise there is nothing to choose and the code divides zero by zero.) -/
theorem C17_probabilities (m : Market J A G) (o : ProbOpts J A) (delta : J → ℝ) (mu : J → A → ℝ) (i : A)
    (ha : AvailabilityNonneg m o i) (hrho : RhoBelowOne m)
    (hset : o.eliminateOutside = false ∨ ∃ j, Offered m o i j) :
    (∀ j, 0 ≤ computeProbabilities m o delta mu j i) ∧
    (∀ j, Offered m o i j → 0 < computeProbabilities m o delta mu j i) ∧
    ∑ j, computeProbabilities m o delta mu j i + Spec.outside m o delta mu i = 1 := by
  have ha' := fun j => multiplier_nonneg ha j
  have hset' : o.eliminateOutside = false ∨ ∃ j, 0 < multiplier m o i j :=
    hset.imp id fun ⟨j, hj⟩ => ⟨j, multiplier_pos hj⟩
  cases hn : m.nesting with
  | none =>
    simp only [computeProbabilities_plain m o delta mu hn]
    have hd := plain_denominator_pos (u := fun k => (delta k + mu k i) / m.epsilonScale) o.eliminateOutside ha' hset'
    refine ⟨fun j => ?_, fun j hj => ?_, ?_⟩
    · exact div_nonneg (mul_nonneg (ha' j) (Real.exp_pos _).le) hd.le
    · exact div_pos (mul_pos (multiplier_pos hj) (Real.exp_pos _)) hd
    · unfold Spec.outside Spec.logit Spec.logitOutside
      rw [hn]
      simp only []
      rw [← Finset.sum_div, ← add_div, add_comm, div_self hd.ne']
  | some n =>
    have hr : ∀ g, n.rho.groupRho g ≠ 1 := fun g => (hrho n hn g).ne
    simp only [computeProbabilities_nested m o delta mu n hn i ha hr]
    have hd := nested_denominator_pos (group := n.group) (rho := n.rho.groupRho)
      (v := fun k => delta k + mu k i) o.eliminateOutside ha' hset'
    refine ⟨fun j => ?_, fun j hj => ?_, ?_⟩
    · exact mul_nonneg (div_nonneg (mul_nonneg (ha' j) (Real.exp_pos _).le) (groupSum_nonneg _ _ _ _ ha' _))
        (div_nonneg (expInclusive_nonneg _ _ _ _ ha' _) hd.le)
    · exact mul_pos (div_pos (mul_pos (multiplier_pos hj) (Real.exp_pos _)) (groupSum_pos ha' (multiplier_pos hj)))
        (div_pos (Real.rpow_pos_of_pos (groupSum_pos ha' (multiplier_pos hj)) _) hd)
    · unfold Spec.outside
      rw [hn]
      exact nested_sum _ _ _ _ _ hr hd.ne'

/-- **C17**, the usual case: every product is offered and so is the outside option. Probabilities are strictly positive and
sum to strictly less than one. -/
theorem C17_probabilities_interior (m : Market J A G) (safe : Bool) (delta : J → ℝ) (mu : J → A → ℝ) (i : A)
    (ha : m.availability = none) (hrho : RhoBelowOne m) :
    (∀ j, 0 < computeProbabilities m { safe } delta mu j i) ∧
    ∑ j, computeProbabilities m { safe } delta mu j i < 1 := by
  have hav : AvailabilityNonneg m { safe } i := by intro a h; simp [ha] at h
  have hoff : ∀ j, Offered m { safe } i j := by
    intro j; refine ⟨by simp, rfl, ?_⟩; intro a h; simp [ha] at h
  obtain ⟨-, h2, h3⟩ := C17_probabilities m { safe } delta mu i hav hrho (Or.inl rfl)
  refine ⟨fun j => h2 j (hoff j), ?_⟩
  have hout : 0 < Spec.outside m { safe } delta mu i := by
    unfold Spec.outside
    cases hn : m.nesting with
    | none =>
      simp only []
      exact div_pos (by simp) (plain_denominator_pos _ (multiplier_nonneg hav) (Or.inl rfl))
    | some n =>
      simp only []
      exact div_pos (by simp) (nested_denominator_pos _ (multiplier_nonneg hav) (Or.inl rfl))
  linarith

/-- **C17**, without an outside option probabilities sum to one. -/
theorem C17_no_outside (m : Market J A G) (o : ProbOpts J A) (delta : J → ℝ) (mu : J → A → ℝ) (i : A)
    (ha : AvailabilityNonneg m o i) (hrho : RhoBelowOne m) (ho : o.eliminateOutside = true)
    (hset : ∃ j, Offered m o i j) :
    ∑ j, computeProbabilities m o delta mu j i = 1 := by
  have h := (C17_probabilities m o delta mu i ha hrho (Or.inr hset)).2.2
  have : Spec.outside m o delta mu i = 0 := by
    unfold Spec.outside Spec.logitOutside Spec.nestedOutside
    cases m.nesting <;> simp [ho]
  rw [this, add_zero] at h
  exact h

/-- A market with two products in one nest and one in another, two agents, used as a non-trivial instance. -/
noncomputable def exampleMarket : Market (Fin 3) (Fin 2) (Fin 2) where
  nesting := some { group := ![0, 0, 1], rho := .perGroup ![1/2, 1/4] }
  epsilonScale := 1
  weights := ![1/3, 2/3]
  availability := some ![![1, 1, 1], ![1, 0, 1]]

lemma exampleMarket_rho : RhoBelowOne exampleMarket := by
  intro n hn g
  simp only [exampleMarket, Option.some.injEq] at hn
  subst hn
  fin_cases g <;> simp [RhoParam.groupRho] <;> norm_num

lemma exampleMarket_avail (o : ProbOpts (Fin 3) (Fin 2)) (ho : o.availability = none) (i : Fin 2) :
    AvailabilityNonneg exampleMarket o i := by
  intro a h j
  simp [ho, exampleMarket] at h
  subst h
  fin_cases i <;> fin_cases j <;> simp

/-- Non-vacuity of `C17_probabilities`: hypotheses hold in the example market with product 0 eliminated. -/
example (delta : Fin 3 → ℝ) (mu : Fin 3 → Fin 2 → ℝ) :
    ∑ j, computeProbabilities exampleMarket { eliminateProduct := some 0 } delta mu j 1 +
      Spec.outside exampleMarket { eliminateProduct := some 0 } delta mu 1 = 1 :=
  (C17_probabilities _ _ delta mu 1 (exampleMarket_avail _ rfl 1) exampleMarket_rho (Or.inl rfl)).2.2

/-- Non-vacuity of `C17_no_outside`. -/
example (delta : Fin 3 → ℝ) (mu : Fin 3 → Fin 2 → ℝ) :
    ∑ j, computeProbabilities exampleMarket { eliminateOutside := true } delta mu j 1 = 1 :=
  C17_no_outside _ _ delta mu 1 (exampleMarket_avail _ rfl 1) exampleMarket_rho rfl
    ⟨2, by simp, rfl, by intro a h; simp [exampleMarket] at h; subst h; simp⟩

/-- Non-vacuity of `C17_probabilities_interior`. -/
example (delta : Fin 3 → ℝ) (mu : Fin 3 → Fin 2 → ℝ) :
    ∑ j, computeProbabilities { exampleMarket with availability := none } {} delta mu j 1 < 1 :=
  (C17_probabilities_interior { exampleMarket with availability := none } true delta mu 1 rfl exampleMarket_rho).2

/-! ## C18 -/

/-- **C18.** The overflow safeguard changes neither probabilities nor conditional probabilities. -/
theorem C18_safe_eq_unsafe (m : Market J A G) (o : ProbOpts J A) (delta : J → ℝ) (mu : J → A → ℝ) (i : A) (j : J)
    (ha : AvailabilityNonneg m o i) (hrho : RhoBelowOne m) :
    computeProbabilities m { o with safe := true } delta mu j i =
      computeProbabilities m { o with safe := false } delta mu j i ∧
    computeConditionals m { o with safe := true } delta mu j i =
      computeConditionals m { o with safe := false } delta mu j i := by
  cases hn : m.nesting with
  | none =>
    refine ⟨?_, ?_⟩
    · rw [computeProbabilities_plain _ _ _ _ hn, computeProbabilities_plain _ _ _ _ hn]; rfl
    · unfold computeConditionals agentProbabilities; rw [hn]
  | some n =>
    have hr : ∀ g, n.rho.groupRho g ≠ 1 := fun g => (hrho n hn g).ne
    have e1 := agentProbabilities_nested m { o with safe := true } delta mu n hn i
      (multiplier_nonneg (o := { o with safe := true }) ha) hr
    have e2 := agentProbabilities_nested m { o with safe := false } delta mu n hn i
      (multiplier_nonneg (o := { o with safe := false }) ha) hr
    have e3 : agentProbabilities m { o with safe := true } delta mu i =
        agentProbabilities m { o with safe := false } delta mu i := by rw [e1, e2]; rfl
    unfold computeProbabilities computeConditionals
    rw [e3]
    exact ⟨rfl, rfl⟩

/-- Non-vacuity of `C18_safe_eq_unsafe`. -/
example (delta : Fin 3 → ℝ) (mu : Fin 3 → Fin 2 → ℝ) :
    computeProbabilities exampleMarket { safe := true } delta mu 0 1 =
      computeProbabilities exampleMarket { safe := false } delta mu 0 1 :=
  (C18_safe_eq_unsafe _ {} delta mu 1 0 (exampleMarket_avail _ rfl 1) exampleMarket_rho).1

/-! ## C19 -/

/-- **C19.** With nesting parameters below one: (1) the probability of a product is its conditional probability times
the probability of choosing from its group; (2) conditional probabilities of a group with something on offer sum to one;
(3) group probabilities and the outside probability sum to one. -/
theorem C19_nested (m : Market J A G) (o : ProbOpts J A) (delta : J → ℝ) (mu : J → A → ℝ) (i : A) (n : Nesting J G)
    (hn : m.nesting = some n) (ha : AvailabilityNonneg m o i) (hrho : RhoBelowOne m)
    (hset : o.eliminateOutside = false ∨ ∃ j, Offered m o i j) :
    (∀ j, computeProbabilities m o delta mu j i =
      computeConditionals m o delta mu j i * ∑ k with n.group k = n.group j, computeProbabilities m o delta mu k i) ∧
    (∀ g, (∃ j, n.group j = g ∧ Offered m o i j) →
      ∑ k with n.group k = g, computeConditionals m o delta mu k i = 1) ∧
    ∑ g, (∑ k with n.group k = g, computeProbabilities m o delta mu k i) + Spec.outside m o delta mu i = 1 := by
  have hr : ∀ g, n.rho.groupRho g ≠ 1 := fun g => (hrho n hn g).ne
  refine ⟨fun j => ?_, ?_, ?_⟩
  · simp only [computeProbabilities_nested m o delta mu n hn i ha hr,
      computeConditionals_nested m o delta mu n hn i ha hr, nested_group_sum _ _ _ _ _ _ (hr _)]
    rfl
  · rintro g ⟨j, rfl, hj⟩
    simp only [computeConditionals_nested m o delta mu n hn i ha hr]
    exact within_group_sum _ _ _ _ _ (groupSum_pos (multiplier_nonneg ha) (multiplier_pos hj)).ne'
  · rw [Finset.sum_fiberwise]
    exact (C17_probabilities m o delta mu i ha hrho hset).2.2

/-- **C19.** With all nesting parameters zero, nested logit probabilities are the plain logit probabilities. -/
theorem C19_zero_rho (m : Market J A G) (o : ProbOpts J A) (delta : J → ℝ) (mu : J → A → ℝ) (i : A) (n : Nesting J G)
    (hn : m.nesting = some n) (ha : AvailabilityNonneg m o i) (hrho : ∀ g, n.rho.groupRho g = 0) (j : J) :
    computeProbabilities m o delta mu j i =
      computeProbabilities ({ m with nesting := none, epsilonScale := 1 } : Market J A G) o delta mu j i := by
  rw [computeProbabilities_nested m o delta mu n hn i ha (fun g => by rw [hrho g]; exact zero_ne_one),
    computeProbabilities_plain ({ m with nesting := none, epsilonScale := 1 } : Market J A G) o delta mu rfl]
  unfold Spec.nested Spec.within Spec.groupProb Spec.expInclusive Spec.logit Spec.groupSum
  simp only [hrho, sub_zero, Real.rpow_one, div_one]
  rw [Finset.sum_fiberwise Finset.univ n.group (fun k => multiplier m o i k * Real.exp (delta k + mu k i))]
  have hm : multiplier ({ m with nesting := none, epsilonScale := 1 } : Market J A G) o i = multiplier m o i := rfl
  rw [hm]
  by_cases h : ∑ k with n.group k = n.group j, multiplier m o i k * Real.exp (delta k + mu k i) = 0
  · have h0 : multiplier m o i j * Real.exp (delta j + mu j i) = 0 := by
      have := (Finset.sum_eq_zero_iff_of_nonneg (fun k _ =>
        mul_nonneg (multiplier_nonneg ha k) (Real.exp_pos (delta k + mu k i)).le)).mp h j (by simp)
      exact this
    rw [h0]; simp
  · field_simp

/-- Non-vacuity of `C19_nested`: the example market, where group 0 of agent 1 still offers product 0. -/
example (delta : Fin 3 → ℝ) (mu : Fin 3 → Fin 2 → ℝ) :
    ∑ k with (![0, 0, 1] : Fin 3 → Fin 2) k = 0, computeConditionals exampleMarket {} delta mu k 1 = 1 :=
  (C19_nested exampleMarket {} delta mu 1 _ rfl (exampleMarket_avail _ rfl 1) exampleMarket_rho (Or.inl rfl)).2.1 0
    ⟨0, rfl, by simp, rfl, by intro a h; simp [exampleMarket] at h; subst h; simp⟩

/-- Non-vacuity of `C19_zero_rho`. -/
example (delta : Fin 3 → ℝ) (mu : Fin 3 → Fin 2 → ℝ) :
    computeProbabilities { exampleMarket with nesting := some (⟨![0, 0, 1], .single 0⟩ : Nesting (Fin 3) (Fin 2)) } {} delta mu 0 1 =
      computeProbabilities
        ({ exampleMarket with nesting := none, epsilonScale := 1 } : Market (Fin 3) (Fin 2) (Fin 2)) {} delta mu 0 1 :=
  C19_zero_rho { exampleMarket with nesting := some (⟨![0, 0, 1], .single 0⟩ : Nesting (Fin 3) (Fin 2)) } {} delta mu 1 ⟨![0, 0, 1], .single 0⟩ rfl (exampleMarket_avail _ rfl 1) (fun _ => rfl) 0

/-! ## C20 -/

/-- The market in which only the products satisfying `S` exist. -/
def Market.only (m : Market J A G) (S : J → Prop) : Market {j // S j} A G where
  nesting := m.nesting.map fun n => { group := fun j => n.group j.1, rho := n.rho }
  epsilonScale := m.epsilonScale
  weights := m.weights
  availability := m.availability.map fun a i j => a i j.1

/-- A product is kept by `compute_probabilities` if it is neither the eliminated product nor has the eliminated ID. -/
def Kept (o : ProbOpts J A) (j : J) : Prop := ¬(o.eliminateProduct = some j ∨ o.eliminateMask j = true)

instance (o : ProbOpts J A) : DecidablePred (Kept o) := fun j => by unfold Kept; infer_instance

/-- The remaining options when eliminated products are absent from the market in the first place. -/
def ProbOpts.only (o : ProbOpts J A) (S : J → Prop) : ProbOpts {j // S j} A where
  safe := o.safe
  eliminateOutside := o.eliminateOutside
  availability := o.availability.map fun a i j => a i j.1

lemma multiplier_only (m : Market J A G) (o : ProbOpts J A) (i : A) (j : {j // Kept o j}) :
    multiplier (m.only (Kept o)) (o.only (Kept o)) i j = multiplier m o i j.1 := by
  unfold multiplier Market.only ProbOpts.only
  rw [if_neg (by simp), if_neg j.2]
  cases o.availability <;> cases m.availability <;> rfl

lemma multiplier_not_kept (m : Market J A G) (o : ProbOpts J A) (i : A) (j : J) (h : ¬Kept o j) :
    multiplier m o i j = 0 := by
  unfold multiplier
  unfold Kept at h
  rw [if_pos (not_not.mp h)]

lemma sum_kept (o : ProbOpts J A) (f : J → ℝ) (h : ∀ j, ¬Kept o j → f j = 0) :
    ∑ j, f j = ∑ j : {j // Kept o j}, f j.1 := by
  rw [← Finset.sum_filter_of_ne (p := Kept o) (fun x _ hx => by by_contra hc; exact hx (h x hc))]
  exact Finset.sum_subtype _ (by simp) f

lemma sum_kept_filter (o : ProbOpts J A) (f : J → ℝ) (h : ∀ j, ¬Kept o j → f j = 0) (q : J → Prop) [DecidablePred q] :
    ∑ j with q j, f j = ∑ j : {j // Kept o j} with q j.1, f j.1 := by
  rw [Finset.sum_filter, Finset.sum_filter]
  exact sum_kept o (fun j => if q j then f j else 0) (fun j hj => by simp [h j hj])

/-- **C20.** Probabilities computed with eliminated products (by index, by ID, with or without the outside option, with
or without nesting and availability) are zero for the eliminated products and otherwise equal those of the market that
contains only the remaining products. -/
theorem C20_eliminate (m : Market J A G) (o : ProbOpts J A) (delta : J → ℝ) (mu : J → A → ℝ) (i : A)
    (ha : AvailabilityNonneg m o i) (hrho : RhoBelowOne m) [Nonempty {j // Kept o j}] (j : J) :
    computeProbabilities m o delta mu j i =
      if h : Kept o j then
        computeProbabilities (m.only (Kept o)) (o.only (Kept o)) (fun k => delta k.1) (fun k => mu k.1) ⟨j, h⟩ i
      else 0 := by
  have ha' : AvailabilityNonneg (m.only (Kept o)) (o.only (Kept o)) i := by
    intro a h k
    unfold AvailabilityNonneg at ha
    cases h1 : o.availability with
    | none =>
      cases h2 : m.availability with
      | none => simp [Market.only, ProbOpts.only, h1, h2] at h
      | some b =>
        simp [Market.only, ProbOpts.only, h1, h2] at h
        subst h
        exact ha b (by simp [h1, h2]) k.1
    | some b =>
      simp [Market.only, ProbOpts.only, h1] at h
      subst h
      exact ha b (by simp [h1]) k.1
  cases hn : m.nesting with
  | none =>
    have hn' : (m.only (Kept o)).nesting = none := by simp [Market.only, hn]
    rw [computeProbabilities_plain m o delta mu hn]
    by_cases h : Kept o j
    · rw [dif_pos h, computeProbabilities_plain _ _ _ _ hn']
      unfold Spec.logit
      simp only [multiplier_only]
      rw [sum_kept o (fun k => multiplier m o i k * Real.exp ((delta k + mu k i) / m.epsilonScale))
        (fun k hk => by simp [multiplier_not_kept m o i k hk])]
      rfl
    · rw [dif_neg h]
      unfold Spec.logit
      rw [multiplier_not_kept m o i j h, zero_mul, zero_div]
  | some n =>
    have hr : ∀ g, n.rho.groupRho g ≠ 1 := fun g => (hrho n hn g).ne
    have hn' : (m.only (Kept o)).nesting = some { group := fun j => n.group j.1, rho := n.rho } := by
      simp [Market.only, hn]
    have hg : ∀ g, Spec.groupSum n.group n.rho.groupRho (fun k => delta k + mu k i) (multiplier m o i) g =
        Spec.groupSum (fun j : {j // Kept o j} => n.group j.1) n.rho.groupRho (fun k => delta k.1 + mu k.1 i)
          (fun k => multiplier m o i k.1) g := by
      intro g
      unfold Spec.groupSum
      exact sum_kept_filter o (fun k => multiplier m o i k * Real.exp ((delta k + mu k i) / (1 - n.rho.groupRho g)))
        (fun k hk => by simp [multiplier_not_kept m o i k hk]) _
    rw [computeProbabilities_nested m o delta mu n hn i ha hr]
    by_cases h : Kept o j
    · rw [dif_pos h, computeProbabilities_nested _ _ _ _ _ hn' i ha' hr]
      unfold Spec.nested Spec.within Spec.groupProb Spec.expInclusive
      rw [show multiplier (m.only (Kept o)) (o.only (Kept o)) i = fun k => multiplier m o i k.1 from
        funext (multiplier_only m o i)]
      simp only [hg]
      rfl
    · rw [dif_neg h]
      unfold Spec.nested Spec.within
      rw [multiplier_not_kept m o i j h, zero_mul, zero_div, zero_mul]

/-- Non-vacuity of `C20_eliminate`: product 1 of the example market is eliminated. -/
example (delta : Fin 3 → ℝ) (mu : Fin 3 → Fin 2 → ℝ) :
    computeProbabilities exampleMarket { eliminateProduct := some 1, eliminateOutside := true } delta mu 1 0 = 0 := by
  have : Nonempty {j // Kept ({ eliminateProduct := some 1, eliminateOutside := true } : ProbOpts (Fin 3) (Fin 2)) j} :=
    ⟨⟨0, by simp [Kept]⟩⟩
  rw [C20_eliminate _ _ delta mu 0 (exampleMarket_avail _ rfl 0) exampleMarket_rho, dif_neg (by simp [Kept])]

end Pyblp
