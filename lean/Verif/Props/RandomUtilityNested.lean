import Verif.Lemmas.NestedGumbel
import Verif.Lemmas.NestedTastes
import Verif.Props.RandomUtility

/-!
# C148 with nesting

Tastes have the generalized extreme value distribution that docs/background.rst calls "a two-level nested logit".
-/

set_option linter.unusedSectionVars false

namespace Pyblp

open MeasureTheory

variable {J A G B K1 K2 : Type} [Fintype J] [DecidableEq J] [Nonempty J] [Fintype G] [DecidableEq G] [DecidableEq B]

lemma groupSum_menu (m : Market J A G) (o : ProbOpts J A) (i : A) (ha : AvailabilityBinary m o i) (n : Nesting J G) (v : J → ℝ) (h : G) :
    (∑ j with n.group j = h, if some j ∈ Spec.menu m o i then Real.exp (indexOf v (some j) / (1 - n.rho.groupRho h)) else 0) =
      Spec.groupSum n.group n.rho.groupRho v (multiplier m o i) h := by
  classical
  unfold Spec.groupSum
  refine Finset.sum_congr rfl fun j _ => ?_
  rw [multiplier_binary ha]
  simp only [mem_menu_some, indexOf]
  split_ifs <;> simp

lemma nestedGenerator_menu (m : Market J A G) (o : ProbOpts J A) (i : A) (ha : AvailabilityBinary m o i) (n : Nesting J G) (v : J → ℝ) :
    Spec.nestedGenerator n.group n.rho.groupRho (Spec.menu m o i) (indexOf v) =
      (if o.eliminateOutside then 0 else 1) + ∑ h, Spec.expInclusive n.group n.rho.groupRho v (multiplier m o i) h := by
  unfold Spec.nestedGenerator Spec.expInclusive
  simp only [groupSum_menu m o i ha n v]
  congr 1
  simp only [mem_menu_none, indexOf, Real.exp_zero]
  cases o.eliminateOutside <;> simp

lemma weakly_best_choice (m : Market J A G) (n : Nesting J G) (hn : m.nesting = some n) (hrho : ∀ h, n.rho.groupRho h < 1)
    (o : ProbOpts J A) (delta : J → ℝ) (mu : J → A → ℝ) (i : A) (ha : AvailabilityBinary m o i) (law : Measure (Option J → ℝ))
    (hlaw : Spec.NestedTastes n.group n.rho.groupRho law) (c : Option J) (hc : c ∈ Spec.menu m o i) :
    law.real {taste | ∀ d ∈ Spec.menu m o i, indexOf (fun j => delta j + mu j i) d + taste d ≤
        indexOf (fun j => delta j + mu j i) c + taste c} = Spec.choice m delta mu i o c := by
  cases c with
  | none =>
    rw [weakly_best_nested n.group n.rho.groupRho hrho hlaw (Spec.menu m o i) _ none hc _
      (hasDerivAt_nestedGenerator_none n.group n.rho.groupRho hrho _ hc _), nestedGenerator_menu m o i ha]
    unfold Spec.choice Spec.outside
    simp only [hn]
    unfold Spec.nestedOutside
    rw [mem_menu_none.1 hc]
    simp [indexOf]
  | some j =>
    rw [weakly_best_nested n.group n.rho.groupRho hrho hlaw (Spec.menu m o i) _ (some j) hc _
      (hasDerivAt_nestedGenerator_some n.group n.rho.groupRho hrho _ j hc _), nestedGenerator_menu m o i ha,
      groupSum_menu m o i ha]
    unfold Spec.choice
    simp only []
    rw [computeProbabilities_nested m o delta mu n hn i ha.nonneg (fun g => (hrho g).ne)]
    unfold Spec.nested Spec.within Spec.groupProb
    rw [multiplier_binary ha j, if_pos (mem_menu_some.1 hc), one_mul, mul_div_assoc]
    rfl

lemma sum_choice_menu (m : Market J A G) (n : Nesting J G) (hn : m.nesting = some n) (hrho : ∀ h, n.rho.groupRho h < 1)
    (o : ProbOpts J A) (delta : J → ℝ) (mu : J → A → ℝ) (i : A) (ha : AvailabilityBinary m o i) (hne : (Spec.menu m o i).Nonempty) :
    ∑ c ∈ Spec.menu m o i, Spec.choice m delta mu i o c = 1 := by
  have hset : o.eliminateOutside = false ∨ ∃ j, Offered m o i j := by
    obtain ⟨c, hc⟩ := hne
    cases c with
    | none => exact Or.inl (mem_menu_none.1 hc)
    | some j => exact Or.inr ⟨j, mem_menu_some.1 hc⟩
  have hb : RhoBelowOne m := fun n' h' => by
    rw [hn] at h'
    cases h'
    exact hrho
  rw [← choice_sum m delta mu i o ha.nonneg hb hset]
  refine Finset.sum_subset (Finset.subset_univ _) fun c _ hc => ?_
  classical
  cases c with
  | none =>
    have ho : o.eliminateOutside = true := by
      have := fun h => hc (mem_menu_none.2 h)
      simpa using this
    unfold Spec.choice Spec.outside
    simp only [hn]
    unfold Spec.nestedOutside
    simp [ho]
  | some j =>
    unfold Spec.choice
    simp only []
    rw [computeProbabilities_nested m o delta mu n hn i ha.nonneg (fun g => (hrho g).ne)]
    unfold Spec.nested Spec.within
    rw [multiplier_binary ha j, if_neg fun h => hc (mem_menu_some.2 h)]
    simp

/-- **C148.** With nesting, choice probabilities are the probabilities with which an agent who maximizes utility chooses each product and
the outside option, for tastes with the generalized extreme value distribution of a nested logit model. This is for all nesting
parameters below one, availability and eliminated alternatives. -/
theorem C148_nested_choice (m : Market J A G) (n : Nesting J G) (hn : m.nesting = some n) (hrho : ∀ h, n.rho.groupRho h < 1)
    (o : ProbOpts J A) (delta : J → ℝ) (mu : J → A → ℝ) (i : A) (ha : AvailabilityBinary m o i) (law : Measure (Option J → ℝ))
    (hlaw : Spec.NestedTastes n.group n.rho.groupRho law) (hne : (Spec.menu m o i).Nonempty) (c : Option J) :
    Spec.choice m delta mu i o c = law.real {taste | Spec.Chooses (Spec.menu m o i) (fun j => delta j + mu j i) 1 c taste} := by
  have := hlaw.probability
  by_cases hc : c ∈ Spec.menu m o i
  · simp only [chooses_iff (Spec.menu m o i) _ 1 one_pos c hc, div_one]
    exact (strictly_best_eq law _ (Spec.menu m o i) (Spec.choice m delta mu i o)
      (fun k hk => weakly_best_choice m n hn hrho o delta mu i ha law hlaw k hk)
      (sum_choice_menu m n hn hrho o delta mu i ha hne) c hc).symm
  · have h0 : {taste | Spec.Chooses (Spec.menu m o i) (fun j => delta j + mu j i) 1 c taste} = ∅ := by
      ext taste; simp [Spec.Chooses, hc]
    rw [h0, measureReal_empty]
    have h1 := sum_choice_menu m n hn hrho o delta mu i ha hne
    classical
    cases c with
    | none =>
      have ho : o.eliminateOutside = true := by
        have := fun h => hc (mem_menu_none.2 h)
        simpa using this
      unfold Spec.choice Spec.outside
      simp only [hn]
      unfold Spec.nestedOutside
      simp [ho]
    | some j =>
      unfold Spec.choice
      simp only []
      rw [computeProbabilities_nested m o delta mu n hn i ha.nonneg (fun g => (hrho g).ne)]
      unfold Spec.nested Spec.within
      rw [multiplier_binary ha j, if_neg fun h => hc (mem_menu_some.2 h)]
      simp

/-- **C148.** With nesting, too, agents almost surely choose exactly one alternative. -/
theorem C148_nested_unique (m : Market J A G) (n : Nesting J G) (hn : m.nesting = some n) (hrho : ∀ h, n.rho.groupRho h < 1)
    (o : ProbOpts J A) (delta : J → ℝ) (mu : J → A → ℝ) (i : A) (ha : AvailabilityBinary m o i) (law : Measure (Option J → ℝ))
    (hlaw : Spec.NestedTastes n.group n.rho.groupRho law) (hne : (Spec.menu m o i).Nonempty) :
    ∀ᵐ taste ∂law, ∃! c, Spec.Chooses (Spec.menu m o i) (fun j => delta j + mu j i) 1 c taste := by
  have := hlaw.probability
  set E := fun c => {taste | Spec.Chooses (Spec.menu m o i) (fun j => delta j + mu j i) 1 c taste} with hE
  have hmeas : ∀ c, MeasurableSet (E c) := fun c => measurableSet_chooses _ _ 1 one_pos c
  have hdis : ∀ taste c d, taste ∈ E c → taste ∈ E d → c = d := by
    intro taste c d h1 h2
    by_contra hcd
    have h3 := h1.2 d h2.1 (Ne.symm hcd)
    have h4 := h2.2 c h1.1 hcd
    linarith
  have h1 : law.real (⋃ c ∈ Spec.menu m o i, E c) = 1 := by
    rw [measureReal_biUnion_finset (fun c _ d _ hcd => Set.disjoint_left.2 fun taste h1 h2 => hcd (hdis taste c d h1 h2)) fun c _ => hmeas c,
      ← sum_choice_menu m n hn hrho o delta mu i ha hne]
    exact Finset.sum_congr rfl fun c _ => (C148_nested_choice m n hn hrho o delta mu i ha law hlaw hne c).symm
  have h2 : law.real (⋃ c ∈ Spec.menu m o i, E c)ᶜ = 0 := by
    rw [probReal_compl_eq_one_sub (Finset.measurableSet_biUnion _ fun c _ => hmeas c), h1, sub_self]
  rw [measureReal_eq_zero_iff] at h2
  rw [ae_iff]
  refine measure_mono_null (t := (⋃ c ∈ Spec.menu m o i, E c)ᶜ) (fun taste h => ?_) h2
  intro hmem
  refine h ?_
  simp only [Set.mem_iUnion] at hmem
  obtain ⟨c, -, hc⟩ := hmem
  exact ⟨c, hc, fun d hd => hdis taste d c hd hc⟩

/-- **C148.** With nesting, too, what weights of second choice micro data are multiplied by is the probability that the agent chooses `c`,
and chooses `c2` if `c` is not available. -/
theorem C148_nested_second_choice (m : Market J A G) (n : Nesting J G) (hn : m.nesting = some n) (hrho : ∀ h, n.rho.groupRho h < 1)
    (delta : J → ℝ) (mu : J → A → ℝ) (i : A) (ha : AvailabilityBinary m {} i) (law : Measure (Option J → ℝ))
    (hlaw : Spec.NestedTastes n.group n.rho.groupRho law) (c c2 : Option J) :
    cellProbability m (computeProbabilities m {} delta mu) delta mu (none : Option (J → B)) (.second c c2) i =
      law.real {taste | Spec.Chooses (Spec.menu m {} i) (fun j => delta j + mu j i) 1 c taste ∧
        Spec.Chooses (Spec.menu m {} i \ {c}) (fun j => delta j + mu j i) 1 c2 taste} := by
  have := hlaw.probability
  rw [C81_difference m delta mu c c2 i ha.nonneg (fun n' h => by rw [hn] at h; cases h; exact hrho)]
  by_cases hcc : c = c2
  · subst hcc
    rw [if_pos rfl]
    have : {taste | Spec.Chooses (Spec.menu m {} i) (fun j => delta j + mu j i) 1 c taste ∧
        Spec.Chooses (Spec.menu m {} i \ {c}) (fun j => delta j + mu j i) 1 c taste} = ∅ := by
      ext taste; simp [Spec.Chooses]
    rw [this, measureReal_empty]
  · have hmenu : (Spec.menu m {} i).Nonempty := ⟨none, mem_menu_none.2 rfl⟩
    by_cases hc2 : c2 ∈ Spec.menu m {} i
    · have hne : (Spec.menu m (Spec.without c) i).Nonempty := by
        rw [menu_without]
        exact ⟨c2, by simp [hc2, Ne.symm hcc]⟩
      rw [if_neg hcc, Spec.choiceWithout, Spec.firstChoice,
        C148_nested_choice m n hn hrho _ delta mu i (ha.of _ (without_availability c)) law hlaw hne c2,
        C148_nested_choice m n hn hrho {} delta mu i ha law hlaw hmenu c2, menu_without,
        chooses_removal law _ {c} _ 1 one_pos c2 (by simp [hc2, Ne.symm hcc])
          (C148_nested_unique m n hn hrho {} delta mu i ha law hlaw hmenu)]
      simp
    · have h0 : ∀ S ⊆ Spec.menu m {} i, ∀ taste, ¬ Spec.Chooses S (fun j => delta j + mu j i) 1 c2 taste :=
        fun S hS taste h => hc2 (hS h.1)
      cases c2 with
      | none => exact absurd (mem_menu_none.2 rfl) hc2
      | some k =>
        have hz : ∀ o : ProbOpts J A, o.availability = none → some k ∉ Spec.menu m o i → Spec.choice m delta mu i o (some k) = 0 := by
          classical
          intro o ho hk
          unfold Spec.choice
          simp only []
          rw [computeProbabilities_nested m o delta mu n hn i (ha.of o ho).nonneg (fun g => (hrho g).ne)]
          unfold Spec.nested Spec.within
          rw [multiplier_binary (ha.of o ho) k, if_neg fun h => hk (mem_menu_some.2 h)]
          simp
        rw [if_neg hcc, Spec.choiceWithout, Spec.firstChoice, hz _ (without_availability c) (by rw [menu_without]; simp [hc2]),
          hz _ rfl hc2]
        simp [h0 _ Finset.sdiff_subset]

/-- **C148.** With nesting, too, consumer surplus is the expected utility of agents who choose what is best for them, net of the mean of
tastes and divided by how much they dislike prices. -/
theorem C148_nested_surplus [Fintype A] [Fintype K1] [Fintype K2] (m : Market J A G) (hm : WellFormed m) (n : Nesting J G)
    (hn : m.nesting = some n) (hrho : ∀ h, n.rho.groupRho h < 1) (he : m.epsilonScale = 1)
    (c : Characteristic J A K1 K2) (hc : c.Smooth) (alpha : A → ℝ) (hlin : Spec.LinearInPrices m c alpha) (first : J) (p : J → ℝ)
    (out : J → Bool) (ha : ∀ i, AvailabilityBinary m { eliminateMask := out } i) (law : Measure (Option J → ℝ))
    (hlaw : Spec.NestedTastes n.group n.rho.groupRho law) :
    consumerSurplus m c first p out = ∑ i, m.weights i *
      ((∫ taste, Spec.bestUtility (Spec.menu m { eliminateMask := out } i) ⟨none, mem_menu_none.2 rfl⟩
          (fun j => updateDelta c p j + updateMu c p j i) 1 taste ∂law - Real.eulerMascheroniConstant) / -(alpha i)) := by
  rw [consumerSurplus_linear m hm he c hc alpha hlin]
  refine Finset.sum_congr rfl fun i _ => ?_
  congr 2
  have h := (integral_sup_nested n.group n.rho.groupRho hrho hlaw (Spec.menu m { eliminateMask := out } i) ⟨none, mem_menu_none.2 rfl⟩
    (indexOf fun j => updateDelta c p j + updateMu c p j i)).2
  rw [nestedGenerator_menu m _ i (ha i)] at h
  have hb : ∀ taste, Spec.bestUtility (Spec.menu m { eliminateMask := out } i) ⟨none, mem_menu_none.2 rfl⟩
      (fun j => updateDelta c p j + updateMu c p j i) 1 taste =
      (Spec.menu m { eliminateMask := out } i).sup' ⟨none, mem_menu_none.2 rfl⟩
        fun k => (indexOf fun j => updateDelta c p j + updateMu c p j i) k + taste k := by
    intro taste
    unfold Spec.bestUtility
    congr 1
    funext k
    rw [tasteUtility_eq _ 1 one_pos]
    simp
  simp only [hb]
  rw [h]
  unfold Spec.logSum
  simp only [hn]
  simp [Spec.expInclusive, Spec.groupSum]

/-- **C148.** With nesting parameters of zero, tastes of the nested logit model are independent Gumbel tastes: nesting parameters that are
all zero are the same as no nesting. -/
theorem C148_nested_zero (group : J → G) : Spec.NestedTastes group (fun _ => 0) (Spec.gumbelTastes J) := by
  refine ⟨inferInstance, fun S x => ?_⟩
  have h1 : {taste : Option J → ℝ | ∀ c ∈ S, taste c ≤ x c} = (S : Set (Option J)).pi fun c => Set.Iic (x c) := by
    ext taste
    simp [Set.mem_pi]
  rw [h1, Measure.real, Spec.gumbelTastes, Measure.pi_pi_finset]
  simp only [gumbel_Iic]
  rw [← ENNReal.ofReal_prod_of_nonneg fun _ _ => (Real.exp_pos _).le, ← Real.exp_sum, ENNReal.toReal_ofReal (Real.exp_pos _).le,
    Finset.sum_neg_distrib]
  congr 2
  unfold Spec.nestedGenerator
  have h2 : ∑ c ∈ S, Real.exp (-x c) = ∑ c, if c ∈ S then Real.exp (-x c) else 0 := by
    rw [Finset.sum_ite_mem, Finset.univ_inter]
  rw [h2, Fintype.sum_option]
  congr 1
  simp only [sub_zero, div_one, Real.rpow_one]
  exact (Finset.sum_fiberwise Finset.univ group _).symm

/-- Hypotheses of theorems about nesting hold: with nesting parameters of one half, such tastes exist for all groups. -/
theorem C148_nested_half (group : J → G) : ∃ law, Spec.NestedTastes group (fun _ => 1 / 2) law :=
  ⟨_, halfNestedTastes_nested group⟩

/-- Two equally good products in one nest: with these tastes, an agent chooses the first with probability `√2 / (2 (1 + √2))`. -/
example : (halfNestedTastes fun _ : Fin 2 => ()).real {taste |
    Spec.Chooses (Spec.menu nestedDuopoly {} ()) (fun _ => (0 : ℝ) + 0) 1 (some 0) taste} =
      1 / 2 * ((2 : ℝ) ^ (1 / 2 : ℝ) / (1 + 2 ^ (1 / 2 : ℝ))) := by
  have ha : AvailabilityBinary nestedDuopoly {} () := by intro a h; simp [nestedDuopoly, duopoly] at h
  refine (C148_nested_choice nestedDuopoly ⟨fun _ => (), .single (1 / 2)⟩ rfl (fun _ => by simp only [RhoParam.groupRho]; norm_num) {}
    (fun _ => 0) (fun _ _ => 0) () ha _ (halfNestedTastes_nested fun _ : Fin 2 => ()) ⟨none, mem_menu_none.2 rfl⟩ (some 0)).symm.trans ?_
  unfold Spec.choice
  simp only []
  rw [computeProbabilities_nested nestedDuopoly {} _ _ ⟨fun _ => (), .single (1 / 2)⟩ rfl () ha.nonneg
    (fun g => by simp only [RhoParam.groupRho]; norm_num)]
  simp [Spec.nested, Spec.within, Spec.groupProb, Spec.expInclusive, Spec.groupSum, multiplier, nestedDuopoly, duopoly,
    RhoParam.groupRho]
  norm_num

/-- In this nest, an agent whose first choice is removed prefers the other product: hypotheses of the theorem about second choices hold. -/
example : cellProbability nestedDuopoly (computeProbabilities nestedDuopoly {} (fun _ => 0) fun _ _ => 0) (fun _ => 0) (fun _ _ => 0)
    (none : Option (Fin 2 → Fin 2)) (.second (some 0) (some 1)) () =
      (halfNestedTastes fun _ : Fin 2 => ()).real {taste |
        Spec.Chooses (Spec.menu nestedDuopoly {} ()) (fun _ => (0 : ℝ) + 0) 1 (some 0) taste ∧
        Spec.Chooses (Spec.menu nestedDuopoly {} () \ {some 0}) (fun _ => (0 : ℝ) + 0) 1 (some 1) taste} :=
  C148_nested_second_choice nestedDuopoly ⟨fun _ => (), .single (1 / 2)⟩ rfl (fun _ => by simp only [RhoParam.groupRho]; norm_num) _ _ ()
    (by intro a h; simp [nestedDuopoly, duopoly] at h) _ (halfNestedTastes_nested fun _ : Fin 2 => ()) _ _

/-- What agents of the nested duopoly expect: `log (1 + √2)` plus Euler's constant, which gives consumer surplus. -/
example : consumerSurplus nestedDuopoly duopolyPrices 0 (fun _ => 3) (fun _ => false) = ∑ i : Unit, nestedDuopoly.weights i *
      ((∫ taste, Spec.bestUtility (Spec.menu nestedDuopoly { eliminateMask := fun _ => false } i) ⟨none, mem_menu_none.2 rfl⟩
        (fun j => updateDelta duopolyPrices (fun _ => 3) j + updateMu duopolyPrices (fun _ => 3) j i) 1 taste
          ∂(halfNestedTastes fun _ : Fin 2 => ()) - Real.eulerMascheroniConstant) / - -1) :=
  C148_nested_surplus nestedDuopoly nestedDuopoly_wellFormed ⟨fun _ => (), .single (1 / 2)⟩ rfl
    (fun _ => by simp only [RhoParam.groupRho]; norm_num) rfl duopolyPrices duopolyPrices_smooth (fun _ => -1) nestedDuopoly_linear 0 _ _
    (fun i a h => by simp [nestedDuopoly, duopoly] at h) _ (halfNestedTastes_nested fun _ : Fin 2 => ())

end Pyblp
