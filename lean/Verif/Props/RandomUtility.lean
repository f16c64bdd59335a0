import Verif.Lemmas.Gumbel
import Verif.Props.SecondChoices
import Verif.Props.Welfare

/-!
# C148: choices are those of consumers who maximize utility

pyblp/problems/problem.py and docs/background.rst describe a consumer who chooses the product that maximizes utility
`delta + mu + epsilon`, where `epsilon` has a type I extreme value distribution. The code has formulas instead.
-/

set_option linter.unusedSectionVars false

namespace Pyblp

open MeasureTheory

variable {J A G B K1 K2 : Type} [Fintype J] [DecidableEq J] [Nonempty J] [Fintype G] [DecidableEq G] [DecidableEq B]

/-- Availability is documented to be zero or one. -/
def AvailabilityBinary (m : Market J A G) (o : ProbOpts J A) (i : A) : Prop :=
  ∀ a, (o.availability <|> m.availability) = some a → ∀ j, a i j = 0 ∨ a i j = 1

/-- What agent `i` can choose from: products that are offered to the agent, and the outside option unless it is eliminated. -/
noncomputable def Spec.menu (m : Market J A G) (o : ProbOpts J A) (i : A) : Finset (Option J) :=
  open Classical in
  Finset.univ.filter fun c => match c with
    | some j => Offered m o i j
    | none => o.eliminateOutside = false

lemma mem_menu_some {m : Market J A G} {o : ProbOpts J A} {i : A} {j : J} : some j ∈ Spec.menu m o i ↔ Offered m o i j := by
  simp [Spec.menu]

lemma mem_menu_none {m : Market J A G} {o : ProbOpts J A} {i : A} : none ∈ Spec.menu m o i ↔ o.eliminateOutside = false := by
  simp [Spec.menu]

lemma AvailabilityBinary.nonneg {m : Market J A G} {o : ProbOpts J A} {i : A} (h : AvailabilityBinary m o i) :
    AvailabilityNonneg m o i := by
  intro a ha j
  rcases h a ha j with h | h <;> rw [h]
  exact zero_le_one

lemma AvailabilityBinary.of {m : Market J A G} {i : A} (h : AvailabilityBinary m {} i) (o : ProbOpts J A) (ho : o.availability = none) :
    AvailabilityBinary m o i := by
  unfold AvailabilityBinary at *
  rw [ho]
  exact h

/-- With binary availability multipliers are indicators of products that are offered. -/
lemma multiplier_binary {m : Market J A G} {o : ProbOpts J A} {i : A} (h : AvailabilityBinary m o i) (j : J) :
    open Classical in multiplier m o i j = if Offered m o i j then 1 else 0 := by
  unfold multiplier Offered
  by_cases h1 : o.eliminateProduct = some j ∨ o.eliminateMask j = true
  · rw [if_pos h1, if_neg]
    rintro ⟨h2, h3, -⟩
    rcases h1 with h1 | h1
    · exact h2 h1
    · rw [h3] at h1; exact absurd h1 (by simp)
  · rw [if_neg h1]
    push Not at h1
    have h2 : o.eliminateMask j = false := by simpa using h1.2
    cases ha : (o.availability <|> m.availability) with
    | none => simp [h1.1, h2]
    | some a =>
      simp only [Option.some.injEq, forall_eq']
      rcases h a ha j with h3 | h3 <;> simp [h1.1, h2, h3]

/-- The utility of an alternative net of tastes, in units of their scale. -/
noncomputable def indexOf (v : J → ℝ) : Option J → ℝ
  | some j => v j
  | none => 0

lemma tasteUtility_eq (v : J → ℝ) (scale : ℝ) (hs : 0 < scale) (taste : Option J → ℝ) (c : Option J) :
    Spec.tasteUtility v scale taste c = scale * (indexOf (fun j => v j / scale) c + taste c) := by
  cases c with
  | none => simp [Spec.tasteUtility, indexOf]
  | some j =>
    simp only [Spec.tasteUtility, indexOf]
    field_simp

lemma chooses_iff (menu : Finset (Option J)) (v : J → ℝ) (scale : ℝ) (hs : 0 < scale) (c : Option J) (hc : c ∈ menu)
    (taste : Option J → ℝ) : Spec.Chooses menu v scale c taste ↔ ∀ d ∈ menu, d ≠ c →
      indexOf (fun j => v j / scale) d + taste d < indexOf (fun j => v j / scale) c + taste c := by
  unfold Spec.Chooses
  simp only [hc, true_and, tasteUtility_eq v scale hs]
  exact forall_congr' fun d => imp_congr_right fun _ => imp_congr_right fun _ => mul_lt_mul_iff_right₀ hs

lemma measurableSet_chooses (menu : Finset (Option J)) (v : J → ℝ) (scale : ℝ) (hs : 0 < scale) (c : Option J) :
    MeasurableSet {taste | Spec.Chooses menu v scale c taste} := by
  by_cases hc : c ∈ menu
  · simp only [chooses_iff menu v scale hs c hc]
    exact measurableSet_best (indexOf fun j => v j / scale) menu c
  · simp [Spec.Chooses, hc]

lemma sum_menu (m : Market J A G) (o : ProbOpts J A) (i : A) (h : AvailabilityBinary m o i) (v : J → ℝ) :
    ∑ c ∈ Spec.menu m o i, Real.exp (indexOf v c) =
      (if o.eliminateOutside then 0 else 1) + ∑ j, multiplier m o i j * Real.exp (v j) := by
  classical
  rw [Spec.menu, Finset.sum_filter, Fintype.sum_option]
  congr 1
  · cases o.eliminateOutside <;> simp [indexOf]
  · refine Finset.sum_congr rfl fun j _ => ?_
    rw [multiplier_binary h]
    simp only [indexOf]
    split_ifs <;> simp

/-- The distribution function of tastes. -/
theorem C148_gumbel (x : ℝ) :
    Spec.gumbel.real (Set.Iic x) = Real.exp (-Real.exp (-x)) ∧ ∫ y, y ∂Spec.gumbel = Real.eulerMascheroniConstant := by
  refine ⟨?_, integral_gumbel⟩
  rw [Measure.real, gumbel_Iic, ENNReal.toReal_ofReal (Real.exp_pos _).le]

/-- **C148.** Choice probabilities are the probabilities with which an agent who maximizes utility, including tastes that are
independent and have type I extreme value distributions, chooses each product and the outside option. This is for all scales of
tastes, availability and eliminated alternatives. -/
theorem C148_choice (m : Market J A G) (hn : m.nesting = none) (hs : 0 < m.epsilonScale) (o : ProbOpts J A) (delta : J → ℝ)
    (mu : J → A → ℝ) (i : A) (ha : AvailabilityBinary m o i) (c : Option J) :
    Spec.choice m delta mu i o c =
      (Spec.gumbelTastes J).real
        {taste | Spec.Chooses (Spec.menu m o i) (fun j => delta j + mu j i) m.epsilonScale c taste} := by
  classical
  by_cases hc : c ∈ Spec.menu m o i
  · simp only [chooses_iff (Spec.menu m o i) _ m.epsilonScale hs c hc]
    rw [Measure.real, Spec.gumbelTastes,
      measure_best (indexOf fun j => (delta j + mu j i) / m.epsilonScale) (Spec.menu m o i) c hc,
      ENNReal.toReal_ofReal (by positivity), sum_menu m o i ha]
    cases c with
    | some j =>
      unfold Spec.choice
      simp only []
      rw [computeProbabilities_plain m o delta mu hn]
      unfold Spec.logit
      rw [multiplier_binary ha j, if_pos (mem_menu_some.1 hc), one_mul]
      rfl
    | none =>
      unfold Spec.choice Spec.outside
      simp only [hn]
      unfold Spec.logitOutside
      rw [mem_menu_none.1 hc]
      simp [indexOf]
  · have h0 : {taste | Spec.Chooses (Spec.menu m o i) (fun j => delta j + mu j i) m.epsilonScale c taste} = ∅ := by
      ext taste; simp [Spec.Chooses, hc]
    rw [h0, measureReal_empty]
    cases c with
    | some j =>
      unfold Spec.choice
      simp only []
      rw [computeProbabilities_plain m o delta mu hn]
      unfold Spec.logit
      rw [multiplier_binary ha j, if_neg fun h => hc (mem_menu_some.2 h), zero_mul, zero_div]
    | none =>
      have ho : o.eliminateOutside = true := by
        have := fun h => hc (mem_menu_none.2 h)
        simpa using this
      unfold Spec.choice Spec.outside
      simp only [hn]
      unfold Spec.logitOutside
      simp [ho]

/-- **C148.** Market shares are shares of consumers who choose each product, when agents have their integration weights. -/
theorem C148_shares [Fintype A] (m : Market J A G) (hn : m.nesting = none) (hs : 0 < m.epsilonScale) (o : ProbOpts J A)
    (delta : J → ℝ) (mu : J → A → ℝ) (ha : ∀ i, AvailabilityBinary m o i) (j : J) :
    computeShares m o delta mu j = ∑ i, m.weights i * (Spec.gumbelTastes J).real
      {taste | Spec.Chooses (Spec.menu m o i) (fun j => delta j + mu j i) m.epsilonScale (some j) taste} := by
  unfold computeShares
  refine Finset.sum_congr rfl fun i _ => ?_
  rw [mul_comm, ← C148_choice m hn hs o delta mu i (ha i) (some j)]
  rfl

instance : IsProbabilityMeasure (Spec.gumbelTastes J) := by unfold Spec.gumbelTastes; infer_instance

/-- **C148.** Ties have probability zero: when there is something to choose from, consumers almost surely choose exactly one
alternative. -/
theorem C148_unique (menu : Finset (Option J)) (hmenu : menu.Nonempty) (v : J → ℝ) (scale : ℝ) (hs : 0 < scale) :
    ∀ᵐ taste ∂(Spec.gumbelTastes J), ∃! c, Spec.Chooses menu v scale c taste := by
  filter_upwards [ae_best (indexOf fun j => v j / scale) menu hmenu] with taste ⟨c, hc, hbest⟩
  refine ⟨c, (chooses_iff menu v scale hs c hc taste).2 hbest, fun d hd => ?_⟩
  by_contra hne
  have h1 := hd.2 c hc (Ne.symm hne)
  have h2 := ((chooses_iff menu v scale hs c hc taste).2 hbest).2 d hd.1 hne
  linarith

/-- Removing alternatives from the menu makes those choose `c` who would have chosen `c`, or one that was removed and then
`c`. -/
lemma chooses_removal (law : Measure (Option J → ℝ)) [IsProbabilityMeasure law] (menu removed : Finset (Option J)) (v : J → ℝ)
    (scale : ℝ) (hs : 0 < scale) (c : Option J) (hc : c ∈ menu \ removed)
    (huniq : ∀ᵐ taste ∂law, ∃! c, Spec.Chooses menu v scale c taste) :
    law.real {taste | Spec.Chooses (menu \ removed) v scale c taste} - law.real {taste | Spec.Chooses menu v scale c taste} =
      law.real {taste | (∃ r ∈ removed, Spec.Chooses menu v scale r taste) ∧ Spec.Chooses (menu \ removed) v scale c taste} := by
  have hsub : {taste | Spec.Chooses menu v scale c taste} ⊆ {taste | Spec.Chooses (menu \ removed) v scale c taste} :=
    fun taste h => ⟨hc, fun d hd hne => h.2 d (Finset.mem_sdiff.1 hd).1 hne⟩
  rw [← measureReal_sdiff hsub (measurableSet_chooses menu v scale hs c)]
  refine measureReal_congr ?_
  filter_upwards [huniq] with taste ⟨b, hb, huniq⟩
  refine propext ⟨fun ⟨h1, h2⟩ => ⟨⟨b, ?_, hb⟩, h1⟩, fun ⟨⟨r, hr, hrb⟩, h1⟩ => ⟨h1, fun h2 => ?_⟩⟩
  · by_contra hbr
    have hbm : b ∈ menu \ removed := Finset.mem_sdiff.2 ⟨hb.1, hbr⟩
    by_cases hbc : b = c
    · exact h2 (hbc ▸ hb)
    · have h3 := h1.2 b hbm hbc
      have h4 := hb.2 c (Finset.mem_sdiff.1 hc).1 (Ne.symm hbc)
      linarith
  · have h3 := huniq r hrb
    have h4 := huniq c h2
    rw [h3, ← h4] at hr
    exact (Finset.mem_sdiff.1 hc).2 hr

lemma menu_without (m : Market J A G) (i : A) (c : Option J) :
    Spec.menu m (Spec.without c) i = Spec.menu m {} i \ {c} := by
  ext d
  rw [Finset.mem_sdiff, Finset.mem_singleton]
  cases c with
  | none =>
    cases d with
    | none => simp [mem_menu_none, Spec.without]
    | some k => simp only [mem_menu_some, Spec.without]; simp [Offered]
  | some j =>
    cases d with
    | none => simp [mem_menu_none, Spec.without]
    | some k =>
      simp only [mem_menu_some, Spec.without]
      simp only [Offered, ne_eq, Option.some.injEq]
      constructor
      · rintro ⟨h1, h2, h3⟩
        exact ⟨⟨by simp, h2, h3⟩, fun h => h1 h.symm⟩
      · rintro ⟨⟨-, h2, h3⟩, h4⟩
        exact ⟨fun h => h4 h.symm, h2, h3⟩

/-- **C148.** What weights of second choice micro data are multiplied by is the probability that the agent chooses `c`, and
chooses `c2` if `c` is not available. -/
theorem C148_second_choice (m : Market J A G) (hn : m.nesting = none) (hs : 0 < m.epsilonScale) (delta : J → ℝ) (mu : J → A → ℝ)
    (i : A) (ha : AvailabilityBinary m {} i) (c c2 : Option J) :
    cellProbability m (computeProbabilities m {} delta mu) delta mu (none : Option (J → B)) (.second c c2) i =
      (Spec.gumbelTastes J).real {taste |
        Spec.Chooses (Spec.menu m {} i) (fun j => delta j + mu j i) m.epsilonScale c taste ∧
        Spec.Chooses (Spec.menu m {} i \ {c}) (fun j => delta j + mu j i) m.epsilonScale c2 taste} := by
  rw [C81_difference m delta mu c c2 i ha.nonneg (fun n h => by rw [hn] at h; cases h)]
  by_cases hcc : c = c2
  · subst hcc
    rw [if_pos rfl]
    have : {taste | Spec.Chooses (Spec.menu m {} i) (fun j => delta j + mu j i) m.epsilonScale c taste ∧
        Spec.Chooses (Spec.menu m {} i \ {c}) (fun j => delta j + mu j i) m.epsilonScale c taste} = ∅ := by
      ext taste; simp [Spec.Chooses]
    rw [this, measureReal_empty]
  · rw [if_neg hcc, Spec.choiceWithout, Spec.firstChoice,
      C148_choice m hn hs _ delta mu i (ha.of _ (without_availability c)) c2, C148_choice m hn hs {} delta mu i ha c2, menu_without]
    by_cases hc2 : c2 ∈ Spec.menu m {} i
    · rw [chooses_removal _ _ {c} _ _ hs c2 (by simp [hc2, Ne.symm hcc]) (C148_unique _ ⟨c2, hc2⟩ _ _ hs)]
      simp
    · have h0 : ∀ S ⊆ Spec.menu m {} i, ∀ taste,
          ¬ Spec.Chooses S (fun j => delta j + mu j i) m.epsilonScale c2 taste := fun S hS taste h => hc2 (hS h.1)
      simp [h0 _ Finset.sdiff_subset, h0 _ (Finset.Subset.refl _)]

/-- **C148.** Consumer surplus is the expected utility of agents who choose what is best for them, net of the mean of tastes and
divided by how much they dislike prices. Differences in consumer surplus are hence differences in what agents expect. -/
theorem C148_surplus [Fintype A] [Fintype K1] [Fintype K2] (m : Market J A G) (hm : WellFormed m) (hn : m.nesting = none) (he : m.epsilonScale = 1)
    (c : Characteristic J A K1 K2) (hc : c.Smooth) (alpha : A → ℝ) (hlin : Spec.LinearInPrices m c alpha) (first : J) (p : J → ℝ)
    (out : J → Bool) (ha : ∀ i, AvailabilityBinary m { eliminateMask := out } i) :
    consumerSurplus m c first p out = ∑ i, m.weights i *
      ((∫ taste, Spec.bestUtility (Spec.menu m { eliminateMask := out } i) ⟨none, mem_menu_none.2 rfl⟩
          (fun j => updateDelta c p j + updateMu c p j i) 1 taste ∂(Spec.gumbelTastes J)
        - Real.eulerMascheroniConstant) / -(alpha i)) := by
  rw [consumerSurplus_linear m hm he c hc alpha hlin]
  refine Finset.sum_congr rfl fun i _ => ?_
  congr 2
  have h := (integral_sup_gumbel (indexOf fun j => updateDelta c p j + updateMu c p j i)
    (Spec.menu m { eliminateMask := out } i) ⟨none, mem_menu_none.2 rfl⟩).2
  rw [sum_menu m _ i (ha i)] at h
  have hb : ∀ taste, Spec.bestUtility (Spec.menu m { eliminateMask := out } i) ⟨none, mem_menu_none.2 rfl⟩
      (fun j => updateDelta c p j + updateMu c p j i) 1 taste =
      (Spec.menu m { eliminateMask := out } i).sup' ⟨none, mem_menu_none.2 rfl⟩
        fun k => (indexOf fun j => updateDelta c p j + updateMu c p j i) k + taste k := by
    intro taste
    unfold Spec.bestUtility
    congr 1
    funext k
    rw [tasteUtility_eq _ 1 one_pos]
    simp
  simp only [hb]
  unfold Spec.gumbelTastes
  rw [h]
  unfold Spec.logSum
  simp [hn]

lemma menu_removal (m : Market J A G) (i : A) (id : J → B) (j : J) :
    Spec.menu m (removalOptions (some id) j) i =
      Spec.menu m {} i \ (Finset.univ.filter fun k => id k = id j).image some := by
  ext d
  rw [Finset.mem_sdiff]
  cases d with
  | none => simp [mem_menu_none, removalOptions]
  | some k =>
    simp only [mem_menu_some, removalOptions, Finset.mem_image, Finset.mem_filter, Finset.mem_univ, true_and, Option.some.injEq,
      exists_eq_right]
    simp only [Offered, ne_eq, decide_eq_false_iff_not]
    constructor
    · rintro ⟨h1, h2, h3⟩
      exact ⟨⟨by simp, by simp, h3⟩, h2⟩
    · rintro ⟨⟨-, -, h3⟩, h4⟩
      exact ⟨by simp, h4, h3⟩

/-- **C148.** When products are removed by ID, weights of a first choice `j` and a second choice `k` with another ID are multiplied by
the probability that the agent chooses any product with the ID of `j`, and chooses `k` if none of these is available. -/
theorem C148_group_choice (m : Market J A G) (hn : m.nesting = none) (hs : 0 < m.epsilonScale) (delta : J → ℝ) (mu : J → A → ℝ)
    (i : A) (ha : AvailabilityBinary m {} i) (id : J → B) (j k : J) (hid : id k ≠ id j) :
    cellProbability m (computeProbabilities m {} delta mu) delta mu (some id) (.second (some j) (some k)) i =
      (Spec.gumbelTastes J).real {taste |
        (∃ l, id l = id j ∧ Spec.Chooses (Spec.menu m {} i) (fun j => delta j + mu j i) m.epsilonScale (some l) taste) ∧
        Spec.Chooses (Spec.menu m {} i \ (Finset.univ.filter fun k => id k = id j).image some) (fun j => delta j + mu j i)
          m.epsilonScale (some k) taste} := by
  have hjk : j ≠ k := fun h => hid (h ▸ rfl)
  unfold cellProbability microProduct
  simp only [if_neg hjk, eliminated_eq m delta mu _ j _ i ha.nonneg]
  have h1 := C148_choice m hn hs (removalOptions (some id) j) delta mu i (ha.of _ rfl) (some k)
  have h2 := C148_choice m hn hs {} delta mu i ha (some k)
  unfold Spec.choice at h1 h2
  simp only [] at h1 h2
  rw [h1, h2, menu_removal]
  by_cases hk : some k ∈ Spec.menu m {} i
  · rw [chooses_removal _ _ _ _ _ hs (some k) (by simp [hk, hid]) (C148_unique _ ⟨some k, hk⟩ _ _ hs)]
    simp
  · have h0 : ∀ S ⊆ Spec.menu m {} i, ∀ taste,
        ¬ Spec.Chooses S (fun j => delta j + mu j i) m.epsilonScale (some k) taste := fun S hS taste h => hk (hS h.1)
    simp [h0 _ Finset.sdiff_subset, h0 _ (Finset.Subset.refl _)]

/-! ## The scale of tastes -/

/-- Probabilities of alternatives on the menu. -/
lemma choice_formula (m : Market J A G) (hn : m.nesting = none) (o : ProbOpts J A) (delta : J → ℝ) (mu : J → A → ℝ) (i : A)
    (ha : AvailabilityBinary m o i) (c : Option J) (hc : c ∈ Spec.menu m o i) :
    Spec.choice m delta mu i o c = 1 / ∑ d ∈ Spec.menu m o i, Real.exp
      ((indexOf (fun j => delta j + mu j i) d - indexOf (fun j => delta j + mu j i) c) / m.epsilonScale) := by
  have hidx : ∀ d, indexOf (fun j => (delta j + mu j i) / m.epsilonScale) d = indexOf (fun j => delta j + mu j i) d / m.epsilonScale := by
    intro d; cases d <;> simp [indexOf]
  have h1 : Spec.choice m delta mu i o c = Real.exp (indexOf (fun j => delta j + mu j i) c / m.epsilonScale) /
      ∑ d ∈ Spec.menu m o i, Real.exp (indexOf (fun j => delta j + mu j i) d / m.epsilonScale) := by
    simp only [← hidx]
    rw [sum_menu m o i ha]
    cases c with
    | some j =>
      unfold Spec.choice
      simp only []
      rw [computeProbabilities_plain m o delta mu hn]
      unfold Spec.logit
      rw [multiplier_binary ha j, if_pos (mem_menu_some.1 hc), one_mul]
      rfl
    | none =>
      unfold Spec.choice Spec.outside
      simp only [hn]
      unfold Spec.logitOutside
      rw [mem_menu_none.1 hc]
      simp [indexOf]
  rw [h1, one_div]
  simp only [sub_div, Real.exp_sub]
  rw [← Finset.sum_div, inv_div]

open Filter Topology

/-- **C148.** As the scale of tastes goes to zero, all agents choose the alternative with the highest utility net of tastes: demand is
that of the pure characteristics model. -/
theorem C148_pure_characteristics (m : Market J A G) (hn : m.nesting = none) (o : ProbOpts J A) (delta : J → ℝ) (mu : J → A → ℝ)
    (i : A) (ha : AvailabilityBinary m o i) (c : Option J) (hc : Spec.Chooses (Spec.menu m o i) (fun j => delta j + mu j i) 0 c 0)
    (d : Option J) :
    Tendsto (fun scale => Spec.choice { m with epsilonScale := scale } delta mu i o d) (𝓝[>] 0) (𝓝 (if d = c then 1 else 0)) := by
  have hlt : ∀ d ∈ Spec.menu m o i, d ≠ c → indexOf (fun j => delta j + mu j i) d < indexOf (fun j => delta j + mu j i) c := by
    intro d hd hne
    have h := hc.2 d hd hne
    have hu : ∀ d, Spec.tasteUtility (fun j => delta j + mu j i) 0 0 d = indexOf (fun j => delta j + mu j i) d := by
      intro d; cases d <;> simp [Spec.tasteUtility, indexOf]
    rwa [hu, hu] at h
  have hexp : ∀ x : ℝ, x < 0 → Tendsto (fun scale : ℝ => Real.exp (x / scale)) (𝓝[>] 0) (𝓝 0) := by
    intro x hx
    have h : Tendsto (fun scale : ℝ => x / scale) (𝓝[>] 0) atBot := by
      simp only [div_eq_mul_inv]
      exact tendsto_inv_nhdsGT_zero.const_mul_atTop_of_neg hx
    exact Real.tendsto_exp_atBot.comp h
  by_cases hd : d ∈ Spec.menu m o i
  · have hf := fun scale : ℝ => choice_formula { m with epsilonScale := scale } hn o delta mu i ha d hd
    refine Tendsto.congr (fun scale => (hf scale).symm) ?_
    change Tendsto (fun scale : ℝ => 1 / ∑ k ∈ Spec.menu m o i, Real.exp
      ((indexOf (fun j => delta j + mu j i) k - indexOf (fun j => delta j + mu j i) d) / scale)) (𝓝[>] 0) _
    by_cases hdc : d = c
    · subst hdc
      rw [if_pos rfl]
      have hlim : Tendsto (fun scale : ℝ => ∑ k ∈ Spec.menu m o i, Real.exp
          ((indexOf (fun j => delta j + mu j i) k - indexOf (fun j => delta j + mu j i) d) / scale)) (𝓝[>] 0)
          (𝓝 (∑ k ∈ Spec.menu m o i, if k = d then (1 : ℝ) else 0)) := by
        refine tendsto_finsetSum _ fun k hk => ?_
        by_cases hkd : k = d
        · subst hkd
          simp
        · rw [if_neg hkd]
          exact hexp _ (sub_neg.2 (hlt k hk hkd))
      rw [Finset.sum_ite_eq' (Spec.menu m o i) d, if_pos hd] at hlim
      have h := hlim.inv₀ one_ne_zero
      simp only [one_div]
      rw [inv_one] at h
      exact h
    · rw [if_neg hdc]
      refine tendsto_of_tendsto_of_tendsto_of_le_of_le' tendsto_const_nhds
        (hexp (indexOf (fun j => delta j + mu j i) d - indexOf (fun j => delta j + mu j i) c) (sub_neg.2 (hlt d hd hdc)))
        (Eventually.of_forall fun scale => by positivity) (Eventually.of_forall fun scale => ?_)
      have hle := Finset.single_le_sum (f := fun k => Real.exp
          ((indexOf (fun j => delta j + mu j i) k - indexOf (fun j => delta j + mu j i) d) / scale))
        (fun k _ => (Real.exp_pos _).le) hc.1
      refine (one_div_le_one_div_of_le (Real.exp_pos _) hle).trans (le_of_eq ?_)
      rw [one_div, ← Real.exp_neg]
      congr 1
      ring
  · rw [if_neg (fun h : d = c => hd (h ▸ hc.1))]
    refine tendsto_const_nhds.congr' ?_
    filter_upwards [self_mem_nhdsWithin] with scale hscale
    have hsc : (0 : ℝ) < scale := hscale
    rw [C148_choice { m with epsilonScale := scale } hn hsc o delta mu i ha d]
    have h0 : {taste | Spec.Chooses (Spec.menu { m with epsilonScale := scale } o i) (fun j => delta j + mu j i) scale d taste} = ∅ := by
      ext taste
      simp only [Set.mem_ofPred_eq, Set.mem_empty_iff_false, iff_false]
      exact fun h => hd h.1
    exact (congrArg (Spec.gumbelTastes J).real h0).trans measureReal_empty |>.symm

/-- **C148.** As the scale of tastes grows, everything on the menu becomes equally likely. -/
theorem C148_large_scale (m : Market J A G) (hn : m.nesting = none) (o : ProbOpts J A) (delta : J → ℝ) (mu : J → A → ℝ)
    (i : A) (ha : AvailabilityBinary m o i) (c : Option J) (hc : c ∈ Spec.menu m o i) :
    Tendsto (fun scale => Spec.choice { m with epsilonScale := scale } delta mu i o c) atTop (𝓝 (1 / (Spec.menu m o i).card)) := by
  have hf := fun scale : ℝ => choice_formula { m with epsilonScale := scale } hn o delta mu i ha c hc
  simp only [hf]
  have hlim : Tendsto (fun scale : ℝ => ∑ k ∈ Spec.menu m o i, Real.exp
      ((indexOf (fun j => delta j + mu j i) k - indexOf (fun j => delta j + mu j i) c) / scale)) atTop
      (𝓝 (∑ _k ∈ Spec.menu m o i, Real.exp 0)) := by
    refine tendsto_finsetSum _ fun k _ => ?_
    exact (Real.continuous_exp.tendsto 0).comp (tendsto_const_nhds.div_atTop tendsto_id)
  rw [Real.exp_zero, Finset.sum_const, nsmul_eq_mul, mul_one] at hlim
  have hpos : ((Spec.menu m o i).card : ℝ) ≠ 0 := by
    exact_mod_cast (Finset.card_pos.2 ⟨c, hc⟩).ne'
  simp only [one_div]
  exact hlim.inv₀ hpos

/-! ## Examples -/

/-- Three equally good products: one is chosen with probability one fourth, and another is second with probability one twelfth. -/
example : (Spec.gumbelTastes (Fin 3)).real {taste |
      Spec.Chooses (Spec.menu threeProducts {} ()) (fun _ => (0 : ℝ) + 0) 1 (some 0) taste} = 1 / 4 ∧
    (Spec.gumbelTastes (Fin 3)).real {taste |
      Spec.Chooses (Spec.menu threeProducts {} ()) (fun _ => (0 : ℝ) + 0) 1 (some 0) taste ∧
      Spec.Chooses (Spec.menu threeProducts {} () \ {some 0}) (fun _ => (0 : ℝ) + 0) 1 (some 1) taste} = 1 / 12 := by
  have ha : AvailabilityBinary threeProducts {} () := by intro a h; simp [threeProducts] at h
  refine ⟨(C148_choice threeProducts rfl one_pos {} (fun _ => 0) (fun _ _ => 0) () ha (some 0)).symm.trans ?_,
    (C148_second_choice (B := Fin 2) threeProducts rfl one_pos (fun _ => 0) (fun _ _ => 0) () ha (some 0) (some 1)).symm.trans ?_⟩
  · unfold Spec.choice
    simp only [computeProbabilities_plain threeProducts _ _ _ rfl]
    simp [Spec.logit, multiplier, threeProducts]
    norm_num
  · rw [C81_difference threeProducts _ _ _ _ _ ha.nonneg (by intro n h; simp [threeProducts] at h), if_neg (by simp)]
    unfold Spec.choiceWithout Spec.firstChoice Spec.choice Spec.without
    simp only [computeProbabilities_plain threeProducts _ _ _ rfl]
    simp [Spec.logit, multiplier, threeProducts, Fin.sum_univ_three]
    norm_num

/-- Hypotheses of `C148_group_choice` hold: the first two of three products have the same ID. -/
example : cellProbability threeProducts (computeProbabilities threeProducts {} (fun _ => 0) fun _ _ => 0) (fun _ => 0) (fun _ _ => 0)
    (some ![(0 : Fin 2), 0, 1]) (.second (some 0) (some 2)) () =
      (Spec.gumbelTastes (Fin 3)).real {taste |
        (∃ l, ![(0 : Fin 2), 0, 1] l = ![(0 : Fin 2), 0, 1] 0 ∧
          Spec.Chooses (Spec.menu threeProducts {} ()) (fun _ => (0 : ℝ) + 0) 1 (some l) taste) ∧
        Spec.Chooses (Spec.menu threeProducts {} () \ (Finset.univ.filter fun k => ![(0 : Fin 2), 0, 1] k = ![(0 : Fin 2), 0, 1] 0).image some)
          (fun _ => (0 : ℝ) + 0) 1 (some 2) taste} :=
  C148_group_choice threeProducts rfl one_pos _ _ () (by intro a h; simp [threeProducts] at h) ![0, 0, 1] 0 2 (by decide)

/-- Hypotheses of `C148_pure_characteristics` hold: the second of three products is the best. -/
example : Tendsto (fun scale => computeProbabilities { threeProducts with epsilonScale := scale } {} ![-1, 2, 1] (fun _ _ => 0) 1 ())
    (𝓝[>] 0) (𝓝 1) := by
  have h := C148_pure_characteristics threeProducts rfl {} ![-1, 2, 1] (fun _ _ => 0) () (by intro a h; simp [threeProducts] at h)
    (some 1) ⟨mem_menu_some.2 ⟨by simp, rfl, by intro a h; simp [threeProducts] at h⟩, by
      rintro (_ | d) - hne
      · simp [Spec.tasteUtility]
      · fin_cases d <;> simp [Spec.tasteUtility] at hne ⊢
        · norm_num⟩ (some 1)
  rw [if_pos rfl] at h
  exact h

/-- Hypotheses of `C148_surplus` hold in the duopoly, where consumer surplus is `log 3`: products have zero utility net of tastes. -/
example : ∫ taste, Spec.bestUtility (Spec.menu duopoly {} ()) ⟨none, mem_menu_none.2 rfl⟩ (fun _ => 0) 1 taste ∂(Spec.gumbelTastes (Fin 2)) =
    Real.log 3 + Real.eulerMascheroniConstant := by
  have hlin : Spec.LinearInPrices duopoly duopolyPrices fun _ => -1 := fun x j i => by
    simp [utilityDerivatives_eq, duopoly, duopolyPrices]
  have hu : ∀ j : Fin 2, updateDelta duopolyPrices (fun _ => 3) j + updateMu duopolyPrices (fun _ => 3) j () = 0 := fun j => by
    simp [updateDelta, updateMu, duopolyPrices]
  have h := C148_surplus duopoly duopoly_wellFormed rfl rfl duopolyPrices duopolyPrices_smooth _ hlin 0 (fun _ => 3) (fun _ => false)
    (fun i a h => by simp [duopoly] at h)
  rw [consumerSurplus_linear duopoly duopoly_wellFormed rfl duopolyPrices duopolyPrices_smooth _ hlin] at h
  simp only [Finset.univ_unique, Finset.sum_singleton, PUnit.default_eq_unit, hu] at h
  have h3 : Spec.logSum duopoly.nesting (fun _ : Fin 2 => (0 : ℝ)) (multiplier duopoly { eliminateMask := fun _ => false } ()) = Real.log 3 := by
    simp [Spec.logSum, duopoly, multiplier]; norm_num
  rw [h3] at h
  simp only [duopoly, one_mul, neg_neg, div_one] at h
  change Real.log 3 = (∫ taste, Spec.bestUtility (Spec.menu duopoly {} ()) _ (fun _ => 0) 1 taste ∂(Spec.gumbelTastes (Fin 2))) - _ at h
  linarith

end Pyblp
