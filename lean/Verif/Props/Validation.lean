import Verif.Model.Validation
import Verif.Props.Groups

/-!
# C101: data that are accepted are valid, and valid data are accepted
-/

set_option linter.unusedSectionVars false

namespace Pyblp

/-! ### Specification -/

namespace Spec

variable {M F C : Type} [LinearOrder M] [DecidableEq C] {N : ℕ}

/-- Lags are rows of the data. Some rows are initial, which is when they are their own lag, and any other row is the only one with its
lag. -/
def ValidLags (lags : Fin N → ℤ) : Prop :=
  (∀ n, 0 ≤ lags n ∧ lags n < N) ∧ (∃ n : Fin N, lags n = n.val) ∧
    ∀ m n : Fin N, lags m ≠ m.val → lags n ≠ n.val → lags m = lags n → m = n

/-- Market shares are numbers between zero and one that sum to less than one in each market. -/
def ValidShares (marketIds : Fin N → M) (shares : Fin N → Fl) (values : Fin N → ℝ) : Prop :=
  (∀ n, shares n = some (values n : EReal)) ∧ (∀ n, 0 < values n ∧ values n < 1) ∧ ∀ t, ∑ n with marketIds n = t, values n < 1

/-- Product data that are valid, other than lags. -/
def ValidProducts (p : ProductFields M F C N) (values : Fin N → ℝ) : Prop :=
  (p.supply = true → p.firmIds ≠ none) ∧ (∀ ids, p.clusteringIds = some ids → N ≠ 0 → ∃ m n, ids m ≠ ids n) ∧
    (∃ shares, p.shares = some shares ∧ ValidShares p.marketIds shares values) ∧
    (∀ columns, p.firmIds ≠ none → p.ownership = some columns →
      (∀ t, (Finset.univ.filter fun n => p.marketIds n = t).card ≤ columns) ∧
        (N ≠ 0 → ∃ t, (Finset.univ.filter fun n => p.marketIds n = t).card = columns))

end Spec

section

variable {M F C : Type} [LinearOrder M] [DecidableEq C] {N : ℕ}

/-- What is checked of lags: they are valid, except that those that are too large are not noticed, and that negative lags are not noticed when
there are also some that are too large. -/
theorem checkLags_iff (lags : Fin N → ℤ) :
    checkLags lags = .ok () ↔ ((∀ n, lags n ≤ (N : ℤ) - 1) → ∀ n, 0 ≤ lags n) ∧ (∃ n : Fin N, lags n = n.val) ∧
      ∀ m n : Fin N, lags m ≠ m.val → lags n ≠ n.val → lags m = lags n → m = n := by
  unfold checkLags
  by_cases h1 : (¬ ∀ n, 0 ≤ lags n) ∧ ∀ n, lags n ≤ (N : ℤ) - 1
  · rw [if_pos h1]
    refine ⟨fun h => by simp at h, fun h => absurd (h.1 h1.2) h1.1⟩
  rw [if_neg h1]
  by_cases h2 : ∃ n : Fin N, lags n = n.val
  swap
  · rw [if_pos h2]
    exact ⟨fun h => by simp at h, fun h => absurd h.2.1 h2⟩
  rw [if_neg (not_not.2 h2)]
  by_cases h3 : ((Finset.univ.filter fun n : Fin N => ¬ lags n = n.val).image lags).card = (Finset.univ.filter fun n : Fin N => ¬ lags n = n.val).card
  swap
  · rw [if_pos h3]
    refine ⟨fun h => by simp at h, fun h => absurd ?_ h3⟩
    rw [Finset.card_image_of_injOn]
    intro m hm n hn hmn
    simp only [Finset.coe_filter, Finset.mem_univ, true_and, Set.mem_ofPred_eq] at hm hn
    exact h.2.2 m n hm hn hmn
  · rw [if_neg (not_not.2 h3)]
    refine ⟨fun _ => ⟨fun h => ?_, h2, ?_⟩, fun _ => rfl⟩
    · by_contra hn
      exact h1 ⟨hn, h⟩
    · intro m n hm hn hmn
      exact Finset.card_image_iff.1 h3 (by simpa using hm) (by simpa using hn) hmn

/-- **C101** (lags). Lags that are all rows of the data or before the first row are accepted if and only if they are valid. Missing: lags after
the last row, see `C101_refuted_lags`. -/
theorem C101_lags_partial (lags : Fin N → ℤ) (h : ∀ n, lags n < N) : checkLags lags = .ok () ↔ Spec.ValidLags lags := by
  rw [checkLags_iff, Spec.ValidLags]
  constructor
  · rintro ⟨h1, h2, h3⟩
    exact ⟨fun n => ⟨h1 (fun m => by have := h m; omega) n, h n⟩, h2, h3⟩
  · rintro ⟨h1, h2, h3⟩
    exact ⟨fun _ n => (h1 n).1, h2, h3⟩

/-- **C101** fails for lags. Lags are documented, and said by the exception, to be between 0 and N - 1. With three rows, a lag of 100 is accepted,
and so are -5 and 100 together. -/
theorem C101_refuted_lags :
    (∃ lags : Fin 3 → ℤ, checkLags lags = .ok () ∧ ∃ n, 3 ≤ lags n) ∧
      ∃ lags : Fin 3 → ℤ, checkLags lags = .ok () ∧ (∃ n, 3 ≤ lags n) ∧ ∃ n, lags n < 0 := by
  refine ⟨⟨![0, 0, 100], ?_, 2, by simp⟩, ⟨![0, -5, 100], ?_, ⟨2, by simp⟩, 1, by simp⟩⟩
  · rw [checkLags_iff]; refine ⟨by decide, by decide, by decide⟩
  · rw [checkLags_iff]; refine ⟨by decide, by decide, by decide⟩

example : Spec.ValidLags (![0, 0, 1, 3] : Fin 4 → ℤ) := ⟨by decide, by decide, by decide⟩

theorem checkShares_iff (marketIds : Fin N → M) (sort : List (Fin N)) (hsort : IsArgsort marketIds sort) (shares : Fin N → Fl) (values : Fin N → ℝ) :
    checkShares marketIds sort shares = .ok values ↔ Spec.ValidShares marketIds shares values := by
  classical
  have hsum : ∀ v : Fin N → ℝ, (((Groups.mk' marketIds sort).sum v).any fun s => decide (1 ≤ s)) = true ↔
      ∃ t, 1 ≤ ∑ n with marketIds n = t, v n := by
    intro v
    rw [C06_sum marketIds sort hsort, List.any_eq_true]
    constructor
    · rintro ⟨s, hs, h⟩
      obtain ⟨t, -, rfl⟩ := List.mem_map.1 hs
      exact ⟨t, of_decide_eq_true h⟩
    · rintro ⟨t, ht⟩
      refine ⟨_, List.mem_map.2 ⟨t, ?_, rfl⟩, decide_eq_true ht⟩
      rw [Finset.mem_sort, Finset.mem_image]
      by_contra hne
      push Not at hne
      have : (Finset.univ.filter fun n => marketIds n = t) = ∅ := by
        ext n; simpa using hne n (Finset.mem_univ n)
      rw [this, Finset.sum_empty] at ht
      linarith
  unfold checkShares
  by_cases hfin : ∀ n, (shares n).finite
  · rw [if_neg (not_not.2 hfin)]
    dsimp only
    set v : Fin N → ℝ := fun n => ((shares n).getD 0).toReal with hv
    have hval : ∀ n, shares n = some (v n : EReal) := by
      intro n
      obtain ⟨r, hr⟩ := hfin n
      simp only [hv, hr, Option.getD_some, EReal.toReal_coe]
    have huniq : ∀ w : Fin N → ℝ, (∀ n, shares n = some (w n : EReal)) → w = v := by
      intro w hw
      funext n
      have := (hw n).symm.trans (hval n)
      simpa using this
    by_cases hr : (∃ n, v n ≤ 0) ∨ ∃ n, 1 ≤ v n
    · rw [if_pos hr]
      simp only [reduceCtorEq, false_iff]
      rintro ⟨h1, h2, -⟩
      rw [huniq values h1] at h2
      rcases hr with ⟨n, hn⟩ | ⟨n, hn⟩
      · have := (h2 n).1; linarith
      · have := (h2 n).2; linarith
    · rw [if_neg hr]
      push Not at hr
      by_cases hs : (((Groups.mk' marketIds sort).sum v).any fun s => decide (1 ≤ s)) = true
      · rw [if_pos hs]
        simp only [reduceCtorEq, false_iff]
        rintro ⟨h1, -, h3⟩
        rw [huniq values h1] at h3
        obtain ⟨t, ht⟩ := (hsum v).1 hs
        exact absurd (h3 t) (not_lt.2 ht)
      · rw [if_neg hs]
        rw [hsum] at hs
        push Not at hs
        simp only [Except.ok.injEq]
        constructor
        · intro h
          rw [← h]
          exact ⟨hval, fun n => ⟨hr.1 n, hr.2 n⟩, hs⟩
        · intro h
          exact (huniq values h.1).symm
  · rw [if_pos hfin]
    simp only [reduceCtorEq, false_iff]
    rintro ⟨h1, -, -⟩
    exact hfin fun n => ⟨values n, h1 n⟩

theorem foldl_max_le (l : List ℕ) (a b : ℕ) : l.foldl max a ≤ b ↔ a ≤ b ∧ ∀ x ∈ l, x ≤ b := by
  induction l generalizing a with
  | nil => simp
  | cons y l ih => rw [List.foldl_cons, ih]; simp [and_assoc]

/-- The number of columns that ownership must have is the number of products in the market with the most products. -/
theorem maxProducts_eq (marketIds : Fin N → M) (sort : List (Fin N)) (hsort : IsArgsort marketIds sort) (b : ℕ) :
    maxProducts marketIds sort ≤ b ↔ ∀ t, (Finset.univ.filter fun n => marketIds n = t).card ≤ b := by
  rw [maxProducts, foldl_max_le, C06_counts marketIds sort hsort]
  simp only [Nat.zero_le, List.mem_map, Finset.mem_sort, Finset.mem_image, Finset.mem_univ, true_and, forall_exists_index, and_imp]
  constructor
  · intro h t
    by_cases ht : ∃ n, marketIds n = t
    · obtain ⟨n, hn⟩ := ht
      exact h _ t n hn rfl
    · push Not at ht
      have : (Finset.univ.filter fun n => marketIds n = t) = ∅ := by
        ext n; simpa using ht n
      simp [this]
  · rintro h x t n hn rfl
    exact h t

theorem foldl_max_mem (l : List ℕ) (a : ℕ) : l.foldl max a = a ∨ l.foldl max a ∈ l := by
  induction l generalizing a with
  | nil => simp
  | cons y l ih =>
    rw [List.foldl_cons]
    rcases ih (max a y) with h | h
    · rcases max_choice a y with h' | h'
      · left; rw [h, h']
      · right; rw [h, h']; exact List.mem_cons_self
    · right; exact List.mem_cons_of_mem _ h

theorem maxProducts_attained (marketIds : Fin N → M) (sort : List (Fin N)) (hsort : IsArgsort marketIds sort) (hN : N ≠ 0) :
    ∃ t, (Finset.univ.filter fun n => marketIds n = t).card = maxProducts marketIds sort := by
  have hpos : 1 ≤ maxProducts marketIds sort := by
    by_contra h
    have h0 := (maxProducts_eq marketIds sort hsort 0).1 (by omega) (marketIds ⟨0, Nat.pos_of_ne_zero hN⟩)
    have : (Finset.univ.filter fun n => marketIds n = marketIds ⟨0, Nat.pos_of_ne_zero hN⟩).card ≠ 0 :=
      Finset.card_ne_zero.2 ⟨⟨0, Nat.pos_of_ne_zero hN⟩, by simp⟩
    omega
  rcases foldl_max_mem (Groups.mk' marketIds sort).counts 0 with h | h
  · rw [maxProducts, h] at hpos; omega
  · rw [C06_counts marketIds sort hsort] at h
    obtain ⟨t, -, ht⟩ := List.mem_map.1 h
    refine ⟨t, ?_⟩
    rw [maxProducts, C06_counts marketIds sort hsort]
    exact ht

theorem maxProducts_iff (marketIds : Fin N → M) (sort : List (Fin N)) (hsort : IsArgsort marketIds sort) (hN : N ≠ 0) (columns : ℕ) :
    columns = maxProducts marketIds sort ↔ (∀ t, (Finset.univ.filter fun n => marketIds n = t).card ≤ columns) ∧
      ∃ t, (Finset.univ.filter fun n => marketIds n = t).card = columns := by
  constructor
  · rintro rfl
    exact ⟨(maxProducts_eq marketIds sort hsort _).1 le_rfl, maxProducts_attained marketIds sort hsort hN⟩
  · rintro ⟨h1, t, ht⟩
    apply le_antisymm
    · rw [← ht]
      exact (maxProducts_eq marketIds sort hsort _).1 le_rfl t
    · exact (maxProducts_eq marketIds sort hsort _).2 h1

/-- **C101** (products). Product data, the lags of which are not after the last row, are accepted with given market shares if and only if they
are valid and those are the market shares. Missing: lags after the last row, see `C101_refuted_lags`. -/
theorem C101_products_partial (p : ProductFields M F C N) (sort : List (Fin N)) (hsort : IsArgsort p.marketIds sort) (hN : N ≠ 0)
    (hlags : ∀ lags, p.lagIndices = some lags → ∀ n, lags n < N) (values : Fin N → ℝ) :
    checkProducts p sort = .ok values ↔
      Spec.ValidProducts p values ∧ ∀ lags, p.lagIndices = some lags → Spec.ValidLags lags := by
  have hcluster : ∀ ids : Fin N → C, (Finset.univ.image ids).card = 1 ↔ ¬ ∃ m n, ids m ≠ ids n := by
    intro ids
    rw [Finset.card_eq_one]
    constructor
    · rintro ⟨c, hc⟩ ⟨m, n, hmn⟩
      have hm : ids m ∈ Finset.univ.image ids := Finset.mem_image_of_mem _ (Finset.mem_univ m)
      have hn : ids n ∈ Finset.univ.image ids := Finset.mem_image_of_mem _ (Finset.mem_univ n)
      rw [hc, Finset.mem_singleton] at hm hn
      exact hmn (hm.trans hn.symm)
    · intro h
      push Not at h
      refine ⟨ids ⟨0, Nat.pos_of_ne_zero hN⟩, ?_⟩
      ext c
      simp only [Finset.mem_image, Finset.mem_univ, true_and, Finset.mem_singleton]
      exact ⟨fun ⟨n, hn⟩ => hn ▸ h _ _, fun hc => ⟨_, hc.symm⟩⟩
  unfold checkProducts
  by_cases h1 : p.firmIds.isNone ∧ p.supply = true
  · rw [if_pos h1]
    refine ⟨fun h => by simp at h, fun h => absurd h1 ?_⟩
    rintro ⟨h2, h3⟩
    exact h.1.1 h3 (Option.isNone_iff_eq_none.1 h2)
  rw [if_neg h1]
  by_cases h2 : (p.clusteringIds.elim 2 fun ids => (Finset.univ.image ids).card) = 1
  · rw [if_pos h2]
    refine ⟨fun h => by simp at h, fun h => absurd h2 ?_⟩
    cases hc : p.clusteringIds with
    | none => simp
    | some ids =>
      simp only [Option.elim_some]
      rw [hcluster, not_not]
      exact h.1.2.1 ids hc hN
  rw [if_neg h2]
  have h1' : p.supply = true → p.firmIds ≠ none := fun h h' => h1 ⟨Option.isNone_iff_eq_none.2 h', h⟩
  have h2' : ∀ ids, p.clusteringIds = some ids → N ≠ 0 → ∃ m n, ids m ≠ ids n := by
    intro ids hids _
    rw [hids, Option.elim_some, hcluster, not_not] at h2
    exact h2
  have h3 : p.lagIndices.elim (.ok ()) checkLags = .ok () ↔ ∀ lags, p.lagIndices = some lags → Spec.ValidLags lags := by
    cases hl : p.lagIndices with
    | none => simp
    | some lags =>
      rw [Option.elim_some, C101_lags_partial lags (hlags lags hl)]
      simp
  by_cases h4 : p.lagIndices.elim (.ok ()) checkLags = .ok ()
  swap
  · cases he : p.lagIndices.elim (.ok ()) checkLags with
    | ok u => exact absurd he h4
    | error e =>
      refine ⟨fun h => by simp at h, fun h => absurd (h3.2 h.2) h4⟩
  rw [h4]
  dsimp only
  have h4' := h3.1 h4
  cases hs : p.shares with
  | none =>
    refine ⟨fun h => by simp at h, fun h => ?_⟩
    obtain ⟨shares, hshares, -⟩ := h.1.2.2.1
    rw [hs] at hshares
    simp at hshares
  | some shares =>
    dsimp only
    cases hv : checkShares p.marketIds sort shares with
    | error e =>
      refine ⟨fun h => by simp at h, fun h => ?_⟩
      obtain ⟨shares', hshares, hvalid⟩ := h.1.2.2.1
      rw [hs, Option.some.injEq] at hshares
      subst hshares
      rw [(checkShares_iff p.marketIds sort hsort shares values).2 hvalid] at hv
      simp at hv
    | ok v =>
      dsimp only
      have hvalid := (checkShares_iff p.marketIds sort hsort shares v).1 hv
      by_cases h5 : p.firmIds.isSome ∧ (∃ columns, p.ownership = some columns ∧ columns ≠ maxProducts p.marketIds sort)
      · rw [if_pos h5]
        refine ⟨fun h => by simp at h, fun h => ?_⟩
        obtain ⟨hf, columns, hc, hne⟩ := h5
        have hf' : p.firmIds ≠ none := fun h0 => by simp [h0] at hf
        have := h.1.2.2.2 columns hf' hc
        exact absurd ((maxProducts_iff p.marketIds sort hsort hN columns).2 ⟨this.1, this.2 hN⟩) hne
      · rw [if_neg h5, Except.ok.injEq]
        constructor
        · rintro rfl
          refine ⟨⟨h1', h2', ⟨shares, hs, hvalid⟩, ?_⟩, h4'⟩
          intro columns hf hc
          have : columns = maxProducts p.marketIds sort := by
            by_contra hne
            exact h5 ⟨Option.isSome_iff_ne_none.2 hf, columns, hc, hne⟩
          have := (maxProducts_iff p.marketIds sort hsort hN columns).1 this
          exact ⟨this.1, fun _ => this.2⟩
        · rintro ⟨⟨-, -, ⟨shares', hshares, hvalid'⟩, -⟩, -⟩
          rw [hs, Option.some.injEq] at hshares
          subst hshares
          funext n
          have := (hvalid.1 n).symm.trans (hvalid'.1 n)
          simpa using this

end

/-- Four products in two markets, with valid lags, clusters, and ownership, meet the hypotheses and are accepted. -/
noncomputable def validProducts : ProductFields ℕ ℕ ℕ 4 where
  marketIds := ![7, 3, 7, 3]
  firmIds := some ![0, 0, 1, 1]
  clusteringIds := some ![0, 1, 0, 1]
  lagIndices := some ![1, 1, 3, 3]
  shares := some ![some ((1 / 4 : ℝ) : EReal), some ((1 / 2 : ℝ) : EReal), some ((1 / 4 : ℝ) : EReal), some ((1 / 4 : ℝ) : EReal)]
  ownership := some 2
  supply := true

example : checkProducts validProducts [3, 1, 0, 2] = .ok ![1 / 4, 1 / 2, 1 / 4, 1 / 4] := by
  have hsort : IsArgsort validProducts.marketIds [3, 1, 0, 2] :=
    ⟨by decide, show (([3, 1, 0, 2] : List (Fin 4)).map (![7, 3, 7, 3] : Fin 4 → ℕ)).Pairwise (· ≤ ·) by decide⟩
  rw [C101_products_partial validProducts _ hsort (by decide)]
  · refine ⟨⟨fun _ => by simp [validProducts], ?_, ⟨_, rfl, ?_, ?_, ?_⟩, ?_⟩, ?_⟩
    · rintro ids hids -
      obtain rfl : ![0, 1, 0, 1] = ids := Option.some.inj hids
      exact ⟨0, 1, by decide⟩
    · intro n
      fin_cases n <;> rfl
    · intro n
      fin_cases n <;> norm_num
    · intro t
      rw [Finset.sum_filter, Fin.sum_univ_four]
      simp only [validProducts, Matrix.cons_val]
      by_cases h3 : 3 = t
      · subst h3; norm_num
      · by_cases h7 : 7 = t
        · subst h7; norm_num
        · simp [h3, h7]
    · intro columns _ hc
      obtain rfl : 2 = columns := Option.some.inj hc
      refine ⟨fun t => ?_, fun _ => ⟨3, by decide⟩⟩
      show (Finset.univ.filter fun n => (![7, 3, 7, 3] : Fin 4 → ℕ) n = t).card ≤ 2
      by_cases h3 : 3 = t
      · subst h3; decide
      · by_cases h7 : 7 = t
        · subst h7; decide
        · rw [Finset.card_eq_zero.2]
          · omega
          · ext n
            fin_cases n <;> simp [h3, h7]
    · intro lags hl
      obtain rfl : ![1, 1, 3, 3] = lags := Option.some.inj hl
      exact ⟨by decide, by decide, by decide⟩
  · intro lags hl
    obtain rfl : ![1, 1, 3, 3] = lags := Option.some.inj hl
    decide

/-! ### Demographics -/

namespace Spec

variable {R K : Type}

/-- A demographic that is the same for all products. -/
def Ordinary (data : Key → Option (R → Fl)) (name : Key) (values : R → Fl) : Prop := data name = some values

/-- A demographic for the product with an index in its market: under its name, or, if there is no such column, under its name with the index. -/
def ForProduct (data : Key → Option (R → Fl)) (j : ℕ) (name : Key) (values : R → Fl) : Prop :=
  data name = some values ∨ data name = none ∧ data (indexedKey name j) = some values

/-- A matrix has the formulated columns of some values of variables. Columns may only depend on formulated variables. -/
def Formulated (f : AgentFormulation K) (loaded : Key → (R → Fl) → Prop) (matrix : R → K → Fl) : Prop :=
  ∃ values : Key → R → Fl, (∀ name ∈ f.names, loaded name (values name)) ∧ ∀ r k, matrix r k = f.columns k fun name => values name r

end Spec

section

variable {R K : Type}

theorem buildAgentMatrix_some (f : AgentFormulation K) (data : Key → Option (R → Fl)) (fallback : Option ℕ) (ignoreNa : Bool) (matrix : R → K → Fl)
    (h : buildAgentMatrix f data fallback ignoreNa = some matrix) :
    Spec.Formulated f (fun name values => loadVariable data fallback name = some values) matrix := by
  unfold buildAgentMatrix at h
  by_cases h1 : ∃ name ∈ f.names, loadVariable data fallback name = none
  · rw [if_pos h1] at h; simp at h
  rw [if_neg h1] at h
  dsimp only at h
  split_ifs at h with h2
  rw [Option.some.injEq] at h
  push Not at h1
  refine ⟨fun name r => (loadVariable data fallback name).elim none fun v => v r, fun name hname => ?_, fun r k => by rw [← h]⟩
  obtain ⟨v, hv⟩ := Option.ne_none_iff_exists'.1 (h1 name hname)
  simp only [hv, Option.elim_some]

theorem loadVariable_none (data : Key → Option (R → Fl)) (name : Key) : loadVariable data none name = data name := by
  unfold loadVariable
  cases data name <;> rfl

theorem loadVariable_some (data : Key → Option (R → Fl)) (j : ℕ) (name : Key) (values : R → Fl) :
    loadVariable data (some j) name = some values ↔ Spec.ForProduct data j name values := by
  unfold loadVariable Spec.ForProduct
  cases data name <;> simp

theorem buildByProduct_spec (f : AgentFormulation K) (data : Key → Option (R → Fl)) (js : List ℕ) (matrices : List (R → K → Fl))
    (h : buildByProduct f data js = .ok matrices) :
    List.Forall₂ (fun j matrix => Spec.Formulated f (Spec.ForProduct data j) matrix) js matrices := by
  induction js generalizing matrices with
  | nil => simp only [buildByProduct, Except.ok.injEq] at h; subst h; exact List.Forall₂.nil
  | cons j js ih =>
    rw [buildByProduct] at h
    cases hm : buildAgentMatrix f data (some j) true with
    | none => rw [hm] at h; simp at h
    | some matrix =>
      rw [hm] at h
      dsimp only at h
      cases hr : buildByProduct f data js with
      | error e => rw [hr] at h; simp at h
      | ok rest =>
        rw [hr] at h
        simp only [Except.ok.injEq] at h
        subst h
        refine List.Forall₂.cons ?_ (ih rest hr)
        obtain ⟨values, h1, h2⟩ := buildAgentMatrix_some f data (some j) true matrix hm
        exact ⟨values, fun name hname => (loadVariable_some data j name _).1 (h1 name hname), h2⟩

/-- **C101** (demographics). Demographics that are accepted as the same for all products are the formulated columns of the data, and are all finite.
Those that are accepted as specific to products have one matrix for each index of a product, and it has the formulated columns of data for that
index, in the right order. When all formulated variables are columns of the data with no missing values, accepted demographics are the same for
all products and finite. Missing: data with missing values, see `C101_refuted_demographics`. -/
theorem C101_demographics_partial (f : AgentFormulation K) (data : Key → Option (R → Fl)) (maxJ : ℕ) (d : Demographics R K)
    (h : acceptDemographics f data maxJ = .ok d) :
    (∀ matrix, d = .standard matrix → Spec.Formulated f (Spec.Ordinary data) matrix ∧ ∀ r k, (matrix r k).finite) ∧
    (∀ matrices, d = .byProduct matrices → matrices.length = maxJ ∧
      ∀ j (hj : j < matrices.length), Spec.Formulated f (Spec.ForProduct data j) matrices[j]) ∧
    ((∀ name ∈ f.names, ∃ values, Spec.Ordinary data name values ∧ ∀ r, values r ≠ none) → ∃ matrix, d = .standard matrix) := by
  unfold acceptDemographics at h
  have hstandard : ∀ matrix, buildAgentMatrix f data none false = some matrix → Spec.Formulated f (Spec.Ordinary data) matrix := by
    intro matrix hm
    obtain ⟨values, h1, h2⟩ := buildAgentMatrix_some f data none false matrix hm
    exact ⟨values, fun name hname => (loadVariable_none data name).symm.trans (h1 name hname), h2⟩
  unfold buildDemographics at h
  cases hm : buildAgentMatrix f data none false with
  | some matrix =>
    rw [hm] at h
    dsimp only at h
    split_ifs at h with hfin
    rw [Except.ok.injEq] at h
    subst h
    refine ⟨fun m hm' => ?_, fun ms hms => by simp at hms, fun _ => ⟨_, rfl⟩⟩
    rw [Demographics.standard.injEq] at hm'
    subst hm'
    exact ⟨hstandard _ hm, hfin⟩
  | none =>
    rw [hm] at h
    dsimp only at h
    cases hb : buildByProduct f data (List.range maxJ) with
    | error e => rw [hb] at h; simp at h
    | ok ms =>
      rw [hb] at h
      simp only [Except.ok.injEq] at h
      subst h
      have hall := buildByProduct_spec f data _ _ hb
      refine ⟨fun m hm' => by simp at hm', fun ms' hms => ?_, fun hv => ?_⟩
      · rw [Demographics.byProduct.injEq] at hms
        subst hms
        have hlen := hall.length_eq
        rw [List.length_range] at hlen
        refine ⟨hlen.symm, fun j hj => ?_⟩
        have := (List.forall₂_iff_get.1 hall).2 j (by simpa [hlen] using hj) hj
        simpa using this
      · exfalso
        unfold buildAgentMatrix at hm
        rw [if_neg] at hm
        · dsimp only at hm
          rw [if_neg] at hm
          · simp at hm
          · rintro ⟨-, name, hname, r, hr⟩
            obtain ⟨values, hv1, hv2⟩ := hv name hname
            rw [loadVariable_none, hv1] at hr
            exact hv2 r hr
        · rintro ⟨name, hname, hl⟩
          obtain ⟨values, hv1, -⟩ := hv name hname
          rw [loadVariable_none, hv1] at hl
          simp at hl

/-- Finite variables for which all columns are finite make demographics that are accepted, as the same for all products. -/
theorem C101_demographics_accepted (f : AgentFormulation K) (data : Key → Option (R → Fl)) (maxJ : ℕ) (values : Key → R → Fl)
    (hvalues : ∀ name ∈ f.names, Spec.Ordinary data name (values name) ∧ ∀ r, values name r ≠ none)
    (hcolumns : ∀ matrix, Spec.Formulated f (Spec.Ordinary data) matrix → ∀ r k, (matrix r k).finite) :
    ∃ matrix, acceptDemographics f data maxJ = .ok (.standard matrix) := by
  have hm : ∃ matrix, buildAgentMatrix f data none false = some matrix := by
    unfold buildAgentMatrix
    rw [if_neg]
    · dsimp only
      rw [if_neg]
      · exact ⟨_, rfl⟩
      · rintro ⟨-, name, hname, r, hr⟩
        rw [loadVariable_none, (hvalues name hname).1] at hr
        exact (hvalues name hname).2 r hr
    · rintro ⟨name, hname, hl⟩
      rw [loadVariable_none, (hvalues name hname).1] at hl
      simp at hl
  obtain ⟨matrix, hm⟩ := hm
  refine ⟨matrix, ?_⟩
  unfold acceptDemographics buildDemographics
  rw [hm]
  dsimp only
  rw [if_pos]
  apply hcolumns
  obtain ⟨v, h1, h2⟩ := buildAgentMatrix_some f data none false matrix hm
  exact ⟨v, fun name hname => (loadVariable_none data name).symm.trans (h1 name hname), h2⟩

end

/-- A formulation of one demographic, which is a variable. -/
def ageFormulation : AgentFormulation Unit where
  names := [['a', 'g', 'e']]
  columns := fun _ values => values ['a', 'g', 'e']

/-- Two agents. The age of the second is given. -/
noncomputable def ageData (age : Fl) : Key → Option (Fin 2 → Fl) := fun name => if name = ['a', 'g', 'e'] then some ![some 1, age] else none

/-- **C101** fails for demographics. "Variables in agent_data that contribute to demographics should not have NaNs or infinities" is said by the
exception, but with an ordinary demographic that is missing (NaN) for one agent, Patsy raises an exception, which is taken to mean that
demographics are specific to products, and these are neither checked by Patsy nor for being finite. The missing value is accepted, as that of
each product. -/
theorem C101_refuted_demographics :
    ∃ (f : AgentFormulation Unit) (data : Key → Option (Fin 2 → Fl)) (matrices : List (Fin 2 → Unit → Fl)),
      (∀ name ∈ f.names, ∃ values, Spec.Ordinary data name values) ∧
      acceptDemographics f data 2 = .ok (.byProduct matrices) ∧ ∀ matrix ∈ matrices, matrix 1 () = none := by
  have h0 : buildAgentMatrix ageFormulation (ageData none) none false = none := by
    unfold buildAgentMatrix
    rw [if_neg]
    · dsimp only
      rw [if_pos]
      exact ⟨rfl, ['a', 'g', 'e'], by simp [ageFormulation], 1, by simp [loadVariable, ageData]⟩
    · simp [ageFormulation, loadVariable, ageData]
  have hj : ∀ j, ∃ matrix, buildAgentMatrix ageFormulation (ageData none) (some j) true = some matrix ∧ matrix 1 () = none := by
    intro j
    unfold buildAgentMatrix
    rw [if_neg]
    · dsimp only
      rw [if_neg (by simp)]
      exact ⟨_, rfl, by simp [ageFormulation, loadVariable, ageData]⟩
    · simp [ageFormulation, loadVariable, ageData]
  obtain ⟨m0, h00, h01⟩ := hj 0
  obtain ⟨m1, h10, h11⟩ := hj 1
  refine ⟨ageFormulation, ageData none, [m0, m1], ?_, ?_, ?_⟩
  · simp [ageFormulation, Spec.Ordinary, ageData]
  · unfold acceptDemographics buildDemographics
    rw [h0]
    simp [List.range_succ, buildByProduct, h00, h10]
  · simp [h01, h11]

/-- An infinite age, unlike a missing one, is rejected. -/
example : acceptDemographics ageFormulation (ageData (some ⊤)) 2 = .error .valueError := by
  cases h : acceptDemographics ageFormulation (ageData (some ⊤)) 2 with
  | ok d =>
    exfalso
    obtain ⟨h1, -, h3⟩ := C101_demographics_partial _ _ _ _ h
    obtain ⟨matrix, rfl⟩ := h3 (by
      intro name hname
      obtain rfl : name = ['a', 'g', 'e'] := by simpa [ageFormulation] using hname
      refine ⟨![some 1, some ⊤], by simp [Spec.Ordinary, ageData], ?_⟩
      intro r
      fin_cases r <;> simp)
    obtain ⟨⟨values, hv, hm⟩, hfin⟩ := h1 _ rfl
    obtain ⟨x, hx⟩ := hfin 1 ()
    rw [hm] at hx
    have := hv ['a', 'g', 'e'] (by simp [ageFormulation])
    simp only [Spec.Ordinary, ageData, if_true, Option.some.injEq] at this
    simp only [ageFormulation, ← this, Matrix.cons_val_one, Matrix.cons_val_fin_one, Option.some.injEq] at hx
    exact absurd hx.symm (EReal.coe_ne_top x)
  | error e =>
    unfold acceptDemographics at h
    cases hb : buildDemographics ageFormulation (ageData (some ⊤)) 2 with
    | error e' =>
      exfalso
      unfold buildDemographics buildAgentMatrix at hb
      rw [if_neg (by simp [ageFormulation, loadVariable, ageData])] at hb
      dsimp only at hb
      rw [if_neg] at hb
      · simp at hb
      · rintro ⟨-, name, hname, r, hr⟩
        obtain rfl : name = ['a', 'g', 'e'] := by simpa [ageFormulation] using hname
        fin_cases r <;> simp [loadVariable, ageData] at hr
    | ok d =>
      rw [hb] at h
      cases d with
      | standard matrix => dsimp only at h; split_ifs at h; rw [← h]
      | byProduct matrices => simp at h

end Pyblp
