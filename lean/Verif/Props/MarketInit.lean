import Verif.Model.MarketInit
import Verif.Props.Parameters
import Verif.Props.Groups
import Verif.Props.Agents

/-!
# What a market is built from: C112, and micro agents with an integration configuration: C88
-/

set_option linter.unusedSectionVars false

namespace Pyblp

open Classical

noncomputable section

namespace Spec

/-- Column `l` of the starting values of `sigma` has an element that is not zero. -/
def SigmaColumn (e : ParamInputs) (l : ℕ) : Prop := ∃ k < e.K2, start e .sigma k l ≠ some 0

/-- How many columns of `sigma` before `l` have an element that is not zero. -/
def columnsBefore (e : ParamInputs) (l : ℕ) : ℕ := ((Finset.range l).filter fun l' => SigmaColumn e l').card

/-- The column of nodes for column `l` of `sigma`: the same if there is one for each, and otherwise the next one for each column of `sigma` that is
not zero. -/
def nodeColumn (e : ParamInputs) (l : ℕ) : ℕ := if e.nodeColumns = e.K2 then l else columnsBefore e l

end Spec

variable {I D K N : Type} [Fintype D] [Fintype K] [Fintype N] {J extra : ℕ}

/-! ## Nodes -/

theorem idxOf_filter_finRange {n : ℕ} (p : Fin n → Bool) (l : Fin n) (h : p l = true) :
    ((List.finRange n).filter p).idxOf l = ((List.finRange n).filter fun l' => p l' && decide (l' < l)).length := by
  have hs : (List.finRange n).Pairwise (· < ·) := List.pairwise_lt_finRange n
  have key : ∀ s : List (Fin n), s.Pairwise (· < ·) → l ∈ s → (s.filter p).idxOf l = (s.filter fun l' => p l' && decide (l' < l)).length := by
    intro s
    induction s with
    | nil => intro _ h; simp at h
    | cons a s ih =>
      intro hp hm
      rw [List.pairwise_cons] at hp
      by_cases hal : a = l
      · subst hal
        rw [List.filter_cons_of_pos h, List.idxOf_cons_self]
        symm
        rw [List.length_eq_zero_iff, List.filter_eq_nil_iff]
        intro b hb
        rcases List.mem_cons.1 hb with rfl | hb
        · simp
        · have := hp.1 b hb
          simp [not_lt.2 this.le]
      · have hm' : l ∈ s := by
          rcases List.mem_cons.1 hm with rfl | h
          · exact absurd rfl hal
          · exact h
        have hlt : a < l := hp.1 l hm'
        by_cases hpa : p a = true
        · rw [List.filter_cons_of_pos hpa, List.filter_cons_of_pos (by simp [hpa, hlt]), List.idxOf_cons_ne _ hal, ih hp.2 hm',
            List.length_cons]
        · rw [List.filter_cons_of_neg hpa, List.filter_cons_of_neg (by simp [hpa]), ih hp.2 hm']
  exact key _ hs (List.mem_finRange l)

theorem length_filter_lt {n : ℕ} (P : ℕ → Prop) (l : Fin n) :
    ((List.finRange n).filter fun l' : Fin n => decide (P l') && decide (l' < l)).length = ((Finset.range l).filter fun l' => P l').card := by
  have : ((List.finRange n).filter fun l' : Fin n => decide (P l') && decide (l' < l)).length =
      (Finset.univ.filter fun l' : Fin n => P l' ∧ l' < l).card := by
    rw [← List.toFinset_card_of_nodup ((List.nodup_finRange n).filter _)]
    congr 1
    ext x
    simp
  rw [this, ← Finset.card_image_of_injective _ Fin.val_injective]
  congr 1
  ext x
  simp only [Finset.mem_image, Finset.mem_filter, Finset.mem_univ, true_and, Finset.mem_range]
  constructor
  · rintro ⟨y, ⟨h1, h2⟩, rfl⟩
    exact ⟨h2, h1⟩
  · rintro ⟨h1, h2⟩
    exact ⟨⟨x, h1.trans l.2⟩, ⟨h2, h1⟩, rfl⟩

theorem length_maskColumns {n : ℕ} (mask : Fin n → Bool) : (maskColumns mask).length = (Finset.univ.filter fun l => mask l = true).card := by
  unfold maskColumns
  rw [← List.toFinset_card_of_nodup ((List.nodup_finRange n).filter _)]
  congr 1
  ext x
  simp

theorem nonzeroSigma_iff {e : ParamInputs} {p : Parameters} (h : buildParameters e = .ok p) (l : Fin e.K2) :
    nonzeroSigma p e.K2 l = true ↔ Spec.SigmaColumn e l := by
  obtain ⟨b0, H⟩ := built_of_ok h
  unfold nonzeroSigma Spec.SigmaColumn
  rw [decide_eq_true_eq]
  simp only [H.entry]


theorem checked_columns {e : ParamInputs} {p : Parameters} (h : buildParameters e = .ok p) :
    (Finset.univ.filter fun l : Fin e.K2 => Spec.SigmaColumn e l).card ≤ e.nodeColumns := by
  obtain ⟨b0, H⟩ := built_of_ok h
  have h1 : nonzeroColumns e.K2 (p.mats .sigma) ≤ e.nodeColumns := by
    unfold buildParameters at h
    split at h
    · cases h
    · rename_i raw hraw
      split at h
      · cases h
      · rename_i h1
        split at h
        · cases h
        · split at h
          · cases h
          · have := Except.ok.inj h
            subst this
            exact not_lt.1 h1
  refine le_trans (le_of_eq ?_) h1
  unfold nonzeroColumns
  simp only [H.entry]
  have : ∀ P : ℕ → Prop, (Finset.univ.filter fun l : Fin e.K2 => P l).card = (List.range e.K2).countP fun l => decide (P l) := by
    intro P
    rw [List.countP_eq_length_filter, ← List.toFinset_card_of_nodup (List.nodup_range.filter _),
      ← Finset.card_image_of_injective _ Fin.val_injective]
    congr 1
    ext x
    simp only [Finset.mem_image, Finset.mem_filter, Finset.mem_univ, true_and, List.mem_toFinset, List.mem_filter, List.mem_range,
      decide_eq_true_eq]
    constructor
    · rintro ⟨y, h1, rfl⟩
      exact ⟨y.2, h1⟩
    · rintro ⟨h1, h2⟩
      exact ⟨⟨x, h1⟩, h2, rfl⟩
  rw [this fun l => Spec.SigmaColumn e l]
  refine List.countP_congr fun l _ => ?_
  simp only [decide_eq_true_eq]
  rfl

theorem columnsBefore_lt (e : ParamInputs) (l : Fin e.K2) (h : Spec.SigmaColumn e l) :
    Spec.columnsBefore e l < (Finset.univ.filter fun l : Fin e.K2 => Spec.SigmaColumn e l).card := by
  unfold Spec.columnsBefore
  rw [← Finset.card_image_of_injective (Finset.univ.filter _) Fin.val_injective]
  refine Finset.card_lt_card ⟨?_, fun hsub => ?_⟩
  · intro x hx
    rw [Finset.mem_filter, Finset.mem_range] at hx
    rw [Finset.mem_image]
    exact ⟨⟨x, hx.1.trans l.2⟩, by simpa using hx.2, rfl⟩
  · have : (l : ℕ) ∈ ((Finset.range l).filter fun l' => Spec.SigmaColumn e l') := hsub (by
      rw [Finset.mem_image]
      exact ⟨l, by simpa using h, rfl⟩)
    simp at this

/-- Nodes of a market when there are enough columns. -/
theorem marketNodes_enough {e : ParamInputs} {p : Parameters} (h : buildParameters e = .ok p) {c : ℕ} (hc : c ≤ e.K2)
    (he : (Finset.univ.filter fun l : Fin e.K2 => Spec.SigmaColumn e l).card ≤ c) (nodes : I → ℕ → ℝ) :
    ∃ ν, marketNodes (nonzeroSigma p e.K2) (fun i (l : Fin c) => nodes i l) = .ok ν ∧
      ∀ i (l : Fin e.K2), Spec.SigmaColumn e l → ν i l = nodes i (if c = e.K2 then l else Spec.columnsBefore e l) := by
  unfold marketNodes
  by_cases hK : c = e.K2
  · rw [dif_pos hK]
    exact ⟨_, rfl, fun i l _ => by rw [if_pos hK]; rfl⟩
  · rw [dif_neg hK]
    have hlen : (maskColumns (nonzeroSigma p e.K2)).length = (Finset.univ.filter fun l : Fin e.K2 => Spec.SigmaColumn e l).card := by
      rw [length_maskColumns]
      simp only [nonzeroSigma_iff h]
    have hall : ¬ ∀ l, nonzeroSigma p e.K2 l = true := by
      intro hall
      have : (Finset.univ.filter fun l : Fin e.K2 => Spec.SigmaColumn e l).card = e.K2 := by
        rw [Finset.filter_true_of_mem fun l _ => (nonzeroSigma_iff h l).1 (hall l)]
        simp
      omega
    rw [if_neg hall, if_pos (by rw [hlen]; exact min_eq_right he)]
    refine ⟨_, rfl, fun i l hl => ?_⟩
    dsimp only
    have hidx : (maskColumns (nonzeroSigma p e.K2)).idxOf l = Spec.columnsBefore e l := by
      unfold maskColumns
      rw [idxOf_filter_finRange _ _ ((nonzeroSigma_iff h l).2 hl)]
      unfold Spec.columnsBefore
      rw [← length_filter_lt]
      congr 1
      refine List.filter_congr fun x _ => ?_
      congr 1
      rw [Bool.eq_iff_iff, nonzeroSigma_iff h, decide_eq_true_eq]
    rw [if_pos ((nonzeroSigma_iff h l).2 hl), hidx, dif_pos ((columnsBefore_lt e l hl).trans_le he), if_neg hK]

/-- Whatever `theta` is, columns of `sigma` that were zero are zero. -/
theorem sigma_zero {e : ParamInputs} {p : Parameters} (h : buildParameters e = .ok p) (theta : List Fl)
    (ht : theta.length = p.stored.unfixed.length) (sigma : Fin e.K2 → Fin e.K2 → ℝ)
    (hs : ∀ k l : Fin e.K2, expand p theta false .sigma k l = some ((sigma k l : ℝ) : EReal)) (k l : Fin e.K2) (hl : ¬ Spec.SigmaColumn e l) :
    sigma k l = 0 := by
  have hzero : Spec.start e .sigma k l = some 0 := by
    by_contra hne
    exact hl ⟨k, k.2, hne⟩
  obtain ⟨b0, H⟩ := built_of_ok h
  have hshape : ((p.mats .sigma).rows, (p.mats .sigma).cols) = (e.K2, e.K2) := by
    have := H.shape .sigma
    simpa [ParamInputs.shapes] using this
  have hr : (p.mats .sigma).rows = e.K2 := (Prod.mk.inj hshape).1
  have hc : (p.mats .sigma).cols = e.K2 := (Prod.mk.inj hshape).2
  have := C43_fixed h theta ht .sigma k l (by rw [hr]; exact k.2) (by rw [hc]; exact l.2) (by
    rw [C44_estimated h]
    rintro ⟨_, _, _, h0, _⟩
    exact h0 hzero)
  rw [hs, hzero] at this
  have := Option.some.inj this
  exact_mod_cast this


/-- **C112.** For all accepted parameters, all values of `theta` and all numbers of columns of nodes in the data, of which at most
as many as characteristics are retained, nodes of a market are found, and unobserved heterogeneity in each coefficient is
the sum over columns of `sigma` that are not zero at the starting values, each with its column of nodes: the same column if there is one for each
column of `sigma`, and otherwise the next one for each column of `sigma` that is not zero. These columns exist. -/
theorem C112_nodes {e : ParamInputs} {p : Parameters} (h : buildParameters e = .ok p) {c : ℕ} (hc : e.nodeColumns = min c e.K2) (nodes : I → ℕ → ℝ)
    (theta : List Fl) (ht : theta.length = p.stored.unfixed.length) (sigma : Fin e.K2 → Fin e.K2 → ℝ)
    (hs : ∀ k l : Fin e.K2, expand p theta false .sigma k l = some ((sigma k l : ℝ) : EReal)) :
    (∃ ν, marketNodes (nonzeroSigma p e.K2) (trimNodes e.K2 fun i (l : Fin c) => nodes i l) = .ok ν ∧
      ∀ i k, ∑ l, sigma k l * ν i l = ∑ l : Fin e.K2, if Spec.SigmaColumn e l then sigma k l * nodes i (Spec.nodeColumn e l) else 0) ∧
    ∀ l : Fin e.K2, Spec.SigmaColumn e l → Spec.nodeColumn e l < e.nodeColumns := by
  have he := checked_columns h
  have he' := he
  rw [hc] at he'
  obtain ⟨ν, h1, h2⟩ := marketNodes_enough h (min_le_right c e.K2) he' nodes
  refine ⟨⟨ν, h1, fun i k => ?_⟩, fun l hl => ?_⟩
  · refine Finset.sum_congr rfl fun l _ => ?_
    by_cases hl : Spec.SigmaColumn e l
    · rw [if_pos hl, h2 i l hl, ← hc]
      rfl
    · rw [if_neg hl, sigma_zero h theta ht sigma hs k l hl, zero_mul]
  · unfold Spec.nodeColumn
    split
    · rename_i hK
      rw [hK]
      exact l.2
    · exact (columnsBefore_lt e l hl).trans_le he

/-! ## Random coefficients -/

namespace Spec

/-- The value of a demographic for an agent and a product of the market. -/
def demographic (y : DemographicsArray I D J extra) (i : I) (d : D) (j : Fin J) : ℝ :=
  match y with
  | .plain y => y i d
  | .byProduct y => y i d (j.castAdd extra)

/-- The random coefficient of agent `i` on characteristic `k` of product `j`. -/
def coefficient (e : ParamInputs) (nodes : I → ℕ → ℝ) (y : DemographicsArray I D J extra) (type : RcType) (sigma : Fin e.K2 → ℝ)
    (pi : D → ℝ) (i : I) (j : Fin J) : ℝ :=
  let x := (∑ l : Fin e.K2, if SigmaColumn e l then sigma l * nodes i (nodeColumn e l) else 0) + ∑ d, pi d * demographic y i d j
  match type with
  | .linear => x
  | .log => Real.exp x
  | .logit => Real.exp x / (1 + Real.exp x)

end Spec

/-- The element of an array of coefficients for a product. -/
def CoefficientArray.at {K I : Type} (a : CoefficientArray J K I) (j : Fin J) (k : K) (i : I) : ℝ :=
  match a with
  | .two a => a k i
  | .three a => a j k i

theorem expit_eq (x : ℝ) : 1 / (1 + Real.exp (-x)) = Real.exp x / (1 + Real.exp x) := by
  rw [Real.exp_neg]
  have := Real.exp_pos x
  field_simp
  ring

theorem coefficientArray_at (nodes : I → N → ℝ) (y : DemographicsArray I D J extra) (rcType : K → RcType) (sigma : K → N → ℝ) (pi : K → D → ℝ)
    (j : Fin J) (k : K) (i : I) : (coefficientArray nodes y rcType sigma pi).at j k i =
      transformCoefficient (rcType k) (∑ l, sigma k l * nodes i l + ∑ d, pi k d * Spec.demographic y i d j) := by
  unfold coefficientArray
  dsimp only
  by_cases hD : 0 < Fintype.card D
  · rw [if_pos hD]
    cases y <;> rfl
  · rw [if_neg hD]
    have : IsEmpty D := Fintype.card_eq_zero_iff.1 (by omega)
    simp [CoefficientArray.at]

theorem muArray_at (X2 : Fin J → K → ℝ) (a : CoefficientArray J K I) (j : Fin J) (i : I) : muArray X2 a j i = ∑ k, X2 j k * a.at j k i := by
  cases a <;> rfl

/-- What is computed with arrays of two or three dimensions is what other properties are about. -/
theorem muArray_eq [Nonempty (Fin J)] (X2 : Fin J → K → ℝ) (nodes : I → N → ℝ) (y : DemographicsArray I D J extra) (rcType : K → RcType)
    (sigma : K → N → ℝ) (pi : K → D → ℝ) (j : Fin J) (i : I) : muArray X2 (coefficientArray nodes y rcType sigma pi) j i =
      computeMu ⟨X2, nodes, fun i d j => Spec.demographic y i d j, rcType⟩ sigma pi j i := by
  rw [muArray_at]
  simp only [coefficientArray_at]
  rfl

/-- **C112.** For all accepted parameters, all values of `theta`, and demographics that are product-specific or not, agent-specific utilities are
characteristics times random coefficients, which are linear, exponential or logistic in what nodes and demographics contribute. -/
theorem C112_mu {e : ParamInputs} {p : Parameters} (h : buildParameters e = .ok p) {c : ℕ} (hc : e.nodeColumns = min c e.K2) (nodes : I → ℕ → ℝ)
    (theta : List Fl) (ht : theta.length = p.stored.unfixed.length) (sigma : Fin e.K2 → Fin e.K2 → ℝ)
    (hs : ∀ k l : Fin e.K2, expand p theta false .sigma k l = some ((sigma k l : ℝ) : EReal))
    (X2 : Fin J → Fin e.K2 → ℝ) (y : DemographicsArray I D J extra) (rcType : Fin e.K2 → RcType) (pi : Fin e.K2 → D → ℝ) :
    ∃ ν, marketNodes (nonzeroSigma p e.K2) (trimNodes e.K2 fun i (l : Fin c) => nodes i l) = .ok ν ∧
      ∀ j i, muArray X2 (coefficientArray ν y rcType sigma pi) j i =
        ∑ k, X2 j k * Spec.coefficient e nodes y (rcType k) (sigma k) (pi k) i j := by
  obtain ⟨⟨ν, h1, h2⟩, _⟩ := C112_nodes h hc nodes theta ht sigma hs
  refine ⟨ν, h1, fun j i => ?_⟩
  rw [muArray_at]
  refine Finset.sum_congr rfl fun k _ => ?_
  rw [coefficientArray_at, h2]
  unfold Spec.coefficient
  cases rcType k
  · rfl
  · rfl
  · simp only [transformCoefficient, expit_eq]

/-- **C112.** A single random coefficient is the one among all of them. -/
theorem C112_single (nodes : I → N → ℝ) (y : DemographicsArray I D J extra) (rcType : K → RcType) (sigma : K → N → ℝ) (pi : K → D → ℝ)
    (k : K) (j : Fin J) (i : I) :
    (singleCoefficient nodes y rcType sigma pi k).at j () i = (coefficientArray nodes y rcType sigma pi).at j k i := by
  unfold singleCoefficient coefficientArray
  dsimp only
  by_cases hD : 0 < Fintype.card D
  · rw [if_pos hD, if_pos hD]
    cases y <;> rfl
  · rw [if_neg hD, if_neg hD]
    rfl

/-! ## Nesting parameters -/

variable {ι : Type} [LinearOrder ι]

theorem searchSorted_get (l : List ι) (hl : l.Pairwise (· < ·)) (k : ℕ) (x : ι) (hk : l[k]? = some x) : searchSorted l x = k := by
  unfold searchSorted
  induction l generalizing k with
  | nil => simp at hk
  | cons a l ih =>
    rw [List.pairwise_cons] at hl
    cases k with
    | zero =>
      have ha : a = x := by simpa using hk
      subst ha
      rw [List.countP_eq_zero]
      intro b hb
      rcases List.mem_cons.1 hb with rfl | hb
      · simp
      · simpa using (hl.1 b hb).le
    | succ k =>
      have hk' : l[k]? = some x := by simpa using hk
      have hx : x ∈ l := List.mem_of_getElem? hk'
      rw [List.countP_cons_of_pos (by simpa using hl.1 x hx), ih hl.2 k hk']

/-- **C112.** With one nesting parameter, it is that of all products. With one for each group, listed in the order of sorted IDs of all groups, that of a
product is its own group's, whichever groups are in the market and however they are sorted. -/
theorem C112_rho {M : ℕ} (all : Fin M → ι) (rho : List ℝ) (ids : Fin J → ι) (sort : List (Fin J)) (hsort : IsArgsort ids sort) (j : Fin J) :
    (∀ r, rho = [r] → productRhos ((Finset.univ.image all).sort (· ≤ ·)) rho (Groups.mk' ids sort) j = some r) ∧
    (rho.length ≠ 1 → ∀ k : ℕ, ((Finset.univ.image all).sort (· ≤ ·))[k]? = some (ids j) →
      productRhos ((Finset.univ.image all).sort (· ≤ ·)) rho (Groups.mk' ids sort) j = rho[k]?) := by
  constructor
  · rintro r rfl
    rfl
  · intro h1 k hk
    unfold productRhos groupRhos
    rw [if_neg h1, if_neg h1, C06_unique ids sort hsort, C06_expand ids sort hsort]
    rw [searchSorted_get _ (Finset.sortedLT_sort _).pairwise k _ hk]
    rfl


/-! ## Micro agents -/

/-- **C112.** Nodes of micro agents are also found if there is one column for each column of `sigma`, or at least one for each that is not zero,
as there are with an integration configuration. -/
theorem C112_micro_partial {e : ParamInputs} {p : Parameters} (h : buildParameters e = .ok p) {c : ℕ} (hc : c ≤ e.K2)
    (he : (Finset.univ.filter fun l : Fin e.K2 => Spec.SigmaColumn e l).card ≤ c) (nodes : I → ℕ → ℝ)
    (theta : List Fl) (ht : theta.length = p.stored.unfixed.length) (sigma : Fin e.K2 → Fin e.K2 → ℝ)
    (hs : ∀ k l : Fin e.K2, expand p theta false .sigma k l = some ((sigma k l : ℝ) : EReal)) :
    ∃ ν, marketNodes (nonzeroSigma p e.K2) (fun i (l : Fin c) => nodes i l) = .ok ν ∧
      ∀ i k, ∑ l, sigma k l * ν i l =
        ∑ l : Fin e.K2, if Spec.SigmaColumn e l then sigma k l * nodes i (if c = e.K2 then l else Spec.columnsBefore e l) else 0 := by
  obtain ⟨ν, h1, h2⟩ := marketNodes_enough h hc he nodes
  refine ⟨ν, h1, fun i k => Finset.sum_congr rfl fun l _ => ?_⟩
  by_cases hl : Spec.SigmaColumn e l
  · rw [if_pos hl, h2 i l hl]
  · rw [if_neg hl, sigma_zero h theta ht sigma hs k l hl, zero_mul]

/-! ## Examples and what is refuted -/

/-- Inputs with a diagonal `sigma`, nothing else, and `c` columns of nodes. -/
def diagonalInputs (K2 c : ℕ) (d : ℕ → ℝ) : ParamInputs where
  K1 := 1
  K2 := K2
  K3 := 0
  D := 0
  H := 0
  hasLags := false
  nodeColumns := c
  usesPrices := fun _ => false
  values := fun
    | .sigma => some ⟨K2, K2, fun k l => some (((if k = l then d k else 0 : ℝ)) : EReal)⟩
    | _ => none
  bounds := fun _ => none
  bounded := false
  allowLinearNans := true
  checkAlpha := false

theorem diagonal_start (K2 c : ℕ) (d : ℕ → ℝ) (k l : ℕ) :
    Spec.start (diagonalInputs K2 c d) .sigma k l = some (((if k = l then d k else 0 : ℝ)) : EReal) := by
  unfold Spec.start
  by_cases h : k < l
  · rw [if_pos ⟨rfl, h⟩, if_neg h.ne]
    simp
  · rw [if_neg fun h' => h h'.2]
    rfl

theorem diagonal_column (K2 c : ℕ) (d : ℕ → ℝ) (l : ℕ) (hl : l < K2) : Spec.SigmaColumn (diagonalInputs K2 c d) l ↔ d l ≠ 0 := by
  unfold Spec.SigmaColumn
  simp only [diagonal_start]
  constructor
  · rintro ⟨k, _, h⟩
    by_cases hkl : k = l
    · subst hkl
      rw [if_pos rfl] at h
      intro h0
      exact h (by rw [h0]; simp)
    · rw [if_neg hkl] at h
      exact absurd (by simp) h
  · intro h
    refine ⟨l, hl, ?_⟩
    rw [if_pos rfl]
    intro h0
    have := Option.some.inj h0
    exact h (by exact_mod_cast this)

theorem diagonal_ok (K2 c : ℕ) (d : ℕ → ℝ) (hK : 0 < K2) (hc : ((Finset.range K2).filter fun l => d l ≠ 0).card ≤ c) :
    ∃ p, buildParameters (diagonalInputs K2 c d) = .ok p := by
  have hm : ∃ raw, forBlocks (fun b => initializeMatrix ((diagonalInputs K2 c d).values b) ((diagonalInputs K2 c d).shapes b)
      ((diagonalInputs K2 c d).allowNans b)) = .ok raw ∧ raw .sigma = ⟨K2, K2, fun k l => some (((if k = l then d k else 0 : ℝ)) : EReal)⟩ := by
    have : ∀ b, ∃ m, initializeMatrix ((diagonalInputs K2 c d).values b) ((diagonalInputs K2 c d).shapes b)
        ((diagonalInputs K2 c d).allowNans b) = .ok m := by
      intro b
      cases b <;> simp [initializeMatrix, diagonalInputs, ParamInputs.shapes, ParamInputs.allowNans, hK]
    choose raw hraw using this
    refine ⟨raw, forBlocks_of hraw, ?_⟩
    have := hraw .sigma
    simp [initializeMatrix, diagonalInputs, ParamInputs.shapes, ParamInputs.allowNans, hK] at this
    rw [← this]
  obtain ⟨raw, h1, h2⟩ := hm
  have h3 : ∃ b0, forBlocks (fun b => initializeBounds (withUpper raw b) ((diagonalInputs K2 c d).bounds b) (diagonalInputs K2 c d).bounded) =
      .ok b0 := ⟨_, forBlocks_of fun _ => rfl⟩
  obtain ⟨b0, hb0⟩ := h3
  unfold buildParameters
  rw [h1]
  dsimp only
  rw [if_neg ?_, if_neg (by simp [diagonalInputs]), hb0]
  · exact ⟨_, rfl⟩
  · rw [not_lt]
    refine le_trans (le_of_eq ?_) hc
    unfold nonzeroColumns
    rw [List.countP_eq_length_filter, ← List.toFinset_card_of_nodup (List.nodup_range.filter _)]
    congr 1
    ext l
    simp only [List.mem_toFinset, List.mem_filter, List.mem_range, decide_eq_true_eq, Finset.mem_filter, Finset.mem_range]
    refine and_congr_right fun hl => ?_
    rw [← diagonal_column K2 c d l hl]
    unfold Spec.SigmaColumn
    refine exists_congr fun k => and_congr_right fun _ => ?_
    rw [diagonal_start, show withUpper raw .sigma = fillUpper (raw .sigma) from if_pos rfl, h2]
    unfold fillUpper
    dsimp only
    by_cases hkl : k < l
    · rw [if_pos hkl, if_neg hkl.ne]
      simp
    · rw [if_neg hkl]

theorem diagonal_theta {K2 c : ℕ} {d : ℕ → ℝ} {p : Parameters} (h : buildParameters (diagonalInputs K2 c d) = .ok p) :
    ∃ theta : List Fl, theta.length = p.stored.unfixed.length ∧
      ∀ k l : Fin K2, expand p theta false .sigma k l = some (((if k = l then d k else 0 : ℝ)) : EReal) := by
  obtain ⟨b0, H⟩ := built_of_ok h
  have hshape : ((p.mats .sigma).rows, (p.mats .sigma).cols) = (K2, K2) := by
    have := H.shape .sigma
    simpa [ParamInputs.shapes, diagonalInputs] using this
  refine ⟨compress p (Spec.start (diagonalInputs K2 c d)), ?_, fun k l => ?_⟩
  · unfold compress
    rw [compress_eq h, List.length_map]
  · rw [C43_expand_compress h .sigma k l (by rw [(Prod.mk.inj hshape).1]; exact k.2) (by rw [(Prod.mk.inj hshape).2]; exact l.2), diagonal_start]
    simp only [Fin.ext_iff]

/-- Three characteristics, heterogeneity in the first and the last, and two columns of nodes: the second is for the last. -/
example : ∃ p, ∃ theta : List Fl, ∃ ν, buildParameters (diagonalInputs 3 2 fun k => if k = 1 then 0 else 1) = .ok p ∧
    theta.length = p.stored.unfixed.length ∧
    marketNodes (nonzeroSigma p 3) (fun (_ : Unit) (l : Fin 2) => ((l : ℕ) : ℝ) + 5) = .ok ν ∧ ν () 0 = 5 ∧ ν () 2 = 6 := by
  obtain ⟨p, hp⟩ := diagonal_ok 3 2 (fun k => if k = 1 then 0 else 1) (by norm_num) (by
    have : ((Finset.range 3).filter fun l => (if l = 1 then (0 : ℝ) else 1) ≠ 0) = {0, 2} := by
      ext l
      simp
      omega
    rw [this]
    simp)
  obtain ⟨theta, ht, hs⟩ := diagonal_theta hp
  have he := checked_columns hp
  obtain ⟨ν, h1, h2⟩ := marketNodes_enough hp (c := 2) (by simp [diagonalInputs]) he (fun (_ : Unit) l => (l : ℝ) + 5)
  refine ⟨p, theta, ν, hp, ht, h1, ?_, ?_⟩
  · have := h2 () (0 : Fin 3) ((diagonal_column 3 2 _ 0 (by norm_num)).2 (by simp))
    refine this.trans ?_
    rw [if_neg (by simp [diagonalInputs])]
    simp [Spec.columnsBefore]
  · have := h2 () (2 : Fin 3) ((diagonal_column 3 2 _ 2 (by norm_num)).2 (by simp))
    refine this.trans ?_
    rw [if_neg (by simp [diagonalInputs])]
    have : Spec.columnsBefore (diagonalInputs 3 2 fun k => if k = 1 then 0 else 1) (2 : Fin 3) = 1 := by
      unfold Spec.columnsBefore
      have : ((Finset.range ((2 : Fin 3) : ℕ)).filter fun l' => Spec.SigmaColumn (diagonalInputs 3 2 fun k => if k = 1 then 0 else 1) l') = {0} := by
        ext l
        rw [Finset.mem_filter, Finset.mem_range]
        constructor
        · rintro ⟨hl, h⟩
          rw [diagonal_column _ _ _ _ (by have : l < 2 := hl; omega)] at h
          have : l < 2 := hl
          simp at h
          simp
          omega
        · intro h
          rw [Finset.mem_singleton] at h
          subst h
          exact ⟨by norm_num, (diagonal_column _ _ _ _ (by norm_num)).2 (by simp)⟩
      rw [this]
      simp
    rw [this]
    norm_num


/-- **C112.** If there are fewer columns of nodes than of `sigma`, or columns of `sigma` that are zero come last, then only the first few columns
of nodes are used, as documented. -/
theorem C112_first_partial (e : ParamInputs)
    (hz : e.nodeColumns ≠ e.K2 ∨ ∀ l l' : ℕ, l' < l → Spec.SigmaColumn e l → Spec.SigmaColumn e l') (l : Fin e.K2) (hl : Spec.SigmaColumn e l) :
    Spec.nodeColumn e l < (Finset.univ.filter fun l : Fin e.K2 => Spec.SigmaColumn e l).card := by
  have hlt := columnsBefore_lt e l hl
  unfold Spec.nodeColumn
  rcases hz with hz | hz
  · rw [if_neg hz]
    exact hlt
  · have : Spec.columnsBefore e l = l := by
      unfold Spec.columnsBefore
      rw [Finset.filter_true_of_mem fun l' hl' => hz l l' (Finset.mem_range.1 hl') hl, Finset.card_range]
    rw [this] at hlt ⊢
    split <;> exact hlt

theorem card_one (d : ℕ → ℝ) (K2 c k : ℕ) (hk : k < K2) (hd : ∀ l, d l ≠ 0 ↔ l = k) :
    (Finset.univ.filter fun l : Fin K2 => Spec.SigmaColumn (diagonalInputs K2 c d) l).card = 1 := by
  rw [Finset.card_eq_one]
  refine ⟨⟨k, hk⟩, ?_⟩
  ext l
  rw [Finset.mem_filter, Finset.mem_singleton, diagonal_column _ _ _ _ l.2, hd, Fin.ext_iff]
  simp

/-- **C112, refuted.** It is documented that if columns of `sigma` are fixed at zero, only the first few columns of nodes are used. With as many columns
of nodes as of `sigma`, this is false: here only one column of `sigma` is not zero, two arrays of nodes are equal in their first column, and yet
nodes of the market for this column of `sigma` differ. -/
theorem C112_first_refuted : ∃ (e : ParamInputs) (p : Parameters) (nodes nodes' : Unit → ℕ → ℝ) (ν ν' : Unit → Fin e.K2 → ℝ) (l : Fin e.K2),
    buildParameters e = .ok p ∧ e.nodeColumns = e.K2 ∧ (Finset.univ.filter fun l : Fin e.K2 => Spec.SigmaColumn e l).card = 1 ∧
      (∀ i, nodes i 0 = nodes' i 0) ∧
      marketNodes (nonzeroSigma p e.K2) (fun i (l : Fin e.nodeColumns) => nodes i l) = .ok ν ∧
      marketNodes (nonzeroSigma p e.K2) (fun i (l : Fin e.nodeColumns) => nodes' i l) = .ok ν' ∧ Spec.SigmaColumn e l ∧ ν () l ≠ ν' () l := by
  have hd : ∀ l : ℕ, (if l = 1 then (1 : ℝ) else 0) ≠ 0 ↔ l = 1 := by
    intro l
    by_cases h : l = 1 <;> simp [h]
  obtain ⟨p, hp⟩ := diagonal_ok 2 2 (fun l => if l = 1 then 1 else 0) (by norm_num) (by
    refine (Finset.card_le_card (t := {1}) fun l hl => ?_).trans (by simp)
    rw [Finset.mem_filter] at hl
    rw [Finset.mem_singleton]
    exact (hd l).1 hl.2)
  have he := checked_columns hp
  obtain ⟨ν, h1, h2⟩ := marketNodes_enough hp (c := 2) le_rfl he (fun (_ : Unit) l => if l = 1 then 1 else 0)
  obtain ⟨ν', h1', h2'⟩ := marketNodes_enough hp (c := 2) le_rfl he (fun (_ : Unit) _ => 0)
  have hl : Spec.SigmaColumn (diagonalInputs 2 2 fun l => if l = 1 then 1 else 0) ((1 : Fin 2) : ℕ) :=
    (diagonal_column _ _ _ _ (by norm_num)).2 ((hd _).2 rfl)
  refine ⟨diagonalInputs 2 2 fun l => if l = 1 then 1 else 0, p, fun _ l => if l = 1 then 1 else 0, fun _ _ => 0, ν, ν', (1 : Fin 2), hp, rfl,
    card_one _ 2 2 1 (by norm_num) hd, by simp, h1, h1', hl, ?_⟩
  have a1 : ν () (1 : Fin 2) = 1 := (h2 () (1 : Fin 2) hl).trans (if_pos (if_pos rfl))
  have a2 := h2' () (1 : Fin 2) hl
  rw [a2]
  exact fun h0 => one_ne_zero (a1.symm.trans h0)

/-- **C112, refuted.** Numbers of columns of nodes in micro data are not checked. With one column of nodes for two random coefficients (and a third
characteristic without one), the same draws are used for both. -/
theorem C112_micro_refuted : ∃ (e : ParamInputs) (p : Parameters), buildParameters e = .ok p ∧
    (Finset.univ.filter fun l : Fin e.K2 => Spec.SigmaColumn e l).card = 2 ∧
    ∀ nodes : Unit → Fin 1 → ℝ, ∃ ν, marketNodes (nonzeroSigma p e.K2) nodes = .ok ν ∧
      ∀ l : Fin e.K2, Spec.SigmaColumn e l → ν () l = nodes () 0 := by
  have hd : ∀ l : ℕ, (if l < 2 then (1 : ℝ) else 0) ≠ 0 ↔ l < 2 := by
    intro l
    by_cases h : l < 2 <;> simp [h]
  obtain ⟨p, hp⟩ := diagonal_ok 3 3 (fun l => if l < 2 then 1 else 0) (by norm_num) (by
    refine (Finset.card_le_card (Finset.filter_subset _ _)).trans (by simp))
  have hcard : (Finset.univ.filter fun l : Fin 3 => Spec.SigmaColumn (diagonalInputs 3 3 fun l => if l < 2 then 1 else 0) l).card = 2 := by
    have : (Finset.univ.filter fun l : Fin 3 => Spec.SigmaColumn (diagonalInputs 3 3 fun l => if l < 2 then 1 else 0) l) = {0, 1} := by
      ext l
      rw [Finset.mem_filter, diagonal_column _ _ _ _ l.2, hd]
      fin_cases l <;> simp
    rw [this]
    rfl
  refine ⟨diagonalInputs 3 3 fun l => if l < 2 then 1 else 0, p, hp, hcard, fun nodes => ?_⟩
  unfold marketNodes
  rw [dif_neg (by simp [diagonalInputs]), if_neg ?_]
  · have hlen : (maskColumns (nonzeroSigma p 3)).length = 2 := by
      rw [length_maskColumns, ← hcard]
      congr 1
      ext l
      rw [Finset.mem_filter, Finset.mem_filter]
      exact and_congr_right fun _ => nonzeroSigma_iff hp l
    have hlen' : (maskColumns (nonzeroSigma p (diagonalInputs 3 3 fun l => if l < 2 then 1 else 0).K2)).length = 2 := hlen
    rw [if_neg (by rw [hlen']; norm_num), if_pos (by rw [hlen']; norm_num)]
    refine ⟨_, rfl, fun l hl => ?_⟩
    dsimp only
    rw [if_pos ((nonzeroSigma_iff hp l).2 hl), dif_pos (by norm_num)]
    rfl
  · intro hall
    have := (nonzeroSigma_iff hp (2 : Fin 3)).1 (hall (2 : Fin 3))
    rw [diagonal_column _ _ _ _ (by norm_num), hd] at this
    simp at this

end

/-! ## Micro agents with an integration configuration -/

namespace Spec

/-- The rows built for observations: for each observation, in order, one for each of its nodes, with its own data. -/
def integrated {Mk R V : Type} (build : ℕ → List (V × ℚ)) (rows : List (MicroRow Unit Mk R)) : List (MicroRow ℕ Mk (R × V × ℚ)) :=
  rows.zipIdx.flatMap fun p => (build p.2).map fun b => ⟨p.2, p.1.market, p.1.choice, p.1.second, (p.1.agent, b)⟩

end Spec

variable {Mk R V : Type}

theorem count_buildMany (build : ℕ → List (V × ℚ)) (n k : ℕ) (hk : k < n) :
    ((buildMany build (List.range n)).map fun b => b.1).count k = (build k).length := by
  unfold buildMany
  induction n with
  | zero => omega
  | succ n ih =>
    rw [List.range_succ, List.flatMap_append, List.map_append, List.count_append]
    have hlast : (([n].flatMap fun t => (build t).map fun p => (t, p.1, p.2)).map fun b => b.1) = List.replicate (build n).length n := by
      simp
    rw [hlast]
    by_cases hkn : k = n
    · subst hkn
      rw [List.count_replicate_self]
      have : (((List.range k).flatMap fun t => (build t).map fun p => (t, p.1, p.2)).map fun b => b.1).count k = 0 := by
        rw [List.count_eq_zero]
        intro hmem
        simp at hmem
      omega
    · rw [ih (by omega), List.count_replicate]
      simp [Ne.symm hkn]

theorem bincount_buildMany (build : ℕ → List (V × ℚ)) (hb : ∀ n, build n ≠ []) (n : ℕ) :
    bincount ((buildMany build (List.range n)).map fun b => b.1) = (List.range n).map fun k => (build k).length := by
  cases n with
  | zero => rfl
  | succ n =>
    have hmem : ∀ k, k ∈ ((buildMany build (List.range (n + 1))).map fun b => b.1) ↔ k < n + 1 := by
      intro k
      constructor
      · intro h
        unfold buildMany at h
        simp at h
        omega
      · intro h
        rw [← List.count_pos_iff, count_buildMany build _ _ h]
        exact List.length_pos_iff.2 (hb k)
    have hmax : ∀ (l : List ℕ) (m : ℕ), (∀ k, k ∈ l ↔ k < m + 1) → l.foldr max 0 = m := by
      intro l m hl
      apply le_antisymm
      · have : ∀ l : List ℕ, (∀ k ∈ l, k ≤ m) → l.foldr max 0 ≤ m := by
          intro l
          induction l with
          | nil => simp
          | cons a l ih =>
            intro h
            exact max_le (h a (List.mem_cons_self ..)) (ih fun k hk => h k (List.mem_cons_of_mem _ hk))
        exact this l fun k hk => by have := (hl k).1 hk; omega
      · have : ∀ l : List ℕ, ∀ k ∈ l, k ≤ l.foldr max 0 := by
          intro l
          induction l with
          | nil => simp
          | cons a l ih =>
            intro k hk
            rcases List.mem_cons.1 hk with rfl | hk
            · exact le_max_left _ _
            · exact (ih k hk).trans (le_max_right _ _)
        exact this l m ((hl m).2 (by omega))
    unfold bincount
    rw [if_neg (List.ne_nil_of_mem ((hmem 0).2 (by omega))), hmax _ n hmem]
    exact List.map_congr_left fun k hk => count_buildMany build _ _ (List.mem_range.1 hk)

theorem flatten_repeat {α : Type} (f : ℕ → ℕ) (x : List α) (s : ℕ) :
    (List.zipWith (fun n a => List.replicate n a) ((List.range' s x.length).map f) x).flatten =
      (x.zipIdx s).flatMap fun p => List.replicate (f p.2) p.1 := by
  induction x generalizing s with
  | nil => rfl
  | cons a x ih =>
    rw [List.length_cons, List.range'_succ, List.map_cons, List.zipWith_cons_cons, List.flatten_cons, ih, List.zipIdx_cons, List.flatMap_cons]

theorem zipWith_built (build : ℕ → List (V × ℚ)) (rows : List (MicroRow Unit Mk R)) (s : ℕ) :
    List.zipWith (fun b r => (⟨b.1, r.market, r.choice, r.second, (r.agent, b.2)⟩ : MicroRow ℕ Mk (R × V × ℚ)))
      (buildMany build (List.range' s rows.length)) ((rows.zipIdx s).flatMap fun p => List.replicate (build p.2).length p.1) =
    (rows.zipIdx s).flatMap fun p => (build p.2).map fun b => ⟨p.2, p.1.market, p.1.choice, p.1.second, (p.1.agent, b)⟩ := by
  induction rows generalizing s with
  | nil => rfl
  | cons r rows ih =>
    rw [List.length_cons, List.range'_succ, List.zipIdx_cons, List.flatMap_cons, List.flatMap_cons]
    unfold buildMany at ih ⊢
    rw [List.flatMap_cons, List.zipWith_append (by simp), ih]
    congr 1
    generalize build s = bs
    induction bs with
    | nil => rfl
    | cons b bs ih2 => simpa [List.replicate_succ] using ih2

theorem length_built (build : ℕ → List (V × ℚ)) {α : Type} (rows : List α) (s : ℕ) :
    ((rows.zipIdx s).flatMap fun p => List.replicate (build p.2).length p.1).length = (buildMany build (List.range' s rows.length)).length := by
  induction rows generalizing s with
  | nil => rfl
  | cons r rows ih =>
    unfold buildMany at ih ⊢
    rw [List.length_cons, List.range'_succ, List.zipIdx_cons, List.flatMap_cons, List.flatMap_cons, List.length_append, List.length_append, ih]
    simp

/-- **C88.** With an integration configuration, each observation of micro data is duplicated once for each node built for it, keeps its own market,
choices, demographics and availability, and is integrated over its own nodes with their weights. -/
theorem C88_integration (nonzero : ℕ) (hn : nonzero ≠ 0) (build : ℕ → List (V × ℚ)) (hb : ∀ n, build n ≠ []) (rows : List (MicroRow Unit Mk R)) :
    microBuild nonzero build rows = .ok (Spec.integrated build rows) := by
  unfold microBuild
  dsimp only
  rw [if_neg hn, bincount_buildMany build hb]
  unfold npRepeat
  rw [if_pos (by simp), List.range_eq_range', flatten_repeat (fun k => (build k).length) rows 0]
  dsimp only
  rw [if_neg (by rw [length_built]; exact fun h => h rfl), zipWith_built]
  rfl

/-- **C88.** Data built this way pass all checks of observations: they are sorted, and rows of an observation have the same market and choices. -/
theorem C88_integration_valid [LinearOrder Mk] (build : ℕ → List (V × ℚ)) (rows : List (MicroRow Unit Mk R)) (hasChoice hasSecond : Bool) :
    validateMicroData ⟨Spec.integrated build rows, hasChoice, hasSecond⟩ = .ok () := by
  have hsorted : ∀ s, (((rows.zipIdx s).flatMap fun p => (build p.2).map fun b =>
      (⟨p.2, p.1.market, p.1.choice, p.1.second, (p.1.agent, b)⟩ : MicroRow ℕ Mk (R × V × ℚ))).map (·.id)).Pairwise (· ≤ ·) := by
    induction rows with
    | nil => intro s; simp
    | cons r rows ih =>
      intro s
      rw [List.zipIdx_cons, List.flatMap_cons, List.map_append, List.pairwise_append]
      refine ⟨?_, ih (s + 1), ?_⟩
      · rw [List.map_map]
        exact List.pairwise_map.2 (List.pairwise_of_forall fun _ _ => le_rfl)
      · intro a ha b hb
        simp only [List.mem_map, List.mem_flatMap] at ha hb
        obtain ⟨_, ⟨_, _, rfl⟩, rfl⟩ := ha
        obtain ⟨_, ⟨q, hq, _, _, rfl⟩, rfl⟩ := hb
        have := (List.mem_zipIdx hq).1
        show s ≤ q.2
        omega
  unfold validateMicroData
  dsimp only
  rw [if_neg (not_not.2 (show ((Spec.integrated build rows).map (·.id)).Pairwise (· ≤ ·) from hsorted 0)), if_neg ?_]
  rintro ⟨r, hr, r2, hr2, hid, h⟩
  unfold Spec.integrated at hr hr2
  simp only [List.mem_flatMap, List.mem_map] at hr hr2
  obtain ⟨p, hp, b, _, rfl⟩ := hr
  obtain ⟨p2, hp2, b2, _, rfl⟩ := hr2
  have he : p.1 = p2.1 := by
    have h1 := (List.mem_zipIdx hp).2.2
    have h2 := (List.mem_zipIdx hp2).2.2
    rw [h1, h2]
    have hid' : p.2 = p2.2 := hid
    simp only [hid']
  rw [he] at h
  simp at h

/-- Two observations with two nodes each. -/
example : microBuild (Mk := ℕ) (R := Bool) (V := ℕ) 1 (fun n => [(n, 1 / 2), (n + 10, 1 / 2)]) [⟨(), 7, 1, 2, true⟩, ⟨(), 8, 3, 4, false⟩] =
    .ok [⟨0, 7, 1, 2, (true, 0, 1 / 2)⟩, ⟨0, 7, 1, 2, (true, 10, 1 / 2)⟩, ⟨1, 8, 3, 4, (false, 1, 1 / 2)⟩, ⟨1, 8, 3, 4, (false, 11, 1 / 2)⟩] := by
  rw [C88_integration _ (by norm_num) _ (by simp)]
  rfl

/-- Two groups in the market among three: each product has the parameter of its group. -/
example : productRhos ((Finset.univ.image ![(3 : ℕ), 1, 2]).sort (· ≤ ·)) [0.1, 0.2, 0.3] (Groups.mk' ![3, 2] [1, 0]) 0 = some 0.3 := by
  refine ((C112_rho ![(3 : ℕ), 1, 2] [0.1, 0.2, 0.3] ![3, 2] [1, 0] ⟨?_, ?_⟩ 0).2 (by simp) 2 ?_).trans rfl
  · decide
  · decide
  · have : ((Finset.univ.image ![(3 : ℕ), 1, 2]).sort (· ≤ ·)) = [1, 2, 3] := by
      refine List.Perm.eq_of_pairwise (le := (· ≤ ·)) (fun a b _ _ h1 h2 => le_antisymm h1 h2) (Finset.pairwise_sort _ _) (by decide) ?_
      rw [List.perm_ext_iff_of_nodup (Finset.sort_nodup _ _) (by decide)]
      intro a
      rw [Finset.mem_sort]
      simp [Fin.exists_fin_succ]
      omega
    rw [this]
    rfl

end Pyblp
