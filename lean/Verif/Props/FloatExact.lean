import Verif.Props.FloatSafe

set_option linter.unusedSectionVars false

/-!
# C122: without rounding and without problems, floats are what the model over the reals says
-/

namespace Pyblp

open Classical FloatFormat

variable {F : FloatFormat}

/-- Only overflow is a problem of finite results. -/
theorem finish_exact (hF : ∀ x, F.round x = x) {x : ℝ} (h : FpProblem.over ∉ (F.finish x).events) : F.finish x = ⟨.fin x, ∅⟩ := by
  unfold FloatFormat.finish at h ⊢
  rw [hF] at h ⊢
  by_cases h1 : F.largest < x
  · rw [if_pos h1] at h
    exact absurd rfl h
  · rw [if_neg h1] at h ⊢
    by_cases h2 : x < -F.largest
    · rw [if_pos h2] at h
      exact absurd rfl h
    · rw [if_neg h2]

theorem finish_exact' (hF : ∀ x, F.round x = x) {x : ℝ} (h : (F.finish x).events = ∅) : F.finish x = ⟨.fin x, ∅⟩ :=
  finish_exact hF (by rw [h]; exact Set.notMem_empty _)

theorem sub_exact (hF : ∀ x, F.round x = x) {x y : ℝ} (h : FpProblem.over ∉ (F.sub (.fin x) (.fin y)).events) :
    F.sub (.fin x) (.fin y) = ⟨.fin (x - y), ∅⟩ := by
  have := finish_exact hF (x := x + -y) h
  rw [← sub_eq_add_neg] at this
  rw [← this, sub_eq_add_neg]
  rfl

theorem div_exact (hF : ∀ x, F.round x = x) {x y : ℝ} (h : (F.div (.fin x) (.fin y)).events = ∅) :
    F.div (.fin x) (.fin y) = ⟨.fin (x / y), ∅⟩ := by
  simp only [FloatFormat.div] at h ⊢
  by_cases hy : y = 0
  · exfalso
    rw [if_pos hy] at h
    by_cases hx : x = 0
    · rw [if_pos hx] at h
      exact Set.singleton_ne_empty _ h
    · rw [if_neg hx] at h
      exact Set.singleton_ne_empty _ h
  · rw [if_neg hy] at h ⊢
    exact finish_exact' hF h

theorem sum_exact (hF : ∀ x, F.round x = x) {ι : Type} {y : ι → ℝ} {l : List ι} (h : (F.sum (fun k => .fin (y k)) l).events = ∅) :
    F.sum (fun k => .fin (y k)) l = ⟨.fin (l.map y).sum, ∅⟩ := by
  induction l with
  | nil => rfl
  | cons k l ih =>
    rw [FloatFormat.sum, Noted.bind_events] at h
    rw [FloatFormat.sum]
    have h1 := ih h.1
    rw [h1] at h ⊢
    rw [Noted.mk_bind, List.map_cons, List.sum_cons, add_comm]
    exact finish_exact' hF h.2

theorem sum_list {ι : Type} [Fintype ι] [DecidableEq ι] {l : List ι} (hl : l.Nodup) (h : ∀ k, k ∈ l) (y : ι → ℝ) : (l.map y).sum = ∑ k, y k := by
  rw [← List.sum_toFinset y hl]
  congr 1
  ext k
  simp [h k]

theorem sum_list_filter {ι κ : Type} [Fintype ι] [DecidableEq ι] [DecidableEq κ] {l : List ι} (hl : l.Nodup) (h : ∀ k, k ∈ l) (y : ι → ℝ) (f : ι → κ) (g : κ) :
    ((l.filter fun k => f k = g).map y).sum = ∑ k with f k = g, y k := by
  rw [← List.sum_toFinset y (hl.filter _)]
  congr 1
  ext k
  simp [h k]

theorem Noted.quietly_over {α : Type} {x : Noted α} (h : x.quietly.events = ∅) : FpProblem.over ∉ x.events := by
  intro hx
  have : FpProblem.over ∈ x.quietly.events := ⟨hx, by simp⟩
  rw [h] at this
  exact this

variable {J A G : Type} [Fintype J] [DecidableEq J] [Nonempty J] [Fintype G] [DecidableEq G]

theorem utilities_exact (hF : ∀ x, F.round x = x) {m : Market J A G} {delta : J → ℝ} {mu : J → A → ℝ} {i : A} {j : J}
    (h : (flUtilities F m (fun j => .fin (delta j)) (fun j i => .fin (mu j i)) i j).events = ∅) :
    flUtilities F m (fun j => .fin (delta j)) (fun j i => .fin (mu j i)) i j = ⟨.fin (utilities m delta mu j i), ∅⟩ := by
  unfold flUtilities utilities at *
  rw [Noted.bind_events] at h
  have h1 := finish_exact' hF h.1
  have h1' : F.add (.fin (delta j)) (.fin (mu j i)) = ⟨.fin (delta j + mu j i), ∅⟩ := h1
  rw [h1'] at h ⊢
  rw [Noted.mk_bind]
  have h2 := h.2
  dsimp only at h2
  cases hn : m.nesting with
  | none =>
    rw [hn] at h2
    dsimp only at h2 ⊢
    by_cases he : m.epsilonScale ≠ 1
    · rw [if_pos he] at h2 ⊢
      rw [if_pos he]
      exact div_exact hF h2
    · rw [if_neg he, if_neg he]
      rfl
  | some n =>
    rw [hn] at h2
    dsimp only at h2 ⊢
    rw [Noted.bind_events] at h2
    have h3 := sub_exact hF (x := 1) (y := n.productRho j) (by rw [h2.1]; exact Set.notMem_empty _)
    rw [h3] at h2 ⊢
    rw [Noted.mk_bind]
    exact div_exact hF h2.2

theorem reduction_exact {rows : List J} (hrows : ∀ j, j ∈ rows) (u : J → ℝ) :
    flReduction rows (fun j => .fin (u j)) = .fin (utilityReduction u) := by
  obtain ⟨r, hr, h0, hle, hex⟩ := reduction_fin rows u
  rw [hr]
  congr 1
  unfold utilityReduction
  refine le_antisymm ?_ (max_le (Finset.sup'_le _ _ fun j _ => hle j (hrows j)) h0)
  rcases hex with h | ⟨k, _, h⟩
  · rw [h]
    exact le_max_right _ _
  · rw [h]
    exact le_trans (Finset.le_sup' u (Finset.mem_univ k)) (le_max_left _ _)

/-- The reduction as the model over the reals has it. -/
noncomputable def exactReduction (safe : Bool) (u : J → ℝ) : Option ℝ := if safe then some (utilityReduction u) else none

theorem exponentiated_exact (hF : ∀ x, F.round x = x) {safe : Bool} {rows : List J} (hrows : ∀ j, j ∈ rows) {u : J → ℝ}
    (h : (flExponentiated F safe rows (fun j => .fin (u j))).events = ∅) :
    flExponentiated F safe rows (fun j => .fin (u j)) =
      ⟨((exactReduction safe u).map .fin, fun j => .fin (Real.exp (u j - (exactReduction safe u).getD 0))), ∅⟩ := by
  unfold flExponentiated exactReduction at *
  cases safe with
  | true =>
    simp only [if_true] at h ⊢
    rw [reduction_exact hrows] at h ⊢
    rw [Noted.bind_events, Noted.each_events] at h
    rw [Noted.each_mk (v := fun j => .fin (Real.exp (u j - utilityReduction u))), Noted.mk_bind]
    · rfl
    · intro j
      have hj := h.1 j
      rw [Noted.bind_events] at hj
      have h1 := sub_exact hF (x := u j) (y := utilityReduction u) (by rw [hj.1]; exact Set.notMem_empty _)
      rw [h1] at hj ⊢
      rw [Noted.mk_bind]
      exact finish_exact' hF hj.2
  | false =>
    simp only [Bool.false_eq_true, if_false] at h ⊢
    rw [Noted.bind_events, Noted.each_events] at h
    rw [Noted.each_mk (v := fun j => .fin (Real.exp (u j - 0))), Noted.mk_bind]
    · rfl
    · intro j
      rw [sub_zero]
      exact finish_exact' hF (h.1 j)

theorem restrict_exact (hF : ∀ x, F.round x = x) {m : Market J A G} {o : ProbOpts J A} {e : J → ℝ} {i : A}
    (h : (flRestrict F m o (fun j => .fin (e j)) i).events = ∅) :
    flRestrict F m o (fun j => .fin (e j)) i = ⟨fun j => .fin (restrict m o e i j), ∅⟩ := by
  unfold flRestrict restrict at *
  rw [Noted.each_events] at h
  refine Noted.each_mk fun j => ?_
  have hj := h j
  rw [Noted.bind_events] at hj
  cases ha : (o.availability <|> m.availability) with
  | none =>
    rw [ha] at hj
    dsimp only [Noted.pure]
    rw [Noted.mk_bind]
    by_cases hx : o.eliminateProduct = some j ∨ o.eliminateMask j = true
    · simp only [if_pos hx]
    · simp only [if_neg hx]
  | some a =>
    rw [ha] at hj
    have h1 := finish_exact' hF (x := e j * a i j) hj.1
    have h1' : F.mul (.fin (e j)) (.fin (a i j)) = ⟨.fin (e j * a i j), ∅⟩ := h1
    dsimp only
    rw [h1', Noted.mk_bind]
    dsimp only [Noted.pure]
    by_cases hx : o.eliminateProduct = some j ∨ o.eliminateMask j = true
    · simp only [if_pos hx]
    · simp only [if_neg hx]

theorem plainScale_exact (hF : ∀ x, F.round x = x) {eo : Bool} {r : Option ℝ} (h : (flPlainScale F eo (r.map .fin)).events = ∅) :
    flPlainScale F eo (r.map .fin) = ⟨.fin (plainScale eo r), ∅⟩ := by
  unfold flPlainScale plainScale at *
  rw [Noted.bind_events] at h
  cases r with
  | none =>
    cases eo <;> simp [Noted.pure, Noted.mk_bind]
  | some r =>
    have h1 : F.exp (neg (.fin r)) = ⟨.fin (Real.exp (-r)), ∅⟩ := finish_exact' hF h.1
    change (F.exp (neg (.fin r))).bind _ = _
    rw [h1, Noted.mk_bind]
    cases eo <;> simp [Noted.pure]

theorem nestedScale_exact (hF : ∀ x, F.round x = x) {n : Nesting J G} {eo : Bool} {r : Option ℝ} {g : G}
    (h : (flNestedScale F n eo (r.map .fin) g).events = ∅) :
    flNestedScale F n eo (r.map .fin) g = ⟨.fin (nestedScale n eo r g), ∅⟩ := by
  unfold flNestedScale nestedScale at *
  rw [Noted.bind_events] at h
  cases r with
  | none =>
    cases eo <;> simp [Noted.pure, Noted.mk_bind]
  | some r =>
    have h0 := h.1
    change ((F.sub (.fin 1) (.fin (n.rho.groupRho g))).bind fun d => (F.mul (neg (.fin r)) d).bind F.exp).events = ∅ at h0
    change ((F.sub (.fin 1) (.fin (n.rho.groupRho g))).bind fun d => (F.mul (neg (.fin r)) d).bind F.exp).bind _ = _
    rw [Noted.bind_events] at h0
    have h1 := sub_exact hF (x := 1) (y := n.rho.groupRho g) (by rw [h0.1]; exact Set.notMem_empty _)
    rw [h1] at h0 ⊢
    rw [Noted.mk_bind]
    have h2 := h0.2
    dsimp only at h2
    rw [Noted.bind_events] at h2
    have h3 : F.mul (neg (.fin r)) (.fin (1 - n.rho.groupRho g)) = ⟨.fin (-r * (1 - n.rho.groupRho g)), ∅⟩ := finish_exact' hF h2.1
    rw [h3] at h2 ⊢
    have h4 : F.exp (.fin (-r * (1 - n.rho.groupRho g))) = ⟨.fin (Real.exp (-r * (1 - n.rho.groupRho g))), ∅⟩ := finish_exact' hF h2.2
    rw [Noted.mk_bind, h4, Noted.mk_bind]
    cases eo <;> simp [Noted.pure]

theorem scaleWeight_exact (hF : ∀ x, F.round x = x) {n : Nesting J G} {r : Option ℝ} {a b : G}
    (h : (flScaleWeight F n (r.map .fin) a b).events = ∅) :
    flScaleWeight F n (r.map .fin) a b = ⟨.fin (scaleWeight n r a b), ∅⟩ := by
  unfold flScaleWeight scaleWeight at *
  cases r with
  | none => rfl
  | some r =>
    dsimp only [Option.map] at h ⊢
    by_cases hs : n.rho.sizeGtOne = true
    · rw [if_pos hs] at h ⊢
      rw [if_pos hs]
      rw [Noted.bind_events] at h
      have h1 := sub_exact hF (x := n.rho.groupRho b) (y := n.rho.groupRho a) (by rw [h.1]; exact Set.notMem_empty _)
      rw [h1] at h ⊢
      have h2 := h.2
      dsimp only at h2
      rw [Noted.bind_events] at h2
      have h3 : F.mul (neg (.fin r)) (.fin (n.rho.groupRho b - n.rho.groupRho a)) = ⟨.fin (-r * (n.rho.groupRho b - n.rho.groupRho a)), ∅⟩ :=
        finish_exact' hF h2.1
      rw [h3] at h2
      rw [Noted.mk_bind, h3, Noted.mk_bind]
      exact finish_exact' hF h2.2
    · rw [if_neg hs, if_neg hs]
      rfl

theorem plain_exact (hF : ∀ x, F.round x = x) {eo : Bool} {rows : List J} (hnd : rows.Nodup) (hrows : ∀ j, j ∈ rows) {r : Option ℝ} {e : J → ℝ}
    (h : (flPlain F eo rows (r.map .fin) (fun j => .fin (e j))).events = ∅) :
    flPlain F eo rows (r.map .fin) (fun j => .fin (e j)) = ⟨fun j => .fin (e j / (plainScale eo r + ∑ k, e k)), ∅⟩ := by
  unfold flPlain at *
  rw [Noted.bind_events] at h
  have e1 := plainScale_exact hF h.1
  rw [e1] at h ⊢
  rw [Noted.mk_bind]
  have h2 := h.2
  dsimp only at h2
  rw [Noted.bind_events] at h2
  have e2 := sum_exact hF h2.1
  rw [e2] at h2 ⊢
  rw [sum_list hnd hrows] at h2 ⊢
  rw [Noted.mk_bind]
  have h3 := h2.2
  dsimp only at h3
  rw [Noted.bind_events] at h3
  have h4 : F.add (.fin (plainScale eo r)) (.fin (∑ k, e k)) = ⟨.fin (plainScale eo r + ∑ k, e k), ∅⟩ := finish_exact' hF h3.1
  rw [h4] at h3 ⊢
  rw [Noted.mk_bind]
  have h5 := h3.2
  dsimp only at h5
  rw [Noted.each_events] at h5
  exact Noted.each_mk fun j => div_exact hF (h5 j)

theorem weightedInclusives_exact (hF : ∀ x, F.round x = x) {n : Nesting J G} (hrho : ∀ g, n.rho.groupRho g < 1) {I : G → ℝ} (hI : ∀ g, 0 ≤ I g)
    (h : (flWeightedInclusives F n (fun g => .fin (I g))).events = ∅) :
    flWeightedInclusives F n (fun g => .fin (I g)) = ⟨fun g => .fin (expLogMul (I g) (1 - n.rho.groupRho g)), ∅⟩ := by
  refine Noted.ext' ?_ h
  unfold flWeightedInclusives at h ⊢
  rw [Noted.bind_events] at h
  have hover := Noted.quietly_over h.1
  funext g
  change zeroed ((F.log (.fin (I g))).bind fun l => (F.sub (.fin 1) (.fin (n.rho.groupRho g))).bind fun d => (F.mul l d).bind F.exp).val = _
  have hg : FpProblem.over ∉ ((F.log (.fin (I g))).bind fun l => (F.sub (.fin 1) (.fin (n.rho.groupRho g))).bind fun d =>
    (F.mul l d).bind F.exp).events := fun hx => hover ⟨g, hx⟩
  unfold expLogMul
  by_cases h0 : I g = 0
  · rw [if_pos h0]
    have hl : F.log (.fin (I g)) = ⟨.ninf, {.divide}⟩ := by
      simp only [FloatFormat.log]
      rw [if_pos h0]
    rw [hl] at hg ⊢
    have hs : F.sub (.fin 1) (.fin (n.rho.groupRho g)) = ⟨.fin (1 - n.rho.groupRho g), ∅⟩ :=
      sub_exact hF fun hx => hg (Or.inr (Or.inl hx))
    rw [Noted.bind_val]
    dsimp only
    rw [hs, Noted.mk_bind]
    have hpos : 0 < 1 - n.rho.groupRho g := by linarith [hrho g]
    have hm : F.mul .ninf (.fin (1 - n.rho.groupRho g)) = ⟨.ninf, ∅⟩ := by
      simp only [FloatFormat.mul]
      rw [if_neg hpos.ne']
      unfold infinite
      rw [if_pos hpos.le]
      rfl
    rw [hm, Noted.mk_bind]
    rfl
  · rw [if_neg h0]
    have hpos : 0 < I g := lt_of_le_of_ne (hI g) (Ne.symm h0)
    have hl : F.log (.fin (I g)) = ⟨.fin (Real.log (I g)), ∅⟩ := by
      have hx : FpProblem.over ∉ (F.log (.fin (I g))).events := fun hx => hg (Or.inl hx)
      simp only [FloatFormat.log] at hx ⊢
      rw [if_neg h0, if_neg (not_lt.mpr hpos.le)] at hx ⊢
      exact finish_exact hF hx
    rw [hl, Noted.mk_bind] at hg ⊢
    have hs : F.sub (.fin 1) (.fin (n.rho.groupRho g)) = ⟨.fin (1 - n.rho.groupRho g), ∅⟩ := sub_exact hF fun hx => hg (Or.inl hx)
    rw [hs, Noted.mk_bind] at hg ⊢
    have hm : F.mul (.fin (Real.log (I g))) (.fin (1 - n.rho.groupRho g)) = ⟨.fin (Real.log (I g) * (1 - n.rho.groupRho g)), ∅⟩ :=
      finish_exact hF fun hx => hg (Or.inl hx)
    rw [hm, Noted.mk_bind] at hg ⊢
    have he : F.exp (.fin (Real.log (I g) * (1 - n.rho.groupRho g))) = ⟨.fin (Real.exp (Real.log (I g) * (1 - n.rho.groupRho g))), ∅⟩ :=
      finish_exact hF hg
    rw [he]
    rfl

theorem conditionals_exact (hF : ∀ x, F.round x = x) {n : Nesting J G} {e : J → ℝ} {I : G → ℝ}
    (h : (flConditionals F n (fun j => .fin (e j)) (fun g => .fin (I g))).events = ∅) :
    flConditionals F n (fun j => .fin (e j)) (fun g => .fin (I g)) = ⟨fun j => .fin (safeDiv (e j) (I (n.group j))), ∅⟩ := by
  refine Noted.ext' ?_ h
  unfold flConditionals at h ⊢
  rw [Noted.bind_events] at h
  have hover := Noted.quietly_over h.1
  funext j
  change zeroed (F.div (.fin (e j)) (.fin (I (n.group j)))).val = _
  have hj : FpProblem.over ∉ (F.div (.fin (e j)) (.fin (I (n.group j)))).events := fun hx => hover ⟨j, hx⟩
  unfold safeDiv
  simp only [FloatFormat.div] at hj ⊢
  by_cases h0 : I (n.group j) = 0
  · rw [if_pos h0, if_pos h0]
    by_cases hx : e j = 0
    · rw [if_pos hx]
      rfl
    · rw [if_neg hx]
      unfold infinite
      split_ifs <;> rfl
  · rw [if_neg h0] at hj ⊢
    rw [if_neg h0, finish_exact hF hj]
    rfl

theorem marginals_exact (hF : ∀ x, F.round x = x) {n : Nesting J G} {eo : Bool} {groups : List G} (hnd : groups.Nodup) (hgroups : ∀ g, g ∈ groups)
    {r : Option ℝ} {w : G → ℝ} (h : (flMarginals F n eo groups (r.map .fin) (fun g => .fin (w g))).events = ∅) :
    flMarginals F n eo groups (r.map .fin) (fun g => .fin (w g)) =
      ⟨fun g => .fin (w g / (nestedScale n eo r g + ∑ k, scaleWeight n r g k * w k)), ∅⟩ := by
  unfold flMarginals at *
  rw [Noted.each_events] at h
  refine Noted.each_mk fun g => ?_
  have hg := h g
  rw [Noted.bind_events] at hg
  have e3 := nestedScale_exact hF hg.1
  rw [e3] at hg ⊢
  rw [Noted.mk_bind]
  have h2 := hg.2
  dsimp only at h2
  rw [Noted.bind_events, Noted.each_events] at h2
  have hx : (Noted.each fun k => (flScaleWeight F n (r.map .fin) g k).bind fun s => F.mul s (.fin (w k))) =
      ⟨fun k => .fin (scaleWeight n r g k * w k), ∅⟩ := by
    refine Noted.each_mk fun k => ?_
    have hk := h2.1 k
    rw [Noted.bind_events] at hk
    have e4 := scaleWeight_exact hF hk.1
    rw [e4] at hk ⊢
    rw [Noted.mk_bind]
    exact finish_exact' hF hk.2
  rw [hx] at h2 ⊢
  rw [Noted.mk_bind]
  have h3 := h2.2
  dsimp only at h3
  rw [Noted.bind_events] at h3
  have e5 := sum_exact hF h3.1
  rw [e5] at h3 ⊢
  rw [sum_list hnd hgroups] at h3 ⊢
  rw [Noted.mk_bind]
  have h4 := h3.2
  dsimp only at h4
  rw [Noted.bind_events] at h4
  have h5 : F.add (.fin (nestedScale n eo r g)) (.fin (∑ k, scaleWeight n r g k * w k)) =
      ⟨.fin (nestedScale n eo r g + ∑ k, scaleWeight n r g k * w k), ∅⟩ := finish_exact' hF h4.1
  rw [h5] at h4 ⊢
  rw [Noted.mk_bind]
  exact div_exact hF h4.2

/-- **C122**: with arithmetic that does not round but that can overflow and that can be undefined, choice probabilities that were computed
without anything being noticed are those of the model over the real numbers. All theorems about the latter are about the former. -/
theorem C122_exact (F : FloatFormat) (hF : ∀ x, F.round x = x) (m : Market J A G) (o : ProbOpts J A) (rows : List J) (groups : List G)
    (hnd : rows.Nodup) (hrows : ∀ j, j ∈ rows) (hgnd : groups.Nodup) (hgroups : ∀ g, g ∈ groups)
    (hrho : ∀ n, m.nesting = some n → ∀ g, n.rho.groupRho g < 1)
    (havailable : ∀ a, (o.availability <|> m.availability) = some a → ∀ i j, 0 ≤ a i j) (delta : J → ℝ) (mu : J → A → ℝ) (i : A)
    (h : (flProbabilities F m o rows groups (fun j => .fin (delta j)) (fun j i => .fin (mu j i)) i).events = ∅) (j : J) :
    (flProbabilities F m o rows groups (fun j => .fin (delta j)) (fun j i => .fin (mu j i)) i).val j = .fin (computeProbabilities m o delta mu j i) := by
  unfold flProbabilities at *
  unfold computeProbabilities agentProbabilities
  rw [Noted.bind_events, Noted.each_events] at h
  have hu := Noted.each_mk fun j => utilities_exact hF (h.1 j)
  rw [hu] at h ⊢
  rw [Noted.mk_bind]
  have h2 := h.2
  dsimp only at h2
  rw [Noted.bind_events] at h2
  have hE := exponentiated_exact hF hrows h2.1
  rw [hE] at h2 ⊢
  rw [Noted.mk_bind]
  have h3 := h2.2
  dsimp only at h3 ⊢
  rw [Noted.bind_events] at h3
  have hR := restrict_exact hF h3.1
  rw [hR] at h3 ⊢
  rw [Noted.mk_bind]
  have h4 := h3.2
  dsimp only at h4 ⊢
  cases hn : m.nesting with
  | none =>
    rw [hn] at h4
    dsimp only at h4 ⊢
    rw [plain_exact hF hnd hrows h4]
    rfl
  | some n =>
    rw [hn] at h4
    dsimp only at h4 ⊢
    rw [Noted.bind_events] at h4
    have h5 := h4.1
    unfold flNested at h5 ⊢
    rw [Noted.bind_events, Noted.each_events] at h5
    have hI : ∀ e : J → ℝ, (∀ g, (F.sum (fun j => .fin (e j)) (rows.filter fun k => n.group k = g)).events = ∅) →
        (Noted.each fun g => F.sum (fun j => .fin (e j)) (rows.filter fun k => n.group k = g)) = ⟨fun g => .fin (∑ k with n.group k = g, e k), ∅⟩ := by
      intro e he
      refine Noted.each_mk fun g => ?_
      rw [sum_exact hF (he g), sum_list_filter hnd hrows e n.group g]
    have e6 := hI _ h5.1
    rw [e6] at h5 ⊢
    rw [Noted.mk_bind]
    have h6 := h5.2
    dsimp only at h6
    rw [Noted.bind_events] at h6
    have hnonneg : ∀ j, 0 ≤ restrict m o (fun j => Real.exp (utilities m delta mu j i - (exactReduction o.safe fun j => utilities m delta mu j i).getD 0)) i j := by
      intro j
      unfold restrict
      split_ifs
      · exact le_rfl
      · cases ha : (o.availability <|> m.availability) with
        | none => exact (Real.exp_pos _).le
        | some a => exact mul_nonneg (Real.exp_pos _).le (havailable a ha i j)
    have e7 := weightedInclusives_exact hF (hrho n hn) (fun g => Finset.sum_nonneg fun k _ => hnonneg k) h6.1
    rw [e7] at h6 ⊢
    rw [Noted.mk_bind]
    have h7 := h6.2
    dsimp only at h7
    rw [Noted.bind_events] at h7
    have e8 := conditionals_exact hF h7.1
    rw [e8] at h7 ⊢
    rw [Noted.mk_bind]
    have h8 := h7.2
    dsimp only at h8
    rw [Noted.bind_events] at h8
    have e9 := marginals_exact hF hgnd hgroups h8.1
    rw [e9] at h8 ⊢
    rw [Noted.mk_bind]
    have h9 := h8.2
    dsimp only at h9
    rw [Noted.bind_events, Noted.each_events] at h9
    have h10 := finish_exact' hF (h9.1 j)
    refine (congrArg Noted.val h10).trans ?_
    rfl

/-- One product without nests. -/
noncomputable def singleFl : Market (Fin 1) Unit (Fin 1) where
  nesting := none
  epsilonScale := 1
  weights := fun _ => 1
  availability := none

/-- A case in which nothing is noticed. -/
theorem single_probabilities : flProbabilities exactFormat singleFl { safe := false } [0] [0] (fun _ => .fin 0) (fun _ _ => .fin 0) () =
    ⟨fun _ => .fin (1 / 2), ∅⟩ := by
  have hu : (Noted.each fun j => flUtilities exactFormat singleFl (fun _ => .fin 0) (fun _ _ => .fin 0) () j) = ⟨fun _ => .fin 0, ∅⟩ := by
    refine Noted.each_mk fun j => ?_
    unfold flUtilities
    have hadd : exactFormat.add (.fin 0) (.fin 0) = ⟨.fin 0, ∅⟩ := by
      change exactFormat.finish (0 + 0) = _
      rw [exact_finish (by norm_num)]
      norm_num
    rw [hadd, Noted.mk_bind]
    simp [singleFl, Noted.pure]
  have he : flExponentiated exactFormat false [(0 : Fin 1)] (fun _ => .fin 0) = ⟨(none, fun _ => .fin 1), ∅⟩ := by
    unfold flExponentiated
    simp only [Bool.false_eq_true, if_false]
    rw [Noted.each_mk (v := fun _ => .fin 1), Noted.mk_bind]
    · rfl
    · intro j
      change exactFormat.finish (Real.exp 0) = _
      rw [Real.exp_zero, exact_finish (by norm_num)]
  have hr : flRestrict exactFormat singleFl ({ safe := false } : ProbOpts (Fin 1) Unit) (fun _ => .fin 1) () = ⟨fun _ => .fin 1, ∅⟩ := by
    unfold flRestrict
    refine Noted.each_mk fun j => ?_
    simp [singleFl, Noted.pure, Noted.bind]
  unfold flProbabilities
  rw [hu, Noted.mk_bind, he, Noted.mk_bind]
  dsimp only
  rw [hr, Noted.mk_bind]
  change flPlain exactFormat false [0] none (fun _ => .fin 1) = _
  unfold flPlain flPlainScale FloatFormat.sum
  have hadd : exactFormat.add (.fin 0) (.fin 1) = ⟨.fin 1, ∅⟩ := by
    change exactFormat.finish (0 + 1) = _
    rw [exact_finish (by norm_num)]
    norm_num
  have hadd' : exactFormat.add (.fin 1) (.fin 1) = ⟨.fin 2, ∅⟩ := by
    change exactFormat.finish (1 + 1) = _
    rw [exact_finish (by norm_num [abs_le])]
    norm_num
  simp only [Noted.pure, Noted.mk_bind, FloatFormat.sum, Bool.false_eq_true, if_false, hadd, hadd']
  refine Noted.each_mk fun j => ?_
  simp only [FloatFormat.div]
  rw [if_neg two_ne_zero, exact_finish (by norm_num [abs_le])]

/-- A case that meets the hypotheses of `C122_exact`. -/
example : computeProbabilities singleFl { safe := false } (fun _ => 0) (fun _ _ => 0) 0 () = 1 / 2 := by
  have h := C122_exact exactFormat (fun _ => rfl) singleFl { safe := false } [0] [0] (by decide) (by decide) (by decide) (by decide)
    (fun n hn => by cases hn) (fun a ha => by cases ha) (fun _ => 0) (fun _ _ => 0) () (by rw [single_probabilities]) 0
  rw [single_probabilities] at h
  exact (Flo.fin.inj h).symm

/-- A case that meets the hypotheses of `C122_noticed`. -/
example : ((flProbabilities exactFormat singleFl { safe := false } [0] [0] (fun _ => .fin 0) (fun _ _ => .fin 0) ()).val 0).IsNumber :=
  C122_noticed exactFormat singleFl { safe := false } [0] [0] _ _ () (fun _ => ⟨0, rfl⟩) (fun _ => ⟨0, rfl⟩) (by rw [single_probabilities]) 0

/-- A case that meets the hypotheses of `C122_bad_plain`. -/
example (v : Flo) (hv : v.Bad) : Spec.Revealed (flProbabilities coarse plainFlPair {} [0, 1] [] (fun _ => .fin 0)
    (fun j _ => if j = 0 then v else .fin 0) ()) :=
  C122_bad_plain coarse coarse_sound.proper plainFlPair {} [0, 1] [] _ _ () rfl (by norm_num [plainFlPair]) (fun a ha => by cases ha) 0 (by decide)
    (by simp) rfl (Or.inr hv)

/-- A case that meets the hypotheses of `C122_bad_nested_safe`. -/
example (v : Flo) (hv : v.Bad) : Spec.Revealed (flProbabilities coarse twoFlNests {} [0, 1] [0, 1] (fun _ => .fin 0)
    (fun j _ => if j = 0 then v else .fin 0) ()) :=
  C122_bad_nested_safe coarse coarse_sound.proper twoFlNests {} [0, 1] [0, 1] _ _ () ⟨id, .single (1 / 2)⟩ rfl rfl (by norm_num [twoFlNests])
    (fun n hn g => by cases hn; norm_num [RhoParam.groupRho]) 0 (by decide) (by decide) (Or.inr hv)

/-- A case that meets the hypotheses of `C122_bad_nested_unsafe`: that of `C122_unsafe_nested_refuted`. -/
example (v : Flo) (hv : v.Bad) : (flProbabilities exactFormat twoFlNests { safe := false } [0, 1] [0, 1] (fun _ => .fin 0)
      (fun j _ => if j = 0 then v else .fin 0) ()).events.Nonempty ∨
    (flProbabilities exactFormat twoFlNests { safe := false } [0, 1] [0, 1] (fun _ => .fin 0) (fun j _ => if j = 0 then v else .fin 0) ()).val =
      (flProbabilities exactFormat twoFlNests { safe := false, eliminateMask := fun j => false || decide (j = 0) } [0, 1] [0, 1] (fun _ => .fin 0)
        (fun j _ => if j = 0 then v else .fin 0) ()).val :=
  C122_bad_nested_unsafe exactFormat exactFormat_proper twoFlNests { safe := false } [0, 1] [0, 1] _ _ () ⟨id, .single (1 / 2)⟩ rfl rfl
    (by norm_num [twoFlNests]) (fun n hn g => by cases hn; norm_num [RhoParam.groupRho]) (fun a ha => by cases ha) 0 (by decide)
    (by simp) rfl (Or.inr hv)

end Pyblp
