import Mathlib.Algebra.Order.Floor.Ring
import Verif.Props.FloatProbabilities

set_option linter.unusedSectionVars false

/-!
# C122: overflow protection
-/

namespace Pyblp

open Classical FloatFormat

/-- What is asked of the machine's numbers: rounding is monotone, does nothing to numbers that are already rounded or to integers up to
`limit`, at most doubles a number, and the smallest positive number is not so small that its logarithm overflows. Double precision is like
this with `limit` two to the power of 53. -/
structure FloatFormat.Sound (F : FloatFormat) (limit : ℕ) : Prop where
  mono : Monotone F.round
  idem : ∀ x, F.round (F.round x) = F.round x
  nat : ∀ k : ℕ, k ≤ limit → F.round k = k
  limit : (limit : ℝ) ≤ F.largest
  double : ∀ x, |F.round x| ≤ 2 * |x|
  tiny : ∃ t : ℝ, 0 < t ∧ -(2 * Real.log t) ≤ F.largest ∧ ∀ x, 0 < F.round x → t ≤ F.round x

/-- A probability. -/
def Spec.IsProbability (x : Flo) : Prop := ∃ p : ℝ, x = .fin p ∧ 0 ≤ p ∧ p ≤ 1

namespace FloatFormat.Sound

variable {F : FloatFormat} {limit : ℕ}

theorem zero (h : F.Sound limit) : F.round 0 = 0 := by simpa using h.nat 0 (Nat.zero_le _)

theorem nonneg (h : F.Sound limit) {x : ℝ} (hx : 0 ≤ x) : 0 ≤ F.round x := by
  have := h.mono hx
  rwa [h.zero] at this

theorem nonpos (h : F.Sound limit) {x : ℝ} (hx : x ≤ 0) : F.round x ≤ 0 := by
  have := h.mono hx
  rwa [h.zero] at this

theorem le_nat (h : F.Sound limit) {x : ℝ} {k : ℕ} (hk : k ≤ limit) (hx : x ≤ k) : F.round x ≤ k := by
  have := h.mono hx
  rwa [h.nat k hk] at this

theorem nat_le (h : F.Sound limit) {x : ℝ} {k : ℕ} (hk : k ≤ limit) (hx : k ≤ x) : k ≤ F.round x := by
  have := h.mono hx
  rwa [h.nat k hk] at this

theorem largest_nonneg (h : F.Sound limit) : 0 ≤ F.largest := le_trans (Nat.cast_nonneg _) h.limit

theorem proper (h : F.Sound limit) : F.Proper := ⟨h.mono, h.zero, h.largest_nonneg⟩

/-- Results between zero and an integer up to the limit do not overflow. -/
theorem finish (h : F.Sound limit) {x : ℝ} {k : ℕ} (hk : k ≤ limit) (h0 : 0 ≤ x) (hx : x ≤ k) :
    F.finish x = ⟨.fin (F.round x), ∅⟩ := by
  refine finish_within ?_
  rw [abs_of_nonneg (h.nonneg h0)]
  refine le_trans (h.le_nat hk hx) (le_trans ?_ h.limit)
  exact_mod_cast hk

theorem one_le (h1 : 1 ≤ limit) (h : F.Sound limit) {x : ℝ} (hx : 1 ≤ x) : 1 ≤ F.round x := by
  have := h.nat_le h1 (x := x) (by simpa using hx)
  simpa using this

theorem le_one (h1 : 1 ≤ limit) (h : F.Sound limit) {x : ℝ} (hx : x ≤ 1) : F.round x ≤ 1 := by
  have := h.le_nat h1 (x := x) (by simpa using hx)
  simpa using this

theorem exp (h1 : 1 ≤ limit) (h : F.Sound limit) {x : ℝ} (hx : x ≤ 0) :
    F.exp (.fin x) = ⟨.fin (F.round (Real.exp x)), ∅⟩ ∧ 0 ≤ F.round (Real.exp x) ∧ F.round (Real.exp x) ≤ 1 := by
  have hle : Real.exp x ≤ 1 := Real.exp_le_one_iff.mpr hx
  exact ⟨h.finish h1 (Real.exp_pos x).le (by simpa using hle), h.nonneg (Real.exp_pos x).le, h.le_one h1 hle⟩

theorem round_one (h1 : 1 ≤ limit) (h : F.Sound limit) : F.round 1 = 1 := by simpa using h.nat 1 h1

/-- A sum of numbers between zero and `c`. -/
theorem sum (h : F.Sound limit) {ι : Type} {x : ι → Flo} {y : ι → ℝ} {l : List ι} {c : ℕ} (hx : ∀ k ∈ l, x k = .fin (y k))
    (h0 : ∀ k ∈ l, 0 ≤ y k) (hc : ∀ k ∈ l, y k ≤ c) (hy : ∀ k ∈ l, F.round (y k) = y k) (hl : l.length * c ≤ limit) :
    ∃ s : ℝ, F.sum x l = ⟨.fin s, ∅⟩ ∧ 0 ≤ s ∧ s ≤ (l.length * c : ℕ) ∧ F.round s = s ∧ ∀ k ∈ l, y k ≤ s := by
  induction l with
  | nil => exact ⟨0, rfl, le_rfl, by simp, h.zero, fun k hk => absurd hk List.not_mem_nil⟩
  | cons k l ih =>
    rw [List.length_cons] at hl
    have hl' : l.length * c ≤ limit := by nlinarith
    obtain ⟨s, hs, hs0, hsc, hsr, hsk⟩ := ih (fun j hj => hx j (List.mem_cons_of_mem _ hj)) (fun j hj => h0 j (List.mem_cons_of_mem _ hj))
      (fun j hj => hc j (List.mem_cons_of_mem _ hj)) (fun j hj => hy j (List.mem_cons_of_mem _ hj)) hl'
    have hk0 := h0 k List.mem_cons_self
    have hkc := hc k List.mem_cons_self
    have hb : s + y k ≤ (((l.length + 1) * c : ℕ) : ℝ) := by
      push_cast at hsc ⊢
      linarith
    refine ⟨F.round (s + y k), ?_, h.nonneg (by linarith), h.le_nat hl hb, h.idem _, ?_⟩
    · rw [FloatFormat.sum, hs, Noted.mk_bind, hx k List.mem_cons_self]
      exact h.finish hl (by linarith) hb
    · intro j hj
      rcases List.mem_cons.mp hj with rfl | hj
      · have := h.mono (show y j ≤ s + y j by linarith)
        rwa [hy j List.mem_cons_self] at this
      · refine le_trans (hsk j hj) ?_
        have := h.mono (show s ≤ s + y k by linarith)
        rwa [hsr] at this

end FloatFormat.Sound

variable {F : FloatFormat} {limit : ℕ} {J A G : Type} [DecidableEq J] [DecidableEq G]

theorem reduction_fin (rows : List J) (u : J → ℝ) :
    ∃ r : ℝ, flReduction rows (fun j => .fin (u j)) = .fin r ∧ 0 ≤ r ∧ (∀ j ∈ rows, u j ≤ r) ∧ (r = 0 ∨ ∃ k ∈ rows, r = u k) := by
  have hfold : rows = [] ∧ rows.foldr (fun j r => larger (.fin (u j)) r) .ninf = .ninf ∨
      ∃ s : ℝ, rows.foldr (fun j r => larger (.fin (u j)) r) .ninf = .fin s ∧ (∀ j ∈ rows, u j ≤ s) ∧ ∃ k ∈ rows, s = u k := by
    induction rows with
    | nil => exact Or.inl ⟨rfl, rfl⟩
    | cons j l ih =>
      right
      rcases ih with ⟨hl, h⟩ | ⟨s, hs, hle, k, hk, hsk⟩
      · subst hl
        refine ⟨u j, rfl, ?_, j, List.mem_cons_self, rfl⟩
        intro i hi
        rw [List.mem_singleton.mp hi]
      · refine ⟨max (u j) s, ?_, ?_, ?_⟩
        · rw [List.foldr_cons, hs]
          rfl
        · intro i hi
          rcases List.mem_cons.mp hi with rfl | hi
          · exact le_max_left _ _
          · exact le_trans (hle i hi) (le_max_right _ _)
        · rcases max_choice (u j) s with h | h
          · exact ⟨j, List.mem_cons_self, h⟩
          · exact ⟨k, List.mem_cons_of_mem _ hk, h.trans hsk⟩
  unfold flReduction
  rcases hfold with ⟨hl, h⟩ | ⟨s, hs, hle, k, hk, hsk⟩
  · refine ⟨0, ?_, le_rfl, ?_, Or.inl rfl⟩
    · rw [h]
      rfl
    · rw [hl]
      exact fun j hj => absurd hj List.not_mem_nil
  · refine ⟨max s 0, ?_, le_max_right _ _, fun j hj => le_trans (hle j hj) (le_max_left _ _), ?_⟩
    · rw [hs]
      rfl
    · rcases max_choice s 0 with h | h
      · exact Or.inr ⟨k, hk, h.trans hsk⟩
      · exact Or.inl h

/-- Reduced utilities do not overflow when exponentiated. -/
theorem safe_exponentiated (h1 : 1 ≤ limit) (h : F.Sound limit) {rows : List J} (hrows : ∀ j, j ∈ rows) {u : J → ℝ} {U : ℝ}
    (hU : ∀ j, |u j| ≤ U) (hbig : 4 * U ≤ F.largest) (hU0 : 0 ≤ U) :
    ∃ (r : ℝ) (e : J → ℝ), flExponentiated F true rows (fun j => .fin (u j)) = ⟨(some (.fin r), fun j => .fin (e j)), ∅⟩ ∧ 0 ≤ r ∧ r ≤ U ∧
      (∀ j, 0 ≤ e j ∧ e j ≤ 1 ∧ F.round (e j) = e j) ∧ (r = 0 ∨ ∃ k, e k = 1) := by
  obtain ⟨r, hr, hr0, hle, hmax⟩ := reduction_fin rows u
  have hrU : r ≤ U := by
    rcases hmax with rfl | ⟨k, -, rfl⟩
    · exact hU0
    · exact le_of_abs_le (hU k)
  have hsub : ∀ j, F.sub (.fin (u j)) (.fin r) = ⟨.fin (F.round (u j + -r)), ∅⟩ := by
    intro j
    refine finish_within ?_
    refine le_trans (h.double _) (le_trans ?_ hbig)
    have h2 : |u j + -r| ≤ 2 * U := by
      refine le_trans (abs_add_le _ _) ?_
      rw [abs_neg, abs_of_nonneg hr0]
      linarith [hU j]
    linarith
  have hneg : ∀ j, F.round (u j + -r) ≤ 0 := fun j => h.nonpos (by linarith [hle j (hrows j)])
  refine ⟨r, fun j => F.round (Real.exp (F.round (u j + -r))), ?_, hr0, hrU, fun j => ?_, ?_⟩
  · unfold flExponentiated
    simp only [if_true, hr]
    rw [Noted.each_mk (v := fun j => .fin (F.round (Real.exp (F.round (u j + -r)))))]
    · rw [Noted.mk_bind]
      rfl
    · intro j
      rw [hsub j, Noted.mk_bind, (h.exp h1 (hneg j)).1]
  · exact ⟨(h.exp h1 (hneg j)).2.1, (h.exp h1 (hneg j)).2.2, h.idem _⟩
  · rcases hmax with h0 | ⟨k, -, hk⟩
    · exact Or.inl h0
    · right
      refine ⟨k, ?_⟩
      dsimp only
      rw [hk, add_neg_cancel, h.zero, Real.exp_zero, h.round_one h1]

theorem restrict_none {m : Market J A G} {o : ProbOpts J A} (i : A) (e : J → Flo) (ha : (o.availability <|> m.availability) = none)
    (h1 : o.eliminateProduct = none) (h2 : ∀ j, o.eliminateMask j = false) : flRestrict F m o e i = ⟨e, ∅⟩ := by
  unfold flRestrict
  refine Noted.each_mk fun j => ?_
  rw [ha, h1]
  simp [h2 j, Noted.pure, Noted.bind]

theorem quotient_probability (h1 : 1 ≤ limit) (h : F.Sound limit) {a b : ℝ} (ha : 0 ≤ a) (hab : a ≤ b) (hb : 0 < b) :
    F.div (.fin a) (.fin b) = ⟨.fin (F.round (a / b)), ∅⟩ ∧ 0 ≤ F.round (a / b) ∧ F.round (a / b) ≤ 1 := by
  have hq0 : 0 ≤ a / b := div_nonneg ha hb.le
  have hq1 : a / b ≤ 1 := (div_le_one hb).mpr hab
  refine ⟨?_, h.nonneg hq0, h.le_one h1 hq1⟩
  simp only [FloatFormat.div]
  rw [if_neg hb.ne']
  exact h.finish h1 hq0 (by simpa using hq1)

/-- **C122.** Without nests, overflow protection works: if utilities are numbers of at most a quarter of the size of the largest number,
then nothing is noticed and every result is a probability. -/
theorem C122_safe_plain (F : FloatFormat) (limit : ℕ) (hF : F.Sound limit) (m : Market J A G) (o : ProbOpts J A) (rows : List J)
    (groups : List G) (delta : J → Flo) (mu : J → A → Flo) (i : A) (hn : m.nesting = none) (hsafe : o.safe = true)
    (hout : o.eliminateOutside = false) (ha : (o.availability <|> m.availability) = none) (hp : o.eliminateProduct = none)
    (hmask : ∀ j, o.eliminateMask j = false) (hrows : ∀ j, j ∈ rows) (hlimit : rows.length + 1 ≤ limit) (u : J → ℝ) (U : ℝ)
    (hu : ∀ j, flUtilities F m delta mu i j = ⟨.fin (u j), ∅⟩) (hU : ∀ j, |u j| ≤ U) (hbig : 4 * U ≤ F.largest) (hU0 : 0 ≤ U) :
    (flProbabilities F m o rows groups delta mu i).events = ∅ ∧
      ∀ j, Spec.IsProbability ((flProbabilities F m o rows groups delta mu i).val j) := by
  have h1 : 1 ≤ limit := by omega
  obtain ⟨r, e, hE, hr0, hrU, he, hmax⟩ := safe_exponentiated h1 hF hrows hU hbig hU0
  obtain ⟨hs, hs0, hs1⟩ := hF.exp h1 (x := -r) (by linarith)
  obtain ⟨t, ht, ht0, htc, -, htk⟩ := hF.sum (x := fun j => .fin (e j)) (y := e) (l := rows) (c := 1) (fun _ _ => rfl)
    (fun k _ => (he k).1) (fun k _ => by simpa using (he k).2.1) (fun k _ => (he k).2.2) (by omega)
  have hbelow : F.add (.fin (F.round (Real.exp (-r)))) (.fin t) = ⟨.fin (F.round (F.round (Real.exp (-r)) + t)), ∅⟩ := by
    refine hF.finish hlimit (by linarith) ?_
    push_cast at htc ⊢
    linarith
  have hb1 : 1 ≤ F.round (F.round (Real.exp (-r)) + t) := by
    refine hF.one_le h1 ?_
    rcases hmax with h0 | ⟨k, hk⟩
    · rw [h0, neg_zero, Real.exp_zero, hF.round_one h1]
      linarith
    · have := htk k (hrows k)
      rw [hk] at this
      linarith
  have hbe : ∀ j, e j ≤ F.round (F.round (Real.exp (-r)) + t) := by
    intro j
    have := hF.mono (show e j ≤ F.round (Real.exp (-r)) + t by linarith [htk j (hrows j)])
    rwa [(he j).2.2] at this
  have hdiv := fun j => quotient_probability h1 hF (he j).1 (hbe j) (by linarith)
  have hall : flProbabilities F m o rows groups delta mu i =
      ⟨fun j => .fin (F.round (e j / F.round (F.round (Real.exp (-r)) + t))), ∅⟩ := by
    unfold flProbabilities
    rw [Noted.each_mk hu, Noted.mk_bind, hsafe, hE, Noted.mk_bind]
    dsimp only
    rw [restrict_none i _ ha hp hmask, Noted.mk_bind]
    simp only [hn]
    unfold flPlain flPlainScale
    simp only [hout, Bool.false_eq_true, if_false]
    have hneg : neg (.fin r) = .fin (-r) := rfl
    rw [hneg, hs, Noted.mk_bind, Noted.pure, Noted.mk_bind, ht, Noted.mk_bind, hbelow, Noted.mk_bind]
    exact Noted.each_mk fun j => (hdiv j).1
  rw [hall]
  exact ⟨rfl, fun j => ⟨_, rfl, (hdiv j).2.1, (hdiv j).2.2⟩⟩

theorem quietly_eq {α : Type} {x : Noted α} {v : α} (hv : x.val = v) (he : x.events ⊆ {.divide, .invalid}) : x.quietly = ⟨v, ∅⟩ := by
  unfold Noted.quietly
  rw [hv, Set.sdiff_eq_empty.mpr he]

/-- Weights of nests do not overflow. -/
theorem safe_weightedInclusives (hF : F.Sound limit) {n : Nesting J G} (hrho0 : ∀ g, 0 ≤ n.rho.groupRho g) (hrho : ∀ g, n.rho.groupRho g < 1)
    {N : ℕ} (hN : 2 * N ^ 2 ≤ limit) (hN1 : 1 ≤ N) {I : G → ℝ} (hI0 : ∀ g, 0 ≤ I g) (hIN : ∀ g, I g ≤ N) (hIr : ∀ g, F.round (I g) = I g) :
    ∃ w : G → ℝ, flWeightedInclusives F n (fun g => .fin (I g)) = ⟨fun g => .fin (w g), ∅⟩ ∧
      (∀ g, 0 ≤ w g ∧ w g ≤ (N ^ 2 : ℕ) ∧ F.round (w g) = w g) ∧ ∀ g, 1 ≤ I g → 1 ≤ w g := by
  have h1 : 1 ≤ limit := by nlinarith
  have hN1' : (1 : ℝ) ≤ N := by exact_mod_cast hN1
  have hNN : N ≤ N ^ 2 := by nlinarith
  have hone : ∀ g, F.sub (.fin 1) (.fin (n.rho.groupRho g)) = ⟨.fin (F.round (1 + -n.rho.groupRho g)), ∅⟩ := fun g =>
    hF.finish h1 (by linarith [hrho g]) (by push_cast; linarith [hrho0 g])
  have hd0 : ∀ g, 0 ≤ F.round (1 + -n.rho.groupRho g) := fun g => hF.nonneg (by linarith [hrho g])
  have hd1 : ∀ g, F.round (1 + -n.rho.groupRho g) ≤ 1 := fun g => hF.le_one h1 (by linarith [hrho0 g])
  have hpoint : ∀ g, ∃ (x : Flo) (w : ℝ) (E : Set FpProblem), ((F.log (.fin (I g))).bind fun l => (F.sub (.fin 1) (.fin (n.rho.groupRho g))).bind fun d =>
      (F.mul l d).bind F.exp) = ⟨x, E⟩ ∧ E ⊆ {.divide, .invalid} ∧ zeroed x = .fin w ∧ 0 ≤ w ∧ w ≤ (N ^ 2 : ℕ) ∧ F.round w = w ∧
        (1 ≤ I g → 1 ≤ w) := by
    intro g
    simp only [hone g, Noted.mk_bind]
    generalize hd : F.round (1 + -n.rho.groupRho g) = d
    have hdn : 0 ≤ d := hd ▸ hd0 g
    have hdo : d ≤ 1 := hd ▸ hd1 g
    by_cases hz : I g = 0
    · have hlog : F.log (.fin (I g)) = ⟨.ninf, {.divide}⟩ := by
        simp only [FloatFormat.log]
        rw [if_pos hz]
      rw [hlog]
      by_cases hd' : d = 0
      · refine ⟨.nan, 0, {.divide} ∪ ({.invalid} ∪ ∅), ?_, ?_, rfl, le_rfl, by positivity, hF.zero, fun h => by rw [hz] at h; linarith⟩
        · simp [Noted.bind, FloatFormat.mul, hd', FloatFormat.exp]
        · intro p hp
          simpa [or_comm] using hp
      · refine ⟨.fin 0, 0, {.divide}, ?_, ?_, rfl, le_rfl, by positivity, hF.zero, fun h => by rw [hz] at h; linarith⟩
        · simp [Noted.bind, FloatFormat.mul, hd', FloatFormat.exp, FloatFormat.infinite, hdn]
        · intro p hp
          exact Or.inl hp
    · have hpos : 0 < I g := lt_of_le_of_ne (hI0 g) (Ne.symm hz)
      have hlogN : Real.log (I g) ≤ N := by
        have := Real.log_le_sub_one_of_pos hpos
        linarith [hIN g]
      obtain ⟨t, ht0, htl, ht⟩ := hF.tiny
      have htI : t ≤ I g := by
        have := ht (I g) (by rw [hIr g]; exact hpos)
        rwa [hIr g] at this
      have hL : |F.round (Real.log (I g))| ≤ F.largest := by
        refine le_trans (hF.double _) ?_
        rcases abs_cases (Real.log (I g)) with ⟨h, -⟩ | ⟨h, -⟩
        · rw [h]
          refine le_trans ?_ hF.limit
          have : ((2 * N : ℕ) : ℝ) ≤ limit := by exact_mod_cast (by nlinarith : 2 * N ≤ limit)
          push_cast at this
          linarith
        · rw [h]
          have := Real.log_le_log ht0 htI
          linarith
      have hlog : F.log (.fin (I g)) = ⟨.fin (F.round (Real.log (I g))), ∅⟩ := by
        simp only [FloatFormat.log]
        rw [if_neg hz, if_neg (not_lt.mpr hpos.le)]
        exact finish_within hL
      generalize hLdef : F.round (Real.log (I g)) = L at hL hlog
      have hLr : F.round L = L := by rw [← hLdef, hF.idem]
      -- the product is between the logarithm and zero
      have hM : |F.round (L * d)| ≤ |L| ∧ (0 ≤ L → 0 ≤ F.round (L * d)) := by
        rcases le_total 0 L with h0 | h0
        · have ha : 0 ≤ F.round (L * d) := hF.nonneg (mul_nonneg h0 hdn)
          refine ⟨?_, fun _ => ha⟩
          rw [abs_of_nonneg ha, abs_of_nonneg h0]
          have := hF.mono (show L * d ≤ L by nlinarith)
          rwa [hLr] at this
        · have ha : F.round (L * d) ≤ 0 := hF.nonpos (mul_nonpos_of_nonpos_of_nonneg h0 hdn)
          refine ⟨?_, fun h => ?_⟩
          · rw [abs_of_nonpos ha, abs_of_nonpos h0]
            have := hF.mono (show L ≤ L * d by nlinarith)
            rw [hLr] at this
            linarith
          · have : L = 0 := le_antisymm h0 h
            rw [this, zero_mul, hF.zero]
      have hmul : F.mul (.fin L) (.fin d) = ⟨.fin (F.round (L * d)), ∅⟩ := finish_within (le_trans hM.1 hL)
      have hML : F.round (L * d) ≤ max L 0 := by
        rcases le_total 0 L with h0 | h0
        · rw [max_eq_left h0]
          have := le_of_abs_le hM.1
          rwa [abs_of_nonneg h0] at this
        · rw [max_eq_right h0]
          exact hF.nonpos (mul_nonpos_of_nonpos_of_nonneg h0 hdn)
      have hL2 : max L 0 ≤ 2 * Real.log N := by
        have hlogN0 : 0 ≤ Real.log N := Real.log_nonneg hN1'
        refine max_le ?_ (by linarith)
        rcases le_total 0 (Real.log (I g)) with h0 | h0
        · have h2 := le_of_abs_le (hF.double (Real.log (I g)))
          rw [hLdef, abs_of_nonneg h0] at h2
          have := Real.log_le_log hpos (hIN g)
          linarith
        · have := hF.nonpos h0
          rw [hLdef] at this
          linarith
      have hexp : Real.exp (F.round (L * d)) ≤ ((N ^ 2 : ℕ) : ℝ) := by
        refine le_trans (Real.exp_le_exp.mpr (le_trans hML hL2)) ?_
        have : Real.exp (2 * Real.log N) = (N : ℝ) ^ 2 := by
          rw [two_mul, Real.exp_add, Real.exp_log (by linarith)]
          ring
        rw [this]
        push_cast
        exact le_rfl
      have hN2 : N ^ 2 ≤ limit := by omega
      refine ⟨.fin (F.round (Real.exp (F.round (L * d)))), F.round (Real.exp (F.round (L * d))), ∅, ?_, Set.empty_subset _, rfl,
        hF.nonneg (Real.exp_pos _).le, hF.le_nat hN2 hexp, hF.idem _, fun hI1 => ?_⟩
      · rw [hlog, Noted.mk_bind, hmul, Noted.mk_bind]
        exact hF.finish hN2 (Real.exp_pos _).le hexp
      · refine hF.one_le h1 ?_
        rw [Real.one_le_exp_iff]
        refine hM.2 ?_
        rw [← hLdef]
        exact hF.nonneg (Real.log_nonneg hI1)
  choose x w E hx hE hz h0 hle hr hone' using hpoint
  refine ⟨w, ?_, fun g => ⟨h0 g, hle g, hr g⟩, hone'⟩
  unfold flWeightedInclusives
  rw [quietly_eq (v := x)]
  · rw [Noted.mk_bind, Noted.pure]
    congr 1
    funext g
    exact hz g
  · funext g
    rw [Noted.each_val, hx g]
  · rintro p ⟨g, hg⟩
    dsimp only at hg
    rw [hx g] at hg
    exact hE g hg

/-- Conditional probabilities are probabilities. -/
theorem safe_conditionals (h1 : 1 ≤ limit) (hF : F.Sound limit) {n : Nesting J G} {e : J → ℝ} {I : G → ℝ} (he0 : ∀ j, 0 ≤ e j)
    (heI : ∀ j, e j ≤ I (n.group j)) :
    ∃ c : J → ℝ, flConditionals F n (fun j => .fin (e j)) (fun g => .fin (I g)) = ⟨fun j => .fin (c j), ∅⟩ ∧ ∀ j, 0 ≤ c j ∧ c j ≤ 1 := by
  have hpoint : ∀ j, ∃ (x : Flo) (c : ℝ) (E : Set FpProblem), F.div (.fin (e j)) (.fin (I (n.group j))) = ⟨x, E⟩ ∧ E ⊆ {.divide, .invalid} ∧
      zeroed x = .fin c ∧ 0 ≤ c ∧ c ≤ 1 := by
    intro j
    by_cases hz : I (n.group j) = 0
    · have hej : e j = 0 := le_antisymm (hz ▸ heI j) (he0 j)
      refine ⟨.nan, 0, {.invalid}, ?_, fun p hp => Or.inr hp, rfl, le_rfl, zero_le_one⟩
      simp only [FloatFormat.div]
      rw [if_pos hz, if_pos hej]
    · have hpos : 0 < I (n.group j) := lt_of_le_of_ne (le_trans (he0 j) (heI j)) (Ne.symm hz)
      obtain ⟨hq, hq0, hq1⟩ := quotient_probability h1 hF (he0 j) (heI j) hpos
      exact ⟨_, _, ∅, hq, Set.empty_subset _, rfl, hq0, hq1⟩
  choose x c E hx hE hz h0 hle using hpoint
  refine ⟨c, ?_, fun j => ⟨h0 j, hle j⟩⟩
  unfold flConditionals
  rw [quietly_eq (v := x)]
  · rw [Noted.mk_bind, Noted.pure]
    congr 1
    funext j
    exact hz j
  · funext j
    rw [Noted.each_val, hx j]
  · rintro p ⟨j, hj⟩
    dsimp only at hj
    rw [hx j] at hj
    exact hE j hj

/-- **C122.** With one nesting parameter for all nests, overflow protection works: if utilities are numbers of at most a quarter of the size
of the largest number, then nothing is noticed and every result is a probability. -/
theorem C122_safe_nested (F : FloatFormat) (limit : ℕ) (hF : F.Sound limit) (m : Market J A G) (o : ProbOpts J A) (rows : List J)
    (groups : List G) (delta : J → Flo) (mu : J → A → Flo) (i : A) (n : Nesting J G) (hn : m.nesting = some n)
    (hsingle : n.rho.sizeGtOne = false) (hrho0 : ∀ g, 0 ≤ n.rho.groupRho g) (hrho : ∀ g, n.rho.groupRho g < 1) (hsafe : o.safe = true)
    (hout : o.eliminateOutside = false) (ha : (o.availability <|> m.availability) = none) (hp : o.eliminateProduct = none)
    (hmask : ∀ j, o.eliminateMask j = false) (hne : rows ≠ []) (hrows : ∀ j, j ∈ rows) (hgroups : ∀ g, g ∈ groups)
    (hlimit : 1 + 2 * (groups.length + 1) * rows.length ^ 2 ≤ limit) (u : J → ℝ) (U : ℝ)
    (hu : ∀ j, flUtilities F m delta mu i j = ⟨.fin (u j), ∅⟩) (hU : ∀ j, |u j| ≤ U) (hbig : 4 * U ≤ F.largest) (hU0 : 0 ≤ U) :
    (flProbabilities F m o rows groups delta mu i).events = ∅ ∧
      ∀ j, Spec.IsProbability ((flProbabilities F m o rows groups delta mu i).val j) := by
  have h1 : 1 ≤ limit := by omega
  obtain ⟨r, e, hE, hr0, hrU, he, hmax⟩ := safe_exponentiated h1 hF hrows hU hbig hU0
  have hN2 : (groups.length + 1) * (rows.length ^ 2) + 1 ≤ limit := by nlinarith
  have hNN : rows.length ≤ rows.length ^ 2 := by nlinarith [Nat.zero_le rows.length]
  -- inclusive values
  have hinc : ∀ g, ∃ s : ℝ, F.sum (fun j => .fin (e j)) (rows.filter fun k => n.group k = g) = ⟨.fin s, ∅⟩ ∧ 0 ≤ s ∧ s ≤ rows.length ∧
      F.round s = s ∧ ∀ k, n.group k = g → e k ≤ s := by
    intro g
    have hlen : (rows.filter fun k => n.group k = g).length ≤ rows.length := List.length_filter_le _ _
    obtain ⟨s, hs, hs0, hsc, hsr, hsk⟩ := hF.sum (x := fun j => .fin (e j)) (y := e) (l := rows.filter fun k => n.group k = g) (c := 1)
      (fun _ _ => rfl) (fun k _ => (he k).1) (fun k _ => by simpa using (he k).2.1) (fun k _ => (he k).2.2) (by nlinarith)
    refine ⟨s, hs, hs0, ?_, hsr, fun k hk => hsk k (List.mem_filter.mpr ⟨hrows k, by simpa using hk⟩)⟩
    refine le_trans hsc ?_
    exact_mod_cast (by omega : (rows.filter fun k => n.group k = g).length * 1 ≤ rows.length)
  choose I hI hI0 hIN hIr hIk using hinc
  · have hN1 : 1 ≤ rows.length := List.length_pos_iff.mpr hne
    obtain ⟨w, hw, hw0, hw1⟩ := safe_weightedInclusives hF hrho0 hrho (N := rows.length) (by nlinarith) hN1 hI0 hIN hIr
    obtain ⟨c, hc, hc0⟩ := safe_conditionals h1 hF (n := n) (e := e) (I := I) (fun j => (he j).1) fun j => hIk _ j rfl
    -- the sum of weights
    obtain ⟨t, ht, ht0, htc, -, htk⟩ := hF.sum (x := fun g => .fin (w g)) (y := w) (l := groups) (c := rows.length ^ 2) (fun _ _ => rfl)
      (fun g _ => (hw0 g).1) (fun g _ => (hw0 g).2.1) (fun g _ => (hw0 g).2.2) (by nlinarith)
    have hmarg : ∃ q : G → ℝ, flMarginals F n false groups (some (.fin r)) (fun g => .fin (w g)) = ⟨fun g => .fin (q g), ∅⟩ ∧
        ∀ g, 0 ≤ q g ∧ q g ≤ 1 := by
      have hpoint : ∀ g, ∃ q : ℝ, ((flNestedScale F n false (some (.fin r)) g).bind fun scale =>
          (Noted.each fun h => (flScaleWeight F n (some (.fin r)) g h).bind fun s => F.mul s (.fin (w h))).bind fun x =>
            (F.sum x groups).bind fun total => (F.add scale total).bind fun below => F.div (.fin (w g)) below) = ⟨.fin q, ∅⟩ ∧
            0 ≤ q ∧ q ≤ 1 := by
        intro g
        have hone : F.sub (.fin 1) (.fin (n.rho.groupRho g)) = ⟨.fin (F.round (1 + -n.rho.groupRho g)), ∅⟩ :=
          hF.finish h1 (by linarith [hrho g]) (by push_cast; linarith [hrho0 g])
        have hd0 : 0 ≤ F.round (1 + -n.rho.groupRho g) := hF.nonneg (by linarith [hrho g])
        have hd1 : F.round (1 + -n.rho.groupRho g) ≤ 1 := hF.le_one h1 (by linarith [hrho0 g])
        generalize F.round (1 + -n.rho.groupRho g) = d at hone hd0 hd1
        have hmul : F.mul (neg (.fin r)) (.fin d) = ⟨.fin (F.round (-r * d)), ∅⟩ := by
          refine finish_within ?_
          refine le_trans (hF.double _) (le_trans ?_ hbig)
          rw [abs_mul, abs_neg, abs_of_nonneg hr0, abs_of_nonneg hd0]
          nlinarith
        have hM : F.round (-r * d) ≤ 0 := hF.nonpos (by nlinarith)
        obtain ⟨hs, hs0, hs1⟩ := hF.exp h1 hM
        have hscale : flNestedScale F n false (some (.fin r)) g = ⟨.fin (F.round (Real.exp (F.round (-r * d)))), ∅⟩ := by
          unfold flNestedScale
          simp only [Bool.false_eq_true, if_false]
          rw [hone, Noted.mk_bind, hmul, Noted.mk_bind, hs, Noted.mk_bind]
          rfl
        have hx : (Noted.each fun h => (flScaleWeight F n (some (.fin r)) g h).bind fun s => F.mul s (.fin (w h))) =
            ⟨fun h => .fin (w h), ∅⟩ := by
          refine Noted.each_mk fun h => ?_
          unfold flScaleWeight
          simp only [hsingle, Bool.false_eq_true, if_false]
          rw [Noted.pure, Noted.mk_bind]
          change F.finish (1 * w h) = _
          rw [one_mul, hF.finish (k := rows.length ^ 2) (by nlinarith) (hw0 h).1 (hw0 h).2.1, (hw0 h).2.2]
        have hadd : F.add (.fin (F.round (Real.exp (F.round (-r * d))))) (.fin t) =
            ⟨.fin (F.round (F.round (Real.exp (F.round (-r * d))) + t)), ∅⟩ := by
          refine hF.finish (k := groups.length * rows.length ^ 2 + 1) (by nlinarith) (by linarith) ?_
          push_cast at htc ⊢
          linarith
        have hb1 : 1 ≤ F.round (F.round (Real.exp (F.round (-r * d))) + t) := by
          refine hF.one_le h1 ?_
          rcases hmax with h0 | ⟨k, hk⟩
          · rw [h0, neg_zero, zero_mul, hF.zero, Real.exp_zero, hF.round_one h1]
            linarith
          · have h2 := hIk (n.group k) k rfl
            rw [hk] at h2
            have h3 := hw1 _ h2
            have h4 := htk (n.group k) (hgroups _)
            linarith
        have hbw : w g ≤ F.round (F.round (Real.exp (F.round (-r * d))) + t) := by
          have := hF.mono (show w g ≤ F.round (Real.exp (F.round (-r * d))) + t by linarith [htk g (hgroups g)])
          rwa [(hw0 g).2.2] at this
        obtain ⟨hq, hq0, hq1⟩ := quotient_probability h1 hF (hw0 g).1 hbw (by linarith)
        refine ⟨_, ?_, hq0, hq1⟩
        rw [hscale, Noted.mk_bind, hx, Noted.mk_bind, ht, Noted.mk_bind, hadd, Noted.mk_bind, hq]
      choose q hq hq01 using hpoint
      exact ⟨q, Noted.each_mk hq, hq01⟩
    obtain ⟨q, hq, hq01⟩ := hmarg
    have hcq0 : ∀ j, 0 ≤ c j * q (n.group j) := fun j => mul_nonneg (hc0 j).1 (hq01 _).1
    have hcq1 : ∀ j, c j * q (n.group j) ≤ 1 := fun j => mul_le_one₀ (hc0 j).2 (hq01 _).1 (hq01 _).2
    have hall : flProbabilities F m o rows groups delta mu i = ⟨fun j => .fin (F.round (c j * q (n.group j))), ∅⟩ := by
      unfold flProbabilities
      rw [Noted.each_mk hu, Noted.mk_bind, hsafe, hE, Noted.mk_bind]
      dsimp only
      rw [restrict_none i _ ha hp hmask, Noted.mk_bind]
      simp only [hn, hout]
      unfold flNested
      rw [Noted.each_mk hI, Noted.mk_bind, hw, Noted.mk_bind, hc, Noted.mk_bind, hq, Noted.mk_bind,
        Noted.each_mk (v := fun j => .fin (F.round (c j * q (n.group j)))) fun j => hF.finish h1 (hcq0 j) (by simpa using hcq1 j),
        Noted.mk_bind, Noted.pure, Noted.mk_bind, Noted.pure]
    rw [hall]
    exact ⟨rfl, fun j => ⟨_, rfl, hF.nonneg (hcq0 j), hF.le_one h1 (hcq1 j)⟩⟩

/-! ## A machine with fixed point numbers -/

/-- Numbers with `k` binary digits after the point, of at most `L`; digits that do not fit are cut off. -/
noncomputable def fixedPoint (k : ℕ) (L : ℝ) : FloatFormat where
  round := fun x => if 0 ≤ x then ⌊x * 2 ^ k⌋ / 2 ^ k else ⌈x * 2 ^ k⌉ / 2 ^ k
  largest := L

theorem fixedPoint_nonneg (k : ℕ) (L : ℝ) {x : ℝ} (h : 0 ≤ x) : (fixedPoint k L).round x = ⌊x * 2 ^ k⌋ / 2 ^ k := if_pos h

theorem fixedPoint_neg (k : ℕ) (L : ℝ) {x : ℝ} (h : x < 0) : (fixedPoint k L).round x = ⌈x * 2 ^ k⌉ / 2 ^ k := if_neg (not_le.mpr h)

theorem fixedPoint_round (k : ℕ) (L : ℝ) (z : ℤ) : (fixedPoint k L).round (z / 2 ^ k) = z / 2 ^ k := by
  have hk : (0 : ℝ) < 2 ^ k := by positivity
  have hz : (z : ℝ) / 2 ^ k * 2 ^ k = z := div_mul_cancel₀ _ hk.ne'
  rcases le_or_gt 0 ((z : ℝ) / 2 ^ k) with h | h
  · rw [fixedPoint_nonneg k L h, hz, Int.floor_intCast]
  · rw [fixedPoint_neg k L h, hz, Int.ceil_intCast]

theorem fixedPoint_nat (k : ℕ) (L : ℝ) (n : ℕ) : (fixedPoint k L).round n = n := by
  have h2 : (0 : ℝ) < 2 ^ k := by positivity
  have := fixedPoint_round k L ((n : ℤ) * 2 ^ k)
  push_cast at this
  rwa [mul_div_cancel_right₀ _ h2.ne'] at this

theorem fixedPoint_sound (k limit : ℕ) (L : ℝ) (hL : (limit : ℝ) ≤ L) (hk : 2 * (k : ℝ) ≤ L) : (fixedPoint k L).Sound limit := by
  have h2 : (0 : ℝ) < 2 ^ k := by positivity
  refine ⟨?_, ?_, ?_, hL, ?_, ?_⟩
  · intro x y hxy
    rcases le_or_gt 0 x with hx | hx
    · rw [fixedPoint_nonneg k L hx, fixedPoint_nonneg k L (hx.trans hxy)]
      gcongr
    · rcases le_or_gt 0 y with hy | hy
      · rw [fixedPoint_neg k L hx, fixedPoint_nonneg k L hy]
        gcongr
        have h1 : ⌈x * 2 ^ k⌉ ≤ 0 := Int.ceil_le.mpr (by push_cast; nlinarith)
        have h3 : 0 ≤ ⌊y * 2 ^ k⌋ := Int.floor_nonneg.mpr (by positivity)
        exact h1.trans h3
      · rw [fixedPoint_neg k L hx, fixedPoint_neg k L hy]
        gcongr
  · intro x
    rcases le_or_gt 0 x with hx | hx
    · rw [fixedPoint_nonneg k L hx, fixedPoint_round]
    · rw [fixedPoint_neg k L hx, fixedPoint_round]
  · exact fun n _ => fixedPoint_nat k L n
  · intro x
    rcases le_or_gt 0 x with hx | hx
    · rw [fixedPoint_nonneg k L hx, abs_of_nonneg hx, abs_of_nonneg (div_nonneg (by exact_mod_cast Int.floor_nonneg.mpr (by positivity)) h2.le),
        div_le_iff₀ h2]
      have := Int.floor_le (x * 2 ^ k)
      nlinarith
    · have h0 : ⌈x * 2 ^ k⌉ ≤ 0 := Int.ceil_le.mpr (by push_cast; nlinarith)
      have h0' : ((⌈x * 2 ^ k⌉ : ℤ) : ℝ) ≤ 0 := by exact_mod_cast h0
      rw [fixedPoint_neg k L hx, abs_of_neg hx, abs_of_nonpos (div_nonpos_of_nonpos_of_nonneg h0' h2.le), ← neg_div, div_le_iff₀ h2]
      have := Int.le_ceil (x * 2 ^ k)
      nlinarith
  · refine ⟨1 / 2 ^ k, by positivity, ?_, ?_⟩
    · rw [one_div, Real.log_inv, Real.log_pow]
      have hlog : Real.log 2 ≤ 1 := by linarith [Real.log_le_sub_one_of_pos (show (0 : ℝ) < 2 by norm_num)]
      have hlog0 : 0 ≤ Real.log 2 := Real.log_nonneg (by norm_num)
      have : (k : ℝ) * Real.log 2 ≤ k := mul_le_of_le_one_right (Nat.cast_nonneg _) hlog
      change -(2 * -((k : ℝ) * Real.log 2)) ≤ L
      linarith
    · intro x hx
      rcases le_or_gt 0 x with h0 | h0
      · rw [fixedPoint_nonneg k L h0] at hx ⊢
        have h3 : (0 : ℝ) < ⌊x * 2 ^ k⌋ := by
          by_contra hc
          exact absurd hx (not_lt.mpr (div_nonpos_of_nonpos_of_nonneg (not_lt.mp hc) h2.le))
        have h4 : (1 : ℤ) ≤ ⌊x * 2 ^ k⌋ := by exact_mod_cast h3
        gcongr
        exact_mod_cast h4
      · rw [fixedPoint_neg k L h0] at hx
        have h3 : ⌈x * 2 ^ k⌉ ≤ 0 := Int.ceil_le.mpr (by push_cast; nlinarith)
        have h3' : ((⌈x * 2 ^ k⌉ : ℤ) : ℝ) ≤ 0 := by exact_mod_cast h3
        exact absurd hx (not_lt.mpr (div_nonpos_of_nonpos_of_nonneg h3' h2.le))

/-- Twenty binary digits and numbers of at most one million. -/
noncomputable def coarse : FloatFormat := fixedPoint 20 1000000

theorem coarse_sound : coarse.Sound 1000000 := fixedPoint_sound 20 1000000 1000000 (by norm_num) (by norm_num)

theorem coarse_nat (n : ℕ) : coarse.round n = n := fixedPoint_nat 20 1000000 n

/-- Without nests: a product with a utility of 100000, another with a utility of zero. Unprotected, the exponential of 100000 overflows. -/
noncomputable def plainFlPair : Market (Fin 2) Unit (Fin 2) where
  nesting := none
  epsilonScale := 1
  weights := fun _ => 1
  availability := none

/-- A case that meets the hypotheses of `C122_safe_plain`. -/
example : (flProbabilities coarse plainFlPair {} [0, 1] [] (fun j => if j = 0 then .fin (100000 : ℕ) else .fin (0 : ℕ)) (fun _ _ => .fin 0) ()).events =
      ∅ := by
  refine (C122_safe_plain coarse 1000000 coarse_sound plainFlPair {} [0, 1] [] _ _ () rfl rfl rfl rfl rfl (fun _ => rfl) (by decide) (by norm_num)
    (fun j => if j = 0 then (100000 : ℕ) else (0 : ℕ)) 100000 ?_ ?_ ?_ (by norm_num)).1
  · intro j
    unfold flUtilities plainFlPair
    have hadd : ∀ n : ℕ, n ≤ 100000 → coarse.add (.fin n) (.fin 0) = ⟨.fin n, ∅⟩ := by
      intro n hn
      change coarse.finish ((n : ℝ) + 0) = _
      rw [add_zero, coarse_sound.finish (k := n) (by omega) (Nat.cast_nonneg _) le_rfl, coarse_nat]
    fin_cases j
    · simp only [Fin.zero_eta, if_true]
      rw [hadd _ le_rfl, Noted.mk_bind]
      simp [Noted.pure]
    · simp only [Fin.mk_one, one_ne_zero, if_false]
      rw [hadd 0 (by norm_num), Noted.mk_bind]
      simp [Noted.pure]
  · intro j
    fin_cases j <;> simp [abs_of_nonneg]
  · change (4 : ℝ) * 100000 ≤ 1000000
    norm_num

/-- The same for two products in one nest each and one nesting parameter. -/
example : (flProbabilities coarse twoFlNests {} [0, 1] [0, 1] (fun j => if j = 0 then .fin (50000 : ℕ) else .fin (0 : ℕ)) (fun _ _ => .fin 0) ()).events =
      ∅ := by
  have hhalf : coarse.round (1 / 2) = 1 / 2 := by
    have := fixedPoint_round 20 1000000 (2 ^ 19)
    norm_num at this ⊢
    exact this
  refine (C122_safe_nested coarse 1000000 coarse_sound twoFlNests {} [0, 1] [0, 1] _ _ () ⟨id, .single (1 / 2)⟩ rfl rfl
    (fun _ => by simp [RhoParam.groupRho]) (fun _ => by norm_num [RhoParam.groupRho]) rfl rfl rfl rfl (fun _ => rfl) (by simp) (by decide)
    (by decide) (by norm_num) (fun j => if j = 0 then (100000 : ℕ) else (0 : ℕ)) 100000 ?_ ?_ ?_ (by norm_num)).1
  · intro j
    unfold flUtilities twoFlNests
    have hadd : ∀ n : ℕ, n ≤ 100000 → coarse.add (.fin n) (.fin 0) = ⟨.fin n, ∅⟩ := by
      intro n hn
      change coarse.finish ((n : ℝ) + 0) = _
      rw [add_zero, coarse_sound.finish (k := n) (by omega) (Nat.cast_nonneg _) le_rfl, coarse_nat]
    have hsub : coarse.sub (.fin 1) (.fin (1 / 2)) = ⟨.fin (1 / 2), ∅⟩ := by
      change coarse.finish (1 + -(1 / 2)) = _
      rw [coarse_sound.finish (k := 1) (by norm_num) (by norm_num) (by norm_num)]
      norm_num
      norm_num at hhalf
      exact hhalf
    have hdiv : ∀ n : ℕ, 2 * n ≤ 100000 → coarse.div (.fin n) (.fin (1 / 2)) = ⟨.fin ((2 * n : ℕ)), ∅⟩ := by
      intro n hn
      simp only [FloatFormat.div]
      rw [if_neg (by norm_num), show (n : ℝ) / (1 / 2) = ((2 * n : ℕ) : ℝ) by push_cast; ring,
        coarse_sound.finish (k := 2 * n) (by omega) (Nat.cast_nonneg _) le_rfl, coarse_nat]
    fin_cases j
    · simp only [Fin.zero_eta, if_true]
      rw [hadd _ (by norm_num), Noted.mk_bind]
      simp only [Nesting.productRho, RhoParam.groupRho]
      rw [hsub, Noted.mk_bind, hdiv _ (by norm_num)]
    · simp only [Fin.mk_one, one_ne_zero, if_false]
      rw [hadd 0 (by norm_num), Noted.mk_bind]
      simp only [Nesting.productRho, RhoParam.groupRho]
      rw [hsub, Noted.mk_bind, hdiv _ (by norm_num)]
  · intro j
    fin_cases j <;> simp [abs_of_nonneg]
  · change (4 : ℝ) * 100000 ≤ 1000000
    norm_num

/-! ## Where overflow protection does not protect -/

theorem coarse_exp_small {x : ℝ} (h : x ≤ -100) : coarse.exp (.fin x) = ⟨.fin 0, ∅⟩ := by
  have hx : Real.exp x * 2 ^ 20 < 1 := by
    have h1 : Real.exp x ≤ Real.exp (-100) := Real.exp_le_exp.mpr h
    have h2 : (2 : ℝ) ^ 100 ≤ Real.exp 100 := by
      have h3 : (2 : ℝ) ≤ Real.exp 1 := by linarith [Real.add_one_le_exp (1 : ℝ)]
      have h4 : Real.exp 100 = Real.exp 1 ^ 100 := by
        rw [← Real.exp_nat_mul]
        norm_num
      rw [h4]
      gcongr
    rw [Real.exp_neg] at h1
    have h5 : (Real.exp 100)⁻¹ ≤ ((2 : ℝ) ^ 100)⁻¹ := inv_anti₀ (by positivity) h2
    have h6 : Real.exp x ≤ ((2 : ℝ) ^ 100)⁻¹ := h1.trans h5
    have h7 : ((2 : ℝ) ^ 100)⁻¹ * 2 ^ 20 < 1 := by norm_num
    nlinarith
  have hr : coarse.round (Real.exp x) = 0 := by
    unfold coarse
    rw [fixedPoint_nonneg _ _ (Real.exp_pos x).le, Int.floor_eq_zero_iff.mpr ⟨by positivity, hx⟩]
    simp
  rw [(coarse_sound.exp (by norm_num) (x := x) (by linarith)).1, hr]

/-- A market with one product that its agent cannot buy. -/
noncomputable def unavailableFl : Market (Fin 1) Unit (Fin 1) where
  nesting := none
  epsilonScale := 1
  weights := fun _ => 1
  availability := some fun _ _ => 0

/-- **C122 is false** when products are not available: utilities are reduced by the largest one also if nobody can choose it, so what is
left can underflow. The agent's probability of choosing the product that is not available should be zero and is NaN. In double precision,
a utility of 746 is enough. -/
theorem C122_availability_refuted :
    flProbabilities coarse unavailableFl {} [0] [] (fun _ => .fin (100 : ℕ)) (fun _ _ => .fin 0) () = ⟨fun _ => .nan, {.invalid}⟩ ∧
      computeProbabilities unavailableFl {} (fun _ => 100) (fun _ _ => 0) 0 () = 0 := by
  constructor
  · have hadd : coarse.add (.fin (100 : ℕ)) (.fin 0) = ⟨.fin (100 : ℕ), ∅⟩ := by
      change coarse.finish (((100 : ℕ) : ℝ) + 0) = _
      rw [add_zero, coarse_sound.finish (k := 100) (by norm_num) (Nat.cast_nonneg _) le_rfl, coarse_nat]
    have hu : (Noted.each fun j => flUtilities coarse unavailableFl (fun _ => .fin (100 : ℕ)) (fun _ _ => .fin 0) () j) =
        ⟨fun _ => .fin (100 : ℕ), ∅⟩ := by
      refine Noted.each_mk fun j => ?_
      unfold flUtilities
      rw [hadd, Noted.mk_bind]
      simp [unavailableFl, Noted.pure]
    have hE : flExponentiated coarse true [(0 : Fin 1)] (fun _ => .fin (100 : ℕ)) = ⟨(some (.fin (100 : ℕ)), fun _ => .fin 1), ∅⟩ := by
      have hred : flReduction [(0 : Fin 1)] (fun _ => .fin (100 : ℕ)) = .fin (100 : ℕ) := by
        unfold flReduction
        simp [larger]
      unfold flExponentiated
      simp only [if_true]
      rw [hred, Noted.each_mk (v := fun _ => .fin 1), Noted.mk_bind]
      · rfl
      · intro j
        have hsub : coarse.sub (.fin (100 : ℕ)) (.fin (100 : ℕ)) = ⟨.fin 0, ∅⟩ := by
          change coarse.finish (((100 : ℕ) : ℝ) + -((100 : ℕ) : ℝ)) = _
          rw [add_neg_cancel, finish_zero coarse_sound.proper]
        rw [hsub, Noted.mk_bind, (coarse_sound.exp (by norm_num) le_rfl).1, Real.exp_zero, coarse_sound.round_one (by norm_num)]
    have hR : flRestrict coarse unavailableFl ({} : ProbOpts (Fin 1) Unit) (fun _ => .fin 1) () = ⟨fun _ => .fin 0, ∅⟩ := by
      unfold flRestrict
      refine Noted.each_mk fun j => ?_
      have hmul : coarse.mul (.fin 1) (.fin 0) = ⟨.fin 0, ∅⟩ := by
        change coarse.finish (1 * 0) = _
        rw [mul_zero, finish_zero coarse_sound.proper]
      change ((coarse.mul (.fin 1) (.fin 0)).bind _) = _
      rw [hmul, Noted.mk_bind]
      simp [Noted.pure]
    unfold flProbabilities
    rw [hu, Noted.mk_bind, hE, Noted.mk_bind]
    dsimp only
    rw [hR, Noted.mk_bind]
    change flPlain coarse false [0] (some (.fin (100 : ℕ))) (fun _ => .fin 0) = _
    unfold flPlain flPlainScale
    have hneg : neg (.fin ((100 : ℕ) : ℝ)) = .fin (-100) := by simp [neg]
    simp only [hneg, Bool.false_eq_true, if_false]
    rw [coarse_exp_small le_rfl, Noted.mk_bind, Noted.pure, Noted.mk_bind, sum_zero coarse_sound.proper fun _ _ => rfl, Noted.mk_bind]
    have h0 : coarse.add (.fin 0) (.fin 0) = ⟨.fin 0, ∅⟩ := by
      change coarse.finish (0 + 0) = _
      rw [add_zero, finish_zero coarse_sound.proper]
    rw [h0, Noted.mk_bind]
    have hdiv : coarse.div (.fin 0) (.fin 0) = ⟨.nan, {.invalid}⟩ := by simp [FloatFormat.div]
    rw [hdiv]
    unfold Noted.each
    congr 1
    ext p
    simp
  · unfold computeProbabilities agentProbabilities
    simp [unavailableFl, restrict]

/-- Two products in nests of their own with different nesting parameters. -/
noncomputable def twoFlRhos : Market (Fin 2) Unit (Fin 2) where
  nesting := some ⟨id, .perGroup fun g => if g = 0 then 1 / 2 else 0⟩
  epsilonScale := 1
  weights := fun _ => 1
  availability := none

/-- **C122 is false** with nesting parameters that differ between nests: the terms that correct for the reduction overflow themselves. Here
the utilities are 100 and 0 and numbers can be as large as one million. In double precision, utilities of 1420 are enough. -/
theorem C122_group_rho_refuted :
    (∀ j, flUtilities coarse twoFlRhos (fun j => if j = 0 then .fin (50 : ℕ) else .fin (0 : ℕ)) (fun _ _ => .fin 0) () j =
      ⟨.fin (if j = 0 then (100 : ℕ) else (0 : ℕ)), ∅⟩) ∧
    FpProblem.over ∈ (flProbabilities coarse twoFlRhos {} [0, 1] [0, 1] (fun j => if j = 0 then .fin (50 : ℕ) else .fin (0 : ℕ))
      (fun _ _ => .fin 0) ()).events := by
  have hhalf : coarse.round (1 / 2) = 1 / 2 := by
    have := fixedPoint_round 20 1000000 (2 ^ 19)
    norm_num at this ⊢
    exact this
  have hu : ∀ j, flUtilities coarse twoFlRhos (fun j => if j = 0 then .fin (50 : ℕ) else .fin (0 : ℕ)) (fun _ _ => .fin 0) () j =
      ⟨.fin (if j = 0 then (100 : ℕ) else (0 : ℕ)), ∅⟩ := by
    intro j
    unfold flUtilities twoFlRhos
    have hadd : ∀ n : ℕ, n ≤ 100000 → coarse.add (.fin n) (.fin 0) = ⟨.fin n, ∅⟩ := by
      intro n hn
      change coarse.finish ((n : ℝ) + 0) = _
      rw [add_zero, coarse_sound.finish (k := n) (by omega) (Nat.cast_nonneg _) le_rfl, coarse_nat]
    have hsub : coarse.sub (.fin 1) (.fin (1 / 2)) = ⟨.fin (1 / 2), ∅⟩ := by
      change coarse.finish (1 + -(1 / 2)) = _
      rw [coarse_sound.finish (k := 1) (by norm_num) (by norm_num) (by norm_num)]
      norm_num
      norm_num at hhalf
      exact hhalf
    have hsub1 : coarse.sub (.fin 1) (.fin 0) = ⟨.fin 1, ∅⟩ := by
      change coarse.finish (1 + -0) = _
      rw [coarse_sound.finish (k := 1) (by norm_num) (by norm_num) (by norm_num), neg_zero, add_zero, coarse_sound.round_one (by norm_num)]
    fin_cases j
    · simp only [Fin.zero_eta, if_true]
      rw [hadd _ (by norm_num), Noted.mk_bind]
      simp only [Nesting.productRho, RhoParam.groupRho, id, if_true]
      rw [hsub, Noted.mk_bind]
      simp only [FloatFormat.div]
      rw [if_neg (by norm_num), show ((50 : ℕ) : ℝ) / (1 / 2) = ((100 : ℕ) : ℝ) by norm_num,
        coarse_sound.finish (k := 100) (by norm_num) (Nat.cast_nonneg _) le_rfl, coarse_nat]
    · simp only [Fin.mk_one, one_ne_zero, if_false]
      rw [hadd 0 (by norm_num), Noted.mk_bind]
      simp only [Nesting.productRho, RhoParam.groupRho, id, one_ne_zero, if_false]
      rw [hsub1, Noted.mk_bind]
      simp only [FloatFormat.div]
      rw [if_neg one_ne_zero, div_one, coarse_sound.finish (k := 0) (by norm_num) (Nat.cast_nonneg _) le_rfl, coarse_nat]
  refine ⟨hu, ?_⟩
  have hred : flReduction [(0 : Fin 2), 1] (fun j => .fin (if j = 0 then ((100 : ℕ) : ℝ) else ((0 : ℕ) : ℝ))) = .fin 100 := by
    unfold flReduction
    simp [larger]
  have hweight : FpProblem.over ∈ (flScaleWeight coarse ⟨id, .perGroup fun g : Fin 2 => if g = 0 then 1 / 2 else 0⟩ (some (.fin 100)) (0 : Fin 2)
      (1 : Fin 2)).events := by
    unfold flScaleWeight
    simp only [RhoParam.sizeGtOne, if_true, RhoParam.groupRho, one_ne_zero, if_false]
    have hsub : coarse.sub (.fin 0) (.fin (1 / 2)) = ⟨.fin (-(1 / 2)), ∅⟩ := by
      change coarse.finish (0 + -(1 / 2)) = _
      have hr : coarse.round (-(1 / 2)) = -(1 / 2) := by
        have := fixedPoint_round 20 1000000 (-2 ^ 19)
        norm_num at this ⊢
        exact this
      rw [zero_add, finish_within, hr]
      rw [hr, abs_neg]
      norm_num [coarse, fixedPoint]
    have hmul : coarse.mul (neg (.fin 100)) (.fin (-(1 / 2))) = ⟨.fin ((50 : ℕ) : ℝ), ∅⟩ := by
      change coarse.finish (-100 * -(1 / 2)) = _
      rw [show (-100 : ℝ) * -(1 / 2) = ((50 : ℕ) : ℝ) by norm_num, coarse_sound.finish (k := 50) (by norm_num) (Nat.cast_nonneg _) le_rfl,
        coarse_nat]
    rw [hsub, Noted.mk_bind, hmul, Noted.mk_bind]
    change FpProblem.over ∈ (coarse.finish (Real.exp ((50 : ℕ) : ℝ))).events
    have h4 : Real.exp ((50 : ℕ) : ℝ) = Real.exp 1 ^ 50 := by
      rw [← Real.exp_nat_mul]
      norm_num
    have hbig : ((1000001 : ℕ) : ℝ) ≤ Real.exp ((50 : ℕ) : ℝ) := by
      have h3 : (2 : ℝ) ≤ Real.exp 1 := by linarith [Real.add_one_le_exp (1 : ℝ)]
      rw [h4]
      refine le_trans ?_ (pow_le_pow_left₀ (by norm_num) h3 50)
      norm_num
    have hround := coarse_sound.mono hbig
    rw [coarse_nat] at hround
    unfold FloatFormat.finish
    rw [if_pos]
    · rfl
    · refine lt_of_lt_of_le ?_ hround
      norm_num [coarse, fixedPoint]
  unfold flProbabilities
  rw [Noted.each_mk hu, Noted.mk_bind]
  refine Or.inr (Or.inr ?_)
  have hE : ∀ x, (flExponentiated coarse true [(0 : Fin 2), 1] (fun j => .fin (if j = 0 then ((100 : ℕ) : ℝ) else ((0 : ℕ) : ℝ)))).val.1 = some x →
      x = .fin 100 := by
    intro x hx
    unfold flExponentiated at hx
    simp only [if_true] at hx
    rw [hred] at hx
    exact (Option.some.inj hx).symm
  have hE' : (flExponentiated coarse true [(0 : Fin 2), 1] (fun j => .fin (if j = 0 then ((100 : ℕ) : ℝ) else ((0 : ℕ) : ℝ)))).val.1 = some (.fin 100) := by
    unfold flExponentiated
    simp only [if_true]
    rw [hred]
    rfl
  change FpProblem.over ∈ ((flNested coarse _ false [0, 1] [0, 1] (flExponentiated coarse true [(0 : Fin 2), 1] _).val.1 _).bind _).events
  rw [hE']
  refine Or.inl ?_
  unfold flNested
  refine Or.inr (Or.inr (Or.inr (Or.inl ?_)))
  unfold flMarginals
  refine ⟨0, Or.inr (Or.inl ⟨1, Or.inl hweight⟩)⟩

end Pyblp
