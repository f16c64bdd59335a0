import Mathlib.Data.List.Flatten
import Mathlib.Tactic.Linarith
import Mathlib.Tactic.NormNum
import Verif.Model.SimulationSummary

/-!
# C157: what the summary of simulation results says
-/

set_option linter.unusedSectionVars false

namespace Pyblp

open Classical

namespace Spec

/-- A reported number is the largest of some numbers, and minus infinity when there are none. -/
def Largest (reported : Flo) (numbers : Set ℝ) : Prop :=
  (∀ a, reported = .fin a ↔ a ∈ numbers ∧ ∀ x ∈ numbers, x ≤ a) ∧ (reported = .ninf ↔ numbers = ∅) ∧ reported ≠ .nan ∧ reported ≠ .pinf

/-- A reported number is the smallest of some numbers, and infinity when there are none. -/
def Smallest (reported : Flo) (numbers : Set ℝ) : Prop :=
  (∀ a, reported = .fin a ↔ a ∈ numbers ∧ ∀ x ∈ numbers, a ≤ x) ∧ (reported = .pinf ↔ numbers = ∅) ∧ reported ≠ .nan ∧ reported ≠ .ninf

/-- Eigenvalues of all firms in all markets for which they could be computed. -/
def computedEigenvalues (outcomes : List (List EigenOutcome)) : Set ℝ :=
  {x | ∃ market ∈ outcomes, ∃ values, EigenOutcome.success values ∈ market ∧ x ∈ values}



end Spec

private theorem pythonMax_fin (a b : ℝ) : pythonMax (.fin a) (.fin b) = .fin (max a b) := by
  unfold pythonMax
  by_cases h : a < b
  · rw [if_pos (show Flo.Less (.fin a) (.fin b) from h), max_eq_right h.le]
  · rw [if_neg (show ¬Flo.Less (.fin a) (.fin b) from h), max_eq_left (not_lt.mp h)]

private theorem pythonMin_fin (a b : ℝ) : pythonMin (.fin a) (.fin b) = .fin (min a b) := by
  unfold pythonMin
  by_cases h : b < a
  · rw [if_pos (show Flo.Less (.fin b) (.fin a) from h), min_eq_right h.le]
  · rw [if_neg (show ¬Flo.Less (.fin b) (.fin a) from h), min_eq_left (not_lt.mp h)]

private theorem numpyMax_fin (a b : ℝ) : numpyMax (.fin a) (.fin b) = .fin (max a b) := pythonMax_fin a b

private theorem numpyMin_fin (a b : ℝ) : numpyMin (.fin a) (.fin b) = .fin (min a b) := pythonMin_fin a b

private theorem pythonMax_ninf (b : ℝ) : pythonMax .ninf (.fin b) = .fin b := if_pos trivial

private theorem pythonMin_pinf (b : ℝ) : pythonMin .pinf (.fin b) = .fin b := if_pos trivial

private theorem foldl_numpyMax (xs : List ℝ) (a : ℝ) : (xs.map Flo.fin).foldl numpyMax (.fin a) = .fin (xs.foldl max a) := by
  induction xs generalizing a with
  | nil => rfl
  | cons x xs ih => rw [List.map_cons, List.foldl_cons, numpyMax_fin, ih, List.foldl_cons]

private theorem foldl_numpyMin (xs : List ℝ) (a : ℝ) : (xs.map Flo.fin).foldl numpyMin (.fin a) = .fin (xs.foldl min a) := by
  induction xs generalizing a with
  | nil => rfl
  | cons x xs ih => rw [List.map_cons, List.foldl_cons, numpyMin_fin, ih, List.foldl_cons]

private theorem foldl_max (xs : List ℝ) (a : ℝ) : xs.foldl max a ∈ a :: xs ∧ ∀ x ∈ a :: xs, x ≤ xs.foldl max a := by
  induction xs generalizing a with
  | nil => exact ⟨by simp, fun x hx => by simp at hx; exact hx.le⟩
  | cons y ys ih =>
    obtain ⟨h1, h2⟩ := ih (max a y)
    rw [List.foldl_cons]
    refine ⟨?_, fun x hx => ?_⟩
    · rcases List.mem_cons.mp h1 with h | h
      · rw [h]
        rcases max_choice a y with h' | h' <;> rw [h'] <;> simp
      · exact List.mem_cons_of_mem _ (List.mem_cons_of_mem _ h)
    · have h3 := h2 (max a y) List.mem_cons_self
      rcases List.mem_cons.mp hx with h | h
      · rw [h]; exact (le_max_left _ _).trans h3
      · rcases List.mem_cons.mp h with h | h
        · rw [h]; exact (le_max_right _ _).trans h3
        · exact h2 x (List.mem_cons_of_mem _ h)

private theorem foldl_min (xs : List ℝ) (a : ℝ) : xs.foldl min a ∈ a :: xs ∧ ∀ x ∈ a :: xs, xs.foldl min a ≤ x := by
  induction xs generalizing a with
  | nil => exact ⟨by simp, fun x hx => by simp at hx; exact hx.ge⟩
  | cons y ys ih =>
    obtain ⟨h1, h2⟩ := ih (min a y)
    rw [List.foldl_cons]
    refine ⟨?_, fun x hx => ?_⟩
    · rcases List.mem_cons.mp h1 with h | h
      · rw [h]
        rcases min_choice a y with h' | h' <;> rw [h'] <;> simp
      · exact List.mem_cons_of_mem _ (List.mem_cons_of_mem _ h)
    · have h3 := h2 (min a y) List.mem_cons_self
      rcases List.mem_cons.mp hx with h | h
      · rw [h]; exact h3.trans (min_le_left _ _)
      · rcases List.mem_cons.mp h with h | h
        · rw [h]; exact h3.trans (min_le_right _ _)
        · exact h2 x (List.mem_cons_of_mem _ h)

private theorem arrayMax_fin {xs : List ℝ} (h : xs ≠ []) : ∃ a ∈ xs, arrayMax (xs.map Flo.fin) = .fin a ∧ ∀ x ∈ xs, x ≤ a := by
  cases xs with
  | nil => exact absurd rfl h
  | cons y ys => exact ⟨_, (foldl_max ys y).1, foldl_numpyMax ys y, (foldl_max ys y).2⟩

private theorem arrayMin_fin {xs : List ℝ} (h : xs ≠ []) : ∃ a ∈ xs, arrayMin (xs.map Flo.fin) = .fin a ∧ ∀ x ∈ xs, a ≤ x := by
  cases xs with
  | nil => exact absurd rfl h
  | cons y ys => exact ⟨_, (foldl_min ys y).1, foldl_numpyMin ys y, (foldl_min ys y).2⟩

/-- What one more item does to the set of numbers seen so far. -/
private theorem largest_fold {α : Type} (step : Flo → α → Flo) (S : α → Set ℝ)
    (hstep : ∀ m x N, Spec.Largest m N → Spec.Largest (step m x) (N ∪ S x)) (l : List α) (m : Flo) (N : Set ℝ) (h : Spec.Largest m N) :
    Spec.Largest (l.foldl step m) (N ∪ {r | ∃ x ∈ l, r ∈ S x}) := by
  induction l generalizing m N with
  | nil => simpa using h
  | cons y ys ih =>
    have h1 := ih (step m y) _ (hstep m y N h)
    rw [List.foldl_cons]
    convert h1 using 1
    ext r
    simp [or_assoc]

private theorem smallest_fold {α : Type} (step : Flo → α → Flo) (S : α → Set ℝ)
    (hstep : ∀ m x N, Spec.Smallest m N → Spec.Smallest (step m x) (N ∪ S x)) (l : List α) (m : Flo) (N : Set ℝ)
    (h : Spec.Smallest m N) : Spec.Smallest (l.foldl step m) (N ∪ {r | ∃ x ∈ l, r ∈ S x}) := by
  induction l generalizing m N with
  | nil => simpa using h
  | cons y ys ih =>
    have h1 := ih (step m y) _ (hstep m y N h)
    rw [List.foldl_cons]
    convert h1 using 1
    ext r
    simp [or_assoc]

private theorem largest_of {a : ℝ} {N : Set ℝ} (h1 : a ∈ N) (h2 : ∀ x ∈ N, x ≤ a) : Spec.Largest (.fin a) N := by
  refine ⟨fun b => ⟨fun h => ?_, fun h => ?_⟩, ⟨fun h => (by cases h), fun h => ?_⟩, by simp, by simp⟩
  · cases h; exact ⟨h1, h2⟩
  · rw [le_antisymm (h.2 a h1) (h2 b h.1)]
  · rw [h] at h1; exact absurd h1 (Set.notMem_empty a)

private theorem smallest_of {a : ℝ} {N : Set ℝ} (h1 : a ∈ N) (h2 : ∀ x ∈ N, a ≤ x) : Spec.Smallest (.fin a) N := by
  refine ⟨fun b => ⟨fun h => ?_, fun h => ?_⟩, ⟨fun h => (by cases h), fun h => ?_⟩, by simp, by simp⟩
  · cases h; exact ⟨h1, h2⟩
  · rw [le_antisymm (h2 b h.1) (h.2 a h1)]
  · rw [h] at h1; exact absurd h1 (Set.notMem_empty a)

private theorem largest_empty : Spec.Largest .ninf ∅ := by
  refine ⟨fun a => ⟨fun h => (by cases h), fun h => absurd h.1 (Set.notMem_empty a)⟩, by simp, by simp, by simp⟩

private theorem smallest_empty : Spec.Smallest .pinf ∅ := by
  refine ⟨fun a => ⟨fun h => (by cases h), fun h => absurd h.1 (Set.notMem_empty a)⟩, by simp, by simp, by simp⟩

private theorem largest_max {m : Flo} {N : Set ℝ} (h : Spec.Largest m N) {b : ℝ} {S : Set ℝ} (hb : b ∈ S) (hS : ∀ x ∈ S, x ≤ b) :
    Spec.Largest (pythonMax m (.fin b)) (N ∪ S) := by
  cases m with
  | nan => exact absurd rfl h.2.2.1
  | pinf => exact absurd rfl h.2.2.2
  | ninf =>
    rw [pythonMax_ninf, h.2.1.mp rfl, Set.empty_union]
    exact largest_of hb hS
  | fin a =>
    obtain ⟨h1, h2⟩ := (h.1 a).mp rfl
    rw [pythonMax_fin]
    refine largest_of ?_ fun x hx => ?_
    · rcases max_choice a b with h' | h' <;> rw [h']
      · exact Or.inl h1
      · exact Or.inr hb
    · rcases hx with hx | hx
      · exact (h2 x hx).trans (le_max_left _ _)
      · exact (hS x hx).trans (le_max_right _ _)

private theorem smallest_min {m : Flo} {N : Set ℝ} (h : Spec.Smallest m N) {b : ℝ} {S : Set ℝ} (hb : b ∈ S) (hS : ∀ x ∈ S, b ≤ x) :
    Spec.Smallest (pythonMin m (.fin b)) (N ∪ S) := by
  cases m with
  | nan => exact absurd rfl h.2.2.1
  | ninf => exact absurd rfl h.2.2.2
  | pinf =>
    rw [pythonMin_pinf, h.2.1.mp rfl, Set.empty_union]
    exact smallest_of hb hS
  | fin a =>
    obtain ⟨h1, h2⟩ := (h.1 a).mp rfl
    rw [pythonMin_fin]
    refine smallest_of ?_ fun x hx => ?_
    · rcases min_choice a b with h' | h' <;> rw [h']
      · exact Or.inl h1
      · exact Or.inr hb
    · rcases hx with hx | hx
      · exact (min_le_left _ _).trans (h2 x hx)
      · exact (min_le_right _ _).trans (hS x hx)

/-- **C157 (gradients).** The reported norm of profit gradients is the largest of all firms' norms that are finite, in all markets, and
minus infinity when there are none. -/
theorem C157_norms (norms : List (List Flo)) :
    Spec.Largest (summaryMaxNorm norms) {x | ∃ market ∈ norms, Flo.fin x ∈ market} := by
  have inner : ∀ m (market : List Flo) N, Spec.Largest m N →
      Spec.Largest (market.foldl (fun m x => if x.Finite then pythonMax m x else m) m) (N ∪ {r | Flo.fin r ∈ market}) := by
    intro m market N h
    have h1 := largest_fold (fun m x => if x.Finite then pythonMax m x else m) (fun x => {r | x = Flo.fin r}) ?_ market m N h
    · convert h1 using 2
      ext r
      simp
    · intro m x N h
      cases x with
      | fin b =>
        rw [show (if (Flo.fin b).Finite then pythonMax m (.fin b) else m) = pythonMax m (.fin b) from if_pos trivial]
        exact largest_max h rfl fun y hy => by cases hy; exact le_refl _
      | _ =>
        have h2 : ∀ S : Set ℝ, S = ∅ → Spec.Largest m (N ∪ S) := fun S hS => by rw [hS, Set.union_empty]; exact h
        show Spec.Largest (if Flo.Finite _ then _ else m) _
        rw [if_neg (by simp [Flo.Finite])]
        exact h2 _ (Set.eq_empty_of_forall_notMem fun r hr => by cases hr)
  have h1 := largest_fold _ (fun market => {r | Flo.fin r ∈ market}) inner norms .ninf ∅ largest_empty
  rw [Set.empty_union] at h1
  exact h1

private theorem norm_numbers {g : List ℝ} (h : g ≠ []) :
    ∃ a, floatGradientNorm (g.map Flo.fin) = .fin a ∧ (∃ x ∈ g, a = |x|) ∧ ∀ x ∈ g, |x| ≤ a := by
  obtain ⟨a, h1, h2, h3⟩ := arrayMax_fin (xs := g.map fun x => |x|) (by simpa using h)
  obtain ⟨x, hx, rfl⟩ := List.mem_map.mp h1
  refine ⟨_, ?_, ⟨x, hx, rfl⟩, fun y hy => h3 _ (List.mem_map_of_mem hy)⟩
  unfold floatGradientNorm
  rw [if_neg (by simpa using h), ← h2, List.map_map, List.map_map]
  rfl

/-- **C157 (first order conditions).** When derivatives of profits are numbers, the reported norm is at most some tolerance if and only if
they are all within the tolerance of zero, for all firms and in all markets. -/
theorem C157_first_order (gradients : List (List (List ℝ))) (hne : ∀ market ∈ gradients, ∀ g ∈ market, g ≠ [])
    (hany : ∃ market ∈ gradients, market ≠ []) :
    ∃ a, summaryMaxNorm (collectNorms (gradients.map fun market => market.map fun g => g.map Flo.fin)) = .fin a ∧
      ∀ tolerance, a ≤ tolerance ↔ ∀ market ∈ gradients, ∀ g ∈ market, ∀ x ∈ g, |x| ≤ tolerance := by
  have key := C157_norms (collectNorms (gradients.map fun market => market.map fun g => g.map Flo.fin))
  have mem : ∀ r, (∃ market ∈ collectNorms (gradients.map fun market => market.map fun g => g.map Flo.fin), Flo.fin r ∈ market) ↔
      ∃ market ∈ gradients, ∃ g ∈ market, floatGradientNorm (g.map Flo.fin) = .fin r := by
    intro r
    simp [collectNorms]
  obtain ⟨t, ht, htn⟩ := hany
  obtain ⟨g0, hg0⟩ := List.exists_mem_of_ne_nil t htn
  obtain ⟨b, hb, -, -⟩ := norm_numbers (hne t ht g0 hg0)
  cases hr : summaryMaxNorm (collectNorms (gradients.map fun market => market.map fun g => g.map Flo.fin)) with
  | nan => exact absurd hr key.2.2.1
  | pinf => exact absurd hr key.2.2.2
  | ninf =>
    have h0 := key.2.1.mp hr
    exact absurd ((mem b).mpr ⟨t, ht, g0, hg0, hb⟩) (by
      intro h
      have : b ∈ (∅ : Set ℝ) := h0 ▸ h
      exact this)
  | fin a =>
    obtain ⟨h1, h2⟩ := (key.1 a).mp hr
    refine ⟨a, rfl, fun tolerance => ⟨fun h s hs g hg x hx => ?_, fun h => ?_⟩⟩
    · obtain ⟨c, hc, -, hc'⟩ := norm_numbers (hne s hs g hg)
      exact (hc' x hx).trans ((h2 c ((mem c).mpr ⟨s, hs, g, hg, hc⟩)).trans h)
    · obtain ⟨s, hs, g, hg, hag⟩ := (mem a).mp h1
      obtain ⟨c, hc, ⟨x, hx, hcx⟩, -⟩ := norm_numbers (hne s hs g hg)
      have : a = c := Flo.fin.inj (hag.symm.trans hc)
      rw [this, hcx]
      exact h s hs g hg x hx

private theorem finite_success (values : List ℝ) :
    (∃ e ∈ (EigenOutcome.success values).values, e.Finite) ↔ values ≠ [] := by
  constructor
  · rintro ⟨e, he, -⟩ rfl
    cases he
  · intro h
    obtain ⟨x, hx⟩ := List.exists_mem_of_ne_nil values h
    exact ⟨.fin x, List.mem_map_of_mem hx, trivial⟩

private theorem finite_failure (rows : ℕ) : ¬∃ e ∈ (EigenOutcome.failure rows).values, e.Finite := by
  rintro ⟨e, he, h⟩
  rw [List.eq_of_mem_replicate he] at h
  exact h

/-- Numbers among the eigenvalues of one firm. -/
private def own : EigenOutcome → Set ℝ
  | .success values => {x | x ∈ values}
  | .failure _ => ∅

private theorem computed_eq (outcomes : List (List EigenOutcome)) :
    Spec.computedEigenvalues outcomes = {r | ∃ market ∈ outcomes, r ∈ {r | ∃ o ∈ market, r ∈ own o}} := by
  ext r
  constructor
  · rintro ⟨market, hm, values, hv, hr⟩
    exact ⟨market, hm, _, hv, hr⟩
  · rintro ⟨market, hm, o, ho, hr⟩
    cases o with
    | success values => exact ⟨market, hm, values, ho, hr⟩
    | failure rows => exact absurd hr (Set.notMem_empty r)

/-- **C157 (largest eigenvalue).** The reported maximum is the largest eigenvalue of all firms' profit Hessians, in all markets. Firms for
which eigenvalues could not be computed are left out. -/
theorem C157_max_eigenvalue (outcomes : List (List EigenOutcome)) :
    Spec.Largest (summaryMaxEigenvalue (collectEigenvalues outcomes)) (Spec.computedEigenvalues outcomes) := by
  rw [computed_eq]
  unfold summaryMaxEigenvalue collectEigenvalues
  rw [List.foldl_map]
  have h1 := largest_fold
    (fun m (market : List EigenOutcome) => (market.map EigenOutcome.values).foldl
      (fun m x => if ∃ e ∈ x, e.Finite then pythonMax m (arrayMax x) else m) m)
    (fun market => {r | ∃ o ∈ market, r ∈ own o}) ?_ outcomes .ninf ∅ largest_empty
  · rw [Set.empty_union] at h1
    exact h1
  · intro m market N h
    show Spec.Largest ((market.map EigenOutcome.values).foldl _ m) _
    rw [List.foldl_map]
    refine largest_fold _ own ?_ market m N h
    intro m o N h
    cases o with
    | failure rows =>
      show Spec.Largest (if _ then _ else _) _
      rw [if_neg (finite_failure rows)]
      simpa [own] using h
    | success values =>
      show Spec.Largest (if _ then _ else _) _
      by_cases hv : values = []
      · rw [if_neg (fun h => (finite_success values).mp h hv)]
        subst hv
        simpa [own] using h
      · rw [if_pos ((finite_success values).mpr hv)]
        obtain ⟨a, ha, h2, h3⟩ := arrayMax_fin hv
        show Spec.Largest (pythonMax m (arrayMax (values.map Flo.fin))) _
        rw [h2]
        exact largest_max h ha h3

/-- **C157 (smallest eigenvalue).** Likewise for the reported minimum. -/
theorem C157_min_eigenvalue (outcomes : List (List EigenOutcome)) :
    Spec.Smallest (summaryMinEigenvalue (collectEigenvalues outcomes)) (Spec.computedEigenvalues outcomes) := by
  rw [computed_eq]
  unfold summaryMinEigenvalue collectEigenvalues
  rw [List.foldl_map]
  have h1 := smallest_fold
    (fun m (market : List EigenOutcome) => (market.map EigenOutcome.values).foldl
      (fun m x => if ∃ e ∈ x, e.Finite then pythonMin m (arrayMin x) else m) m)
    (fun market => {r | ∃ o ∈ market, r ∈ own o}) ?_ outcomes .pinf ∅ smallest_empty
  · rw [Set.empty_union] at h1
    exact h1
  · intro m market N h
    show Spec.Smallest ((market.map EigenOutcome.values).foldl _ m) _
    rw [List.foldl_map]
    refine smallest_fold _ own ?_ market m N h
    intro m o N h
    cases o with
    | failure rows =>
      show Spec.Smallest (if _ then _ else _) _
      rw [if_neg (finite_failure rows)]
      simpa [own] using h
    | success values =>
      show Spec.Smallest (if _ then _ else _) _
      by_cases hv : values = []
      · rw [if_neg (fun h => (finite_success values).mp h hv)]
        subst hv
        simpa [own] using h
      · rw [if_pos ((finite_success values).mpr hv)]
        obtain ⟨a, ha, h2, h3⟩ := arrayMin_fin hv
        show Spec.Smallest (pythonMin m (arrayMin (values.map Flo.fin))) _
        rw [h2]
        exact smallest_min h ha h3

/-- **C157 (second order conditions).** If no errors about eigenvalues are reported and the reported maximum is negative, all eigenvalues
of all firms' profit Hessians are negative. -/
theorem C157_second_order (outcomes : List (List EigenOutcome)) (herr : eigenvalueErrors outcomes = 0) {a : ℝ} (ha : a < 0)
    (hmax : summaryMaxEigenvalue (collectEigenvalues outcomes) = .fin a) :
    ∀ market ∈ outcomes, ∀ o ∈ market, ∃ values, o = .success values ∧ ∀ x ∈ values, x < 0 := by
  intro market hm o ho
  cases o with
  | failure rows =>
    unfold eigenvalueErrors at herr
    rw [List.length_eq_zero_iff, List.filter_eq_nil_iff] at herr
    exact absurd rfl (herr _ (List.mem_flatten.mpr ⟨market, hm, ho⟩))
  | success values =>
    refine ⟨values, rfl, fun x hx => ?_⟩
    exact (((C157_max_eigenvalue outcomes).1 a).mp hmax).2 x ⟨market, hm, values, ho, hx⟩ |>.trans_lt ha

/-- **C157 (failures).** The reported number of failures is zero if and only if the iteration converged in all markets, and is the number
of markets in which it did not. -/
theorem C157_failures {T : Type} (markets : List T) (stats : T → MarketStats) :
    (summaryCounts markets stats).1 = markets.countP (fun t => (stats t).converged = false) ∧
      ((summaryCounts markets stats).1 = 0 ↔ ∀ t ∈ markets, (stats t).converged = true) := by
  unfold summaryCounts
  refine ⟨?_, ?_⟩
  · rw [← List.countP_eq_length_filter, List.countP_map]
    refine List.countP_congr fun t _ => ?_
    simp
  · rw [List.length_eq_zero_iff, List.filter_eq_nil_iff]
    simp

/-- **C157 (totals).** Reported iterations and evaluations are totals over markets: nothing without markets, and each market adds its own. -/
theorem C157_totals {T : Type} (stats : T → MarketStats) (t : T) (markets : List T) :
    (summaryCounts [] stats).2 = (0, 0) ∧
      (summaryCounts (t :: markets) stats).2.1 = (stats t).iterations + (summaryCounts markets stats).2.1 ∧
      (summaryCounts (t :: markets) stats).2.2 = (stats t).evaluations + (summaryCounts markets stats).2.2 :=
  ⟨rfl, List.sum_cons, List.sum_cons⟩

/-- One market out of two in which the iteration failed. -/
example : (summaryCounts [true, false] fun t => ⟨t, 3, 4⟩).1 = 1 := rfl

/-- The summary does not show that a firm's norm is NaN: the reported number is then that of other firms. -/
theorem C157_hidden_refuted : ∃ norms : List (List Flo), (∃ market ∈ norms, Flo.nan ∈ market) ∧ summaryMaxNorm norms = .fin 0 := by
  refine ⟨[[.fin 0, .nan]], ⟨_, List.mem_singleton_self _, by simp⟩, ?_⟩
  refine ((C157_norms _).1 0).mpr ⟨⟨_, List.mem_singleton_self _, by simp⟩, ?_⟩
  rintro x ⟨market, hm, hx⟩
  rw [List.mem_singleton.mp hm] at hx
  simp at hx
  exact hx.le

/-- Two markets: with a firm of two products and one of one, and with one firm. -/
example : summaryMaxNorm (collectNorms ([[[1, -3], [2]], [[0]]].map fun market => market.map fun g => g.map Flo.fin)) = .fin 3 := by
  obtain ⟨a, h1, h2⟩ := C157_first_order [[[1, -3], [2]], [[0]]] (by simp) ⟨_, List.mem_cons_self, by simp⟩
  rw [h1]
  have h3 : a ≤ 3 := (h2 3).mpr (by norm_num)
  have h4 := (h2 a).mp le_rfl _ List.mem_cons_self _ List.mem_cons_self (-3) (by simp)
  norm_num at h4
  rw [le_antisymm h3 h4]

/-- Second order conditions in two markets. -/
example : ∀ x ∈ [-1, (-2 : ℝ)], x < 0 := by
  have hmax : summaryMaxEigenvalue (collectEigenvalues [[.success [-1, -2]], [.success [-3]]]) = .fin (-1) := by
    refine ((C157_max_eigenvalue _).1 (-1)).mpr ⟨⟨_, List.mem_cons_self, _, List.mem_cons_self, List.mem_cons_self⟩, ?_⟩
    rintro x ⟨market, hm, values, hv, hx⟩
    rcases List.mem_cons.mp hm with rfl | hm
    · cases List.mem_singleton.mp hv
      rcases List.mem_cons.mp hx with rfl | hx
      · exact le_refl _
      · rw [List.mem_singleton.mp hx]; norm_num
    · rw [List.mem_singleton.mp hm] at hv
      cases List.mem_singleton.mp hv
      rw [List.mem_singleton.mp hx]; norm_num
  obtain ⟨values, h1, h2⟩ := C157_second_order _ rfl (by norm_num) hmax _ List.mem_cons_self _ List.mem_cons_self
  cases h1
  exact h2

end Pyblp
