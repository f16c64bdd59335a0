import Verif.Lemmas.Groups

/-!
# C06, C07: grouping rows by IDs
-/

set_option linter.unusedSectionVars false

namespace Pyblp

variable {ι M : Type} [LinearOrder ι] {N : ℕ}

/-- C07: the index maps the distinct IDs, in increasing order, to the rows with that ID, in increasing order. -/
theorem C07_get_indices (ids : Fin N → ι) :
    getIndices ids = ((Finset.univ.image ids).sort (· ≤ ·)).map fun u =>
      (u, (List.finRange N).filter fun i => decide (ids i = u)) := by
  have h := stableArgsort_isArgsort ids
  simp only [getIndices, split_eq_runs, unique_eq_runKeys, runs_eq_filter ids _ h.sorted,
    runKeys_eq_distinct ids _ h, stableArgsort_filter]
  rw [List.zip_map_right]
  show (List.zip (distinctIds ids) (distinctIds ids)).map _ = (distinctIds ids).map _
  generalize distinctIds ids = l
  induction l with
  | nil => rfl
  | cons a l ih => simp only [List.zip_cons_cons, List.map_cons, ih]; rfl

/-- C07: keys are distinct, so the list of pairs is a dictionary. -/
theorem C07_keys_nodup (ids : Fin N → ι) : ((getIndices ids).map Prod.fst).Nodup := by
  rw [C07_get_indices, List.map_map]
  simp [Function.comp_def]

/-- C07: every row is in exactly one index list, that of its own ID; lists are increasing. -/
theorem C07_partition (ids : Fin N → ι) :
    (∀ i, ∃! p, p ∈ getIndices ids ∧ i ∈ p.2) ∧
    (∀ p ∈ getIndices ids, ∀ i, i ∈ p.2 ↔ ids i = p.1) ∧
    (∀ p ∈ getIndices ids, p.2.Pairwise (· < ·)) := by
  have hmem : ∀ p, p ∈ getIndices ids → p.2 = (List.finRange N).filter fun i => decide (ids i = p.1) := by
    intro p hp
    rw [C07_get_indices] at hp
    obtain ⟨u, _, rfl⟩ := List.mem_map.mp hp
    rfl
  have hiff : ∀ p ∈ getIndices ids, ∀ i, i ∈ p.2 ↔ ids i = p.1 := by
    intro p hp i; rw [hmem p hp]; simp
  refine ⟨fun i => ?_, hiff, fun p hp => ?_⟩
  · refine ⟨(ids i, (List.finRange N).filter fun q => decide (ids q = ids i)), ⟨?_, by simp⟩, ?_⟩
    · rw [C07_get_indices]
      exact List.mem_map.mpr ⟨ids i, by simp, rfl⟩
    · rintro p ⟨hp, hi⟩
      have h1 := (hiff p hp i).mp hi
      exact Prod.ext h1.symm (by rw [hmem p hp, h1])
  · rw [hmem p hp]; exact (List.pairwise_lt_finRange N).filter _

/-- C06: sums by group, for any result of `argsort`: the sums over the rows with each distinct ID, in increasing order of
IDs. -/
theorem C06_sum [AddCommMonoid M] (ids : Fin N → ι) (sort : List (Fin N)) (h : IsArgsort ids sort) (x : Fin N → M) :
    (Groups.mk' ids sort).sum x = ((Finset.univ.image ids).sort (· ≤ ·)).map fun u => ∑ i with ids i = u, x i := by
  show reduceat (sort.map x) (nonzero (changes (sort.map ids))) = _
  rw [reduceat_eq_runs, runs_eq_filter ids _ h.sorted, runKeys_eq_distinct ids _ h, List.map_map]
  refine List.map_congr_left fun u _ => ?_
  rw [Function.comp_apply, ((h.perm.filter _).map x).sum_eq, sum_filter_list]

/-- C06: the groups are the distinct IDs in increasing order. -/
theorem C06_unique (ids : Fin N → ι) (sort : List (Fin N)) (h : IsArgsort ids sort) :
    (Groups.mk' ids sort).unique = (Finset.univ.image ids).sort (· ≤ ·) := by
  show takeAt (sort.map ids) (nonzero (changes (sort.map ids))) = _
  rw [unique_eq_runKeys, runKeys_eq_distinct ids _ h]; rfl

/-- C06: counts are numbers of rows. -/
theorem C06_counts (ids : Fin N → ι) (sort : List (Fin N)) (h : IsArgsort ids sort) :
    (Groups.mk' ids sort).counts = ((Finset.univ.image ids).sort (· ≤ ·)).map fun u =>
      (Finset.univ.filter fun i => ids i = u).card := by
  have hlen : sort.length = N := by rw [h.perm.length_eq]; simp
  show npDiff (nonzero (changes (sort.map ids)) ++ [N]) = _
  have hcr := counts_eq_runs ids sort
  rw [hlen] at hcr
  rw [hcr, runs_eq_filter ids _ h.sorted, runKeys_eq_distinct ids _ h, List.map_map]
  refine List.map_congr_left fun u _ => ?_
  have := sum_filter_list (fun i => ids i = u) (fun _ : Fin N => (1 : ℕ))
  rw [Finset.sum_const, smul_eq_mul, mul_one] at this
  rw [Function.comp_apply, (h.perm.filter _).length_eq, ← this]
  simp

/-- C06: means by group. -/
theorem C06_mean (ids : Fin N → ι) (sort : List (Fin N)) (h : IsArgsort ids sort) (x : Fin N → ℝ) :
    (Groups.mk' ids sort).mean x = ((Finset.univ.image ids).sort (· ≤ ·)).map fun u =>
      (∑ i with ids i = u, x i) / (Finset.univ.filter fun i => ids i = u).card := by
  rw [Groups.mean, C06_sum ids sort h, C06_counts ids sort h, List.zipWith_map, List.zipWith_self]

/-- C06: expanding statistics `F u` of each group `u` gives each row the statistic of its own group. -/
theorem C06_expand (ids : Fin N → ι) (sort : List (Fin N)) (h : IsArgsort ids sort) (F : ι → M) (i : Fin N) :
    (Groups.mk' ids sort).expand (((Finset.univ.image ids).sort (· ≤ ·)).map F) i = some (F (ids i)) := by
  rw [Groups.expand, List.getElem?_map]
  have := codes_spec ids sort h i
  rw [distinctIds] at this
  rw [this]; rfl

/-- C06: the documented use: sums expanded back to rows. -/
theorem C06_expand_sum [AddCommMonoid M] (ids : Fin N → ι) (sort : List (Fin N)) (h : IsArgsort ids sort) (x : Fin N → M)
    (i : Fin N) : (Groups.mk' ids sort).expand ((Groups.mk' ids sort).sum x) i = some (∑ q with ids q = ids i, x q) := by
  rw [C06_sum ids sort h, C06_expand ids sort h]

/-- Non-vacuity: interleaved IDs and an unstable sort. -/
example : IsArgsort (![7, 3, 7, 3] : Fin 4 → ℕ) [3, 1, 0, 2] ∧
    (Groups.mk' (![7, 3, 7, 3] : Fin 4 → ℕ) [3, 1, 0, 2]).sum (![1, 10, 100, 1000] : Fin 4 → ℕ) = [1010, 101] ∧
    (3, [1, 3]) ∈ getIndices (![7, 3, 7, 3] : Fin 4 → ℕ) := by
  refine ⟨⟨by decide, by decide⟩, by decide, ?_⟩
  rw [C07_get_indices, List.mem_map]
  exact ⟨3, by rw [Finset.mem_sort]; decide, by decide⟩

end Pyblp
