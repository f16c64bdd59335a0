import Verif.Model.Groups

set_option linter.unusedSectionVars false

namespace Pyblp

variable {ι α M : Type} [LinearOrder ι] {N : ℕ}

/-- Maximal runs of adjacent elements with the same key. -/
def runs (f : α → ι) : List α → List (List α)
  | [] => []
  | x :: xs =>
    match runs f xs with
    | [] => [[x]]
    | r :: rs => if r.head?.map f = some (f x) then (x :: r) :: rs else [x] :: r :: rs

/-- Keys of runs. -/
def runKeys : List ι → List ι
  | [] => []
  | [x] => [x]
  | x :: y :: l => if y ≠ x then x :: runKeys (y :: l) else runKeys (y :: l)

lemma nonzero_cons (b : Bool) (l : List Bool) :
    nonzero (b :: l) = (if b then [0] else []) ++ (nonzero l).map (· + 1) := by
  unfold nonzero
  rw [List.length_cons, List.range_succ_eq_map, List.filter_cons, List.filter_map]
  cases b <;> simp [Function.comp_def]

lemma npSplit_succ (x : α) (l : List α) (start : ℕ) (cs : List ℕ) :
    npSplit (x :: l) (start + 1) (cs.map (· + 1)) = npSplit l start cs := by
  induction cs generalizing start with
  | nil => simp [npSplit]
  | cons c cs ih => simp [npSplit, ih]

lemma npSplit_zero_cons (x : α) (l : List α) (cs : List ℕ) :
    npSplit (x :: l) 0 (cs.map (· + 1)) = (npSplit l 0 cs).modifyHead (x :: ·) := by
  cases cs with
  | nil => simp [npSplit]
  | cons c cs => simp [npSplit, npSplit_succ]

lemma npSplit_map {β : Type} (g : α → β) (l : List α) (start : ℕ) (cs : List ℕ) :
    npSplit (l.map g) start cs = (npSplit l start cs).map (List.map g) := by
  induction cs generalizing start with
  | nil => simp [npSplit, List.map_drop]
  | cons c cs ih => simp [npSplit, ih, List.map_drop, List.map_take]

/-- The cuts after the first (which is zero). -/
def innerCuts (x : ι) (xs : List ι) : List ℕ :=
  (nonzero (List.zipWith (fun a b => decide (a ≠ b)) xs (x :: xs))).map (· + 1)

lemma nonzero_changes (x : ι) (xs : List ι) : nonzero (changes (x :: xs)) = 0 :: innerCuts x xs := by
  simp [changes, nonzero_cons, innerCuts]

lemma innerCuts_cons (x y : ι) (ys : List ι) :
    innerCuts x (y :: ys) = if y ≠ x then (0 :: innerCuts y ys).map (· + 1) else (innerCuts y ys).map (· + 1) := by
  unfold innerCuts
  rw [List.zipWith_cons_cons, nonzero_cons]
  by_cases h : y = x <;> simp [h]

lemma runs_eq_cons (f : α → ι) (x : α) (xs : List α) :
    ∃ r rs, runs f (x :: xs) = (x :: r) :: rs := by
  rw [runs]
  cases runs f xs with
  | nil => exact ⟨[], [], rfl⟩
  | cons r rs => simp only []; split_ifs <;> exact ⟨_, _, rfl⟩

lemma runs_cons_cons (f : α → ι) (x y : α) (ys : List α) :
    runs f (x :: y :: ys) = if f y ≠ f x then [x] :: runs f (y :: ys) else (runs f (y :: ys)).modifyHead (x :: ·) := by
  obtain ⟨r, rs, h⟩ := runs_eq_cons f y ys
  rw [runs, h]
  by_cases hk : f y = f x <;> simp [hk]

lemma npSplit_runs (f : α → ι) (x : α) (xs : List α) :
    npSplit (x :: xs) 0 (innerCuts (f x) (xs.map f)) = runs f (x :: xs) := by
  induction xs generalizing x with
  | nil => simp [innerCuts, nonzero, npSplit, runs]
  | cons y ys ih =>
    rw [runs_cons_cons, ← ih, List.map_cons, innerCuts_cons]
    by_cases hk : f y = f x
    · rw [if_neg (by simpa using hk), if_neg (by simpa using hk), npSplit_zero_cons]
    · rw [if_pos hk, if_pos hk, List.map_cons, npSplit]
      simp [npSplit_succ]

lemma split_eq_runs (f : α → ι) (l : List α) :
    (npSplit l 0 (nonzero (changes (l.map f)))).tail = runs f l := by
  cases l with
  | nil => simp [changes, nonzero, npSplit, runs]
  | cons x xs => rw [List.map_cons, nonzero_changes, npSplit, List.tail_cons, npSplit_runs]

lemma reduceat_cons [AddCommMonoid M] (l : List M) (c : ℕ) (cs : List ℕ) :
    reduceat l (c :: cs) = (npSplit l c cs).map List.sum := by
  induction cs generalizing c with
  | nil => simp [reduceat, npSplit]
  | cons d cs ih => simp [reduceat, npSplit, ih]

lemma reduceat_eq_runs [AddCommMonoid M] (f : α → ι) (g : α → M) (l : List α) :
    reduceat (l.map g) (nonzero (changes (l.map f))) = (runs f l).map fun r => (r.map g).sum := by
  cases l with
  | nil => simp [changes, nonzero, reduceat, runs]
  | cons x xs =>
    rw [List.map_cons (f := f), nonzero_changes, reduceat_cons, npSplit_map, npSplit_runs, List.map_map]; rfl

lemma takeAt_succ (x : α) (l : List α) (cs : List ℕ) : takeAt (x :: l) (cs.map (· + 1)) = takeAt l cs := by
  simp [takeAt, List.filterMap_map]

lemma takeAt_innerCuts (x : ι) (xs : List ι) : takeAt (x :: xs) (0 :: innerCuts x xs) = runKeys (x :: xs) := by
  induction xs generalizing x with
  | nil => simp [innerCuts, nonzero, takeAt, runKeys]
  | cons y ys ih =>
    have hcons : ∀ cs, takeAt (x :: y :: ys) (0 :: cs) = x :: takeAt (x :: y :: ys) cs := fun cs => by simp [takeAt]
    rw [runKeys, ← ih, innerCuts_cons, hcons]
    by_cases hk : y = x
    · subst hk
      rw [if_neg (by simp), if_neg (by simp), takeAt_succ]; simp [takeAt]
    · rw [if_pos hk, if_pos hk, takeAt_succ]

lemma unique_eq_runKeys (l : List ι) : takeAt l (nonzero (changes l)) = runKeys l := by
  cases l with
  | nil => rfl
  | cons x xs => rw [nonzero_changes, takeAt_innerCuts]

lemma mem_runKeys (l : List ι) (u : ι) : u ∈ runKeys l ↔ u ∈ l := by
  induction l with
  | nil => simp [runKeys]
  | cons x xs ih =>
    cases xs with
    | nil => simp [runKeys]
    | cons y ys =>
      rw [runKeys]
      by_cases hk : y = x
      · rw [if_neg (by simpa using hk), ih, List.mem_cons (a := u) (b := x), hk]; simp
      · rw [if_pos hk, List.mem_cons, ih, List.mem_cons (a := u) (b := x)]

lemma runKeys_sorted (l : List ι) (hl : l.Pairwise (· ≤ ·)) : (runKeys l).Pairwise (· < ·) := by
  induction l with
  | nil => simp [runKeys]
  | cons x xs ih =>
    cases xs with
    | nil => simp [runKeys]
    | cons y ys =>
      rw [runKeys]
      have ih' := ih hl.of_cons
      by_cases hk : y = x
      · rw [if_neg (by simpa using hk)]; exact ih'
      · rw [if_pos hk, List.pairwise_cons]
        refine ⟨fun u hu => ?_, ih'⟩
        rw [mem_runKeys] at hu
        have hxy : x < y := lt_of_le_of_ne (List.rel_of_pairwise_cons hl (by simp)) (Ne.symm hk)
        rcases List.mem_cons.mp hu with h | h
        · rwa [h]
        · exact hxy.trans_le (List.rel_of_pairwise_cons hl.of_cons h)

lemma runKeys_eq_cons (x : ι) (xs : List ι) : ∃ l, runKeys (x :: xs) = x :: l := by
  induction xs generalizing x with
  | nil => exact ⟨[], rfl⟩
  | cons y ys ih =>
    rw [runKeys]
    by_cases hk : y = x
    · rw [if_neg (by simpa using hk), hk]; exact ih x
    · rw [if_pos hk]; exact ⟨_, rfl⟩

lemma runs_eq_filter (f : α → ι) (l : List α) (hl : (l.map f).Pairwise (· ≤ ·)) :
    runs f l = (runKeys (l.map f)).map fun u => l.filter fun a => decide (f a = u) := by
  induction l with
  | nil => simp [runs, runKeys]
  | cons x xs ih =>
    cases xs with
    | nil => simp [runs, runKeys]
    | cons y ys =>
      have ih' := ih hl.of_cons
      have hsort := runKeys_sorted _ hl.of_cons
      rw [runs_cons_cons, ih', List.map_cons (a := x), List.map_cons, runKeys, ← List.map_cons]
      obtain ⟨k, hkeys⟩ := runKeys_eq_cons (f y) (ys.map f)
      rw [← List.map_cons] at hkeys
      have htail : ∀ u ∈ runKeys ((y :: ys).map f), u ≠ f x →
          (x :: y :: ys).filter (fun a => decide (f a = u)) = (y :: ys).filter fun a => decide (f a = u) := by
        intro u _ hne
        rw [List.filter_cons_of_neg (by simpa using Ne.symm hne)]
      by_cases hk : f y = f x
      · rw [if_neg (by simpa using hk), if_neg (by simpa using hk), hkeys]
        simp only [List.map_cons, List.modifyHead_cons]
        congr 1
        · rw [List.filter_cons_of_pos (l := y :: ys) (by simp [hk])]
        · refine List.map_congr_left fun u hu => ?_
          have hne : u ≠ f x := by
            rw [hkeys] at hsort
            rw [← hk]; exact (List.rel_of_pairwise_cons hsort hu).ne'
          exact (htail u (by rw [hkeys]; exact List.mem_cons_of_mem _ hu) hne).symm
      · rw [if_pos hk, if_pos hk, List.map_cons]
        have hlt : ∀ u ∈ (y :: ys).map f, f x < u := by
          intro u hu
          have hxy : f x < f y := lt_of_le_of_ne (List.rel_of_pairwise_cons hl (by simp)) (Ne.symm hk)
          rw [List.map_cons] at hu
          rcases List.mem_cons.mp hu with h | h
          · rwa [h]
          · exact hxy.trans_le (List.rel_of_pairwise_cons hl.of_cons h)
        congr 1
        · show [x] = List.filter (fun a => decide (f a = f x)) (x :: y :: ys)
          rw [List.filter_cons_of_pos (by simp)]
          congr 1
          symm
          rw [List.filter_eq_nil_iff]
          intro a ha
          simpa using (hlt (f a) (List.mem_map_of_mem ha)).ne'
        · refine List.map_congr_left fun u hu => ?_
          exact (htail u hu (hlt u ((mem_runKeys _ _).mp hu)).ne').symm

/-- The distinct IDs in increasing order. -/
def distinctIds (ids : Fin N → ι) : List ι := (Finset.univ.image ids).sort (· ≤ ·)

lemma runKeys_eq_distinct (ids : Fin N → ι) (sort : List (Fin N)) (h : IsArgsort ids sort) :
    runKeys (sort.map ids) = distinctIds ids := by
  have hs := runKeys_sorted _ h.sorted
  refine List.Perm.eq_of_pairwise (le := (· ≤ ·)) (fun a b _ _ => le_antisymm) (hs.imp le_of_lt)
    (Finset.pairwise_sort _ _) ?_
  unfold distinctIds
  rw [List.perm_ext_iff_of_nodup (hs.imp ne_of_lt) (Finset.sort_nodup _ _)]
  intro u
  rw [mem_runKeys, Finset.mem_sort]
  simp only [List.mem_map, Finset.mem_image, Finset.mem_univ, true_and]
  exact ⟨fun ⟨i, _, hi⟩ => ⟨i, hi⟩, fun ⟨i, hi⟩ => ⟨i, h.perm.mem_iff.mpr (List.mem_finRange i), hi⟩⟩

lemma stableArgsort_isArgsort (ids : Fin N → ι) : IsArgsort ids (stableArgsort ids) where
  perm := List.mergeSort_perm _ _
  sorted := by
    rw [List.pairwise_map]
    have := List.pairwise_mergeSort (le := fun a b : Fin N => decide (ids a ≤ ids b))
      (fun a b c h1 h2 => by simp only [decide_eq_true_eq] at *; exact h1.trans h2)
      (fun a b => by simp only [Bool.or_eq_true, decide_eq_true_eq]; exact le_total _ _) (List.finRange N)
    exact this.imp (by simp)

lemma stableArgsort_filter (ids : Fin N → ι) (u : ι) :
    (stableArgsort ids).filter (fun i => decide (ids i = u)) = (List.finRange N).filter fun i => decide (ids i = u) := by
  have hsub : ((List.finRange N).filter fun i => decide (ids i = u)).Sublist (stableArgsort ids) := by
    refine List.sublist_mergeSort
      (fun a b c h1 h2 => by simp only [decide_eq_true_eq] at *; exact h1.trans h2)
      (fun a b => by simp only [Bool.or_eq_true, decide_eq_true_eq]; exact le_total _ _) ?_ List.filter_sublist
    rw [List.pairwise_filter]
    refine List.pairwise_of_forall fun a b ha hb => ?_
    simp only [decide_eq_true_eq] at *
    rw [ha, hb]
  have hsub' := hsub.filter (fun i => decide (ids i = u))
  rw [List.filter_filter] at hsub'
  simp only [Bool.and_self] at hsub'
  refine (hsub'.eq_of_length ?_).symm
  exact (((stableArgsort_isArgsort ids).perm.filter _).length_eq).symm

lemma sum_filter_list [AddCommMonoid M] (p : Fin N → Prop) [DecidablePred p] (x : Fin N → M) :
    (((List.finRange N).filter fun i => decide (p i)).map x).sum = ∑ i with p i, x i := by
  rw [Finset.sum_filter, Fin.sum_univ_def]
  induction List.finRange N with
  | nil => simp
  | cons a l ih => by_cases h : p a <;> simp [h, ih]

lemma cumsumFrom_map (a b : ℕ) (l : List ℕ) : cumsumFrom (a + b) l = (cumsumFrom a l).map (· + b) := by
  induction l generalizing a with
  | nil => rfl
  | cons c l ih => simp only [cumsumFrom, List.map_cons]; rw [show a + b + c = a + c + b by ring, ih]

/-- The codes of sorted IDs. -/
def codesOf (l : List ι) : List ℕ := (cumsumFrom 0 ((changes l).map fun b => if b then 1 else 0)).map (· - 1)

lemma codesOf_cons_cons (x y : ι) (ys : List ι) :
    codesOf (x :: y :: ys) = 0 :: (codesOf (y :: ys)).map (· + if y ≠ x then 1 else 0) := by
  simp only [codesOf, changes, List.zipWith_cons_cons, List.map_cons, cumsumFrom, if_true, zero_add, Nat.sub_self,
    List.map_map]
  congr 1
  simp only [decide_eq_true_eq]
  by_cases h : y = x
  · subst h; simp
  · simp only [ne_eq, h, not_false_eq_true, if_true, Nat.reduceAdd]
    rw [show (2:ℕ) = 1 + 1 from rfl, cumsumFrom_map, List.map_map]
    congr 1
    refine List.map_congr_left fun c hc => ?_
    have : 1 ≤ c := by
      rw [show (1:ℕ) = 0 + 1 from rfl, cumsumFrom_map] at hc
      obtain ⟨d, _, rfl⟩ := List.mem_map.mp hc
      omega
    simp only [Function.comp_apply]
    omega

lemma codesOf_singleton (x : ι) : codesOf [x] = [0] := rfl

lemma runKeys_codes (l : List ι) : (codesOf l).map (fun c => (runKeys l)[c]?) = l.map some := by
  induction l with
  | nil => rfl
  | cons x xs ih =>
    cases xs with
    | nil => rfl
    | cons y ys =>
      rw [codesOf_cons_cons, List.map_cons, List.map_cons, List.map_map]
      congr 1
      · obtain ⟨k, hk⟩ := runKeys_eq_cons x (y :: ys); simp [hk]
      · rw [← ih]
        refine List.map_congr_left fun c _ => ?_
        rw [Function.comp_apply, runKeys]
        by_cases h : y = x
        · simp [h]
        · simp [h]

lemma codes_spec (ids : Fin N → ι) (sort : List (Fin N)) (h : IsArgsort ids sort) (i : Fin N) :
    (distinctIds ids)[(Groups.mk' ids sort).codes i]? = some (ids i) := by
  rw [← runKeys_eq_distinct ids sort h]
  have hmem : i ∈ sort := h.perm.mem_iff.mpr (List.mem_finRange i)
  have hidx : sort.idxOf i < sort.length := List.idxOf_lt_length_of_mem hmem
  have hget : sort[sort.idxOf i]'hidx = i := List.getElem_idxOf hidx
  have hc := runKeys_codes (sort.map ids)
  have h1 := congrArg (fun l => l[sort.idxOf i]?) hc
  simp only [List.getElem?_map, List.getElem?_eq_getElem hidx, hget, Option.map_some] at h1
  show (runKeys (sort.map ids))[((codesOf (sort.map ids))[sort.idxOf i]?).getD 0]? = _
  cases hco : (codesOf (sort.map ids))[sort.idxOf i]? with
  | none => rw [hco] at h1; simp at h1
  | some c => rw [hco] at h1; simpa using h1

lemma npDiff_cuts (l : List α) (c : ℕ) (cs : List ℕ) (hc : c ≤ l.length) (hcs : (c :: cs).Pairwise (· ≤ ·))
    (hle : ∀ d ∈ cs, d ≤ l.length) :
    npDiff ((c :: cs) ++ [l.length]) = (npSplit l c cs).map List.length := by
  induction cs generalizing c with
  | nil => simp [npDiff, npSplit]
  | cons d cs ih =>
    have hd := hle d (by simp)
    have := ih d hd hcs.of_cons (fun e he => hle e (by simp [he]))
    simp only [List.cons_append] at this ⊢
    rw [npDiff, this, npSplit, List.map_cons]
    simp [hd]

lemma nonzero_sorted (l : List Bool) : (nonzero l).Pairwise (· < ·) :=
  List.Pairwise.filter _ List.pairwise_lt_range

lemma nonzero_lt (l : List Bool) (d : ℕ) (hd : d ∈ nonzero l) : d < l.length := by
  unfold nonzero at hd
  exact List.mem_range.mp (List.mem_filter.mp hd).1

lemma changes_length (l : List ι) : (changes l).length = l.length := by
  cases l <;> simp [changes]

lemma counts_eq_runs (f : α → ι) (l : List α) :
    npDiff (nonzero (changes (l.map f)) ++ [l.length]) = (runs f l).map List.length := by
  cases l with
  | nil => simp [changes, nonzero, npDiff, runs]
  | cons x xs =>
    have hs := nonzero_sorted (changes ((x :: xs).map f))
    have hlt := nonzero_lt (changes ((x :: xs).map f))
    rw [changes_length, List.length_map] at hlt
    rw [List.map_cons, nonzero_changes] at hs hlt ⊢
    rw [npDiff_cuts (x :: xs) 0 _ (Nat.zero_le _) (hs.imp le_of_lt) (fun d hd => (hlt d (by simp [hd])).le), npSplit_runs]

end Pyblp
