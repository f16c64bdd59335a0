import Verif.Model.Algebra

set_option linter.unusedSectionVars false

/-!
# Vectorization operators (C38) and inversion failures (C39)
-/

namespace Pyblp

/-! ## Positions in the half-vectorization -/

/-- The number of entries of the upper triangle above row `a`. -/
def above (n : ℕ) : ℕ → ℕ
  | 0 => 0
  | a + 1 => above n a + (n - a)

theorem above_eq (n a : ℕ) (h : a ≤ n) : 2 * above n a + a * a = 2 * (a * n) + a := by
  induction a with
  | zero => simp [above]
  | succ a ih =>
    have := ih (by omega)
    simp only [above]
    have h1 : (a + 1) * (a + 1) = a * a + 2 * a + 1 := by ring
    have h2 : (a + 1) * n = a * n + n := by ring
    rw [h1, h2]
    omega

theorem above_pos (n a b : ℕ) (hab : a ≤ b) (hb : b < n) : a * n + b - a * (a + 1) / 2 = above n a + (b - a) := by
  have h := above_eq n a (by omega)
  have hev : 2 ∣ a * (a + 1) := (Nat.even_mul_succ_self a).two_dvd
  obtain ⟨c, hc⟩ := hev
  have h1 : a * (a + 1) = a * a + a := by ring
  rw [hc, Nat.mul_div_cancel_left _ (by norm_num)]
  omega

theorem above_le (n : ℕ) : above n n = n * (n + 1) / 2 := by
  have h := above_eq n n le_rfl
  have hev : 2 ∣ n * (n + 1) := (Nat.even_mul_succ_self n).two_dvd
  obtain ⟨c, hc⟩ := hev
  have h1 : n * (n + 1) = n * n + n := by ring
  rw [hc, Nat.mul_div_cancel_left _ (by norm_num)]
  omega

/-- The rows above `m` of the upper triangle. -/
def triuTo (n m : ℕ) : List (ℕ × ℕ) := (List.range m).flatMap fun a => (List.range' a (n - a)).map fun b => (a, b)

theorem triuTo_succ (n m : ℕ) : triuTo n (m + 1) = triuTo n m ++ (List.range' m (n - m)).map fun b => (m, b) := by
  unfold triuTo
  rw [List.range_succ, List.flatMap_append]
  simp

theorem triuTo_length (n m : ℕ) : (triuTo n m).length = above n m := by
  induction m with
  | zero => rfl
  | succ m ih => rw [triuTo_succ, List.length_append, ih]; simp [above]

theorem triuTo_get (n m a b : ℕ) (ha : a < m) (hab : a ≤ b) (hb : b < n) :
    (triuTo n m)[above n a + (b - a)]? = some (a, b) := by
  induction m with
  | zero => omega
  | succ m ih =>
    rw [triuTo_succ]
    by_cases h : a = m
    · subst h
      rw [List.getElem?_append_right (by rw [triuTo_length]; omega), triuTo_length, Nat.add_sub_cancel_left,
        List.getElem?_map, List.getElem?_range' (by omega)]
      simp only [Option.map_some, Option.some.injEq, Prod.mk.injEq, true_and]
      omega
    · have hlt : above n a + (b - a) < (triuTo n m).length := by
        by_contra hc
        have := ih (by omega)
        rw [List.getElem?_eq_none (by omega)] at this
        simp at this
      rw [List.getElem?_append_left hlt]
      exact ih (by omega)

theorem triu_eq (n : ℕ) : triuIndices n 0 = triuTo n n := rfl

theorem triu_length (n : ℕ) : (triuIndices n 0).length = n * (n + 1) / 2 := by
  rw [triu_eq, triuTo_length, above_le]

/-- Entry `(i, j)` of the lower triangle is at position `j * n + i - j * (j + 1) / 2` of the half-vectorization. -/
theorem triu_get (n i j : ℕ) (hji : j ≤ i) (hi : i < n) :
    (triuIndices n 0)[j * n + i - j * (j + 1) / 2]? = some (j, i) := by
  rw [above_pos n j i hji hi, triu_eq]
  exact triuTo_get n n j i (by omega) hji hi

theorem mem_triu (n k a b : ℕ) : (a, b) ∈ triuIndices n k ↔ a + k ≤ b ∧ b < n := by
  unfold triuIndices
  rw [List.mem_flatMap]
  constructor
  · rintro ⟨a', ha', h⟩
    rw [List.mem_map] at h
    obtain ⟨b', hb', he⟩ := h
    simp only [Prod.mk.injEq] at he
    rw [List.mem_range'_1] at hb'
    omega
  · rintro ⟨h1, h2⟩
    refine ⟨a, List.mem_range.2 (by omega), ?_⟩
    rw [List.mem_map]
    exact ⟨b, by rw [List.mem_range'_1]; omega, rfl⟩

theorem nodup_triu (n k : ℕ) : (triuIndices n k).Nodup := by
  unfold triuIndices
  rw [List.nodup_flatMap]
  refine ⟨fun a _ => List.Nodup.map (fun b c h => (Prod.mk.inj h).2) List.nodup_range', ?_⟩
  refine List.Pairwise.imp ?_ (List.nodup_range (n := n))
  intro a a' hne p hp hp'
  rw [List.mem_map] at hp hp'
  obtain ⟨b, _, rfl⟩ := hp
  obtain ⟨b', _, h⟩ := hp'
  exact hne (Prod.mk.inj h).1.symm

theorem pos_inj (n i j i' j' : ℕ) (hji : j ≤ i) (hi : i < n) (hji' : j' ≤ i') (hi' : i' < n)
    (h : j * n + i - j * (j + 1) / 2 = j' * n + i' - j' * (j' + 1) / 2) : i = i' ∧ j = j' := by
  have h1 := triu_get n i j hji hi
  rw [h, triu_get n i' j' hji' hi'] at h1
  simp only [Option.some.injEq, Prod.mk.injEq] at h1
  exact ⟨h1.2.symm, h1.1.symm⟩

theorem pos_lt (n i j : ℕ) (hji : j ≤ i) (hi : i < n) : j * n + i - j * (j + 1) / 2 < n * (n + 1) / 2 := by
  have h1 := triu_get n i j hji hi
  exact lt_of_lt_of_eq (List.getElem?_eq_some_iff.1 h1).1 (triu_length n)

/-- `x` read as a half-vectorization: the entry of the lower triangle at row `i` and column `j`. -/
theorem vech_get {α : Type} [Zero α] (n : ℕ) (x : ℕ → ℕ → α) (i j : ℕ) (hji : j ≤ i) (hi : i < n) :
    (vech n x).getD (j * n + i - j * (j + 1) / 2) 0 = x i j := by
  unfold vech
  rw [List.getD, List.getElem?_map, triu_get n i j hji hi]
  rfl

theorem scatter_spec {α : Type} [Zero α] (base : ℕ → ℕ → α) (idx : List (ℕ × ℕ)) (vals : List α) (hlen : idx.length = vals.length) (hnd : idx.Nodup)
    (i j : ℕ) :
    (∀ k, idx[k]? = some (i, j) → scatter base idx vals i j = vals.getD k 0) ∧
    ((i, j) ∉ idx → scatter base idx vals i j = base i j) := by
  unfold scatter
  induction idx generalizing base vals with
  | nil => simp
  | cons p idx ih =>
    cases vals with
    | nil => simp at hlen
    | cons v vals =>
      rw [List.nodup_cons] at hnd
      rw [List.zip_cons_cons, List.foldl_cons]
      obtain ⟨ih1, ih2⟩ := ih (fun a b => if (a, b) = p then v else base a b) vals (by simpa using hlen) hnd.2
      constructor
      · intro k hk
        cases k with
        | zero =>
          simp only [List.getElem?_cons_zero, Option.some.injEq] at hk
          rw [ih2 (hk ▸ hnd.1), if_pos hk.symm]
          rfl
        | succ k =>
          simp only [List.getElem?_cons_succ] at hk
          rw [ih1 k hk]
          rfl
      · intro hn
        rw [List.mem_cons, not_or] at hn
        rw [ih2 hn.2, if_neg hn.1]

/-! ## C38 -/

theorem vec_unit (n p : ℕ) : vec n (unitMat (p % n) (p / n)) p = 1 := if_pos ⟨rfl, rfl⟩

theorem vec_unit_zero (n i j p : ℕ) (h : ¬(p % n = i ∧ p / n = j)) : vec n (unitMat i j) p = 0 := if_neg h

/-- An entry of the elimination matrix. -/
theorem elimination_entry (n r p : ℕ) (hp : p < n ^ 2) :
    eliminationMatrix n r p =
      if p / n ≤ p % n ∧ r = p / n * n + p % n - p / n * (p / n + 1) / 2 then 1 else 0 := by
  have hn : 0 < n := by
    rcases Nat.eq_zero_or_pos n with h | h
    · subst h; simp at hp
    · exact h
  have hm : p % n < n := Nat.mod_lt _ hn
  have hd : p / n < n := by rw [Nat.div_lt_iff_lt_mul hn]; simpa [sq] using hp
  unfold eliminationMatrix
  rw [Finset.sum_eq_single (p % n)]
  · by_cases hle : p / n ≤ p % n
    · rw [Finset.sum_eq_single (p / n)]
      · rw [vec_unit, mul_one]
        by_cases hr : r = p / n * n + p % n - p / n * (p / n + 1) / 2
        · rw [if_pos hr, if_pos ⟨hle, hr⟩]
        · rw [if_neg hr, if_neg (fun h => hr h.2)]
      · intro j _ hj
        rw [vec_unit_zero _ _ _ _ (fun h => hj h.2.symm), mul_zero]
      · intro h
        exact absurd (Finset.mem_range.2 (by omega)) h
    · rw [if_neg (fun h => hle h.1)]
      apply Finset.sum_eq_zero
      intro j hj
      rw [Finset.mem_range] at hj
      rw [vec_unit_zero _ _ _ _ (fun h => by omega), mul_zero]
  · intro i _ hi
    apply Finset.sum_eq_zero
    intro j _
    rw [vec_unit_zero _ _ _ _ (fun h => hi h.1.symm), mul_zero]
  · intro h
    exact absurd (Finset.mem_range.2 hm) h

/-- The position in `vec` of row `i` and column `j`. -/
theorem vec_pos (n i j : ℕ) (hi : i < n) (hj : j < n) : j * n + i < n ^ 2 ∧ (j * n + i) % n = i ∧ (j * n + i) / n = j := by
  refine ⟨?_, ?_, ?_⟩
  · have : (j + 1) * n ≤ n * n := Nat.mul_le_mul_right n hj
    rw [sq]
    have h2 : (j + 1) * n = j * n + n := by ring
    omega
  · rw [Nat.mul_comm, Nat.mul_add_mod]; exact Nat.mod_eq_of_lt hi
  · rw [Nat.mul_comm, Nat.mul_add_div (by omega), Nat.div_eq_of_lt hi, Nat.add_zero]

theorem vec_pos_eq (n p i j : ℕ) (hi : p % n = i) (hj : p / n = j) : p = j * n + i := by
  rw [← hi, ← hj, Nat.mul_comm]; exact (Nat.div_add_mod p n).symm

/-- **C38.** For every matrix `x`, the elimination matrix times `vec(x)` is `vech(x)`. -/
theorem C38_elimination (n : ℕ) (x : Mat) (r : ℕ) (hr : r < n * (n + 1) / 2) :
    ∑ p ∈ Finset.range (n ^ 2), eliminationMatrix n r p * vec n x p = (vech n x).getD r 0 := by
  have hlen : r < (triuIndices n 0).length := by rw [triu_length]; exact hr
  obtain ⟨⟨j, i⟩, hji⟩ : ∃ q, (triuIndices n 0)[r]? = some q := ⟨_, List.getElem?_eq_getElem hlen⟩
  have hmem : (j, i) ∈ triuIndices n 0 := List.mem_of_getElem? hji
  rw [mem_triu] at hmem
  have hpos : r = j * n + i - j * (j + 1) / 2 := by
    have h2 := triu_get n i j (by omega) hmem.2
    exact (List.getElem?_inj hlen (nodup_triu n 0)).1 (hji.trans h2.symm)
  obtain ⟨h1, h2, h3⟩ := vec_pos n i j hmem.2 (by omega)
  rw [Finset.sum_eq_single (j * n + i)]
  · rw [elimination_entry n r _ h1, h2, h3, if_pos ⟨by omega, hpos⟩, one_mul, hpos, vech_get n x i j (by omega) hmem.2]
    unfold vec
    rw [h2, h3]
  · intro p hp hne
    rw [elimination_entry n r p (Finset.mem_range.1 hp), if_neg, zero_mul]
    rintro ⟨ha, hb⟩
    rw [hpos] at hb
    have hp' := Finset.mem_range.1 hp
    have hn : 0 < n := by omega
    obtain ⟨e1, e2⟩ := pos_inj n i j (p % n) (p / n) (by omega) hmem.2 ha (Nat.mod_lt _ hn) hb
    exact hne (vec_pos_eq n p i j e1.symm e2.symm)
  · intro h
    exact absurd (Finset.mem_range.2 h1) h

/-- An entry of the commutation matrix. -/
theorem commutation_entry (n p q : ℕ) (hp : p < n ^ 2) (hq : q < n ^ 2) :
    commutationMatrix n p q = if p / n = q % n ∧ q / n = p % n then 1 else 0 := by
  have hn : 0 < n := by
    rcases Nat.eq_zero_or_pos n with h | h
    · subst h; simp at hp
    · exact h
  have hd : p / n < n := by rw [Nat.div_lt_iff_lt_mul hn]; simpa [sq] using hp
  have hd' : q / n < n := by rw [Nat.div_lt_iff_lt_mul hn]; simpa [sq] using hq
  unfold commutationMatrix kron unitMat
  rw [Finset.sum_eq_single (p / n)]
  · rw [Finset.sum_eq_single (q / n)]
    · rw [if_pos ⟨rfl, rfl⟩, one_mul]
      by_cases h : p / n = q % n ∧ q / n = p % n
      · rw [if_pos h]
        exact if_pos ⟨h.1.symm, h.2.symm⟩
      · rw [if_neg h]
        exact if_neg (fun h' => h ⟨h'.1.symm, h'.2.symm⟩)
    · intro j _ hj
      rw [if_neg (fun h => hj h.2.symm), zero_mul]
    · intro h; exact absurd (Finset.mem_range.2 hd') h
  · intro i _ hi
    apply Finset.sum_eq_zero
    intro j _
    rw [if_neg (fun h => hi h.1.symm), zero_mul]
  · intro h; exact absurd (Finset.mem_range.2 hd) h

/-- Multiplying by the commutation matrix exchanges rows and columns. -/
theorem commutation_mul (n : ℕ) (f : ℕ → ℝ) (p : ℕ) (hp : p < n ^ 2) :
    ∑ q ∈ Finset.range (n ^ 2), commutationMatrix n p q * f q = f (p % n * n + p / n) := by
  have hn : 0 < n := by
    rcases Nat.eq_zero_or_pos n with h | h
    · subst h; simp at hp
    · exact h
  have hd : p / n < n := by rw [Nat.div_lt_iff_lt_mul hn]; simpa [sq] using hp
  obtain ⟨h1, h2, h3⟩ := vec_pos n (p / n) (p % n) hd (Nat.mod_lt _ hn)
  rw [Finset.sum_eq_single (p % n * n + p / n)]
  · rw [commutation_entry n p _ hp h1, h2, h3, if_pos ⟨rfl, rfl⟩, one_mul]
  · intro q hq hne
    rw [commutation_entry n p q hp (Finset.mem_range.1 hq), if_neg, zero_mul]
    rintro ⟨ha, hb⟩
    exact hne (vec_pos_eq n q _ _ ha.symm hb)
  · intro h; exact absurd (Finset.mem_range.2 h1) h

/-- **C38.** For every matrix `x`, the commutation matrix times `vec(x)` is `vec` of the transpose. -/
theorem C38_commutation (n : ℕ) (x : Mat) (p : ℕ) (hp : p < n ^ 2) :
    ∑ q ∈ Finset.range (n ^ 2), commutationMatrix n p q * vec n x q = vec n (fun i j => x j i) p := by
  have hn : 0 < n := by
    rcases Nat.eq_zero_or_pos n with h | h
    · subst h; simp at hp
    · exact h
  have hd : p / n < n := by rw [Nat.div_lt_iff_lt_mul hn]; simpa [sq] using hp
  obtain ⟨h1, h2, h3⟩ := vec_pos n (p / n) (p % n) hd (Nat.mod_lt _ hn)
  rw [commutation_mul n _ p hp]
  unfold vec
  rw [h2, h3]

/-- Multiplying by the transpose of the elimination matrix puts a half-vectorization into the lower triangle. -/
theorem eliminationT_mul (n : ℕ) (f : ℕ → ℝ) (p : ℕ) (hp : p < n ^ 2) :
    ∑ r ∈ Finset.range (n * (n + 1) / 2), eliminationMatrix n r p * f r =
      if p / n ≤ p % n then f (p / n * n + p % n - p / n * (p / n + 1) / 2) else 0 := by
  have hn : 0 < n := by
    rcases Nat.eq_zero_or_pos n with h | h
    · subst h; simp at hp
    · exact h
  by_cases hle : p / n ≤ p % n
  · rw [if_pos hle, Finset.sum_eq_single (p / n * n + p % n - p / n * (p / n + 1) / 2)]
    · rw [elimination_entry n _ p hp, if_pos ⟨hle, rfl⟩, one_mul]
    · intro r _ hr
      rw [elimination_entry n r p hp, if_neg (fun h => hr h.2), zero_mul]
    · intro h
      exact absurd (Finset.mem_range.2 (pos_lt n (p % n) (p / n) hle (Nat.mod_lt _ hn))) h
  · rw [if_neg hle]
    apply Finset.sum_eq_zero
    intro r _
    rw [elimination_entry n r p hp, if_neg (fun h => hle h.1), zero_mul]

/-- Multiplying by the elimination matrix picks the lower triangle. -/
theorem elimination_mul (n : ℕ) (f : ℕ → ℝ) (i j : ℕ) (hji : j ≤ i) (hi : i < n) :
    ∑ p ∈ Finset.range (n ^ 2), eliminationMatrix n (j * n + i - j * (j + 1) / 2) p * f p = f (j * n + i) := by
  have h := C38_elimination n (fun a b => f (b * n + a)) (j * n + i - j * (j + 1) / 2) (pos_lt n i j hji hi)
  rw [vech_get n _ i j hji hi] at h
  rw [← h]
  apply Finset.sum_congr rfl
  intro p _
  unfold vec
  simp only
  rw [Nat.mul_comm (p / n) n, Nat.div_add_mod]

theorem matMul_mulVec (m h : ℕ) (a b : Mat) (v : ℕ → ℝ) (p : ℕ) :
    ∑ r ∈ Finset.range h, matMul m a b p r * v r =
      ∑ k ∈ Finset.range m, a p k * ∑ r ∈ Finset.range h, b k r * v r := by
  simp only [matMul, Finset.sum_mul, Finset.mul_sum]
  rw [Finset.sum_comm]
  simp only [mul_assoc]

/-- **C38.** For every symmetric matrix `x`, the duplication matrix times `vech(x)` is `vec(x)`. -/
theorem C38_duplication (n : ℕ) (x : Mat) (hx : ∀ i j, i < n → j < n → x i j = x j i) (p : ℕ) (hp : p < n ^ 2) :
    ∑ r ∈ Finset.range (n * (n + 1) / 2), duplicationMatrix n p r * (vech n x).getD r 0 = vec n x p := by
  have hn : 0 < n := by
    rcases Nat.eq_zero_or_pos n with h | h
    · subst h; simp at hp
    · exact h
  have hd : p / n < n := by rw [Nat.div_lt_iff_lt_mul hn]; simpa [sq] using hp
  have hm : p % n < n := Nat.mod_lt _ hn
  set v := fun r => (vech n x).getD r 0 with hv
  -- the lower triangle of x
  set lower := fun p => if p / n ≤ p % n then v (p / n * n + p % n - p / n * (p / n + 1) / 2) else 0 with hlower
  have hlow : ∀ p < n ^ 2, ∑ r ∈ Finset.range (n * (n + 1) / 2), matT (eliminationMatrix n) p r * v r = lower p := by
    intro p hp; exact eliminationT_mul n v p hp
  have hKL : ∀ p < n ^ 2, ∑ r ∈ Finset.range (n * (n + 1) / 2),
      matMul (n ^ 2) (commutationMatrix n) (matT (eliminationMatrix n)) p r * v r = lower (p % n * n + p / n) := by
    intro p hp
    rw [matMul_mulVec, ← commutation_mul n lower p hp]
    apply Finset.sum_congr rfl
    intro q hq
    rw [hlow q (Finset.mem_range.1 hq)]
  have hLL : ∀ (f : ℕ → ℝ) p, p < n ^ 2 → ∑ q ∈ Finset.range (n ^ 2),
      matMul (n * (n + 1) / 2) (matT (eliminationMatrix n)) (eliminationMatrix n) p q * f q =
        if p / n ≤ p % n then f p else 0 := by
    intro f p hp
    have hd : p / n < n := by rw [Nat.div_lt_iff_lt_mul hn]; simpa [sq] using hp
    rw [matMul_mulVec]
    have := eliminationT_mul n (fun r => ∑ q ∈ Finset.range (n ^ 2), eliminationMatrix n r q * f q) p hp
    unfold matT
    rw [this]
    by_cases hle : p / n ≤ p % n
    · rw [if_pos hle, if_pos hle, elimination_mul n f (p % n) (p / n) hle (Nat.mod_lt _ hn)]
      rw [← vec_pos_eq n p (p % n) (p / n) rfl rfl]
    · rw [if_neg hle, if_neg hle]
  have hLLK : ∑ r ∈ Finset.range (n * (n + 1) / 2),
      matMul (n ^ 2) (matMul (n ^ 2) (matMul (n * (n + 1) / 2) (matT (eliminationMatrix n)) (eliminationMatrix n))
        (commutationMatrix n)) (matT (eliminationMatrix n)) p r * v r =
      if p / n ≤ p % n then lower (p % n * n + p / n) else 0 := by
    rw [← hLL (fun q => lower (q % n * n + q / n)) p hp, matMul_mulVec]
    have h1 : ∀ k ∈ Finset.range (n ^ 2), matMul (n ^ 2) (matMul (n * (n + 1) / 2) (matT (eliminationMatrix n))
        (eliminationMatrix n)) (commutationMatrix n) p k *
          ∑ r ∈ Finset.range (n * (n + 1) / 2), matT (eliminationMatrix n) k r * v r =
        matMul (n ^ 2) (matMul (n * (n + 1) / 2) (matT (eliminationMatrix n)) (eliminationMatrix n))
          (commutationMatrix n) p k * lower k := by
      intro k hk
      rw [hlow k (Finset.mem_range.1 hk)]
    rw [Finset.sum_congr rfl h1, matMul_mulVec]
    apply Finset.sum_congr rfl
    intro k hk
    rw [commutation_mul n lower k (Finset.mem_range.1 hk)]
  have htotal : ∑ r ∈ Finset.range (n * (n + 1) / 2), duplicationMatrix n p r * v r =
      lower p + lower (p % n * n + p / n) - if p / n ≤ p % n then lower (p % n * n + p / n) else 0 := by
    rw [← hLLK, ← hlow p hp, ← hKL p hp, ← Finset.sum_add_distrib, ← Finset.sum_sub_distrib]
    apply Finset.sum_congr rfl
    intro r _
    unfold duplicationMatrix
    ring
  rw [htotal]
  obtain ⟨h1, h2, h3⟩ := vec_pos n (p / n) (p % n) hd hm
  have hvx : ∀ i j, j ≤ i → i < n → v (j * n + i - j * (j + 1) / 2) = x i j := fun i j hji hi => vech_get n x i j hji hi
  unfold vec
  by_cases hle : p / n ≤ p % n
  · rw [if_pos hle]
    simp only [hlower]
    rw [if_pos hle, hvx _ _ hle hm]
    ring
  · rw [if_neg hle]
    simp only [hlower]
    rw [if_neg hle, h2, h3, if_pos (by omega), hvx _ _ (by omega) hd, hx _ _ hd hm]
    ring

/-- **C38.** `vech_to_lower` inverts `vech` on lower-triangular matrices. -/
theorem C38_lower {α : Type} [Zero α] (n : ℕ) (x : ℕ → ℕ → α) (hx : ∀ i j, i < j → x i j = 0) (i j : ℕ) (hi : i < n) :
    vechToLower (vech n x) n i j = x i j := by
  unfold vechToLower
  have hlen : (triuIndices n 0).length = (vech n x).length := by simp [vech]
  obtain ⟨h1, h2⟩ := scatter_spec (fun _ _ => 0) _ _ hlen (nodup_triu n 0) j i
  by_cases hji : j ≤ i
  · rw [h1 _ (triu_get n i j hji hi), vech_get n x i j hji hi]
  · rw [h2 (by rw [mem_triu]; omega), hx i j (by omega)]

/-- **C38.** `vech_to_full` inverts `vech` on symmetric matrices. -/
theorem C38_full {α : Type} [Zero α] (n : ℕ) (x : ℕ → ℕ → α) (hx : ∀ i j, i < n → j < n → x i j = x j i) (i j : ℕ) (hi : i < n) (hj : j < n) :
    vechToFull (vech n x) n i j = x i j := by
  have hlow : ∀ i j, j ≤ i → i < n → vechToLower (vech n x) n i j = x i j := by
    intro i j hji hi
    have hlen : (triuIndices n 0).length = (vech n x).length := by simp [vech]
    have := (scatter_spec (fun _ _ => 0) _ _ hlen (nodup_triu n 0) j i).1 _ (triu_get n i j hji hi)
    unfold vechToLower
    rw [this, vech_get n x i j hji hi]
  unfold vechToFull
  obtain ⟨h1, h2⟩ := scatter_spec (vechToLower (vech n x) n) (triuIndices n 1)
    ((triuIndices n 1).map fun p => vechToLower (vech n x) n p.2 p.1) (by simp) (nodup_triu n 1) i j
  by_cases hij : i < j
  · have hmem : (i, j) ∈ triuIndices n 1 := by rw [mem_triu]; omega
    obtain ⟨k, hk⟩ := List.getElem?_of_mem hmem
    rw [h1 k hk, List.getD, List.getElem?_map, hk]
    simp only [Option.map_some, Option.getD_some]
    rw [hlow j i hij.le hj, hx j i hj hi]
  · rw [h2 (by rw [mem_triu]; omega), hlow i j (by omega) hi]

/-- **C38.** Conversely, `vech` of what `vech_to_lower` builds gives back the vector. -/
theorem C38_vech_lower {α : Type} [Zero α] (n : ℕ) (v : List α) (hv : v.length = n * (n + 1) / 2) : vech n (vechToLower v n) = v := by
  have hlen : (triuIndices n 0).length = v.length := by rw [triu_length, hv]
  unfold vech
  apply List.ext_getElem
  · simp [hlen]
  · intro k h1 h2
    rw [List.getElem_map]
    have hk : k < (triuIndices n 0).length := by simpa using h1
    have := (scatter_spec (fun _ _ => 0) _ _ hlen (nodup_triu n 0) (triuIndices n 0)[k].1 (triuIndices n 0)[k].2).1 k
      (List.getElem?_eq_getElem hk)
    change scatter _ _ _ _ _ = _
    rw [this, List.getD, List.getElem?_eq_getElem h2, Option.getD_some]

/-- A symmetric matrix that is not diagonal. -/
example : vech 2 (fun i j => i + j : Mat) = [0, 1, 2] := by
  norm_num [vech, triuIndices, List.range_succ, List.range'_succ]

/-! ## C39 -/

/-- **C39, refutation.** If the matrix cannot be inverted and the pseudo-inverse is used instead, the caller is told nothing. -/
theorem C39_refuted {α : Type} (nan pinv : α) (diag : Attempt α) :
    approximatelyInvert nan false .linAlgError (.ok pinv) diag = (pinv, none) := rfl

/-- Nor if the inverted diagonal is used. -/
theorem C39_refuted_diagonal {α : Type} (nan d : α) (pseudo : Bool) :
    approximatelyInvert nan pseudo .linAlgError .linAlgError (.ok d) = (d, none) := by
  cases pseudo <;> rfl

/-- **C39 (partial).** What the caller is told identifies null values: a replacement is reported exactly when no routine
returned anything, and then the result is null values. (It does not identify the fallbacks, `C39_refuted`, and when every routine
fails to converge the report names the inverted diagonal, which is not what is returned.) -/
theorem C39_null_partial {α : Type} (nan : α) (pseudo : Bool) (inv pinv diag : Attempt α) :
    let r := approximatelyInvert nan pseudo inv pinv diag
    (r.2 ≠ none → r.1 = nan) ∧
    (r.2 = none → (inv = .ok r.1 ∧ pseudo = false) ∨ pinv = .ok r.1 ∨ diag = .ok r.1) := by
  cases pseudo <;> cases inv <;> cases pinv <;> cases diag <;> simp [approximatelyInvert, tryMethods]

/-- **C39 (partial).** A `ValueError` (an invalid input such as NaN) is always reported as null values. -/
theorem C39_value_error_partial {α : Type} (nan : α) (pinv diag : Attempt α) :
    approximatelyInvert nan false .valueError pinv diag = (nan, some .nullValues) ∧
    approximatelyInvert nan true pinv .valueError diag = (nan, some .nullValues) := ⟨rfl, rfl⟩

/-- When every routine fails, the report does not name what is returned. -/
theorem C39_wrong_name {α : Type} (nan : α) (pseudo : Bool) :
    approximatelyInvert nan pseudo .linAlgError .linAlgError .linAlgError = (nan, some .diagonal) := by
  cases pseudo <;> rfl

/-- **C39 (partial).** Solving a system reports exactly what inverting reports, and nothing if solving succeeds. -/
theorem C39_solve_partial {α β : Type} (nan : α) (apply : α → β) (pseudo : Bool) (solve : Attempt β)
    (inv pinv diag : Attempt α) :
    (∀ solved, solve = .ok solved → approximatelySolve nan apply pseudo solve inv pinv diag = (solved, none)) ∧
    ((∀ solved, solve ≠ .ok solved) → approximatelySolve nan apply pseudo solve inv pinv diag =
      (apply (approximatelyInvert nan pseudo inv pinv diag).1, (approximatelyInvert nan pseudo inv pinv diag).2)) := by
  constructor
  · rintro solved rfl; rfl
  · intro h
    cases solve with
    | ok s => exact absurd rfl (h s)
    | valueError => rfl
    | linAlgError => rfl

end Pyblp
