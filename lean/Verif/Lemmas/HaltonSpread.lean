import Mathlib.Data.Int.CardIntervalMod
import Mathlib.Data.Nat.ChineseRemainder
import Verif.Props.Halton
import Verif.Spec.QuasiRandom

/-!
# Counting Halton points in boxes
-/

namespace Pyblp

lemma leadingInteger_mod (base : ℕ) (permutations : ℕ → ℕ → ℕ) (j iteration i i' : ℕ) (h : i % base ^ j = i' % base ^ j) :
    leadingInteger base permutations iteration i j = leadingInteger base permutations iteration i' j := by
  induction j generalizing iteration i i' with
  | zero => rfl
  | succ j ih =>
    rw [leadingInteger, leadingInteger]
    rw [pow_succ', Nat.mod_mul, Nat.mod_mul] at h
    have h1 : i % base = i' % base := by
      have := congrArg (· % base) h
      simpa [Nat.add_mul_mod_self_left] using this
    rw [h1] at h ⊢
    rcases Nat.eq_zero_or_pos base with rfl | hb
    · simp
    · have h2 : i / base % base ^ j = i' / base % base ^ j := Nat.eq_of_mul_eq_mul_left hb (by omega)
      rw [ih (iteration + 1) _ _ h2]

/-- Values are in an interval if and only if the index has a particular remainder. -/
lemma exists_remainder {base : ℕ} (hb : 2 ≤ base) {permutations : ℕ → ℕ → ℕ} (hp : ∀ k, ∀ d < base, permutations k d < base)
    (hinj : ∀ k, ∀ d < base, ∀ d' < base, permutations k d = permutations k d' → d = d') {k : ℕ} (hk : base ^ k < 2 ^ 54) {a : ℕ} (ha : a < base ^ k) :
    ∃ c, ∀ i, ((a : ℝ) / ((base ^ k : ℕ) : ℝ) ≤ haltonValue base permutations i ∧ haltonValue base permutations i < ((a : ℝ) + 1) / ((base ^ k : ℕ) : ℝ)) ↔
      i ≡ c [MOD base ^ k] := by
  obtain ⟨n, hn, _, hv⟩ := exists_iterations base hb
  have hkn : k ≤ n := by
    by_contra hlt
    have : base ^ (n + 1) ≤ base ^ k := Nat.pow_le_pow_right (by omega) (by omega)
    omega
  have hpos : 0 < base ^ k := Nat.pow_pos (by omega)
  have hposR : (0 : ℝ) < (base : ℝ) ^ k := by exact_mod_cast hpos
  have hiff : ∀ i, ((a : ℝ) / (base : ℝ) ^ k ≤ haltonValue base permutations i ∧ haltonValue base permutations i < ((a : ℝ) + 1) / (base : ℝ) ^ k) ↔
      leadingInteger base permutations 0 i k = a := by
    intro i
    rw [hv]
    obtain ⟨h1, h2⟩ := digitSum_leading base hb permutations hp k n 0 i hkn
    constructor
    · rintro ⟨h3, h4⟩
      have h5 : (leadingInteger base permutations 0 i k : ℝ) < (a : ℝ) + 1 := by
        have := lt_of_le_of_lt h1 h4
        rwa [div_lt_div_iff_of_pos_right hposR] at this
      have h6 : (a : ℝ) < (leadingInteger base permutations 0 i k : ℝ) + 1 := by
        have := lt_of_le_of_lt h3 h2
        rwa [div_lt_div_iff_of_pos_right hposR] at this
      have h5' : leadingInteger base permutations 0 i k < a + 1 := by exact_mod_cast h5
      have h6' : a < leadingInteger base permutations 0 i k + 1 := by exact_mod_cast h6
      omega
    · intro h
      rw [← h]
      exact ⟨h1, h2⟩
  obtain ⟨c, ⟨-, hc⟩, -⟩ := C60_stratified base hb permutations hp hinj k hk 0 a ha
  have hc' := (hiff c).mp hc
  refine ⟨c, fun i => ?_⟩
  push_cast
  rw [hiff i]
  constructor
  · intro h
    exact leadingInteger_inj base hb permutations hp hinj k 0 i c (h.trans hc'.symm)
  · intro h
    rw [← hc']
    exact leadingInteger_mod base permutations k 0 i c h

/-- How many numbers in an interval have a remainder. -/
lemma count_remainder {M : ℕ} (hM : 0 < M) (start n c : ℕ) :
    |(((Finset.Ico start (start + n)).filter fun i => i ≡ c [MOD M]).card : ℝ) - n / M| < 1 := by
  have h := Nat.Ico_filter_modEq_card start (start + n) hM c
  have hMq : (0 : ℚ) < M := by exact_mod_cast hM
  set A : ℚ := ((start : ℚ) - c) / M with hA
  have e : (((start + n : ℕ) : ℚ) - c) / M = A + n / M := by
    rw [hA]
    push_cast
    ring
  rw [e] at h
  have h1 : ⌈A⌉ ≤ ⌈A + n / M⌉ := Int.ceil_mono (by
    have : (0 : ℚ) ≤ n / M := by positivity
    linarith)
  rw [max_eq_left (by omega)] at h
  have h2 := Int.ceil_lt_add_one A
  have h3 := Int.le_ceil A
  have h4 := Int.ceil_lt_add_one (A + n / M)
  have h5 := Int.le_ceil (A + n / M)
  have h6 : (((Finset.Ico start (start + n)).filter fun i => i ≡ c [MOD M]).card : ℚ) = (⌈A + n / M⌉ : ℚ) - ⌈A⌉ := by exact_mod_cast h
  have h7 : |(((Finset.Ico start (start + n)).filter fun i => i ≡ c [MOD M]).card : ℚ) - n / M| < 1 := by
    rw [h6, abs_lt]
    constructor <;> linarith
  have h8 : (((|(((Finset.Ico start (start + n)).filter fun i => i ≡ c [MOD M]).card : ℚ) - n / M| : ℚ)) : ℝ) < ((1 : ℚ) : ℝ) := Rat.cast_lt.mpr h7
  push_cast at h8
  exact h8

/-- Bases of different dimensions have no common divisors. -/
lemma base_coprime {d : ℕ} {base : Fin d → ℕ} (h : ∀ j : Fin d, getPrime j = .ok (base j)) :
    (∀ j, (base j).Prime) ∧ Pairwise fun j j' => Nat.Coprime (base j) (base j') := by
  have hget : ∀ j : Fin d, ((List.range 1000).filter fun n => decide n.Prime)[(j : ℕ)]? = some (base j) := by
    intro j
    have h1 := h j
    rw [C60_primes] at h1
    revert h1
    generalize ((List.range 1000).filter fun n => decide n.Prime)[(j : ℕ)]? = p
    cases p with
    | none =>
      intro h1
      cases h1
    | some p =>
      intro h1
      cases h1
      rfl
  have hprime : ∀ j, (base j).Prime := fun j => by
    have h1 := List.mem_of_getElem? (hget j)
    rw [List.mem_filter] at h1
    exact of_decide_eq_true h1.2
  refine ⟨hprime, fun j j' hjj => (Nat.coprime_primes (hprime j) (hprime j')).mpr fun heq => hjj ?_⟩
  have hnd : ((List.range 1000).filter fun n => decide n.Prime).Nodup := List.Nodup.filter _ List.nodup_range
  have h1 := hget j
  have h2 := hget j'
  obtain ⟨l1, e1⟩ := List.getElem?_eq_some_iff.mp h1
  obtain ⟨l2, e2⟩ := List.getElem?_eq_some_iff.mp h2
  exact Fin.ext ((hnd.getElem_inj_iff (hi := l1) (hj := l2)).mp (e1.trans (heq.trans e2.symm)))

variable {d : ℕ} {base : Fin d → ℕ} {permutations : Fin d → ℕ → ℕ → ℕ}

/-- Points are in a box if and only if the index has a particular remainder. -/
lemma exists_joint_remainder (hbase : ∀ j : Fin d, getPrime j = .ok (base j)) (hp : ∀ j k, ∀ x < base j, permutations j k x < base j)
    (hinj : ∀ j k, ∀ x < base j, ∀ y < base j, permutations j k x = permutations j k y → x = y) {k : Fin d → ℕ} (hk : ∀ j, base j ^ k j < 2 ^ 54)
    {a : Fin d → ℕ} (ha : ∀ j, a j < base j ^ k j) :
    ∃ c, ∀ i, (fun j => haltonValue (base j) (permutations j) i) ∈ Spec.box (fun j => base j ^ k j) a ↔ i ≡ c [MOD ∏ j, base j ^ k j] := by
  obtain ⟨hprime, hco⟩ := base_coprime hbase
  choose c hc using fun j => exists_remainder (hprime j).two_le (hp j) (hinj j) (hk j) (ha j)
  have hco' : Set.Pairwise ↑(Finset.univ : Finset (Fin d)) (Function.onFun Nat.Coprime fun j => base j ^ k j) :=
    fun j _ j' _ hjj => Nat.Coprime.pow _ _ (hco hjj)
  obtain ⟨C, hC⟩ := Nat.chineseRemainderOfFinset c (fun j => base j ^ k j) Finset.univ (fun j _ => (Nat.pow_pos (hprime j).pos).ne') hco'
  refine ⟨C, fun i => ?_⟩
  have h1 : (fun j => haltonValue (base j) (permutations j) i) ∈ Spec.box (fun j => base j ^ k j) a ↔ ∀ j, i ≡ C [MOD base j ^ k j] := by
    refine forall_congr' fun j => (hc j i).trans ?_
    have h2 := hC j (Finset.mem_univ j)
    exact ⟨fun h => h.trans h2.symm, fun h => h.trans h2⟩
  rw [h1]
  constructor
  · intro h
    rw [Nat.modEq_iff_dvd]
    push_cast
    refine Finset.prod_dvd_of_coprime (fun j _ j' _ hjj => ?_) fun j _ => ?_
    · have := Nat.isCoprime_iff_coprime.mpr (Nat.Coprime.pow (k j) (k j') (hco hjj))
      push_cast at this
      exact this
    · exact_mod_cast (Nat.modEq_iff_dvd.mp (h j))
  · intro h j
    exact h.of_dvd (Finset.dvd_prod_of_mem (fun j => base j ^ k j) (Finset.mem_univ j))

end Pyblp
