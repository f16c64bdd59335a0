import Verif.Model.Sequences
import Mathlib.Data.Nat.Digits.Defs
import Mathlib.Data.Nat.Digits.Lemmas
import Mathlib.Data.Nat.Prime.Basic
import Mathlib.Data.Fintype.EquivFin
import Mathlib.Tactic.Ring
import Mathlib.Tactic.Linarith
import Mathlib.Tactic.FieldSimp
import Mathlib.Tactic.NormNum
import Mathlib.Tactic.Positivity

/-!
# Halton sequences and Latin Hypercube Sampling: C60, C77
-/

set_option linter.unusedSectionVars false

namespace Pyblp

namespace Spec

/-- The radical inverse: digits of a number in a base, mirrored at the point. -/
noncomputable def radicalInverse (base index : ℕ) : ℝ := (Nat.digits base index).foldr (fun (digit : ℕ) (rest : ℝ) => ((digit : ℝ) + rest) / base) 0

end Spec

/-- The first `n` digits of an index, permuted and mirrored at the point. -/
noncomputable def digitSum (base : ℕ) (permutations : ℕ → ℕ → ℕ) : ℕ → ℕ → ℕ → ℝ
  | _, _, 0 => 0
  | iteration, index, n + 1 =>
    ((permutations iteration (index % base) : ℝ) + digitSum base permutations (iteration + 1) (index / base) n) / base

theorem factorMatters_iff (base k : ℕ) (hb : 2 ≤ base) : factorMatters (1 / (base : ℝ) ^ k) = true ↔ base ^ k < 2 ^ 54 := by
  have hb0 : (0 : ℝ) < (base : ℝ) ^ k := by
    have : (0 : ℝ) < base := by
      have : 0 < base := by omega
      exact_mod_cast this
    positivity
  unfold factorMatters
  rw [decide_eq_true_iff, one_div_lt_one_div (by positivity) hb0]
  exact_mod_cast Iff.rfl

theorem haltonLoop_eq (base : ℕ) (hb : 2 ≤ base) (permutations : ℕ → ℕ → ℕ) (n : ℕ) (hn : 2 ^ 54 ≤ base ^ (n + 1))
    (hlt : ∀ k < n, base ^ (k + 1) < 2 ^ 54) (r fuel iteration index : ℕ) (value : ℝ) (hi : iteration + r = n) (hf : r ≤ fuel) :
    haltonLoop base permutations fuel iteration (1 / (base : ℝ) ^ (iteration + 1)) index value =
      value + digitSum base permutations iteration index r / (base : ℝ) ^ iteration := by
  have hb0 : (base : ℝ) ≠ 0 := by
    have : base ≠ 0 := by omega
    exact_mod_cast this
  induction r generalizing fuel iteration index value with
  | zero =>
    rw [digitSum, zero_div, add_zero]
    cases fuel with
    | zero => rfl
    | succ f =>
      rw [haltonLoop, if_neg]
      rw [factorMatters_iff base _ hb]
      have : iteration = n := by omega
      rw [this]
      omega
  | succ r ih =>
    obtain ⟨f, rfl⟩ : ∃ f, fuel = f + 1 := ⟨fuel - 1, by omega⟩
    rw [haltonLoop, if_pos ((factorMatters_iff base _ hb).2 (hlt iteration (by omega)))]
    have e : 1 / (base : ℝ) ^ (iteration + 1) / base = 1 / (base : ℝ) ^ (iteration + 1 + 1) := by
      rw [div_div, ← pow_succ]
    rw [e, ih f (iteration + 1) (index / base) _ (by omega) (by omega), digitSum, add_assoc]
    congr 1
    rw [pow_succ]
    field_simp

/-- The number of digits that are used. -/
theorem exists_iterations (base : ℕ) (hb : 2 ≤ base) :
    ∃ n, 2 ^ 54 ≤ base ^ (n + 1) ∧ (∀ k < n, base ^ (k + 1) < 2 ^ 54) ∧
      ∀ permutations index, haltonValue base permutations index = digitSum base permutations 0 index n := by
  have hex : ∃ n, 2 ^ 54 ≤ base ^ (n + 1) := ⟨53, Nat.pow_le_pow_left hb 54⟩
  classical
  refine ⟨Nat.find hex, Nat.find_spec hex, ?_, ?_⟩
  · intro k hk
    have := Nat.find_min hex hk
    omega
  · intro permutations index
    have hle : Nat.find hex ≤ 53 := Nat.find_min' hex (Nat.pow_le_pow_left hb 54)
    have := haltonLoop_eq base hb permutations (Nat.find hex) (Nat.find_spec hex) (by
      intro k hk
      have := Nat.find_min hex hk
      omega) (Nat.find hex) 54 0 index 0 (by omega) (by omega)
    unfold haltonValue
    rw [zero_add, pow_one] at this
    rw [this]
    simp

theorem digitSum_radicalInverse (base : ℕ) (hb : 2 ≤ base) (n iteration index : ℕ) (h : index < base ^ n) :
    digitSum base (fun _ d => d) iteration index n = Spec.radicalInverse base index := by
  induction n generalizing iteration index with
  | zero =>
    have : index = 0 := by simpa using h
    subst this
    simp [digitSum, Spec.radicalInverse]
  | succ n ih =>
    rw [digitSum, ih (iteration + 1) (index / base) (by
      rw [Nat.div_lt_iff_lt_mul (by omega)]
      rwa [pow_succ base n] at h)]
    rcases Nat.eq_zero_or_pos index with rfl | hpos
    · simp [Spec.radicalInverse]
    · unfold Spec.radicalInverse
      rw [Nat.digits_def' (by omega) hpos, List.foldr_cons]

/-- **C60.** Without scrambling, the value for an index is its radical inverse. The loop over digits ends early enough for the condition
to be needed, but indices may be as large as `2 ** 54` divided by the base. -/
theorem C60_radical_inverse (base : ℕ) (hb : 2 ≤ base) (index : ℕ) (h : index * base < 2 ^ 54) :
    haltonValue base (fun _ d => d) index = Spec.radicalInverse base index := by
  obtain ⟨n, hn, _, hv⟩ := exists_iterations base hb
  rw [hv]
  apply digitSum_radicalInverse base hb
  rw [pow_succ base n] at hn
  by_contra hge
  have : base ^ n * base ≤ index * base := Nat.mul_le_mul_right base (by omega)
  omega

theorem digitSum_bounds (base : ℕ) (hb : 2 ≤ base) (permutations : ℕ → ℕ → ℕ)
    (hp : ∀ k, ∀ d < base, permutations k d < base) (n iteration index : ℕ) :
    0 ≤ digitSum base permutations iteration index n ∧ digitSum base permutations iteration index n < 1 := by
  have hb0 : (0 : ℝ) < base := by
    have : 0 < base := by omega
    exact_mod_cast this
  induction n generalizing iteration index with
  | zero => simp [digitSum]
  | succ n ih =>
    obtain ⟨h1, h2⟩ := ih (iteration + 1) (index / base)
    rw [digitSum]
    have h3 : (0 : ℝ) ≤ permutations iteration (index % base) := Nat.cast_nonneg _
    have h4 : (permutations iteration (index % base) : ℝ) + 1 ≤ base := by
      exact_mod_cast hp iteration (index % base) (Nat.mod_lt _ (by omega))
    constructor
    · positivity
    · rw [div_lt_one hb0]
      linarith

/-- **C60.** Values are in `[0, 1)`, also if they are scrambled. -/
theorem C60_unit_interval (base : ℕ) (hb : 2 ≤ base) (permutations : ℕ → ℕ → ℕ)
    (hp : ∀ k, ∀ d < base, permutations k d < base) (index : ℕ) :
    0 ≤ haltonValue base permutations index ∧ haltonValue base permutations index < 1 := by
  obtain ⟨n, _, _, hv⟩ := exists_iterations base hb
  rw [hv]
  exact digitSum_bounds base hb permutations hp n 0 index

theorem digitSum_pos (base : ℕ) (hb : 2 ≤ base) (n iteration index : ℕ) (h : index < base ^ n) (h0 : 0 < index) :
    0 < digitSum base (fun _ d => d) iteration index n := by
  have hb0 : (0 : ℝ) < base := by
    have : 0 < base := by omega
    exact_mod_cast this
  induction n generalizing iteration index with
  | zero =>
    have : index = 0 := by simpa using h
    omega
  | succ n ih =>
    rw [digitSum]
    have hnn := (digitSum_bounds base hb (fun _ d => d) (fun _ _ h => h) n (iteration + 1) (index / base)).1
    rcases Nat.eq_zero_or_pos (index % base) with hm | hm
    · have hd : 0 < index / base := by
        by_contra hd
        have hd0 : index / base = 0 := Nat.eq_zero_of_not_pos hd
        have := Nat.div_add_mod index base
        rw [hd0, hm] at this
        simp at this
        omega
      have := ih (iteration + 1) (index / base) (by
        rw [Nat.div_lt_iff_lt_mul (by omega)]
        rwa [pow_succ base n] at h) hd
      positivity
    · have : (0 : ℝ) < ((index % base : ℕ) : ℝ) := by exact_mod_cast hm
      positivity

/-- **C60.** Without scrambling, values are positive, so that nodes are finite, if at least the first index is discarded. -/
theorem C60_positive (base : ℕ) (hb : 2 ≤ base) (index : ℕ) (h : index * base < 2 ^ 54) (h0 : 0 < index) :
    0 < haltonValue base (fun _ d => d) index := by
  obtain ⟨n, hn, _, hv⟩ := exists_iterations base hb
  rw [hv]
  apply digitSum_pos base hb _ _ _ _ h0
  rw [pow_succ base n] at hn
  by_contra hge
  have : base ^ n * base ≤ index * base := Nat.mul_le_mul_right base (by omega)
  omega

/-- **C60, finding.** With the accepted options `discard=0` and `scramble=False`, the first value in every dimension is zero, for which
the quantile function of the normal distribution is not finite. -/
theorem C60_zero_refuted (base : ℕ) (hb : 2 ≤ base) :
    haltonValue base (fun _ d => d) ((haltonIndices 0 1).headD 1) = 0 := by
  have := C60_radical_inverse base hb 0 (by simp)
  have e : (haltonIndices 0 1).headD 1 = 0 := rfl
  rw [e, this]
  simp [Spec.radicalInverse]

/-! ### Stratification -/

/-- The integer part of a value times a power of the base. -/
def leadingInteger (base : ℕ) (permutations : ℕ → ℕ → ℕ) : ℕ → ℕ → ℕ → ℕ
  | _, _, 0 => 0
  | iteration, index, j + 1 =>
    permutations iteration (index % base) * base ^ j + leadingInteger base permutations (iteration + 1) (index / base) j

theorem leadingInteger_lt (base : ℕ) (hb : 2 ≤ base) (permutations : ℕ → ℕ → ℕ)
    (hp : ∀ k, ∀ d < base, permutations k d < base) (j iteration index : ℕ) :
    leadingInteger base permutations iteration index j < base ^ j := by
  induction j generalizing iteration index with
  | zero => simp [leadingInteger]
  | succ j ih =>
    rw [leadingInteger, pow_succ']
    have h1 := ih (iteration + 1) (index / base)
    have h2 := hp iteration (index % base) (Nat.mod_lt _ (by omega))
    have h3 : (permutations iteration (index % base) + 1) * base ^ j ≤ base * base ^ j := Nat.mul_le_mul_right _ h2
    rw [Nat.add_mul, Nat.one_mul] at h3
    omega

theorem leadingInteger_inj (base : ℕ) (hb : 2 ≤ base) (permutations : ℕ → ℕ → ℕ)
    (hp : ∀ k, ∀ d < base, permutations k d < base)
    (hinj : ∀ k, ∀ d < base, ∀ d' < base, permutations k d = permutations k d' → d = d') (j iteration i i' : ℕ)
    (h : leadingInteger base permutations iteration i j = leadingInteger base permutations iteration i' j) :
    i % base ^ j = i' % base ^ j := by
  induction j generalizing iteration i i' with
  | zero => simp [Nat.mod_one]
  | succ j ih =>
    rw [leadingInteger, leadingInteger] at h
    have hpos : 0 < base ^ j := Nat.pow_pos (by omega)
    have l1 := leadingInteger_lt base hb permutations hp j (iteration + 1) (i / base)
    have l2 := leadingInteger_lt base hb permutations hp j (iteration + 1) (i' / base)
    have hd := congrArg (· / base ^ j) h
    simp only [Nat.mul_comm _ (base ^ j)] at hd
    rw [Nat.mul_add_div hpos, Nat.mul_add_div hpos, Nat.div_eq_of_lt l1, Nat.div_eq_of_lt l2, Nat.add_zero, Nat.add_zero] at hd
    have hm := hinj iteration _ (Nat.mod_lt i (by omega)) _ (Nat.mod_lt i' (by omega)) hd
    rw [hd] at h
    have hr := ih (iteration + 1) (i / base) (i' / base) (by omega)
    rw [pow_succ', Nat.mod_mul, Nat.mod_mul, hm, hr]

theorem digitSum_leading (base : ℕ) (hb : 2 ≤ base) (permutations : ℕ → ℕ → ℕ)
    (hp : ∀ k, ∀ d < base, permutations k d < base) (j n iteration index : ℕ) (hjn : j ≤ n) :
    (leadingInteger base permutations iteration index j : ℝ) / (base : ℝ) ^ j ≤ digitSum base permutations iteration index n ∧
      digitSum base permutations iteration index n <
        ((leadingInteger base permutations iteration index j : ℝ) + 1) / (base : ℝ) ^ j := by
  have hb0 : (0 : ℝ) < base := by
    have : 0 < base := by omega
    exact_mod_cast this
  induction j generalizing n iteration index with
  | zero =>
    have := digitSum_bounds base hb permutations hp n iteration index
    simpa [leadingInteger] using this
  | succ j ih =>
    obtain ⟨n, rfl⟩ : ∃ m, n = m + 1 := ⟨n - 1, by omega⟩
    obtain ⟨h1, h2⟩ := ih n (iteration + 1) (index / base) (by omega)
    have hpj : (0 : ℝ) < (base : ℝ) ^ j := by positivity
    rw [digitSum, leadingInteger]
    push_cast
    rw [pow_succ]
    rw [div_le_iff₀ hpj] at h1
    rw [lt_div_iff₀ hpj] at h2
    constructor
    · rw [div_le_div_iff₀ (by positivity) hb0]
      nlinarith [mul_le_mul_of_nonneg_right h1 hb0.le]
    · rw [div_lt_div_iff₀ hb0 (by positivity)]
      nlinarith [mul_lt_mul_of_pos_right h2 hb0]

/-- **C60.** Any `base ** j` consecutive values, scrambled or not, are stratified: each of the `base ** j` intervals of equal length
contains exactly one of them. -/
theorem C60_stratified (base : ℕ) (hb : 2 ≤ base) (permutations : ℕ → ℕ → ℕ)
    (hp : ∀ k, ∀ d < base, permutations k d < base)
    (hinj : ∀ k, ∀ d < base, ∀ d' < base, permutations k d = permutations k d' → d = d') (j : ℕ) (hj : base ^ j < 2 ^ 54)
    (start k : ℕ) (hk : k < base ^ j) :
    ∃! i, i ∈ haltonIndices start (base ^ j) ∧ (k : ℝ) / (base : ℝ) ^ j ≤ haltonValue base permutations i ∧
      haltonValue base permutations i < ((k : ℝ) + 1) / (base : ℝ) ^ j := by
  obtain ⟨n, hn, _, hv⟩ := exists_iterations base hb
  have hjn : j ≤ n := by
    by_contra hlt
    have : base ^ (n + 1) ≤ base ^ j := Nat.pow_le_pow_right (by omega) (by omega)
    omega
  have hpos : 0 < base ^ j := Nat.pow_pos (by omega)
  have hposR : (0 : ℝ) < (base : ℝ) ^ j := by exact_mod_cast hpos
  have hmem : ∀ i, i ∈ haltonIndices start (base ^ j) ↔ start ≤ i ∧ i < start + base ^ j := by
    intro i
    unfold haltonIndices
    rw [List.mem_range'_1]
  have hiff : ∀ i, ((k : ℝ) / (base : ℝ) ^ j ≤ haltonValue base permutations i ∧
      haltonValue base permutations i < ((k : ℝ) + 1) / (base : ℝ) ^ j) ↔ leadingInteger base permutations 0 i j = k := by
    intro i
    rw [hv]
    obtain ⟨h1, h2⟩ := digitSum_leading base hb permutations hp j n 0 i hjn
    constructor
    · rintro ⟨h3, h4⟩
      have h5 : (leadingInteger base permutations 0 i j : ℝ) < (k : ℝ) + 1 := by
        have := lt_of_le_of_lt h1 h4
        rwa [div_lt_div_iff_of_pos_right hposR] at this
      have h6 : (k : ℝ) < (leadingInteger base permutations 0 i j : ℝ) + 1 := by
        have := lt_of_le_of_lt h3 h2
        rwa [div_lt_div_iff_of_pos_right hposR] at this
      have h5' : leadingInteger base permutations 0 i j < k + 1 := by exact_mod_cast h5
      have h6' : k < leadingInteger base permutations 0 i j + 1 := by exact_mod_cast h6
      omega
    · intro h
      rw [← h]
      exact ⟨h1, h2⟩
  -- distinct indices have distinct leading digits, so that all of them are used
  have hinj' : ∀ i i', start ≤ i → i < start + base ^ j → start ≤ i' → i' < start + base ^ j →
      leadingInteger base permutations 0 i j = leadingInteger base permutations 0 i' j → i = i' := by
    intro i i' h1 h2 h3 h4 h
    have hm := leadingInteger_inj base hb permutations hp hinj j 0 i i' h
    have e1 := Nat.div_add_mod i (base ^ j)
    have e2 := Nat.div_add_mod i' (base ^ j)
    rw [hm] at e1
    rcases Nat.lt_trichotomy (i / base ^ j) (i' / base ^ j) with hlt | heq | hgt
    · have := Nat.mul_le_mul_left (base ^ j) hlt
      rw [Nat.succ_eq_add_one, Nat.mul_add, Nat.mul_one] at this
      omega
    · rw [heq] at e1
      omega
    · have := Nat.mul_le_mul_left (base ^ j) hgt
      rw [Nat.succ_eq_add_one, Nat.mul_add, Nat.mul_one] at this
      omega
  let f : Fin (base ^ j) → Fin (base ^ j) := fun i =>
    ⟨leadingInteger base permutations 0 (start + i) j, leadingInteger_lt base hb permutations hp j 0 _⟩
  have hf : Function.Injective f := by
    intro a b hab
    have h1 : leadingInteger base permutations 0 (start + a) j = leadingInteger base permutations 0 (start + b) j :=
      congrArg Fin.val hab
    have := hinj' _ _ (by omega) (by omega) (by omega) (by omega) h1
    exact Fin.ext (by omega)
  obtain ⟨a, ha⟩ := Finite.injective_iff_surjective.1 hf ⟨k, hk⟩
  have hak : leadingInteger base permutations 0 (start + a) j = k := congrArg Fin.val ha
  refine ⟨start + a, ⟨(hmem _).2 ⟨by omega, by omega⟩, (hiff _).2 hak⟩, ?_⟩
  rintro i ⟨hi, hiv⟩
  obtain ⟨h1, h2⟩ := (hmem i).1 hi
  have := (hiff i).1 hiv
  exact hinj' _ _ h1 h2 (by omega) (by omega) (by rw [this, hak])

/-! ### Markets -/

theorem haltonMany_flat {ι : Type} (discard size count : ℕ) (ids : List ι) :
    (haltonMany discard size count ids).flatMap Prod.snd = List.range' (discard + count) (size * ids.length) ∧
      (haltonMany discard size count ids).map Prod.fst = ids := by
  induction ids generalizing count with
  | nil => simp [haltonMany]
  | cons i ids ih =>
    obtain ⟨h1, h2⟩ := ih (count + size)
    refine ⟨?_, by rw [haltonMany, List.map_cons, h2]⟩
    rw [haltonMany, List.flatMap_cons, h1]
    unfold haltonIndices
    have := List.range'_append_1 (s := discard + count) (m := size) (n := size * ids.length)
    rw [Nat.add_assoc] at this
    rw [this, List.length_cons, Nat.mul_add, Nat.mul_one, Nat.add_comm (size * _)]

/-- **C60.** Different IDs, in their order, use consecutive and disjoint parts of one long sequence that starts after what is
discarded. -/
theorem C60_markets {ι : Type} (discard size : ℕ) (ids : List ι) :
    (haltonMany discard size 0 ids).flatMap Prod.snd = List.range' discard (size * ids.length) ∧
      (haltonMany discard size 0 ids).map Prod.fst = ids ∧
      ((haltonMany discard size 0 ids).flatMap Prod.snd).Nodup ∧
      ∀ r ∈ haltonMany discard size 0 ids, r.2.length = size := by
  have h := haltonMany_flat discard size 0 ids
  rw [Nat.add_zero] at h
  refine ⟨h.1, h.2, by rw [h.1]; exact List.nodup_range', ?_⟩
  generalize hc : (0 : ℕ) = count
  clear hc h
  induction ids generalizing count with
  | nil =>
    intro r hr
    cases hr
  | cons i ids ih =>
    intro r hr
    rw [haltonMany, List.mem_cons] at hr
    rcases hr with rfl | hr
    · simp [haltonIndices]
    · exact ih _ r hr

/-- Trial division. -/
def trialPrime (n : ℕ) : Bool := decide (2 ≤ n) && (List.range 32).all fun d => decide (d < 2) || decide (n < d * d) || decide (n % d ≠ 0)

theorem trialPrime_iff (n : ℕ) (hn : n < 1000) : trialPrime n = true ↔ n.Prime := by
  rw [Nat.prime_def_le_sqrt]
  unfold trialPrime
  rw [Bool.and_eq_true, decide_eq_true_iff, List.all_eq_true]
  refine and_congr_right fun _ => ⟨fun h d hd1 hd2 hdvd => ?_, fun h d hd => ?_⟩
  · have hsq : d * d ≤ n := Nat.le_sqrt.1 hd2
    have hd : d < 32 := by
      by_contra hge
      have : 32 * 32 ≤ d * d := Nat.mul_le_mul (by omega) (by omega)
      omega
    have := h d (List.mem_range.2 hd)
    simp only [Bool.or_eq_true, decide_eq_true_iff] at this
    rcases this with (h1 | h1) | h1
    · omega
    · omega
    · exact h1 (Nat.mod_eq_zero_of_dvd hdvd)
  · simp only [Bool.or_eq_true, decide_eq_true_iff]
    by_cases h1 : d < 2
    · exact Or.inl (Or.inl h1)
    · by_cases h2 : n < d * d
      · exact Or.inl (Or.inr h2)
      · exact Or.inr fun h3 => h d (by omega) (Nat.le_sqrt.2 (by omega)) (Nat.dvd_of_mod_eq_zero h3)

/-- **C60.** Dimensions use the prime numbers below one thousand in order, and further dimensions are rejected. -/
theorem C60_primes (dimension : ℕ) :
    getPrime dimension = match ((List.range 1000).filter fun n => decide n.Prime)[dimension]? with
      | some p => .ok p
      | none => .error .valueError := by
  have h1 : haltonPrimes = (List.range 1000).filter trialPrime := by decide +kernel
  have h2 : (List.range 1000).filter trialPrime = (List.range 1000).filter fun n => decide n.Prime := by
    refine List.filter_congr fun n hn => ?_
    have := trialPrime_iff n (List.mem_range.1 hn)
    by_cases h : n.Prime
    · rw [this.2 h, decide_eq_true h]
    · rw [decide_eq_false h]
      exact Bool.eq_false_iff.2 fun h' => h (this.1 h')
  unfold getPrime
  rw [h1, h2]
  generalize ((List.range 1000).filter fun n => decide n.Prime)[dimension]? = p
  cases p <;> rfl

/-- The first eight values in base two from index four fall into different eighths. -/
example : haltonValue 2 (fun _ d => d) 6 = 3 / 8 := by
  rw [C60_radical_inverse 2 le_rfl 6 (by norm_num)]
  norm_num [Spec.radicalInverse]

/-- A permutation that is not the identity. -/
example : (∀ k : ℕ, ∀ d < 2, (fun _ d => 1 - d : ℕ → ℕ → ℕ) k d < 2) ∧
    (∀ k : ℕ, ∀ d < 2, ∀ d' < 2, (fun _ d => 1 - d : ℕ → ℕ → ℕ) k d = (fun _ d => 1 - d : ℕ → ℕ → ℕ) k d' → d = d') :=
  ⟨fun _ d _ => by dsimp only; omega, fun _ d _ d' _ h => by dsimp only at h; omega⟩

/-! ## C77 -/

/-- **C77.** Latin hypercube samples, modified or not, are stratified in every dimension: each of `size` intervals of equal probability
contains exactly one. -/
theorem C77_stratified {size : ℕ} (permutation : Fin size → Fin size) (hp : Function.Bijective permutation) (uniform : Fin size → ℝ)
    (hu : ∀ i, 0 ≤ uniform i ∧ uniform i < 1) (k : Fin size) :
    ∃! i, ((k : ℕ) : ℝ) / size ≤ lhsSamples permutation uniform i ∧ lhsSamples permutation uniform i < (((k : ℕ) : ℝ) + 1) / size := by
  have hs : (0 : ℝ) < size := by
    have : 0 < size := Nat.lt_of_le_of_lt (Nat.zero_le _) k.2
    exact_mod_cast this
  have hiff : ∀ i, (((k : ℕ) : ℝ) / size ≤ lhsSamples permutation uniform i ∧
      lhsSamples permutation uniform i < (((k : ℕ) : ℝ) + 1) / size) ↔ permutation i = k := by
    intro i
    unfold lhsSamples
    rw [div_le_div_iff_of_pos_right hs, div_lt_div_iff_of_pos_right hs]
    obtain ⟨h1, h2⟩ := hu (permutation i)
    constructor
    · rintro ⟨h3, h4⟩
      have h5 : ((k : ℕ) : ℝ) < ((permutation i : ℕ) : ℝ) + 1 := by linarith
      have h6 : ((permutation i : ℕ) : ℝ) < ((k : ℕ) : ℝ) + 1 := by linarith
      have h5' : (k : ℕ) < (permutation i : ℕ) + 1 := by exact_mod_cast h5
      have h6' : (permutation i : ℕ) < (k : ℕ) + 1 := by exact_mod_cast h6
      exact Fin.ext (by omega)
    · rintro rfl
      exact ⟨by linarith, by linarith⟩
  obtain ⟨i, hi⟩ := hp.2 k
  refine ⟨i, (hiff i).2 hi, ?_⟩
  intro i' hi'
  exact hp.1 (((hiff i').1 hi').trans hi.symm)

/-- **C77.** Latin hypercube samples are in `[0, 1)`. -/
theorem C77_unit_interval {size : ℕ} (permutation : Fin size → Fin size) (uniform : Fin size → ℝ)
    (hu : ∀ i, 0 ≤ uniform i ∧ uniform i < 1) (i : Fin size) :
    0 ≤ lhsSamples permutation uniform i ∧ lhsSamples permutation uniform i < 1 := by
  have hs : (0 : ℝ) < size := by
    have : 0 < size := Nat.lt_of_le_of_lt (Nat.zero_le _) i.2
    exact_mod_cast this
  obtain ⟨h1, h2⟩ := hu (permutation i)
  have h3 : ((permutation i : ℕ) : ℝ) + 1 ≤ size := by exact_mod_cast (permutation i).2
  unfold lhsSamples
  constructor
  · positivity
  · rw [div_lt_one hs]
    linarith

example : Function.Bijective (fun i : Fin 3 => i + 1) := by decide

end Pyblp
