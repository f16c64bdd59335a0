import Mathlib.Data.Finset.Card
import Mathlib.Data.Finset.Range
import Mathlib.Data.Finset.Lattice.Lemmas
import Mathlib.Data.Fintype.EquivFin
import Mathlib.Data.List.Nodup
import Mathlib.Data.List.Basic
import Verif.Model.Formulation

/-!
# Patsy's simplification of subsets of categorical factors

When the subsets of factors that a term has to span are all those that have some factors in them, the greedy simplification ends with a single
coding: these factors are coded without their first levels, and all others with all levels.
-/

set_option linter.unusedSectionVars false

namespace Pyblp
namespace Formula

/-! ### One pass -/

theorem absorbFirst_none {β : Type} {s : Coding} {O : List β} {c : β → Coding} (h : absorbFirst s (O.map c) = none) :
    ∀ b ∈ O, canAbsorb (c b) s = false := by
  induction O with
  | nil => simp
  | cons a O ih =>
    rw [List.map_cons, absorbFirst] at h
    by_cases hc : canAbsorb (c a) s = true
    · rw [if_pos hc] at h; exact absurd h (by simp)
    · rw [if_neg hc, Option.map_eq_none_iff] at h
      intro b hb
      rcases List.mem_cons.1 hb with rfl | hb
      · simpa using hc
      · exact ih h b hb

theorem absorbFirst_some {β : Type} {s : Coding} {O : List β} {c : β → Coding} {l : List Coding} (h : absorbFirst s (O.map c) = some l) :
    ∃ B S C, O = B ++ S :: C ∧ l = B.map c ++ absorb (c S) s :: C.map c ∧ canAbsorb (c S) s = true ∧ ∀ b ∈ B, canAbsorb (c b) s = false := by
  induction O generalizing l with
  | nil => simp [absorbFirst] at h
  | cons a O ih =>
    rw [List.map_cons, absorbFirst] at h
    by_cases hc : canAbsorb (c a) s = true
    · rw [if_pos hc, Option.some.injEq] at h
      exact ⟨[], a, O, rfl, h.symm, hc, by simp⟩
    · rw [if_neg hc, Option.map_eq_some_iff] at h
      obtain ⟨l', h1, rfl⟩ := h
      obtain ⟨B, S, C, rfl, rfl, h2, h3⟩ := ih h1
      refine ⟨a :: B, S, C, rfl, rfl, h2, ?_⟩
      intro b hb
      rcases List.mem_cons.1 hb with rfl | hb
      · simpa using hc
      · exact h3 b hb

theorem simplifyOne_none {β : Type} {O : List β} {c : β → Coding} (h : simplifyOne (O.map c) = none) :
    ∀ A a B, O = A ++ a :: B → ∀ b ∈ B, canAbsorb (c b) (c a) = false := by
  induction O with
  | nil => intro A a B h; simp at h
  | cons x O ih =>
    rw [List.map_cons, simplifyOne] at h
    cases hf : absorbFirst (c x) (O.map c) with
    | some l => rw [hf] at h; simp at h
    | none =>
      rw [hf] at h
      simp only [Option.map_eq_none_iff] at h
      intro A a B hO b hb
      cases A with
      | nil =>
        rw [List.nil_append, List.cons.injEq] at hO
        obtain ⟨rfl, rfl⟩ := hO
        exact absorbFirst_none hf b hb
      | cons y A =>
        rw [List.cons_append, List.cons.injEq] at hO
        exact ih h A a B hO.2 b hb

theorem simplifyOne_some {β : Type} {O : List β} {c : β → Coding} {l : List Coding} (h : simplifyOne (O.map c) = some l) :
    ∃ A T B S C, O = A ++ T :: (B ++ S :: C) ∧ l = A.map c ++ (B.map c ++ absorb (c S) (c T) :: C.map c) ∧
      canAbsorb (c S) (c T) = true ∧ (∀ b ∈ B, canAbsorb (c b) (c T) = false) ∧
      ∀ A1 a A2, A = A1 ++ a :: A2 → ∀ b ∈ A2 ++ T :: (B ++ S :: C), canAbsorb (c b) (c a) = false := by
  induction O generalizing l with
  | nil => simp [simplifyOne] at h
  | cons x O ih =>
    rw [List.map_cons, simplifyOne] at h
    cases hf : absorbFirst (c x) (O.map c) with
    | some l' =>
      rw [hf] at h
      simp only [Option.some.injEq] at h
      obtain ⟨B, S, C, rfl, rfl, h2, h3⟩ := absorbFirst_some hf
      exact ⟨[], x, B, S, C, rfl, h.symm, h2, h3, fun A1 a A2 h => by simp at h⟩
    | none =>
      rw [hf] at h
      simp only [Option.map_eq_some_iff] at h
      obtain ⟨l', h1, rfl⟩ := h
      obtain ⟨A, T, B, S, C, rfl, rfl, h2, h3, h4⟩ := ih h1
      refine ⟨x :: A, T, B, S, C, rfl, rfl, h2, h3, ?_⟩
      intro A1 a A2 hA b hb
      cases A1 with
      | nil =>
        rw [List.nil_append, List.cons.injEq] at hA
        obtain ⟨rfl, rfl⟩ := hA
        exact absorbFirst_none hf b hb
      | cons y A1 =>
        rw [List.cons_append, List.cons.injEq] at hA
        exact h4 A1 a A2 hA.2 b hb

/-! ### The least number that is missing -/

/-- The least number that is not in a set. -/
def mex (S : Finset ℕ) : ℕ := Nat.find (Infinite.exists_notMem_finset S)

theorem mex_notMem (S : Finset ℕ) : mex S ∉ S := Nat.find_spec (Infinite.exists_notMem_finset S)

theorem mem_of_lt_mex {S : Finset ℕ} {i : ℕ} (h : i < mex S) : i ∈ S := by
  by_contra hi
  exact Nat.find_min (Infinite.exists_notMem_finset S) h hi

theorem mex_le {S : Finset ℕ} {i : ℕ} (h : i ∉ S) : mex S ≤ i := Nat.find_min' _ h

theorem mex_eq {S : Finset ℕ} {i : ℕ} (h : i ∉ S) (hlt : ∀ j < i, j ∈ S) : mex S = i :=
  le_antisymm (mex_le h) (by by_contra hc; exact mex_notMem S (hlt _ (by omega)))

theorem mex_le_of_subset {S : Finset ℕ} {k : ℕ} (h : S ⊆ Finset.range k) : mex S ≤ k :=
  mex_le fun hk => by simpa using h hk

/-! ### All passes -/

section passes

variable {k : ℕ} {code : ℕ → Finset ℕ → Coding} {order : List (Finset ℕ)}

/-- How codings of sets of positions behave: those with numbers smaller than a number have all levels. -/
structure Codes (k : ℕ) (code : ℕ → Finset ℕ → Coding) : Prop where
  can : ∀ i j S T, i ≤ k → j ≤ k → S ⊆ Finset.range k → T ⊆ Finset.range k →
    (canAbsorb (code i S) (code j T) = true ↔ S.card = T.card + 1 ∧ T ⊆ S ∧ ∀ a ∈ T, a < j ↔ a < i)
  absorbed : ∀ j T, j < k → T ⊆ Finset.range k → j ∉ T → absorb (code j (insert j T)) (code j T) = code (j + 1) (insert j T)

/-- Smaller sets come first, and of sets that differ in one element, that with the smaller. -/
structure Ordered (k : ℕ) (order : List (Finset ℕ)) : Prop where
  once : order.Nodup
  all : ∀ S, S ∈ order ↔ S ⊆ Finset.range k
  smaller : order.Pairwise fun A B => A.card ≤ B.card
  earlier : order.Pairwise fun A B => ∀ W z y, z < y → z ∉ W → y ∉ W → A = insert y W → B ≠ insert z W

/-- A set that has not been absorbed. -/
def Present (k : ℕ) (J : Finset ℕ → ℕ) (S : Finset ℕ) : Prop := mex S < k → J (insert (mex S) S) ≤ mex S

instance (J : Finset ℕ → ℕ) (S : Finset ℕ) : Decidable (Present k J S) := inferInstanceAs (Decidable (_ → _))

/-- What is known about the numbers of factors that have all levels. -/
structure Progress (k : ℕ) (J : Finset ℕ → ℕ) : Prop where
  le : ∀ S ⊆ Finset.range k, J S ≤ mex S
  mono : ∀ W z y, z < y → z ∉ W → y ∉ W → y < k → W ⊆ Finset.range k → J (insert y W) ≤ J (insert z W)
  done : ∀ S ⊆ Finset.range k, ¬ Present k J S → J S = mex S

theorem waiting (hcode : Codes k code) {J : Finset ℕ → ℕ} (hJ : Progress k J) : ∀ (n : ℕ) (T : Finset ℕ), T.card = n → T ⊆ Finset.range k →
    Present k J T → J T < mex T → ∃ U V, U ⊆ Finset.range k ∧ V ⊆ Finset.range k ∧ Present k J U ∧ Present k J V ∧ U.card < T.card ∧
      canAbsorb (code (J V) V) (code (J U) U) = true := by
  intro n
  induction n using Nat.strong_induction_on with
  | _ n ih =>
    intro T hn hT hp hlt
    have hin : J T ∈ T := mem_of_lt_mex hlt
    have hsub : T.erase (J T) ⊆ Finset.range k := (Finset.erase_subset _ _).trans hT
    have hmex : mex (T.erase (J T)) = J T := mex_eq (Finset.notMem_erase _ _) fun j hj =>
      Finset.mem_erase.2 ⟨by omega, mem_of_lt_mex (by omega)⟩
    have hins : insert (mex (T.erase (J T))) (T.erase (J T)) = T := by rw [hmex, Finset.insert_erase hin]
    have hpres : Present k J (T.erase (J T)) := by
      intro _
      rw [hins, hmex]
    have hcard : (T.erase (J T)).card + 1 = T.card := Finset.card_erase_add_one hin
    have hle := hJ.le _ hsub
    rcases hle.lt_or_eq with h | h
    · obtain ⟨U, V, h1, h2, h3, h4, h5, h6⟩ := ih _ (by omega) (T.erase (J T)) rfl hsub hpres h
      exact ⟨U, V, h1, h2, h3, h4, by omega, h6⟩
    · refine ⟨T.erase (J T), T, hsub, hT, hpres, hp, by omega, ?_⟩
      rw [hcode.can _ _ _ _ ((hJ.le T hT).trans (mex_le_of_subset hT)) (hle.trans (mex_le_of_subset hsub)) hT hsub]
      refine ⟨hcard.symm, Finset.erase_subset _ _, ?_⟩
      rw [h, hmex]
      exact fun _ _ => Iff.rfl

/-- The codings that are left. -/
def left (k : ℕ) (code : ℕ → Finset ℕ → Coding) (order : List (Finset ℕ)) (J : Finset ℕ → ℕ) : List Coding :=
  (order.filter fun S => decide (Present k J S)).map fun S => code (J S) S

theorem left_none (hcode : Codes k code) (horder : Ordered k order) {J : Finset ℕ → ℕ} (hJ : Progress k J)
    (h : simplifyOne (left k code order J) = none) : ∀ S ⊆ Finset.range k, J S = mex S := by
  have hpass := simplifyOne_none h
  have hno : ∀ U V, U ⊆ Finset.range k → V ⊆ Finset.range k → Present k J U → Present k J V →
      canAbsorb (code (J V) V) (code (J U) U) = true → False := by
    intro U V hU hV hpU hpV hc
    have hcard := ((hcode.can _ _ _ _ ((hJ.le V hV).trans (mex_le_of_subset hV)) ((hJ.le U hU).trans (mex_le_of_subset hU)) hV hU).1 hc).1
    have hmU : U ∈ order.filter fun S => decide (Present k J S) := List.mem_filter.2 ⟨(horder.all U).2 hU, by simpa using hpU⟩
    have hmV : V ∈ order.filter fun S => decide (Present k J S) := List.mem_filter.2 ⟨(horder.all V).2 hV, by simpa using hpV⟩
    obtain ⟨A, B, hAB⟩ := List.append_of_mem hmU
    have hsmall := horder.smaller.filter fun S => decide (Present k J S)
    rw [hAB] at hmV hsmall
    rcases List.mem_append.1 hmV with hA | hB
    · have := (List.pairwise_append.1 hsmall).2.2 V hA U (List.mem_cons_self ..)
      omega
    · rcases List.mem_cons.1 hB with rfl | hB
      · omega
      · exact absurd hc (by rw [hpass A U B hAB V hB]; simp)
  -- present sets are finished
  have hfin : ∀ S ⊆ Finset.range k, Present k J S → J S = mex S := by
    intro S hS hp
    by_contra hne
    obtain ⟨U, V, h1, h2, h3, h4, -, h6⟩ := waiting hcode hJ _ S rfl hS hp (lt_of_le_of_ne (hJ.le S hS) hne)
    exact hno U V h1 h2 h3 h4 h6
  intro S hS
  by_cases hp : Present k J S
  · exact hfin S hS hp
  · exact hJ.done S hS hp

theorem mex_insert {T : Finset ℕ} : mex T < mex (insert (mex T) T) := by
  by_contra h
  rcases lt_or_eq_of_le (not_lt.1 h) with h | h
  · exact mex_notMem _ (Finset.mem_insert_of_mem (mem_of_lt_mex h))
  · have h1 := mex_notMem (insert (mex T) T)
    have h2 := Finset.mem_insert_self (mex T) T
    generalize insert (mex T) T = V at *
    exact h1 (h ▸ h2)

theorem left_some (hcode : Codes k code) (horder : Ordered k order) {J : Finset ℕ → ℕ} (hJ : Progress k J) {l : List Coding}
    (h : simplifyOne (left k code order J) = some l) : ∃ J', Progress k J' ∧ l = left k code order J' := by
  obtain ⟨A, T, B, S, C, hO, hl, hcan, hB, hA⟩ := simplifyOne_some h
  have hmem : ∀ U, U ∈ A ++ T :: (B ++ S :: C) ↔ U ⊆ Finset.range k ∧ Present k J U := by
    intro U
    rw [← hO, List.mem_filter, horder.all, decide_eq_true_eq]
  have honce : (A ++ T :: (B ++ S :: C)).Nodup := hO ▸ horder.once.filter _
  have hsmall : (A ++ T :: (B ++ S :: C)).Pairwise fun A B => A.card ≤ B.card := hO ▸ horder.smaller.filter _
  have hlex : (A ++ T :: (B ++ S :: C)).Pairwise fun A B => ∀ W z y, z < y → z ∉ W → y ∉ W → A = insert y W → B ≠ insert z W :=
    hO ▸ horder.earlier.filter _
  have hlek : ∀ U ⊆ Finset.range k, J U ≤ k := fun U hU => (hJ.le U hU).trans (mex_le_of_subset hU)
  obtain ⟨hT, hpT⟩ := (hmem T).1 (by simp)
  obtain ⟨hS, hpS⟩ := (hmem S).1 (by simp)
  -- no set before the first that is absorbed could be absorbed
  have hearly : ∀ U V, U ∈ A → V ⊆ Finset.range k → Present k J V → canAbsorb (code (J V) V) (code (J U) U) = true → False := by
    intro U V hU hV hpV hc
    have hUk := ((hmem U).1 (List.mem_append_left _ hU)).1
    have hcard := ((hcode.can _ _ _ _ (hlek V hV) (hlek U hUk) hV hUk).1 hc).1
    obtain ⟨A1, A2, hA12⟩ := List.append_of_mem hU
    have hV' := (hmem V).2 ⟨hV, hpV⟩
    have hsm := hsmall
    rw [hA12, List.append_assoc, List.cons_append] at hV' hsm
    rcases List.mem_append.1 hV' with h | h
    · have := (List.pairwise_append.1 hsm).2.2 V h U (List.mem_cons_self ..)
      omega
    · rcases List.mem_cons.1 h with rfl | h
      · omega
      · exact absurd hc (by rw [hA A1 U A2 hA12 V h]; simp)
  have hbefore : ∀ U, U ⊆ Finset.range k → Present k J U → U ∉ A → U ≠ T → U ∈ B ++ S :: C := by
    intro U hU hp h1 h2
    rcases List.mem_append.1 ((hmem U).2 ⟨hU, hp⟩) with h | h
    · exact absurd h h1
    · rcases List.mem_cons.1 h with h | h
      · exact absurd h h2
      · exact h
  have hafter : ∀ U ∈ B ++ S :: C, T.card ≤ U.card := fun U hU =>
    (List.pairwise_cons.1 (List.pairwise_append.1 hsmall).2.1).1 U hU
  -- the first that is absorbed is finished
  have hfin : J T = mex T := by
    by_contra hne
    obtain ⟨U, V, h1, h2, h3, h4, h5, h6⟩ := waiting hcode hJ _ T rfl hT hpT (lt_of_le_of_ne (hJ.le T hT) hne)
    by_cases hU : U ∈ A
    · exact hearly U V hU h2 h4 h6
    · have := hafter U (hbefore U h1 h3 hU (by rintro rfl; omega))
      omega
  obtain ⟨hcard, hsub, hflags⟩ := (hcode.can _ _ _ _ (hlek S hS) (hlek T hT) hS hT).1 hcan
  obtain ⟨y, hy, hyS⟩ := Finset.exists_eq_insert_iff.2 ⟨hsub, hcard.symm⟩
  rw [hfin] at hflags
  have hyk : y < k := Finset.mem_range.1 (hS (hyS ▸ Finset.mem_insert_self y T))
  have hJS : J S = mex T := by
    refine le_antisymm ?_ ?_
    · by_contra hc
      have hp : mex T ∈ S := mem_of_lt_mex (lt_of_lt_of_le (not_le.1 hc) (hJ.le S hS))
      rw [← hyS, Finset.mem_insert] at hp
      rcases hp with hp | hp
      · have := hpT (hp ▸ hyk)
        rw [hp, hyS] at this
        exact hc (hp ▸ this)
      · exact mex_notMem T hp
    · by_contra hc
      have := (hflags (J S) (mem_of_lt_mex (by omega))).1 (by omega)
      omega
  have hle : mex T ≤ y := mex_le hy
  have hypos : y = mex T := by
    by_contra hne
    have hlt : mex T < y := by omega
    have hins : insert (mex T) T ⊆ Finset.range k := Finset.insert_subset (Finset.mem_range.2 (by omega)) hT
    have h1 : J (insert (mex T) T) = mex T := by
      refine le_antisymm (hpT (by omega)) ?_
      have := hJ.mono T (mex T) y hlt (mex_notMem T) hy hyk hT
      rw [hyS, hJS] at this
      exact this
    have h2 : Present k J (insert (mex T) T) := by
      by_contra hp
      have := hJ.done _ hins hp
      have := mex_insert (T := T)
      omega
    have h3 : canAbsorb (code (J (insert (mex T) T)) (insert (mex T) T)) (code (J T) T) = true := by
      rw [hcode.can _ _ _ _ (hlek _ hins) (hlek T hT) hins hT]
      refine ⟨Finset.card_insert_of_notMem (mex_notMem T), Finset.subset_insert _ _, ?_⟩
      rw [h1, hfin]
      exact fun _ _ => Iff.rfl
    have hnA : insert (mex T) T ∉ A := by
      intro hin
      have := (List.pairwise_append.1 hsmall).2.2 _ hin T (List.mem_cons_self ..)
      rw [Finset.card_insert_of_notMem (mex_notMem T)] at this
      omega
    have hnT : insert (mex T) T ≠ T := by
      intro hh
      have h5 := Finset.mem_insert_self (mex T) T
      generalize insert (mex T) T = V at hh h5
      subst hh
      exact mex_notMem _ h5
    rcases List.mem_append.1 (hbefore _ hins h2 hnA hnT) with hin | hin
    · exact absurd h3 (by rw [hB _ hin]; simp)
    · rcases List.mem_cons.1 hin with hin | hin
      · have : y ∈ insert (mex T) T := by rw [hin, ← hyS]; exact Finset.mem_insert_self _ _
        rcases Finset.mem_insert.1 this with h | h
        · exact hne h
        · exact hy h
      · have hp := (List.pairwise_append.1 (List.pairwise_cons.1 (List.pairwise_append.1 hlex).2.1).2).2.1
        exact (List.pairwise_cons.1 hp).1 _ hin T (mex T) y hlt (mex_notMem T) hy hyS.symm rfl
  rw [hypos] at hyS hyk
  have hlow : ∀ i ≤ mex T, i ∈ S := by
    intro i hi
    rw [← hyS, Finset.mem_insert]
    rcases hi.lt_or_eq with h | h
    · exact Or.inr (mem_of_lt_mex h)
    · exact Or.inl h
  have hmexS : mex T + 1 ≤ mex S := by
    by_contra hc
    exact mex_notMem S (hlow _ (by omega))
  have hTS : T ≠ S := by rintro rfl; omega
  have hsame : ∀ U, U ≠ S → Function.update J S (mex T + 1) U = J U := fun U hU => Function.update_of_ne hU _ _
  -- a set is left unless it is the one that was absorbed
  have hpres : ∀ U, Present k (Function.update J S (mex T + 1)) U ↔ Present k J U ∧ U ≠ T := by
    intro U
    unfold Present
    by_cases hU : insert (mex U) U = S
    · rw [hU, Function.update_self, hJS]
      by_cases hm : mex U = mex T
      · have hUT : U = T := by
          rw [← Finset.erase_insert (mex_notMem U), hU, hm, ← hyS, Finset.erase_insert (mex_notMem T)]
        constructor
        · intro hp
          have := hp (hm ▸ hyk)
          omega
        · exact fun hp => absurd hUT hp.2
      · constructor
        · intro hp
          exact ⟨fun hk => by have := hp hk; omega, fun hUT => hm (by rw [hUT])⟩
        · intro hp hk
          have := hp.1 hk
          omega
    · rw [hsame _ hU]
      constructor
      · exact fun hp => ⟨hp, fun hUT => hU (by rw [hUT, hyS])⟩
      · exact fun hp => hp.1
  refine ⟨Function.update J S (mex T + 1), ⟨?_, ?_, ?_⟩, ?_⟩
  · intro U hU
    by_cases hUS : U = S
    · rw [hUS, Function.update_self]; exact hmexS
    · rw [hsame U hUS]; exact hJ.le U hU
  · intro W z y hzy hz hyW hyk' hW
    have hne : insert y W ≠ insert z W := by
      intro hh
      have : y ∈ insert z W := hh ▸ Finset.mem_insert_self _ _
      rcases Finset.mem_insert.1 this with h | h
      · omega
      · exact hyW h
    have hmono := hJ.mono W z y hzy hz hyW hyk' hW
    by_cases h1 : insert y W = S
    · have h2 : insert z W ≠ S := fun hh => hne (h1.trans hh.symm)
      rw [hsame _ h2, h1, Function.update_self]
      rw [h1, hJS] at hmono
      by_contra hc
      have hV : J (insert z W) = mex T := by omega
      have hzS : z ∉ S := by
        rw [← h1, Finset.mem_insert]
        rintro (h | h)
        · omega
        · exact hz h
      have hzp : mex T < z := by
        by_contra hh
        exact hzS (hlow z (by omega))
      have hpW : mex T ∈ W := by
        have := hlow (mex T) le_rfl
        rw [← h1, Finset.mem_insert] at this
        rcases this with h | h
        · omega
        · exact h
      have hTW : T = insert y (W.erase (mex T)) := by
        have h3 := Finset.erase_insert (mex_notMem T)
        rw [hyS, ← h1, Finset.erase_insert_of_ne (by omega)] at h3
        exact h3.symm
      have hVU : insert z W = insert (mex T) (insert z (W.erase (mex T))) := by
        rw [Finset.insert_comm, Finset.insert_erase hpW]
      have hWe : W.erase (mex T) ⊆ Finset.range k := (Finset.erase_subset _ _).trans hW
      have hUk : insert z (W.erase (mex T)) ⊆ Finset.range k := Finset.insert_subset (Finset.mem_range.2 (by omega)) hWe
      have hVk : insert z W ⊆ Finset.range k := Finset.insert_subset (Finset.mem_range.2 (by omega)) hW
      have hpU : mex T ∉ insert z (W.erase (mex T)) := by
        rw [Finset.mem_insert]
        rintro (h | h)
        · omega
        · exact Finset.notMem_erase _ _ h
      have hmexU : mex (insert z (W.erase (mex T))) = mex T := by
        refine mex_eq hpU fun j hj => Finset.mem_insert_of_mem (Finset.mem_erase.2 ⟨by omega, ?_⟩)
        have := hlow j (by omega)
        rw [← h1, Finset.mem_insert] at this
        rcases this with h | h
        · omega
        · exact h
      have hJU : J (insert z (W.erase (mex T))) = mex T := by
        refine le_antisymm ((hJ.le _ hUk).trans_eq hmexU) ?_
        have := hJ.mono (W.erase (mex T)) z y hzy (fun h => hz (Finset.mem_of_mem_erase h)) (fun h => hyW (Finset.mem_of_mem_erase h)) hyk' hWe
        rw [← hTW, hfin] at this
        exact this
      have hpV : Present k J (insert z W) := by
        by_contra hp
        have h5 := hJ.done _ hVk hp
        rw [hV] at h5
        refine mex_notMem (insert z W) ?_
        rw [← h5]
        exact Finset.mem_insert_of_mem hpW
      have hpU' : Present k J (insert z (W.erase (mex T))) := by
        intro _
        rw [hmexU, ← hVU, hV]
      have hUT : insert z (W.erase (mex T)) ≠ T := by
        intro hh
        have : z ∈ T := hh ▸ Finset.mem_insert_self _ _
        exact hzS (hsub this)
      have hcanU : canAbsorb (code (J (insert z W)) (insert z W)) (code (J (insert z (W.erase (mex T)))) (insert z (W.erase (mex T)))) = true := by
        rw [hcode.can _ _ _ _ (hlek _ hVk) (hlek _ hUk) hVk hUk]
        refine ⟨?_, ?_, ?_⟩
        · rw [hVU, Finset.card_insert_of_notMem hpU]
        · rw [hVU]; exact Finset.subset_insert _ _
        · rw [hV, hJU]; exact fun _ _ => Iff.rfl
      by_cases hUA : insert z (W.erase (mex T)) ∈ A
      · exact hearly _ _ hUA hVk hpV hcanU
      · have hin := hbefore _ hUk hpU' hUA hUT
        exact (List.pairwise_cons.1 (List.pairwise_append.1 hlex).2.1).1 _ hin (W.erase (mex T)) z y hzy
          (fun h => hz (Finset.mem_of_mem_erase h)) (fun h => hyW (Finset.mem_of_mem_erase h)) hTW rfl
    · rw [hsame _ h1]
      by_cases h2 : insert z W = S
      · rw [h2] at hmono ⊢
        rw [Function.update_self]
        omega
      · rw [hsame _ h2]
        exact hmono
  · intro U hU hnp
    rw [hpres] at hnp
    by_cases hUT : U = T
    · rw [hUT, hsame T hTS, hfin]
    · have hnp' : ¬ Present k J U := fun hp => hnp ⟨hp, hUT⟩
      have hd := hJ.done U hU hnp'
      by_cases hUS : U = S
      · rw [hUS, hJS] at hd
        omega
      · rw [hsame U hUS]; exact hd
  · have hfilter : (order.filter fun U => decide (Present k (Function.update J S (mex T + 1)) U)) = A ++ (B ++ S :: C) := by
      have h1 : (order.filter fun U => decide (Present k (Function.update J S (mex T + 1)) U)) =
          (order.filter fun U => decide (Present k J U)).filter fun U => decide (U ≠ T) := by
        rw [List.filter_filter]
        refine List.filter_congr fun U _ => ?_
        simp only [hpres, Bool.decide_and, Bool.and_comm]
      rw [h1, hO, List.filter_append, List.filter_cons, if_neg (by simp)]
      have hnd := List.nodup_append.1 honce
      have hnd2 := List.nodup_cons.1 hnd.2.1
      rw [List.filter_eq_self.2, List.filter_eq_self.2]
      · intro U hU
        rw [decide_eq_true_eq]
        rintro rfl
        exact hnd2.1 hU
      · intro U hU
        rw [decide_eq_true_eq]
        exact hnd.2.2 U hU T (List.mem_cons_self ..)
    have hneS : ∀ U, U ∈ A ∨ U ∈ B ∨ U ∈ C → U ≠ S := by
      have hnd := List.nodup_append.1 honce
      have hnd2 := List.nodup_append.1 (List.nodup_cons.1 hnd.2.1).2
      rintro U (hU | hU | hU) rfl
      · exact hnd.2.2 U hU U (by simp) rfl
      · exact hnd2.2.2 U hU U (by simp) rfl
      · exact (List.nodup_cons.1 hnd2.2.1).1 hU
    rw [left, hfilter, hl, List.map_append, List.map_append, List.map_cons]
    have hmap : ∀ D : List (Finset ℕ), (∀ U ∈ D, U ≠ S) →
        D.map (fun U => code (Function.update J S (mex T + 1) U) U) = D.map fun U => code (J U) U := by
      intro D hD
      refine List.map_congr_left fun U hU => ?_
      simp only [hsame U (hD U hU)]
    rw [hmap A fun U hU => hneS U (Or.inl hU), hmap B fun U hU => hneS U (Or.inr (Or.inl hU)), hmap C fun U hU => hneS U (Or.inr (Or.inr hU)),
      Function.update_self, hJS, hfin]
    have := hcode.absorbed (mex T) T hyk hT (mex_notMem T)
    rw [hyS] at this
    rw [this]

theorem absorbFirst_length {s : Coding} {L l : List Coding} (h : absorbFirst s L = some l) : l.length = L.length := by
  rw [← List.map_id L] at h
  obtain ⟨B, S, C, h1, rfl, -, -⟩ := absorbFirst_some h
  rw [h1]
  simp

theorem simplifyOne_length {L l : List Coding} (h : simplifyOne L = some l) : l.length + 1 = L.length := by
  rw [← List.map_id L] at h
  obtain ⟨A, T, B, S, C, h1, rfl, -, -, -⟩ := simplifyOne_some h
  rw [h1]
  simp
  omega

theorem simplify_stuck : ∀ (n : ℕ) (L : List Coding), L.length ≤ n → simplifyOne (simplify n L) = none := by
  intro n
  induction n with
  | zero =>
    intro L hL
    have : L = [] := List.length_eq_zero_iff.1 (by omega)
    rw [this]
    rfl
  | succ n ih =>
    intro L hL
    rw [simplify]
    cases h : simplifyOne L with
    | none => exact h
    | some l => exact ih l (by have := simplifyOne_length h; omega)

theorem simplify_left (hcode : Codes k code) (horder : Ordered k order) : ∀ (n : ℕ) (J : Finset ℕ → ℕ), Progress k J →
    ∃ J', Progress k J' ∧ simplify n (left k code order J) = left k code order J' := by
  intro n
  induction n with
  | zero => exact fun J hJ => ⟨J, hJ, rfl⟩
  | succ n ih =>
    intro J hJ
    rw [simplify]
    cases h : simplifyOne (left k code order J) with
    | none => exact ⟨J, hJ, rfl⟩
    | some l =>
      obtain ⟨J', hJ', rfl⟩ := left_some hcode horder hJ h
      exact ih J' hJ'

/-- All sets are simplified to one, with all levels of each element. -/
theorem simplify_all (hcode : Codes k code) (horder : Ordered k order) :
    simplify order.length (order.map (code 0)) = [code k (Finset.range k)] := by
  have h0 : order.map (code 0) = left k code order fun _ => 0 := by
    rw [left, List.filter_eq_self.2]
    intro S _
    rw [decide_eq_true_eq]
    exact fun _ => Nat.zero_le _
  have hP : Progress k fun _ => 0 := ⟨fun _ _ => Nat.zero_le _, fun _ _ _ _ _ _ _ _ => le_rfl, fun S _ hnp => absurd (fun _ => Nat.zero_le _) hnp⟩
  obtain ⟨J, hJ, hJl⟩ := simplify_left hcode horder order.length _ hP
  have hstuck := simplify_stuck order.length (order.map (code 0)) (by simp)
  rw [h0, hJl] at hstuck
  have hfin := left_none hcode horder hJ hstuck
  rw [h0, hJl, left]
  have hmex : mex (Finset.range k) = k := mex_eq (by simp) fun j hj => Finset.mem_range.2 hj
  have hfilter : (order.filter fun S => decide (Present k J S)) = order.filter fun S => decide (S = Finset.range k) := by
    refine List.filter_congr fun S hS => ?_
    have hSk := (horder.all S).1 hS
    have : Present k J S ↔ S = Finset.range k := by
      constructor
      · intro hp
        by_contra hne
        have hlt : mex S < k := by
          by_contra hc
          exact hne (Finset.Subset.antisymm hSk fun i hi => mem_of_lt_mex (by have := Finset.mem_range.1 hi; omega))
        have h1 := hp hlt
        rw [hfin _ (Finset.insert_subset (Finset.mem_range.2 hlt) hSk)] at h1
        have := mex_insert (T := S)
        omega
      · rintro rfl hk
        omega
    simp only [this]
  rw [hfilter]
  have hone : (order.filter fun S => decide (S = Finset.range k)) = [Finset.range k] := by
    rw [List.filter_eq, List.count_eq_one_of_mem horder.once ((horder.all _).2 (Finset.Subset.refl _))]
    rfl
  rw [hone, List.map_singleton, hfin _ (Finset.Subset.refl _), hmex]

end passes
/-! ### Subsets in order -/

theorem mem_choose {α : Type} {k : ℕ} {l u : List α} : u ∈ choose k l ↔ u.Sublist l ∧ u.length = k := by
  induction l generalizing k u with
  | nil =>
    cases k with
    | zero => simp [choose]
    | succ k =>
      simp only [choose, List.not_mem_nil, List.sublist_nil, false_iff, not_and]
      rintro rfl; simp
  | cons a l ih =>
    cases k with
    | zero =>
      simp only [choose, List.mem_singleton, List.length_eq_zero_iff]
      constructor
      · rintro rfl; simp
      · exact fun h => h.2
    | succ k =>
      simp only [choose, List.mem_append, List.mem_map, ih]
      constructor
      · rintro (⟨u', ⟨h1, h2⟩, rfl⟩ | ⟨h1, h2⟩)
        · exact ⟨h1.cons_cons a, by simp [h2]⟩
        · exact ⟨h1.cons a, h2⟩
      · rintro ⟨h1, h2⟩
        rcases List.sublist_cons_iff.1 h1 with h | ⟨r, rfl, h⟩
        · exact Or.inr ⟨h, h2⟩
        · exact Or.inl ⟨r, ⟨h, by simpa using h2⟩, rfl⟩

theorem mem_subsets {α : Type} {l u : List α} : u ∈ subsets l ↔ u.Sublist l := by
  simp only [subsets, List.mem_flatMap, List.mem_range, mem_choose]
  exact ⟨fun ⟨k, _, h, _⟩ => h, fun h => ⟨u.length, by have := h.length_le; omega, h, rfl⟩⟩

/-- At the first element at which two lists differ, it is in the first. -/
def FirstDiffers {α : Type} (l u v : List α) : Prop := ∃ a ∈ u, a ∉ v ∧ ∀ b, [b, a].Sublist l → (b ∈ u ↔ b ∈ v)

theorem choose_pairwise {α : Type} {l : List α} (hl : l.Nodup) : ∀ k, (choose k l).Pairwise (FirstDiffers l) := by
  induction l with
  | nil => intro k; cases k <;> simp [choose]
  | cons c l ih =>
    obtain ⟨hc, hl⟩ := List.nodup_cons.1 hl
    intro k
    cases k with
    | zero => simp [choose]
    | succ k =>
      rw [choose, List.pairwise_append, List.pairwise_map]
      refine ⟨?_, ?_, ?_⟩
      · refine ((ih hl k).imp_of_mem ?_)
        rintro u v hu hv ⟨a, hau, hav, hb⟩
        have hal : a ∈ l := (mem_choose.1 hu).1.subset hau
        refine ⟨a, List.mem_cons_of_mem _ hau, ?_, ?_⟩
        · rw [List.mem_cons]
          rintro (rfl | h)
          · exact hc hal
          · exact hav h
        · intro b hba
          rw [List.mem_cons, List.mem_cons]
          rcases List.sublist_cons_iff.1 hba with h | ⟨r, hr, h⟩
          · rw [hb b h]
          · rw [List.cons.injEq] at hr
            simp [hr.1]
      · refine ((ih hl (k + 1)).imp_of_mem ?_)
        rintro u v hu hv ⟨a, hau, hav, hb⟩
        refine ⟨a, hau, hav, ?_⟩
        intro b hba
        rcases List.sublist_cons_iff.1 hba with h | ⟨r, hr, h⟩
        · exact hb b h
        · rw [List.cons.injEq] at hr
          rw [hr.1]
          exact ⟨fun h => absurd ((mem_choose.1 hu).1.subset h) hc, fun h => absurd ((mem_choose.1 hv).1.subset h) hc⟩
      · intro u hu v hv
        obtain ⟨u, -, rfl⟩ := List.mem_map.1 hu
        refine ⟨c, List.mem_cons_self .., fun h => hc ((mem_choose.1 hv).1.subset h), ?_⟩
        intro b hba
        exfalso
        rcases List.sublist_cons_iff.1 hba with h | ⟨r, hr, h⟩
        · exact hc (h.subset (by simp))
        · rw [List.cons.injEq] at hr
          exact hc (h.subset (by rw [← hr.2]; simp))

theorem subsets_pairwise {α : Type} {l : List α} (hl : l.Nodup) :
    (subsets l).Pairwise fun u v => u.length < v.length ∨ (u.length = v.length ∧ FirstDiffers l u v) := by
  rw [subsets, List.pairwise_flatMap]
  refine ⟨?_, ?_⟩
  · intro k _
    refine (choose_pairwise hl k).imp_of_mem ?_
    intro u v hu hv h
    exact Or.inr ⟨(mem_choose.1 hu).2.trans (mem_choose.1 hv).2.symm, h⟩
  · refine List.pairwise_lt_range.imp ?_
    intro i j hij u hu v hv
    rw [(mem_choose.1 hu).2, (mem_choose.1 hv).2]
    exact Or.inl hij

/-! ### The factors of a term -/

section term

variable (l own : List Category)

/-- The factors that are to have all levels. -/
def free : List Category := l.filter fun f => decide (f ∉ own)

/-- The factors with these positions, and those that are to have no first level. -/
def baseOf (S : Finset ℕ) : List Category := l.filter fun f => decide (f ∈ own ∨ (free l own).idxOf f ∈ S)

/-- The positions of factors. -/
def positions (u : List Category) : Finset ℕ := (Finset.range (free l own).length).filter fun i => ∃ f ∈ u, f ∈ free l own ∧ (free l own).idxOf f = i

/-- The coding in which the first factors have all levels. -/
def codeOf (j : ℕ) (S : Finset ℕ) : Coding := (baseOf l own S).map fun f => (f, decide ((free l own).idxOf f < j))

variable {l own}

theorem mem_free {f : Category} : f ∈ free l own ↔ f ∈ l ∧ f ∉ own := by simp [free]

theorem mem_baseOf {S : Finset ℕ} {f : Category} : f ∈ baseOf l own S ↔ f ∈ l ∧ (f ∈ own ∨ (free l own).idxOf f ∈ S) := by simp [baseOf]

theorem baseOf_subset {S : Finset ℕ} : baseOf l own S ⊆ l := fun _ hf => (mem_baseOf.1 hf).1

theorem idxOf_own {f : Category} (h : f ∈ own) : (free l own).idxOf f = (free l own).length :=
  List.idxOf_eq_length fun hf => (mem_free.1 hf).2 h

theorem idxOf_lt {f : Category} (hl : f ∈ l) (h : f ∉ own) : (free l own).idxOf f < (free l own).length :=
  List.idxOf_lt_length_of_mem (mem_free.2 ⟨hl, h⟩)

theorem nodup_free (hl : l.Nodup) : (free l own).Nodup := hl.filter _

theorem mem_positions {u : List Category} (hu : u ⊆ l) {i : ℕ} :
    i ∈ positions l own u ↔ ∃ f ∈ u, f ∉ own ∧ (free l own).idxOf f = i := by
  rw [positions, Finset.mem_filter, Finset.mem_range]
  constructor
  · rintro ⟨-, f, hf, hfree, h⟩
    exact ⟨f, hf, (mem_free.1 hfree).2, h⟩
  · rintro ⟨f, hf, hown, rfl⟩
    exact ⟨idxOf_lt (hu hf) hown, f, hf, mem_free.2 ⟨hu hf, hown⟩, rfl⟩

theorem idxOf_injective {f g : Category} (hf : f ∈ l) (hf' : f ∉ own) (h : (free l own).idxOf f = (free l own).idxOf g) : f = g :=
  List.idxOf_inj (mem_free.2 ⟨hf, hf'⟩) |>.1 h

theorem baseOf_positions (hl : l.Nodup) {u : List Category} (hu : u.Sublist l) (hown : own ⊆ u) : baseOf l own (positions l own u) = u := by
  have hmem : ∀ f, f ∈ baseOf l own (positions l own u) ↔ f ∈ u := by
    intro f
    rw [mem_baseOf, mem_positions hu.subset]
    constructor
    · rintro ⟨hf, h | ⟨g, hg, hgo, hgf⟩⟩
      · exact hown h
      · exact idxOf_injective (hu.subset hg) hgo hgf ▸ hg
    · intro hf
      by_cases h : f ∈ own
      · exact ⟨hu.subset hf, Or.inl h⟩
      · exact ⟨hu.subset hf, Or.inr ⟨f, hf, h, rfl⟩⟩
  have hu' : u = l.filter fun f => decide (f ∈ u) := by
    have h1 : (l.filter fun f => decide (f ∈ u)).Perm u :=
      (List.perm_ext_iff_of_nodup (hl.filter _) (hu.nodup hl)).2 fun f => by
        rw [List.mem_filter, decide_eq_true_eq]
        exact ⟨fun h => h.2, fun h => ⟨hu.subset h, h⟩⟩
    have h2 : u.Sublist (l.filter fun f => decide (f ∈ u)) := by
      have := hu.filter fun f => decide (f ∈ u)
      rwa [List.filter_eq_self.2 (by simp)] at this
    exact h2.eq_of_length_le h1.length_eq.le
  rw [hu'] 
  conv_lhs => rw [← hu']
  refine List.filter_congr fun f hf => ?_
  have := hmem f
  rw [mem_baseOf] at this
  rw [decide_eq_decide]
  constructor
  · exact fun h => this.1 ⟨hf, h⟩
  · exact fun h => (this.2 h).2

theorem positions_baseOf {S : Finset ℕ} (hl : l.Nodup) (hS : S ⊆ Finset.range (free l own).length) : positions l own (baseOf l own S) = S := by
  ext i
  rw [mem_positions baseOf_subset]
  constructor
  · rintro ⟨f, hf, hown, rfl⟩
    rcases (mem_baseOf.1 hf).2 with h | h
    · exact absurd h hown
    · exact h
  · intro hi
    have hlt := Finset.mem_range.1 (hS hi)
    have hmem := List.getElem_mem hlt
    have hidx : (free l own).idxOf (free l own)[i] = i := (nodup_free hl).idxOf_getElem i hlt
    exact ⟨(free l own)[i], mem_baseOf.2 ⟨(mem_free.1 hmem).1, Or.inr (by rw [hidx]; exact hi)⟩, (mem_free.1 hmem).2, hidx⟩

theorem length_baseOf (hl : l.Nodup) {S : Finset ℕ} (hS : S ⊆ Finset.range (free l own).length) :
    (baseOf l own S).length = (l.filter fun f => decide (f ∈ own)).length + S.card := by
  have hsplit : (baseOf l own S).length = ((baseOf l own S).filter fun f => decide (f ∈ own)).length +
      ((baseOf l own S).filter fun f => !decide (f ∈ own)).length := List.length_eq_length_filter_add _
  rw [hsplit]
  congr 1
  · congr 1
    rw [baseOf, List.filter_filter]
    refine List.filter_congr fun f _ => ?_
    by_cases h : f ∈ own <;> simp [h]
  · have hnd : ((baseOf l own S).filter fun f => !decide (f ∈ own)).Nodup := (hl.filter _).filter _
    rw [← List.toFinset_card_of_nodup hnd, ← Finset.card_image_of_injOn (f := fun f => (free l own).idxOf f)]
    · congr 1
      conv_rhs => rw [← positions_baseOf hl hS]
      ext i
      rw [mem_positions baseOf_subset]
      simp [and_assoc]
    · intro f hf g _ h
      simp only [List.coe_toFinset, List.mem_filter, Set.mem_ofPred_eq, Bool.not_eq_eq_eq_not, Bool.not_true, decide_eq_false_iff_not] at hf
      exact idxOf_injective (mem_baseOf.1 hf.1).1 hf.2 h

theorem mem_codeOf {j : ℕ} {S : Finset ℕ} {f : Category} {b : Bool} :
    (f, b) ∈ codeOf l own j S ↔ f ∈ baseOf l own S ∧ decide ((free l own).idxOf f < j) = b := by
  simp only [codeOf, List.mem_map, Prod.mk.injEq]
  constructor
  · rintro ⟨g, hg, rfl, h⟩; exact ⟨hg, h⟩
  · rintro ⟨hg, h⟩; exact ⟨f, hg, rfl, h⟩

theorem codes (hl : l.Nodup) : Codes (free l own).length (codeOf l own) where
  can := by
    intro i j S T hi hj hS hT
    rw [canAbsorb, Bool.and_eq_true, decide_eq_true_eq, List.all_eq_true]
    have hlen : ∀ j S, (codeOf l own j S).length = (baseOf l own S).length := fun j S => by rw [codeOf, List.length_map]
    rw [hlen, hlen, length_baseOf hl hS, length_baseOf hl hT]
    constructor
    · rintro ⟨h1, h2⟩
      have h3 : ∀ a ∈ T, a ∈ S ∧ (a < j ↔ a < i) := by
        intro a ha
        have hlt := Finset.mem_range.1 (hT ha)
        have hmem := List.getElem_mem hlt
        have hidx : (free l own).idxOf (free l own)[a] = a := (nodup_free hl).idxOf_getElem a hlt
        have := h2 ((free l own)[a], decide (a < j)) (mem_codeOf.2 ⟨mem_baseOf.2 ⟨(mem_free.1 hmem).1, Or.inr (by rw [hidx]; exact ha)⟩, by rw [hidx]⟩)
        rw [decide_eq_true_eq, mem_codeOf, mem_baseOf, hidx, decide_eq_decide] at this
        refine ⟨?_, this.2.symm⟩
        rcases this.1.2 with h | h
        · exact absurd h (mem_free.1 hmem).2
        · exact h
      exact ⟨by omega, fun a ha => (h3 a ha).1, fun a ha => (h3 a ha).2⟩
    · rintro ⟨h1, h2, h3⟩
      refine ⟨by omega, ?_⟩
      rintro ⟨f, b⟩ hf
      rw [decide_eq_true_eq]
      rw [mem_codeOf, mem_baseOf] at hf ⊢
      obtain ⟨⟨hfl, hf⟩, rfl⟩ := hf
      by_cases ho : f ∈ own
      · refine ⟨⟨hfl, Or.inl ho⟩, ?_⟩
        rw [idxOf_own ho, decide_eq_decide]
        omega
      · rcases hf with h | h
        · exact absurd h ho
        · refine ⟨⟨hfl, Or.inr (h2 h)⟩, ?_⟩
          rw [decide_eq_decide]
          exact (h3 _ h).symm
  absorbed := by
    intro j T hj hT hjT
    have hmap : ∀ i S (F : Category × Bool → Category × Bool), (codeOf l own i S).map F =
        (baseOf l own S).map fun f => F (f, decide ((free l own).idxOf f < i)) := fun i S F => by rw [codeOf, List.map_map]; rfl
    rw [absorb, hmap]
    conv_rhs => rw [codeOf]
    refine List.map_congr_left fun f hf => ?_
    rw [mem_baseOf, Finset.mem_insert] at hf
    by_cases h : f ∈ baseOf l own T
    · rw [if_pos (mem_codeOf.2 ⟨h, rfl⟩)]
      have hne : (free l own).idxOf f ≠ j := by
        rcases (mem_baseOf.1 h).2 with ho | hi
        · rw [idxOf_own ho]; omega
        · rintro rfl; exact hjT hi
      rw [Prod.mk.injEq, decide_eq_decide]
      exact ⟨rfl, by omega⟩
    · rw [if_neg fun hh => h (mem_codeOf.1 hh).1]
      have hj' : (free l own).idxOf f = j := by
        rcases hf.2 with ho | rfl | hi
        · exact absurd (mem_baseOf.2 ⟨hf.1, Or.inl ho⟩) h
        · rfl
        · exact absurd (mem_baseOf.2 ⟨hf.1, Or.inr hi⟩) h
      rw [hj']
      simp

theorem ordered (hl : l.Nodup) {unused : List (List Category)} (hsub : unused.Sublist (subsets l))
    (hunused : ∀ u, u ∈ unused ↔ u.Sublist l ∧ own ⊆ u) (hown : own ⊆ l) :
    Ordered (free l own).length (unused.map (positions l own)) := by
  have hcard : ∀ u ∈ unused, u.length = (l.filter fun f => decide (f ∈ own)).length + (positions l own u).card := by
    intro u hu
    obtain ⟨h1, h2⟩ := (hunused u).1 hu
    conv_lhs => rw [← baseOf_positions hl h1 h2]
    exact length_baseOf hl (Finset.filter_subset _ _)
  have hpair := (subsets_pairwise hl).sublist hsub
  refine ⟨?_, ?_, ?_, ?_⟩
  · rw [List.Nodup, List.pairwise_map]
    refine hpair.imp_of_mem ?_
    intro u v hu hv h heq
    obtain ⟨h1, h2⟩ := (hunused u).1 hu
    obtain ⟨h3, h4⟩ := (hunused v).1 hv
    have huv : u = v := by rw [← baseOf_positions hl h1 h2, heq, baseOf_positions hl h3 h4]
    subst huv
    rcases h with h | ⟨-, a, ha, ha', -⟩
    · omega
    · exact ha' ha
  · intro S
    rw [List.mem_map]
    constructor
    · rintro ⟨u, -, rfl⟩
      exact Finset.filter_subset _ _
    · intro hS
      refine ⟨baseOf l own S, (hunused _).2 ⟨List.filter_sublist, ?_⟩, positions_baseOf hl hS⟩
      exact fun f hf => mem_baseOf.2 ⟨hown hf, Or.inl hf⟩
  · rw [List.pairwise_map]
    refine hpair.imp_of_mem ?_
    intro u v hu hv h
    have h1 := hcard u hu
    have h2 := hcard v hv
    rcases h with h | ⟨h, -⟩ <;> omega
  · rw [List.pairwise_map]
    refine hpair.imp_of_mem ?_
    intro u v hu hv h W z y hzy hz hy hA hB
    have h1 := hcard u hu
    have h2 := hcard v hv
    rw [hA, Finset.card_insert_of_notMem hy] at h1
    rw [hB, Finset.card_insert_of_notMem hz] at h2
    obtain ⟨hul, huo⟩ := (hunused u).1 hu
    obtain ⟨hvl, hvo⟩ := (hunused v).1 hv
    rcases h with h | ⟨-, a, hau, hav, hb⟩
    · omega
    · have hao : a ∉ own := fun h => hav (hvo h)
      have hay : (free l own).idxOf a = y := by
        have h3 : (free l own).idxOf a ∈ positions l own u := (mem_positions hul.subset).2 ⟨a, hau, hao, rfl⟩
        rw [hA, Finset.mem_insert] at h3
        rcases h3 with h3 | h3
        · exact h3
        · have h4 : (free l own).idxOf a ∈ positions l own v := by rw [hB]; exact Finset.mem_insert_of_mem h3
          obtain ⟨g, hg, hgo, hga⟩ := (mem_positions hvl.subset).1 h4
          exact absurd (idxOf_injective (hvl.subset hg) hgo hga ▸ hg) hav
      have hzv : z ∈ positions l own v := by rw [hB]; exact Finset.mem_insert_self _ _
      obtain ⟨b, hbv, hbo, hbz⟩ := (mem_positions hvl.subset).1 hzv
      have hafree : a ∈ free l own := mem_free.2 ⟨hul.subset hau, hao⟩
      have hbfree : b ∈ free l own := mem_free.2 ⟨hvl.subset hbv, hbo⟩
      have hba : [b, a].Sublist l := by
        refine List.Sublist.trans ?_ (List.filter_sublist (l := l) (p := fun f => decide (f ∉ own)))
        change [b, a].Sublist (free l own)
        obtain ⟨s, t, hst⟩ := List.append_of_mem hbfree
        have hnb : b ∉ s := by
          have := nodup_free (own := own) hl
          rw [hst, List.nodup_append] at this
          exact fun h => this.2.2 b h b (List.mem_cons_self ..) rfl
        have hidx : (free l own).idxOf b = s.length := by
          rw [hst, List.idxOf_append_of_notMem hnb, List.idxOf_cons_self, Nat.add_zero]
        have hat : a ∈ t := by
          rw [hst] at hafree
          rcases List.mem_append.1 hafree with h | h
          · exfalso
            have : (free l own).idxOf a < s.length := by
              rw [hst, List.idxOf_append_of_mem h]
              exact List.idxOf_lt_length_of_mem h
            omega
          · rcases List.mem_cons.1 h with rfl | h
            · omega
            · exact h
        rw [hst]
        exact ((List.singleton_sublist.2 hat).cons_cons b).trans (List.sublist_append_right _ _)
      have hbu : b ∈ u := (hb b hba).2 hbv
      have h5 : z ∈ positions l own u := (mem_positions hul.subset).2 ⟨b, hbu, hbo, hbz⟩
      rw [hA, Finset.mem_insert] at h5
      rcases h5 with h5 | h5
      · omega
      · exact hz h5

/-- If subsets that are not used before are all those with some factors, there is one coding: these factors have no first level, and all others
have all levels. -/
theorem simplify_nested (hl : l.Nodup) {unused : List (List Category)} (hsub : unused.Sublist (subsets l))
    (hunused : ∀ u, u ∈ unused ↔ u.Sublist l ∧ own ⊆ u) (hown : own ⊆ l) :
    simplify unused.length (unused.map fun s => s.map fun f => (f, false)) = [l.map fun f => (f, decide (f ∉ own))] := by
  have hmap : (unused.map fun s => s.map fun f => (f, false)) = (unused.map (positions l own)).map (codeOf l own 0) := by
    rw [List.map_map]
    refine List.map_congr_left fun u hu => ?_
    obtain ⟨h1, h2⟩ := (hunused u).1 hu
    rw [Function.comp_apply, codeOf, baseOf_positions hl h1 h2]
    simp
  have hlen : unused.length = (unused.map (positions l own)).length := by rw [List.length_map]
  rw [hmap, hlen, simplify_all (codes hl) (ordered hl hsub hunused hown), codeOf]
  have hbase : baseOf l own (Finset.range (free l own).length) = l := by
    rw [baseOf, List.filter_eq_self]
    intro f hf
    rw [decide_eq_true_eq]
    by_cases h : f ∈ own
    · exact Or.inl h
    · exact Or.inr (Finset.mem_range.2 (idxOf_lt hf h))
  rw [hbase]
  congr 1
  refine List.map_congr_left fun f hf => ?_
  rw [Prod.mk.injEq, decide_eq_decide]
  refine ⟨rfl, ?_⟩
  by_cases h : f ∈ own
  · rw [idxOf_own h]; simp [h]
  · simp [h, idxOf_lt hf h]

end term

/-! ### What codings span -/

/-- A set of factors is spanned by a coding: it has all factors that are coded without the first level, and none that are not coded. -/
def Spans (k : Coding) (u : List Category) : Prop := (∀ f, (f, false) ∈ k → f ∈ u) ∧ ∀ f ∈ u, f ∈ k.map Prod.fst

/-- Codings of different factors that do not span the same sets, and that span the sets of a list. -/
structure Partition (unused : List (List Category)) (L : List Coding) : Prop where
  once : ∀ k ∈ L, (k.map Prod.fst).Nodup
  disjoint : L.Pairwise fun k k' => ∀ u, Spans k u → Spans k' u → False
  spans : ∀ u, (∃ k ∈ L, Spans k u) ↔ ∃ v ∈ unused, u ⊆ v ∧ v ⊆ u

theorem partition_perm {unused : List (List Category)} {L L' : List Coding} (h : L.Perm L') (hL : Partition unused L) : Partition unused L' where
  once k hk := hL.once k (h.mem_iff.2 hk)
  disjoint := (h.pairwise_iff fun {a b} h u ha hb => h u hb ha).1 hL.disjoint
  spans u := by
    rw [← hL.spans]
    constructor <;> rintro ⟨k, hk, h1⟩
    · exact ⟨k, h.mem_iff.2 hk, h1⟩
    · exact ⟨k, h.mem_iff.1 hk, h1⟩

theorem spans_absorb {S T : Coding} (hS : (S.map Prod.fst).Nodup) (hT : (T.map Prod.fst).Nodup) (hcan : canAbsorb S T = true)
    (hdisj : ∀ u, Spans T u → Spans S u → False) :
    ((absorb S T).map Prod.fst = S.map Prod.fst) ∧ ∀ u, Spans (absorb S T) u ↔ Spans T u ∨ Spans S u := by
  have hfst : (absorb S T).map Prod.fst = S.map Prod.fst := by
    rw [absorb, List.map_map]
    refine List.map_congr_left fun f _ => ?_
    rw [Function.comp_apply]
    split_ifs <;> rfl
  refine ⟨hfst, ?_⟩
  rw [canAbsorb, Bool.and_eq_true, decide_eq_true_eq, List.all_eq_true] at hcan
  obtain ⟨hlen, hsub⟩ := hcan
  have hsub : T ⊆ S := fun f hf => by simpa using hsub f hf
  obtain ⟨y, hy⟩ := (List.subperm_of_subset hT.of_map hsub).exists_of_length_lt (by omega)
  have hperm : (y :: T).Perm S := hy.perm_of_length_le (by simp [hlen])
  have hyT : y.1 ∉ T.map Prod.fst := by
    have := (hperm.map Prod.fst).nodup_iff.2 hS
    rw [List.map_cons, List.nodup_cons] at this
    exact this.1
  have hmemS : ∀ f, f ∈ S ↔ f = y ∨ f ∈ T := fun f => by rw [← hperm.mem_iff, List.mem_cons]
  have hfstS : ∀ g, g ∈ S.map Prod.fst ↔ g = y.1 ∨ g ∈ T.map Prod.fst := fun g => by
    rw [← (hperm.map Prod.fst).mem_iff, List.map_cons, List.mem_cons]
  have hyf : y.2 = false := by
    by_contra hc
    refine hdisj (T.map Prod.fst) ⟨fun f hf => List.mem_map_of_mem hf, fun f hf => hf⟩ ⟨?_, ?_⟩
    · intro f hf
      rcases (hmemS _).1 hf with h | h
      · exact absurd (by rw [← h]) hc
      · exact List.mem_map_of_mem h
    · exact fun f hf => (hfstS f).2 (Or.inr hf)
  have hfalse : ∀ f, (f, false) ∈ absorb S T ↔ (f, false) ∈ T := by
    intro f
    rw [absorb, List.mem_map]
    constructor
    · rintro ⟨g, hg, h⟩
      by_cases hgT : g ∈ T
      · rw [if_pos hgT] at h; exact h ▸ hgT
      · rw [if_neg hgT] at h; simp at h
    · intro hf
      exact ⟨(f, false), hsub hf, if_pos hf⟩
  intro u
  unfold Spans
  rw [hfst]
  simp only [hfalse]
  constructor
  · rintro ⟨h1, h2⟩
    by_cases hu : y.1 ∈ u
    · refine Or.inr ⟨?_, h2⟩
      intro f hf
      rcases (hmemS _).1 hf with h | h
      · rw [← h] at hu; exact hu
      · exact h1 f h
    · refine Or.inl ⟨h1, ?_⟩
      intro f hf
      rcases (hfstS f).1 (h2 f hf) with h | h
      · exact absurd (h ▸ hf) hu
      · exact h
  · rintro (⟨h1, h2⟩ | ⟨h1, h2⟩)
    · exact ⟨h1, fun f hf => (hfstS f).2 (Or.inr (h2 f hf))⟩
    · exact ⟨fun f hf => h1 f (hsub hf), h2⟩

theorem partition_simplifyOne {unused : List (List Category)} {L l : List Coding} (hL : Partition unused L) (h : simplifyOne L = some l) :
    Partition unused l := by
  rw [← List.map_id L] at h
  obtain ⟨A, T, B, S, C, h1, h2, hcan, -, -⟩ := simplifyOne_some h
  simp only [List.map_id, id_eq] at h2 hcan
  have hperm : L.Perm (T :: S :: (A ++ (B ++ C))) := by
    rw [h1]
    refine List.perm_middle.trans (List.Perm.cons _ ?_)
    rw [← List.append_assoc, ← List.append_assoc]
    exact List.perm_middle
  have hperm' : l.Perm (absorb S T :: (A ++ (B ++ C))) := by
    rw [h2, ← List.append_assoc, ← List.append_assoc]
    exact List.perm_middle
  have hP := partition_perm hperm hL
  refine partition_perm hperm'.symm ?_
  have hd := List.pairwise_cons.1 hP.disjoint
  have hd2 := List.pairwise_cons.1 hd.2
  obtain ⟨hfst, hspans⟩ := spans_absorb (hP.once S (by simp)) (hP.once T (by simp)) hcan (hd.1 S (by simp))
  refine ⟨?_, ?_, ?_⟩
  · intro k hk
    rcases List.mem_cons.1 hk with rfl | hk
    · rw [hfst]; exact hP.once S (by simp)
    · exact hP.once k (List.mem_cons_of_mem _ (List.mem_cons_of_mem _ hk))
  · refine List.pairwise_cons.2 ⟨?_, hd2.2⟩
    intro k hk u hu hku
    rcases (hspans u).1 hu with h | h
    · exact hd.1 k (List.mem_cons_of_mem _ hk) u h hku
    · exact hd2.1 k hk u h hku
  · intro u
    rw [← hP.spans]
    simp only [List.mem_cons, exists_eq_or_imp, hspans, or_assoc]

theorem partition_simplify {unused : List (List Category)} : ∀ (n : ℕ) (L : List Coding), Partition unused L → Partition unused (simplify n L) := by
  intro n
  induction n with
  | zero => exact fun L hL => hL
  | succ n ih =>
    intro L hL
    rw [simplify]
    cases h : simplifyOne L with
    | none => exact hL
    | some l => exact ih l (partition_simplifyOne hL h)

/-- If all codings have all factors, the subsets that are not used before are all those with some factors. -/
theorem nested_of_complete {l : List Category} (hl : l.Nodup) {unused : List (List Category)} (hsub : unused.Sublist (subsets l)) (hmem : l ∈ unused)
    (h : ∀ k ∈ simplify unused.length (unused.map fun s => s.map fun f => (f, false)), k.map Prod.fst = l) :
    ∃ own, own ⊆ l ∧ ∀ u, u ∈ unused ↔ u.Sublist l ∧ own ⊆ u := by
  have hsubl : ∀ u ∈ unused, u.Sublist l := fun u hu => mem_subsets.1 (hsub.subset hu)
  have hfst : ∀ s : List Category, (s.map fun f => (f, false)).map Prod.fst = s := fun s => by simp [Function.comp_def]
  have hspan : ∀ s u, Spans (s.map fun f => (f, false)) u ↔ s ⊆ u ∧ u ⊆ s := by
    intro s u
    unfold Spans
    rw [hfst]
    constructor
    · exact fun h => ⟨fun f hf => h.1 f (List.mem_map.2 ⟨f, hf, rfl⟩), h.2⟩
    · refine fun h => ⟨fun f hf => ?_, h.2⟩
      obtain ⟨g, hg, hgf⟩ := List.mem_map.1 hf
      rw [Prod.mk.injEq] at hgf
      exact h.1 (hgf.1 ▸ hg)
  have hset : ∀ u v : List Category, u.Sublist l → v.Sublist l → u ⊆ v → v ⊆ u → u = v := by
    intro u v hu hv h1 h2
    have hfil : ∀ w : List Category, w.Sublist l → w = l.filter fun f => decide (f ∈ w) := by
      intro w hw
      have h3 : w.Sublist (l.filter fun f => decide (f ∈ w)) := by
        have := hw.filter fun f => decide (f ∈ w)
        rwa [List.filter_eq_self.2 (by simp)] at this
      refine h3.eq_of_length_le ?_
      exact (List.subperm_of_subset (hl.filter _) fun f hf => by simpa using (List.mem_filter.1 hf).2).length_le
    rw [hfil u hu, hfil v hv]
    refine List.filter_congr fun f _ => ?_
    rw [decide_eq_decide]
    exact ⟨fun h => h1 h, fun h => h2 h⟩
  have h0 : Partition unused (unused.map fun s => s.map fun f => (f, false)) := by
    refine ⟨?_, ?_, ?_⟩
    · intro k hk
      obtain ⟨s, hs, rfl⟩ := List.mem_map.1 hk
      rw [hfst]
      exact (hsubl s hs).nodup hl
    · rw [List.pairwise_map]
      refine ((subsets_pairwise hl).sublist hsub).imp_of_mem ?_
      intro s s' hs hs' hlt u h1 h2
      rw [hspan] at h1 h2
      have heq : s = s' := hset s s' (hsubl s hs) (hsubl s' hs') (fun f hf => h2.2 (h1.1 hf)) fun f hf => h1.2 (h2.1 hf)
      subst heq
      rcases hlt with h | ⟨-, a, ha, ha', -⟩
      · omega
      · exact ha' ha
    · intro u
      constructor
      · rintro ⟨k, hk, hku⟩
        obtain ⟨s, hs, rfl⟩ := List.mem_map.1 hk
        exact ⟨s, hs, ((hspan s u).1 hku).2, ((hspan s u).1 hku).1⟩
      · rintro ⟨s, hs, h1, h2⟩
        exact ⟨_, List.mem_map.2 ⟨s, hs, rfl⟩, (hspan s u).2 ⟨h2, h1⟩⟩
  have hP := partition_simplify unused.length _ h0
  obtain ⟨k, hk, hkl⟩ := (hP.spans l).2 ⟨l, hmem, List.Subset.refl _, List.Subset.refl _⟩
  have hall : ∀ k' ∈ simplify unused.length (unused.map fun s => s.map fun f => (f, false)), Spans k' l := by
    intro k' hk'
    refine ⟨fun f hf => ?_, fun f hf => by rw [h k' hk']; exact hf⟩
    rw [← h k' hk']
    exact List.mem_map_of_mem hf
  have hone : ∀ k' ∈ simplify unused.length (unused.map fun s => s.map fun f => (f, false)), k' = k := by
    intro k' hk'
    by_contra hne
    have : ∀ (L : List Coding), (L.Pairwise fun k k' => ∀ u, Spans k u → Spans k' u → False) → k ∈ L → k' ∈ L →
        Spans k l → Spans k' l → False := by
      intro L hp h1 h2 h3 h4
      induction L with
      | nil => simp at h1
      | cons a L ih =>
        rw [List.pairwise_cons] at hp
        rcases List.mem_cons.1 h1 with e1 | h1
        · rcases List.mem_cons.1 h2 with e2 | h2
          · exact hne (e2.trans e1.symm)
          · exact hp.1 k' h2 l (e1 ▸ h3) h4
        · rcases List.mem_cons.1 h2 with e2 | h2
          · exact hp.1 k h1 l (e2 ▸ h4) h3
          · exact ih hp.2 h1 h2
    exact this _ hP.disjoint hk hk' hkl (hall k' hk')
  refine ⟨l.filter fun f => decide ((f, false) ∈ k), List.filter_sublist.subset, ?_⟩
  have hown : ∀ u, (∀ f, (f, false) ∈ k → f ∈ u) ↔ (l.filter fun f => decide ((f, false) ∈ k)) ⊆ u := by
    intro u
    constructor
    · intro hu f hf
      exact hu f (by simpa using (List.mem_filter.1 hf).2)
    · intro hu f hf
      refine hu (List.mem_filter.2 ⟨?_, by simpa using hf⟩)
      rw [← h k hk]
      exact List.mem_map_of_mem hf
  intro u
  rw [← hown]
  constructor
  · intro hu
    obtain ⟨k', hk', hku⟩ := (hP.spans u).2 ⟨u, hu, List.Subset.refl _, List.Subset.refl _⟩
    rw [hone k' hk'] at hku
    exact ⟨hsubl u hu, hku.1⟩
  · rintro ⟨hul, hu⟩
    obtain ⟨v, hv, h1, h2⟩ := (hP.spans u).1 ⟨k, hk, hu, fun f hf => by rw [h k hk]; exact hul.subset hf⟩
    rw [hset u v hul (hsubl v hv) h1 h2]
    exact hv

end Formula
end Pyblp
