import Verif.Props.Parameters

/-!
# C45: which starting values and bounds are accepted
-/

namespace Pyblp

open Classical

namespace Spec

/-- Whether the problem has parameters of some kind at all. -/
def Has (e : ParamInputs) : Block → Prop
  | .sigma => 0 < e.K2
  | .pi => 0 < e.K2 ∧ 0 < e.D
  | .rho => 0 < e.H
  | .phi => e.hasLags = true
  | .beta => 0 < e.K1
  | .gamma => 0 < e.K3

/-- Shapes of starting values that a user can supply. One nesting parameter may be supplied for all groups, and there is one
autoregressive parameter for each side of the market. -/
def ShapeOk (e : ParamInputs) (rows cols : ℕ) : Block → Prop
  | .sigma => rows = e.K2 ∧ cols = e.K2
  | .pi => rows = e.K2 ∧ cols = e.D
  | .rho => (rows = e.H ∨ (rows = 1 ∧ 0 < e.H)) ∧ cols = 1
  | .phi => rows = (if e.K3 > 0 then 2 else 1) ∧ cols = if e.hasLags then (if e.K3 > 0 then 2 else 1) else 0
  | .beta => rows = e.K1 ∧ cols = 1
  | .gamma => rows = e.K3 ∧ cols = 1

/-- Shape of starting values: as supplied or, if not supplied, empty except for coefficients that are concentrated out. -/
def dims (e : ParamInputs) (b : Block) : ℕ × ℕ :=
  match e.values b with
  | some m => (m.rows, m.cols)
  | none => match b with
    | .beta => (e.K1, 1)
    | .gamma => (e.K3, 1)
    | _ => (0, 0)

/-- Starting values and bounds that should be accepted. -/
structure Accepted (e : ParamInputs) : Prop where
  /-- Starting values that are needed are supplied, except for coefficients that can be concentrated out. -/
  supplied : ∀ b, Has e b → e.values b = none → Linear b ∧ e.allowLinearNans = true
  /-- Supplied starting values have the right shape. -/
  shape : ∀ b m, e.values b = some m → ShapeOk e m.rows m.cols b
  /-- Only coefficients that can be concentrated out are NaN. -/
  nan : ∀ b m i j, e.values b = some m → i < m.rows → j < m.cols → m.entry i j = none → Linear b ∧ e.allowLinearNans = true
  /-- There is a column of integration nodes for each column of `sigma` in which anything is not zero. -/
  nodes : ((Finset.range e.K2).filter fun j => ∃ i < e.K2, start e .sigma i j ≠ some 0).card ≤ e.nodeColumns
  /-- With a supply side, coefficients on prices are not concentrated out. -/
  alpha : e.checkAlpha = true → 0 < e.K3 → ∀ k < e.K1, e.usesPrices k = true → start e .beta k 0 ≠ none
  /-- Bounds have the shape of starting values, and starting values are within bounds. -/
  bounds : ∀ b lb ub, e.bounds b = some (lb, ub) → 0 < (dims e b).1 → 0 < (dims e b).2 →
    (lb.rows, lb.cols) = dims e b ∧ (ub.rows, ub.cols) = dims e b ∧
      ∀ i < (dims e b).1, ∀ j < (dims e b).2, ∀ x, start e b i j = some x → userLower lb i j ≤ x ∧ x ≤ userUpper ub i j

end Spec

lemma allowNans_iff (e : ParamInputs) (b : Block) : e.allowNans b = true ↔ Spec.Linear b ∧ e.allowLinearNans = true := by
  cases b <;> simp [ParamInputs.allowNans, Spec.Linear]

lemma shapes_all (e : ParamInputs) (b : Block) :
    ((e.shapes b).all fun s => decide (s.1 * s.2 > 0)) = true ↔ Spec.Has e b := by
  cases b <;> simp [ParamInputs.shapes, Spec.Has]
  cases e.hasLags <;> simp

lemma mem_shapes (e : ParamInputs) (b : Block) (m : FMatrix) :
    (decide (m.rows * m.cols > 0) = (e.shapes b).all (fun s => decide (s.1 * s.2 > 0)) ∧ (m.rows, m.cols) ∈ e.shapes b) ↔
      Spec.ShapeOk e m.rows m.cols b := by
  rw [Bool.eq_iff_iff, shapes_all]
  cases b with
  | sigma =>
    simp only [ParamInputs.shapes, Spec.Has, Spec.ShapeOk, List.mem_singleton, Prod.mk.injEq, decide_eq_true_eq, gt_iff_lt]
    constructor
    · exact fun h => h.2
    · rintro ⟨h1, h2⟩; simp [h1, h2]
  | pi =>
    simp only [ParamInputs.shapes, Spec.Has, Spec.ShapeOk, List.mem_singleton, Prod.mk.injEq, decide_eq_true_eq, gt_iff_lt]
    constructor
    · exact fun h => h.2
    · rintro ⟨h1, h2⟩; simp [h1, h2]
  | rho =>
    simp only [ParamInputs.shapes, Spec.Has, Spec.ShapeOk, List.mem_cons, List.not_mem_nil, or_false, Prod.mk.injEq, decide_eq_true_eq,
      gt_iff_lt]
    constructor
    · rintro ⟨h0, ⟨h1, h2⟩ | ⟨h1, h2⟩⟩
      · exact ⟨Or.inl h1, h2⟩
      · exact ⟨Or.inr ⟨h1, h0.1 (by rw [h1, h2]; norm_num)⟩, h2⟩
    · rintro ⟨h1 | ⟨h1, h0⟩, h2⟩
      · exact ⟨by rw [h1, h2, mul_one], Or.inl ⟨h1, h2⟩⟩
      · exact ⟨by rw [h1, h2]; simp [h0], Or.inr ⟨h1, h2⟩⟩
  | phi =>
    simp only [ParamInputs.shapes, Spec.Has, Spec.ShapeOk, List.mem_singleton, Prod.mk.injEq, decide_eq_true_eq, gt_iff_lt]
    by_cases hl : e.hasLags = true <;> by_cases hk : 0 < e.K3 <;> simp only [hl, hk, if_true, if_false, Bool.false_eq_true] <;>
      constructor
    all_goals first
      | exact fun h => h.2
      | (rintro ⟨h1, h2⟩; simp [h1, h2])
  | beta =>
    simp only [ParamInputs.shapes, Spec.Has, Spec.ShapeOk, List.mem_singleton, Prod.mk.injEq, decide_eq_true_eq, gt_iff_lt]
    constructor
    · exact fun h => h.2
    · rintro ⟨h1, h2⟩; simp [h1, h2]
  | gamma =>
    simp only [ParamInputs.shapes, Spec.Has, Spec.ShapeOk, List.mem_singleton, Prod.mk.injEq, decide_eq_true_eq, gt_iff_lt]
    constructor
    · exact fun h => h.2
    · rintro ⟨h1, h2⟩; simp [h1, h2]

/-- Shapes of matrices that are filled with NaNs. -/
lemma nan_dims (e : ParamInputs) (b : Block) (h : ¬ Spec.Has e b ∨ Spec.Linear b) :
    ((e.shapes b).headD (0, 0)).1 * ((e.shapes b).headD (0, 0)).2 = 0 ∨
      (Spec.Linear b ∧ (e.shapes b).headD (0, 0) = match b with | .beta => (e.K1, 1) | .gamma => (e.K3, 1) | _ => (0, 0)) := by
  by_cases hl : Spec.Linear b
  · refine Or.inr ⟨hl, ?_⟩
    rcases hl with rfl | rfl <;> rfl
  · left
    have h' := h.resolve_right hl
    cases b <;> simp_all [ParamInputs.shapes, Spec.Has, Spec.Linear]
    omega

/-- When a matrix is accepted. -/
lemma initializeMatrix_iff (e : ParamInputs) (b : Block) :
    (∃ m, initializeMatrix (e.values b) (e.shapes b) (e.allowNans b) = .ok m) ↔
      (Spec.Has e b → e.values b = none → Spec.Linear b ∧ e.allowLinearNans = true) ∧
      (∀ m, e.values b = some m → Spec.ShapeOk e m.rows m.cols b) ∧
      (∀ m i j, e.values b = some m → i < m.rows → j < m.cols → m.entry i j = none → Spec.Linear b ∧ e.allowLinearNans = true) := by
  unfold initializeMatrix
  cases hv : e.values b with
  | none =>
    simp only [and_true, Option.isSome_none, Bool.false_eq_true, false_and, decide_false, Option.getD_none, reduceCtorEq, false_implies,
      implies_true, forall_true_left]
    by_cases ha : e.allowNans b = true
    · rw [if_pos ha]
      exact ⟨fun _ _ => (allowNans_iff e b).mp ha, fun _ => ⟨_, rfl⟩⟩
    · rw [if_neg ha]
      have ha' : ¬(Spec.Linear b ∧ e.allowLinearNans = true) := fun h => ha ((allowNans_iff e b).mpr h)
      by_cases hh : Spec.Has e b
      · rw [if_pos (by rw [(shapes_all e b).mpr hh]; simp)]
        constructor
        · rintro ⟨_, h⟩; cases h
        · exact fun h => absurd (h hh) ha'
      · have h1 : ((e.shapes b).all fun s => decide (s.1 * s.2 > 0)) = false := by
          rw [Bool.eq_false_iff]; exact fun h => hh ((shapes_all e b).mp h)
        rw [if_neg (by rw [h1]; simp), if_neg (by cases b <;> simp [ParamInputs.shapes]), if_neg]
        · exact ⟨fun _ h => absurd h hh, fun _ => ⟨_, rfl⟩⟩
        · have h2 : ((e.shapes b).headD (0, 0)).1 * ((e.shapes b).headD (0, 0)).2 = 0 := by
            cases b <;> simp_all [ParamInputs.shapes, Spec.Has]
            omega
          intro hex
          have h3 := hex.2
          generalize ((e.shapes b).headD (0, 0)).1 = r at h2 h3
          generalize ((e.shapes b).headD (0, 0)).2 = c at h2 h3
          obtain ⟨i, hi, j, hj⟩ := h3
          rcases Nat.mul_eq_zero.1 h2 with h2 | h2 <;> omega
  | some m =>
    have hs := mem_shapes e b m
    simp only [reduceCtorEq, and_false, if_false, Option.isSome_some, true_and, Option.getD_some, Option.some.injEq, forall_eq',
      false_implies, implies_true, ne_eq]
    by_cases h1 : decide (m.rows * m.cols > 0) = (e.shapes b).all fun s => decide (s.1 * s.2 > 0)
    swap
    · rw [if_pos h1]
      constructor
      · rintro ⟨_, h⟩; cases h
      · exact fun h => absurd (hs.mpr h.1).1 h1
    rw [if_neg (not_not.mpr h1)]
    by_cases h2 : (m.rows, m.cols) ∈ e.shapes b
    swap
    · rw [if_pos h2]
      constructor
      · rintro ⟨_, h⟩; cases h
      · exact fun h => absurd (hs.mpr h.1).2 h2
    rw [if_neg (not_not.mpr h2)]
    by_cases h3 : e.allowNans b = false ∧ ∃ i < m.rows, ∃ j < m.cols, m.entry i j = none
    · rw [if_pos h3]
      constructor
      · rintro ⟨_, h⟩; cases h
      · rintro ⟨-, h⟩
        obtain ⟨ha, i, hi, j, hj, hn⟩ := h3
        rw [(allowNans_iff e b).mpr (h m i j rfl hi hj hn)] at ha
        cases ha
    · rw [if_neg h3]
      refine ⟨fun _ => ⟨hs.mp ⟨h1, h2⟩, fun m' i j hm hi hj hn => ?_⟩, fun _ => ⟨_, rfl⟩⟩
      subst hm
      rw [← allowNans_iff]
      by_contra ha
      exact h3 ⟨by simpa using ha, i, hi, j, hj, hn⟩

/-- When bounds are accepted. -/
lemma initializeBounds_iff (m : FMatrix) (user : Option (FMatrix × FMatrix)) (bounded : Bool) :
    (∃ bounds, initializeBounds m user bounded = .ok bounds) ↔
      ∀ lb ub, user = some (lb, ub) → 0 < m.rows → 0 < m.cols →
        (lb.rows, lb.cols) = (m.rows, m.cols) ∧ (ub.rows, ub.cols) = (m.rows, m.cols) ∧
          ∀ i < m.rows, ∀ j < m.cols, ∀ x, m.entry i j = some x → Spec.userLower lb i j ≤ x ∧ x ≤ Spec.userUpper ub i j := by
  have hlow : ∀ (lb : FMatrix) i j, (lb.entry i j).getD ⊥ = Spec.userLower lb i j := fun lb i j => by
    unfold Spec.userLower; cases lb.entry i j <;> rfl
  have hup : ∀ (ub : FMatrix) i j, (ub.entry i j).getD ⊤ = Spec.userUpper ub i j := fun ub i j => by
    unfold Spec.userUpper; cases ub.entry i j <;> rfl
  have h0 : (∃ bounds, initializeBounds m user bounded = .ok bounds) ↔ ∃ bounds, validateBounds m user = .ok bounds := by
    unfold initializeBounds
    cases validateBounds m user <;> simp
  rw [h0]
  unfold validateBounds
  cases user with
  | none => simp
  | some u =>
    obtain ⟨lb, ub⟩ := u
    simp only [hlow, hup, Option.some.injEq, Prod.mk.injEq, and_imp]
    by_cases h1 : m.rows * m.cols = 0
    · rw [if_pos h1]
      refine ⟨fun _ lb' ub' _ _ hr hc => ?_, fun _ => ⟨_, rfl⟩⟩
      rcases Nat.mul_eq_zero.1 h1 with h1 | h1 <;> omega
    rw [if_neg h1]
    have hr : 0 < m.rows := Nat.pos_of_ne_zero fun h => h1 (by rw [h, zero_mul])
    have hc : 0 < m.cols := Nat.pos_of_ne_zero fun h => h1 (by rw [h, mul_zero])
    by_cases h2 : (lb.rows, lb.cols) = (m.rows, m.cols)
    swap
    · rw [if_pos (by simpa using h2)]
      constructor
      · rintro ⟨_, h⟩; cases h
      · exact fun h => absurd (Prod.ext_iff.mpr (h lb ub rfl rfl hr hc).1) h2
    rw [if_neg (not_not.mpr (by simpa using h2))]
    by_cases h3 : (ub.rows, ub.cols) = (m.rows, m.cols)
    swap
    · rw [if_pos (by simpa using h3)]
      constructor
      · rintro ⟨_, h⟩; cases h
      · exact fun h => absurd (Prod.ext_iff.mpr (h lb ub rfl rfl hr hc).2.1) h3
    rw [if_neg (not_not.mpr (by simpa using h3))]
    by_cases h4 : ∃ i < m.rows, ∃ j < m.cols,
        Fl.lt (m.entry i j) (some (Spec.userLower lb i j)) ∨ Fl.lt (some (Spec.userUpper ub i j)) (m.entry i j)
    · rw [if_pos h4]
      constructor
      · rintro ⟨_, h⟩; cases h
      · intro h
        have h5 := (h lb ub rfl rfl hr hc).2.2
        obtain ⟨i, hi, j, hj, ⟨x, y, hx, hy, hlt⟩ | ⟨x, y, hx, hy, hlt⟩⟩ := h4
        · rw [← Option.some.inj hy] at hlt
          exact absurd (h5 i hi j hj x hx).1 (not_le.mpr hlt)
        · rw [← Option.some.inj hx] at hlt
          exact absurd (h5 i hi j hj y hy).2 (not_le.mpr hlt)
    · rw [if_neg h4]
      refine ⟨fun _ lb' ub' hl hu _ _ => ?_, fun _ => ⟨_, rfl⟩⟩
      subst hl hu
      refine ⟨by simpa using h2, by simpa using h3, fun i hi j hj x hx => ?_⟩
      push Not at h4
      have h5 := h4 i hi j hj
      exact ⟨not_lt.mp fun h => h5.1 ⟨x, _, hx, rfl, h⟩, not_lt.mp fun h => h5.2 ⟨_, x, rfl, hx, h⟩⟩

lemma forBlocks_iff {α : Type} (f : Block → Except PyErr α) : (∃ g, forBlocks f = .ok g) ↔ ∀ b, ∃ a, f b = .ok a := by
  constructor
  · rintro ⟨g, h⟩ b
    exact ⟨_, forBlocks_ok h b⟩
  · intro h
    choose g hg using h
    exact ⟨g, forBlocks_of hg⟩

/-- **C45.** Starting values and bounds are accepted if and only if supplied matrices are those that the problem needs, have the right
shapes, have no NaNs other than for coefficients that can be concentrated out, need no more integration nodes than there are, concentrate
out no coefficients on prices if there is a supply side, and are within bounds. -/
theorem C45_accepted (e : ParamInputs) : (∃ p, buildParameters e = .ok p) ↔ Spec.Accepted e := by
  unfold buildParameters
  have hmat : (∃ raw, forBlocks (fun b => initializeMatrix (e.values b) (e.shapes b) (e.allowNans b)) = .ok raw) ↔
      ∀ b, (Spec.Has e b → e.values b = none → Spec.Linear b ∧ e.allowLinearNans = true) ∧
      (∀ m, e.values b = some m → Spec.ShapeOk e m.rows m.cols b) ∧
      (∀ m i j, e.values b = some m → i < m.rows → j < m.cols → m.entry i j = none → Spec.Linear b ∧ e.allowLinearNans = true) := by
    rw [forBlocks_iff]
    exact forall_congr' fun b => initializeMatrix_iff e b
  cases hraw : forBlocks (fun b => initializeMatrix (e.values b) (e.shapes b) (e.allowNans b)) with
  | error x =>
    constructor
    · rintro ⟨_, h⟩; cases h
    · intro h
      obtain ⟨raw, hr⟩ := hmat.mpr fun b => ⟨h.supplied b, h.shape b, h.nan b⟩
      rw [hraw] at hr
      cases hr
  | ok raw =>
    have hv := hmat.mp ⟨raw, hraw⟩
    have hm := fun b => initializeMatrix_ok (by cases b <;> simp [ParamInputs.shapes]) (forBlocks_ok hraw b)
    have hstart : ∀ b i j, (withUpper raw b).entry i j = Spec.start e b i j := by
      intro b i j
      unfold withUpper Spec.start fillUpper
      by_cases hb : b = .sigma
      · by_cases hij : i < j
        · simp [hb, hij]
        · subst hb
          simp only [if_true, hij, and_false, if_false]
          rw [(hm .sigma).2.1]
          unfold givenEntry
          cases e.values .sigma <;> rfl
      · simp only [hb, false_and, if_false]
        rw [(hm b).2.1]
        unfold givenEntry
        cases e.values b <;> rfl
    have hshape : ∀ b, ((withUpper raw b).rows, (withUpper raw b).cols) = ((raw b).rows, (raw b).cols) := fun b => by
      unfold withUpper fillUpper
      by_cases hb : b = .sigma
      · rw [if_pos hb]
      · rw [if_neg hb]
    have hdims : ∀ b, ((raw b).rows, (raw b).cols) = Spec.dims e b ∨
        ((raw b).rows * (raw b).cols = 0 ∧ (Spec.dims e b).1 * (Spec.dims e b).2 = 0) := by
      intro b
      unfold Spec.dims
      cases hval : e.values b with
      | some m =>
        rw [(hm b).2.2.2 m hval]
        exact Or.inl rfl
      | none =>
        have hmem := (hm b).1
        have hh := (hv b).1
        by_cases hl : Spec.Linear b
        · left
          rcases hl with rfl | rfl <;> simpa [ParamInputs.shapes] using hmem
        · right
          have hn : ¬ Spec.Has e b := fun h => hl (hh h hval).1
          have hok := forBlocks_ok hraw b
          rw [hval] at hok
          have hal : e.allowNans b = false := by
            rw [Bool.eq_false_iff]
            exact fun h => hl ((allowNans_iff e b).mp h).1
          have hr : raw b = ⟨((e.shapes b).headD (0, 0)).1, ((e.shapes b).headD (0, 0)).2, fun _ _ => none⟩ := by
            unfold initializeMatrix at hok
            simp only [hal, Bool.false_eq_true, false_and, if_false, Option.getD_none] at hok
            split at hok
            · cases hok
            · split at hok
              · cases hok
              · split at hok
                · cases hok
                · exact (Except.ok.inj hok).symm
          rw [hr]
          refine ⟨(nan_dims e b (Or.inl hn)).resolve_right fun h => hl h.1, ?_⟩
          cases b <;> first | rfl | exact absurd (Or.inl rfl) hl | exact absurd (Or.inr rfl) hl
    have hnodes : nonzeroColumns e.K2 (withUpper raw .sigma) =
        ((Finset.range e.K2).filter fun j => ∃ i < e.K2, Spec.start e .sigma i j ≠ some 0).card := by
      unfold nonzeroColumns
      simp only [hstart]
      rw [List.countP_eq_length_filter]
      rfl
    have hbounds : (∃ b0, forBlocks (fun b => initializeBounds (withUpper raw b) (e.bounds b) e.bounded) = .ok b0) ↔
        ∀ b lb ub, e.bounds b = some (lb, ub) → 0 < (Spec.dims e b).1 → 0 < (Spec.dims e b).2 →
          (lb.rows, lb.cols) = Spec.dims e b ∧ (ub.rows, ub.cols) = Spec.dims e b ∧
          ∀ i < (Spec.dims e b).1, ∀ j < (Spec.dims e b).2, ∀ x, Spec.start e b i j = some x →
            Spec.userLower lb i j ≤ x ∧ x ≤ Spec.userUpper ub i j := by
      rw [forBlocks_iff]
      refine forall_congr' fun b => ?_
      rw [initializeBounds_iff]
      simp only [hstart]
      rcases hdims b with h | ⟨h1, h2⟩
      · rw [← h, hshape b]
        have h1 : (withUpper raw b).rows = (raw b).rows := congrArg Prod.fst (hshape b)
        have h2 : (withUpper raw b).cols = (raw b).cols := congrArg Prod.snd (hshape b)
        rw [h1, h2]
      · have h3 : (withUpper raw b).rows = (raw b).rows := congrArg Prod.fst (hshape b)
        have h4 : (withUpper raw b).cols = (raw b).cols := congrArg Prod.snd (hshape b)
        constructor
        · intro _ lb ub _ hr hc
          rcases Nat.mul_eq_zero.1 h2 with h2 | h2 <;> omega
        · intro _ lb ub _ hr hc
          rw [h3] at hr
          rw [h4] at hc
          rcases Nat.mul_eq_zero.1 h1 with h1 | h1 <;> omega
    dsimp only
    by_cases h1 : e.nodeColumns < nonzeroColumns e.K2 (withUpper raw .sigma)
    · rw [if_pos h1]
      constructor
      · rintro ⟨_, h⟩; cases h
      · intro h
        rw [hnodes] at h1
        exact absurd h.nodes (not_le.mpr h1)
    rw [if_neg h1]
    by_cases h2 : e.checkAlpha = true ∧ e.K3 > 0 ∧ ∃ k < e.K1, e.usesPrices k = true ∧ (withUpper raw .beta).entry k 0 = none
    · rw [if_pos h2]
      constructor
      · rintro ⟨_, h⟩; cases h
      · intro h
        obtain ⟨hc, hk, k, hk1, hp, hn⟩ := h2
        rw [hstart] at hn
        exact absurd hn (h.alpha hc hk k hk1 hp)
    rw [if_neg h2]
    cases hb : forBlocks (fun b => initializeBounds (withUpper raw b) (e.bounds b) e.bounded) with
    | error x =>
      constructor
      · rintro ⟨_, h⟩; cases h
      · intro h
        obtain ⟨b0, hb0⟩ := hbounds.mpr h.bounds
        rw [hb] at hb0
        cases hb0
    | ok b0 =>
      refine ⟨fun _ => ⟨fun b => (hv b).1, fun b => (hv b).2.1, fun b => (hv b).2.2, ?_, ?_, hbounds.mp ⟨b0, hb⟩⟩, fun _ => ⟨_, rfl⟩⟩
      · rw [← hnodes]
        exact not_lt.mp h1
      · intro hc hk k hk1 hp hn
        rw [← hstart] at hn
        exact h2 ⟨hc, hk, k, hk1, hp, hn⟩

/-- Non-vacuity of C45: inputs of the example are accepted, and are not any more if the number of columns of nodes is zero. -/
example : Spec.Accepted exampleInputs := (C45_accepted _).mp (by obtain ⟨p, hp, -⟩ := example_ok; exact ⟨p, hp⟩)

example : ¬ ∃ p, buildParameters { exampleInputs with nodeColumns := 0 } = .ok p := by
  rw [C45_accepted]
  intro h
  refine absurd h.nodes (not_le.mpr (Finset.card_pos.mpr ⟨0, Finset.mem_filter.mpr ⟨by simp [exampleInputs], 0, by simp [exampleInputs], ?_⟩⟩))
  simp only [Spec.start, exampleInputs, lt_self_iff_false, and_false, if_false]
  intro h
  have h3 : ((2 : ℝ) : EReal) = ((0 : ℝ) : EReal) := Option.some.inj h
  have := EReal.coe_eq_coe_iff.1 h3
  norm_num at this

end Pyblp
