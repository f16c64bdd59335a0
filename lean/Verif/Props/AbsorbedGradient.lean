import Verif.Model.AbsorbedMoments
import Verif.Props.Absorption
import Verif.Props.PanelGradient
import Verif.Props.WholeGradient

set_option linter.unusedSectionVars false

/-!
# C119: absorbed fixed effects and the gradient

Mean utilities and costs are residualized each time that the objective is computed, but Jacobians of them are not, unless there are
covariance moments.
-/

namespace Pyblp

open Matrix Filter Topology

namespace Spec

variable {N nd ns : ℕ} {m : Fin nd ⊕ Fin ns → Type} {q b g : Type} {δ₁ δ₂ : Type} [Fintype δ₁] [Fintype δ₂]

/-- What is absorbed are fixed effects `DD` of demand and `DS` of supply. -/
structure Absorbs (A : Absorbers N) (DD : Matrix (Fin N) δ₁ ℝ) (DS : Matrix (Fin N) δ₂ ℝ) : Prop where
  demand : ∀ R, A.demand = some R → Residualizes DD R
  supply : ∀ R, A.supply = some R → Residualizes DS R

/-- Instruments given by the user without exogenous characteristics have already been residualized. -/
structure GivenResidualized (M : MomentData N nd ns m q b g) (A : Absorbers N) (DD : Matrix (Fin N) δ₁ ℝ) (DS : Matrix (Fin N) δ₂ ℝ) :
    Prop where
  demand : A.demand ≠ none → ∀ e c j, ∑ i, DD i j * M.Z (.inl e) i c = 0
  supply : A.supply ≠ none → ∀ e c j, ∑ i, DS i j * M.Z (.inr e) i c = 0

/-- `solve` accepts the arguments from which moment types of the problem are. -/
def TypesAccepted [Fintype q] (M : MomentData N nd ns m q b g) (A : Absorbers N) (MD MS : ℕ) (demand supply : MomentTypesArgument) : Prop :=
  ∃ dt st, validateSides MD MS (Fintype.card q) A.demand.isSome A.supply.isSome demand supply = .ok (dt, st) ∧
    List.ofFn M.demand = dt.map Prod.fst ∧ List.ofFn M.supply = st.map Prod.fst

/-- No moments depend on lagged errors of the other side from which fixed effects are absorbed. -/
structure NoLaggedEffects (M : MomentData N nd ns m q b g) (A : Absorbers N) (phi : Fin 2 → Fin 2 → ℝ) : Prop where
  demand : (∃ e, M.demand e ≠ .levels) → M.hasSupply = true → A.supply ≠ none → phi 0 1 = 0
  supply : (∃ e, M.supply e ≠ .levels) → A.demand ≠ none → phi 1 0 = 0

end Spec

/-! ## Residualizing -/

section residualize

variable {n δ : Type} [Fintype n] [Fintype δ]

theorem residualizes_unique {D : Matrix n δ ℝ} {R : (n → ℝ) → n → ℝ} (h : Spec.Residualizes D R) (v w : n → ℝ)
    (hw : ∀ j, ∑ i, D i j * w i = 0) (a : δ → ℝ) (ha : ∀ i, w i = v i - ∑ j, D i j * a j) : R v = w := by
  obtain ⟨h1, a', ha'⟩ := h v
  have hz : R v - w = D *ᵥ (a - a') := by
    funext i
    rw [Pi.sub_apply, ha', ha, Matrix.mulVec_sub, Pi.sub_apply]
    simp only [Matrix.mulVec, dotProduct]
    ring
  have h0 : Dᵀ *ᵥ (D *ᵥ (a - a')) = 0 := by
    rw [← hz]
    funext j
    have : (Dᵀ *ᵥ (R v - w)) j = ∑ i, D i j * R v i - ∑ i, D i j * w i := by
      simp only [Matrix.mulVec, dotProduct, Matrix.transpose_apply, Pi.sub_apply, mul_sub, Finset.sum_sub_distrib]
    rw [this, h1, hw, sub_self, Pi.zero_apply]
  have := eq_zero_of_gram D _ h0
  rw [this] at hz
  exact sub_eq_zero.1 hz

theorem residualizes_linear {D : Matrix n δ ℝ} {R : (n → ℝ) → n → ℝ} (h : Spec.Residualizes D R) :
    ∃ L : (n → ℝ) →ₗ[ℝ] n → ℝ, ∀ v, R v = L v := by
  refine ⟨{ toFun := R, map_add' := fun v w => ?_, map_smul' := fun c v => ?_ }, fun v => rfl⟩
  · obtain ⟨h1, a, ha⟩ := h v
    obtain ⟨h2, a', ha'⟩ := h w
    refine residualizes_unique h _ _ (fun j => ?_) (a + a') fun i => ?_
    · simp only [Pi.add_apply, mul_add, Finset.sum_add_distrib, h1, h2, add_zero]
    · simp only [Pi.add_apply, ha, ha', mul_add, Finset.sum_add_distrib]
      ring
  · obtain ⟨h1, a, ha⟩ := h v
    refine residualizes_unique h _ _ (fun j => ?_) (c • a) fun i => ?_
    · simp only [Pi.smul_apply, smul_eq_mul, mul_left_comm _ c, ← Finset.mul_sum, h1, mul_zero, RingHom.id_apply]
    · simp only [Pi.smul_apply, smul_eq_mul, ha, mul_left_comm _ c, ← Finset.mul_sum, mul_sub, RingHom.id_apply]

/-- A column that is orthogonal to fixed effects does not distinguish what is residualized from what is not. -/
theorem residualizes_dot {D : Matrix n δ ℝ} {R : (n → ℝ) → n → ℝ} (h : Spec.Residualizes D R) (v z : n → ℝ)
    (hz : ∀ j, ∑ i, D i j * z i = 0) : ∑ i, R v i * z i = ∑ i, v i * z i := by
  obtain ⟨_, a, ha⟩ := h v
  have h0 : ∑ i, (∑ j, D i j * a j) * z i = 0 := by
    simp only [Finset.sum_mul]
    rw [Finset.sum_comm]
    refine Finset.sum_eq_zero fun j _ => ?_
    have : ∀ i, D i j * a j * z i = a j * (D i j * z i) := fun i => by ring
    simp only [this, ← Finset.mul_sum, hz, mul_zero]
  simp only [ha, sub_mul, Finset.sum_sub_distrib, h0, sub_zero]

theorem linear_hasDerivAt (L : (n → ℝ) →ₗ[ℝ] n → ℝ) (f : ℝ → n → ℝ) (f' : n → ℝ) (t : ℝ)
    (hf : ∀ i, HasDerivAt (fun s => f s i) (f' i) t) (i : n) : HasDerivAt (fun s => L (f s) i) (L f' i) t := by
  classical
  have h : (fun v => L v i) = fun v => ∑ j, v j * L (fun k => if j = k then 1 else 0) i := by
    funext v
    rw [L.pi_apply_eq_sum_univ v]
    simp only [Finset.sum_apply, Pi.smul_apply, smul_eq_mul]
  have h1 : (fun s => L (f s) i) = fun s => ∑ j, f s j * L (fun k => if j = k then 1 else 0) i := funext fun s => congrFun h (f s)
  rw [h1, congrFun h f']
  exact HasDerivAt.fun_sum fun j _ => (hf j).mul_const _

end residualize

variable {N nd ns : ℕ} {m : Fin nd ⊕ Fin ns → Type} {q b g θ d : Type} [∀ e, Fintype (m e)] [Fintype q] [Fintype b] [Fintype g]
  [Fintype θ] [Fintype d] {δ₁ δ₂ : Type} [Fintype δ₁] [Fintype δ₂]

section absorbers

variable {A : Absorbers N} {DD : Matrix (Fin N) δ₁ ℝ} {DS : Matrix (Fin N) δ₂ ℝ}

theorem onDemand_linear (hA : Spec.Absorbs A DD DS) : ∃ L : (Fin N → ℝ) →ₗ[ℝ] Fin N → ℝ, ∀ v, A.onDemand v = L v := by
  unfold Absorbers.onDemand
  cases h : A.demand with
  | none => exact ⟨LinearMap.id, fun v => rfl⟩
  | some R => exact residualizes_linear (hA.demand R h)

theorem onSupply_linear (hA : Spec.Absorbs A DD DS) : ∃ L : (Fin N → ℝ) →ₗ[ℝ] Fin N → ℝ, ∀ v, A.onSupply v = L v := by
  unfold Absorbers.onSupply
  cases h : A.supply with
  | none => exact ⟨LinearMap.id, fun v => rfl⟩
  | some R => exact residualizes_linear (hA.supply R h)

theorem onDemand_dot (hA : Spec.Absorbs A DD DS) (M : MomentData N nd ns m q b g) (addExogenous : Bool)
    (hgiven : addExogenous = false → Spec.GivenResidualized M A DD DS) (v : Fin N → ℝ) (e : Fin nd) (c : m (.inl e)) :
    ∑ i, A.onDemand v i * (M.afterAbsorption A addExogenous).Z (.inl e) i c =
      ∑ i, v i * (M.afterAbsorption A addExogenous).Z (.inl e) i c := by
  cases h : A.demand with
  | none => simp only [Absorbers.onDemand, h]
  | some R =>
    have hR := hA.demand R h
    have : A.onDemand = R := by
      funext v
      simp only [Absorbers.onDemand, h]
    rw [this]
    refine residualizes_dot hR v _ fun j => ?_
    cases addExogenous with
    | false =>
      simp only [MomentData.afterAbsorption, absorbedInstruments, Bool.false_eq_true, if_false]
      exact (hgiven rfl).demand (by simp [h]) e c j
    | true =>
      simp only [MomentData.afterAbsorption, absorbedInstruments, if_true, absorbed, this]
      exact (hR _).1 j

theorem onSupply_dot (hA : Spec.Absorbs A DD DS) (M : MomentData N nd ns m q b g) (addExogenous : Bool)
    (hgiven : addExogenous = false → Spec.GivenResidualized M A DD DS) (v : Fin N → ℝ) (e : Fin ns) (c : m (.inr e)) :
    ∑ i, A.onSupply v i * (M.afterAbsorption A addExogenous).Z (.inr e) i c =
      ∑ i, v i * (M.afterAbsorption A addExogenous).Z (.inr e) i c := by
  cases h : A.supply with
  | none => simp only [Absorbers.onSupply, h]
  | some R =>
    have hR := hA.supply R h
    have : A.onSupply = R := by
      funext v
      simp only [Absorbers.onSupply, h]
    rw [this]
    refine residualizes_dot hR v _ fun j => ?_
    cases addExogenous with
    | false =>
      simp only [MomentData.afterAbsorption, absorbedInstruments, Bool.false_eq_true, if_false]
      exact (hgiven rfl).supply (by simp [h]) e c j
    | true =>
      simp only [MomentData.afterAbsorption, absorbedInstruments, if_true, absorbed, this]
      exact (hR _).1 j

end absorbers

/-! ## Accepted moment types -/

theorem validateMomentTypes_levels {M MC : ℕ} {absorbs : Bool} {l : List MomentTypesEntry} {types : List (MomentType × ℕ)}
    (h : validateMomentTypes M MC absorbs l = .ok types) (x : MomentType × ℕ) (hx : x ∈ types) (hl : x.1 ≠ .levels) :
    MC = 0 ∧ absorbs = false := by
  have hany : types.any (fun x => !x.1.isLevels) = true := List.any_eq_true.mpr ⟨x, hx, by
    cases hx1 : x.1 with
    | levels => exact absurd hx1 hl
    | difference _ => rfl⟩
  unfold validateMomentTypes at h
  cases hc : checkMomentTypes M l with
  | error e =>
    rw [hc] at h
    exact absurd h (by simp)
  | ok t =>
    rw [hc] at h
    simp only at h
    split_ifs at h with h1 h2 h3 h4 h5
    · exact ⟨by omega, by simpa using h5⟩
    · obtain rfl : t = types := by simpa using h
      exact absurd hany h3

theorem accepted_levels {M : MomentData N nd ns m q b g} {A : Absorbers N} {MD MS : ℕ} {demand supply : MomentTypesArgument}
    (h : Spec.TypesAccepted M A MD MS demand supply) :
    (∀ e, M.demand e ≠ .levels → Fintype.card q = 0 ∧ A.demand = none) ∧
      (∀ e, M.supply e ≠ .levels → Fintype.card q = 0 ∧ A.supply = none) := by
  obtain ⟨dt, st, h, hd, hs⟩ := h
  unfold validateSides at h
  cases h1 : demand.toEntries MD with
  | error e => simp [h1] at h
  | ok l1 =>
  cases h2 : supply.toEntries MS with
  | error e => simp [h1, h2] at h
  | ok l2 =>
  cases h3 : validateMomentTypes MD (Fintype.card q) A.demand.isSome l1 with
  | error e => simp [h1, h2, h3] at h
  | ok t1 =>
  cases h4 : validateMomentTypes MS (Fintype.card q) A.supply.isSome l2 with
  | error e => simp [h1, h2, h3, h4] at h
  | ok t2 =>
  simp only [h1, h2, h3, h4, Except.ok.injEq, Prod.mk.injEq] at h
  obtain ⟨rfl, rfl⟩ := h
  refine ⟨fun e he => ?_, fun e he => ?_⟩
  · have : M.demand e ∈ t1.map Prod.fst := hd ▸ List.mem_ofFn.mpr ⟨e, rfl⟩
    obtain ⟨x, hx, hxe⟩ := List.mem_map.mp this
    have := validateMomentTypes_levels h3 x hx (hxe ▸ he)
    exact ⟨this.1, by simpa using this.2⟩
  · have : M.supply e ∈ t2.map Prod.fst := hs ▸ List.mem_ofFn.mpr ⟨e, rfl⟩
    obtain ⟨x, hx, hxe⟩ := List.mem_map.mp this
    have := validateMomentTypes_levels h4 x hx (hxe ▸ he)
    exact ⟨this.1, by simpa using this.2⟩

namespace Spec

/-- How moment types are written. -/
def typeName : MomentType → String
  | .levels => "levels"
  | .difference .innovations => "innovations"
  | .difference .differencedInnovations => "differenced_innovations"

/-- A tuple of a moment type and a number of instruments, of which there are `M`. -/
def IsEntry (M : ℕ) (x : MomentTypesEntry) (t : MomentType × ℕ) : Prop := x = .pair (some (typeName t.1)) (some t.2) ∧ t.2 ≤ M

/-- What one side accepts: a name stands for all instruments, entries have types and numbers, each type appears at most once, numbers sum to
that of instruments, and there are only levels with covariance moments or if fixed effects are absorbed on this side. -/
def SideAccepts (M MC : ℕ) (absorbs : Bool) (argument : MomentTypesArgument) (types : List (MomentType × ℕ)) : Prop :=
  (match argument with
    | .string s => ∃ t, s = typeName t ∧ types = [(t, M)]
    | .entries l => List.Forall₂ (IsEntry M) l types ∧ (types.map Prod.fst).Nodup ∧ (types.map Prod.snd).sum = M
    | .other => False) ∧
  ((∃ x ∈ types, x.1 ≠ .levels) → MC = 0 ∧ absorbs = false)

/-- Two columns are the same, or differ by fixed effects if these are absorbed. -/
def SameUpTo {n δ : Type} [Fintype δ] (R : Option ((n → ℝ) → n → ℝ)) (D : Matrix n δ ℝ) (v w : n → ℝ) : Prop :=
  (R = none → w = v) ∧ ∃ a : δ → ℝ, ∀ i, w i = v i + ∑ j, D i j * a j

/-- Two problems have the same data up to fixed effects that are absorbed. -/
structure SameUpToEffects (A : Absorbers N) (DD : Matrix (Fin N) δ₁ ℝ) (DS : Matrix (Fin N) δ₂ ℝ) (M M' : MomentData N nd ns m q b g) : Prop where
  lag : M'.lag = M.lag
  demand : M'.demand = M.demand
  supply : M'.supply = M.supply
  hasSupply : M'.hasSupply = M.hasSupply
  ZC : M'.ZC = M.ZC
  X1 : ∀ k, SameUpTo A.demand DD (M.X1.col k) (M'.X1.col k)
  X3 : ∀ k, SameUpTo A.supply DS (M.X3.col k) (M'.X3.col k)
  ZD : ∀ e k, SameUpTo A.demand DD ((M.Z (.inl e)).col k) ((M'.Z (.inl e)).col k)
  ZS : ∀ e k, SameUpTo A.supply DS ((M.Z (.inr e)).col k) ((M'.Z (.inr e)).col k)

end Spec

theorem momentTypeOf_eq (s : Option String) (t : MomentType) : momentTypeOf s = some t ↔ s = some (Spec.typeName t) := by
  constructor
  · intro h
    unfold momentTypeOf at h
    split at h <;> simp at h <;> subst h <;> rfl
  · rintro rfl
    rcases t with _ | t
    · rfl
    · cases t <;> rfl

theorem checkMomentType_eq (M : ℕ) (x : MomentTypesEntry) (t : MomentType × ℕ) : checkMomentType M x = .ok t ↔ Spec.IsEntry M x t := by
  obtain ⟨t, k⟩ := t
  unfold checkMomentType Spec.IsEntry
  cases x with
  | other => simp
  | pair s c =>
    simp only [MomentTypesEntry.pair.injEq, ← momentTypeOf_eq]
    cases momentTypeOf s with
    | none => simp
    | some t' =>
      cases c with
      | none => simp
      | some c =>
        simp only [Option.some.injEq]
        split_ifs with h
        · simp only [Except.ok.injEq, Prod.mk.injEq]
          constructor
          · rintro ⟨rfl, hk⟩
            exact ⟨⟨rfl, by omega⟩, by omega⟩
          · rintro ⟨⟨rfl, hk⟩, hle⟩
            exact ⟨rfl, by omega⟩
        · simp only [false_iff]
          rintro ⟨⟨_, hk⟩, hle⟩
          omega

theorem checkMomentTypes_eq (M : ℕ) (l : List MomentTypesEntry) (types : List (MomentType × ℕ)) :
    checkMomentTypes M l = .ok types ↔ List.Forall₂ (Spec.IsEntry M) l types := by
  induction l generalizing types with
  | nil => cases types <;> simp [checkMomentTypes]
  | cons x l ih =>
    cases types with
    | nil =>
      simp only [checkMomentTypes, List.forall₂_nil_right_iff, reduceCtorEq, iff_false]
      split <;> simp
    | cons t types =>
      rw [List.forall₂_cons, ← checkMomentType_eq, ← ih, checkMomentTypes]
      cases checkMomentType M x <;> cases checkMomentTypes M l <;> simp

/-- **C119, arguments.** `solve` accepts exactly those sequences of moment types and numbers of instruments for one side in which each type
appears at most once, numbers sum to that of instruments, and there are only levels with covariance moments or if fixed effects are absorbed
on this side. -/
theorem C119_types (M MC : ℕ) (absorbs : Bool) (l : List MomentTypesEntry) (types : List (MomentType × ℕ)) :
    validateMomentTypes M MC absorbs l = .ok types ↔
      List.Forall₂ (Spec.IsEntry M) l types ∧ (types.map Prod.fst).Nodup ∧ (types.map Prod.snd).sum = M ∧
        ((∃ x ∈ types, x.1 ≠ .levels) → MC = 0 ∧ absorbs = false) := by
  constructor
  · intro h
    have h1 := fun x hx hl => validateMomentTypes_levels h x hx hl
    unfold validateMomentTypes at h
    cases hc : checkMomentTypes M l with
    | error e => simp [hc] at h
    | ok t =>
      simp only [hc] at h
      have ht : t = types := by split_ifs at h <;> simpa using h
      subst ht
      refine ⟨(checkMomentTypes_eq M l t).mp hc, ?_, ?_, fun ⟨x, hx, hl⟩ => h1 x hx hl⟩
      · by_contra hn
        simp [hn] at h
      · by_contra hn
        by_cases hd : (t.map Prod.fst).Nodup <;> simp [hn, hd] at h
  · rintro ⟨h1, h2, h3, h4⟩
    unfold validateMomentTypes
    rw [(checkMomentTypes_eq M l types).mpr h1]
    simp only [h2, h3, not_true_eq_false, if_false, ne_eq]
    by_cases hany : types.any (fun x => !x.1.isLevels) = true
    · obtain ⟨x, hx, hl⟩ := List.any_eq_true.mp hany
      obtain ⟨hm, ha⟩ := h4 ⟨x, hx, fun h => by simp [h, MomentType.isLevels] at hl⟩
      simp [hm, ha]
    · simp [hany]

/-- **C119, arguments of both sides.** `solve` accepts moment types exactly if each side accepts its own, and a name stands for all instruments. -/
theorem C119_sides (MD MS MC : ℕ) (absorbsDemand absorbsSupply : Bool) (demand supply : MomentTypesArgument) (d s : List (MomentType × ℕ)) :
    validateSides MD MS MC absorbsDemand absorbsSupply demand supply = .ok (d, s) ↔
      Spec.SideAccepts MD MC absorbsDemand demand d ∧ Spec.SideAccepts MS MC absorbsSupply supply s := by
  have hside : ∀ (M : ℕ) (absorbs : Bool) (argument : MomentTypesArgument) (types : List (MomentType × ℕ)),
      (∃ l, argument.toEntries M = .ok l ∧ validateMomentTypes M MC absorbs l = .ok types) ↔ Spec.SideAccepts M MC absorbs argument types := by
    intro M absorbs argument types
    cases argument with
    | other => simp [MomentTypesArgument.toEntries, Spec.SideAccepts]
    | entries l =>
      simp only [MomentTypesArgument.toEntries, Except.ok.injEq, exists_eq_left', C119_types, Spec.SideAccepts, and_assoc]
    | string name =>
      simp only [MomentTypesArgument.toEntries, Except.ok.injEq, exists_eq_left', C119_types, Spec.SideAccepts]
      constructor
      · rintro ⟨h1, -, -, h4⟩
        refine ⟨?_, h4⟩
        rw [List.forall₂_cons_left_iff] at h1
        obtain ⟨t, l', ⟨h5, -⟩, h6, rfl⟩ := h1
        rw [List.forall₂_nil_left_iff] at h6
        simp only [MomentTypesEntry.pair.injEq, Option.some.injEq, Nat.cast_inj] at h5
        exact ⟨t.1, h5.1, by rw [h6, h5.2]⟩
      · rintro ⟨⟨t, rfl, rfl⟩, h4⟩
        exact ⟨List.Forall₂.cons ⟨rfl, le_rfl⟩ .nil, by simp, by simp, h4⟩
  rw [← hside, ← hside, validateSides]
  cases h1 : demand.toEntries MD with
  | error e => simp
  | ok l1 =>
    cases h2 : supply.toEntries MS with
    | error e => simp
    | ok l2 =>
      simp only [Except.ok.injEq, exists_eq_left']
      cases validateMomentTypes MD MC absorbsDemand l1 with
      | error e => simp
      | ok t1 =>
        cases validateMomentTypes MS MC absorbsSupply l2 with
        | error e => simp
        | ok t2 => simp

theorem residualizes_same {n δ : Type} [Fintype n] [Fintype δ] {D : Matrix n δ ℝ} {R : (n → ℝ) → n → ℝ} (h : Spec.Residualizes D R) {v w : n → ℝ}
    {a : δ → ℝ} (hw : ∀ i, w i = v i + ∑ j, D i j * a j) : R w = R v := by
  obtain ⟨h1, c, hc⟩ := h v
  refine residualizes_unique h w (R v) h1 (c + a) fun i => ?_
  rw [hc, hw]
  simp only [Pi.add_apply, mul_add, Finset.sum_add_distrib]
  ring

theorem onDemand_same {A : Absorbers N} {DD : Matrix (Fin N) δ₁ ℝ} {DS : Matrix (Fin N) δ₂ ℝ} (hA : Spec.Absorbs A DD DS) {v w : Fin N → ℝ}
    (h : Spec.SameUpTo A.demand DD v w) : A.onDemand w = A.onDemand v := by
  unfold Absorbers.onDemand
  cases hd : A.demand with
  | none => exact h.1 hd
  | some R =>
    obtain ⟨a, ha⟩ := h.2
    exact residualizes_same (hA.demand R hd) ha

theorem onSupply_same {A : Absorbers N} {DD : Matrix (Fin N) δ₁ ℝ} {DS : Matrix (Fin N) δ₂ ℝ} (hA : Spec.Absorbs A DD DS) {v w : Fin N → ℝ}
    (h : Spec.SameUpTo A.supply DS v w) : A.onSupply w = A.onSupply v := by
  unfold Absorbers.onSupply
  cases hd : A.supply with
  | none => exact h.1 hd
  | some R =>
    obtain ⟨a, ha⟩ := h.2
    exact residualizes_same (hA.supply R hd) ha

theorem afterAbsorption_same {A : Absorbers N} {DD : Matrix (Fin N) δ₁ ℝ} {DS : Matrix (Fin N) δ₂ ℝ} (hA : Spec.Absorbs A DD DS)
    {M M' : MomentData N nd ns m q b g} (h : Spec.SameUpToEffects A DD DS M M') : M'.afterAbsorption A true = M.afterAbsorption A true := by
  obtain ⟨lag, demand, supply, hasSupply, Z, ZC, X1, X3⟩ := M
  obtain ⟨lag', demand', supply', hasSupply', Z', ZC', X1', X3'⟩ := M'
  obtain ⟨h1, h2, h3, h4, h5, h6, h7, h8, h9⟩ := h
  simp only at h1 h2 h3 h4 h5
  subst h1 h2 h3 h4 h5
  simp only [MomentData.afterAbsorption, MomentData.mk.injEq, true_and]
  refine ⟨?_, ?_, ?_⟩
  · funext e
    rcases e with e | e
    · funext i k
      exact congrFun (onDemand_same hA (h8 e k)) i
    · funext i k
      exact congrFun (onSupply_same hA (h9 e k)) i
  · funext i k
    exact congrFun (onDemand_same hA (h6 k)) i
  · funext i k
    exact congrFun (onSupply_same hA (h7 k)) i

/-- **C119, fixed effects are absorbed.** Adding fixed effects to characteristics, instruments, mean utilities or costs of a side on which they are absorbed
changes neither the objective nor its gradient nor the Jacobian of moments, when instruments include exogenous characteristics. -/
theorem C119_absorbed {A : Absorbers N} {DD : Matrix (Fin N) δ₁ ℝ} {DS : Matrix (Fin N) δ₂ ℝ} (hA : Spec.Absorbs A DD DS)
    {M M' : MomentData N nd ns m q b g} (h : Spec.SameUpToEffects A DD DS M M') {delta delta₂ costs costs₂ : Fin N → ℝ}
    (hdelta : Spec.SameUpTo A.demand DD delta delta₂) (hcosts : Spec.SameUpTo A.supply DS costs costs₂)
    (scale : Bool) (C : Matrix (b ⊕ g) (b ⊕ g) ℝ) (W : Matrix ((MomentIndex m ⊕ q) ⊕ d) ((MomentIndex m ⊕ q) ⊕ d) ℝ)
    (W₁ : Matrix (MomentIndex m) (MomentIndex m) ℝ) (phi : Fin 2 → Fin 2 → ℝ) (mean : ℝ) (micro : d → ℝ) :
    (M'.afterAbsorption A true).objectiveWithEffects A scale C W phi delta₂ costs₂ mean micro =
        (M.afterAbsorption A true).objectiveWithEffects A scale C W phi delta costs mean micro ∧
      (∀ delta' costs' location micro', (M'.afterAbsorption A true).gradientWithEffects A scale C W phi delta₂ costs₂ delta' costs' mean location
          micro micro' = (M.afterAbsorption A true).gradientWithEffects A scale C W phi delta costs delta' costs' mean location micro micro') ∧
      ∀ (delta' costs' : Matrix (Fin N) θ ℝ) location (micro' : Matrix d θ ℝ),
        (M'.afterAbsorption A true).momentsJacobianWithEffects A C W₁ phi delta₂ costs₂ delta' costs' location micro' =
          (M.afterAbsorption A true).momentsJacobianWithEffects A C W₁ phi delta costs delta' costs' location micro' := by
  rw [afterAbsorption_same hA h]
  unfold MomentData.objectiveWithEffects MomentData.gradientWithEffects MomentData.momentsJacobianWithEffects
  rw [onDemand_same hA hdelta, onSupply_same hA hcosts]
  exact ⟨rfl, fun _ _ _ _ => rfl, fun _ _ _ _ => rfl⟩

/-! ## Moments of Jacobians -/

section jacobians

variable {A : Absorbers N} {DD : Matrix (Fin N) δ₁ ℝ} {DS : Matrix (Fin N) δ₂ ℝ}

/-- Residualizing Jacobians does not change their products with instruments. -/
theorem equations_dot (hA : Spec.Absorbs A DD DS) (M : MomentData N nd ns m q b g) (addExogenous : Bool)
    (hgiven : addExogenous = false → Spec.GivenResidualized M A DD DS) {MD MS : ℕ} {demand supply : MomentTypesArgument}
    (haccept : Spec.TypesAccepted M A MD MS demand supply) (phi : Fin 2 → Fin 2 → ℝ) (hlag : Spec.NoLaggedEffects M A phi)
    (x1 x3 : Fin N → ℝ) (e : Fin nd ⊕ Fin ns) (c : m e) :
    ∑ i, (M.afterAbsorption A addExogenous).equations phi (A.onDemand x1) (A.onSupply x3) e i *
        (M.afterAbsorption A addExogenous).Z e i c =
      ∑ i, (M.afterAbsorption A addExogenous).equations phi x1 x3 e i * (M.afterAbsorption A addExogenous).Z e i c := by
  obtain ⟨hd, hs⟩ := accepted_levels haccept
  have h0 : (M.afterAbsorption A addExogenous).demand = M.demand := rfl
  have h1 : (M.afterAbsorption A addExogenous).supply = M.supply := rfl
  have h2 : (M.afterAbsorption A addExogenous).lag = M.lag := rfl
  have h3 : (M.afterAbsorption A addExogenous).hasSupply = M.hasSupply := rfl
  rcases e with e | e
  · cases he : M.demand e with
    | levels =>
      simp only [MomentData.equations, h0, he]
      exact onDemand_dot hA M addExogenous hgiven x1 e c
    | difference t =>
      have hne : M.demand e ≠ .levels := by simp [he]
      have hid : A.onDemand x1 = x1 := by simp only [Absorbers.onDemand, (hd e hne).2]
      simp only [MomentData.equations, h0, h2, h3, he, hid]
      refine Finset.sum_congr rfl fun i _ => ?_
      congr 1
      cases hsup : M.hasSupply with
      | false => simp
      | true =>
        simp only [if_true]
        cases has : A.supply with
        | none => simp only [Absorbers.onSupply, has]
        | some R =>
          have hz := hlag.demand ⟨e, hne⟩ hsup (by simp [has])
          simp only [computeDifference, hz, zero_mul]
  · cases he : M.supply e with
    | levels =>
      simp only [MomentData.equations, h1, he]
      exact onSupply_dot hA M addExogenous hgiven x3 e c
    | difference t =>
      have hne : M.supply e ≠ .levels := by simp [he]
      have hid : A.onSupply x3 = x3 := by simp only [Absorbers.onSupply, (hs e hne).2]
      simp only [MomentData.equations, h1, h2, he, hid]
      refine Finset.sum_congr rfl fun i _ => ?_
      congr 1
      cases had : A.demand with
      | none => simp only [Absorbers.onDemand, had]
      | some R =>
        have hz := hlag.supply ⟨e, hne⟩ (by simp [had])
        simp only [computeDifference, hz, zero_mul]

end jacobians

/-! ## The gradient -/

section generic

variable [DecidableEq θ] [DecidableEq b] [DecidableEq g]
  (A : Absorbers N) (LD LS : (Fin N → ℝ) →ₗ[ℝ] Fin N → ℝ) (hLD : ∀ v, A.onDemand v = LD v) (hLS : ∀ v, A.onSupply v = LS v)
  (M : MomentData N nd ns m q b g) (scale : Bool) (W : Matrix ((MomentIndex m ⊕ q) ⊕ d) ((MomentIndex m ⊕ q) ⊕ d) ℝ)
  (hW : ∀ a c, W a c = W c a) (delta costs : (θ → ℝ) → Fin N → ℝ) (mean : ℝ) (micro : (θ → ℝ) → d → ℝ)
  (location : θ → Option (Fin 2 × Fin 2)) (theta : θ → ℝ) (delta' costs' : Matrix (Fin N) θ ℝ) (micro' : Matrix d θ ℝ)

theorem objectiveWithEffects_eq (phi : (θ → ℝ) → Fin 2 → Fin 2 → ℝ) (C : (θ → ℝ) → Matrix (b ⊕ g) (b ⊕ g) ℝ) (x : θ → ℝ) :
    M.objectiveWithEffects A scale (C x) W (phi x) (delta x) (costs x) mean (micro x) =
      Spec.concentratedObjective M scale W (fun x => A.onDemand (delta x)) (fun x => A.onSupply (costs x)) phi mean micro C x := by
  unfold MomentData.objectiveWithEffects
  exact C94_objective M scale C W (fun x => A.onDemand (delta x)) (fun x => A.onSupply (costs x)) phi mean micro x

/-- Residualized Jacobians give the same gradient if their products with instruments are the same. -/
theorem gradientWithEffects_eq [IsEmpty q] (phi : Fin 2 → Fin 2 → ℝ) (C : Matrix (b ⊕ g) (b ⊕ g) ℝ) (p : θ) (x1 x3 : Fin N → ℝ)
    (micro0 micro1 : d → ℝ)
    (hdot : ∀ e c, ∑ i, M.equations phi (A.onDemand (delta'.col p)) (A.onSupply (costs'.col p)) e i * M.Z e i c =
      ∑ i, M.equations phi (delta'.col p) (costs'.col p) e i * M.Z e i c) :
    M.gradient true scale C W phi (A.onDemand x1) (A.onSupply x3) (A.onDemand (delta'.col p)) (A.onSupply (costs'.col p)) mean (location p)
        micro0 micro1 =
      M.gradientWithEffects A scale C W phi x1 x3 (delta'.col p) (costs'.col p) mean (location p) micro0 micro1 := by
  have hconv : M.converts = false := by simp [MomentData.converts]
  unfold MomentData.gradientWithEffects MomentData.gradient MomentData.demandColumn MomentData.supplyColumn
  simp only [hconv, Bool.false_eq_true, if_false]
  congr 1
  funext r
  rcases r with (⟨e, c⟩ | r) | r
  · simp only [MomentData.progressJacobian, MomentData.jacobians, hconv, concat, Sum.elim_inl, Bool.false_eq_true, if_false,
      gmmMomentsJacobianMean, add_mul, Finset.sum_add_distrib, hdot]
  · exact isEmptyElim r
  · rfl

include hLD hLS hW in
theorem gradient_with_effects [IsEmpty q] (hcross : ∀ a c, W (Sum.inl a) (Sum.inr c) = 0) (phi : (θ → ℝ) → Fin 2 → Fin 2 → ℝ)
    (C : (θ → ℝ) → Matrix (b ⊕ g) (b ⊕ g) ℝ) (p : θ)
    (hdot : ∀ e c, ∑ i, M.equations (phi theta) (A.onDemand (delta'.col p)) (A.onSupply (costs'.col p)) e i * M.Z e i c =
      ∑ i, M.equations (phi theta) (delta'.col p) (costs'.col p) e i * M.Z e i c)
    (hdelta : ∀ i, HasDerivAt (fun s => delta (Function.update theta p s) i) (delta' i p) (theta p))
    (hcosts : ∀ i, HasDerivAt (fun s => costs (Function.update theta p s) i) (costs' i p) (theta p))
    (hmicro : ∀ c, HasDerivAt (fun s => micro (Function.update theta p s) c) (micro' c p) (theta p))
    (hphi : Spec.IsPhi location phi) (hsupply : M.hasSupply = false → ∀ p l, location p = some l → l = (0, 0))
    (hC : ∀ᶠ s in 𝓝 (theta p), ivCovariancesInverse (M.regressors (phi (Function.update theta p s)))
      M.Z (ivWeights (ivWeights W)) * C (Function.update theta p s) = 1) :
    HasDerivAt (fun s => M.objectiveWithEffects A scale (C (Function.update theta p s)) W
        (phi (Function.update theta p s)) (delta (Function.update theta p s)) (costs (Function.update theta p s)) mean
        (micro (Function.update theta p s)))
      (M.gradientWithEffects A scale (C theta) W (phi theta) (delta theta) (costs theta) (delta'.col p)
        (costs'.col p) mean (location p) (micro theta) (micro'.col p)) (theta p) := by
  have h := C94_gradient_partial M scale W hW hcross (fun x => A.onDemand (delta x)) (fun x => A.onSupply (costs x)) phi mean micro location C
    theta (Matrix.of fun i p => A.onDemand (delta'.col p) i) (Matrix.of fun i p => A.onSupply (costs'.col p) i) micro' p
    (fun i => by
      simp only [hLD, Matrix.of_apply]
      exact linear_hasDerivAt LD _ _ _ hdelta i)
    (fun i => by
      simp only [hLS, Matrix.of_apply]
      exact linear_hasDerivAt LS _ _ _ hcosts i)
    hmicro hphi hsupply hC
  simp only [objectiveWithEffects_eq]
  refine h.congr_deriv ?_
  exact gradientWithEffects_eq A M scale W mean location delta' costs' (phi theta) (C theta) p (delta theta) (costs theta) (micro theta)
    (micro'.col p) hdot

include hLD hLS hW in
theorem covariance_gradient_with_effects [Nonempty q] [NeZero nd] [NeZero ns] (hd : ∀ e, M.demand e = .levels)
    (hs : ∀ e, M.supply e = .levels) (phi : Fin 2 → Fin 2 → ℝ) (C : Matrix (b ⊕ g) (b ⊕ g) ℝ) (p : θ)
    (hdelta : ∀ p i, HasDerivAt (fun s => delta (Function.update theta p s) i) (delta' i p) (theta p))
    (hcosts : ∀ p i, HasDerivAt (fun s => costs (Function.update theta p s) i) (costs' i p) (theta p))
    (hmicro : ∀ p c, HasDerivAt (fun s => micro (Function.update theta p s) c) (micro' c p) (theta p)) :
    HasDerivAt (fun s => M.objectiveWithEffects A scale C W phi (delta (Function.update theta p s))
        (costs (Function.update theta p s)) mean (micro (Function.update theta p s)))
      (M.gradientWithEffects A scale C W phi (delta theta) (costs theta) (delta'.col p)
        (costs'.col p) mean (location p) (micro theta) (micro'.col p)) (theta p) := by
  have h := C94_covariance_moments M true scale hd hs W hW (fun x => A.onDemand (delta x)) (fun x => A.onSupply (costs x)) phi mean micro
    location C theta (Matrix.of fun i p => A.onDemand (delta'.col p) i) (Matrix.of fun i p => A.onSupply (costs'.col p) i) micro' p
    (fun p i => by
      simp only [hLD, Matrix.of_apply]
      exact linear_hasDerivAt LD _ _ _ (hdelta p) i)
    (fun p i => by
      simp only [hLS, Matrix.of_apply]
      exact linear_hasDerivAt LS _ _ _ (hcosts p) i)
    hmicro
  have hconv : M.converts = true := by simp [MomentData.converts, Fintype.card_pos]
  have hobj := fun x => objectiveWithEffects_eq A M scale W delta costs mean micro (fun _ => phi) (fun _ => C) x
  simp only [hobj]
  refine h.congr_deriv ?_
  unfold MomentData.gradientWithEffects MomentData.demandColumn MomentData.supplyColumn
  simp only [hconv, if_true]
  rfl

end generic

section gradient

variable [DecidableEq θ] [DecidableEq b] [DecidableEq g]
  (A : Absorbers N) (DD : Matrix (Fin N) δ₁ ℝ) (DS : Matrix (Fin N) δ₂ ℝ) (hA : Spec.Absorbs A DD DS)
  (M : MomentData N nd ns m q b g) (addExogenous : Bool) (hgiven : addExogenous = false → Spec.GivenResidualized M A DD DS)
  (MD MS : ℕ) (demand supply : MomentTypesArgument) (haccept : Spec.TypesAccepted M A MD MS demand supply)
  (scale : Bool) (W : Matrix ((MomentIndex m ⊕ q) ⊕ d) ((MomentIndex m ⊕ q) ⊕ d) ℝ) (hW : ∀ a c, W a c = W c a)
  (delta costs : (θ → ℝ) → Fin N → ℝ) (mean : ℝ) (micro : (θ → ℝ) → d → ℝ) (location : θ → Option (Fin 2 × Fin 2))
  (theta : θ → ℝ) (delta' costs' : Matrix (Fin N) θ ℝ) (micro' : Matrix d θ ℝ)

include hA hgiven haccept hW in
/-- **C119, without covariance moments.** If the weighting matrix has no weight on products of aggregate and micro moments, the gradient that
is computed from Jacobians that are not residualized is the derivative of the objective, which is computed from residualized mean utilities
and costs. Missing: moment types for which errors of the other side are lagged (`C119_refuted`), and weight on products of aggregate and
micro moments (`C75_refuted`). -/
theorem C119_gradient_partial [IsEmpty q] (hcross : ∀ a c, W (Sum.inl a) (Sum.inr c) = 0) (phi : (θ → ℝ) → Fin 2 → Fin 2 → ℝ)
    (hlag : Spec.NoLaggedEffects M A (phi theta)) (C : (θ → ℝ) → Matrix (b ⊕ g) (b ⊕ g) ℝ) (p : θ)
    (hdelta : ∀ i, HasDerivAt (fun s => delta (Function.update theta p s) i) (delta' i p) (theta p))
    (hcosts : ∀ i, HasDerivAt (fun s => costs (Function.update theta p s) i) (costs' i p) (theta p))
    (hmicro : ∀ c, HasDerivAt (fun s => micro (Function.update theta p s) c) (micro' c p) (theta p))
    (hphi : Spec.IsPhi location phi) (hsupply : M.hasSupply = false → ∀ p l, location p = some l → l = (0, 0))
    (hC : ∀ᶠ s in 𝓝 (theta p), ivCovariancesInverse ((M.afterAbsorption A addExogenous).regressors (phi (Function.update theta p s)))
      (M.afterAbsorption A addExogenous).Z (ivWeights (ivWeights W)) * C (Function.update theta p s) = 1) :
    HasDerivAt (fun s => (M.afterAbsorption A addExogenous).objectiveWithEffects A scale (C (Function.update theta p s)) W
        (phi (Function.update theta p s)) (delta (Function.update theta p s)) (costs (Function.update theta p s)) mean
        (micro (Function.update theta p s)))
      ((M.afterAbsorption A addExogenous).gradientWithEffects A scale (C theta) W (phi theta) (delta theta) (costs theta) (delta'.col p)
        (costs'.col p) mean (location p) (micro theta) (micro'.col p)) (theta p) := by
  obtain ⟨LD, hLD⟩ := onDemand_linear hA
  obtain ⟨LS, hLS⟩ := onSupply_linear hA
  exact gradient_with_effects A LD LS hLD hLS (M.afterAbsorption A addExogenous) scale W hW delta costs mean micro location theta delta' costs'
    micro' hcross phi C p
    (equations_dot hA M addExogenous hgiven haccept (phi theta) hlag (delta'.col p) (costs'.col p)) hdelta hcosts hmicro hphi hsupply hC

include hA haccept hW in
/-- **C119, with covariance moments.** Jacobians are residualized, and the gradient is the derivative of the objective for every weighting
matrix. -/
theorem C119_covariance_moments [Nonempty q] [NeZero nd] [NeZero ns] (phi : Fin 2 → Fin 2 → ℝ) (C : Matrix (b ⊕ g) (b ⊕ g) ℝ) (p : θ)
    (hdelta : ∀ p i, HasDerivAt (fun s => delta (Function.update theta p s) i) (delta' i p) (theta p))
    (hcosts : ∀ p i, HasDerivAt (fun s => costs (Function.update theta p s) i) (costs' i p) (theta p))
    (hmicro : ∀ p c, HasDerivAt (fun s => micro (Function.update theta p s) c) (micro' c p) (theta p)) :
    HasDerivAt (fun s => (M.afterAbsorption A addExogenous).objectiveWithEffects A scale C W phi (delta (Function.update theta p s))
        (costs (Function.update theta p s)) mean (micro (Function.update theta p s)))
      ((M.afterAbsorption A addExogenous).gradientWithEffects A scale C W phi (delta theta) (costs theta) (delta'.col p)
        (costs'.col p) mean (location p) (micro theta) (micro'.col p)) (theta p) := by
  obtain ⟨LD, hLD⟩ := onDemand_linear hA
  obtain ⟨LS, hLS⟩ := onSupply_linear hA
  obtain ⟨hd, hs⟩ := accepted_levels haccept
  have hq : Fintype.card q ≠ 0 := Fintype.card_ne_zero
  exact covariance_gradient_with_effects A LD LS hLD hLS (M.afterAbsorption A addExogenous) scale W hW delta costs mean micro location theta
    delta' costs' micro' (fun e => by_contra fun h => hq (hd e h).1) (fun e => by_contra fun h => hq (hs e h).1) phi C p hdelta hcosts hmicro

include hA hgiven haccept in
/-- **C119, standard errors.** The same is true for the Jacobian of moments with respect to all parameters, from which standard errors are
computed: each of its elements is the derivative of the averaged moment, other parameters held fixed. -/
theorem C119_moments_jacobian_partial [IsEmpty q] (phi : (θ → ℝ) → Fin 2 → Fin 2 → ℝ) (hlag : Spec.NoLaggedEffects M A (phi theta))
    (C : Matrix (b ⊕ g) (b ⊕ g) ℝ) (V : Matrix (MomentIndex m) (MomentIndex m) ℝ)
    (hdelta : ∀ p i, HasDerivAt (fun s => delta (Function.update theta p s) i) (delta' i p) (theta p))
    (hcosts : ∀ p i, HasDerivAt (fun s => costs (Function.update theta p s) i) (costs' i p) (theta p))
    (hmicro : ∀ p c, HasDerivAt (fun s => micro (Function.update theta p s) c) (micro' c p) (theta p))
    (hphi : Spec.IsPhi location phi) (hsupply : M.hasSupply = false → ∀ p l, location p = some l → l = (0, 0))
    (r : (MomentIndex m ⊕ q) ⊕ d) (p : θ ⊕ b ⊕ g) :
    let M' := M.afterAbsorption A addExogenous
    let x := reportedParameters M' C V (phi theta) (A.onDemand (delta theta)) (A.onSupply (costs theta)) theta
    HasDerivAt (fun s => Spec.parametricMoments M' (fun x => A.onDemand (delta x)) (fun x => A.onSupply (costs x)) phi mean micro
        (Function.update x p s) r)
      (M'.momentsJacobianWithEffects A C V (phi theta) (delta theta) (costs theta) delta' costs' location micro' r p) (x p) := by
  intro M' x
  obtain ⟨LD, hLD⟩ := onDemand_linear hA
  obtain ⟨LS, hLS⟩ := onSupply_linear hA
  have h := C93_jacobian_partial M' (fun x => A.onDemand (delta x)) (fun x => A.onSupply (costs x)) phi mean micro location
    theta (Matrix.of fun i p => A.onDemand (delta'.col p) i) (Matrix.of fun i p => A.onSupply (costs'.col p) i) micro'
    (fun p i => by
      simp only [hLD, Matrix.of_apply]
      exact linear_hasDerivAt LD _ _ _ (hdelta p) i)
    (fun p i => by
      simp only [hLS, Matrix.of_apply]
      exact linear_hasDerivAt LS _ _ _ (hcosts p) i)
    hmicro hphi hsupply C V r p
  refine h.congr_deriv ?_
  have hconv : M'.converts = false := by simp [MomentData.converts]
  have hxi : ∀ x1 x3, M'.xiJacobian C V (phi theta) x1 x3 = x1 := fun x1 x3 => by
    unfold MomentData.xiJacobian
    cases h : levelsIndex M'.demand with
    | none => rfl
    | some e =>
      funext i
      simp [MomentData.jacobians, hconv, MomentData.equations, levelsIndex_some h]
  have homega : ∀ x1 x3, M'.omegaJacobian C V (phi theta) x1 x3 = x3 := fun x1 x3 => by
    unfold MomentData.omegaJacobian
    cases h : levelsIndex M'.supply with
    | none => rfl
    | some e =>
      funext i
      simp [MomentData.jacobians, hconv, MomentData.equations, levelsIndex_some h]
  unfold MomentData.momentsJacobianWithEffects MomentData.momentsJacobian
  simp only [MomentData.demandColumn, MomentData.supplyColumn, hconv, Bool.false_eq_true, if_false, hxi, homega, MomentData.meanG,
    Matrix.of_apply]
  rcases r with (⟨e, c⟩ | r) | r
  · simp only [concat, Sum.elim_inl, gmmMomentsJacobianMean, add_mul, Finset.sum_add_distrib]
    congr 2
    rcases p with p | p | p
    · exact equations_dot hA M addExogenous hgiven haccept (phi theta) hlag (delta'.col p) (costs'.col p) e c
    · rfl
    · rfl
  · exact isEmptyElim r
  · rfl

include hA haccept in
/-- **C119, Jacobians of moments with covariance moments.** Columns for theta are derivatives of averaged moments of residualized mean utilities
and costs, with linear parameters concentrated out again as theta changes. Those with linear parameters held fixed are not reported, with or
without absorbed fixed effects (`C93_refuted`). -/
theorem C119_total [Nonempty q] [NeZero nd] [NeZero ns] (phi : Fin 2 → Fin 2 → ℝ)
    (C : Matrix (b ⊕ g) (b ⊕ g) ℝ) (V : Matrix (MomentIndex m) (MomentIndex m) ℝ)
    (hdelta : ∀ p i, HasDerivAt (fun s => delta (Function.update theta p s) i) (delta' i p) (theta p))
    (hcosts : ∀ p i, HasDerivAt (fun s => costs (Function.update theta p s) i) (costs' i p) (theta p))
    (hmicro : ∀ p c, HasDerivAt (fun s => micro (Function.update theta p s) c) (micro' c p) (theta p))
    (r : (MomentIndex m ⊕ q) ⊕ d) (p : θ) :
    let M' := M.afterAbsorption A addExogenous
    HasDerivAt (fun s => Spec.parametricMoments M' (fun x => A.onDemand (delta x)) (fun x => A.onSupply (costs x)) (fun _ => phi) mean micro
        (reportedParameters M' C V phi (A.onDemand (delta (Function.update theta p s))) (A.onSupply (costs (Function.update theta p s)))
          (Function.update theta p s)) r)
      (M'.momentsJacobianWithEffects A C V phi (delta theta) (costs theta) delta' costs' location micro' r (.inl p)) (theta p) := by
  intro M'
  obtain ⟨LD, hLD⟩ := onDemand_linear hA
  obtain ⟨LS, hLS⟩ := onSupply_linear hA
  obtain ⟨hd, hs⟩ := accepted_levels haccept
  have hq : Fintype.card q ≠ 0 := Fintype.card_ne_zero
  have h := C93_total M' (fun e => by_contra fun h => hq (hd e h).1) (fun e => by_contra fun h => hq (hs e h).1)
    (fun x => A.onDemand (delta x)) (fun x => A.onSupply (costs x)) phi mean micro location
    theta (Matrix.of fun i p => A.onDemand (delta'.col p) i) (Matrix.of fun i p => A.onSupply (costs'.col p) i) micro'
    (fun p i => by
      simp only [hLD, Matrix.of_apply]
      exact linear_hasDerivAt LD _ _ _ (hdelta p) i)
    (fun p i => by
      simp only [hLS, Matrix.of_apply]
      exact linear_hasDerivAt LS _ _ _ (hcosts p) i)
    hmicro C V r p
  refine h.congr_deriv ?_
  have hconv : M'.converts = true := by simp [MomentData.converts, Fintype.card_pos]
  unfold MomentData.momentsJacobianWithEffects
  simp only [MomentData.demandColumn, MomentData.supplyColumn, hconv, if_true]

end gradient

/-! ## All markets -/

section whole

variable {n : ℕ} {mk : Fin nd ⊕ Fin ns → Type} [∀ e, Fintype (mk e)] {T : Type} {J B : T → Type} {G K1 K2 K3 NU D : Type} [∀ t, Fintype (J t)]
  [∀ t, DecidableEq (J t)] [∀ t, Nonempty (J t)] [∀ t, Fintype (B t)] [Fintype G] [DecidableEq G] [Fintype K1] [Fintype K2] [Fintype K3]
  [DecidableEq K1] [DecidableEq K2] [DecidableEq K3] [DecidableEq NU] [DecidableEq D] [Fintype NU] [Fintype D] [DecidableEq θ] [DecidableEq b] [DecidableEq g]

/-- **C119, all markets.** If at each theta mean utilities explain shares, the gradient that is computed from what markets report is the
derivative of the objective of a problem with absorbed fixed effects. Missing: see `C119_gradient_partial`. -/
theorem C119_whole_gradient_partial [IsEmpty q] (A : Absorbers n) (DD : Matrix (Fin n) δ₁ ℝ) (DS : Matrix (Fin n) δ₂ ℝ)
    (hA : Spec.Absorbs A DD DS) (Mo : MomentData n nd ns mk q b g) (addExogenous : Bool)
    (hgiven : addExogenous = false → Spec.GivenResidualized Mo A DD DS) (MD MS : ℕ) (demand supply : MomentTypesArgument)
    (haccept : Spec.TypesAccepted Mo A MD MS demand supply) (P : PanelProblem n T J B G K1 K2 K3 NU D θ) (scale : Bool)
    (W : Matrix ((MomentIndex mk ⊕ q) ⊕ d) ((MomentIndex mk ⊕ q) ⊕ d) ℝ) (hW : ∀ a c, W a c = W c a)
    (hcross : ∀ a c, W (Sum.inl a) (Sum.inr c) = 0) (phi : (θ → ℝ) → Fin 2 → Fin 2 → ℝ) (mean : ℝ) (micro : (θ → ℝ) → d → ℝ)
    (location : θ → Option (Fin 2 × Fin 2)) (C : (θ → ℝ) → Matrix (b ⊕ g) (b ⊕ g) ℝ) (theta : θ → ℝ)
    (hlag : Spec.NoLaggedEffects Mo A (phi theta)) (hphi : Spec.IsPhi location phi)
    (hsupply : Mo.hasSupply = false → ∀ p l, location p = some l → l = (0, 0)) (p : θ) (hP : Spec.ProperPanel P theta p)
    (delta : (θ → ℝ) → (t : T) → J t → ℝ)
    (hdelta : ∀ᶠ s in 𝓝 (theta p), Spec.Explained P (Function.update theta p s) (delta (Function.update theta p s)))
    (hX2 : ∀ t j k, (P.tastes t).X2 j k = (P.prices t).x2 k j ((P.prices t).x0 j))
    (inverse deltaInverse : (t : T) → J t → J t → ℝ) (hinv : Spec.InvertsShares P theta (delta theta) inverse)
    (hdinv : Spec.InvertsMarkups P theta (delta theta) deltaInverse) (last : (t : T) → J t → ℝ)
    (hbounds : ∀ t j, P.costsBounds.1 < (P.costsAt theta t (delta theta t) j : EReal) ∧
      (P.costsAt theta t (delta theta t) j : EReal) < P.costsBounds.2 ∧ (P.logCosts = true → 0 < P.costsAt theta t (delta theta t) j))
    (micro' : Matrix d θ ℝ) (hmicro : ∀ c, HasDerivAt (fun s => micro (Function.update theta p s) c) (micro' c p) (theta p))
    (hC : ∀ᶠ s in 𝓝 (theta p), ivCovariancesInverse ((Mo.afterAbsorption A addExogenous).regressors (phi (Function.update theta p s)))
      (Mo.afterAbsorption A addExogenous).Z (ivWeights (ivWeights W)) * C (Function.update theta p s) = 1) :
    HasDerivAt (fun s => (Mo.afterAbsorption A addExogenous).objectiveWithEffects A scale (C (Function.update theta p s)) W
        (phi (Function.update theta p s)) (P.ivDelta (Function.update theta p s) (delta (Function.update theta p s)))
        (P.ivCosts (Function.update theta p s) (delta (Function.update theta p s))) mean (micro (Function.update theta p s)))
      ((Mo.afterAbsorption A addExogenous).gradientWithEffects A scale (C theta) W (phi theta) (P.ivDelta theta (delta theta))
        (P.ivCosts theta (delta theta)) ((P.xiJacobian theta (delta theta) inverse).col p)
        ((P.omegaJacobian theta (delta theta) inverse deltaInverse last).col p) mean (location p) (micro theta) (micro'.col p)) (theta p) :=
  C119_gradient_partial A DD DS hA Mo addExogenous hgiven MD MS demand supply haccept scale W hW (fun theta => P.ivDelta theta (delta theta))
    (fun theta => P.ivCosts theta (delta theta)) mean micro location theta (P.xiJacobian theta (delta theta) inverse)
    (P.omegaJacobian theta (delta theta) inverse deltaInverse last) micro' hcross phi hlag C p
    (C118_xi_jacobian P theta p hP delta hdelta inverse hinv)
    (fun i => C118_omega_jacobian P theta p hP delta hdelta hX2 inverse deltaInverse hinv hdinv last i (hbounds _ _).1 (hbounds _ _).2.1
      (hbounds _ _).2.2) hmicro hphi hsupply hC

end whole

/-! ## Non-vacuity and refutation -/

/-- Fixed effects of one category, absorbed on both sides. -/
noncomputable def constantsAbsorbed (N : ℕ) : Absorbers N :=
  { demand := some (Spec.demeaned fun _ => ()), supply := some (Spec.demeaned fun _ => ()) }

theorem constantsAbsorbed_absorbs (N : ℕ) :
    Spec.Absorbs (constantsAbsorbed N) (Spec.indicators fun _ => ()) (Spec.indicators fun _ => ()) :=
  ⟨fun R h => by
    simp only [constantsAbsorbed, Option.some.injEq] at h
    exact h ▸ C92_demeaned _, fun R h => by
    simp only [constantsAbsorbed, Option.some.injEq] at h
    exact h ▸ C92_demeaned _⟩

/-- Two products with a characteristic that is an instrument on both sides. -/
def effectsWitness : MomentData 2 1 1 (fun _ => Unit) Empty Unit Unit where
  lag := id
  demand := fun _ => .levels
  supply := fun _ => .levels
  hasSupply := true
  Z := fun _ i _ => ![0, 1] i
  ZC := fun _ c => c.elim
  X1 := fun i _ => ![0, 1] i
  X3 := fun i _ => ![0, 1] i

/-- Hypotheses of `C119_absorbed` are met: characteristics, instruments and mean utilities are shifted by constants. -/
example : Spec.SameUpToEffects (constantsAbsorbed 2) (Spec.indicators fun _ => ()) (Spec.indicators fun _ => ()) effectsWitness
    { effectsWitness with X1 := fun i _ => ![5, 6] i, Z := fun _ i _ => ![2, 3] i } where
  lag := rfl
  demand := rfl
  supply := rfl
  hasSupply := rfl
  ZC := rfl
  X1 := fun k => ⟨fun h => by simp [constantsAbsorbed] at h, fun _ => 5, fun i => by
    fin_cases i <;> norm_num [effectsWitness, Spec.indicators, Matrix.col, Matrix.transpose]⟩
  X3 := fun k => ⟨fun _ => rfl, 0, fun i => by simp⟩
  ZD := fun e k => ⟨fun h => by simp [constantsAbsorbed] at h, fun _ => 2, fun i => by
    fin_cases i <;> norm_num [effectsWitness, Spec.indicators, Matrix.col, Matrix.transpose]⟩
  ZS := fun e k => ⟨fun h => by simp [constantsAbsorbed] at h, fun _ => 2, fun i => by
    fin_cases i <;> norm_num [effectsWitness, Spec.indicators, Matrix.col, Matrix.transpose]⟩

example : validateSides 3 2 0 false true (.entries [.pair (some "levels") (some 1), .pair (some "innovations") (some 2)]) (.string "levels") =
    .ok ([(.levels, 1), (.difference .innovations, 2)], [(.levels, 2)]) := rfl
example : validateSides 3 2 0 true true (.string "innovations") (.string "levels") = .error .notImplementedError := rfl

theorem effectsWitness_accepted : Spec.TypesAccepted effectsWitness (constantsAbsorbed 2) 1 1 (.string "levels") (.string "levels") := by
  refine ⟨[(.levels, 1)], [(.levels, 1)], ?_, ?_, ?_⟩
  · rfl
  · rfl
  · rfl

/-- Hypotheses of `C119_gradient_partial` are met: one of two effects is absorbed on each side, and parameters of what varies within its
category are concentrated out. -/
example (delta costs : (Unit → ℝ) → Fin 2 → ℝ) (delta' costs' : Matrix (Fin 2) Unit ℝ) (theta : Unit → ℝ)
    (hdelta : ∀ i, HasDerivAt (fun s => delta (Function.update theta () s) i) (delta' i ()) (theta ()))
    (hcosts : ∀ i, HasDerivAt (fun s => costs (Function.update theta () s) i) (costs' i ()) (theta ())) :
    let M := effectsWitness.afterAbsorption (constantsAbsorbed 2) true
    HasDerivAt (fun s => M.objectiveWithEffects (constantsAbsorbed 2) true ((4 : ℝ) • 1) 1 0
        (delta (Function.update theta () s)) (costs (Function.update theta () s)) 0 (Empty.elim : Empty → ℝ))
      (M.gradientWithEffects (constantsAbsorbed 2) true ((4 : ℝ) • 1) 1 0 (delta theta) (costs theta) (delta'.col ()) (costs'.col ()) 0 none
        (Empty.elim : Empty → ℝ) (Empty.elim : Empty → ℝ)) (theta ()) := by
  intro M
  have hiv : ivWeights (ivWeights (1 : Matrix ((MomentIndex (fun _ : Fin 1 ⊕ Fin 1 => Unit) ⊕ Empty) ⊕ Empty) _ ℝ)) = 1 := by
    ext a c
    simp [ivWeights, Matrix.one_apply]
  have h := C119_gradient_partial (constantsAbsorbed 2) _ _ (constantsAbsorbed_absorbs 2) effectsWitness true (fun h => by simp at h) 1 1 _ _
    effectsWitness_accepted true 1 (fun a c => by simp [Matrix.one_apply, eq_comm]) delta costs 0 (fun _ => (Empty.elim : Empty → ℝ))
    (fun _ => none) theta delta' costs' (0 : Matrix Empty Unit ℝ) (fun _ c => c.elim) (fun _ => 0)
    ⟨fun h => by obtain ⟨e, he⟩ := h; exact absurd rfl he, fun h => by obtain ⟨e, he⟩ := h; exact absurd rfl he⟩
    (fun _ => (4 : ℝ) • 1) () hdelta hcosts (fun c => c.elim)
    ⟨fun p l h => by simp at h, fun l h theta theta' => rfl⟩ (fun h => by simp [effectsWitness] at h)
    (Eventually.of_forall fun s => by
      rw [hiv, ivCovariancesInverse_eq, Matrix.mul_one]
      ext a c
      simp only [Matrix.mul_apply, Matrix.transpose_apply, ivP_apply]
      rcases a with a | a <;> rcases c with c | c <;>
        simp [effectsWitness, constantsAbsorbed, MomentData.afterAbsorption, MomentData.regressors, MomentData.equations,
          MomentData.extendedX1, MomentData.extendedX3, absorbed, absorbedInstruments, Absorbers.onDemand, Absorbers.onSupply,
          Spec.demeaned, Fintype.sum_sigma, Fintype.sum_sum_type, Matrix.one_apply] <;> norm_num)
  have hm : ((0 : Matrix Empty Unit ℝ).col ()) = (Empty.elim : Empty → ℝ) := by
    funext c
    exact c.elim
  rw [hm] at h
  exact h

/-- The same problem with a covariance moment. -/
def covarianceEffects : MomentData 2 1 1 (fun _ => Unit) Unit Unit Unit where
  demand := effectsWitness.demand
  supply := effectsWitness.supply
  hasSupply := effectsWitness.hasSupply
  lag := effectsWitness.lag
  Z := effectsWitness.Z
  ZC := fun _ _ => 1
  X1 := effectsWitness.X1
  X3 := effectsWitness.X3

/-- Hypotheses of `C119_total` are met. -/
example (delta costs : (Unit → ℝ) → Fin 2 → ℝ) (delta' costs' : Matrix (Fin 2) Unit ℝ) (theta : Unit → ℝ)
    (hdelta : ∀ p i, HasDerivAt (fun s => delta (Function.update theta p s) i) (delta' i p) (theta p))
    (hcosts : ∀ p i, HasDerivAt (fun s => costs (Function.update theta p s) i) (costs' i p) (theta p))
    (C : Matrix (Unit ⊕ Unit) (Unit ⊕ Unit) ℝ) (r : (MomentIndex (fun _ : Fin 1 ⊕ Fin 1 => Unit) ⊕ Unit) ⊕ Empty) :=
  C119_total (constantsAbsorbed 2) _ _ (constantsAbsorbed_absorbs 2) covarianceEffects true 1 1 (.string "levels") (.string "levels")
    ⟨[(.levels, 1)], [(.levels, 1)], rfl, rfl, rfl⟩ delta costs 0 (fun _ => (Empty.elim : Empty → ℝ)) (fun _ => none) theta delta' costs'
    (0 : Matrix Empty Unit ℝ) 0 C 1 hdelta hcosts (fun _ c => c.elim) r ()

/-- Three periods of a product. Demand-side moments are in innovations, which depend on the lagged cost shock. -/
def laggedWitness : MomentData 3 1 1 (fun _ => Unit) Empty Empty Empty where
  lag := ![0, 0, 1]
  demand := fun _ => .difference .innovations
  supply := fun _ => .levels
  hasSupply := true
  Z := fun e i _ => e.elim (fun _ => ![0, 1, 0] i) fun _ => ![0, 1, -1] i
  ZC := fun _ c => c.elim
  X1 := fun _ c => c.elim
  X3 := fun _ c => c.elim

/-- Fixed effects are only absorbed on the supply side. -/
noncomputable def supplyAbsorbed : Absorbers 3 := { demand := none, supply := some (Spec.demeaned fun _ => ()) }

/-- **C119, refutation.** With demand-side moments in innovations and fixed effects absorbed on the supply side, which `solve` accepts, the
derivative of this objective is `8 / 81` and `4 / 27` is computed. -/
theorem C119_refuted : ∃ (M : MomentData 3 1 1 (fun _ => Unit) Empty Empty Empty) (A : Absorbers 3) (phi : Fin 2 → Fin 2 → ℝ)
    (delta costs : (Unit → ℝ) → Fin 3 → ℝ) (delta' costs' : Matrix (Fin 3) Unit ℝ) (theta : Unit → ℝ),
    Spec.Absorbs A (fun _ (_ : Empty) => 0) (Spec.indicators fun _ => ()) ∧
    Spec.TypesAccepted M A 1 1 (.string "innovations") (.string "levels") ∧
    (∀ i, HasDerivAt (fun s => delta (Function.update theta () s) i) (delta' i ()) (theta ())) ∧
    (∀ i, HasDerivAt (fun s => costs (Function.update theta () s) i) (costs' i ()) (theta ())) ∧
    HasDerivAt (fun s => (M.afterAbsorption A true).objectiveWithEffects A false 1 1 phi (delta (Function.update theta () s))
      (costs (Function.update theta () s)) 0 (Empty.elim : Empty → ℝ)) (8 / 81) (theta ()) ∧
    (M.afterAbsorption A true).gradientWithEffects A false 1 1 phi (delta theta) (costs theta) (delta'.col ()) (costs'.col ()) 0 none
      (Empty.elim : Empty → ℝ) (Empty.elim : Empty → ℝ) = 4 / 27 := by
  refine ⟨laggedWitness, supplyAbsorbed, fun i j => if i = 0 ∧ j = 1 then 1 else 0, fun _ => 0, fun x => ![x (), 0, 0], 0,
    fun i _ => ![1, 0, 0] i, fun _ => 1, ⟨fun R h => by simp [supplyAbsorbed] at h, fun R h => ?_⟩, ?_, ?_, ?_, ?_, ?_⟩
  · simp only [supplyAbsorbed, Option.some.injEq] at h
    exact h ▸ C92_demeaned _
  · exact ⟨[(.difference .innovations, 1)], [(.levels, 1)], rfl, rfl, rfl⟩
  · intro i
    exact hasDerivAt_const _ _
  · intro i
    fin_cases i
    · simpa using hasDerivAt_id' (1 : ℝ)
    · simpa using hasDerivAt_const (1 : ℝ) (0 : ℝ)
    · simpa using hasDerivAt_const (1 : ℝ) (0 : ℝ)
  · have h : ∀ x : Unit → ℝ, (laggedWitness.afterAbsorption supplyAbsorbed true).objectiveWithEffects supplyAbsorbed false 1 1
        (fun i j => if i = 0 ∧ j = 1 then 1 else 0) 0 ![x (), 0, 0] 0 (Empty.elim : Empty → ℝ) = 4 / 81 * x () ^ 2 := by
      intro x
      unfold MomentData.objectiveWithEffects MomentData.objective gmmObjective
      simp only [meanMoments_eq, Matrix.one_mulVec, dotProduct, Fintype.sum_sum_type, Fintype.sum_sigma]
      simp only [xi_eq, omega_eq]
      simp [Fin.sum_univ_three, Spec.averagedMoments, Spec.momentError, Spec.innovation, Spec.unobserved, laggedWitness, supplyAbsorbed,
        MomentData.afterAbsorption, absorbedInstruments, absorbed, Absorbers.onDemand, Absorbers.onSupply, Spec.demeaned]
      ring
    simp only [h]
    have h2 := ((hasDerivAt_id' (1 : ℝ)).pow 2).const_mul (4 / 81)
    simp only [Function.update_self]
    refine h2.congr_deriv ?_
    norm_num
  · unfold MomentData.gradientWithEffects MomentData.gradient gmmGradient
    simp only [meanMoments_eq, Matrix.one_mulVec, dotProduct, Fintype.sum_sum_type, Fintype.sum_sigma]
    simp only [MomentData.progressJacobian, xi_eq, omega_eq, concat]
    simp [Fin.sum_univ_three, Spec.averagedMoments, Spec.momentError, Spec.innovation, Spec.unobserved, laggedWitness, supplyAbsorbed,
      MomentData.afterAbsorption, absorbedInstruments, absorbed, Absorbers.onDemand, Absorbers.onSupply, Spec.demeaned,
      gmmMomentsJacobianMean, MomentData.phiContribution, MomentData.jacobians, MomentData.converts, MomentData.demandColumn,
      MomentData.supplyColumn, MomentData.equations, computeDifference, hasLag]
    have hc : Matrix.col (fun i (_ : Unit) => (![1, 0, 0] : Fin 3 → ℝ) i) () 0 = 1 := rfl
    rw [hc]
    norm_num

end Pyblp
