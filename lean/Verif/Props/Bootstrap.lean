import Verif.Model.Bootstrap
import Verif.Props.Parameters
import Mathlib.Algebra.BigOperators.Group.List.Basic
import Mathlib.Tactic.Ring

/-!
# Parametric bootstrap: C55
-/

set_option linter.unusedSectionVars false

namespace Pyblp

open Classical

namespace Spec

/-- The element of an interval that is closest to a number. -/
noncomputable def nearest (lb ub x : EReal) : EReal := if x < lb then lb else if ub < x then ub else x

/-- A linear index with a residual. -/
def linearIndexOf (K : ℕ) (X : ℕ → ℕ → ℝ) (coefficients : ℕ → ℝ) (residual : ℕ → ℝ) (j : ℕ) : ℝ :=
  ((List.range K).map fun k => X j k * coefficients k).sum + residual j

end Spec

theorem clipFl_nearest (lb ub x : EReal) (h : lb ≤ ub) : clipFl (lb, ub) (some x) = some (Spec.nearest lb ub x) := by
  unfold clipFl Spec.nearest
  rw [Option.map_some]
  dsimp only
  congr 1
  by_cases h1 : x < lb
  · rw [if_pos h1, max_eq_right h1.le, min_eq_left h]
  · rw [if_neg h1, max_eq_left (not_lt.1 h1)]
    by_cases h2 : ub < x
    · rw [if_pos h2, min_eq_right h2.le]
    · rw [if_neg h2, min_eq_left (not_lt.1 h2)]

/-- Bounds of parameters that are not concentrated out are in order. -/
theorem bounds_ordered {e : ParamInputs} {p : Parameters} (h : buildParameters e = .ok p) (b : Block) (i j : ℕ)
    (hi : i < (p.mats b).rows) (hj : j < (p.mats b).cols) (he : (⟨b, i, j⟩ : Param) ∉ p.stored.eliminated) :
    ∃ x, Spec.start e b i j = some x ∧ (p.bounds b i j).1 ≤ (p.bounds b i j).2 ∧
      ((⟨b, i, j⟩ : Param) ∉ p.stored.unfixed → p.bounds b i j = (x, x)) := by
  obtain ⟨b0, H⟩ := built_of_ok h
  have hx : ∃ x, Spec.start e b i j = some x := by
    cases hs : Spec.start e b i j with
    | some x => exact ⟨x, rfl⟩
    | none =>
      have hl := H.nan b i j hi hj (by rw [H.entry, hs])
      exact absurd ((C44_concentrated h b i j).2 ⟨hi, hj, hl, hs⟩) he
  obtain ⟨x, hx⟩ := hx
  refine ⟨x, hx, ?_⟩
  obtain ⟨v, hv, hb⟩ := built_bounds H b
  by_cases hu : (⟨b, i, j⟩ : Param) ∈ p.stored.unfixed
  · refine ⟨?_, fun hn => absurd hu hn⟩
    cases hbd : e.bounded with
    | false =>
      have := C45_unsupported h hbd _ hu
      dsimp only at this
      rw [this]
      exact bot_le
    | true =>
      cases hub : e.bounds b with
      | none =>
        have := C45_default h hbd _ hu hub x hx
        dsimp only at this
        rw [this]
        split
        · exact le_top
        · split
          · exact (min_le_right _ _).trans (le_max_right _ _)
          · exact bot_le
      | some lu =>
        obtain ⟨lb, ub⟩ := lu
        have := C45_supplied h hbd _ hu lb ub hub
        dsimp only at this
        rw [this]
        rcases validateBounds_ok hv i j hi hj with ⟨hn, _⟩ | ⟨lb', ub', hs, _, hin⟩
        · rw [hub] at hn
          cases hn
        · rw [hub] at hs
          cases hs
          have := hin x (by rw [H.entry]; exact hx)
          exact this.1.trans this.2
  · have key : p.bounds b i j = (x, x) := by
      rw [H.final]
      unfold withDefaults
      rw [if_neg (fun hc => hu hc.2), hb]
      unfold fixZeros
      rw [H.entry]
      by_cases h0 : Spec.start e b i j = some 0
      · rw [if_pos h0]
        rw [hx] at h0
        rw [Option.some.inj h0]
      · rw [if_neg h0]
        by_cases hs : b = .sigma ∧ i < j
        · exfalso
          apply h0
          unfold Spec.start
          rw [if_pos hs]
        · have hf : Spec.FixedByUser e b i j := by
            by_contra hf
            apply hu
            rw [C44_estimated h]
            refine ⟨hi, hj, fun hb => ?_, h0, fun hc => ?_, hf⟩
            · by_contra hlt
              exact hs ⟨hb, not_le.1 hlt⟩
            · rw [hx] at hc
              cases hc.2
          obtain ⟨lb, ub, h1, h2⟩ := hf
          rcases validateBounds_ok hv i j hi hj with ⟨hn, _⟩ | ⟨lb', ub', hs', hvij, hin⟩
          · rw [h1] at hn
            cases hn
          · rw [h1] at hs'
            cases hs'
            have hin := hin x (by rw [H.entry]; exact hx)
            have e1 : Spec.userLower lb i j = x := le_antisymm hin.1 (h2 ▸ hin.2)
            have e2 : Spec.userUpper ub i j = x := by rw [← h2, e1]
            unfold dropBounds
            cases e.bounded
            · show (if (v i j).1 ≠ (v i j).2 then ((⊥, ⊤) : EReal × EReal) else v i j) = (x, x)
              rw [hvij, e1, e2, if_neg (not_not.2 rfl)]
            · show v i j = (x, x)
              rw [hvij, e1, e2]
    exact ⟨by rw [key], fun _ => key⟩

/-- **C55.** Every bootstrapped parameter that is estimated or fixed is within the bounds, whatever was drawn. (It is NaN only if the
draw is.) -/
theorem C55_bounds_partial {e : ParamInputs} {p : Parameters} (h : buildParameters e = .ok p) (draw : List Fl) (b : Block) (i j : ℕ)
    (hi : i < (p.mats b).rows) (hj : j < (p.mats b).cols)
    (he : (⟨b, i, j⟩ : Param) ∈ p.stored.eliminated → (p.bounds b i j).1 ≤ (p.bounds b i j).2) (y : EReal)
    (hy : bootstrapDraw p draw b i j = some y) : (p.bounds b i j).1 ≤ y ∧ y ≤ (p.bounds b i j).2 := by
  have hle : (p.bounds b i j).1 ≤ (p.bounds b i j).2 := by
    by_cases hm : (⟨b, i, j⟩ : Param) ∈ p.stored.eliminated
    · exact he hm
    · obtain ⟨_, _, hle, _⟩ := bounds_ordered h b i j hi hj hm
      exact hle
  unfold bootstrapDraw clipFl at hy
  cases hx : expandDraw p draw b i j with
  | none =>
    rw [hx] at hy
    cases hy
  | some x =>
    rw [hx] at hy
    have := Option.some.inj hy
    subst this
    exact ⟨le_min (le_max_right _ _) hle, min_le_right _ _⟩

theorem expandDraw_of_not {e : ParamInputs} {p : Parameters} (h : buildParameters e = .ok p) (draw : List Fl) (b : Block) (i j : ℕ)
    (hi : i < (p.mats b).rows) (hj : j < (p.mats b).cols) (he : (⟨b, i, j⟩ : Param) ∉ p.stored.eliminated) :
    expandDraw p draw b i j = expand p (draw.take p.stored.unfixed.length) false b i j := by
  obtain ⟨b0, H⟩ := built_of_ok h
  have hn : Spec.Linear b → (p.mats b).entry i j ≠ none := fun hl hn =>
    he ((C44_concentrated h b i j).2 ⟨hi, hj, hl, by rw [← H.entry]; exact hn⟩)
  unfold expandDraw
  cases b
  case beta =>
    dsimp only
    rw [if_neg (hn (Or.inl rfl))]
  case gamma =>
    dsimp only
    rw [if_neg (hn (Or.inr rfl))]
  all_goals rfl

/-- **C55.** A parameter that is neither estimated nor concentrated out has its starting value in every draw. -/
theorem C55_fixed {e : ParamInputs} {p : Parameters} (h : buildParameters e = .ok p) (draw : List Fl)
    (hd : p.stored.unfixed.length ≤ draw.length) (b : Block) (i j : ℕ)
    (hi : i < (p.mats b).rows) (hj : j < (p.mats b).cols) (hu : (⟨b, i, j⟩ : Param) ∉ p.stored.unfixed)
    (he : (⟨b, i, j⟩ : Param) ∉ p.stored.eliminated) : bootstrapDraw p draw b i j = Spec.start e b i j := by
  obtain ⟨x, hx, _, hbx⟩ := bounds_ordered h b i j hi hj he
  unfold bootstrapDraw
  rw [expandDraw_of_not h draw b i j hi hj he,
    C43_fixed h _ (by rw [List.length_take]; omega) b i j hi hj hu, hx, hbx hu, clipFl_nearest _ _ _ le_rfl]
  unfold Spec.nearest
  rw [if_neg (lt_irrefl x), if_neg (lt_irrefl x)]

/-- **C55.** The `k`-th estimated parameter is the element of its interval that is closest to the `k`-th element of the draw. -/
theorem C55_estimated {e : ParamInputs} {p : Parameters} (h : buildParameters e = .ok p) (draw : List Fl)
    (hd : p.stored.unfixed.length ≤ draw.length) (k : ℕ) (hk : k < p.stored.unfixed.length) (x : EReal)
    (hx : draw[k]'(by omega) = some x) :
    let q := p.stored.unfixed[k]
    bootstrapDraw p draw q.block q.row q.col =
      some (Spec.nearest (p.bounds q.block q.row q.col).1 (p.bounds q.block q.row q.col).2 x) := by
  intro q
  have hq : (⟨q.block, q.row, q.col⟩ : Param) ∈ p.stored.unfixed := List.getElem_mem hk
  obtain ⟨hi, hj, _, _, hl, _⟩ := (C44_estimated h _ _ _).1 hq
  have he : (⟨q.block, q.row, q.col⟩ : Param) ∉ p.stored.eliminated := fun hm => by
    have := (C44_concentrated h _ _ _).1 hm
    exact hl this.2.2
  obtain ⟨_, _, hle, _⟩ := bounds_ordered h _ _ _ hi hj he
  unfold bootstrapDraw
  rw [expandDraw_of_not h draw _ _ _ hi hj he,
    expand_unfixed h _ (by rw [List.length_take]; omega) false k hk, List.getElem_take, hx]
  exact clipFl_nearest _ _ _ hle

/-- **C55.** The `k`-th element of `beta` that is concentrated out comes from its own element of the draw, which follows those for
estimated parameters. -/
theorem C55_concentrated_beta (p : Parameters) (draw : List Fl)
    (hd : p.stored.unfixed.length + (eliminatedRows (p.mats .beta)).length ≤ draw.length) (k : ℕ)
    (hk : k < (eliminatedRows (p.mats .beta)).length) (x : EReal) (hx : draw[p.stored.unfixed.length + k]'(by omega) = some x)
    (hb : (p.bounds .beta (eliminatedRows (p.mats .beta))[k] 0).1 ≤ (p.bounds .beta (eliminatedRows (p.mats .beta))[k] 0).2) :
    bootstrapDraw p draw .beta (eliminatedRows (p.mats .beta))[k] 0 =
      some (Spec.nearest (p.bounds .beta (eliminatedRows (p.mats .beta))[k] 0).1
        (p.bounds .beta (eliminatedRows (p.mats .beta))[k] 0).2 x) := by
  have hm : (eliminatedRows (p.mats .beta))[k] ∈ eliminatedRows (p.mats .beta) := List.getElem_mem hk
  have hn : (p.mats .beta).entry (eliminatedRows (p.mats .beta))[k] 0 = none := by
    have := (List.mem_filter.1 hm).2
    rwa [decide_eq_true_eq] at this
  unfold bootstrapDraw
  rw [← clipFl_nearest _ _ _ hb]
  congr 1
  unfold expandDraw
  dsimp only
  rw [if_pos hn, fillMask_get _ _ _ (nodup_eliminatedRows _) k hk (by rw [List.length_take, List.length_drop]; omega),
    List.getElem_take, List.getElem_drop, hx]

/-- **C55.** The `k`-th element of `gamma` that is concentrated out comes from its own element of the draw, which follows those for
estimated parameters and for `beta`. -/
theorem C55_concentrated_gamma (p : Parameters) (draw : List Fl)
    (hd : p.stored.unfixed.length + (eliminatedRows (p.mats .beta)).length + (eliminatedRows (p.mats .gamma)).length ≤ draw.length)
    (k : ℕ) (hk : k < (eliminatedRows (p.mats .gamma)).length) (x : EReal)
    (hx : draw[p.stored.unfixed.length + (eliminatedRows (p.mats .beta)).length + k]'(by omega) = some x)
    (hb : (p.bounds .gamma (eliminatedRows (p.mats .gamma))[k] 0).1 ≤ (p.bounds .gamma (eliminatedRows (p.mats .gamma))[k] 0).2) :
    bootstrapDraw p draw .gamma (eliminatedRows (p.mats .gamma))[k] 0 =
      some (Spec.nearest (p.bounds .gamma (eliminatedRows (p.mats .gamma))[k] 0).1
        (p.bounds .gamma (eliminatedRows (p.mats .gamma))[k] 0).2 x) := by
  have hm : (eliminatedRows (p.mats .gamma))[k] ∈ eliminatedRows (p.mats .gamma) := List.getElem_mem hk
  have hn : (p.mats .gamma).entry (eliminatedRows (p.mats .gamma))[k] 0 = none := by
    have := (List.mem_filter.1 hm).2
    rwa [decide_eq_true_eq] at this
  unfold bootstrapDraw
  rw [← clipFl_nearest _ _ _ hb]
  congr 1
  unfold expandDraw
  dsimp only
  rw [if_pos hn, fillMask_get _ _ _ (nodup_eliminatedRows _) k hk (by rw [List.length_drop]; omega), List.getElem_drop, hx]

/-- **C55.** Without supplied bounds, a parameter that is concentrated out is its own draw. -/
theorem C55_concentrated_unbounded {e : ParamInputs} {p : Parameters} (h : buildParameters e = .ok p) (b : Block) (i j : ℕ)
    (he : (⟨b, i, j⟩ : Param) ∈ p.stored.eliminated) (hu : e.bounds b = none) :
    p.bounds b i j = (⊥, ⊤) ∧ ∀ x, Spec.nearest (p.bounds b i j).1 (p.bounds b i j).2 x = x := by
  have key : p.bounds b i j = (⊥, ⊤) := by
    obtain ⟨hi, hj, hl, hs⟩ := (C44_concentrated h b i j).1 he
    obtain ⟨b0, H⟩ := built_of_ok h
    have hnu : (⟨b, i, j⟩ : Param) ∉ p.stored.unfixed := fun hm => ((C44_estimated h b i j).1 hm).2.2.2.2.1 ⟨hl, hs⟩
    rw [H.final]
    unfold withDefaults
    rw [if_neg (fun hc => hnu hc.2), built_b0_unfixed H b i j hi hj (by rw [hs]; exact fun h => by cases h)
      (by rintro ⟨_, _, h, _⟩; rw [hu] at h; cases h), hu]
    cases e.bounded <;> rfl
  refine ⟨key, fun x => ?_⟩
  rw [key]
  unfold Spec.nearest
  rw [if_neg (not_lt.2 bot_le), if_neg (not_lt.2 le_top)]

/-- **C55.** Elements of the mean of the draws, the vector of all parameters, are where the draws are looked up: estimated parameters,
elements of `beta` that are concentrated out, and then those of `gamma`. -/
theorem C55_mean (p : Parameters) (theta : List Fl) (ht : theta.length = p.stored.unfixed.length) (beta gamma : ℕ → Fl) :
    (∀ k (hk : k < p.stored.unfixed.length), (parameterVector p theta beta gamma)[k]? = some (theta[k]'(by omega))) ∧
      (∀ k (hk : k < (eliminatedRows (p.mats .beta)).length),
        (parameterVector p theta beta gamma)[p.stored.unfixed.length + k]? = some (beta (eliminatedRows (p.mats .beta))[k])) ∧
      ∀ k (hk : k < (eliminatedRows (p.mats .gamma)).length),
        (parameterVector p theta beta gamma)[p.stored.unfixed.length + (eliminatedRows (p.mats .beta)).length + k]? =
          some (gamma (eliminatedRows (p.mats .gamma))[k]) := by
  unfold parameterVector
  refine ⟨fun k hk => ?_, fun k hk => ?_, fun k hk => ?_⟩
  · rw [List.append_assoc, List.getElem?_append_left (by omega), List.getElem?_eq_getElem]
  · rw [List.append_assoc, List.getElem?_append_right (by omega), ht, Nat.add_sub_cancel_left,
      List.getElem?_append_left (by rw [List.length_map]; omega), List.getElem?_map, List.getElem?_eq_getElem hk]
    rfl
  · rw [List.getElem?_append_right (by rw [List.length_append, List.length_map]; omega), List.length_append, List.length_map, ht,
      Nat.add_sub_cancel_left, List.getElem?_map, List.getElem?_eq_getElem hk]
    rfl

/-- **C55.** Bootstrapped mean utilities (and costs, or their logarithms) are the linear index at the drawn coefficients with the
residual that was estimated. -/
theorem C55_index (K : ℕ) (X : ℕ → ℕ → ℝ) (estimated drawn residual : ℕ → ℝ) (j : ℕ) :
    shiftIndex K X (Spec.linearIndexOf K X estimated residual) estimated drawn j = Spec.linearIndexOf K X drawn residual j := by
  unfold shiftIndex Spec.linearIndexOf
  induction List.range K with
  | nil => simp
  | cons k l ih =>
    simp only [List.map_cons, List.sum_cons] at ih ⊢
    have := ih
    linear_combination ih

/-- One linear parameter that is concentrated out, with a lower bound of one and an upper bound of zero. -/
noncomputable def reversedInputs : ParamInputs where
  K1 := 1
  K2 := 0
  K3 := 0
  D := 0
  H := 0
  hasLags := false
  nodeColumns := 0
  usesPrices := fun _ => false
  values := fun _ => none
  bounds := fun
    | .beta => some (⟨1, 1, fun _ _ => some 1⟩, ⟨1, 1, fun _ _ => some 0⟩)
    | _ => none
  bounded := true
  allowLinearNans := true
  checkAlpha := true

/-- The matrices of the example. -/
noncomputable def reversedRaw : Block → FMatrix
  | .sigma => ⟨0, 0, fun _ _ => none⟩
  | .pi => ⟨0, 0, fun _ _ => none⟩
  | .rho => ⟨0, 1, fun _ _ => none⟩
  | .phi => ⟨1, 0, fun _ _ => none⟩
  | .beta => ⟨1, 1, fun _ _ => none⟩
  | .gamma => ⟨0, 1, fun _ _ => none⟩

theorem reversed_ok : ∃ p, buildParameters reversedInputs = .ok p := by
  have hm : forBlocks (fun b => initializeMatrix (reversedInputs.values b) (reversedInputs.shapes b) (reversedInputs.allowNans b)) =
      .ok reversedRaw := by
    apply forBlocks_of
    intro b
    cases b <;> simp [initializeMatrix, reversedInputs, ParamInputs.shapes, ParamInputs.allowNans, reversedRaw]
  have hb : ∃ b0, forBlocks (fun b => initializeBounds (withUpper reversedRaw b) (reversedInputs.bounds b) reversedInputs.bounded) =
      .ok b0 := by
    have : ∀ b, ∃ c, initializeBounds (withUpper reversedRaw b) (reversedInputs.bounds b) reversedInputs.bounded = .ok c := by
      intro b
      have hv : ∃ v, validateBounds (withUpper reversedRaw b) (reversedInputs.bounds b) = .ok v := by
        cases b
        case beta =>
          rw [show withUpper reversedRaw .beta = reversedRaw .beta from if_neg (by decide)]
          apply validateBounds_of
          · exact Nat.succ_ne_zero _
          · rfl
          · rfl
          · rintro ⟨i, hi, j, hj, ⟨x, y, h1, h2, h3⟩ | ⟨x, y, h1, h2, h3⟩⟩
            · cases h1
            · cases h2
        all_goals exact ⟨_, rfl⟩
      obtain ⟨v, hv⟩ := hv
      unfold initializeBounds
      rw [hv]
      exact ⟨_, rfl⟩
    choose c hc using this
    exact ⟨c, forBlocks_of hc⟩
  obtain ⟨b0, hb0⟩ := hb
  unfold buildParameters
  rw [hm]
  dsimp only
  rw [if_neg (by simp [reversedInputs, nonzeroColumns]), if_neg (by simp [reversedInputs]), hb0]
  exact ⟨_, rfl⟩

/-- **C55 does not hold** for parameters that are concentrated out and have bounds in the wrong order: there is no starting value
to reject the bounds, and the bootstrapped value is below the lower bound. -/
theorem C55_reversed_refuted : ∃ (e : ParamInputs) (p : Parameters), buildParameters e = .ok p ∧ ∀ (draw : List Fl) (y : EReal),
    bootstrapDraw p draw .beta 0 0 = some y → y < (p.bounds .beta 0 0).1 := by
  obtain ⟨p, hp⟩ := reversed_ok
  refine ⟨_, p, hp, fun draw y hy => ?_⟩
  obtain ⟨b0, H⟩ := built_of_ok hp
  have hs : Spec.start reversedInputs .beta 0 0 = none := rfl
  have hshape := H.shape .beta
  have hrc : (p.mats .beta).rows = 1 ∧ (p.mats .beta).cols = 1 := by
    have := List.mem_singleton.1 hshape
    exact ⟨congrArg Prod.fst this, congrArg Prod.snd this⟩
  have h1 : p.bounds .beta 0 0 = (1, 0) := by
    have hnu : (⟨.beta, 0, 0⟩ : Param) ∉ p.stored.unfixed :=
      fun hm => ((C44_estimated hp .beta 0 0).1 hm).2.2.2.2.1 ⟨Or.inl rfl, hs⟩
    rw [H.final]
    unfold withDefaults
    rw [if_neg (fun hc => hnu hc.2), built_b0_unfixed H .beta 0 0 (by omega) (by omega) (by rw [hs]; exact fun h => by cases h)]
    · rfl
    · rintro ⟨lb, ub, h, h'⟩
      cases h
      exact one_ne_zero h'
  unfold bootstrapDraw clipFl at hy
  rw [h1] at hy ⊢
  cases hx : expandDraw p draw .beta 0 0 with
  | none =>
    rw [hx] at hy
    cases hy
  | some x =>
    rw [hx] at hy
    rw [← Option.some.inj hy]
    exact lt_of_le_of_lt (min_le_right _ _) zero_lt_one

/-- In the example of C44, all kinds of parameters appear, so draws with three elements determine them. -/
example : ∃ p, buildParameters exampleInputs = .ok p ∧ (⟨.beta, 0, 0⟩ : Param) ∈ p.stored.eliminated ∧
    (⟨.beta, 1, 0⟩ : Param) ∈ p.stored.unfixed ∧ (⟨.beta, 2, 0⟩ : Param) ∈ p.stored.fixed.map Prod.fst := by
  obtain ⟨p, h1, _, _, h4, h5, h6⟩ := example_ok
  exact ⟨p, h1, h4, h5, h6⟩

end Pyblp
