import Verif.Model.MicroMoment
import Verif.Props.Moments
import Verif.Props.WholeMicro

/-!
# C154: construction of micro moments
-/

set_option linter.unusedSectionVars false

namespace Pyblp

variable {M P D : Type} [DecidableEq M] [DecidableEq P] [DecidableEq D]

namespace Spec

/-- Parts have different names, and datasets with the same name are the same. -/
def DistinctParts (c : MicroConfig M P D) (l : List P) : Prop :=
  (l.map c.partName).Nodup ∧ ∀ p ∈ l, ∀ q ∈ l, c.datasetName (c.dataset p) = c.datasetName (c.dataset q) → c.dataset p = c.dataset q

/-- The gradient of a moment is that of its value, wherever it has as many values as there are parts. -/
def GradientOfValue (s : MomentAttributes P) : Prop :=
  ∀ v : List ℝ, v.length = s.parts.length → GradientAt s.computeValue (s.computeGradient v) v

end Spec

lemma distinct_iff (c : MicroConfig M P D) (l : List P) :
    l.Pairwise (fun q p => (decide (p = q) || c.partClash p q) = false) ↔ Spec.DistinctParts c l := by
  have hiff : ∀ q p, (decide (p = q) || c.partClash p q) = false ↔
      c.partName q ≠ c.partName p ∧ (c.datasetName (c.dataset q) = c.datasetName (c.dataset p) → c.dataset q = c.dataset p) := fun q p => by
    unfold MicroConfig.partClash
    simp only [Bool.or_eq_false_iff, Bool.and_eq_false_iff, decide_eq_false_iff_not, not_not]
    constructor
    · rintro ⟨-, h1, h2⟩
      exact ⟨fun e => h1 e.symm, fun e => h2.elim (fun h => h.symm) fun h => absurd e.symm h⟩
    · rintro ⟨h1, h2⟩
      refine ⟨fun e => h1 (by rw [e]), fun e => h1 e.symm, ?_⟩
      by_cases h : c.datasetName (c.dataset p) = c.datasetName (c.dataset q)
      · exact .inl (h2 h.symm).symm
      · exact .inr h
  simp only [hiff, List.pairwise_and_iff]
  unfold Spec.DistinctParts List.Nodup
  rw [List.pairwise_map]
  refine and_congr_right fun _ => ?_
  constructor
  · intro h
    have : Std.Symm fun q p : P => c.datasetName (c.dataset q) = c.datasetName (c.dataset p) → c.dataset q = c.dataset p :=
      ⟨fun q p h e => (h e.symm).symm⟩
    intro p hp q hq
    exact List.Pairwise.forall_of_forall (fun _ _ _ => rfl) h hp hq
  · intro h
    exact List.pairwise_of_forall_mem_list fun q hq p hp => h q hq p hp

lemma checkParts_ok (c : MicroConfig M P D) (rest : List (Option P)) : ∀ (seen out : List P),
    seen.Pairwise (fun q p => (decide (p = q) || c.partClash p q) = false) →
      (c.checkParts seen rest = .ok out ↔ ∃ l, rest = l.map some ∧ out = seen ++ l ∧
        (seen ++ l).Pairwise fun q p => (decide (p = q) || c.partClash p q) = false) := by
  induction rest with
  | nil =>
    intro seen out hs
    simp only [MicroConfig.checkParts, Except.ok.injEq]
    constructor
    · rintro rfl
      exact ⟨[], rfl, by simp, by simpa using hs⟩
    · rintro ⟨l, hl, ho, -⟩
      obtain rfl : l = [] := by simpa using hl.symm
      simpa using ho.symm
  | cons a rest ih =>
    intro seen out hs
    cases a with
    | none =>
      simp only [MicroConfig.checkParts]
      constructor
      · intro h; cases h
      · rintro ⟨l, hl, -⟩
        cases l <;> simp at hl
    | some p =>
      simp only [MicroConfig.checkParts]
      split_ifs with h
      · constructor
        · intro h; cases h
        · rintro ⟨l, hl, -, hp⟩
          cases l with
          | nil => simp at hl
          | cons b l =>
            simp only [List.map_cons, List.cons.injEq, Option.some.injEq] at hl
            obtain ⟨q, hq, hqp⟩ := List.any_eq_true.mp h
            have := (List.pairwise_append.mp hp).2.2 q hq b List.mem_cons_self
            rw [← hl.1] at this
            rw [this] at hqp
            cases hqp
      · have hs' : (seen ++ [p]).Pairwise fun q p => (decide (p = q) || c.partClash p q) = false := by
          refine List.pairwise_append.mpr ⟨hs, List.pairwise_singleton _ _, fun q hq b hb => ?_⟩
          rw [List.mem_singleton.mp hb]
          by_contra hne
          exact h (List.any_eq_true.mpr ⟨q, hq, by rwa [Bool.not_eq_false] at hne⟩)
        rw [ih _ _ hs']
        constructor
        · rintro ⟨l, rfl, rfl, hp⟩
          exact ⟨p :: l, by simp, by simp, by simpa using hp⟩
        · rintro ⟨l, hl, rfl, hp⟩
          cases l with
          | nil => simp at hl
          | cons b l =>
            simp only [List.map_cons, List.cons.injEq, Option.some.injEq] at hl
            obtain ⟨rfl, rfl⟩ := hl
            exact ⟨l, rfl, by simp, by simpa using hp⟩

section

variable (c : MicroConfig M P D) (nameIsString : Bool) (value : List (Option ℝ)) (parts : PartsArgument P) (computeValue : Callback (List ℝ → ℝ))
  (computeGradient : Callback (List ℝ → List ℝ)) (s : MomentAttributes P)

/-- **C154, accepted moments.** A moment is constructed exactly if its name is a string, its value is one finite number, and either there is a single part, for which
functions are optional, or there is a sequence of at least one part, where parts have different names, datasets with the same name are the same, and there are both
functions. It has what was passed, and default functions otherwise. -/
theorem C154_accepted :
    c.momentInit nameIsString value parts computeValue computeGradient = .ok s ↔
      nameIsString = true ∧ value = [some s.value] ∧
        ((∃ p, parts = .single p ∧ s.parts = [p] ∧
          (computeValue = .callable s.computeValue ∨ computeValue = .none ∧ s.computeValue = fun v => v.headD 0) ∧
          (computeGradient = .callable s.computeGradient ∨ computeGradient = .none ∧ s.computeGradient = fun v => v.map fun _ => 1)) ∨
        (parts = .sequence (s.parts.map some) ∧ s.parts ≠ [] ∧ Spec.DistinctParts c s.parts ∧
          computeValue = .callable s.computeValue ∧ computeGradient = .callable s.computeGradient)) := by
  obtain ⟨x, ps, f, g⟩ := s
  unfold MicroConfig.momentInit
  cases nameIsString with
  | false => simp
  | true =>
    simp only [Bool.not_true, Bool.false_eq_true, if_false, true_and]
    match value with
    | [] => simp
    | [none] => simp
    | a :: b :: l => simp
    | [some y] =>
      cases parts with
      | other => simp [MicroConfig.momentParts]
      | single p =>
        cases computeValue <;> cases computeGradient <;>
          simp [MicroConfig.momentParts, defaultComputeValue, defaultComputeGradient, funext_iff, eq_comm]
      | sequence l =>
        by_cases hl : l.length < 1
        · have : l = [] := by simpa using hl
          subst this
          simp [MicroConfig.momentParts]
          intro _ h h'
          exact absurd h h'
        · have hne : l ≠ [] := by rintro rfl; simp at hl
          have hcheck := checkParts_ok c l [] ps List.Pairwise.nil
          simp only [List.nil_append, distinct_iff] at hcheck
          have hcheck' : c.checkParts [] l = .ok ps ↔ l = ps.map some ∧ Spec.DistinctParts c ps := by
            rw [hcheck]
            constructor
            · rintro ⟨l', h1, rfl, h2⟩
              exact ⟨h1, h2⟩
            · rintro ⟨h1, h2⟩
              exact ⟨ps, h1, rfl, h2⟩
          have hps : l = ps.map some → ps ≠ [] := by
            rintro h rfl
            exact hne (by simpa using h)
          cases computeValue with
          | none => simp [MicroConfig.momentParts, hl]
          | other =>
            cases computeGradient with
            | none => simp [MicroConfig.momentParts, hl]
            | other => simp only [MicroConfig.momentParts, if_neg hl]; cases c.checkParts [] l <;> simp
            | callable g' => simp only [MicroConfig.momentParts, if_neg hl]; cases c.checkParts [] l <;> simp
          | callable f' =>
            cases computeGradient with
            | none => simp [MicroConfig.momentParts, hl]
            | other => simp only [MicroConfig.momentParts, if_neg hl]; cases c.checkParts [] l <;> simp
            | callable g' =>
              simp only [MicroConfig.momentParts, if_neg hl]
              cases hc : c.checkParts [] l with
              | error e =>
                rw [hc] at hcheck'
                have : ¬(l = ps.map some ∧ Spec.DistinctParts c ps) := fun h => by cases hcheck'.mpr h
                simp only [reduceCtorEq, false_iff]
                rintro ⟨-, ⟨p, hp, -⟩ | ⟨h1, -, h2, -⟩⟩
                · cases hp
                · exact this ⟨by simpa using h1, h2⟩
              | ok ps' =>
                rw [hc] at hcheck'
                simp only [Except.ok.injEq, MomentAttributes.mk.injEq, List.cons.injEq, Option.some.injEq, and_true, reduceCtorEq, false_and,
                  exists_false, false_or, PartsArgument.sequence.injEq, Callback.callable.injEq] at hcheck' ⊢
                constructor
                · rintro ⟨h1, h2, h3, h4⟩
                  exact ⟨h1, (hcheck'.mp h2).1, hps (hcheck'.mp h2).1, (hcheck'.mp h2).2, h3, h4⟩
                · rintro ⟨h1, h2, -, h3, h4, h5⟩
                  exact ⟨h1, hcheck'.mpr ⟨h2, h3⟩, h4, h5⟩

/-- **C154, gradients.** If either both functions are passed, and the gradient is right, or neither, then the gradient of an accepted moment is that of its value. Missing:
a single part with one of both functions, see `C154_refuted`. -/
theorem C154_gradient_partial (h : c.momentInit nameIsString value parts computeValue computeGradient = .ok s)
    (hboth : computeValue = .none ↔ computeGradient = .none)
    (hright : ∀ f g, computeValue = .callable f → computeGradient = .callable g → ∀ v : List ℝ, v.length = s.parts.length → Spec.GradientAt f (g v) v) :
    Spec.GradientOfValue s := by
  rw [C154_accepted] at h
  obtain ⟨-, -, ⟨p, -, hp, hf, hg⟩ | ⟨-, -, -, hf, hg⟩⟩ := h
  · rcases hf with hf | ⟨hf, hf'⟩ <;> rcases hg with hg | ⟨hg, hg'⟩
    · exact hright _ _ hf hg
    · rw [hboth.mpr hg] at hf; cases hf
    · rw [hboth.mp hf] at hg; cases hg
    · intro v hv n w hw
      have hn : n = 1 := by
        rw [hp, hw] at hv
        simpa using hv
      subst hn
      refine ⟨ContinuousLinearMap.proj 0, ?_, ?_⟩
      · rw [hf']
        simp only [List.ofFn_succ, List.headD_cons]
        exact hasFDerivAt_apply 0 w
      · rw [hg', hw]
        simp
  · exact hright _ _ hf hg

/-- **C154, a single part.** The value of a moment with a single part and no functions is that of the part. -/
theorem C154_single (p : P) (hparts : parts = .single p) (hnone : computeValue = .none)
    (h : c.momentInit nameIsString value parts computeValue computeGradient = .ok s) (part : P → ℝ) : s.computeValue (s.parts.map part) = part p := by
  rw [C154_accepted] at h
  obtain ⟨-, -, ⟨q, hq, hp, hf, -⟩ | ⟨hq, -⟩⟩ := h
  · rw [hparts] at hq
    cases hq
    rcases hf with hf | ⟨-, hf⟩
    · rw [hnone] at hf; cases hf
    · rw [hf, hp]; rfl
  · rw [hparts] at hq; cases hq

/-- **C154, negation.** A single part with a function for the value but no gradient is accepted: the value is not that of the part, and the gradient, which is one, is not
that of the value, so that the derivative of the moment with respect to a parameter is wrong. -/
theorem C154_refuted (x : ℝ) (p : P) : ∃ s, c.momentInit true [some x] (.single p) (.callable fun v => v.headD 0 ^ 2) .none = .ok s ∧
    ¬Spec.GradientOfValue s ∧ s.computeValue [3] ≠ 3 ∧
    HasDerivAt (fun t : ℝ => s.computeValue ([p].map fun _ => t)) 6 3 ∧ (([p].zip (s.computeGradient [3])).map fun a => a.2 * 1).sum = 1 := by
  refine ⟨⟨x, [p], fun v => v.headD 0 ^ 2, defaultComputeGradient⟩, rfl, ?_, by norm_num, ?_, by simp [defaultComputeGradient]⟩
  · intro h
    obtain ⟨L, hL, he⟩ := h [3] rfl 1 (fun _ => 3) (by simp)
    have h1 : L (Pi.single 0 1) = 1 := by
      have := congrArg (fun l : List ℝ => l.headD 0) he
      simpa [defaultComputeGradient] using this.symm
    have h2 : HasDerivAt (fun t : ℝ => (fun _ : Fin 1 => t)) (Pi.single 0 1 : Fin 1 → ℝ) 3 := by
      rw [hasDerivAt_pi]
      intro i
      fin_cases i
      simpa using hasDerivAt_id' (3 : ℝ)
    have h3 := hL.comp_hasDerivAt (3 : ℝ) h2
    rw [h1] at h3
    have h4 : HasDerivAt (fun t : ℝ => t ^ 2) 6 3 := by
      have := hasDerivAt_pow 2 (3 : ℝ)
      norm_num at this
      exact this
    have h5 : HasDerivAt (fun t : ℝ => t ^ 2) 1 3 := by
      refine h3.congr_of_eventuallyEq (Filter.Eventually.of_forall fun t => ?_)
      simp
    have := h4.unique h5
    norm_num at this
  · have := hasDerivAt_pow 2 (3 : ℝ)
    norm_num at this
    simpa using this

end

/-! ## Examples -/

/-- Parts are numbered and have their numbers as names, and there is one dataset. -/
def numberedParts : MicroConfig ℕ ℕ Unit where
  momentName m := toString m
  parts m := [m]
  partName p := if p = 0 then "a" else "b"
  dataset _ := ()
  datasetName _ := "survey"
  validDataset _ := true

/-- A conditional mean, the ratio of two parts, is accepted. -/
example : numberedParts.momentInit true [some 2] (.sequence [some 0, some 1]) (.callable fun v => v.headD 0 / v.getD 1 0)
    (.callable fun v => [1 / v.getD 1 0, -v.headD 0 / v.getD 1 0 ^ 2]) =
      .ok ⟨2, [0, 1], fun v => v.headD 0 / v.getD 1 0, fun v => [1 / v.getD 1 0, -v.headD 0 / v.getD 1 0 ^ 2]⟩ := by
  rw [C154_accepted]
  refine ⟨rfl, rfl, .inr ⟨rfl, by simp, ⟨?_, fun p _ q _ _ => rfl⟩, rfl, rfl⟩⟩
  simp [numberedParts]

/-- A part that is repeated is not. -/
example (f : List ℝ → ℝ) (g : List ℝ → List ℝ) : numberedParts.momentInit true [some 2] (.sequence [some 1, some 1]) (.callable f) (.callable g) =
    .error .valueError := by
  simp [MicroConfig.momentInit, MicroConfig.momentParts, MicroConfig.checkParts]

/-- With a single part and no functions, the hypotheses of `C154_gradient_partial` and `C154_single` hold. -/
example : ∃ s, numberedParts.momentInit true [some 2] (.single 0) .none .none = .ok s ∧ Spec.GradientOfValue s :=
  ⟨⟨2, [0], defaultComputeValue, defaultComputeGradient⟩, rfl, C154_gradient_partial numberedParts true [some 2] (.single 0) .none .none _ rfl
    (by simp) (fun f g hf => by cases hf)⟩

end Pyblp
