import Verif.Model.Configurations

/-!
# Configurations: C110
-/

set_option linter.unusedSectionVars false

namespace Pyblp

open Classical

namespace Spec

/-- An object is a number. -/
inductive IsNumber : PyValue → Fl → Prop
  | int (z : ℤ) : IsNumber (.int z) (some ((z : ℝ) : EReal))
  | float (x : Fl) : IsNumber (.float x) x

/-- The value of an option is the one given, and otherwise the default. -/
def Setting (given : PyDict) (key : String) (default value : PyValue) : Prop :=
  given key = some value ∨ (given key = none ∧ value = default)

/-- A number that is not negative, or NaN. -/
def Tolerance (v : PyValue) : Prop := ∃ x, IsNumber v x ∧ ∀ a, x = some a → 0 ≤ a

/-- A positive float, or NaN. -/
def Positive (v : PyValue) : Prop := ∃ x, v = .float x ∧ ∀ a, x = some a → 0 < a

/-- Names of methods for fixed points. -/
def iterationMethods : List String :=
  ["simple", "squarem", "broyden1", "broyden2", "anderson", "diagbroyden", "krylov", "df-sane", "hybr", "lm", "return"]

/-- Options of `simple` and `squarem`: tolerances, not both zero, a positive number of evaluations, and a norm. -/
def FixedPointOptions (given : PyDict) : Prop :=
  (∀ v, Setting given "atol" (.float (some ((1e-14 : ℝ) : EReal))) v → Tolerance v) ∧
  (∀ v, Setting given "rtol" (.int 0) v → Tolerance v) ∧
  (¬ ∃ v w, Setting given "atol" (.float (some ((1e-14 : ℝ) : EReal))) v ∧ Setting given "rtol" (.int 0) w ∧
    IsNumber v (some 0) ∧ IsNumber w (some 0)) ∧
  (∀ v, Setting given "max_evaluations" (.int 5000) v → ∃ z : ℤ, v = .int z ∧ 1 ≤ z) ∧
  (∀ v, Setting given "norm" .callable v → v = .callable)

/-- Options of `squarem`: one of three schemes, and bounds of step lengths in order. -/
def SquaremOptions (given : PyDict) : Prop :=
  (∀ v, Setting given "scheme" (.int 3) v → IsNumber v (some ((1 : ℝ) : EReal)) ∨ IsNumber v (some ((2 : ℝ) : EReal)) ∨
    IsNumber v (some ((3 : ℝ) : EReal))) ∧
  (∀ v, Setting given "step_min" (.float (some 1)) v → ∃ x, v = .float x) ∧
  (∀ v, Setting given "step_max" (.float (some 1)) v → Positive v) ∧
  (∀ a b, Setting given "step_min" (.float (some 1)) (.float (some a)) → Setting given "step_max" (.float (some 1)) (.float (some b)) →
    a ≤ b) ∧
  (∀ v, Setting given "step_factor" (.float (some ((4 : ℝ) : EReal))) v → Positive v)

/-- Valid arguments of `Iteration`. -/
def ValidIteration : MethodArgument → OptionsArgument → Bool → Prop
  | _, .other, _ => False
  | .custom, _, _ => True
  | .name m, options, jacobian => m ∈ iterationMethods ∧ (jacobian = true → m ∈ ["hybr", "lm", "return"]) ∧
      (m = "return" → ∀ k, options.get k = none) ∧ (m ∈ ["simple", "squarem"] → FixedPointOptions options.get) ∧
      (m = "squarem" → SquaremOptions options.get)

/-- Valid arguments of `Optimization`. -/
def ValidOptimization (knitroWorks : Bool) : MethodArgument → OptionsArgument → Bool → Prop
  | _, .other, _ => False
  | .custom, _, _ => True
  | .name m, options, gradient =>
      (m ∈ ["nelder-mead", "powell"] ∧ gradient = false) ∨ m ∈ ["cg", "bfgs", "l-bfgs-b", "tnc", "slsqp", "trust-constr"] ∨
      (m = "newton-cg" ∧ gradient = true) ∨ (m = "knitro" ∧ knitroWorks = true) ∨ (m = "return" ∧ ∀ k, options.get k = none)

/-- Valid arguments of `Integration`. -/
def ValidIntegration (specification : String) (size : PyValue) (options : OptionsArgument) : Prop :=
  specification ∈ ["monte_carlo", "halton", "lhs", "mlhs", "product", "grid", "nested_product", "nested_grid"] ∧
  (∃ z : ℤ, size = .int z ∧ 1 ≤ z) ∧ options ≠ .other ∧
  (specification ∈ ["monte_carlo", "halton", "lhs", "mlhs"] → ∀ v, options.get "seed" = some v → ∃ z, v = .int z) ∧
  (specification = "halton" → ∀ v, options.get "discard" = some v → ∃ z : ℤ, v = .int z ∧ 0 ≤ z)

end Spec

theorem number_iff (v : PyValue) (x : Fl) : v.number = some x ↔ Spec.IsNumber v x := by
  constructor
  · intro h
    cases v with
    | int z => rw [← Option.some.inj h]; exact .int z
    | float y => rw [← Option.some.inj h]; exact .float y
    | callable => exact absurd h (by simp [PyValue.number])
    | other => exact absurd h (by simp [PyValue.number])
  · intro h
    cases h <;> rfl

theorem isNumber_unique {v : PyValue} {x y : Fl} (h : Spec.IsNumber v x) (h' : Spec.IsNumber v y) : x = y := by
  rw [← number_iff] at h h'
  exact Option.some.inj (h.symm.trans h')

/-- The value after defaults are updated is the setting. -/
theorem update_setting {defaults given : PyDict} {key : String} {d : PyValue} (hd : defaults key = some d) :
    ∃ v, defaults.update given key = some v ∧ ∀ w, Spec.Setting given key d w ↔ w = v := by
  unfold PyDict.update Spec.Setting
  cases hg : given key with
  | none => exact ⟨d, by simp [hd], fun w => by simp⟩
  | some v => exact ⟨v, by simp, fun w => by simp [eq_comm]⟩

theorem badTolerance_iff (v : PyValue) : ¬ badTolerance (some v) ↔ Spec.Tolerance v := by
  unfold badTolerance Spec.Tolerance
  dsimp only
  cases h : v.number with
  | none =>
    simp only [not_true_eq_false, false_iff, not_exists, not_and]
    intro x hx
    rw [← number_iff, h] at hx
    exact absurd hx (by simp)
  | some x =>
    have hx := (number_iff v x).1 h
    dsimp only
    unfold flNegative Fl.lt
    constructor
    · intro hn
      refine ⟨x, hx, fun a ha => ?_⟩
      by_contra hlt
      push Not at hlt
      exact hn ⟨a, 0, ha, rfl, hlt⟩
    · rintro ⟨y, hy, hp⟩ ⟨a, b, ha, hb, hab⟩
      rw [isNumber_unique hy hx] at hp
      rw [← Option.some.inj hb] at hab
      exact absurd hab (not_lt.2 (hp a ha))

theorem isZero_iff (v : PyValue) : isZero (some v) ↔ Spec.IsNumber v (some 0) := number_iff v (some 0)

theorem badBudget_iff (v : PyValue) : ¬ badBudget (some v) ↔ ∃ z : ℤ, v = .int z ∧ 1 ≤ z := by
  cases v <;> simp [badBudget]

theorem notCallable_iff (v : PyValue) : ¬ notCallable (some v) ↔ v = .callable := by
  cases v <;> simp [notCallable]

theorem badScheme_iff (v : PyValue) : ¬ badScheme (some v) ↔ Spec.IsNumber v (some ((1 : ℝ) : EReal)) ∨
    Spec.IsNumber v (some ((2 : ℝ) : EReal)) ∨ Spec.IsNumber v (some ((3 : ℝ) : EReal)) := by
  unfold badScheme
  simp only [not_not, ← number_iff]
  constructor
  · rintro ⟨z, rfl | rfl | rfl, h⟩
    · left; simpa using h
    · right; left; simpa using h
    · right; right; simpa using h
  · rintro (h | h | h)
    · exact ⟨1, Or.inl rfl, by simpa using h⟩
    · exact ⟨2, Or.inr (Or.inl rfl), by simpa using h⟩
    · exact ⟨3, Or.inr (Or.inr rfl), by simpa using h⟩

theorem notFloat_iff (v : PyValue) : ¬ notFloat (some v) ↔ ∃ x, v = .float x := by
  cases v <;> simp [notFloat]

theorem badStep_iff (v : PyValue) : ¬ badStep (some v) ↔ Spec.Positive v := by
  unfold Spec.Positive
  cases v with
  | float x =>
    simp only [badStep, flNotPositive, not_exists, not_and, not_le]
    constructor
    · intro h
      exact ⟨x, rfl, h⟩
    · rintro ⟨y, hy, h⟩
      rw [PyValue.float.inj hy]
      exact h
  | int z => simp [badStep]
  | callable => simp [badStep]
  | other => simp [badStep]

theorem errorIf {p : Prop} [Decidable p] {e : PyErr} {α : Type} {x : Except PyErr α} {a : α} :
    (if p then .error e else x) = .ok a ↔ ¬ p ∧ x = .ok a := by
  by_cases h : p <;> simp [h]

theorem checkFixedPoint_iff (given : PyDict) (m : String) (hm : m = "simple" ∨ m = "squarem") :
    checkFixedPoint ((iterationDefaults m).update given) = .ok () ↔ Spec.FixedPointOptions given := by
  obtain ⟨va, ha, sa⟩ := update_setting (defaults := iterationDefaults m) (given := given) (key := "atol")
    (d := .float (some ((1e-14 : ℝ) : EReal))) (by simp [iterationDefaults, hm])
  obtain ⟨vr, hr, sr⟩ := update_setting (defaults := iterationDefaults m) (given := given) (key := "rtol")
    (d := .int 0) (by simp [iterationDefaults, hm])
  obtain ⟨ve, he, se⟩ := update_setting (defaults := iterationDefaults m) (given := given) (key := "max_evaluations")
    (d := .int 5000) (by simp [iterationDefaults, hm])
  obtain ⟨vn, hn, sn⟩ := update_setting (defaults := iterationDefaults m) (given := given) (key := "norm")
    (d := .callable) (by simp [iterationDefaults, hm])
  unfold checkFixedPoint Spec.FixedPointOptions
  rw [errorIf, errorIf, errorIf, errorIf, errorIf, ha, hr, he, hn, badTolerance_iff, badTolerance_iff, isZero_iff, isZero_iff, badBudget_iff, notCallable_iff]
  simp only [sa, sr, se, sn, forall_eq]
  simp only [exists_and_left, exists_eq_left, and_true]

theorem checkSquarem_iff (given : PyDict) :
    checkSquarem ((iterationDefaults "squarem").update given) = .ok () ↔ Spec.SquaremOptions given := by
  obtain ⟨vs, hs, ss⟩ := update_setting (defaults := iterationDefaults "squarem") (given := given) (key := "scheme")
    (d := .int 3) (by simp [iterationDefaults])
  obtain ⟨v0, h0, s0⟩ := update_setting (defaults := iterationDefaults "squarem") (given := given) (key := "step_min")
    (d := .float (some 1)) (by simp [iterationDefaults])
  obtain ⟨v1, h1, s1⟩ := update_setting (defaults := iterationDefaults "squarem") (given := given) (key := "step_max")
    (d := .float (some 1)) (by simp [iterationDefaults])
  obtain ⟨vf, hf, sf⟩ := update_setting (defaults := iterationDefaults "squarem") (given := given) (key := "step_factor")
    (d := .float (some ((4 : ℝ) : EReal))) (by simp [iterationDefaults])
  unfold checkSquarem Spec.SquaremOptions
  rw [errorIf, errorIf, errorIf, errorIf, errorIf, hs, h0, h1, hf, badScheme_iff, notFloat_iff, badStep_iff, badStep_iff]
  simp only [ss, s0, s1, sf, forall_eq, and_true]
  have h6 : (∃ x, v0 = PyValue.float x) → Spec.Positive v1 → (¬ greater (some v0) (some v1) ↔
      ∀ a b, PyValue.float (some a) = v0 → PyValue.float (some b) = v1 → a ≤ b) := by
    rintro ⟨x, rfl⟩ ⟨y, rfl, _⟩
    unfold greater Fl.lt
    constructor
    · intro h a b ha hb
      by_contra hlt
      push Not at hlt
      exact h ⟨x, y, rfl, rfl, b, a, (PyValue.float.inj hb).symm, (PyValue.float.inj ha).symm, hlt⟩
    · rintro h ⟨x', y', hx, hy, b, a, hb, ha, hab⟩
      rw [← Option.some.inj hx] at ha
      rw [← Option.some.inj hy] at hb
      exact absurd hab (not_lt.2 (h a b (by rw [ha]) (by rw [hb])))
  constructor
  · rintro ⟨a1, a2, a3, a4, a5⟩
    exact ⟨a1, a2, a3, (h6 a2 a3).1 a4, a5⟩
  · rintro ⟨a1, a2, a3, a4, a5⟩
    exact ⟨a1, a2, a3, (h6 a2 a3).2 a4, a5⟩

theorem bindOk {α : Type} {x : Except PyErr Unit} {y : Except PyErr α} {a : α} : (x >>= fun _ => y) = .ok a ↔ x = .ok () ∧ y = .ok a := by
  cases x with
  | error e => simp [Bind.bind, Except.bind]
  | ok u => simp [Bind.bind, Except.bind]

theorem ifOk {p : Prop} [Decidable p] {x : Except PyErr Unit} : (if p then x else .ok ()) = .ok () ↔ (p → x = .ok ()) := by
  by_cases h : p <;> simp [h]

theorem update_return (given : PyDict) : (¬ ∃ k, (iterationDefaults "return").update given k ≠ none) ↔ ∀ k, given k = none := by
  have : ∀ k, iterationDefaults "return" k = none := fun k => by simp [iterationDefaults]
  unfold PyDict.update
  simp only [this, not_exists, not_not]
  refine forall_congr' fun k => ?_
  cases given k <;> simp

theorem iterationInit_name (m : String) (options : OptionsArgument) (jacobian : Bool) (c : Configuration) :
    iterationInit (.name m) options jacobian = .ok c ↔
      Spec.ValidIteration (.name m) options jacobian ∧ c = ⟨.name m, (iterationDefaults m).update options.get, jacobian⟩ := by
  have hmem : m ∈ iterationSimpleMethods ++ iterationComplexMethods ↔ m ∈ Spec.iterationMethods := by
    simp [iterationSimpleMethods, iterationComplexMethods, Spec.iterationMethods]
  by_cases ho : options = .other
  · subst ho
    unfold iterationInit
    rw [errorIf, errorIf]
    simp [Spec.ValidIteration]
  · have hv : Spec.ValidIteration (.name m) options jacobian ↔ m ∈ Spec.iterationMethods ∧
        (jacobian = true → m ∈ ["hybr", "lm", "return"]) ∧
      (m = "return" → ∀ k, options.get k = none) ∧ (m ∈ ["simple", "squarem"] → Spec.FixedPointOptions options.get) ∧
      (m = "squarem" → Spec.SquaremOptions options.get) := by
      cases options with
      | none => rfl
      | dict d => rfl
      | other => exact absurd rfl ho
    rw [hv]
    unfold iterationInit
    dsimp only
    rw [errorIf, errorIf, errorIf, errorIf, bindOk, bindOk, ifOk, ifOk, not_not, hmem]
    have h1 : m ∈ Spec.iterationMethods → (¬ (m ∈ iterationSimpleMethods ∧ jacobian = true) ↔
        (jacobian = true → m ∈ ["hybr", "lm", "return"])) := by
      intro hm
      simp only [Spec.iterationMethods, List.mem_cons, List.not_mem_nil, or_false] at hm
      rcases hm with rfl | rfl | rfl | rfl | rfl | rfl | rfl | rfl | rfl | rfl | rfl <;> simp [iterationSimpleMethods]
    have h2 : ¬ (m = "return" ∧ ∃ k, (iterationDefaults m).update options.get k ≠ none) ↔
        (m = "return" → ∀ k, options.get k = none) := by
      by_cases hm : m = "return"
      · subst hm
        rw [← update_return]
        simp
      · simp [hm]
    have h3 : (m = "simple" ∨ m = "squarem" → checkFixedPoint ((iterationDefaults m).update options.get) = .ok ()) ↔
        (m ∈ ["simple", "squarem"] → Spec.FixedPointOptions options.get) := by
      simp only [List.mem_cons, List.not_mem_nil, or_false]
      exact forall_congr' fun hm => checkFixedPoint_iff _ m hm
    have h4 : (m = "squarem" → checkSquarem ((iterationDefaults m).update options.get) = .ok ()) ↔
        (m = "squarem" → Spec.SquaremOptions options.get) := by
      refine forall_congr' fun hm => ?_
      subst hm
      exact checkSquarem_iff _
    rw [h2, h3, h4]
    constructor
    · rintro ⟨a1, _, a2, a3, a4, a5, a6⟩
      exact ⟨⟨a1, (h1 a1).1 a2, a3, a4, a5⟩, (Except.ok.inj a6).symm⟩
    · rintro ⟨⟨a1, a2, a3, a4, a5⟩, a6⟩
      exact ⟨a1, ho, (h1 a1).2 a2, a3, a4, a5, by rw [a6]⟩

theorem update_given {defaults given : PyDict} {k : String} {v : PyValue} (h : given k = some v) : defaults.update given k = some v := by
  unfold PyDict.update
  rw [h]
  rfl

/-- **C110.** `Iteration` accepts its arguments if and only if they are valid, and then options are those given. -/
theorem C110_iteration (method : MethodArgument) (options : OptionsArgument) (jacobian : Bool) :
    ((∃ c, iterationInit method options jacobian = .ok c) ↔ Spec.ValidIteration method options jacobian) ∧
    (∀ c, iterationInit method options jacobian = .ok c → c.method = method ∧ c.derivatives = jacobian ∧
      (∀ k v, options.get k = some v → c.options k = some v)) := by
  cases method with
  | custom =>
    by_cases h : options = .other
    · subst h
      simp [iterationInit, Spec.ValidIteration]
    · have e : iterationInit .custom options jacobian = .ok ⟨.custom, options.get, jacobian⟩ := by simp [iterationInit, h]
      rw [e]
      refine ⟨⟨fun _ => ?_, fun _ => ⟨_, rfl⟩⟩, ?_⟩
      · cases options with
        | none => trivial
        | dict d => trivial
        | other => exact absurd rfl h
      · rintro c hc
        rw [← Except.ok.inj hc]
        exact ⟨rfl, rfl, fun _ _ h => h⟩
  | name m =>
    refine ⟨⟨?_, fun h => ⟨_, (iterationInit_name m options jacobian _).2 ⟨h, rfl⟩⟩⟩, ?_⟩
    · rintro ⟨c, hc⟩
      exact ((iterationInit_name m options jacobian c).1 hc).1
    · intro c hc
      rw [((iterationInit_name m options jacobian c).1 hc).2]
      exact ⟨rfl, rfl, fun k v h => update_given h⟩

/-- **C110.** Options of `simple` and `squarem` that are not given are the documented ones, and no others are added. -/
theorem C110_iteration_defaults (m : String) (options : OptionsArgument) (jacobian : Bool) (c : Configuration)
    (h : iterationInit (.name m) options jacobian = .ok c) :
    (m ∈ ["simple", "squarem"] →
      (∀ v, Spec.Setting options.get "atol" (.float (some ((1e-14 : ℝ) : EReal))) v → c.options "atol" = some v) ∧
      (∀ v, Spec.Setting options.get "rtol" (.int 0) v → c.options "rtol" = some v) ∧
      (∀ v, Spec.Setting options.get "max_evaluations" (.int 5000) v → c.options "max_evaluations" = some v) ∧
      (∀ v, Spec.Setting options.get "norm" .callable v → c.options "norm" = some v)) ∧
    (m = "squarem" →
      (∀ v, Spec.Setting options.get "scheme" (.int 3) v → c.options "scheme" = some v) ∧
      (∀ v, Spec.Setting options.get "step_min" (.float (some 1)) v → c.options "step_min" = some v) ∧
      (∀ v, Spec.Setting options.get "step_max" (.float (some 1)) v → c.options "step_max" = some v) ∧
      (∀ v, Spec.Setting options.get "step_factor" (.float (some ((4 : ℝ) : EReal))) v → c.options "step_factor" = some v)) ∧
    (∀ k, c.options k ≠ none → options.get k ≠ none ∨ k ∈ ["atol", "rtol", "max_evaluations", "norm", "scheme", "step_min", "step_max",
      "step_factor", "fnorm", "tol_norm"]) := by
  rw [((iterationInit_name m options jacobian c).1 h).2]
  have key : ∀ {k d}, iterationDefaults m k = some d → ∀ v, Spec.Setting options.get k d v →
      (iterationDefaults m).update options.get k = some v := by
    intro k d hd v hv
    obtain ⟨w, hw, hs⟩ := update_setting (given := options.get) hd
    rw [hw, (hs v).1 hv]
  refine ⟨fun hm => ?_, fun hm => ?_, ?_⟩
  · simp only [List.mem_cons, List.not_mem_nil, or_false] at hm
    exact ⟨key (by simp [iterationDefaults, hm]), key (by simp [iterationDefaults, hm]), key (by simp [iterationDefaults, hm]),
      key (by simp [iterationDefaults, hm])⟩
  · subst hm
    exact ⟨key (by simp [iterationDefaults]), key (by simp [iterationDefaults]), key (by simp [iterationDefaults]),
      key (by simp [iterationDefaults])⟩
  · intro k hk
    by_contra hn
    push Not at hn
    obtain ⟨h1, h2⟩ := hn
    simp only [List.mem_cons, List.not_mem_nil, or_false, not_or] at h2
    apply hk
    change (options.get k).orElse _ = none
    rw [h1]
    simp only [Option.orElse_none, iterationDefaults, h2, if_false]
    have h3 : ¬ k = if m = "df-sane" then "fnorm" else "tol_norm" := by
      by_cases hm : m = "df-sane" <;> simp [hm, h2]
    simp [h3]

/-- The options of the default for mean utilities are accepted: SQUAREM with an absolute tolerance. -/
example : ∃ c, iterationInit (.name "squarem") (.dict fun k => if k = "atol" then some (.float (some ((1e-14 : ℝ) : EReal))) else none) false = .ok c := by
  rw [(C110_iteration _ _ _).1]
  have hs : ∀ {k d v}, k ≠ "atol" → Spec.Setting (fun k => if k = "atol" then some (.float (some ((1e-14 : ℝ) : EReal))) else none) k d v → v = d := by
    rintro k d v hk (h | h)
    · simp [hk] at h
    · exact h.2
  have ha : ∀ {d v}, Spec.Setting (fun k => if k = "atol" then some (.float (some ((1e-14 : ℝ) : EReal))) else none) "atol" d v →
      v = .float (some ((1e-14 : ℝ) : EReal)) := by
    rintro d v (h | h)
    · simpa using h.symm
    · simp at h
  have h1 : (0 : EReal) < ((1e-14 : ℝ) : EReal) := by
    rw [← EReal.coe_zero, EReal.coe_lt_coe_iff]
    norm_num
  have one : Spec.Positive (.float (some 1)) := ⟨some 1, rfl, fun a h => by rw [← Option.some.inj h]; exact zero_lt_one⟩
  refine ⟨by simp [Spec.iterationMethods], by simp, by simp, fun _ => ⟨?_, ?_, ?_, ?_, ?_⟩, fun _ => ⟨?_, ?_, ?_, ?_, ?_⟩⟩
  · intro v hv
    rw [ha hv]
    exact ⟨_, .float _, fun a h => by rw [← Option.some.inj h]; exact h1.le⟩
  · intro v hv
    rw [hs (by decide) hv]
    exact ⟨_, .int 0, fun a h => by rw [← Option.some.inj h]; simp⟩
  · rintro ⟨v, w, hv, _, hz, _⟩
    rw [ha hv] at hz
    have := Option.some.inj (isNumber_unique hz (.float _))
    exact absurd this h1.ne
  · intro v hv
    exact ⟨5000, hs (by decide) hv, by norm_num⟩
  · intro v hv
    exact hs (by decide) hv
  · intro v hv
    rw [hs (by decide) hv]
    exact Or.inr (Or.inr (by simpa using Spec.IsNumber.int 3))
  · intro v hv
    exact ⟨_, hs (by decide) hv⟩
  · intro v hv
    rw [hs (by decide) hv]
    exact one
  · intro a b h h'
    rw [Option.some.inj (PyValue.float.inj (hs (by decide) h)), Option.some.inj (PyValue.float.inj (hs (by decide) h'))]
  · intro v hv
    rw [hs (by decide) hv]
    refine ⟨_, rfl, fun a h => ?_⟩
    rw [← Option.some.inj h, ← EReal.coe_zero, EReal.coe_lt_coe_iff]
    norm_num

/-- "The iteration option atol must be a nonnegative float" is not enforced: NaN is accepted, with which no residual is ever small
enough. -/
theorem C110_nan_refuted : ¬ ∀ (options : PyDict) (c : Configuration), iterationInit (.name "simple") (.dict options) false = .ok c →
    ∀ x, options "atol" = some (.float x) → ∃ a, x = some a ∧ 0 ≤ a := by
  intro h
  have hv : Spec.ValidIteration (.name "simple") (.dict fun k => if k = "atol" then some (.float none) else none) false := by
    have hs : ∀ {k d v}, k ≠ "atol" → Spec.Setting (fun k => if k = "atol" then some (.float none) else none) k d v → v = d := by
      rintro k d v hk (h | h)
      · simp [hk] at h
      · exact h.2
    have ha : ∀ {d v}, Spec.Setting (fun k => if k = "atol" then some (.float none) else none) "atol" d v → v = .float none := by
      rintro d v (h | h)
      · simpa using h.symm
      · simp at h
    refine ⟨by simp [Spec.iterationMethods], by simp, by simp, fun _ => ⟨?_, ?_, ?_, ?_, ?_⟩, by simp⟩
    · intro v hv
      rw [ha hv]
      exact ⟨none, .float _, by simp⟩
    · intro v hv
      rw [hs (by decide) hv]
      exact ⟨_, .int 0, fun a h => by rw [← Option.some.inj h]; simp⟩
    · rintro ⟨v, w, hv, _, hz, _⟩
      rw [ha hv] at hz
      exact absurd (isNumber_unique hz (.float none)) (by simp)
    · intro v hv
      exact ⟨5000, hs (by decide) hv, by norm_num⟩
    · intro v hv
      exact hs (by decide) hv
  obtain ⟨c, hc⟩ := (C110_iteration _ _ _).1.2 hv
  obtain ⟨a, ha, _⟩ := h _ c hc none (by simp)
  exact absurd ha (by simp)

theorem optimizationInit_name (knitroWorks verbose : Bool) (m : String) (options : OptionsArgument) (gradient universalDisplay : Bool)
    (c : Configuration) (b : Bool) :
    optimizationInit knitroWorks verbose (.name m) options gradient universalDisplay = .ok (c, b) ↔
      Spec.ValidOptimization knitroWorks (.name m) options gradient ∧
      c = ⟨.name m, (optimizationDefaults m gradient universalDisplay verbose).update options.get, gradient⟩ ∧
      (b = true ↔ m ∈ ["l-bfgs-b", "tnc", "slsqp", "trust-constr", "knitro", "return"]) := by
  by_cases ho : options = .other
  · subst ho
    unfold optimizationInit
    rw [errorIf, errorIf]
    simp [Spec.ValidOptimization]
  · have hv : Spec.ValidOptimization knitroWorks (.name m) options gradient ↔
      (m ∈ ["nelder-mead", "powell"] ∧ gradient = false) ∨ m ∈ ["cg", "bfgs", "l-bfgs-b", "tnc", "slsqp", "trust-constr"] ∨
      (m = "newton-cg" ∧ gradient = true) ∨ (m = "knitro" ∧ knitroWorks = true) ∨ (m = "return" ∧ ∀ k, options.get k = none) := by
      cases options with
      | none => rfl
      | dict d => rfl
      | other => exact absurd rfl ho
    have hr : (¬ ∃ k, (optimizationDefaults "return" gradient universalDisplay verbose).update options.get k ≠ none) ↔
        ∀ k, options.get k = none := by
      have : ∀ k, optimizationDefaults "return" gradient universalDisplay verbose k = none := fun k => by simp [optimizationDefaults]
      unfold PyDict.update
      simp only [this, not_exists, not_not]
      refine forall_congr' fun k => ?_
      cases options.get k <;> simp
    rw [hv]
    unfold optimizationInit
    dsimp only
    rw [errorIf, errorIf, errorIf, errorIf, errorIf, errorIf, not_not]
    have hb : (.ok (⟨.name m, (optimizationDefaults m gradient universalDisplay verbose).update options.get, gradient⟩,
        decide (m ∈ optimizationBoundedMethods)) : Except PyErr (Configuration × Bool)) = .ok (c, b) ↔
        c = ⟨.name m, (optimizationDefaults m gradient universalDisplay verbose).update options.get, gradient⟩ ∧
        (b = true ↔ m ∈ ["l-bfgs-b", "tnc", "slsqp", "trust-constr", "knitro", "return"]) := by
      rw [Except.ok.injEq, Prod.mk.injEq, eq_comm (a := c)]
      refine and_congr_right fun _ => ?_
      unfold optimizationBoundedMethods
      constructor
      · rintro rfl
        simp
      · intro h
        rw [Bool.eq_iff_iff, h]
        simp
    rw [hb]
    simp only [← and_assoc]
    refine and_congr_left fun _ => and_congr_left fun _ => ?_
    by_cases hm : m ∈ optimizationSimpleMethods ++ optimizationUnboundedMethods ++ optimizationBoundedMethods
    · have hm' := hm
      simp only [optimizationSimpleMethods, optimizationUnboundedMethods, optimizationBoundedMethods, List.mem_append, List.mem_cons,
        List.not_mem_nil, or_false] at hm'
      rcases hm' with (((rfl | rfl) | (rfl | rfl | rfl)) | (rfl | rfl | rfl | rfl | rfl | rfl)) <;>
        simp [optimizationSimpleMethods, optimizationUnboundedMethods, optimizationBoundedMethods, ho]
      simpa using hr
    · simp only [hm, false_and, false_iff]
      simp only [optimizationSimpleMethods, optimizationUnboundedMethods, optimizationBoundedMethods, List.mem_append, List.mem_cons,
        List.not_mem_nil, or_false, not_or] at hm
      simp [hm]

/-- **C110.** `Optimization` accepts its arguments if and only if they are valid. Then options are those given, gradients are computed as
asked for, and parameters can be bounded if and only if the method is one that supports bounds, as custom ones are. -/
theorem C110_optimization (knitroWorks verbose : Bool) (method : MethodArgument) (options : OptionsArgument)
    (gradient universalDisplay : Bool) :
    ((∃ c, optimizationInit knitroWorks verbose method options gradient universalDisplay = .ok c) ↔
      Spec.ValidOptimization knitroWorks method options gradient) ∧
    (∀ c b, optimizationInit knitroWorks verbose method options gradient universalDisplay = .ok (c, b) →
      c.method = method ∧ c.derivatives = gradient ∧ (∀ k v, options.get k = some v → c.options k = some v) ∧
      (b = true ↔ method = .custom ∨ ∃ m ∈ ["l-bfgs-b", "tnc", "slsqp", "trust-constr", "knitro", "return"], method = .name m)) := by
  cases method with
  | custom =>
    by_cases h : options = .other
    · subst h
      simp [optimizationInit, Spec.ValidOptimization]
    · have e : optimizationInit knitroWorks verbose .custom options gradient universalDisplay =
          .ok (⟨.custom, options.get, gradient⟩, true) := by simp [optimizationInit, h]
      rw [e]
      refine ⟨⟨fun _ => ?_, fun _ => ⟨_, rfl⟩⟩, ?_⟩
      · cases options with
        | none => trivial
        | dict d => trivial
        | other => exact absurd rfl h
      · rintro c b hc
        obtain ⟨rfl, rfl⟩ := Prod.mk.inj (Except.ok.inj hc)
        exact ⟨rfl, rfl, fun _ _ h => h, by simp⟩
  | name m =>
    refine ⟨⟨?_, fun h => ?_⟩, ?_⟩
    · rintro ⟨⟨c, b⟩, hc⟩
      exact ((optimizationInit_name knitroWorks verbose m options gradient universalDisplay c b).1 hc).1
    · refine ⟨(⟨.name m, (optimizationDefaults m gradient universalDisplay verbose).update options.get, gradient⟩,
        decide (m ∈ ["l-bfgs-b", "tnc", "slsqp", "trust-constr", "knitro", "return"])), ?_⟩
      exact (optimizationInit_name knitroWorks verbose m options gradient universalDisplay _ _).2 ⟨h, rfl, by simp⟩
    · intro c b hc
      obtain ⟨_, rfl, hb⟩ := (optimizationInit_name knitroWorks verbose m options gradient universalDisplay c b).1 hc
      refine ⟨rfl, rfl, fun k v h => update_given h, hb.trans ?_⟩
      constructor
      · exact fun h => Or.inr ⟨m, h, rfl⟩
      · rintro (h | ⟨m', h, h'⟩)
        · exact absurd h (by simp)
        · rw [MethodArgument.name.inj h']
          exact h

/-- The default of `Problem.solve`, and a method that cannot use gradients. -/
example : (∃ c, optimizationInit false true (.name "l-bfgs-b") (.dict fun k => if k = "ftol" then some (.int 0) else none) true true = .ok c) ∧
    ¬ ∃ c, optimizationInit false true (.name "nelder-mead") .none true true = .ok c := by
  rw [(C110_optimization _ _ _ _ _ _).1, (C110_optimization _ _ _ _ _ _).1]
  constructor
  · exact Or.inr (Or.inl (by simp))
  · simp [Spec.ValidOptimization]

/-- **C110.** `Integration` accepts its arguments if and only if they are valid, and then size and options are those given. By default,
1,000 Halton draws are discarded and draws are scrambled. -/
theorem C110_integration (specification : String) (size : PyValue) (options : OptionsArgument) :
    ((∃ c, integrationInit specification size options = .ok c) ↔ Spec.ValidIntegration specification size options) ∧
    (∀ s o, integrationInit specification size options = .ok (s, o) → s = size ∧ (∀ k v, options.get k = some v → o k = some v) ∧
      (specification = "halton" → (∀ v, Spec.Setting options.get "discard" (.int 1000) v → o "discard" = some v) ∧
        ∀ v, Spec.Setting options.get "scramble" (.int 1) v → o "scramble" = some v)) := by
  have key : ∀ c, integrationInit specification size options = .ok c ↔ Spec.ValidIntegration specification size options ∧
      c = (size, (integrationDefaults specification).update options.get) := by
    intro c
    unfold integrationInit Spec.ValidIntegration
    dsimp only
    rw [errorIf, errorIf, errorIf, errorIf, errorIf, not_not, Except.ok.injEq, eq_comm (a := c)]
    have h1 : ¬ notIntFrom 1 (some size) ↔ ∃ z : ℤ, size = .int z ∧ 1 ≤ z := by
      cases size <;> simp [notIntFrom]
    have h2 : ¬ (specification ∈ randomSpecifications ∧
        notInt (((integrationDefaults specification).update options.get "seed").getD (.int 0))) ↔
        (specification ∈ ["monte_carlo", "halton", "lhs", "mlhs"] → ∀ v, options.get "seed" = some v → ∃ z, v = .int z) := by
      have hd : integrationDefaults specification "seed" = none := by simp [integrationDefaults]
      unfold PyDict.update randomSpecifications
      rw [not_and, hd]
      refine forall_congr' fun _ => ?_
      cases hs : options.get "seed" with
      | none => simp [notInt]
      | some v => cases v <;> simp [notInt]
    have h3 : ¬ (specification = "halton" ∧ notIntFrom 0 ((integrationDefaults specification).update options.get "discard")) ↔
        (specification = "halton" → ∀ v, options.get "discard" = some v → ∃ z : ℤ, v = .int z ∧ 0 ≤ z) := by
      rw [not_and]
      refine forall_congr' fun hm => ?_
      subst hm
      unfold PyDict.update
      cases hs : options.get "discard" with
      | none => simp [notIntFrom, integrationDefaults]
      | some v => cases v <;> simp [notIntFrom]
    rw [h1, h2, h3]
    unfold integrationSpecifications
    constructor
    · rintro ⟨a1, a2, a3, a4, a5, a6⟩
      exact ⟨⟨a1, a2, a3, a4, a5⟩, a6⟩
    · rintro ⟨⟨a1, a2, a3, a4, a5⟩, a6⟩
      exact ⟨a1, a2, a3, a4, a5, a6⟩
  refine ⟨⟨?_, fun h => ⟨_, (key _).2 ⟨h, rfl⟩⟩⟩, ?_⟩
  · rintro ⟨c, hc⟩
    exact ((key c).1 hc).1
  · intro s o hc
    obtain ⟨rfl, rfl⟩ := Prod.mk.inj ((key _).1 hc).2
    refine ⟨rfl, fun k v h => update_given h, ?_⟩
    rintro rfl
    refine ⟨fun v hv => ?_, fun v hv => ?_⟩
    · obtain ⟨w, hw, hs⟩ := update_setting (defaults := integrationDefaults "halton") (given := options.get) (key := "discard")
        (d := .int 1000) (by simp [integrationDefaults])
      rw [hw, (hs v).1 hv]
    · obtain ⟨w, hw, hs⟩ := update_setting (defaults := integrationDefaults "halton") (given := options.get) (key := "scramble")
        (d := .int 1) (by simp [integrationDefaults])
      rw [hw, (hs v).1 hv]

/-- Ten Halton draws; zero draws are not accepted. -/
example : (∃ c, integrationInit "halton" (.int 10) .none = .ok c) ∧ ¬ ∃ c, integrationInit "halton" (.int 0) .none = .ok c := by
  rw [(C110_integration _ _ _).1, (C110_integration _ _ _).1]
  constructor
  · exact ⟨by simp, ⟨10, rfl, by norm_num⟩, by simp, by simp [OptionsArgument.get], by simp [OptionsArgument.get]⟩
  · rintro ⟨_, ⟨z, hz, h1⟩, _⟩
    rw [← PyValue.int.inj hz] at h1
    norm_num at h1

/-- **C110.** Random coefficients are linear by default, and otherwise there has to be one of three types for each. -/
theorem C110_types (K2 : ℕ) (rcTypes : Option (List String)) (types : List String) :
    economyTypes K2 rcTypes = .ok types ↔
      (rcTypes = none ∧ types.length = K2 ∧ ∀ d ∈ types, d = "linear") ∨
      (rcTypes = some types ∧ types.length = K2 ∧ ∀ d ∈ types, d = "linear" ∨ d = "log" ∨ d = "logit") := by
  cases rcTypes with
  | none =>
    simp only [economyTypes, Except.ok.injEq, true_and, reduceCtorEq, false_and, or_false]
    rw [eq_comm, List.eq_replicate_iff]
  | some l =>
    simp only [economyTypes]
    rw [errorIf, errorIf, Except.ok.injEq]
    simp only [not_not, reduceCtorEq, false_and, false_or, Option.some.injEq, not_exists, not_and, List.mem_cons, List.not_mem_nil,
      or_false]
    constructor
    · rintro ⟨h1, h2, rfl⟩
      exact ⟨rfl, h1, h2⟩
    · rintro ⟨rfl, h1, h2⟩
      exact ⟨h1, h2, rfl⟩

/-- **C110.** If there are nests the scale of epsilon is one, and otherwise it is a positive number or NaN. -/
theorem C110_scale (H : ℕ) (argument : PyValue) (scale : Fl) :
    economyScale H argument = .ok scale ↔ Spec.IsNumber argument scale ∧ (∀ a, scale = some a → 0 < a) ∧ (0 < H → scale = some 1) := by
  unfold economyScale
  cases h : argument.number with
  | none =>
    simp only [reduceCtorEq, false_iff, not_and]
    intro hn
    rw [← number_iff, h] at hn
    exact absurd hn (by simp)
  | some x =>
    have hx := (number_iff argument x).1 h
    dsimp only
    rw [errorIf, errorIf, Except.ok.injEq]
    unfold flNotPositive
    simp only [not_exists, not_and, not_le]
    constructor
    · rintro ⟨h1, h2, rfl⟩
      exact ⟨hx, h1, fun hH => by_contra fun hn => h2 hn hH⟩
    · rintro ⟨h1, h2, h3⟩
      obtain rfl := isNumber_unique h1 hx
      exact ⟨h2, fun hn hH => hn (h3 hH), rfl⟩

/-- **C110.** Fixed points that are not in logarithms can only be used if the scale of epsilon is one. -/
theorem C110_fp_type (scale : Fl) (fpType : String) :
    validateFpType scale fpType = .ok () ↔
      fpType = "safe_linear" ∨ fpType = "linear" ∨ ((fpType = "safe_nonlinear" ∨ fpType = "nonlinear") ∧ scale = some 1) := by
  unfold validateFpType
  rw [errorIf, errorIf]
  simp only [not_not, List.mem_cons, List.not_mem_nil, or_false, and_true]
  by_cases h1 : fpType = "safe_linear"
  · subst h1; simp
  · by_cases h2 : fpType = "linear"
    · subst h2; simp
    · simp only [h1, h2, false_or]
      tauto

/-- A scale of two is accepted without nests, with which mean utilities have to be computed in logarithms. -/
example : economyScale 0 (.int 2) = .ok (some ((2 : ℝ) : EReal)) ∧ validateFpType (some ((2 : ℝ) : EReal)) "safe_linear" = .ok () ∧
    ¬ validateFpType (some ((2 : ℝ) : EReal)) "nonlinear" = .ok () ∧ economyTypes 2 none = .ok ["linear", "linear"] := by
  refine ⟨?_, ?_, ?_, ?_⟩
  · rw [C110_scale]
    refine ⟨by simpa using Spec.IsNumber.int 2, fun a h => ?_, by simp⟩
    rw [← Option.some.inj h, ← EReal.coe_zero, EReal.coe_lt_coe_iff]
    norm_num
  · rw [C110_fp_type]; simp
  · rw [C110_fp_type]
    simp only [String.reduceEq, or_true, true_and, false_or]
    intro h
    have := Option.some.inj h
    rw [← EReal.coe_one, EReal.coe_eq_coe_iff] at this
    norm_num at this
  · rw [C110_types]; simp

end Pyblp
