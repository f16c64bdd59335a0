import Verif.Model.Parameters
import Verif.Model.Data

/-!
# Arguments that configure computation (`configurations/iteration.py`, `configurations/optimization.py`,
`configurations/integration.py`, `economies/economy.py`)
-/

namespace Pyblp

open Classical

noncomputable section

/-- A Python object given as an option: an integer, a float (`none` is NaN), something that can be called, or anything else. Booleans
are integers. Used for pyblp/configurations/iteration.py:211-251. -/
inductive PyValue where
  | int (z : ℤ)
  | float (x : Fl)
  | callable
  | other

/-- The number for comparisons. Used for pyblp/configurations/iteration.py:223-251. -/
def PyValue.number : PyValue → Option Fl
  | .int z => some (some ((z : ℝ) : EReal))
  | .float x => some x
  | .callable => none
  | .other => none

/-- A dict from names to objects. Used for pyblp/configurations/iteration.py:178 and 211-216. -/
abbrev PyDict := String → Option PyValue

/-- `defaults.update(given)`. Used for pyblp/configurations/iteration.py:217, optimization.py:231 and integration.py:142. -/
def PyDict.update (defaults given : PyDict) : PyDict := fun k => (given k).orElse fun _ => defaults k

/-- An argument for options: None, a dict, or anything else. Used for pyblp/configurations/iteration.py:178,
optimization.py:186 and integration.py:128. -/
inductive OptionsArgument where
  | none
  | dict (d : PyDict)
  | other

/-- `options or {}`, pyblp/configurations/iteration.py:188-189, optimization.py:199-200 and integration.py:142. -/
def OptionsArgument.get : OptionsArgument → PyDict
  | .dict d => d
  | _ => fun _ => .none

/-- An argument for a method: a string or something that can be called. Used for pyblp/configurations/iteration.py:176 and
optimization.py:184. -/
inductive MethodArgument where
  | name (s : String)
  | custom

/-- A configuration: the method, its options, and whether derivatives are computed. Used for pyblp/configurations/iteration.py:182-217 and
optimization.py:193-231. -/
structure Configuration where
  method : MethodArgument
  options : PyDict
  derivatives : Bool

/-- `simple_methods`, pyblp/configurations/iteration.py:154-163. -/
def iterationSimpleMethods : List String := ["simple", "squarem", "broyden1", "broyden2", "anderson", "diagbroyden", "krylov", "df-sane"]

/-- `complex_methods`, pyblp/configurations/iteration.py:164-174. -/
def iterationComplexMethods : List String := ["hybr", "lm", "return"]

/-- Default options, pyblp/configurations/iteration.py:199-214. -/
def iterationDefaults (method : String) : PyDict := fun k =>
  if method = "simple" ∨ method = "squarem" then
    if k = "atol" then some (.float (some ((1e-14 : ℝ) : EReal)))
    else if k = "rtol" then some (.int 0)
    else if k = "max_evaluations" then some (.int 5000)
    else if k = "norm" then some .callable
    else if method = "squarem" then
      if k = "scheme" then some (.int 3)
      else if k = "step_min" then some (.float (some 1))
      else if k = "step_max" then some (.float (some 1))
      else if k = "step_factor" then some (.float (some ((4 : ℝ) : EReal)))
      else none
    else none
  else if method ∈ ["broyden1", "broyden2", "anderson", "diagbroyden", "krylov", "df-sane"] then
    if k = (if method = "df-sane" then "fnorm" else "tol_norm") then some .callable else none
  else none

/-- `x < 0`, false of NaN. Used for pyblp/configurations/iteration.py:223-226. -/
def flNegative (x : Fl) : Prop := Fl.lt x (some 0)

/-- `x <= 0`, false of NaN. Used for pyblp/configurations/iteration.py:244 and 248. -/
def flNotPositive (x : Fl) : Prop := ∃ a, x = some a ∧ a ≤ 0

/-- `not isinstance(v, (float, int)) or v < 0`, pyblp/configurations/iteration.py:223-226. -/
def badTolerance : Option PyValue → Prop
  | some v => match v.number with
    | some x => flNegative x
    | none => True
  | none => True

/-- `v == 0`. Used for pyblp/configurations/iteration.py:227. -/
def isZero : Option PyValue → Prop
  | some v => v.number = some (some 0)
  | none => False

/-- `not isinstance(v, int)` or `v < 1`, pyblp/configurations/iteration.py:229-232. -/
def badBudget : Option PyValue → Prop
  | some (.int z) => z < 1
  | _ => True

/-- `not callable(v)`, pyblp/configurations/iteration.py:233. -/
def notCallable : Option PyValue → Prop
  | some .callable => False
  | _ => True

/-- `v not in {1, 2, 3}`, pyblp/configurations/iteration.py:236. -/
def badScheme : Option PyValue → Prop
  | some v => ¬ ∃ z : ℤ, (z = 1 ∨ z = 2 ∨ z = 3) ∧ v.number = some (some ((z : ℝ) : EReal))
  | none => True

/-- `not isinstance(v, float)`, pyblp/configurations/iteration.py:238. -/
def notFloat : Option PyValue → Prop
  | some (.float _) => False
  | _ => True

/-- `not isinstance(v, float) or v <= 0`, pyblp/configurations/iteration.py:240 and 244. -/
def badStep : Option PyValue → Prop
  | some (.float x) => flNotPositive x
  | _ => True

/-- `v > w`, pyblp/configurations/iteration.py:242. -/
def greater : Option PyValue → Option PyValue → Prop
  | some v, some w => ∃ x y, v.number = some x ∧ w.number = some y ∧ Fl.lt y x
  | _, _ => False

/-- Options of `simple` and `squarem`, pyblp/configurations/iteration.py:222-234. -/
def checkFixedPoint (o : PyDict) : Except PyErr Unit :=
  if badTolerance (o "atol") then .error .valueError else
  if badTolerance (o "rtol") then .error .valueError else
  if isZero (o "atol") ∧ isZero (o "rtol") then .error .valueError else
  if badBudget (o "max_evaluations") then .error .valueError else
  if notCallable (o "norm") then .error .valueError else .ok ()

/-- Options of `squarem`, pyblp/configurations/iteration.py:235-245. -/
def checkSquarem (o : PyDict) : Except PyErr Unit :=
  if badScheme (o "scheme") then .error .valueError else
  if notFloat (o "step_min") then .error .valueError else
  if badStep (o "step_max") then .error .valueError else
  if greater (o "step_min") (o "step_max") then .error .valueError else
  if badStep (o "step_factor") then .error .valueError else .ok ()

/-- `Iteration.__init__`, pyblp/configurations/iteration.py:147-251. -/
def iterationInit (method : MethodArgument) (options : OptionsArgument) (computeJacobian : Bool) : Except PyErr Configuration :=
  match method with
  | .custom => if options = .other then .error .valueError else .ok ⟨.custom, options.get, computeJacobian⟩
  | .name m =>
    if m ∉ iterationSimpleMethods ++ iterationComplexMethods then .error .valueError else
    if options = .other then .error .valueError else
    if m ∈ iterationSimpleMethods ∧ computeJacobian = true then .error .valueError else
    let o := (iterationDefaults m).update options.get
    if m = "return" ∧ ∃ k, o k ≠ none then .error .valueError else
    (if m = "simple" ∨ m = "squarem" then checkFixedPoint o else .ok ()) >>= fun _ =>
    (if m = "squarem" then checkSquarem o else .ok ()) >>= fun _ => .ok ⟨.name m, o, computeJacobian⟩

/-- `simple_methods`, pyblp/configurations/optimization.py:164-167. -/
def optimizationSimpleMethods : List String := ["nelder-mead", "powell"]

/-- `unbounded_methods`, pyblp/configurations/optimization.py:168-172. -/
def optimizationUnboundedMethods : List String := ["cg", "bfgs", "newton-cg"]

/-- `bounded_methods`, pyblp/configurations/optimization.py:173-180. -/
def optimizationBoundedMethods : List String := ["l-bfgs-b", "tnc", "slsqp", "trust-constr", "knitro", "return"]

/-- Default options, pyblp/configurations/optimization.py:209-228, if options.verbose is on (`verbose`); the location of Knitro is left
out. -/
def optimizationDefaults (method : String) (gradient universalDisplay verbose : Bool) : PyDict := fun k =>
  if method = "knitro" then
    if k = "hessopt" then some (.int 2)
    else if k = "algorithm" then some (.int 1)
    else if k = "honorbnds" then some (.int 1)
    else if k = "gradopt" then some (.int (if gradient then 1 else 2))
    else if k = "outlev" then some (.int (if !universalDisplay && verbose then 4 else 0))
    else none
  else if method = "return" then none
  else if !universalDisplay && verbose then
    if k = "disp" then some (.int 1)
    else if k = "iprint" ∧ (method = "l-bfgs-b" ∨ method = "slsqp") then some (.int 2)
    else if k = "verbose" ∧ method = "trust-constr" then some (.int 3)
    else none
  else none

/-- `Optimization.__init__`, pyblp/configurations/optimization.py:159-259, with whether Knitro can be used (lines 236-259) as a
parameter (`OSError` is represented by a runtime error). The last component is `_supports_bounds`, line 196. -/
def optimizationInit (knitroWorks : Bool) (verbose : Bool) (method : MethodArgument) (options : OptionsArgument) (gradient universalDisplay : Bool) :
    Except PyErr (Configuration × Bool) :=
  match method with
  | .custom => if options = .other then .error .valueError else .ok (⟨.custom, options.get, gradient⟩, true)
  | .name m =>
    if m ∉ optimizationSimpleMethods ++ optimizationUnboundedMethods ++ optimizationBoundedMethods then .error .valueError else
    if options = .other then .error .valueError else
    if m ∈ optimizationSimpleMethods ∧ gradient = true then .error .valueError else
    if m = "newton-cg" ∧ gradient = false then .error .valueError else
    let o := (optimizationDefaults m gradient universalDisplay verbose).update options.get
    if m = "return" ∧ ∃ k, o k ≠ none then .error .valueError else
    if m = "knitro" ∧ knitroWorks = false then .error .runtimeError else
    .ok (⟨.name m, o, gradient⟩, decide (m ∈ optimizationBoundedMethods))

/-- Specifications that use random numbers, pyblp/configurations/integration.py:143 and 166. -/
def randomSpecifications : List String := ["monte_carlo", "halton", "lhs", "mlhs"]

/-- All specifications, pyblp/configurations/integration.py:104-122. -/
def integrationSpecifications : List String :=
  ["monte_carlo", "halton", "lhs", "mlhs", "product", "grid", "nested_product", "nested_grid"]

/-- Default options, pyblp/configurations/integration.py:135-140. -/
def integrationDefaults (specification : String) : PyDict := fun k =>
  if specification = "halton" then
    if k = "discard" then some (.int 1000) else if k = "scramble" then some (.int 1) else none
  else none

/-- `not isinstance(v, int)`, pyblp/configurations/integration.py:144. -/
def notInt : PyValue → Prop
  | .int _ => False
  | _ => True

/-- `not isinstance(v, int) or v < least`, pyblp/configurations/integration.py:127 and 148. -/
def notIntFrom (least : ℤ) : Option PyValue → Prop
  | some (.int z) => z < least
  | _ => True

/-- `Integration.__init__`, pyblp/configurations/integration.py:102-153. -/
def integrationInit (specification : String) (size : PyValue) (options : OptionsArgument) : Except PyErr (PyValue × PyDict) :=
  if specification ∉ integrationSpecifications then .error .valueError else
  if notIntFrom 1 (some size) then .error .valueError else
  if options = .other then .error .valueError else
  let o := (integrationDefaults specification).update options.get
  if specification ∈ randomSpecifications ∧ notInt ((o "seed").getD (.int 0)) then .error .valueError else
  if specification = "halton" ∧ notIntFrom 0 (o "discard") then .error .valueError else
  .ok (size, o)

/-- `rc_types`, pyblp/economies/economy.py:137-147. The first argument is K2; `none` is None. -/
def economyTypes (K2 : ℕ) : Option (List String) → Except PyErr (List String)
  | none => .ok (List.replicate K2 "linear")
  | some l =>
    if l.length ≠ K2 then .error .valueError else
    if ∃ d ∈ l, d ∉ ["linear", "log", "logit"] then .error .typeError else .ok l

/-- `epsilon_scale`, pyblp/economies/economy.py:150-154. -/
def economyScale (H : ℕ) (epsilonScale : PyValue) : Except PyErr Fl :=
  match epsilonScale.number with
  | none => .error .valueError
  | some scale =>
    if flNotPositive scale then .error .valueError else
    if scale ≠ some 1 ∧ 0 < H then .error .valueError else .ok scale

/-- `_validate_fp_type`, pyblp/economies/economy.py:354-359. -/
def validateFpType (epsilonScale : Fl) (fpType : String) : Except PyErr Unit :=
  if fpType ∉ ["safe_linear", "linear", "safe_nonlinear", "nonlinear"] then .error .valueError else
  if fpType ∈ ["safe_nonlinear", "nonlinear"] ∧ epsilonScale ≠ some 1 then .error .valueError else .ok ()

/-- `_coerce_optional_delta_iteration` and `_coerce_optional_prices_iteration`, pyblp/economies/economy.py:337-352: arguments are None or
configurations. -/
def defaultIteration (method : String) (atol : ℝ) : Except PyErr Configuration :=
  iterationInit (.name method) (.dict fun k => if k = "atol" then some (.float (some (atol : EReal))) else none) false

end

end Pyblp
