import Verif.Model.AbsorbedMoments
import Verif.Model.Configurations
import Verif.Model.Progress
import Mathlib.Analysis.SpecialFunctions.Log.Basic

/-!
# Arguments of `Problem.solve` and what it starts from (`economies/problem.py`)

Arguments for which only some strings are accepted are strings here. `Moments` and `Parameters` are models of their own: what their
constructors return is an input.
-/

namespace Pyblp

open Classical

noncomputable section

/-- An argument that is None, of the expected type, or something else. Used for pyblp/economies/problem.py:600-604 and 707-709. -/
inductive OptionalArgument where
  | none
  | expected
  | other
  deriving DecidableEq

/-- Python's `x > y` for floats, false if either is NaN. Used for pyblp/economies/economy.py:375. -/
def flGreater (x y : Fl) : Prop := Fl.lt y x

/-- One bound as an array: None is NaN, and NaN is replaced with an infinity, pyblp/economies/economy.py:368-370. -/
def boundOr (infinity : EReal) (bound : List Fl) : List Fl := bound.map fun x => some (x.getD infinity)

/-- `_coerce_optional_bounds`, pyblp/economies/economy.py:362-377. Each element of a given tuple is an array. -/
def coerceBounds : Option (List (List Fl)) → Except PyErr (Fl × Fl)
  | none => .ok (some ⊥, some ⊤)
  | some [lower, upper] =>
    match boundOr ⊥ lower, boundOr ⊤ upper with
    | [l], [u] => if flGreater l u then .error .valueError else .ok (l, u)
    | _, _ => .error .valueError
  | some _ => .error .valueError

/-- A matrix given as an argument: its shape, whether it passes `_require_psd`, and its condition number (NaN if it cannot be computed).
Used for pyblp/economies/problem.py:693-698 and 746-750. -/
structure MatrixArgument where
  rows : ℕ
  columns : ℕ
  psd : Bool
  condition : Fl

/-- Warnings of `_detect_singularity`. Used for pyblp/economies/economy.py:237-248. -/
inductive SingularityWarning where
  | failed
  | nearly
  | singular
  deriving DecidableEq

/-- `_detect_singularity`, pyblp/economies/economy.py:237-248 and pyblp/utilities/algebra.py:26-37. -/
def detectSingularity (tolerance : EReal) (condition : Fl) : List SingularityWarning :=
  if tolerance < ⊤ then
    match condition with
    | none => [.failed]
    | some c => if tolerance < c then [if c < ⊤ then .nearly else .singular] else []
  else []

/-- Arguments of `solve`, pyblp/economies/problem.py:61-76, those of `Parameters` and `Moments` left out. -/
structure SolveArguments where
  method : String
  optimization : OptionalArgument
  checkOptimality : String
  errorBehavior : String
  errorPunishment : PyValue
  deltaBehavior : String
  iteration : OptionalArgument
  fpType : String
  wType : String
  seType : String
  demandMomentTypes : MomentTypesArgument
  supplyMomentTypes : MomentTypesArgument
  covarianceMomentsMean : PyValue
  sharesBounds : Option (List (List Fl))
  costsBounds : Option (List (List Fl))
  microSampleCovariances : Option MatrixArgument
  resampleAgentData : OptionalArgument
  initialUpdate : Option Bool
  W : Option MatrixArgument
  deltaShape : Option (ℕ × ℕ)

/-- What `solve` knows of the problem: dimensions, whether there are clustering IDs, which fixed effects are absorbed, the scale of
epsilon, the number of micro moments or the error of `Moments`, numbers of unfixed and eliminated parameters or the error of `Parameters`,
and whether the default weighting matrix can be computed. Used for pyblp/economies/problem.py:592-777. -/
structure SolveContext where
  N : ℕ
  MD : ℕ
  MS : ℕ
  MC : ℕ
  clustered : Bool
  absorbsDemand : Bool
  absorbsSupply : Bool
  epsilonScale : Fl
  moments : Except PyErr ℕ
  parameters : Except PyErr (ℕ × ℕ)
  invertible : Bool
  defaultCondition : Fl
  singularTolerance : EReal

/-- What is known once arguments were accepted. `W` and `delta` are `true` if they were given. Used for pyblp/economies/problem.py:592-777. -/
structure SolveSetup where
  demandMomentTypes : List (MomentType × ℕ)
  supplyMomentTypes : List (MomentType × ℕ)
  sharesBounds : Fl × Fl
  costsBounds : Fl × Fl
  initialUpdate : Bool
  givenW : Bool
  givenDelta : Bool
  underidentified : Bool
  warnings : List SingularityWarning

/-- `isinstance(x, (float, int))` is false, or `x < 0`, pyblp/economies/problem.py:613. -/
def badPunishment (x : PyValue) : Prop :=
  match x.number with
  | none => True
  | some y => flNegative y

/-- pyblp/economies/problem.py:596-634. -/
def checkStrings (x : SolveContext) (a : SolveArguments) : Except PyErr Unit :=
  if a.method ∉ ["1s", "2s"] then .error .typeError else
  if a.optimization = .other then .error .typeError else
  if a.checkOptimality ∉ ["gradient", "both"] then .error .valueError else
  if a.errorBehavior ∉ ["revert", "punish", "raise"] then .error .valueError else
  if badPunishment a.errorPunishment then .error .valueError else
  if a.deltaBehavior ∉ ["last", "logit", "first"] then .error .valueError else
  if a.iteration = .other then .error .typeError else
  match validateFpType x.epsilonScale a.fpType with
  | .error e => .error e
  | .ok () =>
    if a.wType ∉ ["robust", "unadjusted", "clustered"] then .error .valueError else
    if a.seType ∉ ["robust", "unadjusted", "clustered"] then .error .valueError else
    if (a.wType = "clustered" ∨ a.seType = "clustered") ∧ x.clustered = false then .error .valueError else .ok ()

/-- A given matrix has to be `size` by `size` and positive semidefinite, pyblp/economies/problem.py:693-698 and 746-750. -/
def checkMatrix (tolerance : EReal) (size : ℕ) (m : MatrixArgument) : Except PyErr (List SingularityWarning) :=
  if ¬(m.rows = size ∧ m.columns = size) then .error .valueError else
  if m.psd = false then .error .valueError else .ok (detectSingularity tolerance m.condition)

/-- Covariances of micro moments, pyblp/economies/problem.py:689-698, which are ignored if there are no micro moments. -/
def checkMicroCovariances (tolerance : EReal) (MM : ℕ) : Option MatrixArgument → Except PyErr (List SingularityWarning)
  | none => .ok []
  | some m => if 0 < MM then checkMatrix tolerance MM m else .ok []

/-- The weighting matrix, pyblp/economies/problem.py:745-764. -/
def checkWeights (x : SolveContext) (M : ℕ) : Option MatrixArgument → Except PyErr (List SingularityWarning)
  | some m => checkMatrix x.singularTolerance M m
  | none => if x.invertible then .ok (detectSingularity x.singularTolerance x.defaultCondition) else .error .valueError

/-- pyblp/economies/problem.py:592-777. -/
def checkSolve (x : SolveContext) (a : SolveArguments) : Except PyErr SolveSetup :=
  match checkStrings x a with
  | .error e => .error e
  | .ok () =>
    match validateSides x.MD x.MS x.MC x.absorbsDemand x.absorbsSupply a.demandMomentTypes a.supplyMomentTypes with
    | .error e => .error e
    | .ok (demand, supply) =>
      if a.covarianceMomentsMean.number = none then .error .valueError else
      match coerceBounds a.sharesBounds with
      | .error e => .error e
      | .ok sharesBounds =>
        match coerceBounds a.costsBounds with
        | .error e => .error e
        | .ok costsBounds =>
          match x.moments with
          | .error e => .error e
          | .ok MM =>
            match checkMicroCovariances x.singularTolerance MM a.microSampleCovariances with
            | .error e => .error e
            | .ok microWarnings =>
              if a.resampleAgentData = .other then .error .typeError else
              match chooseInitialUpdate a.initialUpdate (decide (0 < MM)) a.W.isSome with
              | .error e => .error e
              | .ok initialUpdate =>
                match x.parameters with
                | .error e => .error e
                | .ok (unfixed, eliminated) =>
                  let M := x.MD + x.MS + x.MC + MM
                  match checkWeights x M a.W with
                  | .error e => .error e
                  | .ok weightWarnings =>
                    if ∃ s, a.deltaShape = some s ∧ s ≠ (x.N, 1) then .error .valueError
                    else .ok ⟨demand, supply, sharesBounds, costsBounds, initialUpdate, a.W.isSome, a.deltaShape.isSome,
                      decide (M < unfixed + eliminated), microWarnings ++ weightWarnings⟩

/-- Marginal costs before the first evaluation, pyblp/economies/problem.py:779-787: prices or their logarithms, which are not finite unless
prices are positive. -/
def placeholderCosts {C : Type} (logCosts : Bool) (prices : C → ℝ) : C → Option ℝ := fun i =>
  if logCosts then (if 0 < prices i then some (Real.log (prices i)) else none) else some (prices i)

/-- What the first evaluation reverts to, pyblp/economies/problem.py:771-803 and 850-866. -/
def initialProgress {N P M C : Type} (logCosts : Bool) (prices : C → ℝ) (delta : N → Option ℝ) : Heap × ProgressInfo N P M C :=
  (⟨fun _ => some (10 ^ 10), 1⟩,
    ⟨delta, delta, fun _ => some 0, placeholderCosts logCosts prices, fun _ => some 0, fun _ => some 0, fun _ => some 0, fun _ => some 0, 0, []⟩)

end

end Pyblp
