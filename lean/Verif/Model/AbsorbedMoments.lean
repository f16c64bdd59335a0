import Verif.Model.Absorption
import Verif.Model.MomentsJacobian
import Verif.Model.PyErr

set_option linter.unusedSectionVars false

/-!
# Moments of different types and absorbed fixed effects (`Problem.solve` and `Problem._compute_progress`, pyblp/economies/problem.py)

PyHDFE is not modelled: each side has `none` (no absorbed fixed effects) or a function that residualizes a column, and absorption succeeds.
-/

namespace Pyblp

deriving instance DecidableEq for DifferenceType
deriving instance DecidableEq for MomentType

/-- An element of `demand_moment_types` or `supply_moment_types`: a tuple of two, whose elements are `none` if they are not a string or an
integer, or something else. Used for pyblp/economies/problem.py:648-661. -/
inductive MomentTypesEntry where
  | pair (type : Option String) (count : Option ℤ)
  | other

/-- `demand_moment_types` or `supply_moment_types`: a sequence, a string, or something else. Used for pyblp/economies/problem.py:636-643. -/
inductive MomentTypesArgument where
  | entries (l : List MomentTypesEntry)
  | string (s : String)
  | other

/-- Names of moment types, pyblp/economies/problem.py:658. -/
def momentTypeOf : Option String → Option MomentType
  | some "levels" => some .levels
  | some "innovations" => some (.difference .innovations)
  | some "differenced_innovations" => some (.difference .differencedInnovations)
  | _ => none

/-- Lists are made from strings, pyblp/economies/problem.py:636-643. `M` is the number of instruments of this side. -/
def MomentTypesArgument.toEntries (M : ℕ) : MomentTypesArgument → Except PyErr (List MomentTypesEntry)
  | .entries l => .ok l
  | .string s => .ok [.pair (some s) (some M)]
  | .other => .error .typeError

/-- One element, pyblp/economies/problem.py:655-661. -/
def checkMomentType (M : ℕ) : MomentTypesEntry → Except PyErr (MomentType × ℕ)
  | .other => .error .typeError
  | .pair s c =>
    match momentTypeOf s with
    | none => .error .valueError
    | some t =>
      match c with
      | none => .error .valueError
      | some c => if 0 ≤ c ∧ c ≤ M then .ok (t, c.toNat) else .error .valueError

/-- All elements in turn, pyblp/economies/problem.py:649-661. -/
def checkMomentTypes (M : ℕ) : List MomentTypesEntry → Except PyErr (List (MomentType × ℕ))
  | [] => .ok []
  | x :: l =>
    match checkMomentType M x, checkMomentTypes M l with
    | .error e, _ => .error e
    | .ok _, .error e => .error e
    | .ok x, .ok l => .ok (x :: l)

/-- One side, pyblp/economies/problem.py:648-678. `MC` is the number of covariance instruments and `absorbs` is whether fixed effects are
absorbed on this side. -/
def validateMomentTypes (M MC : ℕ) (absorbs : Bool) (l : List MomentTypesEntry) : Except PyErr (List (MomentType × ℕ)) :=
  match checkMomentTypes M l with
  | .error e => .error e
  | .ok types =>
    if ¬(types.map Prod.fst).Nodup then .error .valueError
    else if (types.map Prod.snd).sum ≠ M then .error .valueError
    else if types.any fun x => !x.1.isLevels then
      if 0 < MC then .error .notImplementedError
      else if absorbs then .error .notImplementedError
      else .ok types
    else .ok types

/-- Both sides, pyblp/economies/problem.py:635-678. -/
def validateSides (MD MS MC : ℕ) (absorbsDemand absorbsSupply : Bool) (demand supply : MomentTypesArgument) :
    Except PyErr (List (MomentType × ℕ) × List (MomentType × ℕ)) :=
  match demand.toEntries MD, supply.toEntries MS with
  | .error e, _ => .error e
  | .ok _, .error e => .error e
  | .ok demand, .ok supply =>
    match validateMomentTypes MD MC absorbsDemand demand, validateMomentTypes MS MC absorbsSupply supply with
    | .error e, _ => .error e
    | .ok _, .error e => .error e
    | .ok demand, .ok supply => .ok (demand, supply)

variable {N nd ns : ℕ} {m : Fin nd ⊕ Fin ns → Type} {q b g θ d : Type} [∀ e, Fintype (m e)] [Fintype q] [Fintype b] [Fintype g]
  [Fintype θ] [Fintype d]

/-- `_absorb_demand_ids` and `_absorb_supply_ids`: how a column is residualized, if fixed effects are absorbed on this side.
Used for pyblp/economies/problem.py:1380-1392. -/
structure Absorbers (N : ℕ) where
  demand : Option ((Fin N → ℝ) → Fin N → ℝ)
  supply : Option ((Fin N → ℝ) → Fin N → ℝ)

/-- A column after absorption on the demand side, pyblp/economies/problem.py:1381-1383. -/
def Absorbers.onDemand (A : Absorbers N) (v : Fin N → ℝ) : Fin N → ℝ :=
  match A.demand with
  | none => v
  | some R => R v

/-- A column after absorption on the supply side, pyblp/economies/problem.py:1387-1389. -/
def Absorbers.onSupply (A : Absorbers N) (v : Fin N → ℝ) : Fin N → ℝ :=
  match A.supply with
  | none => v
  | some R => R v

namespace MomentData

variable (M : MomentData N nd ns m q b g)

/-- Data of a problem after initialization: fixed effects are absorbed into `X1` and `X3`, and into instruments unless `add_exogenous` is
false; pyblp/economies/problem.py:2089-2105. -/
def afterAbsorption (A : Absorbers N) (addExogenous : Bool) : MomentData N nd ns m q b g :=
  { M with
    X1 := absorbed A.onDemand M.X1
    X3 := absorbed A.onSupply M.X3
    Z := fun e => match e with
      | .inl e => absorbedInstruments addExogenous A.onDemand (M.Z (.inl e))
      | .inr e => absorbedInstruments addExogenous A.onSupply (M.Z (.inr e)) }

/-- A column of `xi_jacobian` before it is used, pyblp/economies/problem.py:1384-1386: residualized only if there are covariance moments. -/
def demandColumn (A : Absorbers N) (delta' : Fin N → ℝ) : Fin N → ℝ := if M.converts then A.onDemand delta' else delta'

/-- A column of `omega_jacobian` before it is used, pyblp/economies/problem.py:1390-1392. -/
def supplyColumn (A : Absorbers N) (costs' : Fin N → ℝ) : Fin N → ℝ := if M.converts then A.onSupply costs' else costs'

/-- The objective, pyblp/economies/problem.py:1380-1392 and 1463-1528. `M` are data of the initialized problem. -/
noncomputable def objectiveWithEffects (A : Absorbers N) (scale : Bool) (covariances : Matrix (b ⊕ g) (b ⊕ g) ℝ)
    (W : Matrix ((MomentIndex m ⊕ q) ⊕ d) ((MomentIndex m ⊕ q) ⊕ d) ℝ) (phi : Fin 2 → Fin 2 → ℝ) (delta costs : Fin N → ℝ) (mean : ℝ)
    (micro : d → ℝ) : ℝ :=
  M.objective scale covariances W phi (A.onDemand delta) (A.onSupply costs) mean micro

/-- An element of the gradient, pyblp/economies/problem.py:1380-1392 and 1463-1540. -/
noncomputable def gradientWithEffects (A : Absorbers N) (scale : Bool) (covariances : Matrix (b ⊕ g) (b ⊕ g) ℝ)
    (W : Matrix ((MomentIndex m ⊕ q) ⊕ d) ((MomentIndex m ⊕ q) ⊕ d) ℝ) (phi : Fin 2 → Fin 2 → ℝ)
    (delta costs delta' costs' : Fin N → ℝ) (mean : ℝ) (location : Option (Fin 2 × Fin 2)) (micro micro' : d → ℝ) : ℝ :=
  M.gradient true scale covariances W phi (A.onDemand delta) (A.onSupply costs) (M.demandColumn A delta') (M.supplyColumn A costs') mean
    location micro micro'

/-- `moments_jacobian` of results, pyblp/economies/problem.py:1380-1392 and pyblp/results/problem_results.py:498-560. -/
noncomputable def momentsJacobianWithEffects (A : Absorbers N) (covariances : Matrix (b ⊕ g) (b ⊕ g) ℝ)
    (W : Matrix (MomentIndex m) (MomentIndex m) ℝ) (phi : Fin 2 → Fin 2 → ℝ) (delta costs : Fin N → ℝ) (delta' costs' : Matrix (Fin N) θ ℝ)
    (location : θ → Option (Fin 2 × Fin 2)) (microByTheta : Matrix d θ ℝ) : Matrix ((MomentIndex m ⊕ q) ⊕ d) (θ ⊕ b ⊕ g) ℝ :=
  M.momentsJacobian covariances W phi (A.onDemand delta) (A.onSupply costs) (Matrix.of fun i p => M.demandColumn A (delta'.col p) i)
    (Matrix.of fun i p => M.supplyColumn A (costs'.col p) i) location microByTheta

end MomentData

end Pyblp
