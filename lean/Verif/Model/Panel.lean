import Verif.Model.PyErr
import Verif.Model.Groups
import Verif.Tactics
import Mathlib.Data.EReal.Basic
import Mathlib.Data.Rat.Floor
import Mathlib.Data.Matrix.Mul
import Mathlib.LinearAlgebra.Matrix.NonsingularInverse

/-!
# Validation of shares and lags, dynamic panels and autoregressive simulation

`primitives.py` (`Products.__new__`), `economies/economy.py` (`_lags`, `_compute_difference`) and `economies/simulation.py`.
-/

namespace Pyblp

open Classical

variable {N : ℕ}

/-! ## Shares -/

/-- Why shares are rejected. `markets` carries the market IDs in the message. Used for pyblp/primitives.py:221-232. -/
inductive SharesError (τ : Type) where
  | notFinite
  | notInterior
  | markets (ids : List τ)

/-- Check of shares, pyblp/primitives.py:221-232, for a one-dimensional column. A share that is NaN is `none`. Sums are exact. `sort` is
the result of the `argsort` in `Groups`. -/
noncomputable def validateShares {τ : Type} [LinearOrder τ] (ids : Fin N → τ) (sort : List (Fin N)) (shares : Fin N → Option EReal) :
    Except (SharesError τ) (Fin N → ℝ) :=
  if h : ∀ i, ∃ x : ℝ, shares i = some (x : EReal) then
    let x := fun i => (h i).choose
    if (∃ i, x i ≤ 0) ∨ (∃ i, 1 ≤ x i) then .error .notInterior
    else
      let groups := Groups.mk' ids sort
      let bad := (List.zip groups.unique (groups.sum x)).filter fun p => decide (1 ≤ p.2)
      if bad ≠ [] then .error (.markets (bad.map Prod.fst)) else .ok x
  else .error .notFinite

/-! ## Lag indices -/

/-- Checks of `lag_indices`, pyblp/primitives.py:196-214, for a one-dimensional column of finite numbers. The first condition is read
with Python's precedence: `(not (lag_indices >= 0).all()) and (lag_indices <= N - 1).all()`. -/
noncomputable def validateLags (lag : Fin N → ℚ) : Except PyErr Unit :=
  if ¬ (∀ i, 0 ≤ lag i) ∧ (∀ i, lag i ≤ (N : ℚ) - 1) then .error .valueError
  else if ¬ ∃ i : Fin N, lag i = (i : ℕ) then .error .valueError
  else if ((Finset.univ.filter fun i : Fin N => lag i ≠ (i : ℕ)).image lag).card ≠
      (Finset.univ.filter fun i : Fin N => lag i ≠ (i : ℕ)).card then .error .valueError
  else .ok ()

/-- Conversion to `np.int64`, pyblp/primitives.py:256: numbers are truncated. -/
def truncInt (q : ℚ) : ℤ := if 0 ≤ q then ⌊q⌋ else ⌈q⌉

/-- Indexing an array of length `N`: negative indices count from the end, others out of range raise `IndexError`.
Used for pyblp/primitives.py:194-214. -/
def wrapIndex (N : ℕ) (z : ℤ) : Option (Fin N) :=
  if h : 0 ≤ z ∧ z < N then some ⟨z.toNat, by omega⟩
  else if h : -(N : ℤ) ≤ z ∧ z < 0 then some ⟨(z + N).toNat, by omega⟩
  else none

/-- Construction of an economy's lags: pyblp/primitives.py:194-214 followed by pyblp/economies/economy.py:112-116, where indexing with
`lag_indices` raises `IndexError` if an index is out of range. -/
noncomputable def buildLags (lag : Fin N → ℚ) : Except PyErr (Fin N → Fin N) :=
  match validateLags lag with
  | .error e => .error e
  | .ok _ =>
    if h : ∀ i, ∃ j, wrapIndex N (truncInt (lag i)) = some j then .ok fun i => (h i).choose else .error .indexError

/-! ## Differences -/

/-- Moment types other than levels. Used for pyblp/economies/economy.py:437-461 and 463-475. -/
inductive DifferenceType where
  | innovations
  | differencedInnovations

/-- `_lags`, pyblp/economies/economy.py:115. -/
def hasLag (lag : Fin N → Fin N) (i : Fin N) : Bool := decide (lag i ≠ i)

/-- `_second_lags`, pyblp/economies/economy.py:116. -/
def hasSecondLag (lag : Fin N → Fin N) (i : Fin N) : Bool := hasLag lag i && hasLag lag (lag i)

/-- `_compute_difference`, pyblp/economies/economy.py:437-461, for one column. -/
def computeDifference (lag : Fin N → Fin N) (t : DifferenceType) (x : Fin N → ℝ) (phi : ℝ) (other : Option ((Fin N → ℝ) × ℝ)) :
    Fin N → ℝ :=
  let x1 := fun i => x i - phi * x (lag i)
  let x2 := match other with
    | none => x1
    | some (y, c) => fun i => x1 i - c * y (lag i)
  match t with
  | .innovations => fun i => if !hasLag lag i then 0 else x2 i
  | .differencedInnovations => fun i => if !hasSecondLag lag i then 0 else x2 i - x2 (lag i)

/-- `_compute_difference_derivative`, pyblp/economies/economy.py:463-475. -/
def computeDifferenceDerivative (lag : Fin N → Fin N) (t : DifferenceType) (x : Fin N → ℝ) : Fin N → ℝ :=
  let x1 := fun i => x (lag i)
  match t with
  | .innovations => fun i => if !hasLag lag i then 0 else -x1 i
  | .differencedInnovations => fun i => if !hasSecondLag lag i then 0 else -(x1 i - x1 (lag i))

/-! ## Simulation -/

/-- `lookup`, pyblp/economies/simulation.py:632-633: the first row whose lag is `j`; `none` is the value `N`. -/
def lagLookup (lag : Fin N → Fin N) (j : Fin N) : Option (Fin N) :=
  ((List.finRange N).filter fun i => decide (lag i ≠ i ∧ lag i = j)).head?

/-- One update, pyblp/economies/simulation.py:637-638. -/
def fillWave (lag : Fin N → Fin N) (phi : Matrix (Fin 2) (Fin 2) ℝ) (next : List (Fin N)) (x : Fin N → Fin 2 → ℝ) :
    Fin N → Fin 2 → ℝ :=
  fun i => if i ∈ next then x i + phi.mulVec (x (lag i)) else x i

/-- The loop, pyblp/economies/simulation.py:636-640, as a relation between its state and the final array: it has a result exactly when
the loop ends. -/
inductive FillLoop (lag : Fin N → Fin N) (phi : Matrix (Fin 2) (Fin 2) ℝ) : List (Fin N) → (Fin N → Fin 2 → ℝ) → (Fin N → Fin 2 → ℝ) → Prop
  | done (x) : FillLoop lag phi [] x x
  | step (next x r) : next ≠ [] → FillLoop lag phi (next.filterMap (lagLookup lag)) (fillWave lag phi next x) r →
      FillLoop lag phi next x r

/-- Rows updated first, pyblp/economies/simulation.py:634-635. -/
def fillStart (lag : Fin N → Fin N) : List (Fin N) :=
  ((List.finRange N).filter fun i => !hasLag lag i).filterMap (lagLookup lag)

/-- Scaling of initial draws, pyblp/economies/simulation.py:629. -/
def scaleInitial (lag : Fin N → Fin N) (transform : Matrix (Fin 2) (Fin 2) ℝ) (draws : Fin N → Fin 2 → ℝ) : Fin N → Fin 2 → ℝ :=
  fun i => if !hasLag lag i then transform.mulVec (draws i) else draws i

/-- The transform of initial draws, pyblp/economies/simulation.py:624-628, from Cholesky factors of the stationary and the innovation
covariances. -/
noncomputable def initialTransform (stationaryFactor factor : Matrix (Fin 2) (Fin 2) ℝ) : Matrix (Fin 2) (Fin 2) ℝ :=
  stationaryFactor * factor⁻¹

end Pyblp
