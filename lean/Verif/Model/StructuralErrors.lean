import Verif.Model.Panel
import Verif.Model.MatrixChecks

/-!
# Structural errors of simulations (`economies/simulation.py`)

Decompositions and random draws are parameters. Arithmetic is exact.
-/

namespace Pyblp

open Matrix

variable {N : ℕ}

/-- What users pass as structural errors, pyblp/economies/simulation.py:605-612: numbers and arrays with one or two dimensions. Arrays with more
dimensions are left out. -/
inductive GivenArray where
  | scalar (x : ℝ)
  | vector (x : List ℝ)
  | matrix (rows columns : ℕ) (x : Fin rows → Fin columns → ℝ)

/-- `np.c_[np.asarray(...)]` followed by the check of its shape, pyblp/economies/simulation.py:606-608 and 610-612. -/
def toColumn (N : ℕ) : GivenArray → Option (Fin N → ℝ)
  | .scalar x => if N = 1 then some fun _ => x else none
  | .vector x => if h : x.length = N then some fun i => x.get (Fin.cast h.symm i) else none
  | .matrix r c x => if h : r = N ∧ c = 1 then some fun i => x (Fin.cast h.1.symm i) ⟨0, by omega⟩ else none

/-- Why structural errors cannot be constructed. Used for pyblp/economies/simulation.py:602-650. -/
inductive ErrorsFailure where
  | xiShape
  | omegaShape
  | notPSD
  | noDraws
  | notStable
  | noStationary
  | noFactor
  | endless
  | xiMissing
  | omegaMissing
  deriving DecidableEq

/-- `covariances`, pyblp/economies/simulation.py:615-616. The square root of a negative number is NaN, with which there is no matrix. -/
noncomputable def errorCovariances (xiVariance omegaVariance correlation : ℝ) : Option (Matrix (Fin 2) (Fin 2) ℝ) :=
  if 0 ≤ xiVariance * omegaVariance then
    let covariance := correlation * Real.sqrt (xiVariance * omegaVariance)
    some !![xiVariance, covariance; covariance, omegaVariance]
  else none

/-- Results of library functions used for structural errors, pyblp/economies/simulation.py:614-628, with `none` if they raise an error: the singular
value decompositions in the check and in `multivariate_normal`, eigenvalues, the solution of the Lyapunov equation, and Cholesky factors. -/
structure ErrorAlgebra where
  svd : Matrix (Fin 2) (Fin 2) ℝ → Option ((Fin 2 → ℝ) × Matrix (Fin 2) (Fin 2) ℝ)
  drawSvd : Matrix (Fin 2) (Fin 2) ℝ → Option ((Fin 2 → ℝ) × Matrix (Fin 2) (Fin 2) ℝ)
  eigenvalues : Matrix (Fin 2) (Fin 2) ℝ → Option (List ℂ)
  lyapunov : Matrix (Fin 2) (Fin 2) ℝ → Matrix (Fin 2) (Fin 2) ℝ → Option (Matrix (Fin 2) (Fin 2) ℝ)
  cholesky : Matrix (Fin 2) (Fin 2) ℝ → Option (Matrix (Fin 2) (Fin 2) ℝ)

/-- `multivariate_normal`, pyblp/economies/simulation.py:618: rows of standard draws times scaled singular vectors, as documented by NumPy. -/
noncomputable def normalDraws (s : Fin 2 → ℝ) (v : Matrix (Fin 2) (Fin 2) ℝ) (z : Fin N → Fin 2 → ℝ) : Fin N → Fin 2 → ℝ :=
  fun n b => ∑ a, z n a * (Real.sqrt (s a) * v a b)

open Classical in
/-- The result of the loop, pyblp/economies/simulation.py:631-640: none if it does not end. -/
noncomputable def fillResult (lag : Fin N → Fin N) (phi : Matrix (Fin 2) (Fin 2) ℝ) (x : Fin N → Fin 2 → ℝ) : Option (Fin N → Fin 2 → ℝ) :=
  if h : ∃ r, FillLoop lag phi (fillStart lag) x r then some h.choose else none

/-- The transform of initial draws, pyblp/economies/simulation.py:623-628. -/
noncomputable def stationaryTransform (L : ErrorAlgebra) (stableTol : Tolerances) (phi V : Matrix (Fin 2) (Fin 2) ℝ) :
    Except ErrorsFailure (Matrix (Fin 2) (Fin 2) ℝ) :=
  if requireStable stableTol (L.eigenvalues phi) 4 = false then .error .notStable
  else
    match L.lyapunov phi V with
    | none => .error .noStationary
    | some S =>
      match L.cholesky S, L.cholesky V with
      | some F, some G => .ok (initialTransform F G)
      | _, _ => .error .noFactor

/-- Autocorrelation, pyblp/economies/simulation.py:620-640. -/
noncomputable def autocorrelate (L : ErrorAlgebra) (stableTol : Tolerances) (lags : Option (Fin N → Fin N)) (phi V : Matrix (Fin 2) (Fin 2) ℝ)
    (draws : Fin N → Fin 2 → ℝ) : Except ErrorsFailure (Fin N → Fin 2 → ℝ) :=
  match lags with
  | none => .ok draws
  | some lag =>
    match stationaryTransform L stableTol phi V with
    | .error e => .error e
    | .ok T =>
      match fillResult lag phi (scaleInitial lag T draws) with
      | none => .error .endless
      | some r => .ok r

/-- Simulated structural errors, pyblp/economies/simulation.py:615-640. The argument `z` has the standard draws of the random state. -/
noncomputable def simulateErrors (L : ErrorAlgebra) (psdTol stableTol : Tolerances) (xiVariance omegaVariance correlation : ℝ)
    (lags : Option (Fin N → Fin N)) (phi : Matrix (Fin 2) (Fin 2) ℝ) (z : Fin N → Fin 2 → ℝ) : Except ErrorsFailure (Fin N → Fin 2 → ℝ) :=
  match errorCovariances xiVariance omegaVariance correlation with
  | none => if psdTol = none then .error .noDraws else .error .notPSD
  | some V =>
    if requirePSD psdTol (L.svd V) V = false then .error .notPSD
    else
      match L.drawSvd V with
      | none => .error .noDraws
      | some (s, v) => autocorrelate L stableTol lags phi V (normalDraws s v z)

/-- Checks of given arrays, pyblp/economies/simulation.py:605-612. -/
def loadErrors (N : ℕ) (failure : ErrorsFailure) : Option GivenArray → Except ErrorsFailure (Option (Fin N → ℝ))
  | none => .ok none
  | some x =>
    match toColumn N x with
    | none => .error failure
    | some c => .ok (some c)

/-- Checks that structural errors are specified, pyblp/economies/simulation.py:646-650. -/
def requireErrors (K3 : ℕ) (xi omega : Option (Fin N → ℝ)) : Except ErrorsFailure ((Fin N → ℝ) × Option (Fin N → ℝ)) :=
  match xi with
  | none => .error .xiMissing
  | some x => if omega = none ∧ 0 < K3 then .error .omegaMissing else .ok (x, omega)

open Classical in
/-- Loaded or simulated structural errors, pyblp/economies/simulation.py:602-650. -/
noncomputable def structuralErrors (L : ErrorAlgebra) (psdTol stableTol : Tolerances) (K3 : ℕ) (xi omega : Option GivenArray)
    (xiVariance omegaVariance correlation : ℝ) (lags : Option (Fin N → Fin N)) (phi : Matrix (Fin 2) (Fin 2) ℝ) (z : Fin N → Fin 2 → ℝ) :
    Except ErrorsFailure ((Fin N → ℝ) × Option (Fin N → ℝ)) :=
  match loadErrors N .xiShape xi, loadErrors N .omegaShape omega with
  | .error e, _ => .error e
  | .ok _, .error e => .error e
  | .ok x, .ok w =>
    if x = none ∧ w = none ∧ 0 < K3 then
      match simulateErrors L psdTol stableTol xiVariance omegaVariance correlation lags phi z with
      | .error e => .error e
      | .ok u => requireErrors K3 (some fun i => u i 0) (some fun i => u i 1)
    else requireErrors K3 x w

end Pyblp
