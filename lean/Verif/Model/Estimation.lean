import Verif.Model.MomentsJacobian
import Verif.Model.Progress
import Mathlib.Data.Matrix.Block
import Mathlib.Analysis.Real.Sqrt

set_option linter.unusedSectionVars false

/-!
# Estimation from instruments to standard errors (`economies/problem.py`, `results/problem_results.py`)

The loop over steps in `Verif/Model/Progress.lean` with an evaluation of the objective, an update of the weighting matrix and reported
covariances in place of its abstract oracle. Market-by-market computation, optimizers and routines that invert matrices are
parameters. Numbers are real, so that there are no errors to handle; the Hessian and bounds are not part of this model.
-/

namespace Pyblp

open Matrix

/-- What is computed market by market for one `theta`, none of which depends on instruments or the weighting matrix:
pyblp/economies/problem.py:1020-1393. `delta` and `costs` are `iv_delta` and `iv_tilde_costs`. -/
structure Evaluated (N : ℕ) (θ d : Type) where
  phi : Fin 2 → Fin 2 → ℝ
  delta : Fin N → ℝ
  costs : Fin N → ℝ
  deltaJacobian : Matrix (Fin N) θ ℝ
  costsJacobian : Matrix (Fin N) θ ℝ
  micro : d → ℝ
  microJacobian : Matrix d θ ℝ
  microCovariances : Matrix d d ℝ

/-- A problem and arguments of `solve`, pyblp/economies/problem.py:75-100. `markets` takes the `delta` at which it starts and gives the
one with which the next evaluation starts; `resampled` gives outcomes for resampled agents, if there are any; `strategy` is an
optimizer: given the step, starting values and all evaluations so far, it either asks for another one or stops; after `budget`
evaluations it is stopped. -/
structure Estimation (N nd ns : ℕ) (m : Fin nd ⊕ Fin ns → Type) (q b g θ d ι D : Type) where
  data : MomentData N nd ns m q b g
  location : θ → Option (Fin 2 × Fin 2)
  mean : ℝ
  scale : Bool
  analytic : Bool
  wType : CovarianceType
  seType : CovarianceType
  center : Bool
  ids : Fin N → ι
  sort : List (Fin N)
  markets : D → (θ → ℝ) → Evaluated N θ d × D
  resampled : D → (θ → ℝ) → List (Evaluated N θ d)
  strategy : ℕ → (θ → ℝ) → List ((θ → ℝ) × ℝ × (θ → ℝ)) → (θ → ℝ) ⊕ ((θ → ℝ) × StepStats)
  budget : ℕ
  invertLinear : Matrix (b ⊕ g) (b ⊕ g) ℝ → Matrix (b ⊕ g) (b ⊕ g) ℝ
  invertAggregate : Matrix (MomentIndex m ⊕ q) (MomentIndex m ⊕ q) ℝ → Matrix (MomentIndex m ⊕ q) (MomentIndex m ⊕ q) ℝ
  invertMoments : Matrix ((MomentIndex m ⊕ q) ⊕ d) ((MomentIndex m ⊕ q) ⊕ d) ℝ →
    Matrix ((MomentIndex m ⊕ q) ⊕ d) ((MomentIndex m ⊕ q) ⊕ d) ℝ
  invertParameters : Matrix (θ ⊕ b ⊕ g) (θ ⊕ b ⊕ g) ℝ → Matrix (θ ⊕ b ⊕ g) (θ ⊕ b ⊕ g) ℝ

variable {N nd ns : ℕ} {m : Fin nd ⊕ Fin ns → Type} {q b g θ d ι D : Type} [∀ e, Fintype (m e)] [Fintype q] [Fintype b] [Fintype g]
  [Fintype θ] [Fintype d] [LinearOrder ι]

/-- Instruments of all equations including that of covariance moments. Used for pyblp/results/problem_results.py:721-728. -/
def withCovariance (m : Fin nd ⊕ Fin ns → Type) (q : Type) : (Fin nd ⊕ Fin ns) ⊕ Unit → Type := Sum.elim m fun _ => q

instance withCovarianceFintype : ∀ e, Fintype (withCovariance m q e)
  | .inl e => inferInstanceAs (Fintype (m e))
  | .inr _ => inferInstanceAs (Fintype q)

/-- The position of an aggregate moment among those of all equations. Used for pyblp/results/problem_results.py:709-757. -/
def momentPosition : MomentIndex m ⊕ q → MomentIndex (withCovariance m q)
  | .inl c => ⟨.inl c.1, c.2⟩
  | .inr c => ⟨.inr (), c⟩

/-- `Z_list`, pyblp/results/problem_results.py:721-728. -/
def MomentData.allInstruments (M : MomentData N nd ns m q b g) : (e : (Fin nd ⊕ Fin ns) ⊕ Unit) → Matrix (Fin N) (withCovariance m q e) ℝ
  | .inl e => M.Z e
  | .inr _ => M.ZC

/-- `u_list`, pyblp/results/problem_results.py:730-749. -/
def MomentData.allErrors (M : MomentData N nd ns m q b g) (phi : Fin 2 → Fin 2 → ℝ) (xi omega : Fin N → ℝ) (mean : ℝ) :
    (Fin nd ⊕ Fin ns) ⊕ Unit → Fin N → ℝ
  | .inl e => M.equations phi xi omega e
  | .inr _ => fun i => xi i * omega i - mean

/-- `np.cov(samples, rowvar=False)`, pyblp/economies/problem.py:1653. -/
noncomputable def sampleCovariances {c : Type} (samples : List (c → ℝ)) : Matrix c c ℝ :=
  let average : c → ℝ := fun a => (∑ r : Fin samples.length, samples[r] a) / (samples.length : ℝ)
  Matrix.of fun a b => (∑ r : Fin samples.length, (samples[r] a - average a) * (samples[r] b - average b)) / ((samples.length : ℝ) - 1)

deriving instance DecidableEq for CovarianceType

namespace Estimation

variable (E : Estimation N nd ns m q b g θ d ι D)

/-- Weighting matrices. Used for pyblp/economies/problem.py:760-769 and 815-824 and 1463-1466. -/
abbrev Weights (m : Fin nd ⊕ Fin ns → Type) (q d : Type) := Matrix ((MomentIndex m ⊕ q) ⊕ d) ((MomentIndex m ⊕ q) ⊕ d) ℝ

/-- `S` of the 2SLS weighting matrix, pyblp/economies/problem.py:753-759. -/
noncomputable def defaultCovariances : Matrix (MomentIndex m ⊕ q) (MomentIndex m ⊕ q) ℝ :=
  fromBlocks (blockDiagonal' fun e => (N : ℝ)⁻¹ • ((E.data.Z e)ᵀ * E.data.Z e)) 0 0 ((N : ℝ)⁻¹ • (E.data.ZCᵀ * E.data.ZC))

/-- The default weighting matrix, pyblp/economies/problem.py:760-769. -/
noncomputable def defaultWeights : Weights m q d := fromBlocks (E.invertAggregate E.defaultCovariances) 0 0 0

/-- `iv.covariances`, pyblp/economies/problem.py:815-824 and 1463-1466. -/
def covariances (W : Weights m q d) (phi : Fin 2 → Fin 2 → ℝ) : Matrix (b ⊕ g) (b ⊕ g) ℝ :=
  E.invertLinear (ivCovariancesInverse (E.data.regressors phi) E.data.Z (ivWeights (ivWeights W)))

/-- Concentrated-out linear parameters, pyblp/economies/problem.py:1469-1480. -/
def linearParameters (W : Weights m q d) (o : Evaluated N θ d) : b ⊕ g → ℝ :=
  E.data.linearParameters (E.covariances W o.phi) (ivWeights (ivWeights W)) o.phi o.delta o.costs

/-- `xi`, pyblp/economies/problem.py:1483-1489. -/
def xi (W : Weights m q d) (o : Evaluated N θ d) : Fin N → ℝ :=
  E.data.xi (E.covariances W o.phi) (ivWeights (ivWeights W)) o.phi o.delta o.costs

/-- `omega`, pyblp/economies/problem.py:1492-1501. -/
def omega (W : Weights m q d) (o : Evaluated N θ d) : Fin N → ℝ :=
  E.data.omega (E.covariances W o.phi) (ivWeights (ivWeights W)) o.phi o.delta o.costs

/-- `mean_g`, pyblp/economies/problem.py:1525. -/
noncomputable def meanMoments (W : Weights m q d) (o : Evaluated N θ d) : (MomentIndex m ⊕ q) ⊕ d → ℝ :=
  E.data.meanMoments (E.data.residuals (E.covariances W o.phi) (ivWeights (ivWeights W)) o.phi o.delta o.costs) (E.xi W o) (E.omega W o)
    E.mean o.micro

/-- The objective, pyblp/economies/problem.py:1524-1528. -/
noncomputable def objective (W : Weights m q d) (o : Evaluated N θ d) : ℝ :=
  E.data.objective E.scale (E.covariances W o.phi) W o.phi o.delta o.costs E.mean o.micro

/-- The gradient, pyblp/economies/problem.py:1534-1540. -/
noncomputable def gradient (W : Weights m q d) (o : Evaluated N θ d) : θ → ℝ := fun p =>
  E.data.gradient E.analytic E.scale (E.covariances W o.phi) W o.phi o.delta o.costs (o.deltaJacobian.col p) (o.costsJacobian.col p)
    E.mean (E.location p) o.micro (o.microJacobian.col p)

/-- `optimization._optimize` with the objective of a step, pyblp/economies/problem.py:866-914: given evaluations so far and the `delta`
that the next one starts with. The last `delta` is for the evaluation after optimization. -/
noncomputable def search (W : Weights m q d) (step : ℕ) (start : θ → ℝ) :
    ℕ → List ((θ → ℝ) × ℝ × (θ → ℝ)) → D → ((θ → ℝ) × StepStats) × D
  | 0, history, s => ((start, ⟨false, 0, history.length⟩), s)
  | n + 1, history, s =>
    match E.strategy step start history with
    | .inr done => (done, s)
    | .inl theta =>
      let r := E.markets s theta
      search W step start n (history ++ [(theta, E.objective W r.1, E.gradient W r.1)]) r.2

/-- The `delta` at which the last evaluation of a step starts, pyblp/economies/problem.py:905-942. -/
noncomputable def lastDelta (step : ℕ) (s : GmmState (Weights m q d) (θ → ℝ) D) : D :=
  if Fintype.card θ > 0 ∧ step > 0 then (E.search s.W step s.theta E.budget [] s.delta).2 else s.delta

/-- `final_progress`, pyblp/economies/problem.py:938-942. -/
noncomputable def final (step : ℕ) (s : GmmState (Weights m q d) (θ → ℝ) D) (theta : θ → ℝ) : Evaluated N θ d × D :=
  E.markets (E.lastDelta step s) theta

/-- `simulation_covariances`, pyblp/economies/problem.py:1603-1653. -/
noncomputable def simulationCovariances (W : Weights m q d) (samples : List (Evaluated N θ d)) : Weights m q d :=
  sampleCovariances (samples.map (E.meanMoments W))

/-- `_compute_S`, pyblp/results/problem_results.py:709-757. -/
noncomputable def momentCovariances (type : CovarianceType) (center : Bool) (W : Weights m q d) (o : Evaluated N θ d)
    (samples : List (Evaluated N θ d)) : Weights m q d :=
  fromBlocks (Matrix.of fun a c => gmmMomentCovariances (E.data.allErrors o.phi (E.xi W o) (E.omega W o) E.mean) E.data.allInstruments
    type E.ids E.sort center (momentPosition a) (momentPosition c)) 0 0 ((N : ℝ) • o.microCovariances) + E.simulationCovariances W samples

/-- `updated_W`, pyblp/results/problem_results.py:525-533. -/
noncomputable def updatedWeights (W : Weights m q d) (o : Evaluated N θ d) (samples : List (Evaluated N θ d)) : Weights m q d :=
  gmmWeights (E.invertMoments (E.momentCovariances E.wType E.center W o samples))

/-- What the loop over steps uses. Numbers of fixed point iterations are not computed in this model. Used for pyblp/economies/problem.py:905-966. -/
noncomputable def oracle : GmmOracle (Weights m q d) (θ → ℝ) D where
  optimize step s := (E.search s.W step s.theta E.budget [] s.delta).1
  finish step s theta :=
    let r := E.final step s theta
    (r.2, E.updatedWeights s.W r.1 (E.resampled (E.lastDelta step s) theta), [])

/-- All steps of `solve`, pyblp/economies/problem.py:805-986. -/
noncomputable def solve (method : GmmMethod) (initialUpdate : Bool) (s : GmmState (Weights m q d) (θ → ℝ) D) :
    List (StepResults (Weights m q d) (θ → ℝ) D) :=
  gmmSolve E.oracle method (Fintype.card θ) initialUpdate s

/-! ### Results of a step -/

/-- Market-by-market computation in the last evaluation of a step. Used for pyblp/economies/problem.py:905-966. -/
noncomputable def outcome (r : StepResults (Weights m q d) (θ → ℝ) D) : Evaluated N θ d := (E.final r.step r.start r.theta).1

/-- `S_for_weights`, pyblp/results/problem_results.py:525-532. -/
noncomputable def weightsCovariances (r : StepResults (Weights m q d) (θ → ℝ) D) : Weights m q d :=
  E.momentCovariances E.wType E.center r.start.W (E.outcome r) (E.resampled (E.lastDelta r.step r.start) r.theta)

/-- `moments_covariances`, pyblp/results/problem_results.py:537-545. -/
noncomputable def reportedCovariances (r : StepResults (Weights m q d) (θ → ℝ) D) : Weights m q d :=
  if E.seType ≠ E.wType ∨ E.center = true then
    E.momentCovariances E.seType false r.start.W (E.outcome r) (E.resampled (E.lastDelta r.step r.start) r.theta)
  else E.weightsCovariances r

/-- Whether a covariance type is `'unadjusted'`. Used for pyblp/results/problem_results.py:547-552 and 554-558. -/
def _root_.Pyblp.CovarianceType.isUnadjusted : CovarianceType → Bool
  | .unadjusted => true
  | _ => false

/-- `W_for_covariances`, pyblp/results/problem_results.py:547-552. -/
noncomputable def weightsForCovariances (r : StepResults (Weights m q d) (θ → ℝ) D) : Weights m q d :=
  if E.seType.isUnadjusted && r.step == 1 then gmmWeights (E.invertMoments (E.reportedCovariances r)) else r.start.W

/-- `moments_jacobian`, pyblp/results/problem_results.py:536. -/
noncomputable def jacobian (r : StepResults (Weights m q d) (θ → ℝ) D) : Matrix ((MomentIndex m ⊕ q) ⊕ d) (θ ⊕ b ⊕ g) ℝ :=
  let o := E.outcome r
  E.data.momentsJacobian (E.covariances r.start.W o.phi) (ivWeights (ivWeights r.start.W)) o.phi o.delta o.costs o.deltaJacobian
    o.costsJacobian E.location o.microJacobian

/-- `parameter_covariances`, pyblp/results/problem_results.py:554-558. -/
noncomputable def parameterCovariances (r : StepResults (Weights m q d) (θ → ℝ) D) : Matrix (θ ⊕ b ⊕ g) (θ ⊕ b ⊕ g) ℝ :=
  gmmParameterCovariances (E.weightsForCovariances r) (E.reportedCovariances r) (E.jacobian r)
    (E.invertParameters ((E.jacobian r)ᵀ * E.weightsForCovariances r * E.jacobian r)) E.seType.isUnadjusted

/-- Standard errors before they are expanded, pyblp/results/problem_results.py:575. -/
noncomputable def standardErrors (r : StepResults (Weights m q d) (θ → ℝ) D) : θ ⊕ b ⊕ g → ℝ :=
  fun p => Real.sqrt (E.parameterCovariances r p p / (N : ℝ))

/-- `parameter_sensitivity`, pyblp/results/problem_results.py:560-564. -/
noncomputable def parameterSensitivity (r : StepResults (Weights m q d) (θ → ℝ) D) : Matrix (θ ⊕ b ⊕ g) ((MomentIndex m ⊕ q) ⊕ d) ℝ :=
  gmmParameterSensitivity (E.weightsForCovariances r) (E.jacobian r)
    (E.invertParameters ((E.jacobian r)ᵀ * E.weightsForCovariances r * E.jacobian r))

end Estimation

end Pyblp
