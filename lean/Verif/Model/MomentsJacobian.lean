import Verif.Model.Panel
import Verif.Model.Statistics
import Verif.Model.FiniteDifferences

set_option linter.unusedSectionVars false

/-!
# Moments of different types, their Jacobian and the gradient (`economies/problem.py`, `results/problem_results.py`)

Numbers are real and null values are not modelled. Problems without a supply side have no columns in `g`, no supply-side moments and
no covariance moments; the value of `omega` is then not used. Absorption of fixed effects is in `Verif/Model/Absorption.lean`.
-/

namespace Pyblp

open Matrix

/-- A moment type: `'levels'`, `'innovations'` or `'differenced_innovations'`, pyblp/economies/problem.py:655-656. -/
inductive MomentType where
  | levels
  | difference (t : DifferenceType)

/-- Data of a problem that enter aggregate moments: `lag_indices`, moment types of both sides, whether `K3 > 0`, instruments split by
moment types, covariance instruments, and columns of `X1` and `X3` with eliminated parameters; pyblp/economies/problem.py:1395-1405,
pyblp/results/problem_results.py:636-656. -/
structure MomentData (N nd ns : ℕ) (m : Fin nd ⊕ Fin ns → Type) (q b g : Type) where
  lag : Fin N → Fin N
  demand : Fin nd → MomentType
  supply : Fin ns → MomentType
  hasSupply : Bool
  Z : (e : Fin nd ⊕ Fin ns) → Matrix (Fin N) (m e) ℝ
  ZC : Matrix (Fin N) q ℝ
  X1 : Matrix (Fin N) b ℝ
  X3 : Matrix (Fin N) g ℝ

variable {N nd ns : ℕ} {m : Fin nd ⊕ Fin ns → Type} {q b g θ d : Type} [∀ e, Fintype (m e)] [Fintype q] [Fintype b] [Fintype g]
  [Fintype θ] [Fintype d]

namespace MomentData

variable (M : MomentData N nd ns m q b g)

/-- One column of `y_list`, `X_list` or `jacobian_list`, pyblp/economies/problem.py:1411-1459 and
pyblp/results/problem_results.py:658-676, before contributions of `phi`. Stacking in lines 1434 and 1460 does not change what `IV`
stacks. -/
def equations (phi : Fin 2 → Fin 2 → ℝ) (x1 x3 : Fin N → ℝ) : Fin nd ⊕ Fin ns → Fin N → ℝ
  | .inl e => match M.demand e with
    | .levels => x1
    | .difference t => computeDifference M.lag t x1 (phi 0 0) (if M.hasSupply then some (x3, phi 0 1) else none)
  | .inr e => match M.supply e with
    | .levels => x3
    | .difference t => computeDifference M.lag t x3 (phi 1 1) (some (x1, phi 1 0))

/-- `extended_iv_X1`, pyblp/economies/problem.py:1397: one column. -/
def extendedX1 (c : b ⊕ g) : Fin N → ℝ := fun i => c.elim (fun k => M.X1 i k) fun _ => 0

/-- `extended_iv_X3`, pyblp/economies/problem.py:1398: one column. -/
def extendedX3 (c : b ⊕ g) : Fin N → ℝ := fun i => c.elim (fun _ => 0) fun k => M.X3 i k

/-- `X_list`, pyblp/economies/problem.py:1408-1445. -/
def regressors (phi : Fin 2 → Fin 2 → ℝ) : Fin nd ⊕ Fin ns → Matrix (Fin N) (b ⊕ g) ℝ :=
  fun e i c => M.equations phi (M.extendedX1 c) (M.extendedX3 c) e i

/-- `stacked_parameters`, pyblp/economies/problem.py:1470-1477, given `iv.covariances`. -/
def linearParameters (covariances : Matrix (b ⊕ g) (b ⊕ g) ℝ) (W : Matrix (MomentIndex m) (MomentIndex m) ℝ)
    (phi : Fin 2 → Fin 2 → ℝ) (delta costs : Fin N → ℝ) : b ⊕ g → ℝ :=
  ivParameters covariances (M.regressors phi) M.Z W (M.equations phi delta costs)

/-- `u_list` from `IV.estimate`, pyblp/economies/problem.py:1470-1477. -/
def residuals (covariances : Matrix (b ⊕ g) (b ⊕ g) ℝ) (W : Matrix (MomentIndex m) (MomentIndex m) ℝ)
    (phi : Fin 2 → Fin 2 → ℝ) (delta costs : Fin N → ℝ) : Fin nd ⊕ Fin ns → Fin N → ℝ :=
  ivResiduals covariances (M.regressors phi) M.Z W (M.equations phi delta costs)

end MomentData

/-- Whether a moment type is `'levels'`. Used for pyblp/economies/problem.py:1483-1484 and 1495-1496. -/
def MomentType.isLevels : MomentType → Bool
  | .levels => true
  | .difference _ => false

/-- The first moment type that is `'levels'`, pyblp/economies/problem.py:1483-1484 and 1495-1496. -/
def levelsIndex {n : ℕ} (types : Fin n → MomentType) : Option (Fin n) := (List.finRange n).find? fun i => (types i).isLevels

namespace MomentData

variable (M : MomentData N nd ns m q b g)

/-- `xi`, pyblp/economies/problem.py:1483-1489. -/
def xi (covariances : Matrix (b ⊕ g) (b ⊕ g) ℝ) (W : Matrix (MomentIndex m) (MomentIndex m) ℝ)
    (phi : Fin 2 → Fin 2 → ℝ) (delta costs : Fin N → ℝ) : Fin N → ℝ :=
  match levelsIndex M.demand with
  | some i => M.residuals covariances W phi delta costs (.inl i)
  | none => fun j => delta j - ∑ k, M.X1 j k * M.linearParameters covariances W phi delta costs (.inl k)

/-- `omega`, pyblp/economies/problem.py:1492-1501. -/
def omega (covariances : Matrix (b ⊕ g) (b ⊕ g) ℝ) (W : Matrix (MomentIndex m) (MomentIndex m) ℝ)
    (phi : Fin 2 → Fin 2 → ℝ) (delta costs : Fin N → ℝ) : Fin N → ℝ :=
  match levelsIndex M.supply with
  | some i => M.residuals covariances W phi delta costs (.inr i)
  | none => fun j => costs j - ∑ k, M.X3 j k * M.linearParameters covariances W phi delta costs (.inr k)

/-- `convert_jacobians`, pyblp/economies/problem.py:1378. There is no column to convert without parameters. -/
def converts (_ : MomentData N nd ns m q b g) : Bool := decide (0 < Fintype.card q)

/-- One column of `jacobian_list` from `IV.estimate`, pyblp/economies/problem.py:1427-1433, 1453-1459 and 1470-1477, given the Jacobians
of `delta` and transformed costs. -/
def jacobians (covariances : Matrix (b ⊕ g) (b ⊕ g) ℝ) (W : Matrix (MomentIndex m) (MomentIndex m) ℝ)
    (phi : Fin 2 → Fin 2 → ℝ) (delta' costs' : Fin N → ℝ) : Fin nd ⊕ Fin ns → Fin N → ℝ :=
  if M.converts then ivJacobian covariances (M.regressors phi) M.Z W (M.equations phi delta' costs')
  else M.equations phi delta' costs'

/-- One column of `xi_jacobian` after pyblp/economies/problem.py:1483-1489, which is reported as `xi_by_theta_jacobian`. -/
def xiJacobian (covariances : Matrix (b ⊕ g) (b ⊕ g) ℝ) (W : Matrix (MomentIndex m) (MomentIndex m) ℝ)
    (phi : Fin 2 → Fin 2 → ℝ) (delta' costs' : Fin N → ℝ) : Fin N → ℝ :=
  match levelsIndex M.demand with
  | some i => M.jacobians covariances W phi delta' costs' (.inl i)
  | none => delta'

/-- One column of `omega_jacobian` after pyblp/economies/problem.py:1492-1501, which is reported as `omega_by_theta_jacobian`. -/
def omegaJacobian (covariances : Matrix (b ⊕ g) (b ⊕ g) ℝ) (W : Matrix (MomentIndex m) (MomentIndex m) ℝ)
    (phi : Fin 2 → Fin 2 → ℝ) (delta' costs' : Fin N → ℝ) : Fin N → ℝ :=
  match levelsIndex M.supply with
  | some i => M.jacobians covariances W phi delta' costs' (.inr i)
  | none => costs'

/-- What is added to a column of `jacobian_list` when its parameter is an element of `phi`, pyblp/economies/problem.py:1504-1516 and
pyblp/results/problem_results.py:685-696. -/
def phiContribution (location : Option (Fin 2 × Fin 2)) (xi omega : Fin N → ℝ) : Fin nd ⊕ Fin ns → Fin N → ℝ :=
  fun e => match location with
    | none => 0
    | some l =>
      let u := if l.2 = 0 then xi else omega
      match e with
      | .inl e => if l.1 = 0 then
          match M.demand e with
          | .levels => 0
          | .difference t => computeDifferenceDerivative M.lag t u
        else 0
      | .inr e => if l.1 = 0 then 0 else
          match M.supply e with
          | .levels => 0
          | .difference t => computeDifferenceDerivative M.lag t u

/-- Averaged moments: `mean_g`, pyblp/economies/problem.py:1519-1525. Those of covariance restrictions are after other aggregate
moments, and micro moments are last. -/
noncomputable def meanMoments (u : Fin nd ⊕ Fin ns → Fin N → ℝ) (xi omega : Fin N → ℝ) (mean : ℝ) (micro : d → ℝ) :
    (MomentIndex m ⊕ q) ⊕ d → ℝ :=
  concat (concat (gmmMomentsMean u M.Z) (gmmMomentsMean (ε := Unit) (m := fun _ => q) (fun _ i => xi i * omega i - mean)
    (fun _ => M.ZC) ⟨(), ·⟩)) micro

/-! ### The gradient -/

/-- A column of `mean_G` for the gradient, pyblp/economies/problem.py:1503-1522 and 1537. `analytic` is `compute_jacobians`, which is
false with `finite_differences`. -/
noncomputable def progressJacobian (analytic : Bool) (covariances : Matrix (b ⊕ g) (b ⊕ g) ℝ)
    (W : Matrix (MomentIndex m) (MomentIndex m) ℝ) (phi : Fin 2 → Fin 2 → ℝ) (delta costs delta' costs' : Fin N → ℝ)
    (location : Option (Fin 2 × Fin 2)) (micro' : d → ℝ) : (MomentIndex m ⊕ q) ⊕ d → ℝ :=
  let xi := M.xi covariances W phi delta costs
  let omega := M.omega covariances W phi delta costs
  let xi' := M.xiJacobian covariances W phi delta' costs'
  let omega' := M.omegaJacobian covariances W phi delta' costs'
  let jacobian := fun e i => M.jacobians covariances W phi delta' costs' e i +
    if analytic then M.phiContribution location xi omega e i else 0
  concat (concat (gmmMomentsJacobianMean jacobian M.Z)
    (gmmMomentsJacobianMean (ε := Unit) (m := fun _ => q) (fun _ i => xi' i * omega i + xi i * omega' i) (fun _ => M.ZC) ⟨(), ·⟩)) micro'

/-- The objective, pyblp/economies/problem.py:1463-1528. -/
noncomputable def objective (scale : Bool) (covariances : Matrix (b ⊕ g) (b ⊕ g) ℝ)
    (W : Matrix ((MomentIndex m ⊕ q) ⊕ d) ((MomentIndex m ⊕ q) ⊕ d) ℝ) (phi : Fin 2 → Fin 2 → ℝ) (delta costs : Fin N → ℝ) (mean : ℝ)
    (micro : d → ℝ) : ℝ :=
  let ivW := ivWeights (ivWeights W)
  gmmObjective N scale W (M.meanMoments (M.residuals covariances ivW phi delta costs) (M.xi covariances ivW phi delta costs)
    (M.omega covariances ivW phi delta costs) mean micro)

/-- An element of the gradient, pyblp/economies/problem.py:1463-1540. -/
noncomputable def gradient (analytic scale : Bool) (covariances : Matrix (b ⊕ g) (b ⊕ g) ℝ)
    (W : Matrix ((MomentIndex m ⊕ q) ⊕ d) ((MomentIndex m ⊕ q) ⊕ d) ℝ) (phi : Fin 2 → Fin 2 → ℝ)
    (delta costs delta' costs' : Fin N → ℝ) (mean : ℝ) (location : Option (Fin 2 × Fin 2)) (micro micro' : d → ℝ) : ℝ :=
  let ivW := ivWeights (ivWeights W)
  gmmGradient N scale W (M.meanMoments (M.residuals covariances ivW phi delta costs) (M.xi covariances ivW phi delta costs)
    (M.omega covariances ivW phi delta costs) mean micro)
    (M.progressJacobian analytic covariances ivW phi delta costs delta' costs' location micro')

/-- The element of the gradient for parameter `p` with `finite_differences`, pyblp/economies/problem.py:1321-1366: Jacobians are
differences of mean utilities, micro moments and costs. -/
noncomputable def differencedGradient [DecidableEq θ] (scale : Bool) (C : Matrix (b ⊕ g) (b ⊕ g) ℝ)
    (W : Matrix ((MomentIndex m ⊕ q) ⊕ d) ((MomentIndex m ⊕ q) ⊕ d) ℝ) (phi : Fin 2 → Fin 2 → ℝ) (delta costs : (θ → ℝ) → Fin N → ℝ)
    (mean : ℝ) (micro : (θ → ℝ) → d → ℝ) (location : θ → Option (Fin 2 × Fin 2)) (theta : θ → ℝ) (epsilon : ℝ) (p : θ) : ℝ :=
  M.gradient false scale C W phi (delta theta) (costs theta) (fun i => computeFiniteDifferences delta theta epsilon i p)
    (fun i => computeFiniteDifferences costs theta epsilon i p) mean (location p) (micro theta)
    (fun c => computeFiniteDifferences micro theta epsilon c p)

/-! ### The reported Jacobian of moments -/

/-- `xi_jacobian` supplemented with columns for eliminated parameters, pyblp/results/problem_results.py:646-650. -/
def reportedXi (xiByTheta : Matrix (Fin N) θ ℝ) : θ ⊕ b ⊕ g → Fin N → ℝ
  | .inl p => fun i => xiByTheta i p
  | .inr (.inl k) => fun i => -M.X1 i k
  | .inr (.inr _) => fun _ => 0

/-- `omega_jacobian` supplemented with columns for eliminated parameters, pyblp/results/problem_results.py:651-655. -/
def reportedOmega (omegaByTheta : Matrix (Fin N) θ ℝ) : θ ⊕ b ⊕ g → Fin N → ℝ
  | .inl p => fun i => omegaByTheta i p
  | .inr (.inl _) => fun _ => 0
  | .inr (.inr k) => fun i => -M.X3 i k

/-- The Jacobian of covariance moments, pyblp/results/problem_results.py:678-682. -/
def reportedCovariance (xiByTheta omegaByTheta : Matrix (Fin N) θ ℝ) (xi omega : Fin N → ℝ) : θ ⊕ b ⊕ g → Fin N → ℝ
  | .inl p => fun i => xiByTheta i p * omega i + xi i * omegaByTheta i p
  | .inr (.inl k) => fun i => -M.X1 i k * omega i
  | .inr (.inr k) => fun i => xi i * -M.X3 i k

/-- `_compute_mean_G`, pyblp/results/problem_results.py:628-707. -/
noncomputable def meanG (phi : Fin 2 → Fin 2 → ℝ) (xiByTheta omegaByTheta : Matrix (Fin N) θ ℝ) (xi omega : Fin N → ℝ)
    (location : θ → Option (Fin 2 × Fin 2)) (microByTheta : Matrix d θ ℝ) : Matrix ((MomentIndex m ⊕ q) ⊕ d) (θ ⊕ b ⊕ g) ℝ :=
  Matrix.of fun r p =>
    let jacobian := fun e i => M.equations phi (M.reportedXi xiByTheta p) (M.reportedOmega omegaByTheta p) e i +
      M.phiContribution (p.elim location fun _ => none) xi omega e i
    concat (concat (gmmMomentsJacobianMean jacobian M.Z)
      (gmmMomentsJacobianMean (ε := Unit) (m := fun _ => q) (fun _ => M.reportedCovariance xiByTheta omegaByTheta xi omega p)
        (fun _ => M.ZC) ⟨(), ·⟩)) (fun c => p.elim (fun p => microByTheta c p) fun _ => 0) r

/-- `moments_jacobian` of results, pyblp/results/problem_results.py:498-560: Jacobians of the structural errors are those stored by the
last evaluation of the objective, at which `compute_gradient` is true whenever there are parameters, pyblp/economies/problem.py:921. -/
noncomputable def momentsJacobian (covariances : Matrix (b ⊕ g) (b ⊕ g) ℝ) (W : Matrix (MomentIndex m) (MomentIndex m) ℝ)
    (phi : Fin 2 → Fin 2 → ℝ) (delta costs : Fin N → ℝ) (delta' costs' : Matrix (Fin N) θ ℝ) (location : θ → Option (Fin 2 × Fin 2))
    (microByTheta : Matrix d θ ℝ) : Matrix ((MomentIndex m ⊕ q) ⊕ d) (θ ⊕ b ⊕ g) ℝ :=
  M.meanG phi (Matrix.of fun i p => M.xiJacobian covariances W phi (delta'.col p) (costs'.col p) i)
    (Matrix.of fun i p => M.omegaJacobian covariances W phi (delta'.col p) (costs'.col p) i) (M.xi covariances W phi delta costs)
    (M.omega covariances W phi delta costs) location microByTheta

end MomentData

end Pyblp
