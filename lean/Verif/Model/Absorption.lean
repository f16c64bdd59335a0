import Verif.Model.Statistics

/-!
# Absorbed fixed effects (`configurations/formulation.py`, `economies/problem.py`)

PyHDFE is not modelled: `residualize` is a parameter `R`, a function of one column, whose contract is stated where it is used.
`AbsorptionError` is not modelled: absorption succeeds. Equations `ε` are demand and supply, which have their own fixed effects; an
equation without absorbed IDs has `R e = id`.
-/

namespace Pyblp

open Matrix

variable {ε n κ : Type} {m : ε → Type} [DecidableEq ε] [Fintype n]

/-- `Absorb.__call__`, pyblp/configurations/formulation.py:288-295, when PyHDFE raises no exception: each column is residualized. -/
def absorbed (R : (n → ℝ) → n → ℝ) (M : Matrix n κ ℝ) : Matrix n κ ℝ := fun i c => R (fun j => M j c) i

/-- `products.ZD` and `products.ZS` of an initialized problem, pyblp/economies/problem.py:2094-2096 and 2103-2105: instruments are
only residualized if exogenous characteristics were added to them. -/
def absorbedInstruments (addExogenous : Bool) (R : (n → ℝ) → n → ℝ) (Z : Matrix n κ ℝ) : Matrix n κ ℝ :=
  if addExogenous then absorbed R Z else Z

/-- The inverse of the default weighting matrix, pyblp/economies/problem.py:756-760: `block_diag` of `Z.T @ Z / N`. -/
noncomputable def defaultWeightsInverse (Z : (e : ε) → Matrix n (m e) ℝ) : Matrix (MomentIndex m) (MomentIndex m) ℝ :=
  fun a b => if a.1 = b.1 then (∑ i, Z a.1 i a.2 * Z b.1 i b.2) / (Fintype.card n : ℝ) else 0

section Progress

variable {k : Type} [Fintype ε] [Fintype k] [∀ e, Fintype (m e)]

/-- Linear parameters of a problem with absorbed fixed effects, pyblp/economies/problem.py:1383-1392, 1395 and 1463-1476: `X1` and `X3`
were residualized when the problem was initialized (problem.py:2091-2106), and `delta` and transformed costs are for every guess. -/
def absorbedParameters (R : ε → (n → ℝ) → n → ℝ) (addExogenous : Bool) (C : Matrix k k ℝ) (X : ε → Matrix n k ℝ)
    (Z : (e : ε) → Matrix n (m e) ℝ) (W : Matrix (MomentIndex m) (MomentIndex m) ℝ) (y : ε → n → ℝ) : k → ℝ :=
  ivParameters C (fun e => absorbed (R e) (X e)) (fun e => absorbedInstruments addExogenous (R e) (Z e)) W fun e => R e (y e)

/-- Structural errors of a problem with absorbed fixed effects; see `absorbedParameters`.
Used for pyblp/economies/problem.py:1383-1392, 1395 and 1463-1476. -/
def absorbedResiduals (R : ε → (n → ℝ) → n → ℝ) (addExogenous : Bool) (C : Matrix k k ℝ) (X : ε → Matrix n k ℝ)
    (Z : (e : ε) → Matrix n (m e) ℝ) (W : Matrix (MomentIndex m) (MomentIndex m) ℝ) (y : ε → n → ℝ) : ε → n → ℝ :=
  ivResiduals C (fun e => absorbed (R e) (X e)) (fun e => absorbedInstruments addExogenous (R e) (Z e)) W fun e => R e (y e)

/-- The objective of a problem with absorbed fixed effects; see `absorbedParameters` and `progressObjective`.
Used for pyblp/economies/problem.py:1463-1476 and 1525. -/
noncomputable def absorbedObjective {N : ℕ} {d : Type} [Fintype d] (R : ε → (Fin N → ℝ) → Fin N → ℝ) (addExogenous scale : Bool)
    (C : Matrix k k ℝ) (X : ε → Matrix (Fin N) k ℝ) (Z : (e : ε) → Matrix (Fin N) (m e) ℝ)
    (W : Matrix (MomentIndex m ⊕ d) (MomentIndex m ⊕ d) ℝ) (y : ε → Fin N → ℝ) (micro : d → ℝ) : ℝ :=
  progressObjective scale C (fun e => absorbed (R e) (X e)) (fun e => absorbedInstruments addExogenous (R e) (Z e)) W
    (fun e => R e (y e)) micro

/-- An element of the gradient of a problem with absorbed fixed effects and without covariance moments,
pyblp/economies/problem.py:1379-1392 and 1537-1540: Jacobians of `delta` and transformed costs are not residualized. -/
noncomputable def absorbedGradient {N : ℕ} {d : Type} [Fintype d] (R : ε → (Fin N → ℝ) → Fin N → ℝ) (addExogenous scale : Bool)
    (C : Matrix k k ℝ) (X : ε → Matrix (Fin N) k ℝ) (Z : (e : ε) → Matrix (Fin N) (m e) ℝ)
    (W : Matrix (MomentIndex m ⊕ d) (MomentIndex m ⊕ d) ℝ) (y yJacobian : ε → Fin N → ℝ) (micro microJacobian : d → ℝ) : ℝ :=
  progressGradient scale C (fun e => absorbed (R e) (X e)) (fun e => absorbedInstruments addExogenous (R e) (Z e)) W
    (fun e => R e (y e)) yJacobian micro microJacobian

end Progress

end Pyblp
