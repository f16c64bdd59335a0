import Mathlib.Data.Real.Basic
import Mathlib.Algebra.BigOperators.Group.Finset.Basic
import Mathlib.LinearAlgebra.Matrix.NonsingularInverse

/-!
# Optimal instruments

`ProblemResults.compute_optimal_instruments` and `_compute_realizations`, pyblp/results/problem_results.py:1311-1655. Products are a
finite type `N` and parameters a finite type `P`. What is computed for a realization of the errors is a parameter.
-/

set_option linter.unusedSectionVars false

namespace Pyblp

open Finset

section optimalInstruments

variable {N P : Type} [Fintype N] [Fintype P]

/-- `np.mean`. Used for pyblp/results/problem_results.py:1443-1445 and 1519-1522. -/
noncomputable def npMean (x : N → ℝ) : ℝ := (∑ i, x i) / Fintype.card N

/-- `np.var`. Its default is to divide by the number of values. Used for pyblp/results/problem_results.py:1443-1445 and 1519-1522. -/
noncomputable def npVar (x : N → ℝ) : ℝ := (∑ i, (x i - npMean x) ^ 2) / Fintype.card N

/-- An element of `np.cov`. Its default is to divide by the number of values minus one. Used for pyblp/results/problem_results.py:1447. -/
noncomputable def npCov (x y : N → ℝ) : ℝ := (∑ i, (x i - npMean x) * (y i - npMean y)) / (Fintype.card N - 1)

/-- `state.normal(loc, scale, N)` of NumPy from standard normal draws: the second argument is the standard deviation.
Used for pyblp/results/problem_results.py:1443-1445. -/
noncomputable def stateNormal (loc scale : ℝ) (e : N → ℝ) : N → ℝ := fun i => loc + scale * e i

/-- `sample` for the normal method without a supply side, pyblp/results/problem_results.py:1443-1445. -/
noncomputable def sampleNormalDemand (xi e : N → ℝ) : N → ℝ := stateNormal 0 (npVar xi) e

/-- `np.cov(self.xi, self.omega, rowvar=False)`, pyblp/results/problem_results.py:1447. -/
noncomputable def errorCovariance (xi omega : N → ℝ) : Matrix (Fin 2) (Fin 2) ℝ :=
  fun a b => npCov (if a = 0 then xi else omega) (if b = 0 then xi else omega)

/-- `state.multivariate_normal([0, 0], covariance, N)` of NumPy from independent standard normal draws. `root` is what NumPy computes
from the singular value decomposition of the covariance matrix, pyblp/results/problem_results.py:1448. -/
noncomputable def stateMultivariateNormal (root : Matrix (Fin 2) (Fin 2) ℝ) (e : N → Fin 2 → ℝ) : N → Fin 2 → ℝ :=
  fun i a => 0 + ∑ k, e i k * root k a

/-- `sample` for the empirical method, pyblp/results/problem_results.py:1449-1454. `choice` is `state.choice(N, N)`. -/
def sampleEmpirical (xi omega : N → ℝ) (choice : N → N) : (N → ℝ) × (N → ℝ) := (fun i => xi (choice i), fun i => omega (choice i))

/-- `delta` of a realization before prices change, pyblp/results/problem_results.py:1566. -/
def realizationDelta (delta xi draw : N → ℝ) : N → ℝ := fun i => delta i - xi i + draw i

/-- `costs` of a realization, pyblp/results/problem_results.py:1567-1569. `log` says whether costs are log-linear, and `exp` is
`np.exp`. -/
def realizationCosts (log : Bool) (exp : ℝ → ℝ) (tildeCosts omega draw : N → ℝ) : N → ℝ :=
  fun i => if log then exp (tildeCosts i - omega i + draw i) else tildeCosts i - omega i + draw i

/-- Averages over realizations, pyblp/results/problem_results.py:1489-1509: the sum of realizations that are each divided by the number
of draws. -/
noncomputable def averageRealizations {α : Type} (draws : ℕ) (realization : ℕ → α → ℝ) : α → ℝ :=
  (List.range draws).foldl (fun total d => fun a => total a + realization d a / draws) fun _ => 0

/-- `demand_instruments` without a supply side, pyblp/results/problem_results.py:1519-1522. -/
noncomputable def demandInstruments (xi : N → ℝ) (jacobian : N → P → ℝ) : N → P → ℝ := fun i p => 1 / npVar xi * jacobian i p

/-- `instruments` with a supply side, pyblp/results/problem_results.py:1524-1526. `inverse` is what `scipy.linalg.inv` returns. The
second axis is demand, then supply. -/
noncomputable def jointInstruments (inverse : Matrix (Fin 2) (Fin 2) ℝ) (xiJacobian omegaJacobian : N → P → ℝ) : N → Fin 2 → P → ℝ :=
  fun i a p => ∑ b, inverse a b * (if b = 0 then xiJacobian i p else omegaJacobian i p)

/-- `instruments.reshape((N, -1))`, pyblp/results/problem_results.py:1527: column `c` of the result with `P` parameters is the entry of
axis `c / P` and parameter `c % P`. -/
def reshapeInstruments {n : ℕ} (instruments : N → Fin 2 → Fin n → ℝ) (i : N) (c : ℕ) : ℝ :=
  if h : 0 < n ∧ c < 2 * n then
    instruments i ⟨c / n, by rw [Nat.div_lt_iff_lt_mul h.1]; exact h.2⟩ ⟨c % n, Nat.mod_lt _ h.1⟩
  else 0

/-- `np.split(..., 2, axis=1)`, pyblp/results/problem_results.py:1527. -/
def splitInstruments {n : ℕ} (instruments : N → Fin 2 → Fin n → ℝ) : (N → Fin n → ℝ) × (N → Fin n → ℝ) :=
  (fun i p => reshapeInstruments instruments i p, fun i p => reshapeInstruments instruments i (n + p))

/-- Expected prices by default without a supply side, pyblp/results/problem_results.py:1479-1487: fitted values of a regression of
prices with fixed effects absorbed on instruments, plus what was absorbed. `parameters` is what `approximately_solve` returns. -/
noncomputable def expectedPrices {Z : Type} [Fintype Z] (ZD : N → Z → ℝ) (parameters : Z → ℝ) (prices absorbed : N → ℝ) : N → ℝ :=
  fun i => ∑ z, ZD i z * parameters z + prices i - absorbed i

/-- Columns of instruments that `to_problem` drops, pyblp/results/optimal_instrument_results.py:351-363: given indices of columns, or by
default those of linear parameters on characteristics formulated without prices and shares. A negative index counts from the end. -/
def droppedColumns (n : ℕ) (dropIndices : Option (List ℤ)) (isLinear : ℕ → Bool) (names : ℕ → List String) :
    Option (List Bool) :=
  match dropIndices with
  | some l =>
    l.foldl (fun acc (i : ℤ) => acc.bind fun dropped =>
      if 0 ≤ i ∧ i < n then some (dropped.set i.toNat true)
      else if i < 0 ∧ 0 ≤ i + n then some (dropped.set (i + n).toNat true) else none) (some (List.replicate n false))
  | none => some ((List.range n).map fun p => isLinear p && !(names p).contains "prices" && !(names p).contains "shares")

end optimalInstruments

end Pyblp
