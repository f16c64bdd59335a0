import Mathlib.Data.Real.Basic
import Verif.Model.FloatProbabilities

/-!
# Summary of simulation results

`results/simulation_results.py` (`__init__`, `__str__`) and the part of `economies/simulation.py` (`replace_endogenous`) that collects what
the summary reports. Numbers can be infinite or NaN.
-/

namespace Pyblp

open Classical

/-- `np.isfinite(x)`. Used for pyblp/results/simulation_results.py:223 and 234. -/
def Flo.Finite : Flo → Prop
  | .fin _ => True
  | _ => False

/-- `x < y`, false when either is NaN. Used for pyblp/results/simulation_results.py:224-236. -/
def Flo.Less : Flo → Flo → Prop
  | .fin x, .fin y => x < y
  | .ninf, .fin _ => True
  | .ninf, .pinf => True
  | .fin _, .pinf => True
  | _, _ => False

/-- `abs(x)`. Used for pyblp/economies/simulation.py:824. -/
def Flo.absolute : Flo → Flo
  | .nan => .nan
  | .pinf => .pinf
  | .ninf => .pinf
  | .fin x => .fin |x|

/-- Python's `max(x, y)`: the first one unless the second one is larger. Used for pyblp/results/simulation_results.py:224 and 236. -/
noncomputable def pythonMax (x y : Flo) : Flo := if x.Less y then y else x

/-- Python's `min(x, y)`: the first one unless the second one is smaller. Used for pyblp/results/simulation_results.py:235. -/
noncomputable def pythonMin (x y : Flo) : Flo := if y.Less x then y else x

/-- NumPy's maximum of two numbers, which is NaN if one is. Used for pyblp/economies/simulation.py:824. -/
noncomputable def numpyMax : Flo → Flo → Flo
  | .nan, _ => .nan
  | _, .nan => .nan
  | x, y => if x.Less y then y else x

/-- NumPy's minimum of two numbers, which is NaN if one is. Used for pyblp/results/simulation_results.py:235. -/
noncomputable def numpyMin : Flo → Flo → Flo
  | .nan, _ => .nan
  | _, .nan => .nan
  | x, y => if y.Less x then y else x

/-- `x.max()`, pyblp/results/simulation_results.py:236 and pyblp/economies/simulation.py:824. The code never takes it of an empty array. -/
noncomputable def arrayMax : List Flo → Flo
  | [] => .nan
  | x :: xs => xs.foldl numpyMax x

/-- `x.min()`, pyblp/results/simulation_results.py:235. The code never takes it of an empty array. -/
noncomputable def arrayMin : List Flo → Flo
  | [] => .nan
  | x :: xs => xs.foldl numpyMin x

/-- Norm of one firm's profit gradient, pyblp/economies/simulation.py:820-824. -/
noncomputable def floatGradientNorm (gradient : List Flo) : Flo :=
  if gradient = [] then .nan else arrayMax (gradient.map Flo.absolute)

/-- What the routine for eigenvalues of one firm's profit Hessian does: it gives eigenvalues, or fails for a matrix with some number of
rows. Used for pyblp/utilities/algebra.py:91-102. -/
inductive EigenOutcome where
  | success (values : List ℝ)
  | failure (rows : ℕ)

/-- The array of eigenvalues, pyblp/utilities/algebra.py:96 and 99. -/
def EigenOutcome.values : EigenOutcome → List Flo
  | .success values => values.map Flo.fin
  | .failure rows => List.replicate rows .nan

/-- Whether there is an error to report, pyblp/utilities/algebra.py:97 and 100. -/
def EigenOutcome.failed : EigenOutcome → Bool
  | .success _ => false
  | .failure _ => true

/-- How the iteration ended in one market, pyblp/results/simulation_results.py:187-198. -/
structure MarketStats where
  converged : Bool
  iterations : ℕ
  evaluations : ℕ

/-- What the summary has about the iteration, pyblp/results/simulation_results.py:187-198 and 205-217: failures, iterations and
evaluations. Time is not modelled. -/
def summaryCounts {T : Type} (markets : List T) (stats : T → MarketStats) : ℕ × ℕ × ℕ :=
  (((markets.map fun t => (stats t).converged).filter fun c => !c).length,
    (markets.map fun t => (stats t).iterations).sum,
    (markets.map fun t => (stats t).evaluations).sum)

/-- `Max Norm` of profit gradients, pyblp/results/simulation_results.py:219-227. Dictionaries of markets and of their firms are lists of
their values. -/
noncomputable def summaryMaxNorm (norms : List (List Flo)) : Flo :=
  norms.foldl (fun m market => market.foldl (fun m x => if x.Finite then pythonMax m x else m) m) .ninf

/-- `Min Eigenvalue` of profit Hessians, pyblp/results/simulation_results.py:229-239. -/
noncomputable def summaryMinEigenvalue (eigenvalues : List (List (List Flo))) : Flo :=
  eigenvalues.foldl (fun m market =>
    market.foldl (fun m x => if ∃ e ∈ x, e.Finite then pythonMin m (arrayMin x) else m) m) .pinf

/-- `Max Eigenvalue` of profit Hessians, pyblp/results/simulation_results.py:229-239. -/
noncomputable def summaryMaxEigenvalue (eigenvalues : List (List (List Flo))) : Flo :=
  eigenvalues.foldl (fun m market =>
    market.foldl (fun m x => if ∃ e ∈ x, e.Finite then pythonMax m (arrayMax x) else m) m) .ninf

/-- Norms of profit gradients by market and firm, pyblp/economies/simulation.py:815-824. -/
noncomputable def collectNorms (gradients : List (List (List Flo))) : List (List Flo) := gradients.map fun market => market.map floatGradientNorm

/-- Eigenvalues by market and firm, pyblp/economies/simulation.py:827-833. -/
def collectEigenvalues (outcomes : List (List EigenOutcome)) : List (List (List Flo)) :=
  outcomes.map fun market => market.map EigenOutcome.values

/-- How many errors about eigenvalues there are, pyblp/economies/simulation.py:834-835. -/
def eigenvalueErrors (outcomes : List (List EigenOutcome)) : ℕ := (outcomes.flatten.filter EigenOutcome.failed).length

end Pyblp
