import Verif.Model.Sequences

/-!
# Nodes and weights from Halton sequences and Latin Hypercube Sampling (`configurations/integration.py`)
-/

namespace Pyblp

/-- A row of `nodes` of `halton`, pyblp/configurations/integration.py:206-223. `ppf` is the quantile function of the standard normal distribution, and
`permutations j` has the permutations that were drawn for dimension `j`. -/
noncomputable def haltonNode {d : ℕ} (ppf : ℝ → ℝ) (base : Fin d → ℕ) (permutations : Fin d → ℕ → ℕ → ℕ) (index : ℕ) : Fin d → ℝ :=
  fun j => ppf (haltonValue (base j) (permutations j) index)

/-- A row of `nodes` of `lhs`, pyblp/configurations/integration.py:249-255. -/
noncomputable def lhsNode {d size : ℕ} (ppf : ℝ → ℝ) (permutations : Fin d → Fin size → Fin size) (uniform : Fin d → Fin size → ℝ) (i : Fin size) : Fin d → ℝ :=
  fun j => ppf (lhsSamples (permutations j) (uniform j) i)

/-- `weights` of `halton` and `lhs`, pyblp/configurations/integration.py:224 and 256. -/
noncomputable def equalWeight (size : ℕ) : ℝ := 1 / size

end Pyblp
