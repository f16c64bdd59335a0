import Verif.Model.Parameters

/-!
# Parametric bootstrap (`results/problem_results.py`)

Draws from the multivariate normal distribution are arbitrary vectors.
-/

namespace Pyblp

open Classical

/-- `np.clip`: NaNs stay NaNs. Used for pyblp/results/problem_results.py:1205-1234. -/
noncomputable def clipFl (bounds : EReal × EReal) (x : Fl) : Fl := x.map fun y => min (max y bounds.1) bounds.2

/-- `self.parameters`, pyblp/results/problem_results.py:502-506: the mean of the draws. -/
noncomputable def parameterVector (p : Parameters) (theta : List Fl) (beta gamma : ℕ → Fl) : List Fl :=
  theta ++ (eliminatedRows (p.mats .beta)).map beta ++ (eliminatedRows (p.mats .gamma)).map gamma

/-- Expanding one draw, pyblp/results/problem_results.py:1205-1228: matrices start with zeros, elements of `beta` and `gamma` that are
concentrated out are filled in row order, and all others are from `expand`. -/
noncomputable def expandDraw (p : Parameters) (draw : List Fl) : Block → ℕ → ℕ → Fl :=
  let P := p.stored.unfixed.length
  let nb := (eliminatedRows (p.mats .beta)).length
  let theta := draw.take P
  let drawBeta := (draw.drop P).take nb
  let drawGamma := draw.drop (P + nb)
  let expanded := expand p theta false
  fun
  | .beta, i, j =>
    if (p.mats .beta).entry i j = none then fillMask (fun _ => some 0) (eliminatedRows (p.mats .beta)) drawBeta i else expanded .beta i j
  | .gamma, i, j =>
    if (p.mats .gamma).entry i j = none then fillMask (fun _ => some 0) (eliminatedRows (p.mats .gamma)) drawGamma i
    else expanded .gamma i j
  | b, i, j => expanded b i j

/-- One bootstrapped set of parameters, pyblp/results/problem_results.py:1205-1234. -/
noncomputable def bootstrapDraw (p : Parameters) (draw : List Fl) : Block → ℕ → ℕ → Fl :=
  fun b i j => clipFl (p.bounds b i j) (expandDraw p draw b i j)

/-- `self.delta + true_X1 @ (bootstrapped_beta[c] - self.beta)`, pyblp/results/problem_results.py:1259, and the linear index of
marginal costs, pyblp/results/problem_results.py:1261. -/
def shiftIndex (K : ℕ) (X : ℕ → ℕ → ℝ) (index : ℕ → ℝ) (estimated drawn : ℕ → ℝ) (j : ℕ) : ℝ :=
  index j + ((List.range K).map fun k => X j k * (drawn k - estimated k)).sum

end Pyblp
