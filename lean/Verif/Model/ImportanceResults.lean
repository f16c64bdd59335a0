import Verif.Model.Sampling

/-!
# Importance sampling results

`ProblemResults.importance_sampling`, pyblp/results/problem_results.py:1720-1774, `ImportanceSamplingResults.__init__`,
pyblp/results/importance_sampling_results.py:68-91, and `ImportanceSamplingProblem.__init__`, pyblp/economies/problem.py:2186-2213.
-/

namespace Pyblp

variable {ι σ D P : Type} [LinearOrder ι]

/-- A row of the record array of agents: its market, its weight (`none` is NaN), and everything else. Used for
pyblp/results/problem_results.py:1720-1774. -/
structure SamplingAgent (ι D : Type) where
  market : ι
  weight : Option ℝ
  data : D

/-- `ImportanceSamplingResults`, pyblp/results/importance_sampling_results.py:57-65, without the problem and the time. -/
structure ImportanceResults (ι D : Type) where
  sampled : List (SamplingAgent ι D)
  draws : ℤ
  marketIds : List ι
  weightSums : List ℝ
  effective : List ℝ
  forVariance : List ℝ
  forSkewness : List ℝ

/-- `argsort` of arrays of every size. Used for pyblp/results/importance_sampling_results.py:83 and 77-91. -/
abbrev Argsort (ι : Type) := (n : ℕ) → (Fin n → ι) → List (Fin n)

noncomputable section

open Classical

/-- The weight of a row as a number. Sampled rows have one. Used for pyblp/results/importance_sampling_results.py:85-91. -/
def SamplingAgent.value (a : SamplingAgent ι D) : ℝ := a.weight.getD 0

/-- `inside_share_t`, pyblp/results/problem_results.py:1813: the sum of observed shares of a market's products. -/
def observedInside (products : List (ι × ℝ)) (t : ι) : ℝ := ((products.filter fun p => decide (p.1 = t)).map Prod.snd).sum

/-- What is computed for a market, pyblp/results/problem_results.py:1789-1814: its inside share and the inside probabilities of
candidate agents. `prob t d` lists choice probabilities of products in market `t` for an agent with data `d`; weights of agents do
not enter. -/
def importanceItem (agents : List (SamplingAgent ι D)) (prob : ι → D → List ℝ) (products : List (ι × ℝ)) (t : ι) :
    ℝ × List ℝ :=
  (observedInside products t,
    (indicesOf (fun i : Fin agents.length => (agents.get i).market) t).map fun i => (prob t (agents.get i).data).sum)

/-- `update_matrices` with new weights and the selection of rows with positive ones, pyblp/results/problem_results.py:1764-1766. -/
def keepSampled (agents : List (SamplingAgent ι D)) (weights : Fin agents.length → ℝ) : List (SamplingAgent ι D) :=
  ((List.finRange agents.length).map fun i => { agents.get i with weight := some (weights i) }).filter
    fun a => decide (0 < a.value)

/-- `ImportanceSamplingResults.__init__`, pyblp/results/importance_sampling_results.py:77-91. -/
def importanceResults (argsort : Argsort ι) (sampled : List (SamplingAgent ι D)) (draws : ℤ) : ImportanceResults ι D :=
  let ids := fun i : Fin sampled.length => (sampled.get i).market
  let groups := Groups.mk' ids (argsort sampled.length ids)
  let weights := fun i : Fin sampled.length => (sampled.get i).value
  let weightSums := groups.sum weights
  let squared := groups.sum fun i => weights i ^ 2
  { sampled := sampled
    draws := draws
    marketIds := groups.unique
    weightSums := weightSums
    effective := List.zipWith (fun a b => a ^ 2 / b) weightSums squared
    forVariance := List.zipWith (fun a b => a ^ 2 / b) squared (groups.sum fun i => weights i ^ 4)
    forSkewness := List.zipWith (fun a b => a ^ 3 / b ^ 2) squared (groups.sum fun i => weights i ^ 3) }

/-- `ProblemResults.importance_sampling`, pyblp/results/problem_results.py:1720-1774. `agents` are those of the problem or what
constructing new ones results in (lines 1743-1751), `delta` is the argument and `estimated` the estimate, and markets finish in the
given `order`. `prob` depends on the mean utilities that are used. Errors in probabilities and types of arguments are not modelled. -/
def importanceSampling (g : Generator σ) (seed : σ) (argsort : Argsort ι) (K2 N : ℕ) (draws : ℤ) (arConstant : ℝ)
    (estimated : List ℝ) (delta : Option (List ℝ)) (agents : Except PyErr (List (SamplingAgent ι D)))
    (prob : List ℝ → ι → D → List ℝ) (products : List (ι × ℝ)) (order : List ι) : Except PyErr (ImportanceResults ι D) :=
  if K2 = 0 then .error .valueError
  else if draws < 1 then .error .valueError
  else if arConstant < 1 then .error .valueError
  else if (delta.any fun d => decide (d.length ≠ N)) = true then .error .valueError
  else
    match agents with
    | .error e => .error e
    | .ok rows =>
      (importanceWeights g seed draws.toNat arConstant (fun i : Fin rows.length => (rows.get i).market)
        (order.map fun t => (t, importanceItem rows (prob (delta.getD estimated)) products t))).map
        fun weights => importanceResults argsort (keepSampled rows weights) draws

/-- What is passed to `ProblemEconomy.__init__`: everything but agents is one field. Used for pyblp/economies/problem.py:2186-2213. -/
structure SamplingProblem (ι D P : Type) where
  other : P
  agents : List (SamplingAgent ι D)

/-- `ImportanceSamplingResults.to_problem`, pyblp/results/importance_sampling_results.py:162-180, and
`ImportanceSamplingProblem.__init__`, pyblp/economies/problem.py:2186-2213. -/
def importanceProblem (problem : SamplingProblem ι D P) (results : ImportanceResults ι D) : SamplingProblem ι D P :=
  { other := problem.other, agents := results.sampled }

end

end Pyblp
