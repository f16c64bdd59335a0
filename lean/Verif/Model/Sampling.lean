import Verif.Model.Parallel
import Verif.Model.PyErr

/-!
# Importance sampling (`ProblemResults._compute_importance_weights`)

The random number generator is an arbitrary state machine that satisfies the documented contract of
`numpy.random.RandomState`.
-/

namespace Pyblp

variable {ι σ : Type} [LinearOrder ι] {N : ℕ}

/-- `RandomState.uniform(size=n)` and `RandomState.choice(a, size, replace=False)`.
Used for pyblp/results/problem_results.py:1811-1827 and 1810-1827. -/
structure Generator (σ : Type) where
  uniform : σ → ℕ → List ℝ × σ
  choice : σ → List ℕ → ℕ → List ℕ × σ

/-- The contract of the generator. Used for pyblp/results/problem_results.py:1811-1827. -/
structure Generator.Valid (g : Generator σ) : Prop where
  uniform_length : ∀ s n, (g.uniform s n).1.length = n
  uniform_range : ∀ s n, ∀ u ∈ (g.uniform s n).1, 0 ≤ u ∧ u < 1
  choice_length : ∀ s a k, k ≤ a.length → (g.choice s a k).1.length = k
  choice_nodup : ∀ s a k, a.Nodup → (g.choice s a k).1.Nodup
  choice_subset : ∀ s a k, (g.choice s a k).1 ⊆ a

noncomputable section

open Classical

/-- The body of the loop over markets, pyblp/results/problem_results.py:1811-1827, for a market with the given inside share
and inside probabilities of its candidate agents. `choice` raises if there are too few accepted agents (line 1819). -/
def importanceMarket (g : Generator σ) (draws : ℕ) (arConstant : ℝ) (share : ℝ) (inside : List ℝ) (s : σ) :
    Except PyErr (List ℝ × σ) :=
  let cutoffs := g.uniform s inside.length
  let accepted := (List.range inside.length).filter fun i =>
    decide (cutoffs.1.getD i 0 < inside.getD i 0 / arConstant)
  if accepted.length < draws then .error .runtimeError
  else
    let sampled := g.choice cutoffs.2 accepted draws
    .ok ((List.range inside.length).map fun i =>
      if i ∈ sampled.1 then share / inside.getD i 0 / draws else 0, sampled.2)

/-- The loop over markets, pyblp/results/problem_results.py:1810-1827: the weights of each market in the order of completion,
with one generator for all of them. -/
def importanceLoop (g : Generator σ) (draws : ℕ) (arConstant : ℝ) :
    List (ι × (ℝ × List ℝ)) → σ → Except PyErr (List (ι × List ℝ))
  | [], _ => .ok []
  | (t, share, inside) :: rest, s =>
    match importanceMarket g draws arConstant share inside s with
    | .error e => .error e
    | .ok (w, s') =>
      match importanceLoop g draws arConstant rest s' with
      | .error e => .error e
      | .ok ws => .ok ((t, w) :: ws)

/-- `_compute_importance_weights`, pyblp/results/problem_results.py:1776-1829, when the market-level results arrive in the order
of `items`; `seed` is the state after seeding. -/
def importanceWeights (g : Generator σ) (seed : σ) (draws : ℕ) (arConstant : ℝ) (agentIds : Fin N → ι)
    (items : List (ι × (ℝ × List ℝ))) : Except PyErr (Fin N → ℝ) :=
  (importanceLoop g draws arConstant items seed).map fun ws =>
    assemble agentIds (fun _ => 0) (ws.map fun p => (p.1, fun r => p.2.getD r 0))

end

end Pyblp
