import Verif.Model.Scores

/-!
# Simulated micro data

`simulate_micro_data` (pyblp/results/economy_results.py:1770-1918). Weights of markets are what
`safely_compute_micro_weights` (pyblp/markets/economy_results_market.py:463-468) returns. The random number generator is a sequence of
uniform draws, from which NumPy's `RandomState.choice` selects elements by inverting their cumulative distribution.
-/

namespace Pyblp

/-- Weights of a market: `I` agents, `J` products, the shape of the other axes of the array, and its elements.
Used for pyblp/markets/economy_results_market.py:463-468 and pyblp/results/economy_results.py:1874-1875. -/
structure WeightsArray where
  I : ℕ
  J : ℕ
  shape : MicroShape
  weight : ℕ → MicroCell (Fin J) → ℝ

/-- `safely_compute_micro_weights`, pyblp/markets/economy_results_market.py:463-468: the array of `compute_micro_dataset_contributions`. -/
noncomputable def weightsArray {J : ℕ} {Q : Type} (I : ℕ) (x : DatasetChunk MicroShape (MicroCell (Fin J)) Q) : WeightsArray where
  I := I
  J := J
  shape := x.shape
  weight := fun i c => x.weights.getD i (fun _ => 0) c

/-- Positions of an axis of weights with the choices that they stand for, pyblp/markets/market.py:1526-1532. -/
def axisPositions (J : ℕ) (outside : Bool) : List (ℕ × Option (Fin J)) :=
  if outside then (0, none) :: (List.finRange J).map fun j : Fin J => ((j : ℕ) + 1, some j) else (List.finRange J).map fun j : Fin J => ((j : ℕ), some j)

/-- Positions of an agent's row of weights, in the order of the array. Used for pyblp/results/economy_results.py:1874-1875. -/
def rowPositions (J : ℕ) : MicroShape → List (ℕ × Option ℕ × MicroCell (Fin J))
  | .first o => (axisPositions J o).map fun c => (c.1, none, .first c.2)
  | .second o o2 => (axisPositions J o).flatMap fun c => (axisPositions J o2).map fun c2 => (c.1, some c2.1, .second c.2 c2.2)

/-- An element of weights that is not zero, with its indices. Used for pyblp/results/economy_results.py:1874-1875. -/
structure WeightsEntry where
  agent : ℕ
  choice : ℕ
  second : Option ℕ
  weight : ℝ

/-- `np.nonzero(weights_t)` and `weights_t[indices_t]`, pyblp/results/economy_results.py:1874-1875. -/
noncomputable def nonzeroEntries (a : WeightsArray) : List WeightsEntry :=
  (List.range a.I).flatMap fun i => (rowPositions a.J a.shape).filterMap fun p =>
    if a.weight i p.2.2 = 0 then none else some ⟨i, p.1, p.2.1, a.weight i p.2.2⟩

/-- Sizes of the data types that are considered, in bits, pyblp/results/economy_results.py:1833-1839: the last one that can represent
`maximum` is used. -/
def chooseBits (maximum : ℕ) : ℕ := [32, 8].foldl (fun bits dtype => if maximum ≤ 2 ^ dtype - 1 then dtype else bits) 64

/-- `astype` for unsigned integers. Used for pyblp/results/economy_results.py:1887-1912. -/
def castBits (bits n : ℕ) : ℕ := n % 2 ^ bits

/-- Whether weights have second choices: `len(indices_t) == 3`. Used for pyblp/results/economy_results.py:1770-1918. -/
def MicroShape.hasSecond : MicroShape → Bool
  | .first _ => false
  | .second _ _ => true

/-- Cumulative sums of probabilities. Used for pyblp/results/economy_results.py:1887-1912. -/
noncomputable def cumulative (w : List ℝ) : List ℝ := (List.range w.length).map fun k => (w.take (k + 1)).sum

/-- `state.choice(weights_data.size, p=weights_data / weights_data.sum())` for the uniform draw `u`: NumPy inverts the cumulative
distribution (`cdf.searchsorted(u, side='right')`). There must be something to choose from, and probabilities must not be negative.
Used for pyblp/results/economy_results.py:1887-1912. -/
noncomputable def drawIndex (w : List ℝ) (u : ℝ) : Except PyErr ℕ :=
  if w = [] then .error .valueError
  else if ∃ x ∈ w, x / w.sum < 0 then .error .valueError
  else .ok ((cumulative (w.map (· / w.sum))).filter fun x => x ≤ u).length

/-- A row of simulated micro data. Used for pyblp/results/economy_results.py:1887-1912 and 1770-1918. -/
structure SimulatedRow (Mk : Type) where
  id : ℕ
  market : Mk
  agent : ℕ
  choice : ℕ
  second : Option ℕ

/-- Indexing of an array with a drawn index. Used for pyblp/results/economy_results.py:1887-1912. -/
def entryAt {α : Type} (l : List α) (k : ℕ) : Except PyErr α :=
  match l[k]? with
  | none => .error .indexError
  | some a => .ok a

/-- Row `n`, pyblp/results/economy_results.py:1887-1912: each field is an array with elements for all markets, in the order
`order`, that is indexed with the same draw. Second choices are `none` if there are none in any market. -/
noncomputable def simulateRow {Mk : Type} (order : List Mk) (arrays : Mk → WeightsArray) (maxI maxJ : ℕ) (n : ℕ) (u : ℝ) :
    Except PyErr (SimulatedRow Mk) :=
  let weights := order.flatMap fun t => (nonzeroEntries (arrays t)).map (·.weight)
  let markets := order.flatMap fun t => List.replicate (nonzeroEntries (arrays t)).length t
  let agents := order.flatMap fun t => (nonzeroEntries (arrays t)).map fun x => castBits (chooseBits maxI) x.agent
  let choices := order.flatMap fun t => (nonzeroEntries (arrays t)).map fun x => castBits (chooseBits maxJ) x.choice
  let seconds := order.flatMap fun t => (nonzeroEntries (arrays t)).map fun x => x.second.map (castBits (chooseBits maxJ))
  match drawIndex weights u with
  | .error e => .error e
  | .ok k =>
    match entryAt markets k, entryAt agents k, entryAt choices k, entryAt seconds k with
    | .ok t, .ok i, .ok j, .ok j2 => .ok ⟨n, t, i, j, j2⟩
    | _, _, _, _ => .error .indexError

/-- `simulate_micro_data`, pyblp/results/economy_results.py:1770-1918. `order` are the dataset's markets: sorted if it is for all markets,
and otherwise in the order in which Python iterates over a set. If some but not all markets have second choices, there is a `KeyError`. -/
noncomputable def simulateMicroData {Mk : Type} (order : List Mk) (arrays : Mk → WeightsArray) (maxI maxJ observations : ℕ) (uniform : ℕ → ℝ) :
    Except PyErr (List (SimulatedRow Mk)) :=
  if (order.any fun t => (arrays t).shape.hasSecond) ∧ ¬(order.all fun t => (arrays t).shape.hasSecond) then .error .keyError
  else collect (fun n => simulateRow order arrays maxI maxJ n (uniform n)) (List.range observations)

end Pyblp
