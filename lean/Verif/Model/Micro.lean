import Verif.Model.PyErr
import Verif.Tactics
import Mathlib.Data.List.Range
import Mathlib.Data.Finset.Basic

/-!
# Micro moments (`micro.py`, `markets/market.py`, `economies/problem.py`)

Arrays returned by a user's `compute_weights` or `compute_values` have one row for each agent that is passed to them. A row is a
function of cells: choices, or pairs of first and second choices.
-/

namespace Pyblp

open Classical

/-! ## Chunks -/

/-- Sizes of the pieces of `np.array_split(x, n)` for `x` with `N` elements: the first `N % n` have one more.
Used for pyblp/markets/market.py:1926-1957. -/
def splitSizes (N n : ℕ) : List ℕ := List.replicate (N % n) (N / n + 1) ++ List.replicate (n - N % n) (N / n)

/-- Cut a list into pieces. Used for pyblp/markets/market.py:1926-1957. -/
def cut {α : Type} : List ℕ → List α → List (List α)
  | [], _ => []
  | s :: sizes, l => l.take s :: cut sizes (l.drop s)

/-- `np.array_split`. Used for pyblp/markets/market.py:1926-1957. -/
def arraySplit {α : Type} (l : List α) (n : ℕ) : List (List α) := cut (splitSizes l.length n) l

/-- `generate_micro_chunks`, pyblp/markets/market.py:1926-1957, for an integer number of chunks: indices of agents in each chunk.
With one chunk the code passes `None`, which selects all agents. -/
def generateChunks (I : ℕ) (chunks : ℤ) : Except PyErr (List (List ℕ)) :=
  if chunks < 1 then .error .typeError
  else if chunks > 1 then .ok ((arraySplit (List.range I) chunks.toNat).filter fun c => decide (c ≠ []))
  else .ok [List.range I]

/-! ## Contributions of a market -/

/-- An array computed by a user: a shape and a row for each agent. Used for pyblp/markets/market.py:1518-1544 and 1546-1565. -/
structure UserArray (S C : Type) where
  shape : S
  rows : List (C → ℝ)

/-- What contributions of a market are computed from. `row i` is the data of agent `i`, `cells` are the cells of an array with some
shape, and `included` says whether the market is among a dataset's `market_ids`. `factor d i` is the product of the
integration weight of agent `i` with choice probabilities, which are elementwise in agents (pyblp/markets/market.py:1841-1873 and
`Verif/Model/MicroProbabilities.lean`), and `tangent d q i` is the same with derivatives of probabilities with respect to parameter `q`
(pyblp/markets/market.py:1883-1908). `flat` is the condition on weights with second choices on lines 1915-1916. -/
structure MicroMarket (A S C D Q : Type) where
  I : ℕ
  row : ℕ → A
  cells : S → Finset C
  included : D → Bool
  factor : D → ℕ → C → ℝ
  tangent : D → Q → ℕ → C → ℝ
  flat : S → (C → ℝ) → Bool

/-- A user's functions. They return `none` if they raise an exception. Used for pyblp/markets/market.py:1518-1544 and 1546-1565. -/
structure MicroFunctions (A S C D P : Type) where
  weights : D → List A → Option (UserArray S C)
  values : P → List A → Option (UserArray S C)

variable {A S C D P Q : Type}

/-- `compute_micro_weights`, pyblp/markets/market.py:1518-1544. -/
noncomputable def computeMicroWeights (m : MicroMarket A S C D Q) (u : MicroFunctions A S C D P) (d : D) (indices : List ℕ) :
    Except PyErr (UserArray S C) :=
  match u.weights d (indices.map m.row) with
  | none => .error .runtimeError
  | some w =>
    if w.rows.length ≠ indices.length then .error .valueError
    else if ∃ r ∈ w.rows, ∃ c ∈ m.cells w.shape, r c < 0 then .error .valueError
    else .ok w

/-- `compute_micro_values`, pyblp/markets/market.py:1546-1565. -/
noncomputable def computeMicroValues (m : MicroMarket A S C D Q) (u : MicroFunctions A S C D P) (p : P) (shape : S) (indices : List ℕ) :
    Except PyErr (UserArray S C) :=
  match u.values p (indices.map m.row) with
  | none => .error .runtimeError
  | some v =>
    if v.rows.length ≠ indices.length ∨ v.shape ≠ shape then .error .valueError
    else .ok v

/-- Contributions of a dataset, pyblp/markets/market.py:1567-1924. -/
structure DatasetChunk (S C Q : Type) where
  shape : S
  weights : List (C → ℝ)
  tangents : Q → List (C → ℝ)
  denominator : ℝ
  denominatorTangent : Q → ℝ

/-- Sum of an array with some cells. Used for pyblp/markets/market.py:1619-1922 and 2022-2058. -/
noncomputable def sumRows (cells : Finset C) (rows : List (C → ℝ)) : ℝ := (rows.map fun r => ∑ c ∈ cells, r c).sum

/-- `constant_denominator`, pyblp/markets/market.py:1914-1916. -/
noncomputable def constantDenominator (m : MicroMarket A S C D Q) (w : UserArray S C) : Bool :=
  decide ((∀ r ∈ w.rows, ∀ r0, w.rows.head? = some r0 → ∀ c ∈ m.cells w.shape, r c = r0 c) ∧ ∀ r ∈ w.rows, m.flat w.shape r = true)

/-- `compute_micro_dataset_contributions` for one dataset, pyblp/markets/market.py:1619-1922. Contributions are truncated from below by
zero, but their derivatives are not. -/
noncomputable def datasetContributions (m : MicroMarket A S C D Q) (u : MicroFunctions A S C D P) (d : D) (indices : List ℕ) :
    Except PyErr (DatasetChunk S C Q) :=
  match computeMicroWeights m u d indices with
  | .error e => .error e
  | .ok w =>
    let weights := List.zipWith (fun i r c => max (r c * m.factor d i c) 0) indices w.rows
    let tangents := fun q => List.zipWith (fun i r c => r c * m.tangent d q i c) indices w.rows
    .ok {
      shape := w.shape
      weights := weights
      tangents := tangents
      denominator := sumRows (m.cells w.shape) weights
      denominatorTangent := fun q => if constantDenominator m w then 0 else sumRows (m.cells w.shape) (tangents q) }

/-- Elementwise product of arrays. Used for pyblp/markets/market.py:2022-2058. -/
def mulRows (a b : List (C → ℝ)) : List (C → ℝ) := List.zipWith (fun x y c => x c * y c) a b

/-- What a chunk adds to the contributions of a market to a part, pyblp/markets/market.py:1973-1991. The element of
`covariances` for a second part is for the pair of both. -/
structure PartContribution (P Q : Type) where
  numerator : ℝ
  denominator : ℝ
  numeratorJacobian : Q → ℝ
  denominatorJacobian : Q → ℝ
  covariances : P → ℝ

/-- Nothing to add. Used for pyblp/markets/market.py:2022-2058 and 1959-2068. -/
def PartContribution.zero : PartContribution P Q := ⟨0, 0, fun _ => 0, fun _ => 0, fun _ => 0⟩

/-- `+=`. Used for pyblp/markets/market.py:1993-2058. -/
def PartContribution.add (a b : PartContribution P Q) : PartContribution P Q :=
  ⟨a.numerator + b.numerator, a.denominator + b.denominator, fun q => a.numeratorJacobian q + b.numeratorJacobian q,
    fun q => a.denominatorJacobian q + b.denominatorJacobian q, fun p => a.covariances p + b.covariances p⟩

/-- Values of the parts with which a part's covariances are computed, pyblp/markets/market.py:2052-2056: parts of the same
dataset up to the part itself. -/
noncomputable def otherValues (m : MicroMarket A S C D Q) (u : MicroFunctions A S C D P) (dataset : P → D) (shape : S)
    (indices : List ℕ) (d : D) : List P → Except PyErr (List (P × List (C → ℝ)))
  | [] => .ok []
  | p2 :: rest =>
    if dataset p2 = d then
      match computeMicroValues m u p2 shape indices with
      | .error e => .error e
      | .ok v2 =>
        match otherValues m u dataset shape indices d rest with
        | .error e => .error e
        | .ok l => .ok ((p2, v2.rows) :: l)
    else otherValues m u dataset shape indices d rest

/-- What a chunk adds for a part, pyblp/markets/market.py:2022-2058. `earlier` are the parts up to and including this one. -/
noncomputable def partContribution (m : MicroMarket A S C D Q) (u : MicroFunctions A S C D P) (dataset : P → D) (earlier : List P)
    (p : P) (indices : List ℕ) : Except PyErr (PartContribution P Q) :=
  if m.included (dataset p) = false then .ok PartContribution.zero
  else
    match datasetContributions m u (dataset p) indices with
    | .error e => .error e
    | .ok d =>
      match computeMicroValues m u p d.shape indices with
      | .error e => .error e
      | .ok v =>
        match otherValues m u dataset d.shape indices (dataset p) earlier with
        | .error e => .error e
        | .ok others =>
          .ok {
            numerator := sumRows (m.cells d.shape) (mulRows d.weights v.rows)
            denominator := d.denominator
            numeratorJacobian := fun q => sumRows (m.cells d.shape) (mulRows (d.tangents q) v.rows)
            denominatorJacobian := d.denominatorTangent
            covariances := fun p2 => ((others.filter fun o => decide (o.1 = p2)).map fun o =>
              sumRows (m.cells d.shape) (mulRows (mulRows d.weights v.rows) o.2)).sum }

/-- The loop over chunks, pyblp/markets/market.py:1993-2058, for one part. -/
noncomputable def loopChunks (m : MicroMarket A S C D Q) (u : MicroFunctions A S C D P) (dataset : P → D) (earlier : List P)
    (p : P) (total : PartContribution P Q) : List (List ℕ) → Except PyErr (PartContribution P Q)
  | [] => .ok total
  | c :: chunks =>
    match partContribution m u dataset earlier p c with
    | .error e => .error e
    | .ok x => loopChunks m u dataset earlier p (total.add x) chunks

/-- `compute_micro_contributions`, pyblp/markets/market.py:1959-2068, for one part. Parts are computed separately here; the code
goes through parts within chunks, which only matters for which of several exceptions is raised first. -/
noncomputable def microContributions (m : MicroMarket A S C D Q) (u : MicroFunctions A S C D P) (dataset : P → D) (earlier : List P)
    (p : P) (chunks : ℤ) : Except PyErr (PartContribution P Q) :=
  match generateChunks m.I chunks with
  | .error e => .error e
  | .ok l => loopChunks m u dataset earlier p PartContribution.zero l

end Pyblp
