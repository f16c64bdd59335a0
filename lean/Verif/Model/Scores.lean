import Verif.Model.MicroProbabilities
import Mathlib.Data.Finset.Sort
import Mathlib.Data.Real.Basic

/-!
# Scores of micro data

`compute_micro_scores` and `compute_agent_scores` (pyblp/results/economy_results.py:1354-1779), what each market and each observation
contribute to them (pyblp/markets/economy_results_market.py:482-604), and the part of `MicroAgents` (pyblp/primitives.py:450-572) that
checks which rows of micro data belong to the same observation.
-/

namespace Pyblp

/-! ## Selecting choices -/

/-- Basic indexing of an axis with `length` elements: negative indices count from the end, and `none` is an `IndexError`.
Used for pyblp/markets/economy_results_market.py:571-597. -/
def axisIndex (length : ℕ) (j : ℤ) : Option ℕ :=
  if 0 ≤ j then (if j < length then some j.toNat else none)
  else if 0 ≤ length + j then some (length + j).toNat else none

/-- The choice at a position of an axis of weights, pyblp/markets/market.py:1526-1532: if the axis has an element for the outside option,
this is the first one. -/
def axisChoice (J : ℕ) (outside : Bool) (n : ℕ) : Option (Option (Fin J)) :=
  if outside then
    match n with
    | 0 => some none
    | n + 1 => if h : n < J then some (some ⟨n, h⟩) else none
  else if h : n < J then some (some ⟨n, h⟩) else none

/-- Length of an axis of weights. Used for pyblp/markets/economy_results_market.py:571-597. -/
def axisLength (J : ℕ) (outside : Bool) : ℕ := if outside then 1 + J else J

/-- What an index selects from an axis of weights. Used for pyblp/markets/economy_results_market.py:571-597. -/
def selectChoice (J : ℕ) (outside : Bool) (j : ℤ) : Option (Option (Fin J)) :=
  (axisIndex (axisLength J outside) j).bind (axisChoice J outside)

/-- The element of weights that is selected by choices `j` and `k`, pyblp/markets/economy_results_market.py:571-597 when `j` is not
`None`. -/
def selectCell {J : ℕ} (shape : MicroShape) (j : ℤ) (k : Option ℤ) : Except PyErr (MicroCell (Fin J)) :=
  match shape with
  | .first o =>
    match selectChoice J o j with
    | none => .error .valueError
    | some c => .ok (.first c)
  | .second o o2 =>
    match selectChoice J o j with
    | none => .error .valueError
    | some c =>
      match k with
      | none => .error .valueError
      | some k =>
        match selectChoice J o2 k with
        | none => .error .valueError
        | some c2 => .ok (.second c c2)

/-! ## Contributions of markets and observations -/

variable {A S C D P Q : Type}

/-- What a chunk adds to the denominator and to its derivatives, pyblp/markets/economy_results_market.py:508-523. -/
noncomputable def denominatorChunk (m : MicroMarket A S C D Q) (u : MicroFunctions A S C D P) (d : D) (indices : List ℕ) :
    Except PyErr (ℝ × (Q → ℝ)) :=
  if m.included d then
    match datasetContributions m u d indices with
    | .error e => .error e
    | .ok x => .ok (x.denominator, x.denominatorTangent)
  else .ok (0, fun _ => 0)

/-- The loop over chunks. Used for pyblp/markets/economy_results_market.py:482-525 and 527-604. -/
noncomputable def loopScore {X : Type} (f : X → Except PyErr (ℝ × (Q → ℝ))) (total : ℝ × (Q → ℝ)) : List X → Except PyErr (ℝ × (Q → ℝ))
  | [] => .ok total
  | c :: chunks =>
    match f c with
    | .error e => .error e
    | .ok x => loopScore f (total.1 + x.1, fun q => total.2 q + x.2 q) chunks

/-- `safely_compute_score_denominator_contributions`, pyblp/markets/economy_results_market.py:482-525, without the Jacobian of
unobserved characteristics, which is in `m`. -/
noncomputable def scoreDenominator (m : MicroMarket A S C D Q) (u : MicroFunctions A S C D P) (d : D) (chunks : ℤ) :
    Except PyErr (ℝ × (Q → ℝ)) :=
  match generateChunks m.I chunks with
  | .error e => .error e
  | .ok l => loopScore (denominatorChunk m u d) (0, fun _ => 0) l

/-- What a chunk of the agents over which an observation integrates adds to its numerator and to its derivatives,
pyblp/markets/economy_results_market.py:553-600, for choices `j` and `k`. If the market is not among those of the dataset, weights are
zero, but choices are still selected. -/
noncomputable def numeratorChunk {J : ℕ} (m : MicroMarket A MicroShape (MicroCell (Fin J)) D Q)
    (u : MicroFunctions A MicroShape (MicroCell (Fin J)) D P) (d : D) (j : ℤ) (k : Option ℤ) (indices : List ℕ) :
    Except PyErr (ℝ × (Q → ℝ)) :=
  if m.included d then
    match datasetContributions m u d indices with
    | .error e => .error e
    | .ok x =>
      match (selectCell x.shape j k : Except PyErr (MicroCell (Fin J))) with
      | .error e => .error e
      | .ok c => .ok ((x.weights.map fun r => r c).sum, fun q => ((x.tangents q).map fun r => r c).sum)
  else
    match computeMicroWeights m u d indices with
    | .error e => .error e
    | .ok w =>
      match (selectCell w.shape j k : Except PyErr (MicroCell (Fin J))) with
      | .error e => .error e
      | .ok _ => .ok (0, fun _ => 0)

/-- `safely_compute_score_numerator_contributions`, pyblp/markets/economy_results_market.py:527-604, when a choice is given. -/
noncomputable def scoreNumerator {J : ℕ} (m : MicroMarket A MicroShape (MicroCell (Fin J)) D Q)
    (u : MicroFunctions A MicroShape (MicroCell (Fin J)) D P) (d : D) (j : ℤ) (k : Option ℤ) (chunks : ℤ) : Except PyErr (ℝ × (Q → ℝ)) :=
  match generateChunks m.I chunks with
  | .error e => .error e
  | .ok l => loopScore (numeratorChunk m u d j k) (0, fun _ => 0) l

/-- The same when no choice is given, as in `compute_agent_scores`: an array with all choices, pyblp/markets/economy_results_market.py:527-604
with `j = k = None`, for a market of the dataset and one chunk. -/
noncomputable def scoreNumerators (m : MicroMarket A S C D Q) (u : MicroFunctions A S C D P) (d : D) :
    Except PyErr (S × (C → ℝ) × (Q → C → ℝ)) :=
  match datasetContributions m u d (List.range m.I) with
  | .error e => .error e
  | .ok x => .ok (x.shape, fun c => (x.weights.map fun r => r c).sum, fun q c => ((x.tangents q).map fun r => r c).sum)

/-! ## Observations -/

/-- A row of micro data. `choice` and `second` are meaningful if the fields exist.
Used for pyblp/primitives.py:492-530 and pyblp/results/economy_results.py:1721-1750. -/
structure MicroRow (ι Mk R : Type) where
  id : ι
  market : Mk
  choice : ℤ
  second : ℤ
  agent : R

/-- Micro data: rows, and whether there are fields with choices and second choices.
Used for pyblp/primitives.py:492-530 and pyblp/results/economy_results.py:1721-1750. -/
structure MicroData (ι Mk R : Type) where
  rows : List (MicroRow ι Mk R)
  hasChoice : Bool
  hasSecond : Bool

variable {ι Mk R X : Type} [LinearOrder ι] [LinearOrder Mk]

/-- `np.unique`. Used for pyblp/results/economy_results.py:1477-1533. -/
def uniqueSorted {α : Type} [LinearOrder α] (l : List α) : List α := l.toFinset.sort (· ≤ ·)

/-- `micro_indices[n]`: rows of an observation (`get_indices`, see C07), in the order of the data.
Used for pyblp/results/economy_results.py:1721-1750. -/
def rowsOf (data : MicroData ι Mk R) (n : ι) : List (MicroRow ι Mk R) := data.rows.filter fun r => r.id = n

/-- Checks of `MicroAgents.__new__` without an integration configuration, pyblp/primitives.py:492-530: IDs are sorted, and rows
of an observation have the same market, and the same choices if there are any. (The dimensions of fields are not modelled.) -/
def validateMicroData (data : MicroData ι Mk R) : Except PyErr Unit :=
  if ¬(data.rows.map (·.id)).Pairwise (· ≤ ·) then .error .valueError
  else if ∃ r ∈ data.rows, ∃ r2 ∈ data.rows, r.id = r2.id ∧
      (r.market ≠ r2.market ∨ (data.hasChoice ∧ r.choice ≠ r2.choice) ∨ (data.hasSecond ∧ r.second ≠ r2.second)) then .error .valueError
  else .ok ()

/-- Apply a function that can raise an exception to all elements. Used for pyblp/results/economy_results.py:1477-1533. -/
def collect {α β : Type} (f : α → Except PyErr β) : List α → Except PyErr (List β)
  | [] => .ok []
  | a :: l =>
    match f a with
    | .error e => .error e
    | .ok b =>
      match collect f l with
      | .error e => .error e
      | .ok l => .ok (b :: l)

/-- A score, pyblp/results/economy_results.py:1525-1528: `none` is `np.nan`, which replaces what is not finite. -/
noncomputable def scoreOf (numerator numeratorTangent denominator denominatorTangent : ℝ) : Option ℝ :=
  if numerator = 0 ∨ denominator = 0 then none else some (numeratorTangent / numerator - denominatorTangent / denominator)

/-- What is computed in markets (`xi_jacobian`, and the denominator with its derivatives) and for observations.
Used for pyblp/results/economy_results.py:1721-1750 and 1477-1533. -/
structure ScoreMethods (Mk R X Q : Type) where
  supported : Mk → Bool
  denominator : Mk → Except PyErr (X × ℝ × (Q → ℝ))
  numerator : Mk → List R → ℤ → Option ℤ → X → Except PyErr (ℝ × (Q → ℝ))

/-- The numerator of observation `n`: `numerator_market_factory`, pyblp/results/economy_results.py:1721-1750. The market and the choices are
those of its first row. `xi` is `xi_jacobian_mapping`. -/
def observationNumerator (f : ScoreMethods Mk R X Q) (data : MicroData ι Mk R) (xi : Mk → Option X) (n : ι) :
    Except PyErr (ℝ × (Q → ℝ)) :=
  match rowsOf data n with
  | [] => .error .indexError
  | r :: _ =>
    match xi r.market with
    | none => .error .keyError
    | some x => f.numerator r.market ((rowsOf data n).map (·.agent)) r.choice (if data.hasSecond then some r.second else none) x

/-- A dictionary with keys `keys` and values `values`. Used for pyblp/results/economy_results.py:1477-1533. -/
def lookupIn {α β : Type} [DecidableEq α] (keys : List α) (values : List β) (a : α) : Option β :=
  ((keys.zip values).find? fun kv => kv.1 = a).map (·.2)

/-- `compute_micro_scores`, pyblp/results/economy_results.py:1477-1533 with `_compute_scores`, lines 1670-1779: for each observation, in the
order of sorted IDs, the scores of all parameters. Results of markets and observations are collected in dictionaries, so the order in
which they are computed does not matter (C08). -/
noncomputable def computeMicroScores (f : ScoreMethods Mk R X Q) (data : MicroData ι Mk R) : Except PyErr (List (Q → Option ℝ)) :=
  match validateMicroData data with
  | .error e => .error e
  | .ok _ =>
    if data.hasChoice = false then .error .keyError
    else
      let markets := uniqueSorted (data.rows.map (·.market))
      let ids := uniqueSorted (data.rows.map (·.id))
      if ∃ t ∈ markets, f.supported t = false then .error .valueError
      else
        match collect f.denominator markets with
        | .error e => .error e
        | .ok denominators =>
          match collect (observationNumerator f data fun t => (lookupIn markets denominators t).map (·.1)) ids with
          | .error e => .error e
          | .ok numerators =>
            let denominator := (denominators.map fun x => x.2.1).sum
            let denominatorTangent := fun q => (denominators.map fun x => x.2.2 q).sum
            .ok (numerators.map fun n q => scoreOf n.1 (n.2 q) denominator (denominatorTangent q))

/-! ## Observations of an economy -/

/-- What is used of a row of agent data or of micro data.
Used for pyblp/markets/market.py:54-146 and pyblp/markets/economy_results_market.py:488-504 and 538-549. -/
structure ScoreRow (N D : Type) where
  weight : ℝ
  nodes : N → ℝ
  demographics : D → ℕ → ℝ
  availability : ℕ → ℝ

/-- What is used of product data in a market with `J + 1` products, and mean utilities. `inverse` is the inverse with which the Jacobian
of unobserved characteristics is computed, pyblp/markets/market.py:1467-1478. -/
structure ScoreProducts (G K2 N D Q : Type) where
  J : ℕ
  nesting : Option (Nesting (Fin (J + 1)) G)
  epsilonScale : ℝ
  X2 : Fin (J + 1) → K2 → ℝ
  delta : Fin (J + 1) → ℝ
  param : Q → TangentParam (Fin (J + 1)) G K2 N D
  inverse : Fin (J + 1) → Fin (J + 1) → ℝ

/-- An economy and a dataset in which products are not removed by ID. A market `t` has `agentCount t + 1` agents. `weights` is
`compute_weights`, which is called both with agents of the market and with the rows of an observation.
Used for pyblp/markets/market.py:54-146 and pyblp/markets/economy_results_market.py:488-504 and 538-549. -/
structure ScoreEconomy (Mk G K2 N D Q : Type) where
  products : Mk → ScoreProducts G K2 N D Q
  agentCount : Mk → ℕ
  agents : (t : Mk) → Fin (agentCount t + 1) → ScoreRow N D
  rcType : K2 → RcType
  sigma : K2 → N → ℝ
  pi : K2 → D → ℝ
  agentAvailability : Bool
  microAvailability : Bool
  included : Mk → Bool
  weights : (t : Mk) → List (ScoreRow N D) → Option (UserArray MicroShape (MicroCell (Fin ((products t).J + 1))))

section

variable {G K2 N D : Type} [Fintype G] [DecidableEq G] [Fintype K2] [Fintype N] [Fintype D]

/-- `EconomyResultsMarket` of products with some agents: `Market.__init__`, pyblp/markets/market.py:54-146. Agents are those of the economy,
or the rows of an observation (pyblp/results/economy_results.py:1731-1747). -/
def marketOf (e : ScoreEconomy Mk G K2 N D Q) (t : Mk) (availability : Bool) {n : ℕ} (rows : Fin (n + 1) → ScoreRow N D) :
    Market (Fin ((e.products t).J + 1)) (Fin (n + 1)) G where
  nesting := (e.products t).nesting
  epsilonScale := (e.products t).epsilonScale
  weights := fun i => (rows i).weight
  availability := if availability then some fun i j => (rows i).availability j else none

/-- Data on which the random coefficients of these agents depend. Used for pyblp/markets/economy_results_market.py:488-504 and 538-549. -/
def tastesOf (e : ScoreEconomy Mk G K2 N D Q) (t : Mk) {n : ℕ} (rows : Fin (n + 1) → ScoreRow N D) :
    Tastes (Fin ((e.products t).J + 1)) (Fin (n + 1)) K2 N D where
  X2 := (e.products t).X2
  nodes := fun i => (rows i).nodes
  demographics := fun i d j => (rows i).demographics d j
  rcType := e.rcType

/-- `compute_weights` as called by the market. Used for pyblp/markets/market.py:1518-1544. -/
def weightsOf (e : ScoreEconomy Mk G K2 N D Q) (t : Mk) {n : ℕ} (rows : Fin (n + 1) → ScoreRow N D) :
    MicroFunctions (Fin (n + 1)) MicroShape (MicroCell (Fin ((e.products t).J + 1))) Unit Unit where
  weights := fun _ l => e.weights t (l.map rows)
  values := fun _ _ => none

/-- Derivatives of probabilities with respect to a parameter, without and then with the contribution of unobserved characteristics,
pyblp/markets/economy_results_market.py:488-504 and 538-549. -/
noncomputable def partialOf (e : ScoreEconomy Mk G K2 N D Q) (t : Mk) (availability : Bool) {n : ℕ} (rows : Fin (n + 1) → ScoreRow N D)
    (q : Q) : Fin ((e.products t).J + 1) → Fin (n + 1) → ℝ :=
  let m := marketOf e t availability rows
  let mu := computeMu (tastesOf e t rows) e.sigma e.pi
  (probabilitiesTangent m (tastesOf e t rows) e.sigma e.pi {} (e.products t).delta (computeProbabilities m {} (e.products t).delta mu)
    (computeConditionals m {} (e.products t).delta mu) ((e.products t).param q)).1

/-- See `partialOf`. Used for pyblp/markets/economy_results_market.py:488-504 and 538-549. -/
noncomputable def totalOf (e : ScoreEconomy Mk G K2 N D Q) (t : Mk) (availability : Bool) {n : ℕ} (rows : Fin (n + 1) → ScoreRow N D)
    (xiJacobian : Q → Fin ((e.products t).J + 1) → ℝ) (q : Q) : Fin ((e.products t).J + 1) → Fin (n + 1) → ℝ :=
  let m := marketOf e t availability rows
  let mu := computeMu (tastesOf e t rows) e.sigma e.pi
  updateTangent m (computeProbabilities m {} (e.products t).delta mu) (computeConditionals m {} (e.products t).delta mu)
    ((e.products t).param q) (partialOf e t availability rows q) (xiJacobian q)

/-- The market as `compute_micro_dataset_contributions` sees it. Used for pyblp/markets/market.py:1619-1922. -/
noncomputable def microOf (e : ScoreEconomy Mk G K2 N D Q) (t : Mk) (availability : Bool) {n : ℕ} (rows : Fin (n + 1) → ScoreRow N D)
    (xiJacobian : Q → Fin ((e.products t).J + 1) → ℝ) : MicroMarket (Fin (n + 1)) MicroShape (MicroCell (Fin ((e.products t).J + 1))) Unit Q :=
  microMarket (marketOf e t availability rows) (tastesOf e t rows) e.sigma e.pi (e.products t).delta (n + 1) (Fin.ofNat (n + 1))
    (fun _ => e.included t) (fun _ => (none : Option (Fin ((e.products t).J + 1) → Unit))) (e.products t).param
    (totalOf e t availability rows xiJacobian) xiJacobian

/-- `xi_jacobian` of the market, from the economy's agents. Used for pyblp/results/economy_results.py:1477-1533. -/
noncomputable def xiOf (e : ScoreEconomy Mk G K2 N D Q) (t : Mk) (q : Q) : Fin ((e.products t).J + 1) → ℝ :=
  xiByTheta (marketOf e t e.agentAvailability (e.agents t)) (e.products t).inverse (partialOf e t e.agentAvailability (e.agents t) q)

/-- What is computed in markets and for observations. A column of `xi_jacobian` has one element for each position of a product.
Used for pyblp/results/economy_results.py:1477-1533. -/
noncomputable def methodsOf (e : ScoreEconomy Mk G K2 N D Q) (chunks : ℤ) : ScoreMethods Mk (ScoreRow N D) (Q → ℕ → ℝ) Q where
  supported := e.included
  denominator := fun t =>
    match scoreDenominator (microOf e t e.agentAvailability (e.agents t) (xiOf e t)) (weightsOf e t (e.agents t)) () chunks with
    | .error err => .error err
    | .ok x => .ok (fun q j => if h : j < (e.products t).J + 1 then xiOf e t q ⟨j, h⟩ else 0, x.1, x.2)
  numerator := fun t rows j k xi =>
    match rows with
    | [] => .error .indexError
    | r :: rest =>
      let agents : Fin (rest.length + 1) → ScoreRow N D := fun i => (r :: rest).get i
      scoreNumerator (microOf e t e.microAvailability agents fun q j => xi q j) (weightsOf e t agents) () j k chunks

end

end Pyblp
