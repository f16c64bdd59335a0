import Verif.Model.PyErr
import Mathlib.Data.Finset.Sort
import Mathlib.Data.Finset.Dedup
import Mathlib.Data.Rat.Defs

/-!
# Agents

`Agents.__new__`, pyblp/primitives.py:305-434, and `structure_matrices`, pyblp/utilities/basics.py:190-210. Market IDs are a linear
order `M`. A field is a list of its rows. Rows of agent IDs, demographics, availability and nodes are of arbitrary types. Fields are
already extracted, and demographics are already built from the agent formulation row by row.
-/

namespace Pyblp

variable {M A B D V : Type} [LinearOrder M]

/-- Fields of `agent_data`. Used for pyblp/primitives.py:305-434. -/
structure AgentData (M A B D V : Type) where
  markets : List M
  agentIds : Option (List A)
  availability : Option (List B)
  demographics : Option (List D)
  nodes : Option (List V)
  weights : Option (List ℚ)

/-- A row of the record array of agents. Empty fields are `none`, and so are weights that are not specified.
Used for pyblp/primitives.py:427-434 and 305-434. -/
structure AgentRow (M A B D V : Type) where
  market : M
  agentId : Option A
  weight : Option ℚ
  node : Option V
  demographic : Option D
  availability : Option B
  deriving DecidableEq

/-- `np.unique`. Used for pyblp/primitives.py:305-434. -/
def uniqueMarkets (l : List M) : List M := l.toFinset.sort (· ≤ ·)

/-- Assigning a field to a record array with `size` rows, pyblp/utilities/basics.py:208-209. A single row is broadcast, and any other
number of rows is a `ValueError`. -/
def assignField {α : Type} (size : ℕ) : Option (List α) → Except PyErr (List (Option α))
  | none => .ok (List.replicate size none)
  | some l =>
    if l.length = size then .ok (l.map some)
    else
      match l with
      | [a] => .ok (List.replicate size (some a))
      | _ => .error .valueError

/-- `structure_matrices` as it is called at pyblp/primitives.py:427-434. Weights of `none` are a column of NaNs. -/
def structureAgents (markets : List M) (agentIds : Option (List A)) (weights : Option (List ℚ)) (nodes : Option (List V))
    (demographics : Option (List D)) (availability : Option (List B)) : Except PyErr (List (AgentRow M A B D V)) :=
  match assignField markets.length agentIds, assignField markets.length weights, assignField markets.length nodes,
    assignField markets.length demographics, assignField markets.length availability with
  | .ok a, .ok w, .ok v, .ok d, .ok b =>
    .ok ((List.range markets.length).zip markets |>.map fun p =>
      ⟨p.2, (a[p.1]?).join, (w[p.1]?).join, (v[p.1]?).join, (d[p.1]?).join, (b[p.1]?).join⟩)
  | _, _, _, _, _ => .error .valueError

/-- The loop that deletes rows of demographics, pyblp/primitives.py:378-391. -/
def trimDemographics (built : List M) (loaded : List M) (demographics : List D) : List M → Except PyErr (List D)
  | [] => .ok []
  | t :: rest =>
    if built.count t > loaded.count t then .error .valueError
    else
      match trimDemographics built loaded demographics rest with
      | .error e => .error e
      | .ok l =>
        .ok (((loaded.zip demographics).filter fun p => decide (p.1 = t)).map Prod.snd |>.take (built.count t) |>.append l)

/-- `integration._build_many`, pyblp/configurations/integration.py:162-186: nodes and weights of each market one market after the
other. Which ones are built for a market is a parameter. -/
def buildMany (build : M → List (V × ℚ)) (ids : List M) : List (M × V × ℚ) := ids.flatMap fun t => (build t).map fun p => (t, p.1, p.2)

/-- `Agents.__new__`, pyblp/primitives.py:305-434, without checks of types, dimensions and finiteness. `products` are market IDs of
products and `hasX2` says whether there are nonlinear characteristics. `integration` builds nodes and weights for a market. -/
def agentsNew (products : List M) (hasX2 : Bool) (data : Option (AgentData M A B D V)) (integration : Option (M → List (V × ℚ)))
    (checkWeights : Bool) : Except PyErr (List (AgentRow M A B D V)) :=
  if hasX2 = false then
    if data.isSome ∨ integration.isSome then .error .valueError
    else structureAgents (uniqueMarkets products) none (some (List.replicate (uniqueMarkets products).length 1)) none none none
  else if (match data with | some d => decide (uniqueMarkets products ≠ uniqueMarkets d.markets) | none => false) = true then
    .error .valueError
  else
    match integration, data with
    | some build, some d =>
      let rows := buildMany build (uniqueMarkets products)
      let markets := rows.map fun p => p.1
      match d.demographics with
      | none => structureAgents markets d.agentIds (some (rows.map fun p => p.2.2)) (some (rows.map fun p => p.2.1)) none d.availability
      | some demographics =>
        match trimDemographics markets d.markets demographics (uniqueMarkets markets) with
        | .error e => .error e
        | .ok l => structureAgents markets d.agentIds (some (rows.map fun p => p.2.2)) (some (rows.map fun p => p.2.1)) (some l) d.availability
    | some build, none =>
      let rows := buildMany build (uniqueMarkets products)
      structureAgents (rows.map fun p => p.1) none (some (rows.map fun p => p.2.2)) (some (rows.map fun p => p.2.1)) none none
    | none, none => .error .valueError
    | none, some d =>
      match d.nodes, d.weights with
      | none, _ => .error .keyError
      | some nodes, none =>
        if checkWeights then .error .keyError
        else structureAgents d.markets d.agentIds none (some nodes) d.demographics d.availability
      | some nodes, some weights => structureAgents d.markets d.agentIds (some weights) (some nodes) d.demographics d.availability

end Pyblp
