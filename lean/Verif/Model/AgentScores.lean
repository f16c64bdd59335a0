import Verif.Model.Scores

/-!
# Scores of agents

`compute_agent_scores` (pyblp/results/economy_results.py:1536-1668) without micro data and without an integration configuration: each
agent is an observation, for which scores of all choices are computed.
-/

namespace Pyblp

variable {Mk G K2 N D Q : Type} [LinearOrder Mk] [Fintype G] [DecidableEq G] [Fintype K2] [Fintype N] [Fintype D]

/-- An agent as an observation, which has an integration weight of one, pyblp/results/economy_results.py:1602-1609. -/
def agentObservation (r : ScoreRow N D) : Fin 1 → ScoreRow N D := fun _ => { r with weight := 1 }

/-- Numerators of all agents of a market and their derivatives, pyblp/results/economy_results.py:1640-1642, in the order of agents. -/
noncomputable def agentNumerators (e : ScoreEconomy Mk G K2 N D Q) (t : Mk) :
    Except PyErr (List (MicroShape × (MicroCell (Fin ((e.products t).J + 1)) → ℝ) × (Q → MicroCell (Fin ((e.products t).J + 1)) → ℝ))) :=
  collect (fun i => scoreNumerators (microOf e t e.agentAvailability (agentObservation (e.agents t i)) (xiOf e t))
    (weightsOf e t (agentObservation (e.agents t i))) ()) (List.finRange (e.agentCount t + 1))

/-- `compute_agent_scores`, pyblp/results/economy_results.py:1536-1668. `markets` are those with agents of the dataset. The result is, for each
market, a list with the scores of its agents by parameter and choice. `np.stack` needs arrays of the same shape, which is that of the
first agent: arrays of different shapes are not modelled. -/
noncomputable def agentScores (e : ScoreEconomy Mk G K2 N D Q) (markets : List Mk) :
    Except PyErr ((t : Mk) → Option (List (Q → MicroCell (Fin ((e.products t).J + 1)) → Option ℝ))) :=
  match collect (methodsOf e 1).denominator (uniqueSorted markets) with
  | .error err => .error err
  | .ok denominators =>
    match collect (fun t => (agentNumerators e t).map fun _ => ()) (uniqueSorted markets) with
    | .error err => .error err
    | .ok _ =>
      let denominator := (denominators.map fun x => x.2.1).sum
      let denominatorTangent := fun q => (denominators.map fun x => x.2.2 q).sum
      .ok fun t =>
        if t ∈ markets then
          (agentNumerators e t).toOption.map fun l => l.map fun n q c => scoreOf (n.2.1 c) (n.2.2 q c) denominator (denominatorTangent q)
        else none

/-! ## With micro data -/

/-- Arguments that `MicroAgents` is called with. Used for pyblp/results/economy_results.py:1583-1625. -/
inductive MicroAgentsArgument
  | products | parameters | microData | demographics | formulations | integration
  deriving DecidableEq

/-- A call with positional arguments: there is an exception if there are fewer arguments than are required, or more than there are parameters.
Used for pyblp/primitives.py:450-458. -/
def callPositional {α β : Type} (required optional : ℕ) (f : List α → Except PyErr β) (arguments : List α) : Except PyErr β :=
  if arguments.length < required ∨ required + optional < arguments.length then .error .typeError else f arguments

/-- The call in `compute_micro_scores`, pyblp/results/economy_results.py:1492-1499. -/
def microScoresCall : List MicroAgentsArgument := [.products, .parameters, .microData, .demographics, .formulations, .integration]

/-- The calls in `compute_agent_scores`, with and without micro data, pyblp/results/economy_results.py:1589-1597 and 1618-1625. -/
def agentScoresCall (given : Bool) : List MicroAgentsArgument :=
  if given then [.products, .parameters, .microData, .demographics, .demographics, .formulations, .integration]
  else [.products, .parameters, .microData, .demographics, .formulations, .integration]

/-- `MicroAgents.__new__` has three parameters without and three with defaults, pyblp/primitives.py:450-458. `build` is what it does, and
`rest` is what is done with its result. -/
def withMicroAgents {X β : Type} (call : List MicroAgentsArgument) (build : List MicroAgentsArgument → Except PyErr X) (rest : X → Except PyErr β) :
    Except PyErr β :=
  match callPositional 3 3 build call with
  | .error err => .error err
  | .ok x => rest x

end Pyblp
