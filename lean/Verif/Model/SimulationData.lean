import Mathlib.Data.List.Sort
import Verif.Model.Agents

/-!
# Data of simulations (`Simulation.__init__`)

Which data a simulation takes from what is given, and which it draws.

Names of variables are a linear order `ν`, because Python sorts strings. Values of a variable are of a type `V`. The pseudo-random number
generator is a parameter: `uniform` takes its state to a draw for all rows and to its next state. A Python set is a list of its elements in
the order of its iteration, which Python does not specify, and which for strings differs from one process to the next.
-/

namespace Pyblp

section

variable {S ν V : Type} [LinearOrder ν]

/-- A mapping from names to data, in the order of insertion. Used for pyblp/economies/simulation.py:534-541 and 574-578 and 534 and 574. -/
abbrev VariableMapping (ν V : Type) := List (ν × V)

/-- The keys of a mapping. Used for pyblp/economies/simulation.py:534 and 574. -/
def keys (m : VariableMapping ν V) : List ν := m.map Prod.fst

/-- The loop over sorted names, pyblp/economies/simulation.py:534-541 and 574-578: variables are taken from data or else drawn. Dimensions and data
types are not modelled. -/
def loadOrDraw (uniform : S → V × S) (data : ν → Option V) : List ν → S × VariableMapping ν V → S × VariableMapping ν V
  | [], s => s
  | name :: rest, (state, mapping) =>
    match data name with
    | some values => loadOrDraw uniform data rest (state, mapping ++ [(name, values)])
    | none => loadOrDraw uniform data rest ((uniform state).2, mapping ++ [(name, (uniform state).1)])

/-- `sorted(formulation._names - set(mapping))`, pyblp/economies/simulation.py:534 and 574. -/
def newNames (names : List ν) (mapping : VariableMapping ν V) : List ν :=
  (names.filter fun n => decide (n ∉ keys mapping)).insertionSort (· ≤ ·)

/-- The loop over formulations, pyblp/economies/simulation.py:531-541. `formulations` are sets of names. -/
def loadFormulations (uniform : S → V × S) (data : ν → Option V) : List (List ν) → S × VariableMapping ν V → S × VariableMapping ν V
  | [], s => s
  | names :: rest, s => loadFormulations uniform data rest (loadOrDraw uniform data (newNames names s.2) s)

/-- Shares, which are draws divided by numbers of products by `divide` if they are missing, pyblp/economies/simulation.py:512-515. -/
def loadShares (uniform : S → V × S) (divide : V → V) (data : ν → Option V) (shares : ν) (state : S) : V × S :=
  match data shares with
  | some values => (values, state)
  | none => (divide (uniform state).1, (uniform state).2)

/-- Prices, which are draws if they are missing, pyblp/economies/simulation.py:513-517. -/
def loadPrices (uniform : S → V × S) (data : ν → Option V) (prices : ν) (state : S) : V × S :=
  match data prices with
  | some values => (values, state)
  | none => uniform state

/-- Product data of a simulation, pyblp/economies/simulation.py:507-541. `reserved` are IDs, lag indices and ownership, which are never drawn;
`loaded` is what is given of them. `shares` and `prices` are drawn first, and draws of shares are divided by numbers of products by `divide`. -/
def simulateProducts (uniform : S → V × S) (divide : V → V) (data : ν → Option V) (reserved : VariableMapping ν V) (shares prices : ν)
    (formulations : List (List ν)) (seed : S) : VariableMapping ν V :=
  let s := loadShares uniform divide data shares seed
  let p := loadPrices uniform data prices s.2
  (loadFormulations uniform data formulations (p.2, reserved ++ [(shares, s.1), (prices, p.1)])).2

end

section

variable {M A B D V : Type} [LinearOrder M]

/-- Structuring demographics along with other agent data, pyblp/economies/simulation.py:589 and pyblp/utilities/basics.py:208-209. A single row is
broadcast. -/
def structureDemographics (size : ℕ) : Option (List D) → Except PyErr (Option (List D))
  | none => .ok none
  | some l =>
    if l.length = size then .ok (some l)
    else
      match l with
      | [a] => .ok (some (List.replicate size a))
      | _ => .error .valueError

/-- Agent data and agents of a simulation with nonlinear characteristics, pyblp/economies/simulation.py:547-590, when demographics are given and
not drawn. -/
def simulationAgents (products : List M) (data : Option (AgentData M A B D V)) (integration : Option (M → List (V × ℚ))) :
    Except PyErr (List (AgentRow M A B D V)) :=
  match integration, data with
  | some build, _ =>
    let rows := buildMany build (uniqueMarkets products)
    match structureDemographics rows.length (data.elim none fun d => d.demographics) with
    | .error e => .error e
    | .ok demographics =>
      agentsNew products true (some ⟨rows.map fun p => p.1, none, none, demographics, some (rows.map fun p => p.2.1), some (rows.map fun p => p.2.2)⟩) none true
  | none, some d => agentsNew products true (some d) none true
  | none, none => .error .valueError

end

end Pyblp
