import Verif.Model.Tangents
import Verif.Model.Micro

/-!
# Choice probabilities in micro datasets

The part of `Market.compute_micro_dataset_contributions` that computes probabilities of first and second choices, and their derivatives
(pyblp/markets/market.py:1567-1908). Everything is elementwise in agents, except for the test whether probabilities of all agents are
finite.
-/

namespace Pyblp

variable {J A G K2 N D B : Type} [Fintype J] [DecidableEq J] [Nonempty J] [Fintype G] [DecidableEq G] [DecidableEq B]

/-- The products that are removed together with first choice `j`: `j` itself, or all with the same product ID (column
`eliminated_product_ids_index`), pyblp/markets/market.py:1613-1618, 1644 and 1673. -/
def removedWith (ids : Option (J → B)) (j k : J) : Bool :=
  match ids with
  | none => decide (k = j)
  | some id => decide (id k = id j)

/-- Arguments with which probabilities are computed from scratch, pyblp/markets/market.py:1649-1654 and 1678-1684. -/
def removalOptions (ids : Option (J → B)) (j : J) : ProbOpts J A :=
  match ids with
  | none => { eliminateProduct := some j }
  | some id => { eliminateMask := fun k => decide (id k = id j) }

/-- `eliminated_probabilities[ids_index][j, k, i]`, pyblp/markets/market.py:1634-1691. `P` are `probabilities`. Without nesting they are
rescaled unless one that was not removed is not finite, because its denominator is zero. -/
noncomputable def eliminatedProbabilities (m : Market J A G) (P : J → A → ℝ) (delta : J → ℝ) (mu : J → A → ℝ) (ids : Option (J → B))
    (j k : J) (i : A) : ℝ :=
  open Classical in
  let denominator := fun i => 1 - ∑ l with removedWith ids j l = true, P l i
  if m.nesting.isNone ∧ ∀ i k, removedWith ids j k = false → denominator i ≠ 0 then
    if removedWith ids j k then 0 else P k i / denominator i
  else computeProbabilities m (removalOptions ids j) delta mu k i

/-- `outside_eliminated_probabilities`, pyblp/markets/market.py:1778-1791. -/
noncomputable def outsideEliminatedProbabilities (m : Market J A G) (P : J → A → ℝ) (delta : J → ℝ) (mu : J → A → ℝ) (k : J) (i : A) : ℝ :=
  open Classical in
  if m.nesting.isNone ∧ ∀ i, ∑ l, P l i ≠ 0 then P k i / ∑ l, P l i
  else computeProbabilities m { eliminateOutside := true } delta mu k i

/-- `eliminated_probabilities_tangent_mapping[ids_index][p]`, pyblp/markets/market.py:1693-1774. `tangent` is
`probabilities_tangent_mapping[p]`, which contains the contribution of unobserved characteristics, and `xiJacobian` is the column of the
Jacobian for `p`. A ratio that is not finite is replaced by zero. -/
noncomputable def eliminatedTangent (m : Market J A G) (T : Tastes J A K2 N D) [Fintype K2] [Fintype N] [Fintype D] (sigma : K2 → N → ℝ)
    (pi : K2 → D → ℝ) (P : J → A → ℝ) (delta : J → ℝ) (ids : Option (J → B)) (p : TangentParam J G K2 N D) (tangent : J → A → ℝ)
    (xiJacobian : J → ℝ) (j k : J) (i : A) : ℝ :=
  let mu := computeMu T sigma pi
  let E := eliminatedProbabilities m P delta mu ids
  match m.nesting with
  | none =>
    let ratio := if P k i = 0 then 0 else E j k i / P k i
    ratio * (tangent k i + E j k i * ∑ l with removedWith ids j l = true, tangent l i)
  | some _ =>
    let o := removalOptions ids j
    let C := computeConditionals m o delta mu
    updateTangent m (E j) C p (probabilitiesTangent m T sigma pi o delta (E j) C p).1 xiJacobian k i

/-- `outside_eliminated_probabilities_tangent_mapping[p]`, pyblp/markets/market.py:1793-1826. -/
noncomputable def outsideEliminatedTangent (m : Market J A G) (T : Tastes J A K2 N D) [Fintype K2] [Fintype N] [Fintype D]
    (sigma : K2 → N → ℝ) (pi : K2 → D → ℝ) (P : J → A → ℝ) (delta : J → ℝ) (p : TangentParam J G K2 N D) (tangent : J → A → ℝ)
    (xiJacobian : J → ℝ) (k : J) (i : A) : ℝ :=
  let mu := computeMu T sigma pi
  let O := outsideEliminatedProbabilities m P delta mu
  match m.nesting with
  | none =>
    let ratio := if P k i = 0 then 0 else O k i / P k i
    ratio * (tangent k i - O k i * ∑ l, tangent l i)
  | some _ =>
    let C := computeConditionals m { eliminateOutside := true } delta mu
    updateTangent m O C p (probabilitiesTangent m T sigma pi {} delta O C p).1 xiJacobian k i

/-- A cell of an array with weights: a choice, or a pair of first and second choices. The outside option is `none`.
Used for pyblp/markets/market.py:1850-1871. -/
inductive MicroCell (J : Type) where
  | first (c : Option J)
  | second (c c2 : Option J)
  deriving DecidableEq

/-- Shapes of arrays with weights, pyblp/markets/market.py:1526-1539: whether the outside option is included among first, and among second
choices. -/
inductive MicroShape where
  | first (outside : Bool)
  | second (outside outside2 : Bool)
  deriving DecidableEq

/-- Products, with or without the outside option. Used for pyblp/markets/market.py:1850-1871. -/
def choices (outside : Bool) : Finset (Option J) :=
  if outside then Finset.univ else Finset.univ.image some

/-- Cells of an array with some shape. Used for pyblp/markets/market.py:1850-1871. -/
def MicroShape.cells : MicroShape → Finset (MicroCell J)
  | .first o => (choices o).image .first
  | .second o o2 => (choices o ×ˢ choices o2).image fun c => .second c.1 c.2

/-- What weights are multiplied by, for one agent: `P` are probabilities of products or their derivatives, `outside` is that of the outside
option, `E` are those after products are removed, `O` those after the outside option is removed, and `EO` those of the outside option after
products are removed. pyblp/markets/market.py:1850-1871 for probabilities and 1886-1906 for derivatives. -/
def microProduct (P : J → ℝ) (outside : ℝ) (E : J → J → ℝ) (O : J → ℝ) (EO : J → ℝ) : MicroCell J → ℝ
  | .first (some j) => P j
  | .first none => outside
  | .second (some j) (some k) => if j = k then 0 else E j k - P k
  | .second none (some k) => O k - P k
  | .second (some j) none => EO j - outside
  | .second none none => 0

/-- What weights of agent `i` are multiplied by (`product` of pyblp/markets/market.py:1858, or `probabilities.T` with only first choices). -/
noncomputable def cellProbability (m : Market J A G) (P : J → A → ℝ) (delta : J → ℝ) (mu : J → A → ℝ) (ids : Option (J → B))
    (c : MicroCell J) (i : A) : ℝ :=
  let E := eliminatedProbabilities m P delta mu ids
  microProduct (fun j => P j i) (1 - ∑ j, P j i) (fun j k => E j k i) (fun k => outsideEliminatedProbabilities m P delta mu k i)
    (fun j => 1 - ∑ k, E j k i) c

/-- The same for derivatives (`product` of pyblp/markets/market.py:1892). Lines 1629-1632 and 1835-1838 have derivatives of probabilities of the outside
option. -/
noncomputable def cellTangent (m : Market J A G) (T : Tastes J A K2 N D) [Fintype K2] [Fintype N] [Fintype D] (sigma : K2 → N → ℝ)
    (pi : K2 → D → ℝ) (P : J → A → ℝ) (delta : J → ℝ) (ids : Option (J → B)) (p : TangentParam J G K2 N D) (tangent : J → A → ℝ)
    (xiJacobian : J → ℝ) (c : MicroCell J) (i : A) : ℝ :=
  let dE := eliminatedTangent m T sigma pi P delta ids p tangent xiJacobian
  microProduct (fun j => tangent j i) (-∑ j, tangent j i) (fun j k => dE j k i)
    (fun k => outsideEliminatedTangent m T sigma pi P delta p tangent xiJacobian k i) (fun j => -∑ k, dE j k i) c

/-- The market as `compute_micro_contributions` sees it: agents `agent 0, ..., agent (I - 1)`, datasets `d` that are observed in the market
if `included d`, and unfixed parameters `param q`. `xiJacobian q` is a column of the Jacobian of unobserved characteristics and `tangent q`
are derivatives of probabilities that include their contribution. Used for pyblp/markets/market.py:1959-2068. -/
noncomputable def microMarket {Ds Q : Type} (m : Market J A G) (T : Tastes J A K2 N D) [Fintype K2] [Fintype N] [Fintype D] (sigma : K2 → N → ℝ)
    (pi : K2 → D → ℝ) (delta : J → ℝ) (I : ℕ) (agent : ℕ → A) (included : Ds → Bool) (ids : Ds → Option (J → B))
    (param : Q → TangentParam J G K2 N D) (tangent : Q → J → A → ℝ) (xiJacobian : Q → J → ℝ) :
    MicroMarket A MicroShape (MicroCell J) Ds Q :=
  let P := computeProbabilities m {} delta (computeMu T sigma pi)
  { I := I
    row := agent
    cells := MicroShape.cells
    included := included
    factor := fun d i c => m.weights (agent i) * cellProbability m P delta (computeMu T sigma pi) (ids d) c (agent i)
    tangent := fun d q i c => m.weights (agent i) *
      cellTangent m T sigma pi P delta (ids d) (param q) (tangent q) (xiJacobian q) c (agent i)
    flat := fun s w => match s with
      | .first _ => true
      | .second o o2 => open Classical in o2 && decide (∀ c ∈ choices o, ∀ c2, w (.second c c2) = w (.second c none)) }

end Pyblp
