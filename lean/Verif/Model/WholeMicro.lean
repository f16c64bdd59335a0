import Verif.Model.WholeProblem
import Verif.Model.MicroProbabilities
import Verif.Model.Moments

set_option linter.unusedSectionVars false

/-!
# Micro moments of a problem (`Problem._compute_progress`, pyblp/economies/problem.py:1162-1234)

What is computed for each market (`Verif/Model/Micro.lean` and `Verif/Model/MicroProbabilities.lean`) is added up over markets and passed to
functions that define micro moments. Without numerical errors, and with `options.micro_computation_chunks = 1`.
-/

namespace Pyblp

/-- Micro moments of a problem and micro data of its markets. Agents of market `t` are `agent t 0, ..., agent t (count t - 1)`, `included t`
says which datasets are observed in the market and `ids t` by which product IDs first choices are eliminated, `functions t` are
`compute_weights` of datasets and `compute_values` of parts for this market, and `value`, `computeValue` and `computeGradient` are attributes
of moments. Used for pyblp/economies/problem.py:1162-1234, pyblp/micro.py:125-178 and 340-437. -/
structure PanelMicro (M : Type) (J A : M → Type) (B Ds Part K : Type) where
  count : M → ℕ
  agent : (t : M) → ℕ → A t
  included : M → Ds → Bool
  ids : (t : M) → Ds → Option (J t → B)
  functions : (t : M) → MicroFunctions (A t) MicroShape (MicroCell (J t)) Ds Part
  config : MicroConfig K Part Ds
  moments : List K
  value : K → ℝ
  computeValue : K → List ℝ → ℝ
  computeGradient : K → List ℝ → List ℝ

/-- Results of a function for all elements of a list, or the first error. Used for pyblp/economies/problem.py:1099-1160. -/
def gather {α β : Type} (f : α → Except PyErr β) : List α → Except PyErr (List β)
  | [] => .ok []
  | a :: l =>
    match f a with
    | .error e => .error e
    | .ok b =>
      match gather f l with
      | .error e => .error e
      | .ok bs => .ok (b :: bs)

/-- `parts_numerator += parts_numerator_mapping[t]`, and the same for denominators and Jacobians, pyblp/economies/problem.py:1167-1171 and
1216-1225. -/
def addContributions {P Q : Type} (l : List (PartContribution P Q)) : PartContribution P Q :=
  l.foldl PartContribution.add PartContribution.zero

namespace PanelProblem

variable {n : ℕ} {M : Type} {J A : M → Type} {G K1 K2 K3 N D θ B Ds Part K : Type} [∀ t, Fintype (J t)] [∀ t, DecidableEq (J t)]
  [∀ t, Nonempty (J t)] [∀ t, Fintype (A t)] [Fintype G] [DecidableEq G] [Fintype K1] [Fintype K2] [Fintype K3] [Fintype N] [Fintype D]
  [DecidableEq B] [DecidableEq Part] [DecidableEq Ds] [DecidableEq K]

variable (P : PanelProblem n M J A G K1 K2 K3 N D θ) (Q : PanelMicro M J A B Ds Part K)

/-- What contributions of market `t` are computed from: probabilities, their derivatives with the contribution of `xi_jacobian`, and
`xi_jacobian` itself, pyblp/markets/problem_market.py:65-125. -/
noncomputable def microMarketAt (theta : θ → ℝ) (t : M) (delta : J t → ℝ) (inverse : J t → J t → ℝ) :
    MicroMarket (A t) MicroShape (MicroCell (J t)) Ds θ :=
  let m := P.marketAt theta t
  let probabilities := computeProbabilities m {} delta (P.muAt theta t)
  let conditionals := computeConditionals m {} delta (P.muAt theta t)
  let param := fun p : θ => ((P.param p).tangent (P.X1 t) (P.X3 t) : TangentParam (J t) G K2 N D)
  let tangents := fun p =>
    (probabilitiesTangent m (P.tastes t) (P.sigmaAt theta) (P.piAt theta) {} delta probabilities conditionals (param p)).1
  let xiJacobian := fun p => xiByTheta m inverse (tangents p)
  microMarket m (P.tastes t) (P.sigmaAt theta) (P.piAt theta) delta (Q.count t) (Q.agent t) (Q.included t) (Q.ids t) param
    (fun p => updateTangent m probabilities conditionals (param p) (tangents p) (xiJacobian p)) xiJacobian

/-- Contributions of all markets to a part, added up, pyblp/economies/problem.py:1165-1171 and 1210-1225. -/
noncomputable def partAt (markets : List M) (parts : List Part) (theta : θ → ℝ) (delta : (t : M) → J t → ℝ)
    (inverse : (t : M) → J t → J t → ℝ) (part : Part) : Except PyErr (PartContribution Part θ) :=
  match gather (fun t => microContributions (P.microMarketAt Q theta t (delta t) (inverse t)) (Q.functions t) Q.config.dataset
      (parts.take (parts.idxOf part + 1)) part 1) markets with
  | .error e => .error e
  | .ok l => .ok (addContributions l)

/-- Contributions to all parts. Used for pyblp/economies/problem.py:1162-1234. -/
noncomputable def partsAt (markets : List M) (parts : List Part) (theta : θ → ℝ) (delta : (t : M) → J t → ℝ)
    (inverse : (t : M) → J t → J t → ℝ) : Except PyErr (List (PartContribution Part θ)) :=
  gather (P.partAt Q markets parts theta delta inverse) parts

end PanelProblem

section moments

variable {M : Type} {J A : M → Type} {B Ds Part K θ : Type} [DecidableEq Part] [DecidableEq Ds] [DecidableEq K]
  (Q : PanelMicro M J A B Ds Part K)

/-- `parts_values`, pyblp/economies/problem.py:1175. -/
noncomputable def partsValues (x : List (PartContribution Part θ)) : List ℝ := x.map fun c => c.numerator / c.denominator

/-- `micro`, pyblp/economies/problem.py:1178-1189 and 1212. -/
noncomputable def PanelMicro.micro (parts : List Part) (x : List (PartContribution Part θ)) (k : Fin Q.moments.length) : ℝ :=
  let m := Q.moments[k]
  Q.value m - Q.computeValue m (partArguments Q.config.parts parts (partsValues x) m)

/-- `micro_jacobian`, pyblp/economies/problem.py:1191-1209 and 1214-1234. -/
noncomputable def PanelMicro.microJacobian (parts : List Part) (x : List (PartContribution Part θ)) :
    Except PyErr (Matrix (Fin Q.moments.length) θ ℝ) :=
  let gradient := fun m => Q.computeGradient m (partArguments Q.config.parts parts (partsValues x) m)
  if ∃ m ∈ Q.moments, (gradient m).length ≠ (Q.config.parts m).length then .error .valueError
  else .ok (Matrix.of fun k q =>
    Pyblp.microJacobian parts.length (scatterGradient (partIndices Q.config.parts parts Q.moments[k]) (gradient Q.moments[k])) fun i =>
      let c := x.getD i PartContribution.zero
      partsJacobianEntry c.numerator c.denominator (c.numeratorJacobian q) (c.denominatorJacobian q))

end moments

end Pyblp
