import Mathlib.Analysis.SpecialFunctions.Log.Basic
import Mathlib.Data.Fintype.BigOperators

/-!
# Model of `Market.compute_probabilities`  (pyblp/markets/market.py)

Products, agents and nesting groups of one market are the finite types `J`, `A`, `G` (in the code: row numbers
`0..J-1`, `0..I-1` and positions in `self.groups.unique`). Floats are real numbers.
-/

namespace Pyblp

variable {J A G : Type}

/-- `rho` as stored by `Market.__init__`, pyblp/markets/market.py:152-158: either one value for every group
(`rho_size == 1`) or one value per group (`rho_size > 1`, already looked up with `searchsorted`). -/
inductive RhoParam (G : Type) where
  | single (r : ℝ)
  | perGroup (r : G → ℝ)

/-- `self.group_rho`, pyblp/markets/market.py:153-157. -/
def RhoParam.groupRho : RhoParam G → G → ℝ
  | .single r => fun _ => r
  | .perGroup r => r

/-- The test `self.rho_size > 1`, pyblp/markets/market.py:418. -/
def RhoParam.sizeGtOne : RhoParam G → Bool
  | .single _ => false
  | .perGroup _ => true

/-- The nesting structure of a market: `self.groups` (pyblp/markets/market.py:122) maps products to groups and `rho` is described by
`RhoParam`. -/
structure Nesting (J G : Type) where
  group : J → G
  rho : RhoParam G

/-- `self.rho` expanded to products, pyblp/markets/market.py:155 and 158. -/
def Nesting.productRho (n : Nesting J G) (j : J) : ℝ := n.rho.groupRho (n.group j)

/-- The part of a `Market` that choice probabilities depend on (pyblp/markets/market.py:66-163): the nesting structure
(`none` when `self.H == 0`), `self.epsilon_scale`, the integration weights `self.agents.weights` and
`self.agents.availability` (`none` when its size is zero, market.py:115-117; agent-specific multipliers). -/
structure Market (J A G : Type) where
  nesting : Option (Nesting J G)
  epsilonScale : ℝ
  weights : A → ℝ
  availability : Option (A → J → ℝ)

/-- Optional arguments of `compute_probabilities` used by the callers that are modelled, pyblp/markets/market.py:360-373,
with `linear=True`. `eliminateProduct` is `eliminate_product`; `eliminateMask` is the row mask
`product_ids[:, product_ids_index] == eliminate_product_id` of lines 436-437 (all `false` when it is `None`).
`availability`, when given, replaces the agents' own (lines 426-427). -/
structure ProbOpts (J A : Type) where
  safe : Bool := true
  eliminateOutside : Bool := false
  eliminateProduct : Option J := none
  eliminateMask : J → Bool := fun _ => false
  availability : Option (A → J → ℝ) := none

/-- pyblp/markets/market.py:397-403: `utilities = delta + mu`, divided by `1 - rho` with nesting and by `epsilon_scale` otherwise
(`epsilon_scale != 1` is only allowed without nesting: the `assert` on line 402, enforced in economy.py). -/
noncomputable def utilities (m : Market J A G) (delta : J → ℝ) (mu : J → A → ℝ) (j : J) (i : A) : ℝ :=
  match m.nesting with
  | some n => (delta j + mu j i) / (1 - n.productRho j)
  | none => if m.epsilonScale ≠ 1 then (delta j + mu j i) / m.epsilonScale else delta j + mu j i

/-- pyblp/markets/market.py:406: `np.clip(utilities.max(axis=0), 0, None)` for one agent. -/
noncomputable def utilityReduction [Fintype J] [Nonempty J] (u : J → ℝ) : ℝ :=
  max (Finset.univ.sup' Finset.univ_nonempty u) 0

/-- pyblp/markets/market.py:411-423: the constant in the denominator for group-free probabilities; `r` is the utility reduction or `none`
when `safe` is false. -/
noncomputable def plainScale (eliminateOutside : Bool) (r : Option ℝ) : ℝ :=
  if eliminateOutside then 0 else
    match r with
    | none => 1
    | some r => Real.exp (-r)

/-- pyblp/markets/market.py:411-423 with nesting: `scale` for group `g`. -/
noncomputable def nestedScale (n : Nesting J G) (eliminateOutside : Bool) (r : Option ℝ) (g : G) : ℝ :=
  if eliminateOutside then 0 else
    match r with
    | none => 1
    | some r => Real.exp (-r * (1 - n.rho.groupRho g))

/-- pyblp/markets/market.py:412 and 418-419: `scale_weights[a, b]`, `exp(-reduction * (group_rho.T - group_rho))[a, b]`. -/
noncomputable def scaleWeight (n : Nesting J G) (r : Option ℝ) (a b : G) : ℝ :=
  match r with
  | none => 1
  | some r => if n.rho.sizeGtOne then Real.exp (-r * (n.rho.groupRho b - n.rho.groupRho a)) else 1

/-- pyblp/markets/market.py:425-437: multiply exponentiated utilities by availability and zero out eliminated products. -/
noncomputable def restrict [DecidableEq J] (m : Market J A G) (o : ProbOpts J A) (e : J → ℝ) (i : A) (j : J) : ℝ :=
  if o.eliminateProduct = some j ∨ o.eliminateMask j = true then 0
  else
    match (o.availability <|> m.availability) with
    | some a => e j * a i j
    | none => e j

/-- pyblp/markets/market.py:449 and 451: `exp(log(x) * y)` where a zero `x` (log is `-inf`) gives `0`. (With `x` negative the code's
`nan` is also replaced by zero; inclusive values are never negative.) -/
noncomputable def expLogMul (x y : ℝ) : ℝ := if x = 0 then 0 else Real.exp (Real.log x * y)

/-- pyblp/markets/market.py:450 and 452: `x / y` where the `0 / 0` of an empty group is replaced by `0`. Real division by zero is `0`. -/
noncomputable def safeDiv (x y : ℝ) : ℝ := if y = 0 then 0 else x / y

/-- `compute_probabilities` for one agent, pyblp/markets/market.py:390-456 with `linear=True`: the pair of choice
probabilities and (with nesting) probabilities conditional on the group. -/
noncomputable def agentProbabilities [Fintype J] [DecidableEq J] [Nonempty J] [Fintype G] [DecidableEq G]
    (m : Market J A G) (o : ProbOpts J A) (delta : J → ℝ) (mu : J → A → ℝ) (i : A) :
    (J → ℝ) × Option (J → ℝ) :=
  let u := fun j => utilities m delta mu j i
  let r : Option ℝ := if o.safe then some (utilityReduction u) else none
  let expUtilities := restrict m o (fun j => Real.exp (u j - r.getD 0)) i
  match m.nesting with
  | none =>
    let scale := plainScale o.eliminateOutside r
    (fun j => expUtilities j / (scale + ∑ k, expUtilities k), none)
  | some n =>
    let expInclusives := fun g => ∑ k with n.group k = g, expUtilities k
    let expWeightedInclusives := fun g => expLogMul (expInclusives g) (1 - n.rho.groupRho g)
    let conditionals := fun j => safeDiv (expUtilities j) (expInclusives (n.group j))
    let marginals := fun g => expWeightedInclusives g /
      (nestedScale n o.eliminateOutside r g + ∑ h, scaleWeight n r g h * expWeightedInclusives h)
    (fun j => conditionals j * marginals (n.group j), some conditionals)

/-- `compute_probabilities` for all agents (pyblp/markets/market.py:360-456): row `j`, column `i`. -/
noncomputable def computeProbabilities [Fintype J] [DecidableEq J] [Nonempty J] [Fintype G] [DecidableEq G]
    (m : Market J A G) (o : ProbOpts J A) (delta : J → ℝ) (mu : J → A → ℝ) (j : J) (i : A) : ℝ :=
  (agentProbabilities m o delta mu i).1 j

/-- The second value returned by `compute_probabilities` when there is nesting (pyblp/markets/market.py:456). -/
noncomputable def computeConditionals [Fintype J] [DecidableEq J] [Nonempty J] [Fintype G] [DecidableEq G]
    (m : Market J A G) (o : ProbOpts J A) (delta : J → ℝ) (mu : J → A → ℝ) (j : J) (i : A) : ℝ :=
  match (agentProbabilities m o delta mu i).2 with
  | some c => c j
  | none => 0

/-- `compute_probabilities(...)[0] @ self.agents.weights`, e.g. pyblp/markets/market.py:580 and 901. -/
noncomputable def computeShares [Fintype J] [DecidableEq J] [Nonempty J] [Fintype G] [DecidableEq G] [Fintype A]
    (m : Market J A G) (o : ProbOpts J A) (delta : J → ℝ) (mu : J → A → ℝ) (j : J) : ℝ :=
  ∑ i, computeProbabilities m o delta mu j i * m.weights i

end Pyblp
