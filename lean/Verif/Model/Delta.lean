import Verif.Model.Probabilities
import Mathlib.Analysis.SpecialFunctions.Pow.Real

/-!
# Model of `Market.compute_delta`  (pyblp/markets/market.py:458-667) and `Economy._compute_logit_delta`
-/

namespace Pyblp

variable {J A G : Type} [Fintype J] [DecidableEq J] [Nonempty J] [Fintype G] [DecidableEq G] [Fintype A]

/-- The closed-form branch, pyblp/markets/market.py:474-487 (the same expression market by market is
`Economy._compute_logit_delta`, pyblp/economies/economy.py:410-435). `s` are the observed shares.
`epsilon_scale` is only applied without nesting (the `assert` on line 484). -/
noncomputable def closedFormDelta (m : Market J A G) (s : J → ℝ) (j : J) : ℝ :=
  match m.nesting with
  | some n =>
    (Real.log (s j) - Real.log (1 - ∑ k, s k)) -
      n.productRho j * (Real.log (s j) - Real.log (∑ k with n.group k = n.group j, s k))
  | none =>
    if m.epsilonScale ≠ 1 then (Real.log (s j) - Real.log (1 - ∑ k, s k)) * m.epsilonScale
    else Real.log (s j) - Real.log (1 - ∑ k, s k)

/-- `shares_bounds`: `none` stands for an infinite bound (pyblp/economies/economy.py:361-374 turns `None` and NaN into infinities). -/
structure SharesBounds where
  lb : Option ℝ
  ub : Option ℝ

/-- `clip_shares` for one product, pyblp/markets/market.py:548-573: the share after clipping and the entry of
`clipped_shares`. -/
noncomputable def clipShare (b : SharesBounds) (s : ℝ) : ℝ × Bool :=
  match b.lb, b.ub with
  | some lb, some ub =>
    let small := decide (s < lb)
    let s1 := if small then lb else s
    let large := decide (s1 > ub)
    let s2 := if large then ub else s1
    (s2, small || large)
  | some lb, none =>
    let clipped := decide (s < lb)
    (if clipped then lb else s, clipped)
  | none, some ub =>
    let clipped := decide (s > ub)
    (if clipped then ub else s, clipped)
  | none, none => (s, false)

/-- The factor applied to the difference of logs: one without nesting (pyblp/markets/market.py:582), `1 - rho` with (pyblp/markets/market.py:590 and 598). -/
noncomputable def dampener (m : Market J A G) (j : J) : ℝ :=
  match m.nesting with
  | none => 1
  | some n => 1 - n.productRho j

/-- The linear contraction, pyblp/markets/market.py:576-606, without its Jacobian: the next iterate. -/
noncomputable def linearContraction (m : Market J A G) (safe : Bool) (b : SharesBounds) (mu : J → A → ℝ) (s : J → ℝ)
    (x : J → ℝ) (j : J) : ℝ :=
  x j + (Real.log (s j) - Real.log (clipShare b (computeShares m { safe } x mu j)).1) * dampener m j

/-- `clipped_shares` after the evaluation at `x`, pyblp/markets/market.py:548-570, 581 and 597. -/
noncomputable def contractionClipped (m : Market J A G) (safe : Bool) (b : SharesBounds) (mu : J → A → ℝ)
    (x : J → ℝ) (j : J) : Bool :=
  (clipShare b (computeShares m { safe } x mu j)).2

/-- The Jacobian returned by the linear contraction, pyblp/markets/market.py:586-588 and 602-606. -/
noncomputable def linearContractionJacobian (m : Market J A G) (safe : Bool) (b : SharesBounds) (mu : J → A → ℝ)
    (x : J → ℝ) (j k : J) : ℝ :=
  let P := computeProbabilities m { safe } x mu
  let C := computeConditionals m { safe } x mu
  let shares := (clipShare b (computeShares m { safe } x mu j)).1
  match m.nesting with
  | none => (∑ i, P j i * (m.weights i * P k i)) / shares
  | some n =>
    ((1 - n.productRho j) * (∑ i, P j i * (m.weights i * P k i)) +
      n.productRho j * (if n.group j = n.group k then 1 else 0) * (∑ i, C j i * (m.weights i * P k i))) / shares

/-- `compute_probabilities(..., linear=False)` for one agent, pyblp/markets/market.py:391-395 and 411-456, with
exponentiated arguments `expDelta` and `expMu`; `r` is the `utility_reduction` argument and `numerator` the optional
numerator. Availability and elimination are not used on this path and are left out. -/
noncomputable def nonlinearProbabilities (m : Market J A G) (expDelta expMu : J → ℝ) (r : Option ℝ)
    (numerator : Option (J → ℝ)) (j : J) : ℝ :=
  match m.nesting with
  | none =>
    let e := fun k => expDelta k * expMu k
    (numerator.getD e) j / (plainScale false r + ∑ k, e k)
  | some n =>
    let e := fun k => (expDelta k * expMu k) ^ (1 / (1 - n.productRho k))
    let incl := fun g => ∑ k with n.group k = g, e k
    let wincl := fun g => expLogMul (incl g) (1 - n.rho.groupRho g)
    safeDiv (e j) (incl (n.group j)) *
      (wincl (n.group j) / (nestedScale n false r (n.group j) + ∑ h, scaleWeight n r (n.group j) h * wincl h))

/-- pyblp/markets/market.py:613-624: the `utility_reduction` of the nonlinear contraction, `none` unless `'safe' in fp_type`. -/
noncomputable def nonlinearReduction (safe : Bool) (mu : J → A → ℝ) (i : A) : Option ℝ :=
  if safe then some (utilityReduction fun j => mu j i) else none

/-- The nonlinear contraction, pyblp/markets/market.py:610-657, without its Jacobian. -/
noncomputable def nonlinearContraction (m : Market J A G) (safe : Bool) (mu : J → A → ℝ) (s : J → ℝ) (x : J → ℝ)
    (j : J) : ℝ :=
  let expMu := fun (i : A) (k : J) => Real.exp (mu k i - (nonlinearReduction safe mu i).getD 0)
  match m.nesting with
  | none =>
    s j / ∑ i, nonlinearProbabilities m x (expMu i) (nonlinearReduction safe mu i) (some (expMu i)) j * m.weights i
  | some n =>
    x j * (s j / ∑ i, nonlinearProbabilities m x (expMu i) (nonlinearReduction safe mu i) none j * m.weights i) ^
      (1 - n.productRho j)

/-- Python's `needle in hay` on strings, as lists of characters. Used for pyblp/markets/market.py:474-487 and 543-667. -/
def isSubstring (needle hay : List Char) : Bool := hay.tails.any fun t => needle.isPrefixOf t

/-- The accepted values of `fp_type`, pyblp/economies/economy.py:354-359. -/
inductive FpType where
  | linear | safe_linear | nonlinear | safe_nonlinear
  deriving DecidableEq

/-- The string itself. Used for pyblp/markets/market.py:474-487 and 543-667. -/
def FpType.chars : FpType → List Char
  | .linear => ['l', 'i', 'n', 'e', 'a', 'r']
  | .safe_linear => ['s', 'a', 'f', 'e', '_', 'l', 'i', 'n', 'e', 'a', 'r']
  | .nonlinear => ['n', 'o', 'n', 'l', 'i', 'n', 'e', 'a', 'r']
  | .safe_nonlinear => ['s', 'a', 'f', 'e', '_', 'n', 'o', 'n', 'l', 'i', 'n', 'e', 'a', 'r']

/-- `compute_delta`, pyblp/markets/market.py:474-487 and 543-667. `K2 = 0` uses the closed form. `iterate` is
`iteration._iterate`: it receives starting values and the contraction and returns the solution (its statistics and the
optional Jacobian are left out). -/
noncomputable def computeDelta (m : Market J A G) (K2 : ℕ) (b : SharesBounds) (mu : J → A → ℝ) (s : J → ℝ)
    (iterate : (J → ℝ) → ((J → ℝ) → (J → ℝ)) → (J → ℝ)) (fp : FpType) (initial : J → ℝ) : J → ℝ :=
  if K2 = 0 then closedFormDelta m s
  else if isSubstring ['l', 'i', 'n', 'e', 'a', 'r'] fp.chars then
    iterate initial (linearContraction m (isSubstring ['s', 'a', 'f', 'e'] fp.chars) b mu s)
  else
    fun j => Real.log (iterate (fun k => Real.exp (initial k))
      (nonlinearContraction m (isSubstring ['s', 'a', 'f', 'e'] fp.chars) mu s) j)

end Pyblp
