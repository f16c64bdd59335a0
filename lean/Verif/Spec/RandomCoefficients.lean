import Verif.Spec.NonlinearNormal
import Verif.Props.WholeGradient

/-!
# Specification: large samples of markets with random coefficients

A population of markets from which independent draws are made. In each market there are any number of products, with market shares, characteristics `X1` and `X2`
and instruments, and agents with weights, nodes and demographics. There is no nesting, and everybody is offered everything.
-/

set_option linter.unusedSectionVars false

open MeasureTheory ProbabilityTheory

namespace Pyblp

/-- A market without nesting, without scaling, and in which everybody is offered everything. -/
def plainMarket {J A G : Type} (weights : A → ℝ) : Market J A G := ⟨none, 1, weights, none⟩

namespace Spec

variable {C A K2 N D θ b z : Type}

/-- Markets. In market `x`, there are `more x` products in addition to the first one. -/
structure Markets (C A K2 N D b z : Type) where
  more : C → ℕ
  share : C → ℕ → ℝ
  X1 : C → ℕ → b → ℝ
  X2 : C → ℕ → K2 → ℝ
  instrument : C → ℕ → z → ℝ
  weights : C → A → ℝ
  nodes : C → A → N → ℝ
  demographics : C → A → D → ℕ → ℝ
  rcType : K2 → RcType

/-- Which elements of `sigma` and `pi` are parameters, and values of the others. -/
structure Coefficients (K2 N D θ : Type) where
  param : θ → K2 × N ⊕ K2 × D
  sigma : K2 → N → ℝ
  pi : K2 → D → ℝ

open Classical in
/-- `sigma`, given parameters. -/
noncomputable def Coefficients.sigmaAt [Fintype θ] (L : Coefficients K2 N D θ) (theta : θ → ℝ) (k : K2) (c : N) : ℝ :=
  if ∃ p, L.param p = .inl (k, c) then ∑ p, (if L.param p = .inl (k, c) then theta p else 0) else L.sigma k c

open Classical in
/-- `pi`, given parameters. -/
noncomputable def Coefficients.piAt [Fintype θ] (L : Coefficients K2 N D θ) (theta : θ → ℝ) (k : K2) (c : D) : ℝ :=
  if ∃ p, L.param p = .inr (k, c) then ∑ p, (if L.param p = .inr (k, c) then theta p else 0) else L.pi k c

variable [Fintype A] [Fintype K2] [Fintype N] [Fintype D] [Fintype θ] (R : Markets C A K2 N D b z) (L : Coefficients K2 N D θ)

/-- Products of a market. -/
abbrev Markets.Product (x : C) : Type := Fin (R.more x + 1)

/-- Tastes of agents in a market. -/
def Markets.tastes (x : C) : Tastes (R.Product x) A K2 N D where
  X2 j := R.X2 x j
  nodes := R.nodes x
  demographics i c j := R.demographics x i c j
  rcType := R.rcType

/-- Utility from random coefficients, by product and agent. -/
noncomputable def Markets.mu (theta : θ → ℝ) (x : C) : R.Product x → A → ℝ := computeMu (R.tastes x) (L.sigmaAt theta) (L.piAt theta)

/-- Mean utilities explain shares of a market. -/
def Markets.Explains (theta : θ → ℝ) (x : C) (delta : R.Product x → ℝ) : Prop :=
  computeShares (plainMarket (R.weights x) : Market (R.Product x) A Unit) {} delta (R.mu L theta x) = fun j : R.Product x => R.share x j

open Classical in
/-- Mean utilities that explain shares of a market. -/
noncomputable def Markets.meanUtilities (theta : θ → ℝ) (x : C) : R.Product x → ℝ :=
  if h : ∃ delta, R.Explains L theta x delta then h.choose else 0

/-- The share of the outside option. -/
def Markets.outside (x : C) : ℝ := 1 - ∑ j : R.Product x, R.share x j

/-- Mean utilities without random coefficients. -/
noncomputable def Markets.logit (x : C) (j : ℕ) : ℝ := Real.log (R.share x j) - Real.log (R.outside x)

/-- The model that is estimated: mean utilities are linear in `X1` and an error. -/
noncomputable def Markets.models : Models C (fun _ : Fin 1 ⊕ Fin 0 => z) (b ⊕ Empty) θ where
  size x := R.more x + 1
  regressor x _ j := Sum.elim (R.X1 x j) Empty.elim
  instrument x _ j := R.instrument x j
  outcome theta x _ j := if h : j < R.more x + 1 then R.meanUtilities L theta x ⟨j, h⟩ else 0

/-- Derivatives of mean utilities with respect to parameters. -/
noncomputable def Markets.slope [DecidableEq θ] (theta : θ → ℝ) (x : C) (e : Fin 1 ⊕ Fin 0) (j : ℕ) (p : θ) : ℝ :=
  deriv (fun s => (R.models L).outcome (Function.update theta p s) x e j) (theta p)

/-- Shares are positive and leave something to the outside option, weights are not negative and sum to one, parameters are different elements of `sigma` and `pi`,
and everything is measurable. Characteristics `X2`, nodes and demographics are bounded. Numbers of products, `X1`, instruments, mean utilities without random
coefficients, and products of these have finite second moments. -/
structure Markets.Regular [MeasurableSpace C] (law : Measure C) : Prop where
  distinct : Function.Injective L.param
  share : ∀ x j, j < R.more x + 1 → 0 < R.share x j
  outside : ∀ x, 0 < R.outside x
  nonneg : ∀ x i, 0 ≤ R.weights x i
  one : ∀ x, ∑ i, R.weights x i = 1
  measurable_more : Measurable R.more
  measurable_share : ∀ j, Measurable fun x => R.share x j
  measurable_X1 : ∀ j l, Measurable fun x => R.X1 x j l
  measurable_X2 : ∀ j k, Measurable fun x => R.X2 x j k
  measurable_instrument : ∀ j a, Measurable fun x => R.instrument x j a
  measurable_weights : ∀ i, Measurable fun x => R.weights x i
  measurable_nodes : ∀ i c, Measurable fun x => R.nodes x i c
  measurable_demographics : ∀ i c j, Measurable fun x => R.demographics x i c j
  tastes : ∃ K, ∀ x j i, (∀ k, |R.X2 x j k| ≤ K) ∧ (∀ c, |R.nodes x i c| ≤ K) ∧ ∀ c, |R.demographics x i c j| ≤ K
  size : MemLp (fun x => (R.more x + 1 : ℝ)) 2 law
  X1 : ∀ l, MemLp (fun x => ∑ j ∈ Finset.range (R.more x + 1), |R.X1 x j l|) 2 law
  instrument : ∀ a, MemLp (fun x => ∑ j ∈ Finset.range (R.more x + 1), |R.instrument x j a|) 2 law
  product : ∀ a l, MemLp (fun x => ∑ j ∈ Finset.range (R.more x + 1), |R.X1 x j l * R.instrument x j a|) 2 law
  logit : MemLp (fun x => ∑ j ∈ Finset.range (R.more x + 1), |R.logit x j|) 2 law
  moment : ∀ a, MemLp (fun x => ∑ j ∈ Finset.range (R.more x + 1), |R.logit x j * R.instrument x j a|) 2 law
  derivative : ∀ a, Integrable (fun x => (∑ j ∈ Finset.range (R.more x + 1), |R.instrument x j a|) / R.outside x) law

/-- A problem consists of the first `T` markets. -/
structure Markets.Panel (w : ℕ → C) (T n : ℕ) (P : PanelProblem n (Fin T) (fun t => R.Product (w t)) (fun _ => A) Unit Empty K2 Empty N D θ) : Prop where
  market : ∀ t, P.market t = plainMarket (R.weights (w t))
  tastes : ∀ t, P.tastes t = R.tastes (w t)
  shares : ∀ t j, P.shares t j = R.share (w t) j
  param : ∀ p, P.param p = Sum.elim (fun k => .sigma k.1 k.2) (fun k => .pi k.1 k.2) (L.param p)
  sigma : P.sigma = L.sigma
  pi : P.pi = L.pi

/-- Linear characteristics, instruments and market IDs of the problem are those of markets. What is evaluated for parameters in `Θ` are mean utilities that
explain shares, and their Jacobian as it is computed when a matrix is inverted exactly. -/
def Markets.Evaluates [Fintype b] [Fintype z] {n : ℕ} {q d ι S : Type} [Fintype q] [Fintype d] (Θ : Set (θ → ℝ)) (w : ℕ → C) (T : ℕ)
    (E : Estimation n 1 0 (fun _ => z) q b Empty θ d ι S) (o : (θ → ℝ) → Evaluated n θ d) : Prop :=
  ∃ P, R.Panel L w T n P ∧ E.data.demand 0 = .levels ∧ (∀ i l, E.data.X1 i l = R.X1 (w (P.locate i).1) (P.locate i).2 l) ∧
    (∀ i a, E.data.Z (.inl 0) i a = R.instrument (w (P.locate i).1) (P.locate i).2 a) ∧
    (∀ i i', E.ids i = E.ids i' ↔ (P.locate i).1 = (P.locate i').1) ∧
    ∀ theta ∈ Θ, ∃ delta inverse, Explained P theta delta ∧ InvertsShares P theta delta inverse ∧ (o theta).delta = P.ivDelta theta delta ∧
      (o theta).deltaJacobian = P.xiJacobian theta delta inverse

end Spec

end Pyblp
