import Verif.Lemmas.LinearSteps
import Mathlib.Probability.Independence.Basic
import Mathlib.MeasureTheory.Function.L2Space

/-!
# Specification: large samples of clusters

What the property about large samples is about: a population of clusters (markets, for example) from which independent draws are made, each with
any number of rows (products), and limits of what is computed from these rows.
-/

open MeasureTheory ProbabilityTheory

namespace Pyblp.Spec

variable {C Ω : Type} {nd ns : ℕ} {m : Fin nd ⊕ Fin ns → Type} {k : Type}

/-- What clusters look like. Cluster `x` has `size x` rows. For each equation, row `j` has regressors, instruments, and an error. -/
structure Clusters (C : Type) {nd ns : ℕ} (m : Fin nd ⊕ Fin ns → Type) (k : Type) where
  size : C → ℕ
  regressor : C → (e : Fin nd ⊕ Fin ns) → ℕ → k → ℝ
  instrument : C → (e : Fin nd ⊕ Fin ns) → ℕ → m e → ℝ
  error : C → Fin nd ⊕ Fin ns → ℕ → ℝ

variable (P : Clusters C m k)

/-- The sum over rows in a cluster. -/
def Clusters.total (x : C) (f : ℕ → ℝ) : ℝ := ∑ j ∈ Finset.range (P.size x), f j

/-- The average over rows in the population. -/
noncomputable def Clusters.average [MeasurableSpace C] (law : Measure C) (f : C → ℕ → ℝ) : ℝ := (∫ x, P.total x (f x) ∂law) / ∫ x, (P.size x : ℝ) ∂law

/-- Numbers of rows and what is in them have finite second moments. There are some rows. -/
structure Clusters.Bounded [MeasurableSpace C] (law : Measure C) : Prop where
  measurable_size : Measurable P.size
  measurable_regressor : ∀ e j l, Measurable fun x => P.regressor x e j l
  measurable_instrument : ∀ e j a, Measurable fun x => P.instrument x e j a
  measurable_error : ∀ e j, Measurable fun x => P.error x e j
  size : MemLp (fun x => (P.size x : ℝ)) 2 law
  regressor : ∀ e l, MemLp (fun x => P.total x fun j => |P.regressor x e j l|) 2 law
  instrument : ∀ e a, MemLp (fun x => P.total x fun j => |P.instrument x e j a|) 2 law
  error : ∀ e, MemLp (fun x => P.total x fun j => |P.error x e j|) 2 law
  moment : ∀ e a, MemLp (fun x => P.total x fun j => |P.error x e j * P.instrument x e j a|) 2 law
  slope : ∀ e a l, MemLp (fun x => P.total x fun j => |P.regressor x e j l * P.instrument x e j a|) 2 law
  nonempty : 0 < ∫ x, (P.size x : ℝ) ∂law

/-- In addition, instruments are valid. -/
structure Clusters.Regular [MeasurableSpace C] (law : Measure C) : Prop extends P.Bounded law where
  exogenous : ∀ e a, P.average law (fun x j => P.error x e j * P.instrument x e j a) = 0

/-- Averages of products of regressors and instruments. -/
noncomputable def Clusters.slopes [MeasurableSpace C] (law : Measure C) : Matrix (MomentIndex m) k ℝ :=
  Matrix.of fun a l => P.average law fun x j => P.regressor x a.1 j l * P.instrument x a.1 j a.2

/-- Covariances of moments: those of homoskedastic errors, those of errors that are independent across rows, and those of clusters. The last are always
right. -/
noncomputable def Clusters.covariances [MeasurableSpace C] (law : Measure C) : CovarianceType → Matrix (MomentIndex m) (MomentIndex m) ℝ
  | .unadjusted => Matrix.of fun a c =>
    (P.average law (fun x j => P.error x a.1 j * P.error x c.1 j) - P.average law (fun x j => P.error x a.1 j) * P.average law fun x j => P.error x c.1 j) *
      P.average law fun x j => P.instrument x a.1 j a.2 * P.instrument x c.1 j c.2
  | .robust => Matrix.of fun a c =>
    P.average law fun x j => (P.error x a.1 j * P.instrument x a.1 j a.2) * (P.error x c.1 j * P.instrument x c.1 j c.2)
  | .clustered => Matrix.of fun a c =>
    (∫ x, (P.total x fun j => P.error x a.1 j * P.instrument x a.1 j a.2) * (P.total x fun j => P.error x c.1 j * P.instrument x c.1 j c.2) ∂law) /
      ∫ x, (P.size x : ℝ) ∂law

/-- Averages of products of instruments of the same equation. -/
noncomputable def Clusters.instruments [MeasurableSpace C] (law : Measure C) : Matrix (MomentIndex m) (MomentIndex m) ℝ :=
  Matrix.of fun a c => if a.1 = c.1 then P.average law fun x j => P.instrument x a.1 j a.2 * P.instrument x c.1 j c.2 else 0

section Estimators

variable [Fintype k] [DecidableEq k] [∀ e, Fintype (m e)]

/-- GMM with weights `W` multiplies averages of moments by this. -/
noncomputable def gain (Q : Matrix (MomentIndex m) k ℝ) (W : Matrix (MomentIndex m) (MomentIndex m) ℝ) : Matrix k (MomentIndex m) ℝ :=
  (Q.transpose * W * Q)⁻¹ * Q.transpose * W

/-- The asymptotic variance of GMM with weights `W` when moments have covariances `S`. -/
noncomputable def variance (Q : Matrix (MomentIndex m) k ℝ) (W S : Matrix (MomentIndex m) (MomentIndex m) ℝ) : Matrix k k ℝ :=
  gain Q W * S * (gain Q W).transpose

end Estimators

variable {N : ℕ} {q b g θ d ι D : Type} [∀ e, Fintype (m e)] [Fintype q] [Fintype b] [Fintype g] [Fintype θ] [Fintype d]

/-- The data of a problem are the rows of the first `T` clusters in any order, cluster IDs tell these apart, and outcomes are given by true parameters and
errors. -/
def Sampled (P : Clusters C m (b ⊕ g)) (w : ℕ → C) (T : ℕ) (E : Estimation N nd ns m q b g θ d ι D) (o : Evaluated N θ d) (beta : b ⊕ g → ℝ) : Prop :=
  ∃ place : Fin N ≃ (t : Fin T) × Fin (P.size (w t)),
    (∀ i e l, E.data.regressors o.phi e i l = P.regressor (w (place i).1) e (place i).2 l) ∧
    (∀ i e a, E.data.Z e i a = P.instrument (w (place i).1) e (place i).2 a) ∧
    (∀ i e, E.data.equations o.phi o.delta o.costs e i =
      ∑ l, P.regressor (w (place i).1) e (place i).2 l * beta l + P.error (w (place i).1) e (place i).2) ∧
    ∀ i i', E.ids i = E.ids i' ↔ (place i).1 = (place i').1

/-- Weights on moments. -/
def momentWeights (W : Estimation.Weights m q d) : Matrix (MomentIndex m) (MomentIndex m) ℝ := Matrix.of fun a c => W (.inl (.inl a)) (.inl (.inl c))

/-- Limits of weights used in the last step: initial ones if these are not updated, and inverses of covariances otherwise. -/
noncomputable def lastWeights [∀ e, DecidableEq (m e)] [MeasurableSpace C] (P : Clusters C m k) (law : Measure C) (method : GmmMethod)
    (initialUpdate : Bool) (wType : CovarianceType) (W0 : Matrix (MomentIndex m) (MomentIndex m) ℝ) : Matrix (MomentIndex m) (MomentIndex m) ℝ :=
  if method = .oneStep ∧ initialUpdate = false then W0 else (P.covariances law wType)⁻¹

/-- Parameters are identified with weights of all steps. -/
structure WeightsIdentify [Fintype k] [DecidableEq k] [∀ e, DecidableEq (m e)] [MeasurableSpace C] (P : Clusters C m k) (law : Measure C) (method : GmmMethod)
    (initialUpdate : Bool) (wType : CovarianceType) (W0 : Matrix (MomentIndex m) (MomentIndex m) ℝ) : Prop where
  initial : ((P.slopes law).transpose * W0 * P.slopes law).det ≠ 0
  updated : ¬(method = .oneStep ∧ initialUpdate = false) →
    (P.covariances law wType).det ≠ 0 ∧ ((P.slopes law).transpose * (P.covariances law wType)⁻¹ * P.slopes law).det ≠ 0

/-- Problems start with weights `W0`, or with default ones, which have the limit `W0`. -/
def StartsWith [∀ e, DecidableEq (m e)] [MeasurableSpace C] (P : Clusters C m k) (law : Measure C) {I : Type} {N : I → ℕ}
    (E : ∀ i, Estimation (N i) nd ns m q b g θ d ι D) (W : I → Estimation.Weights m q d) (W0 : Matrix (MomentIndex m) (MomentIndex m) ℝ) : Prop :=
  (∀ i, momentWeights (W i) = W0) ∨ (∀ i, W i = (E i).defaultWeights) ∧ (P.instruments law).det ≠ 0 ∧ W0 = (P.instruments law)⁻¹

/-- Covariances with which standard errors are computed are right: clustered ones always are, robust ones when moments are not correlated within clusters,
and unadjusted ones when errors are homoskedastic as well and weights are optimal, that is, in proportion to inverses of covariances. -/
def Valid [∀ e, DecidableEq (m e)] [MeasurableSpace C] (P : Clusters C m k) (law : Measure C) (method : GmmMethod)
    (W : Matrix (MomentIndex m) (MomentIndex m) ℝ) : CovarianceType → Prop
  | .clustered => True
  | .robust => P.covariances law .robust = P.covariances law .clustered
  | .unadjusted => P.covariances law .unadjusted = P.covariances law .clustered ∧ (P.covariances law .clustered).det ≠ 0 ∧
    ∃ c : ℝ, c ≠ 0 ∧ (method = .twoStep → c = 1) ∧ W = c • (P.covariances law .clustered)⁻¹

end Pyblp.Spec
