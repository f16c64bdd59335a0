import Verif.Model.SupplyTangents
import Verif.Props.Implicit
import Verif.Props.Supply
import Mathlib.Analysis.Calculus.Deriv.Prod
import Mathlib.Analysis.Calculus.Deriv.Inv
import Mathlib.LinearAlgebra.Matrix.Adjugate
import Mathlib.Analysis.SpecialFunctions.Log.Deriv
import Mathlib.Topology.Instances.EReal.Lemmas

/-!
# C85: derivatives of transformed marginal costs with respect to parameters
-/

set_option linter.unusedSectionVars false

namespace Pyblp

variable {J A G K1 K2 K3 N D : Type} [Fintype J] [DecidableEq J] [Nonempty J] [Fintype G] [DecidableEq G] [Fintype A]
  [Fintype K1] [DecidableEq K1] [Fintype K2] [DecidableEq K2] [Fintype K3] [DecidableEq K3] [Fintype N] [DecidableEq N]
  [Fintype D] [DecidableEq D]

namespace Spec

/-- `beta` when parameter `p` is increased by `t`. -/
def shiftBeta (p : ThetaParam G K1 K2 K3 N D) (beta : K1 → ℝ) (t : ℝ) : K1 → ℝ :=
  match p with
  | .beta k => fun k' => if k' = k then beta k' + t else beta k'
  | _ => beta

/-- `gamma` when parameter `p` is increased by `t`. -/
def shiftGamma (p : ThetaParam G K1 K2 K3 N D) (gamma : K3 → ℝ) (t : ℝ) : K3 → ℝ :=
  match p with
  | .gamma k => fun k' => if k' = k then gamma k' + t else gamma k'
  | _ => gamma

/-- The market and how utility depends on prices when parameter `p` is increased by `t` and mean utilities (without what the increase adds to
them) are `d`. -/
noncomputable def pricesAlong (c : Characteristic J A K1 K2) (T : Tastes J A K2 N D) (sigma : K2 → N → ℝ) (pi : K2 → D → ℝ) (beta : K1 → ℝ)
    (X1 : J → K1 → ℝ) (X3 : J → K3 → ℝ) (p : ThetaParam G K1 K2 K3 N D) (d : J → ℝ) (t : ℝ) : Characteristic J A K1 K2 :=
  let q : TangentParam J G K2 N D := p.tangent X1 X3
  priceVariable c T (shiftSigma q sigma t) (shiftPi q pi t) (shiftBeta p beta t) (shiftDelta q d t)

/-- Marginal costs when parameter `p` is increased by `t`: those that explain prices and shares in the data (C30). -/
noncomputable def costsAlong (m : Market J A G) (c : Characteristic J A K1 K2) (T : Tastes J A K2 N D) (sigma : K2 → N → ℝ) (pi : K2 → D → ℝ)
    (beta : K1 → ℝ) (X1 : J → K1 → ℝ) (X3 : J → K3 → ℝ) (O : J → J → ℝ) (s : J → ℝ) (p : ThetaParam G K1 K2 K3 N D) (d : J → ℝ) (t : ℝ) :
    J → ℝ :=
  computeCosts (shiftMarket (p.tangent X1 X3 : TangentParam J G K2 N D) m t) (pricesAlong c T sigma pi beta X1 X3 p d t) O s

/-- The unobserved characteristic on the supply side when parameter `p` is increased by `t`: transformed marginal costs that are not
explained by `X3`. Not a number if transformed marginal costs are not. -/
noncomputable def omegaAlong (m : Market J A G) (c : Characteristic J A K1 K2) (T : Tastes J A K2 N D) (sigma : K2 → N → ℝ) (pi : K2 → D → ℝ)
    (beta : K1 → ℝ) (gamma : K3 → ℝ) (X1 : J → K1 → ℝ) (X3 : J → K3 → ℝ) (O : J → J → ℝ) (s : J → ℝ) (log : Bool) (bounds : EReal × EReal)
    (p : ThetaParam G K1 K2 K3 N D) (d : J → ℝ) (t : ℝ) (j : J) : Option ℝ :=
  (tildeCosts log bounds (costsAlong m c T sigma pi beta X1 X3 O s p d t) j).map
    fun y => y - ∑ k, X3 j k * shiftGamma p gamma t k

end Spec

/-! ## Derivatives of utility derivatives -/

lemma hasDerivAt_randomCoefficient (T : Tastes J A K2 N D) (sigma : K2 → N → ℝ) (pi : K2 → D → ℝ) (p : TangentParam J G K2 N D)
    (k : K2) (i : A) (j : J) :
    HasDerivAt (fun t => randomCoefficient T (Spec.shiftSigma p sigma t) (Spec.shiftPi p pi t) k i j)
      (match p with
        | .sigma k' c => if k = k' then transformedTangent T sigma pi k (fun i _ => T.nodes i c) j i else 0
        | .pi k' d => if k = k' then transformedTangent T sigma pi k (fun i j => T.demographics i d j) j i else 0
        | _ => 0) 0 := by
  unfold randomCoefficient
  simp only [coefficientIndex_shift]
  have key : ∀ v : A → J → ℝ, HasDerivAt (fun t => transformCoefficient (T.rcType k) (coefficientIndex T sigma pi k i j + t * v i j))
      (transformedTangent T sigma pi k v j i) 0 := by
    intro v
    have h0 := hasDerivAt_transform (T.rcType k) (fun t => coefficientIndex T sigma pi k i j + t * v i j) (v i j) 0
      (((hasDerivAt_mul_const (v i j))).const_add _)
    simp only [zero_mul, add_zero] at h0
    refine h0.congr_deriv ?_
    unfold transformedTangent randomCoefficient
    cases hr : T.rcType k <;> simp only []
  cases p with
  | sigma k' c =>
    by_cases h : k = k'
    · simp only [if_pos h]; exact key fun i _ => T.nodes i c
    · simp only [if_neg h, mul_zero, add_zero]; exact hasDerivAt_const _ _
  | pi k' d =>
    by_cases h : k = k'
    · simp only [if_pos h]; exact key fun i j => T.demographics i d j
    · simp only [if_neg h, mul_zero, add_zero]; exact hasDerivAt_const _ _
  | _ => simp only [mul_zero, add_zero]; exact hasDerivAt_const _ _

lemma hasDerivAt_utilityDerivatives_theta (m : Market J A G) (c : Characteristic J A K1 K2) (T : Tastes J A K2 N D) (sigma : K2 → N → ℝ)
    (pi : K2 → D → ℝ) (beta : K1 → ℝ) (X1 : J → K1 → ℝ) (X3 : J → K3 → ℝ) (p : ThetaParam G K1 K2 K3 N D) (d : ℝ → J → ℝ) (j : J) (i : A) :
    HasDerivAt (fun t => utilityDerivatives (Spec.shiftMarket (p.tangent X1 X3 : TangentParam J G K2 N D) m t)
      (Spec.pricesAlong c T sigma pi beta X1 X3 p (d t) t) c.x0 j i) (utilityDerivativesTangent m c T sigma pi p j i) 0 := by
  set q : TangentParam J G K2 N D := p.tangent X1 X3 with hq
  have hb : ∀ k, HasDerivAt (fun t => Spec.shiftBeta p beta t k)
      (match p with | .beta k' => if k = k' then 1 else 0 | _ => 0) 0 := by
    intro k
    unfold Spec.shiftBeta
    cases p with
    | beta k' =>
      by_cases h : k = k'
      · simp only [if_pos h]; exact (hasDerivAt_id (0 : ℝ)).const_add _
      · simp only [if_neg h]; exact hasDerivAt_const _ _
    | _ => exact hasDerivAt_const _ _
  have h1 := HasDerivAt.fun_sum (u := (Finset.univ : Finset K1)) fun k _ =>
    (hb k).const_mul (if c.has1 k then c.d1 k j (c.x0 j) else 0)
  have h2 := HasDerivAt.fun_sum (u := (Finset.univ : Finset K2)) fun k _ =>
    (hasDerivAt_randomCoefficient T sigma pi q k i j).const_mul (if c.has2 k then c.d2 k j (c.x0 j) else 0)
  have h := h1.fun_add h2
  have hval : HasDerivAt (fun t => (∑ k, (if c.has1 k then c.d1 k j (c.x0 j) else 0) * Spec.shiftBeta p beta t k) +
      ∑ k, (if c.has2 k then c.d2 k j (c.x0 j) else 0) * randomCoefficient T (Spec.shiftSigma q sigma t) (Spec.shiftPi q pi t) k i j)
      (match p with
        | .beta k => (if c.has1 k then c.d1 k j (c.x0 j) else 0)
        | .sigma k v => (if c.has2 k then c.d2 k j (c.x0 j) else 0) * transformedTangent T sigma pi k (fun i _ => T.nodes i v) j i
        | .pi k d => (if c.has2 k then c.d2 k j (c.x0 j) else 0) * transformedTangent T sigma pi k (fun i j => T.demographics i d j) j i
        | _ => 0) 0 := by
    refine h.congr_deriv ?_
    cases p <;> simp [hq, ThetaParam.tangent]
  unfold utilityDerivatives utilityDerivativesTangent Spec.pricesAlong priceVariable
  by_cases he : m.epsilonScale = 1
  · simp only [Spec.shiftMarket, he, ne_eq, not_true_eq_false, if_false]
    refine hval.congr_deriv ?_
    cases p <;> rfl
  · simp only [Spec.shiftMarket, he, ne_eq, not_false_eq_true, if_true]
    refine (hval.div_const _).congr_deriv ?_
    cases p <;> rfl

/-! ## Derivatives of the matrix that defines markups -/

lemma hasDerivAt_det (M : ℝ → Matrix J J ℝ) (hM : ∀ j k, DifferentiableAt ℝ (fun t => M t j k) 0) :
    DifferentiableAt ℝ (fun t => (M t).det) 0 := by
  simp only [Matrix.det_apply]
  refine DifferentiableAt.fun_sum fun s _ => ?_
  refine DifferentiableAt.const_smul ?_ _
  exact DifferentiableAt.fun_finsetProd fun i _ => hM _ _

/-- Derivatives of the solution of a linear system. -/
lemma hasDerivAt_solution (M : ℝ → Matrix J J ℝ) (M' inverse : J → J → ℝ) (s : J → ℝ) (hM : ∀ j k, HasDerivAt (fun t => M t j k) (M' j k) 0)
    (hinverse : ∀ j l, ∑ k, inverse j k * M 0 k l = if j = l then 1 else 0) (j : J) :
    HasDerivAt (fun t => ((M t)⁻¹.mulVec s) j) (etaByTheta inverse ((M 0)⁻¹.mulVec s) M' j) 0 := by
  have hd := hasDerivAt_det M fun j k => (hM j k).differentiableAt
  have hinv : Matrix.of inverse * M 0 = 1 := by
    ext a b; rw [Matrix.mul_apply, Matrix.one_apply]; exact hinverse a b
  have hdet : (M 0).det ≠ 0 := (Matrix.isUnit_det_of_left_inverse hinv).ne_zero
  have hsol : ∀ k, DifferentiableAt ℝ (fun t => ((M t)⁻¹.mulVec s) k) 0 := by
    intro k
    have h1 : DifferentiableAt ℝ (fun t => ((M t).updateCol k s).det) 0 := by
      refine hasDerivAt_det (fun t => (M t).updateCol k s) fun a b => ?_
      simp only [Matrix.updateCol_apply]
      by_cases hb : b = k
      · simp only [if_pos hb]; exact differentiableAt_const _
      · simp only [if_neg hb]; exact (hM a b).differentiableAt
    have h2 : ∀ t, ((M t)⁻¹.mulVec s) k = ((M t).det)⁻¹ * ((M t).updateCol k s).det := by
      intro t
      rw [Matrix.inv_def, Matrix.smul_mulVec, ← Matrix.cramer_eq_adjugate_mulVec, Pi.smul_apply, Matrix.cramer_apply,
        Ring.inverse_eq_inv', smul_eq_mul]
    simp only [h2]
    exact (hd.fun_inv hdet).fun_mul h1
  have hev : ∀ᶠ t in nhds (0 : ℝ), (M t).det ≠ 0 := hd.continuousAt.eventually_ne hdet
  have hzero : ∀ k, ∑ l, (M' k l * ((M 0)⁻¹.mulVec s) l + M 0 k l * deriv (fun t => ((M t)⁻¹.mulVec s) l) 0) = 0 := by
    intro k
    have h1 := HasDerivAt.fun_sum (u := (Finset.univ : Finset J)) fun l _ => (hM k l).fun_mul (hsol l).hasDerivAt
    refine h1.unique ?_
    refine (hasDerivAt_const (0 : ℝ) (s k)).congr_of_eventuallyEq ?_
    filter_upwards [hev] with t ht
    have := congrFun (Matrix.mulVec_mulVec s (M t) (M t)⁻¹) k
    rw [Matrix.mul_nonsing_inv _ (isUnit_iff_ne_zero.mpr ht), Matrix.one_mulVec] at this
    rw [← this]; rfl
  refine (hsol j).hasDerivAt.congr_deriv ?_
  unfold etaByTheta
  have h3 : ∀ k, ∑ l, M' k l * ((M 0)⁻¹.mulVec s) l = -∑ l, M 0 k l * deriv (fun t => ((M t)⁻¹.mulVec s) l) 0 := by
    intro k; have := hzero k; rw [Finset.sum_add_distrib] at this; linarith
  have h4 : ∑ l, (∑ k, inverse j k * M' k l) * ((M 0)⁻¹.mulVec s) l = ∑ k, inverse j k * ∑ l, M' k l * ((M 0)⁻¹.mulVec s) l := by
    simp only [Finset.sum_mul, Finset.mul_sum, mul_assoc]
    exact Finset.sum_comm
  rw [h4]
  simp only [h3, mul_neg, Finset.sum_neg_distrib, neg_neg, Finset.mul_sum, ← mul_assoc]
  rw [Finset.sum_comm]
  simp only [← Finset.sum_mul, hinverse, ite_mul, one_mul, zero_mul, Finset.sum_ite_eq, Finset.mem_univ, if_true]

lemma associations_eq (X1 : J → K1 → ℝ) (X3 : J → K3 → ℝ) (p : ThetaParam G K1 K2 K3 N D) (g : G) :
    groupAssociations (p.tangent X1 X3 : TangentParam J G K2 N D) g = p.associations g := by
  cases p with
  | rhoOne g' => cases g' <;> rfl
  | _ => rfl

lemma associations_not_rho (p : ThetaParam G K1 K2 K3 N D) (h : p.isRho = false) (g : G) : p.associations g = 0 := by
  cases p <;> simp_all [ThetaParam.isRho, ThetaParam.associations]

section matrices

variable (m : Market J A G) (X1 : J → K1 → ℝ) (X3 : J → K3 → ℝ) (p : ThetaParam G K1 K2 K3 N D)
  (hp : Spec.Fits (p.tangent X1 X3 : TangentParam J G K2 N D) m) (hr : ∀ n, m.nesting = some n → ∀ g, n.rho.groupRho g ≠ 1)
  (P C U : ℝ → J → A → ℝ) (dP dC dU : J → A → ℝ)
  (hP : ∀ j i, HasDerivAt (fun t => P t j i) (dP j i) 0) (hU : ∀ j i, HasDerivAt (fun t => U t j i) (dU j i) 0)
  (hC : m.nesting ≠ none → ∀ j i, HasDerivAt (fun t => C t j i) (dC j i) 0)

include hp in
lemma hasDerivAt_productRho (n : Nesting J G) (hn : m.nesting = some n) (j : J) :
    HasDerivAt (fun t => ({ n with rho := Spec.shiftRho (p.tangent X1 X3 : TangentParam J G K2 N D) n.rho t } : Nesting J G).productRho j)
      (p.associations (n.group j)) 0 := by
  unfold Nesting.productRho
  simp only [groupRho_shift _ m hp n hn, associations_eq]
  exact (hasDerivAt_mul_const _).const_add _

lemma shiftRho_zero (q : TangentParam J G K2 N D) (n : Nesting J G) : ({ n with rho := Spec.shiftRho q n.rho 0 } : Nesting J G) = n := by
  cases n with
  | mk g r => cases q <;> cases r <;> simp [Spec.shiftRho]; split <;> simp_all

include hp hr hP hU in
lemma hasDerivAt_capitalLamda_theta (j : J) :
    HasDerivAt (fun t => capitalLamda (Spec.shiftMarket (p.tangent X1 X3 : TangentParam J G K2 N D) m t) (P t) (U t) j)
      (capitalLamdaTangent m p (fun j i => P 0 j i * U 0 j i) (fun j i => dP j i * U 0 j i + P 0 j i * dU j i) j) 0 := by
  have hsum := HasDerivAt.fun_sum (u := (Finset.univ : Finset A)) fun i _ => ((hP j i).fun_mul (hU j i)).mul_const (m.weights i)
  unfold capitalLamda capitalLamdaTangent
  cases hn : m.nesting with
  | none =>
    simp only [Spec.shiftMarket, hn, Option.map_none]
    exact hsum
  | some n =>
    simp only [Spec.shiftMarket, hn, Option.map_some]
    have h1 := (hasDerivAt_productRho m X1 X3 p hp n hn j).const_sub 1
    have h0 : 1 - n.productRho j ≠ 0 := sub_ne_zero.mpr (hr n hn (n.group j)).symm
    have h := hsum.fun_div h1 (by rw [shiftRho_zero]; exact h0)
    refine h.congr_deriv ?_
    rw [shiftRho_zero]
    by_cases hrho : p.isRho = true
    · rw [if_pos hrho]; field_simp; ring
    · rw [if_neg hrho, associations_not_rho p (by simpa using hrho)]; field_simp; ring

include hp hr hP hU hC in
lemma hasDerivAt_capitalGamma_theta (j k : J) :
    HasDerivAt (fun t => capitalGamma (Spec.shiftMarket (p.tangent X1 X3 : TangentParam J G K2 N D) m t) (P t) (C t) (U t) j k)
      (capitalGammaTangent m p (fun j i => P 0 j i * U 0 j i) (fun j i => dP j i * U 0 j i + P 0 j i * dU j i) (P 0) dP (C 0) dC j k) 0 := by
  have hwd := fun i => ((hP k i).fun_mul (hU k i)).const_mul (m.weights i)
  have hsum := HasDerivAt.fun_sum (u := (Finset.univ : Finset A)) fun i _ => (hP j i).fun_mul (hwd i)
  unfold capitalGamma capitalGammaTangent
  cases hn : m.nesting with
  | none =>
    simp only [Spec.shiftMarket, hn, Option.map_none]
    refine hsum.congr_deriv ?_
    rw [Finset.sum_add_distrib]
  | some n =>
    simp only [Spec.shiftMarket, hn, Option.map_some]
    have hC' := hC (by simp [hn])
    have hsumC := HasDerivAt.fun_sum (u := (Finset.univ : Finset A)) fun i _ => (hC' j i).fun_mul (hwd i)
    have h1 := hasDerivAt_productRho m X1 X3 p hp n hn j
    have h0 : 1 - n.productRho j ≠ 0 := sub_ne_zero.mpr (hr n hn (n.group j)).symm
    have h2 := h1.fun_div (h1.const_sub 1) (by rw [shiftRho_zero]; exact h0)
    have h := hsum.fun_add ((h2.mul_const (membership n j k)).fun_mul hsumC)
    refine h.congr_deriv ?_
    rw [shiftRho_zero]
    simp only [Finset.sum_add_distrib]
    by_cases hrho : p.isRho = true
    · rw [if_pos hrho]; field_simp; ring
    · rw [if_neg hrho, associations_not_rho p (by simpa using hrho)]; field_simp; ring

end matrices

lemma hasDerivAt_explained (gamma : K3 → ℝ) (X3 : J → K3 → ℝ) (p : ThetaParam G K1 K2 K3 N D) (j : J) :
    HasDerivAt (fun t => ∑ k, X3 j k * Spec.shiftGamma p gamma t k) (match p with | .gamma k => X3 j k | _ => 0) 0 := by
  unfold Spec.shiftGamma
  cases p with
  | gamma k =>
    have h := HasDerivAt.fun_sum (u := (Finset.univ : Finset K3))
      (A := fun k' t => X3 j k' * if k' = k then gamma k' + t else gamma k') (A' := fun k' => if k' = k then X3 j k' else 0) (x := (0 : ℝ))
      (fun k' _ => by
        by_cases hk : k' = k
        · simp only [if_pos hk]
          exact (((hasDerivAt_id (0 : ℝ)).const_add (gamma k')).const_mul (X3 j k')).congr_deriv (by ring)
        · simp only [if_neg hk]; exact hasDerivAt_const _ _)
    exact h.congr_deriv (by simp)
  | _ => exact hasDerivAt_const (0 : ℝ) (∑ k, X3 j k * gamma k)

section omega

variable (m : Market J A G) (hm : WellFormed m) (c : Characteristic J A K1 K2) (T : Tastes J A K2 N D)
  (hX2 : ∀ j k, T.X2 j k = c.x2 k j (c.x0 j)) (sigma : K2 → N → ℝ) (pi : K2 → D → ℝ) (beta : K1 → ℝ) (gamma : K3 → ℝ) (delta : J → ℝ)
  (X1 : J → K1 → ℝ) (X3 : J → K3 → ℝ) (O : J → J → ℝ) (s : J → ℝ) (p : ThetaParam G K1 K2 K3 N D)
  (hp : Spec.Fits (p.tangent X1 X3 : TangentParam J G K2 N D) m)
  (hw : ∀ i, 0 ≤ m.weights i) (hoff : ∀ j, ∃ i, 0 < m.weights i ∧ Offered m {} i j)
  (hint : RhoInterior m (p.tangent X1 X3 : TangentParam J G K2 N D))

include hX2 in
lemma updateMu_prices (sigma : K2 → N → ℝ) (pi : K2 → D → ℝ) (beta : K1 → ℝ) (delta : J → ℝ) :
    updateMu (priceVariable c T sigma pi beta delta) c.x0 = computeMu T sigma pi := by
  funext j i
  unfold updateMu computeMu priceVariable
  simp only [ite_self, hX2]

lemma updateDelta_prices (sigma : K2 → N → ℝ) (pi : K2 → D → ℝ) (beta : K1 → ℝ) (delta : J → ℝ) :
    updateDelta (priceVariable c T sigma pi beta delta) c.x0 = delta := by
  funext j
  unfold updateDelta priceVariable
  simp

include hX2 in
lemma probabilitiesAt_prices (d : J → ℝ) (t : ℝ) (j : J) (i : A) :
    probabilitiesAt (Spec.shiftMarket (p.tangent X1 X3 : TangentParam J G K2 N D) m t) (Spec.pricesAlong c T sigma pi beta X1 X3 p d t) c.x0 j i =
      Spec.probabilitiesOf m T sigma pi {} (p.tangent X1 X3) j i (t, d) := by
  unfold probabilitiesAt Spec.pricesAlong Spec.probabilitiesOf
  simp only []
  rw [updateMu_prices c T hX2, updateDelta_prices]

include hX2 in
lemma conditionalsAt_prices (d : J → ℝ) (t : ℝ) (j : J) (i : A) :
    conditionalsAt (Spec.shiftMarket (p.tangent X1 X3 : TangentParam J G K2 N D) m t) (Spec.pricesAlong c T sigma pi beta X1 X3 p d t) c.x0 j i =
      Spec.conditionalsOf m T sigma pi {} (p.tangent X1 X3) j i (t, d) := by
  unfold conditionalsAt Spec.pricesAlong Spec.conditionalsOf
  simp only []
  rw [updateMu_prices c T hX2, updateDelta_prices]

/-- What the code stores as derivatives of conditional probabilities. -/
noncomputable def totalConditionals (q : TangentParam J G K2 N D) (xiInverse : J → J → ℝ) : J → A → ℝ :=
  let P := computeProbabilities m {} delta (computeMu T sigma pi)
  let C := computeConditionals m {} delta (computeMu T sigma pi)
  let tangents := probabilitiesTangent m T sigma pi {} delta P C q
  match m.nesting with
  | none => fun _ _ => 0
  | some n => updateConditionalsTangent n C q tangents.2 (xiByTheta m xiInverse tangents.1)

/-- What the code stores as derivatives of probabilities. -/
noncomputable def totalProbabilities (q : TangentParam J G K2 N D) (xiInverse : J → J → ℝ) : J → A → ℝ :=
  let P := computeProbabilities m {} delta (computeMu T sigma pi)
  let C := computeConditionals m {} delta (computeMu T sigma pi)
  let tangents := probabilitiesTangent m T sigma pi {} delta P C q
  updateTangent m P C q tangents.1 (xiByTheta m xiInverse tangents.1)

include hm hX2 hp hw hoff hint in
lemma hasDerivAt_capitalDelta (xiInverse : J → J → ℝ)
    (hxi : ∀ j l, ∑ k, xiInverse j k * sharesByXiJacobian m (computeShares m {} delta (computeMu T sigma pi))
      (computeProbabilities m {} delta (computeMu T sigma pi)) (computeConditionals m {} delta (computeMu T sigma pi)) k l =
      if j = l then 1 else 0) (d : ℝ → J → ℝ) (hd : SolvesNear m T sigma pi true delta (p.tangent X1 X3) d) (j k : J) :
    HasDerivAt (fun t => capitalDelta (Spec.shiftMarket (p.tangent X1 X3 : TangentParam J G K2 N D) m t)
        (Spec.pricesAlong c T sigma pi beta X1 X3 p (d t) t) O j k)
      (capitalDeltaTangent m (priceVariable c T sigma pi beta delta) T sigma pi O p (computeProbabilities m {} delta (computeMu T sigma pi))
        (totalProbabilities m T sigma pi delta (p.tangent X1 X3) xiInverse) (computeConditionals m {} delta (computeMu T sigma pi))
        (totalConditionals m T sigma pi delta (p.tangent X1 X3) xiInverse) j k) 0 := by
  set q : TangentParam J G K2 N D := p.tangent X1 X3 with hq
  have hP : ∀ j i, HasDerivAt (fun t => probabilitiesAt (Spec.shiftMarket q m t) (Spec.pricesAlong c T sigma pi beta X1 X3 p (d t) t) c.x0 j i)
      (totalProbabilities m T sigma pi delta q xiInverse j i) 0 := by
    intro j i
    simp only [hq, probabilitiesAt_prices m c T hX2]
    exact C84_total_probabilities m hm T sigma pi true delta _ hp hw hoff hint xiInverse hxi d hd j i
  have hC : m.nesting ≠ none → ∀ j i, HasDerivAt (fun t => conditionalsAt (Spec.shiftMarket q m t)
      (Spec.pricesAlong c T sigma pi beta X1 X3 p (d t) t) c.x0 j i) (totalConditionals m T sigma pi delta q xiInverse j i) 0 := by
    intro hne j i
    obtain ⟨n, hn⟩ := Option.ne_none_iff_exists'.mp hne
    simp only [hq, conditionalsAt_prices m c T hX2]
    have := C84_total_conditionals m hm T sigma pi true delta _ hp hw hoff hint xiInverse hxi d hd n hn j i
    refine this.congr_deriv ?_
    unfold totalConditionals
    simp only [hn]
    rfl
  have hU := hasDerivAt_utilityDerivatives_theta m c T sigma pi beta X1 X3 p d
  have hr : ∀ n, m.nesting = some n → ∀ g, n.rho.groupRho g ≠ 1 := fun n hn g => (hm.regular.rho n hn g).2.ne
  have hL := hasDerivAt_capitalLamda_theta m X1 X3 p hp hr _ _ _ _ hP hU
  have hG := hasDerivAt_capitalGamma_theta m X1 X3 p hp hr _ _ _ _ _ _ hP hU hC
  have hP0 : probabilitiesAt (Spec.shiftMarket q m 0) (Spec.pricesAlong c T sigma pi beta X1 X3 p (d 0) 0) c.x0 =
      computeProbabilities m {} delta (computeMu T sigma pi) := by
    funext j i
    rw [hq, probabilitiesAt_prices m c T hX2, hd.1]
    unfold Spec.probabilitiesOf
    simp only [shift_zero_market, shift_zero_delta, shift_zero_sigma, shift_zero_pi]
  have hC0 : conditionalsAt (Spec.shiftMarket q m 0) (Spec.pricesAlong c T sigma pi beta X1 X3 p (d 0) 0) c.x0 =
      computeConditionals m {} delta (computeMu T sigma pi) := by
    funext j i
    rw [hq, conditionalsAt_prices m c T hX2, hd.1]
    unfold Spec.conditionalsOf
    simp only [shift_zero_market, shift_zero_delta, shift_zero_sigma, shift_zero_pi]
  have hU0 : utilityDerivatives (Spec.shiftMarket q m 0) (Spec.pricesAlong c T sigma pi beta X1 X3 p (d 0) 0) c.x0 =
      utilityDerivatives m (priceVariable c T sigma pi beta delta) c.x0 := by
    unfold Spec.pricesAlong
    simp only [shift_zero_market, shift_zero_delta, shift_zero_sigma, shift_zero_pi, hd.1]
    unfold Spec.shiftBeta
    cases p <;> simp
  simp only [← hq, hP0, hC0, hU0] at hL hG
  unfold capitalDelta capitalDeltaTangent
  simp only [Matrix.of_apply]
  refine HasDerivAt.mul_const ?_ _
  refine (hG k j).fun_sub ?_
  by_cases hjk : k = j
  · simp only [if_pos hjk]; exact hL k
  · simp only [if_neg hjk]; exact hasDerivAt_const _ _

lemma market_shift_zero (d : ℝ → J → ℝ) (hd : d 0 = delta) :
    Spec.shiftMarket (p.tangent X1 X3 : TangentParam J G K2 N D) m 0 = m ∧
      Spec.pricesAlong c T sigma pi beta X1 X3 p (d 0) 0 = priceVariable c T sigma pi beta delta := by
  unfold Spec.pricesAlong
  simp only [shift_zero_market, shift_zero_delta, shift_zero_sigma, shift_zero_pi, hd, true_and]
  unfold Spec.shiftBeta
  cases p <;> simp

include hm hX2 hp hw hoff hint in
/-- **C85.** As a parameter changes and mean utilities change so as to keep shares fixed, the derivative of markups is the one that the code
computes. -/
theorem C85_markups (xiInverse deltaInverse : J → J → ℝ)
    (hxi : ∀ j l, ∑ k, xiInverse j k * sharesByXiJacobian m (computeShares m {} delta (computeMu T sigma pi))
      (computeProbabilities m {} delta (computeMu T sigma pi)) (computeConditionals m {} delta (computeMu T sigma pi)) k l =
      if j = l then 1 else 0)
    (hdelta : ∀ j l, ∑ k, deltaInverse j k * capitalDelta m (priceVariable c T sigma pi beta delta) O k l = if j = l then 1 else 0)
    (d : ℝ → J → ℝ) (hd : SolvesNear m T sigma pi true delta (p.tangent X1 X3) d) (j : J) :
    HasDerivAt (fun t => computeEta (Spec.shiftMarket (p.tangent X1 X3 : TangentParam J G K2 N D) m t)
        (Spec.pricesAlong c T sigma pi beta X1 X3 p (d t) t) O s j)
      (etaByTheta deltaInverse (computeEta m (priceVariable c T sigma pi beta delta) O s)
        (capitalDeltaTangent m (priceVariable c T sigma pi beta delta) T sigma pi O p (computeProbabilities m {} delta (computeMu T sigma pi))
          (totalProbabilities m T sigma pi delta (p.tangent X1 X3) xiInverse) (computeConditionals m {} delta (computeMu T sigma pi))
          (totalConditionals m T sigma pi delta (p.tangent X1 X3) xiInverse)) j) 0 := by
  obtain ⟨h1, h2⟩ := market_shift_zero m c T sigma pi beta delta X1 X3 p d hd.1
  have h := hasDerivAt_solution (fun t => capitalDelta (Spec.shiftMarket (p.tangent X1 X3 : TangentParam J G K2 N D) m t)
        (Spec.pricesAlong c T sigma pi beta X1 X3 p (d t) t) O) _ deltaInverse s
    (hasDerivAt_capitalDelta m hm c T hX2 sigma pi beta delta X1 X3 O p hp hw hoff hint xiInverse hxi d hd)
    (by simp only [h1, h2]; exact hdelta) j
  simp only [h1, h2] at h
  exact h

include hm hX2 hp hw hoff hint in
lemma hasDerivAt_costsAlong (xiInverse deltaInverse : J → J → ℝ)
    (hxi : ∀ j l, ∑ k, xiInverse j k * sharesByXiJacobian m (computeShares m {} delta (computeMu T sigma pi))
      (computeProbabilities m {} delta (computeMu T sigma pi)) (computeConditionals m {} delta (computeMu T sigma pi)) k l =
      if j = l then 1 else 0)
    (hdelta : ∀ j l, ∑ k, deltaInverse j k * capitalDelta m (priceVariable c T sigma pi beta delta) O k l = if j = l then 1 else 0)
    (d : ℝ → J → ℝ) (hd : SolvesNear m T sigma pi true delta (p.tangent X1 X3) d) (j : J) :
    HasDerivAt (fun t => Spec.costsAlong m c T sigma pi beta X1 X3 O s p (d t) t j)
      (-etaByTheta deltaInverse (computeEta m (priceVariable c T sigma pi beta delta) O s)
        (capitalDeltaTangent m (priceVariable c T sigma pi beta delta) T sigma pi O p (computeProbabilities m {} delta (computeMu T sigma pi))
          (totalProbabilities m T sigma pi delta (p.tangent X1 X3) xiInverse) (computeConditionals m {} delta (computeMu T sigma pi))
          (totalConditionals m T sigma pi delta (p.tangent X1 X3) xiInverse)) j) 0 :=
  (C85_markups m hm c T hX2 sigma pi beta delta X1 X3 O s p hp hw hoff hint xiInverse deltaInverse hxi hdelta d hd j).const_sub (c.x0 j)

/-- Marginal costs at the estimated parameters. -/
noncomputable def costsNow : J → ℝ := computeCosts m (priceVariable c T sigma pi beta delta) O s

lemma costsAlong_zero (d : ℝ → J → ℝ) (hd : d 0 = delta) :
    Spec.costsAlong m c T sigma pi beta X1 X3 O s p (d 0) 0 = costsNow m c T sigma pi beta delta O s := by
  obtain ⟨h1, h2⟩ := market_shift_zero m c T sigma pi beta delta X1 X3 p d hd
  unfold Spec.costsAlong costsNow
  rw [h1, h2]

lemma clipCosts_inside (bounds : EReal × EReal) (costs : J → ℝ) (j : J) (h1 : bounds.1 ≤ (costs j : EReal)) (h2 : (costs j : EReal) ≤ bounds.2) :
    clipCosts bounds costs j = costs j := by
  unfold clipCosts
  rw [max_eq_left h1, min_eq_left h2, EReal.toReal_coe]

/-- The supply side does not affect demand: markups do not depend on `gamma`. -/
lemma etaByTheta_zero (deltaInverse : J → J → ℝ) (eta : J → ℝ) (j : J) : etaByTheta deltaInverse eta (fun _ _ => 0) j = 0 := by
  simp [etaByTheta]

lemma capitalDeltaTangent_gamma (c : Characteristic J A K1 K2) (P C : J → A → ℝ) (k : K3) :
    capitalDeltaTangent m c T sigma pi O (.gamma k : ThetaParam G K1 K2 K3 N D) P (fun _ _ => 0) C (fun _ _ => 0) = fun _ _ => 0 := by
  funext a b
  unfold capitalDeltaTangent capitalGammaTangent capitalLamdaTangent utilityDerivativesTangent
  cases m.nesting <;> simp [ThetaParam.isRho]

lemma total_gamma (k : K3) (xiInverse : J → J → ℝ) :
    totalProbabilities m T sigma pi delta ((.gamma k : ThetaParam G K1 K2 K3 N D).tangent X1 X3) xiInverse = (fun _ _ => 0) ∧
    totalConditionals m T sigma pi delta ((.gamma k : ThetaParam G K1 K2 K3 N D).tangent X1 X3) xiInverse = (fun _ _ => 0) := by
  unfold totalProbabilities totalConditionals ThetaParam.tangent
  simp only [(tangent_supply m T sigma pi delta _ _ _ _).1]
  constructor
  · rfl
  · cases m.nesting <;> rfl

include hm hX2 hp hw hoff hint in
/-- **C85.** Suppose mean utilities change with a parameter so as to keep shares fixed, and a marginal cost is inside of its bounds (and
positive if costs are transformed by the logarithm). Then the unobserved characteristic on the supply side is a number close to the
parameter, and its derivative is the one that the code computes, for each kind of parameter. -/
theorem C85_omega_by_theta (log : Bool) (bounds : EReal × EReal) (last : J → ℝ) (xiInverse deltaInverse : J → J → ℝ)
    (hxi : ∀ j l, ∑ k, xiInverse j k * sharesByXiJacobian m (computeShares m {} delta (computeMu T sigma pi))
      (computeProbabilities m {} delta (computeMu T sigma pi)) (computeConditionals m {} delta (computeMu T sigma pi)) k l =
      if j = l then 1 else 0)
    (hdelta : ∀ j l, ∑ k, deltaInverse j k * capitalDelta m (priceVariable c T sigma pi beta delta) O k l = if j = l then 1 else 0)
    (d : ℝ → J → ℝ) (hd : SolvesNear m T sigma pi true delta (p.tangent X1 X3) d) (j : J)
    (hlower : bounds.1 < (costsNow m c T sigma pi beta delta O s j : EReal)) (hupper : (costsNow m c T sigma pi beta delta O s j : EReal) < bounds.2)
    (hlog : log = true → 0 < costsNow m c T sigma pi beta delta O s j) :
    ∃ omega : ℝ → ℝ,
      (∀ᶠ t in nhds 0, Spec.omegaAlong m c T sigma pi beta gamma X1 X3 O s log bounds p (d t) t j = some (omega t)) ∧
      HasDerivAt omega
        (omegaJacobian m c T sigma pi beta delta X1 X3 O s log bounds xiInverse deltaInverse last p j) 0 := by
  have hcost := hasDerivAt_costsAlong m hm c T hX2 sigma pi beta delta X1 X3 O s p hp hw hoff hint xiInverse deltaInverse hxi hdelta d hd j
  have hzero := costsAlong_zero m c T sigma pi beta delta X1 X3 O s p d hd.1
  have hexp := hasDerivAt_explained gamma X3 p j
  set f := fun t => Spec.costsAlong m c T sigma pi beta X1 X3 O s p (d t) t j with hf
  have hf0 : f 0 = costsNow m c T sigma pi beta delta O s j := congrFun hzero j
  have hcont : ContinuousAt (fun t => ((f t : ℝ) : EReal)) 0 :=
    continuous_coe_real_ereal.continuousAt.comp hcost.continuousAt
  have hin : ∀ᶠ t in nhds (0 : ℝ), bounds.1 < (f t : EReal) ∧ (f t : EReal) < bounds.2 :=
    (continuousAt_const.eventually_lt hcont (by simpa only [hf0] using hlower)).and
      (hcont.eventually_lt continuousAt_const (by simpa only [hf0] using hupper))
  have hclip : ∀ᶠ t in nhds (0 : ℝ), clipCosts bounds (Spec.costsAlong m c T sigma pi beta X1 X3 O s p (d t) t) j = f t := by
    filter_upwards [hin] with t ht
    exact clipCosts_inside bounds _ j ht.1.le ht.2.le
  have hnot : clippedCosts bounds (costsNow m c T sigma pi beta delta O s) j = false := by
    unfold clippedCosts
    simp [hlower.le, hupper.le]
  -- the column without the replacement of rows
  have hcol : omegaJacobian m c T sigma pi beta delta X1 X3 O s log bounds xiInverse deltaInverse last p j =
      omegaByTheta log (fun j => (tildeCosts log bounds (costsNow m c T sigma pi beta delta O s) j).getD (last j)) X3 p
        (etaByTheta deltaInverse (computeEta m (priceVariable c T sigma pi beta delta) O s)
        (capitalDeltaTangent m (priceVariable c T sigma pi beta delta) T sigma pi O p (computeProbabilities m {} delta (computeMu T sigma pi))
          (totalProbabilities m T sigma pi delta (p.tangent X1 X3) xiInverse) (computeConditionals m {} delta (computeMu T sigma pi))
          (totalConditionals m T sigma pi delta (p.tangent X1 X3) xiInverse))) j := by
    have : omegaJacobian m c T sigma pi beta delta X1 X3 O s log bounds xiInverse deltaInverse last p j =
      clippedJacobian bounds (costsNow m c T sigma pi beta delta O s)
      (omegaByTheta log (fun j => (tildeCosts log bounds (costsNow m c T sigma pi beta delta O s) j).getD (last j)) X3 p
        (etaByTheta deltaInverse (computeEta m (priceVariable c T sigma pi beta delta) O s)
        (capitalDeltaTangent m (priceVariable c T sigma pi beta delta) T sigma pi O p (computeProbabilities m {} delta (computeMu T sigma pi))
          (totalProbabilities m T sigma pi delta (p.tangent X1 X3) xiInverse) (computeConditionals m {} delta (computeMu T sigma pi))
          (totalConditionals m T sigma pi delta (p.tangent X1 X3) xiInverse)))) j := rfl
    rw [this]
    unfold clippedJacobian
    rw [hnot]
    simp
  have htilde : clipCosts bounds (costsNow m c T sigma pi beta delta O s) j = costsNow m c T sigma pi beta delta O s j :=
    clipCosts_inside bounds _ j hlower.le hupper.le
  cases hl : log with
  | false =>
    subst hl
    refine ⟨fun t => f t - ∑ k, X3 j k * Spec.shiftGamma p gamma t k, ?_, ?_⟩
    · filter_upwards [hclip] with t ht
      unfold Spec.omegaAlong tildeCosts
      simp only [ht, Bool.false_eq_true, if_false, Option.map_some]
    · refine (hcost.fun_sub hexp).congr_deriv ?_
      rw [hcol]
      unfold omegaByTheta
      cases p with
      | gamma k =>
        simp only [(total_gamma m T sigma pi delta X1 X3 k xiInverse).1, (total_gamma m T sigma pi delta X1 X3 k xiInverse).2,
          capitalDeltaTangent_gamma, etaByTheta_zero]
        ring
      | _ => simp
  | true =>
    subst hl
    have hpos := hlog rfl
    have hpos' : ∀ᶠ t in nhds (0 : ℝ), 0 < f t := continuousAt_const.eventually_lt hcost.continuousAt (by simpa only [hf0] using hpos)
    refine ⟨fun t => Real.log (f t) - ∑ k, X3 j k * Spec.shiftGamma p gamma t k, ?_, ?_⟩
    · filter_upwards [hclip, hpos'] with t ht hp'
      unfold Spec.omegaAlong tildeCosts
      simp only [ht, if_true, if_neg (not_le.mpr hp'), Option.map_some]
    · have h := ((hcost.log (by rw [hf0]; exact hpos.ne')).fun_sub hexp)
      refine h.congr_deriv ?_
      rw [hcol]
      unfold omegaByTheta tildeCosts
      simp only [htilde, if_true, if_neg (not_le.mpr hpos), Option.getD_some, Real.exp_log hpos]
      rw [hf0]
      cases p with
      | gamma k =>
        simp only [(total_gamma m T sigma pi delta X1 X3 k xiInverse).1, (total_gamma m T sigma pi delta X1 X3 k xiInverse).2,
          capitalDeltaTangent_gamma, etaByTheta_zero]
        ring
      | _ => simp

lemma clipCosts_below (bounds : EReal × EReal) (hb : bounds.1 ≤ bounds.2) (costs : J → ℝ) (j : J) (h : (costs j : EReal) < bounds.1) :
    clipCosts bounds costs j = bounds.1.toReal := by
  unfold clipCosts
  rw [max_eq_right h.le, min_eq_left hb]

lemma clipCosts_above (bounds : EReal × EReal) (hb : bounds.1 ≤ bounds.2) (costs : J → ℝ) (j : J) (h : bounds.2 < (costs j : EReal)) :
    clipCosts bounds costs j = bounds.2.toReal := by
  unfold clipCosts
  rw [max_eq_left (hb.trans h.le), min_eq_right h.le]

include hm hX2 hp hw hoff hint in
/-- **C85.** If a marginal cost is outside of its bounds and the bound that replaces it is a number (that has a logarithm if costs
are transformed by it), the code sets the derivative to zero. This is the derivative for all parameters that are not in `gamma`.
For those in `gamma` the derivative is minus the characteristic. -/
theorem C85_clipped_partial (log : Bool) (bounds : EReal × EReal) (hb : bounds.1 ≤ bounds.2) (last : J → ℝ) (xiInverse deltaInverse : J → J → ℝ)
    (hxi : ∀ j l, ∑ k, xiInverse j k * sharesByXiJacobian m (computeShares m {} delta (computeMu T sigma pi))
      (computeProbabilities m {} delta (computeMu T sigma pi)) (computeConditionals m {} delta (computeMu T sigma pi)) k l =
      if j = l then 1 else 0)
    (hdelta : ∀ j l, ∑ k, deltaInverse j k * capitalDelta m (priceVariable c T sigma pi beta delta) O k l = if j = l then 1 else 0)
    (d : ℝ → J → ℝ) (hd : SolvesNear m T sigma pi true delta (p.tangent X1 X3) d) (j : J) (b : ℝ)
    (hout : (costsNow m c T sigma pi beta delta O s j : EReal) < bounds.1 ∧ bounds.1 = b ∨
      bounds.2 < (costsNow m c T sigma pi beta delta O s j : EReal) ∧ bounds.2 = b)
    (hlog : log = true → 0 < b) :
    omegaJacobian m c T sigma pi beta delta X1 X3 O s log bounds xiInverse deltaInverse last p j = 0 ∧
    ∃ omega : ℝ → ℝ,
      (∀ᶠ t in nhds 0, Spec.omegaAlong m c T sigma pi beta gamma X1 X3 O s log bounds p (d t) t j = some (omega t)) ∧
      HasDerivAt omega (match p with | .gamma k => -X3 j k | _ => 0) 0 := by
  have hcost := hasDerivAt_costsAlong m hm c T hX2 sigma pi beta delta X1 X3 O s p hp hw hoff hint xiInverse deltaInverse hxi hdelta d hd j
  have hzero := costsAlong_zero m c T sigma pi beta delta X1 X3 O s p d hd.1
  have hexp := hasDerivAt_explained gamma X3 p j
  set f := fun t => Spec.costsAlong m c T sigma pi beta X1 X3 O s p (d t) t j with hf
  have hf0 : f 0 = costsNow m c T sigma pi beta delta O s j := congrFun hzero j
  have hcont : ContinuousAt (fun t => ((f t : ℝ) : EReal)) 0 :=
    continuous_coe_real_ereal.continuousAt.comp hcost.continuousAt
  have hclip : ∀ᶠ t in nhds (0 : ℝ), clipCosts bounds (Spec.costsAlong m c T sigma pi beta X1 X3 O s p (d t) t) j = b := by
    rcases hout with ⟨h, hb'⟩ | ⟨h, hb'⟩
    · filter_upwards [hcont.eventually_lt continuousAt_const (by simpa only [hf0] using h)] with t ht
      rw [clipCosts_below bounds hb _ j ht, hb', EReal.toReal_coe]
    · filter_upwards [continuousAt_const.eventually_lt hcont (by simpa only [hf0] using h)] with t ht
      rw [clipCosts_above bounds hb _ j ht, hb', EReal.toReal_coe]
  constructor
  · have hyes : clippedCosts bounds (costsNow m c T sigma pi beta delta O s) j = true := by
      unfold clippedCosts
      simp only [decide_eq_true_eq]
      exact hout.imp And.left And.left
    change clippedJacobian bounds (costsNow m c T sigma pi beta delta O s) _ j = 0
    unfold clippedJacobian
    rw [hyes]
    simp
  · refine ⟨fun t => (if log then Real.log b else b) - ∑ k, X3 j k * Spec.shiftGamma p gamma t k, ?_, ?_⟩
    · filter_upwards [hclip] with t ht
      unfold Spec.omegaAlong tildeCosts
      simp only [ht]
      cases log with
      | false => simp
      | true => simp only [if_true, if_neg (not_le.mpr (hlog rfl)), Option.map_some]
    · refine (hexp.const_sub _).congr_deriv ?_
      cases p <;> simp

end omega

namespace Spec

/-- The unobserved characteristic `xi` explains shares `s` close to the parameters: mean utilities are `X1` times `beta`, plus `xi`. -/
def Explains (m : Market J A G) (T : Tastes J A K2 N D) (sigma : K2 → N → ℝ) (pi : K2 → D → ℝ) (beta : K1 → ℝ) (X1 : J → K1 → ℝ)
    (X3 : J → K3 → ℝ) (s : J → ℝ) (p : ThetaParam G K1 K2 K3 N D) (xi : ℝ → J → ℝ) : Prop :=
  let q : TangentParam J G K2 N D := p.tangent X1 X3
  ∀ᶠ t in nhds (0 : ℝ), computeShares (shiftMarket q m t) {} (fun j => ∑ k, X1 j k * shiftBeta p beta t k + xi t j)
    (computeMu T (shiftSigma q sigma t) (shiftPi q pi t)) = s

end Spec

lemma shiftDelta_theta (X1 : J → K1 → ℝ) (X3 : J → K3 → ℝ) (beta : K1 → ℝ) (p : ThetaParam G K1 K2 K3 N D) (xi : J → ℝ) (t : ℝ) :
    Spec.shiftDelta (p.tangent X1 X3 : TangentParam J G K2 N D) (fun j => ∑ k, X1 j k * beta k + xi j) t =
      fun j => ∑ k, X1 j k * Spec.shiftBeta p beta t k + xi j := by
  funext j
  unfold Spec.shiftDelta Spec.shiftBeta
  cases p with
  | beta k =>
    have : ∀ k', X1 j k' * (if k' = k then beta k' + t else beta k') = X1 j k' * beta k' + if k' = k then t * X1 j k' else 0 := by
      intro k'; by_cases h : k' = k <;> simp [h]; ring
    simp only [ThetaParam.tangent, this, Finset.sum_add_distrib, Finset.sum_ite_eq', Finset.mem_univ, if_true]
    ring
  | _ => rfl

/-- **C84.** Whatever unobserved characteristics explain shares as a parameter changes, where mean utilities are `X1` times `beta`, plus the
unobserved characteristic, their derivative is what the code computes. -/
theorem C84_xi_by_parameter (m : Market J A G) (hm : WellFormed m) (T : Tastes J A K2 N D) (sigma : K2 → N → ℝ) (pi : K2 → D → ℝ)
    (beta : K1 → ℝ) (X1 : J → K1 → ℝ) (X3 : J → K3 → ℝ) (p : ThetaParam G K1 K2 K3 N D)
    (hp : Spec.Fits (p.tangent X1 X3 : TangentParam J G K2 N D) m) (hw : ∀ i, 0 ≤ m.weights i)
    (hoff : ∀ j, ∃ i, 0 < m.weights i ∧ Offered m {} i j) (hint : RhoInterior m (p.tangent X1 X3 : TangentParam J G K2 N D))
    (xi : ℝ → J → ℝ) (delta : J → ℝ) (hdelta : ∀ j, delta j = ∑ k, X1 j k * beta k + xi 0 j)
    (hxi : Spec.Explains m T sigma pi beta X1 X3 (computeShares m {} delta (computeMu T sigma pi)) p xi) (inverse : J → J → ℝ)
    (hinverse : ∀ j l, ∑ k, inverse j k * sharesByXiJacobian m (computeShares m {} delta (computeMu T sigma pi))
      (computeProbabilities m {} delta (computeMu T sigma pi)) (computeConditionals m {} delta (computeMu T sigma pi)) k l =
      if j = l then 1 else 0) (j : J) :
    HasDerivAt (fun t => xi t j) (xiByTheta m inverse
      (probabilitiesTangent m T sigma pi {} delta (computeProbabilities m {} delta (computeMu T sigma pi))
        (computeConditionals m {} delta (computeMu T sigma pi)) (p.tangent X1 X3)).1 j) 0 := by
  have hd : SolvesNear m T sigma pi true delta (p.tangent X1 X3) fun t j => ∑ k, X1 j k * beta k + xi t j := by
    refine ⟨funext fun j => (hdelta j).symm, hxi.mono fun t ht => ?_⟩
    unfold Spec.sharesOf
    simp only [shiftDelta_theta]
    exact ht
  have h := C84_xi_by_theta m hm T sigma pi true delta (p.tangent X1 X3) hp hw hoff hint inverse hinverse _ hd j
  simpa using h.sub_const (∑ k, X1 j k * beta k)

/-! ## Non-vacuity -/

/-- Prices that enter mean utility with their coefficient, and characteristics with random coefficients that do not depend on them. -/
noncomputable def examplePrices : Characteristic (Fin 3) (Fin 2) (Fin 1) (Fin 2) where
  delta := ![1, 2, 3]
  x0 := ![1, 1, 2]
  beta := fun _ => 0
  has1 := fun _ => true
  x1 := fun _ _ t => t
  d1 := fun _ _ _ => 1
  dd1 := fun _ _ _ => 0
  coef := fun _ _ _ => 0
  has2 := fun _ => false
  x2 := fun k j _ => exampleTastes.X2 j k
  d2 := fun _ _ _ => 0
  dd2 := fun _ _ _ => 0

/-- With one firm, the matrix that defines markups is the transposed Jacobian of shares with respect to mean utilities times minus the price
coefficient. -/
lemma examplePrices_capitalDelta (sigma : Fin 2 → Fin 2 → ℝ) (pi : Fin 2 → Fin 1 → ℝ) (beta : Fin 1 → ℝ) (delta : Fin 3 → ℝ) (j k : Fin 3) :
    capitalDelta exampleMarket (priceVariable examplePrices exampleTastes sigma pi beta delta) (fun _ _ => 1) j k =
      -beta 0 * sharesByXiJacobian exampleMarket (computeShares exampleMarket {} delta (computeMu exampleTastes sigma pi))
        (computeProbabilities exampleMarket {} delta (computeMu exampleTastes sigma pi))
        (computeConditionals exampleMarket {} delta (computeMu exampleTastes sigma pi)) k j := by
  have hmu := updateMu_prices examplePrices exampleTastes (fun _ _ => rfl) sigma pi beta delta
  have hdelta := updateDelta_prices examplePrices exampleTastes sigma pi beta delta
  have hx : (priceVariable examplePrices exampleTastes sigma pi beta delta).x0 = examplePrices.x0 := rfl
  have hU : ∀ x a b, utilityDerivatives exampleMarket (priceVariable examplePrices exampleTastes sigma pi beta delta) x a b = beta 0 := by
    intro x a b
    simp [utilityDerivatives, priceVariable, examplePrices, exampleMarket]
  unfold capitalDelta probabilitiesAt conditionalsAt
  simp only [Matrix.of_apply, hx, hmu, hdelta, mul_one]
  generalize computeMu exampleTastes sigma pi = mu
  have hs : ∀ a, computeShares exampleMarket {} delta mu a = ∑ i, computeProbabilities exampleMarket {} delta mu a i * exampleMarket.weights i :=
    fun _ => rfl
  rw [sharesByXi_of exampleMarket _ (fun a => ∑ i, computeProbabilities exampleMarket {} delta mu a i * exampleMarket.weights i) _ _ k j (hs k)]
  generalize computeProbabilities exampleMarket {} delta mu = P
  generalize computeConditionals exampleMarket {} delta mu = C
  have hfun : utilityDerivatives exampleMarket (priceVariable examplePrices exampleTastes sigma pi beta delta) examplePrices.x0 =
      fun _ _ => beta 0 := funext fun a => funext fun i => hU _ a i
  rw [hfun]
  obtain ⟨n, hn⟩ : ∃ n, exampleMarket.nesting = some n := ⟨_, rfl⟩
  have h0 : 1 - n.productRho k ≠ 0 := by
    have := exampleMarket_rho n hn (n.group k)
    unfold Nesting.productRho
    linarith
  unfold capitalGamma capitalLamda sharesByXiJacobian
  simp only [hn, ← mul_assoc, ← Finset.sum_mul]
  rw [show ∑ i, P k i * beta 0 * exampleMarket.weights i = beta 0 * ∑ i, P k i * exampleMarket.weights i by
    rw [Finset.mul_sum]; exact Finset.sum_congr rfl fun i _ => by ring]
  by_cases hjk : k = j
  · simp only [if_pos hjk]; field_simp; ring
  · simp only [if_neg hjk]; field_simp; ring

/-- Non-vacuity of C85: the example market, one firm, prices with coefficient -2. There are inverses, and mean utilities that keep shares fixed,
for a nesting parameter, an element of `sigma`, the price coefficient and a parameter in `gamma`. -/
example (sigma : Fin 2 → Fin 2 → ℝ) (pi : Fin 2 → Fin 1 → ℝ) (delta : Fin 3 → ℝ) (p : ThetaParam (Fin 2) (Fin 1) (Fin 2) (Fin 1) (Fin 2) (Fin 1))
    (hp : p = .rhoOne (some 1) ∨ p = .sigma 1 0 ∨ p = .beta 0 ∨ p = .gamma 0) :
    let X1 : Fin 3 → Fin 1 → ℝ := fun j _ => ![1, 1, 2] j
    let X3 : Fin 3 → Fin 1 → ℝ := fun _ _ => 1
    let mu := computeMu exampleTastes sigma pi
    let prices := priceVariable examplePrices exampleTastes sigma pi (fun _ => -2) delta
    Spec.Fits (p.tangent X1 X3 : TangentParam (Fin 3) (Fin 2) (Fin 2) (Fin 2) (Fin 1)) exampleMarket ∧
    RhoInterior exampleMarket (p.tangent X1 X3 : TangentParam (Fin 3) (Fin 2) (Fin 2) (Fin 2) (Fin 1)) ∧
    (∃ d, SolvesNear exampleMarket exampleTastes sigma pi true delta (p.tangent X1 X3) d) ∧
    (∃ xiInverse : Fin 3 → Fin 3 → ℝ, ∀ j l, ∑ k, xiInverse j k * sharesByXiJacobian exampleMarket (computeShares exampleMarket {} delta mu)
      (computeProbabilities exampleMarket {} delta mu) (computeConditionals exampleMarket {} delta mu) k l = if j = l then 1 else 0) ∧
    (∃ deltaInverse : Fin 3 → Fin 3 → ℝ, ∀ j l, ∑ k, deltaInverse j k * capitalDelta exampleMarket prices (fun _ _ => 1) k l =
      if j = l then 1 else 0) := by
  intro X1 X3 mu prices
  set q : TangentParam (Fin 3) (Fin 2) (Fin 2) (Fin 2) (Fin 1) := p.tangent X1 X3 with hq
  have hfits : Spec.Fits q exampleMarket := by
    intro n hn; simp only [exampleMarket, Option.some.injEq] at hn; subst hn
    rcases hp with rfl | rfl | rfl | rfl <;> trivial
  have hw : ∀ i, 0 ≤ exampleMarket.weights i := by
    intro i; fin_cases i <;> (simp [exampleMarket]; try norm_num)
  set M := Matrix.of (sharesByXiJacobian exampleMarket (computeShares exampleMarket {} delta mu)
    (computeProbabilities exampleMarket {} delta mu) (computeConditionals exampleMarket {} delta mu)) with hM
  have hdet : IsUnit M.det :=
    isUnit_iff_ne_zero.mpr (C84_nonsingular exampleMarket exampleMarket_wellFormed true delta mu hw exampleMarket_offered)
  refine ⟨hfits, ?_, ?_, ⟨(M⁻¹ : Matrix (Fin 3) (Fin 3) ℝ), ?_⟩,
    ⟨((2 • M.transpose)⁻¹ : Matrix (Fin 3) (Fin 3) ℝ), ?_⟩⟩
  · intro n hn g _
    simp only [exampleMarket, Option.some.injEq] at hn
    subst hn
    fin_cases g <;> simp [RhoParam.groupRho]
  · obtain ⟨d, hd, -⟩ := C84_exists exampleMarket exampleMarket_wellFormed exampleTastes sigma pi true delta q hfits hw exampleMarket_offered
    exact ⟨d, hd⟩
  · intro j l
    have := congrFun (congrFun (Matrix.nonsing_inv_mul M hdet) j) l
    rw [Matrix.mul_apply, Matrix.one_apply] at this
    exact this
  · intro j l
    have hunit : IsUnit (2 • M.transpose).det := by
      rw [Matrix.det_smul_of_tower, Matrix.det_transpose]
      simp only [Fintype.card_fin]
      exact (isUnit_iff_ne_zero.mpr (by simpa using hdet.ne_zero))
    have := congrFun (congrFun (Matrix.nonsing_inv_mul (2 • M.transpose) hunit) j) l
    rw [Matrix.mul_apply, Matrix.one_apply] at this
    rw [← this]
    refine Finset.sum_congr rfl fun k _ => ?_
    rw [examplePrices_capitalDelta]
    simp [hM, mu]

/-- Non-vacuity of `C84_xi_by_parameter`: unobserved characteristics that explain shares of the example market as the coefficient on prices
changes. -/
example (sigma : Fin 2 → Fin 2 → ℝ) (pi : Fin 2 → Fin 1 → ℝ) (delta : Fin 3 → ℝ) :
    let X1 : Fin 3 → Fin 1 → ℝ := fun j _ => ![1, 1, 2] j
    let p : ThetaParam (Fin 2) (Fin 1) (Fin 2) (Fin 1) (Fin 2) (Fin 1) := .beta 0
    let beta : Fin 1 → ℝ := fun _ => -2
    ∃ xi : ℝ → Fin 3 → ℝ, (∀ j, delta j = ∑ k, X1 j k * beta k + xi 0 j) ∧
      Spec.Explains exampleMarket exampleTastes sigma pi beta X1 (fun _ _ => 1)
        (computeShares exampleMarket {} delta (computeMu exampleTastes sigma pi)) p xi := by
  intro X1 p beta
  have hfits : Spec.Fits (p.tangent X1 (fun _ _ => 1) : TangentParam (Fin 3) (Fin 2) (Fin 2) (Fin 2) (Fin 1)) exampleMarket := by
    intro n hn; simp only [exampleMarket, Option.some.injEq] at hn; subst hn; trivial
  have hw : ∀ i, 0 ≤ exampleMarket.weights i := by
    intro i; fin_cases i <;> (simp [exampleMarket]; try norm_num)
  obtain ⟨d, hd, -⟩ := C84_exists exampleMarket exampleMarket_wellFormed exampleTastes sigma pi true delta _ hfits hw exampleMarket_offered
  refine ⟨fun t j => d t j - ∑ k, X1 j k * beta k, fun j => by beta_reduce; rw [hd.1]; ring, hd.2.mono fun t ht => ?_⟩
  have hs := shiftDelta_theta X1 (fun _ _ => 1) beta p (fun j => d t j - ∑ k, X1 j k * beta k) t
  rw [← hs]
  simp only [add_sub_cancel]
  exact ht

/-- **C85.** Refutation: the code's derivative of the unobserved characteristic with respect to a parameter in `gamma` is zero if the marginal
cost is outside of its bounds, although it is minus the characteristic. In the example market, at any parameters, with linear costs that
have a lower bound above the first marginal cost, and a constant in `X3`. -/
theorem C85_clipped_refuted (sigma : Fin 2 → Fin 2 → ℝ) (pi : Fin 2 → Fin 1 → ℝ) (delta : Fin 3 → ℝ) : ∃ bounds : EReal × EReal,
    ∀ xiInverse deltaInverse : Fin 3 → Fin 3 → ℝ, ∀ last : Fin 3 → ℝ,
    let X1 : Fin 3 → Fin 1 → ℝ := fun j _ => ![1, 1, 2] j
    let X3 : Fin 3 → Fin 1 → ℝ := fun _ _ => 1
    let p : ThetaParam (Fin 2) (Fin 1) (Fin 2) (Fin 1) (Fin 2) (Fin 1) := .gamma 0
    let s := computeShares exampleMarket {} delta (computeMu exampleTastes sigma pi)
    bounds.1 ≤ bounds.2 ∧
    omegaJacobian exampleMarket examplePrices exampleTastes sigma pi (fun _ => -2) delta X1 X3 (fun _ _ => 1) s false bounds
      xiInverse deltaInverse last p 0 = 0 ∧
    ∃ omega : ℝ → ℝ,
      (∀ t, Spec.omegaAlong exampleMarket examplePrices exampleTastes sigma pi (fun _ => -2) (fun _ => 0) X1 X3
        (fun _ _ => 1) s false bounds p delta t 0 = some (omega t)) ∧
      HasDerivAt omega (-1) 0 := by
  set s := computeShares exampleMarket {} delta (computeMu exampleTastes sigma pi) with hs
  set cost := costsNow exampleMarket examplePrices exampleTastes sigma pi (fun _ => -2) delta (fun _ _ => 1) s 0 with hcost
  refine ⟨((cost + 1 : ℝ), (cost + 2 : ℝ)), ?_⟩
  intro xiInverse deltaInverse last X1 X3 p
  have hb : ((cost + 1 : ℝ) : EReal) ≤ ((cost + 2 : ℝ) : EReal) := EReal.coe_le_coe_iff.mpr (by linarith)
  have hlt : (cost : EReal) < ((cost + 1 : ℝ) : EReal) := EReal.coe_lt_coe_iff.mpr (by linarith)
  refine ⟨hb, ?_, fun t => cost + 1 - t, ?_, ?_⟩
  · change clippedJacobian _ (costsNow exampleMarket examplePrices exampleTastes sigma pi (fun _ => -2) delta (fun _ _ => 1) s) _ 0 = 0
    unfold clippedJacobian clippedCosts
    rw [if_pos (by simp only [decide_eq_true_eq]; exact Or.inl hlt)]
  · intro t
    have hm : Spec.shiftMarket (p.tangent X1 X3 : TangentParam (Fin 3) (Fin 2) (Fin 2) (Fin 2) (Fin 1)) exampleMarket t = exampleMarket := rfl
    have hc : Spec.costsAlong exampleMarket examplePrices exampleTastes sigma pi (fun _ => -2) X1 X3 (fun _ _ => 1) s p delta t =
        costsNow exampleMarket examplePrices exampleTastes sigma pi (fun _ => -2) delta (fun _ _ => 1) s := by
      unfold Spec.costsAlong costsNow
      rw [hm]
      rfl
    unfold Spec.omegaAlong tildeCosts
    rw [hc, clipCosts_below _ hb _ _ hlt]
    simp only [Bool.false_eq_true, if_false, Option.map_some, EReal.toReal_coe, Option.some.injEq]
    simp [X3, p, Spec.shiftGamma]
  · exact ((hasDerivAt_id (0 : ℝ)).const_sub (cost + 1))

end Pyblp
