import Verif.Props.SupplyTangents
import Verif.Model.WholeProblem
import Mathlib.Topology.Instances.Matrix

/-! What is computed for a market depends continuously on mean utilities. -/

set_option linter.unusedSectionVars false

namespace Pyblp

open Filter Topology

variable {J A G K1 K2 K3 N D : Type} [Fintype J] [DecidableEq J] [Nonempty J] [Fintype G] [DecidableEq G]
  [Fintype K1] [DecidableEq K1] [Fintype K2] [DecidableEq K2] [Fintype K3] [DecidableEq K3] [Fintype N] [DecidableEq N]
  [Fintype D] [DecidableEq D] [Fintype A]

/-- Elements of the inverse of a matrix are continuous where the matrix is nonsingular. -/
lemma continuousAt_inv_apply {X : Type} [TopologicalSpace X] (S : X → Matrix J J ℝ) (hS : ∀ j k, Continuous fun x => S x j k) (z : X)
    (hz : (S z).det ≠ 0) (j k : J) : ContinuousAt (fun x => (S x)⁻¹ j k) z := by
  have hc : Continuous S := continuous_matrix hS
  have h1 : ContinuousAt (fun x => (S x).det) z := hc.matrix_det.continuousAt
  have h2 : ContinuousAt (fun x => (S x).adjugate j k) z := (hc.matrix_adjugate.matrix_elem j k).continuousAt
  have he : (fun x => (S x)⁻¹ j k) = fun x => ((S x).det)⁻¹ * (S x).adjugate j k := by
    funext x
    rw [Matrix.inv_def, Ring.inverse_eq_inv, Matrix.smul_apply, smul_eq_mul]
  rw [he]
  exact (h1.inv₀ hz).mul h2

/-- Matrices that are a left inverse are the inverse. -/
lemma eq_inv_of_left (S : Matrix J J ℝ) (R : J → J → ℝ) (h : ∀ j l, ∑ k, R j k * S k l = if j = l then 1 else 0) : Matrix.of R = S⁻¹ := by
  refine (Matrix.inv_eq_left_inv ?_).symm
  ext j l
  rw [Matrix.mul_apply, Matrix.one_apply]
  exact h j l

section demand

variable (m : Market J A G) (hm : WellFormed m) (T : Tastes J A K2 N D) (sigma : K2 → N → ℝ) (pi : K2 → D → ℝ)

include hm in
lemma continuous_probabilities (mu : J → A → ℝ) (j : J) (i : A) : Continuous fun delta => computeProbabilities m {} delta mu j i := by
  have ha := hm.availNonneg {} rfl i
  have hv : ∀ k, ContDiff ℝ 1 fun delta : J → ℝ => delta k + mu k i := fun k => (contDiff_apply ℝ ℝ k).add contDiff_const
  rw [continuous_iff_continuousAt]
  intro delta
  cases hn : m.nesting with
  | none =>
    rw [funext fun x => computeProbabilities_plain m {} x mu hn i j]
    exact (contDiffAt_logit (fun k (x : J → ℝ) => (x k + mu k i) / m.epsilonScale) delta (multiplier m {} i)
      (fun k => ((hv k).div_const _).contDiffAt) _ (plain_denominator_pos _ (multiplier_nonneg ha) (Or.inl rfl)).ne' j).continuousAt
  | some n =>
    have hr : ∀ g, n.rho.groupRho g < 1 := hm.regular.rhoBelowOne n hn
    rw [funext fun x => computeProbabilities_nested m {} x mu n hn i ha (fun g => (hr g).ne) j]
    exact (contDiffAt_nested n.group (fun g _ => n.rho.groupRho g) (fun k (x : J → ℝ) => x k + mu k i) delta (multiplier m {} i) hr
      (fun g => contDiffAt_const) (fun k => (hv k).contDiffAt) (multiplier_nonneg ha) _
      (nested_denominator_pos _ (multiplier_nonneg ha) (Or.inl rfl)).ne' j).continuousAt

include hm in
lemma continuous_conditionals (mu : J → A → ℝ) (j : J) (i : A) : Continuous fun delta => computeConditionals m {} delta mu j i := by
  have ha := hm.availNonneg {} rfl i
  have hv : ∀ k, ContDiff ℝ 1 fun delta : J → ℝ => delta k + mu k i := fun k => (contDiff_apply ℝ ℝ k).add contDiff_const
  rw [continuous_iff_continuousAt]
  intro delta
  cases hn : m.nesting with
  | none =>
    have he : ∀ x, computeConditionals m {} x mu j i = 0 := fun x => by
      unfold computeConditionals agentProbabilities
      simp [hn]
    rw [funext he]
    exact continuousAt_const
  | some n =>
    have hr : ∀ g, n.rho.groupRho g < 1 := hm.regular.rhoBelowOne n hn
    rw [funext fun x => computeConditionals_nested m {} x mu n hn i ha (fun g => (hr g).ne) j]
    exact (contDiffAt_within n.group (fun g _ => n.rho.groupRho g) (fun k (x : J → ℝ) => x k + mu k i) delta (multiplier m {} i) hr
      (fun g => contDiffAt_const) (fun k => (hv k).contDiffAt) (multiplier_nonneg ha) j).continuousAt

include hm in
lemma continuous_shares (mu : J → A → ℝ) (j : J) : Continuous fun delta => computeShares m {} delta mu j := by
  unfold computeShares
  exact continuous_finsetSum _ fun i _ => (continuous_probabilities m hm mu j i).mul continuous_const

/-- Partial derivatives of continuously differentiable functions are continuous. -/
lemma continuous_partial (f : ℝ × (J → ℝ) → ℝ) (hf : ∀ delta, ContDiffAt ℝ 1 f (0, delta)) (f1 : (J → ℝ) → ℝ)
    (h : ∀ delta, HasDerivAt (fun t => f (t, delta)) (f1 delta) 0) : Continuous f1 := by
  have he : f1 = fun delta => fderiv ℝ f (0, delta) (1, 0) := by
    funext delta
    have hpath : HasDerivAt (fun t : ℝ => (t, delta)) ((1 : ℝ), (0 : J → ℝ)) 0 := (hasDerivAt_id (0 : ℝ)).prodMk (hasDerivAt_const _ _)
    exact (h delta).unique ((((hf delta).differentiableAt (by norm_num)).hasFDerivAt).comp_hasDerivAt (0 : ℝ) hpath)
  rw [he, continuous_iff_continuousAt]
  intro delta
  have h1 : ContinuousAt (fderiv ℝ f) (0, delta) := ((hf delta).fderiv_right (m := 0) (by norm_num)).continuousAt
  have h2 : ContinuousAt (fun x : J → ℝ => fderiv ℝ f (0, x)) delta :=
    ContinuousAt.comp (f := fun x : J → ℝ => ((0 : ℝ), x)) (g := fderiv ℝ f) h1 (by fun_prop)
  exact h2.clm_apply continuousAt_const

variable (p : TangentParam J G K2 N D) (hp : Spec.Fits p m)

include hm hp in
lemma continuous_tangent (j : J) (i : A) : Continuous fun delta => (probabilitiesTangent m T sigma pi {} delta
    (computeProbabilities m {} delta (computeMu T sigma pi)) (computeConditionals m {} delta (computeMu T sigma pi)) p).1 j i :=
  continuous_partial (Spec.probabilitiesOf m T sigma pi {} p j i)
    (fun delta => contDiffAt_probabilitiesOf m hm T sigma pi {} rfl delta p hp i (Or.inl rfl) j) _
    fun delta => C83_probabilities m hm T sigma pi {} rfl delta p hp i (Or.inl rfl) j

include hm hp in
lemma continuous_conditionalsTangent (j : J) (i : A) : Continuous fun delta => (probabilitiesTangent m T sigma pi {} delta
    (computeProbabilities m {} delta (computeMu T sigma pi)) (computeConditionals m {} delta (computeMu T sigma pi)) p).2 j i :=
  continuous_partial (Spec.conditionalsOf m T sigma pi {} p j i)
    (fun delta => contDiffAt_conditionalsOf m hm T sigma pi {} rfl delta p hp i j) _
    fun delta => C83_conditionals m hm T sigma pi {} rfl delta p hp i j

include hm in
lemma continuous_sharesByXi (s : J → ℝ) (mu : J → A → ℝ) (j k : J) : Continuous fun delta => sharesByXiJacobian m s
    (computeProbabilities m {} delta mu) (computeConditionals m {} delta mu) j k := by
  have hP := continuous_probabilities m hm mu
  have hC := continuous_conditionals m hm mu
  unfold sharesByXiJacobian
  cases m.nesting with
  | none =>
    by_cases h : m.epsilonScale ≠ 1
    · simp only [if_pos h]
      fun_prop
    · simp only [if_neg h]
      fun_prop
  | some n => fun_prop

include hm hp in
lemma continuousAt_xiByTheta (z : J → ℝ) (inverse : (J → ℝ) → J → J → ℝ) (hinv : ∀ j k, ContinuousAt (fun x => inverse x j k) z) (j : J) :
    ContinuousAt (fun delta => xiByTheta m (inverse delta) (probabilitiesTangent m T sigma pi {} delta
      (computeProbabilities m {} delta (computeMu T sigma pi)) (computeConditionals m {} delta (computeMu T sigma pi)) p).1 j) z := by
  unfold xiByTheta sharesByTheta
  refine tendsto_finsetSum _ fun k _ => (hinv j k).mul (ContinuousAt.neg ?_)
  exact tendsto_finsetSum _ fun i _ => (continuous_tangent m hm T sigma pi p hp k i).continuousAt.mul continuousAt_const

end demand

section supply

variable (m : Market J A G) (hm : WellFormed m) (c : Characteristic J A K1 K2) (T : Tastes J A K2 N D)
  (hX2 : ∀ j k, T.X2 j k = c.x2 k j (c.x0 j)) (sigma : K2 → N → ℝ) (pi : K2 → D → ℝ) (beta : K1 → ℝ) (O : J → J → ℝ) (s : J → ℝ)

include hX2 in
lemma capitalDelta_prices (delta : J → ℝ) (j k : J) : capitalDelta m (priceVariable c T sigma pi beta delta) O j k =
    (capitalGamma m (computeProbabilities m {} delta (computeMu T sigma pi)) (computeConditionals m {} delta (computeMu T sigma pi))
      (utilityDerivatives m (priceVariable c T sigma pi beta 0) c.x0) k j -
      (if k = j then capitalLamda m (computeProbabilities m {} delta (computeMu T sigma pi))
        (utilityDerivatives m (priceVariable c T sigma pi beta 0) c.x0) k else 0)) * O j k := by
  have hx : (priceVariable c T sigma pi beta delta).x0 = c.x0 := rfl
  have hmu := updateMu_prices c T hX2 sigma pi beta delta
  have hdelta := updateDelta_prices c T sigma pi beta delta
  unfold capitalDelta probabilitiesAt conditionalsAt
  simp only [Matrix.of_apply, hx, hmu, hdelta]
  rfl

include hm hX2 in
lemma continuous_capitalDelta (j k : J) : Continuous fun delta => capitalDelta m (priceVariable c T sigma pi beta delta) O j k := by
  simp only [capitalDelta_prices m c T hX2]
  have hP := continuous_probabilities m hm (computeMu T sigma pi)
  have hC := continuous_conditionals m hm (computeMu T sigma pi)
  unfold capitalGamma capitalLamda
  cases m.nesting with
  | none =>
    by_cases h : k = j
    · simp only [if_pos h]
      fun_prop
    · simp only [if_neg h]
      fun_prop
  | some n =>
    by_cases h : k = j
    · simp only [if_pos h]
      fun_prop
    · simp only [if_neg h]
      fun_prop

include hm hX2 in
lemma continuousAt_eta (z : J → ℝ) (hz : (capitalDelta m (priceVariable c T sigma pi beta z) O).det ≠ 0) (j : J) :
    ContinuousAt (fun delta => computeEta m (priceVariable c T sigma pi beta delta) O s j) z := by
  unfold computeEta Matrix.mulVec dotProduct
  exact tendsto_finsetSum _ fun k _ => (continuousAt_inv_apply _ (continuous_capitalDelta m hm c T hX2 sigma pi beta O) z hz j k).mul
    continuousAt_const

variable {X : Type} [TopologicalSpace X]

/-- Transformed costs are continuous where costs are inside of their bounds, and positive if there are logarithms. -/
lemma continuousAt_tildeCosts (log : Bool) (bounds : EReal × EReal) (costs : X → J → ℝ) (z : X) (j : J)
    (hc : ContinuousAt (fun x => costs x j) z) (h1 : bounds.1 < (costs z j : EReal)) (h2 : (costs z j : EReal) < bounds.2)
    (hlog : log = true → 0 < costs z j) (d : ℝ) : ContinuousAt (fun x => (tildeCosts log bounds (costs x) j).getD d) z := by
  have hce : ContinuousAt (fun x => (costs x j : EReal)) z := continuous_coe_real_ereal.continuousAt.comp hc
  have e1 : ∀ᶠ x in 𝓝 z, bounds.1 < (costs x j : EReal) := hce.eventually (lt_mem_nhds h1)
  have e2 : ∀ᶠ x in 𝓝 z, (costs x j : EReal) < bounds.2 := hce.eventually (gt_mem_nhds h2)
  cases log with
  | false =>
    refine hc.congr ?_
    filter_upwards [e1, e2] with x hx1 hx2
    simp [tildeCosts, clipCosts_inside bounds (costs x) j hx1.le hx2.le]
  | true =>
    have hpos := hlog rfl
    refine (hc.log hpos.ne').congr ?_
    filter_upwards [e1, e2, hc.eventually (lt_mem_nhds hpos)] with x hx1 hx2 hx3
    simp [tildeCosts, clipCosts_inside bounds (costs x) j hx1.le hx2.le, not_le.mpr hx3]

/-- Rows for costs inside of their bounds are kept. -/
lemma continuousAt_clippedJacobian (bounds : EReal × EReal) (costs jacobian : X → J → ℝ) (z : X) (j : J)
    (hc : ContinuousAt (fun x => costs x j) z) (h1 : bounds.1 < (costs z j : EReal)) (h2 : (costs z j : EReal) < bounds.2)
    (hj : ContinuousAt (fun x => jacobian x j) z) : ContinuousAt (fun x => clippedJacobian bounds (costs x) (jacobian x) j) z := by
  have hce : ContinuousAt (fun x => (costs x j : EReal)) z := continuous_coe_real_ereal.continuousAt.comp hc
  refine hj.congr ?_
  filter_upwards [hce.eventually (lt_mem_nhds h1), hce.eventually (gt_mem_nhds h2)] with x hx1 hx2
  unfold clippedJacobian clippedCosts
  rw [if_neg]
  simp [hx1.le, hx2.le]

/-- Tangents of the matrix that defines markups are continuous. -/
lemma continuousAt_capitalDeltaTangent (z : X) (p : ThetaParam G K1 K2 K3 N D) (P dP C dC : X → J → A → ℝ)
    (hP : ∀ j i, ContinuousAt (fun x => P x j i) z) (hdP : ∀ j i, ContinuousAt (fun x => dP x j i) z)
    (hC : ∀ j i, ContinuousAt (fun x => C x j i) z) (hdC : ∀ j i, ContinuousAt (fun x => dC x j i) z) (j k : J) :
    ContinuousAt (fun x => capitalDeltaTangent m c T sigma pi O p (P x) (dP x) (C x) (dC x) j k) z := by
  have hlamda : ContinuousAt (fun x => capitalLamdaTangent m p (fun j i => P x j i * utilityDerivatives m c c.x0 j i)
      (fun j i => dP x j i * utilityDerivatives m c c.x0 j i + P x j i * utilityDerivativesTangent m c T sigma pi p j i) k) z := by
    unfold capitalLamdaTangent
    cases m.nesting with
    | none => fun_prop
    | some n => cases h : p.isRho <;> simp only [Bool.false_eq_true, if_true, if_false] <;> fun_prop
  have hgamma : ContinuousAt (fun x => capitalGammaTangent m p (fun j i => P x j i * utilityDerivatives m c c.x0 j i)
      (fun j i => dP x j i * utilityDerivatives m c c.x0 j i + P x j i * utilityDerivativesTangent m c T sigma pi p j i)
      (P x) (dP x) (C x) (dC x) k j) z := by
    unfold capitalGammaTangent
    cases m.nesting with
    | none => fun_prop
    | some n => cases h : p.isRho <;> simp only [Bool.false_eq_true, if_true, if_false] <;> fun_prop
  unfold capitalDeltaTangent
  by_cases hkj : k = j
  · simp only [if_pos hkj]
    exact (hgamma.sub hlamda).mul continuousAt_const
  · simp only [if_neg hkj]
    exact (hgamma.sub continuousAt_const).mul continuousAt_const

variable (X1 : J → K1 → ℝ) (X3 : J → K3 → ℝ) (log : Bool) (bounds : EReal × EReal) (last : J → ℝ) (p : ThetaParam G K1 K2 K3 N D)
  (hp : Spec.Fits (p.tangent X1 X3 : TangentParam J G K2 N D) m)

include hm hX2 hp in
/-- The Jacobian of unobserved characteristics on the supply side is continuous. -/
lemma continuousAt_omegaJacobian (z : J → ℝ) (hz : (capitalDelta m (priceVariable c T sigma pi beta z) O).det ≠ 0)
    (xiInverse deltaInverse : (J → ℝ) → J → J → ℝ) (hxi : ∀ j k, ContinuousAt (fun x => xiInverse x j k) z)
    (hdelta : ∀ j k, ContinuousAt (fun x => deltaInverse x j k) z) (j : J)
    (h1 : bounds.1 < (computeCosts m (priceVariable c T sigma pi beta z) O s j : EReal))
    (h2 : (computeCosts m (priceVariable c T sigma pi beta z) O s j : EReal) < bounds.2)
    (hlog : log = true → 0 < computeCosts m (priceVariable c T sigma pi beta z) O s j) :
    ContinuousAt (fun delta => omegaJacobian m c T sigma pi beta delta X1 X3 O s log bounds (xiInverse delta) (deltaInverse delta) last p j) z := by
  have hP : ∀ j i, ContinuousAt (fun delta => computeProbabilities m {} delta (computeMu T sigma pi) j i) z := fun j i =>
    (continuous_probabilities m hm _ j i).continuousAt
  have hC : ∀ j i, ContinuousAt (fun delta => computeConditionals m {} delta (computeMu T sigma pi) j i) z := fun j i =>
    (continuous_conditionals m hm _ j i).continuousAt
  have ht1 : ∀ j i, ContinuousAt (fun delta => (probabilitiesTangent m T sigma pi {} delta
      (computeProbabilities m {} delta (computeMu T sigma pi)) (computeConditionals m {} delta (computeMu T sigma pi))
      (p.tangent X1 X3)).1 j i) z := fun j i => (continuous_tangent m hm T sigma pi _ hp j i).continuousAt
  have ht2 : ∀ j i, ContinuousAt (fun delta => (probabilitiesTangent m T sigma pi {} delta
      (computeProbabilities m {} delta (computeMu T sigma pi)) (computeConditionals m {} delta (computeMu T sigma pi))
      (p.tangent X1 X3)).2 j i) z := fun j i => (continuous_conditionalsTangent m hm T sigma pi _ hp j i).continuousAt
  have hx := continuousAt_xiByTheta m hm T sigma pi _ hp z xiInverse hxi
  have heta := continuousAt_eta m hm c T hX2 sigma pi beta O s z hz
  have hcosts : ∀ j, ContinuousAt (fun delta => c.x0 j - computeEta m (priceVariable c T sigma pi beta delta) O s j) z := fun j =>
    continuousAt_const.sub (heta j)
  have hdP : ∀ j i, ContinuousAt (fun delta => updateTangent m (computeProbabilities m {} delta (computeMu T sigma pi))
      (computeConditionals m {} delta (computeMu T sigma pi)) (p.tangent X1 X3) (probabilitiesTangent m T sigma pi {} delta
        (computeProbabilities m {} delta (computeMu T sigma pi)) (computeConditionals m {} delta (computeMu T sigma pi))
        (p.tangent X1 X3)).1 (xiByTheta m (xiInverse delta) (probabilitiesTangent m T sigma pi {} delta
        (computeProbabilities m {} delta (computeMu T sigma pi)) (computeConditionals m {} delta (computeMu T sigma pi))
        (p.tangent X1 X3)).1) j i) z := by
    intro j i
    have hby : ∀ k, ContinuousAt (fun delta => probabilitiesByXi m (computeProbabilities m {} delta (computeMu T sigma pi))
        (computeConditionals m {} delta (computeMu T sigma pi)) k j i) z := by
      intro k
      unfold probabilitiesByXi
      by_cases hkj : k = j
      · simp only [if_pos hkj]
        cases m.nesting with
        | none => by_cases h : m.epsilonScale ≠ 1 <;> simp only [if_pos h, if_neg h] <;> fun_prop
        | some n => fun_prop
      · simp only [if_neg hkj]
        cases m.nesting with
        | none => by_cases h : m.epsilonScale ≠ 1 <;> simp only [if_pos h, if_neg h] <;> fun_prop
        | some n => fun_prop
    cases p <;> simp only [ThetaParam.tangent, updateTangent] at ht1 hx ⊢ <;> fun_prop
  have hdC : ∀ j i, ContinuousAt (fun delta => (match m.nesting with
      | none => fun _ _ => 0
      | some n => updateConditionalsTangent n (computeConditionals m {} delta (computeMu T sigma pi)) (p.tangent X1 X3)
        (probabilitiesTangent m T sigma pi {} delta (computeProbabilities m {} delta (computeMu T sigma pi))
          (computeConditionals m {} delta (computeMu T sigma pi)) (p.tangent X1 X3)).2
        (xiByTheta m (xiInverse delta) (probabilitiesTangent m T sigma pi {} delta
          (computeProbabilities m {} delta (computeMu T sigma pi)) (computeConditionals m {} delta (computeMu T sigma pi))
          (p.tangent X1 X3)).1) : J → A → ℝ) j i) z := by
    intro j i
    cases hn : m.nesting with
    | none => exact continuousAt_const
    | some n =>
      have hby : ∀ k, ContinuousAt (fun delta => conditionalsByXi n (computeConditionals m {} delta (computeMu T sigma pi)) k j i) z := by
        intro k
        unfold conditionalsByXi
        by_cases hkj : k = j
        · simp only [if_pos hkj]
          fun_prop
        · simp only [if_neg hkj]
          fun_prop
      cases p <;> simp only [ThetaParam.tangent, updateConditionalsTangent] at ht2 hx ⊢ <;> fun_prop
  have htangent := continuousAt_capitalDeltaTangent m (priceVariable c T sigma pi beta 0) T sigma pi O z p _ _ _ _ hP hdP hC hdC
  have hetaJacobian : ∀ j, ContinuousAt _ z := fun j => tendsto_finsetSum Finset.univ fun l _ =>
    (tendsto_finsetSum Finset.univ fun k _ => (hdelta j k).mul (htangent k l)).mul (heta l)
  have htilde : ContinuousAt (fun delta => (tildeCosts log bounds (fun j => c.x0 j - computeEta m (priceVariable c T sigma pi beta delta) O s j)
      j).getD (last j)) z :=
    continuousAt_tildeCosts log bounds (fun delta j => c.x0 j - computeEta m (priceVariable c T sigma pi beta delta) O s j) z j (hcosts j) h1 h2
      hlog (last j)
  unfold omegaJacobian
  refine continuousAt_clippedJacobian bounds (fun delta j => c.x0 j - computeEta m (priceVariable c T sigma pi beta delta) O s j) _ z j
    (hcosts j) h1 h2 ?_
  unfold omegaByTheta etaByTheta
  cases p with
  | gamma k => exact continuousAt_const
  | _ =>
    cases log with
    | false => exact (hetaJacobian j).neg.neg
    | true => exact (hetaJacobian j).neg.neg.div htilde.rexp (Real.exp_pos _).ne'

end supply

end Pyblp
