import Verif.Props.BestResponses
import Verif.Lemmas.Smooth
import Mathlib.Analysis.Calculus.Deriv.Pi
import Mathlib.Analysis.Calculus.ContDiff.Deriv

/-! Profits are twice differentiable functions of all prices. -/

set_option linter.unusedSectionVars false

namespace Pyblp

open Finset

variable {J A G K1 K2 F : Type} [Fintype J] [DecidableEq J] [Nonempty J] [Fintype G] [DecidableEq G] [Fintype A]
  [Fintype K1] [Fintype K2] [DecidableEq F]

lemma contDiff_one_of_hasDerivAt {f d dd : ℝ → ℝ} (h : ∀ t, HasDerivAt f (d t) t) (hd : ∀ t, HasDerivAt d (dd t) t) : ContDiff ℝ 1 f := by
  rw [contDiff_one_iff_deriv]
  refine ⟨fun t => (h t).differentiableAt, ?_⟩
  rw [funext fun t => (h t).deriv]
  exact continuous_iff_continuousAt.mpr fun t => (hd t).continuousAt

variable (m : Market J A G) (hm : WellFormed m) (c : Characteristic J A K1 K2) (hc : c.Smooth)

include hc in
lemma contDiff_utilityAt (k : J) (i : A) : ContDiff ℝ 1 fun x : J → ℝ => updateDelta c x k + updateMu c x k i := by
  unfold updateDelta updateMu
  refine (contDiff_const.add (ContDiff.sum fun l hl => contDiff_const.mul (ContDiff.sub ?_ contDiff_const))).add
    (ContDiff.sum fun l _ => ContDiff.mul ?_ contDiff_const)
  · have hl' := (Finset.mem_filter.mp hl).2
    exact (contDiff_one_of_hasDerivAt (hc.x1 l hl' k) (hc.d1 l hl' k)).comp (contDiff_apply ℝ ℝ k)
  · by_cases hl : c.has2 l = true
    · simp only [hl, if_true]
      exact (contDiff_one_of_hasDerivAt (hc.x2 l hl k) (hc.d2 l hl k)).comp (contDiff_apply ℝ ℝ k)
    · simp only [hl, if_false, Bool.false_eq_true]
      exact contDiff_const

include hc in
lemma differentiableAt_utilityDerivatives (x : J → ℝ) (k : J) (i : A) : DifferentiableAt ℝ (fun x => utilityDerivatives m c x k i) x := by
  have hp : DifferentiableAt ℝ (fun x : J → ℝ => x k) x := differentiableAt_apply k x
  simp only [utilityDerivatives_eq, div_eq_mul_inv]
  refine DifferentiableAt.mul_const (DifferentiableAt.add (DifferentiableAt.fun_sum fun l _ => DifferentiableAt.mul ?_ (differentiableAt_const _))
    (DifferentiableAt.fun_sum fun l _ => DifferentiableAt.mul ?_ (differentiableAt_const _))) _
  · by_cases hl : c.has1 l = true
    · simp only [hl, if_true]
      exact ((hc.d1 l hl k (x k)).differentiableAt.comp x hp)
    · simp only [hl, if_false, Bool.false_eq_true]
      exact differentiableAt_const _
  · by_cases hl : c.has2 l = true
    · simp only [hl, if_true]
      exact ((hc.d2 l hl k (x k)).differentiableAt.comp x hp)
    · simp only [hl, if_false, Bool.false_eq_true]
      exact differentiableAt_const _

include hm hc

lemma contDiff_probabilitiesAt (j : J) (i : A) : ContDiff ℝ 1 fun x => probabilitiesAt m c x j i := by
  have ha := hm.availNonneg {} rfl i
  rw [contDiff_iff_contDiffAt]
  intro x
  unfold probabilitiesAt
  cases hn : m.nesting with
  | none =>
    rw [funext fun x => computeProbabilities_plain m {} (updateDelta c x) (updateMu c x) hn i j]
    exact contDiffAt_logit (fun k (x : J → ℝ) => (updateDelta c x k + updateMu c x k i) / m.epsilonScale) x (multiplier m {} i)
      (fun k => ((contDiff_utilityAt c hc k i).div_const _).contDiffAt) _ (plain_denominator_pos _ (multiplier_nonneg ha) (Or.inl rfl)).ne' j
  | some n =>
    have hr : ∀ g, n.rho.groupRho g < 1 := hm.regular.rhoBelowOne n hn
    rw [funext fun x => computeProbabilities_nested m {} (updateDelta c x) (updateMu c x) n hn i ha (fun g => (hr g).ne) j]
    exact contDiffAt_nested n.group (fun g _ => n.rho.groupRho g) (fun k (x : J → ℝ) => updateDelta c x k + updateMu c x k i) x (multiplier m {} i) hr
      (fun g => contDiffAt_const) (fun k => (contDiff_utilityAt c hc k i).contDiffAt) (multiplier_nonneg ha) _
      (nested_denominator_pos _ (multiplier_nonneg ha) (Or.inl rfl)).ne' j

lemma contDiff_conditionalsAt (n : Nesting J G) (hn : m.nesting = some n) (j : J) (i : A) : ContDiff ℝ 1 fun x => conditionalsAt m c x j i := by
  have ha := hm.availNonneg {} rfl i
  rw [contDiff_iff_contDiffAt]
  intro x
  unfold conditionalsAt
  have hr : ∀ g, n.rho.groupRho g < 1 := hm.regular.rhoBelowOne n hn
  rw [funext fun x => computeConditionals_nested m {} (updateDelta c x) (updateMu c x) n hn i ha (fun g => (hr g).ne) j]
  exact contDiffAt_within n.group (fun g _ => n.rho.groupRho g) (fun k (x : J → ℝ) => updateDelta c x k + updateMu c x k i) x (multiplier m {} i) hr
    (fun g => contDiffAt_const) (fun k => (contDiff_utilityAt c hc k i).contDiffAt) (multiplier_nonneg ha) j

lemma contDiff_sharesAt (j : J) : ContDiff ℝ 1 fun x => sharesAt m c x j := by
  unfold sharesAt
  exact ContDiff.sum fun i _ => (contDiff_probabilitiesAt m hm c hc j i).mul contDiff_const

lemma differentiableAt_jacobianAt (x : J → ℝ) (j k : J) : DifferentiableAt ℝ (fun x => jacobianAt m c x j k) x := by
  have hP : ∀ j i, DifferentiableAt ℝ (fun x => probabilitiesAt m c x j i) x := fun j i =>
    ((contDiff_probabilitiesAt m hm c hc j i).differentiable one_ne_zero) x
  have hU := differentiableAt_utilityDerivatives m c hc x
  have hl : DifferentiableAt ℝ (fun x => capitalLamda m (probabilitiesAt m c x) (utilityDerivatives m c x) j) x := by
    unfold capitalLamda
    cases hn : m.nesting with
    | none => exact DifferentiableAt.fun_sum fun i _ => ((hP j i).mul (hU j i)).mul (differentiableAt_const _)
    | some n =>
      simp only [div_eq_mul_inv]
      exact (DifferentiableAt.fun_sum fun i _ => ((hP j i).mul (hU j i)).mul (differentiableAt_const _)).mul_const _
  have hg : DifferentiableAt ℝ (fun x => capitalGamma m (probabilitiesAt m c x) (conditionalsAt m c x) (utilityDerivatives m c x) j k) x := by
    unfold capitalGamma
    cases hn : m.nesting with
    | none => exact DifferentiableAt.fun_sum fun i _ => (hP j i).mul ((differentiableAt_const _).mul ((hP k i).mul (hU k i)))
    | some n =>
      have hC : ∀ i, DifferentiableAt ℝ (fun x => conditionalsAt m c x j i) x := fun i =>
        ((contDiff_conditionalsAt m hm c hc n hn j i).differentiable one_ne_zero) x
      exact (DifferentiableAt.fun_sum fun i _ => (hP j i).mul ((differentiableAt_const _).mul ((hP k i).mul (hU k i)))).add
        ((differentiableAt_const _).mul (DifferentiableAt.fun_sum fun i _ => (hC i).mul ((differentiableAt_const _).mul ((hP k i).mul (hU k i)))))
  unfold jacobianAt sharesJacobian
  by_cases hjk : j = k
  · simp only [hjk, if_true] at hl hg ⊢
    exact hl.sub hg
  · simp only [hjk, if_false]
    exact (differentiableAt_const _).sub hg

lemma differentiableAt_profitJacobian (costs x : J → ℝ) (j k : J) : DifferentiableAt ℝ (fun x => profitJacobian m c costs x j k) x := by
  have hs : DifferentiableAt ℝ (fun x => sharesAt m c x j) x := ((contDiff_sharesAt m hm c hc j).differentiable one_ne_zero) x
  have hj := differentiableAt_jacobianAt m hm c hc x j k
  unfold profitJacobian
  refine DifferentiableAt.add ?_ (((differentiableAt_apply j x).sub_const _).mul hj)
  by_cases hjk : j = k
  · simp only [hjk, if_true] at hs ⊢
    exact hs
  · simp only [hjk, if_false]
    exact differentiableAt_const _

/-- Derivatives of a firm's profit with respect to all prices. -/
noncomputable def profitSlope (m : Market J A G) (c : Characteristic J A K1 K2) (costs : J → ℝ) (firm : J → F) (f : F) (x : J → ℝ) (k : J) : ℝ :=
  ∑ j with firm j = f, profitJacobian m c costs x j k

/-- As a linear map. -/
noncomputable def profitDerivative (m : Market J A G) (c : Characteristic J A K1 K2) (costs : J → ℝ) (firm : J → F) (f : F) (x : J → ℝ) : (J → ℝ) →L[ℝ] ℝ :=
  ∑ k, profitSlope m c costs firm f x k • ContinuousLinearMap.proj k

omit hm hc in
lemma profitDerivative_apply (costs : J → ℝ) (firm : J → F) (f : F) (x v : J → ℝ) :
    profitDerivative m c costs firm f x v = ∑ k, profitSlope m c costs firm f x k * v k := by
  simp [profitDerivative]

lemma hasFDerivAt_jointProfit (costs : J → ℝ) (firm : J → F) (f : F) (x : J → ℝ) :
    HasFDerivAt (Spec.jointProfit (sharesAt m c) costs firm f) (profitDerivative m c costs firm f x) x := by
  have hd : DifferentiableAt ℝ (Spec.jointProfit (sharesAt m c) costs firm f) x := by
    unfold Spec.jointProfit
    exact DifferentiableAt.fun_sum fun k _ => (((contDiff_sharesAt m hm c hc k).differentiable one_ne_zero) x).mul ((differentiableAt_apply k x).sub_const _)
  have h := hd.hasFDerivAt
  suffices he : fderiv ℝ (Spec.jointProfit (sharesAt m c) costs firm f) x = profitDerivative m c costs firm f x from he ▸ h
  ext1 v
  rw [profitDerivative_apply]
  conv_lhs => rw [← Finset.univ_sum_single v]
  rw [map_sum]
  refine Finset.sum_congr rfl fun k _ => ?_
  have hs : (Pi.single k (v k) : J → ℝ) = v k • Pi.single k 1 := by
    rw [← Pi.single_smul, smul_eq_mul, mul_one]
  rw [hs, map_smul, smul_eq_mul, mul_comm]
  congr 1
  have h1 : HasDerivAt (fun t => Spec.jointProfit (sharesAt m c) costs firm f (Function.update x k t))
      (fderiv ℝ (Spec.jointProfit (sharesAt m c) costs firm f) x (Pi.single k 1)) (x k) := by
    have hx : HasFDerivAt (Spec.jointProfit (sharesAt m c) costs firm f) (fderiv ℝ (Spec.jointProfit (sharesAt m c) costs firm f) x) (Function.update x k (x k)) := by
      rw [Function.update_eq_self]; exact h
    exact hx.comp_hasDerivAt (x k) (hasDerivAt_update x k (x k))
  refine h1.unique ?_
  unfold Spec.jointProfit profitSlope
  refine HasDerivAt.fun_sum fun j _ => ?_
  exact (C29_profit_jacobian m hm c hc costs x j k).congr_of_eventuallyEq (Filter.Eventually.of_forall fun t => mul_comm _ _)

lemma differentiableAt_profitSlope (costs : J → ℝ) (firm : J → F) (f : F) (x : J → ℝ) (k : J) :
    DifferentiableAt ℝ (fun x => profitSlope m c costs firm f x k) x := by
  unfold profitSlope
  exact DifferentiableAt.fun_sum fun j _ => differentiableAt_profitJacobian m hm c hc costs x j k

lemma differentiableAt_profitDerivative (costs : J → ℝ) (firm : J → F) (f : F) (x : J → ℝ) :
    DifferentiableAt ℝ (profitDerivative m c costs firm f) x := by
  unfold profitDerivative
  exact DifferentiableAt.fun_sum fun k _ => (differentiableAt_profitSlope m hm c hc costs firm f x k).smul_const _

lemma fderiv_profitDerivative (costs : J → ℝ) (firm : J → F) (f : F) (x : J → ℝ) (l k : J) :
    fderiv ℝ (profitDerivative m c costs firm f) x (Pi.single l 1) (Pi.single k 1) = ∑ j with firm j = f, profitHessian m c costs x j k l := by
  have h := (differentiableAt_profitDerivative m hm c hc costs firm f x).hasFDerivAt
  have h0 : HasFDerivAt (profitDerivative m c costs firm f) (fderiv ℝ (profitDerivative m c costs firm f) x) (Function.update x l (x l)) := by
    rw [Function.update_eq_self]; exact h
  have h1 := h0.comp_hasDerivAt (x l) (hasDerivAt_update x l (x l))
  have h2 := ((ContinuousLinearMap.apply ℝ ℝ (Pi.single k 1 : J → ℝ)).hasFDerivAt).comp_hasDerivAt (x l) h1
  have h3 : HasDerivAt (fun t => profitSlope m c costs firm f (Function.update x l t) k) (∑ j with firm j = f, profitHessian m c costs x j k l) (x l) := by
    unfold profitSlope
    exact HasDerivAt.fun_sum fun j _ => C29_profit_hessian m hm c hc costs x j k l
  refine (h2.unique (h3.congr_of_eventuallyEq (Filter.Eventually.of_forall fun t => ?_)))
  simp only [Function.comp, ContinuousLinearMap.apply_apply, profitDerivative_apply]
  rw [Finset.sum_eq_single k (fun j _ hj => by rw [Pi.single_eq_of_ne hj, mul_zero]) (fun hk => absurd (Finset.mem_univ k) hk), Pi.single_eq_same, mul_one]

end Pyblp
