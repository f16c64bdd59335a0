import Verif.Lemmas.Smooth
import Verif.Props.Tangents
import Mathlib.LinearAlgebra.Matrix.Gershgorin
import Mathlib.Topology.Algebra.Module.FiniteDimension

/-!
# C84: derivatives of unobserved characteristics with respect to parameters
-/

set_option linter.unusedSectionVars false

namespace Pyblp

variable {J A G K2 N D : Type} [Fintype J] [DecidableEq J] [Nonempty J] [Fintype G] [DecidableEq G]
  [Fintype K2] [DecidableEq K2] [Fintype N] [DecidableEq N] [Fintype D] [DecidableEq D] [Fintype A]

namespace Spec

/-- Probabilities as a function of the increase of parameter `p` and of mean utilities (without what the increase adds to them). -/
noncomputable def probabilitiesOf (m : Market J A G) (T : Tastes J A K2 N D) (sigma : K2 → N → ℝ) (pi : K2 → D → ℝ) (o : ProbOpts J A)
    (p : TangentParam J G K2 N D) (j : J) (i : A) (x : ℝ × (J → ℝ)) : ℝ :=
  computeProbabilities (shiftMarket p m x.1) o (shiftDelta p x.2 x.1) (computeMu T (shiftSigma p sigma x.1) (shiftPi p pi x.1)) j i

/-- Conditional probabilities as a function of the increase of parameter `p` and of mean utilities. -/
noncomputable def conditionalsOf (m : Market J A G) (T : Tastes J A K2 N D) (sigma : K2 → N → ℝ) (pi : K2 → D → ℝ) (o : ProbOpts J A)
    (p : TangentParam J G K2 N D) (j : J) (i : A) (x : ℝ × (J → ℝ)) : ℝ :=
  computeConditionals (shiftMarket p m x.1) o (shiftDelta p x.2 x.1) (computeMu T (shiftSigma p sigma x.1) (shiftPi p pi x.1)) j i

/-- Market shares as a function of the increase of parameter `p` and of mean utilities. -/
noncomputable def sharesOf (m : Market J A G) (T : Tastes J A K2 N D) (sigma : K2 → N → ℝ) (pi : K2 → D → ℝ) (o : ProbOpts J A)
    (p : TangentParam J G K2 N D) (x : ℝ × (J → ℝ)) (j : J) : ℝ :=
  computeShares (shiftMarket p m x.1) o (shiftDelta p x.2 x.1) (computeMu T (shiftSigma p sigma x.1) (shiftPi p pi x.1)) j

end Spec

section smooth

variable (m : Market J A G) (hm : WellFormed m) (T : Tastes J A K2 N D) (sigma : K2 → N → ℝ) (pi : K2 → D → ℝ) (o : ProbOpts J A)
  (ho : o.availability = none) (delta : J → ℝ) (p : TangentParam J G K2 N D) (hp : Spec.Fits p m) (i : A)
  (hset : SomethingOffered m o i)

lemma contDiff_transform (r : RcType) : ContDiff ℝ 1 (transformCoefficient r) := by
  cases r with
  | linear => exact contDiff_id
  | log => exact Real.contDiff_exp
  | logit =>
    exact contDiff_const.div (contDiff_const.add (Real.contDiff_exp.comp contDiff_neg)) fun x => by positivity

lemma contDiff_totalUtility (j : J) : ContDiff ℝ 1 fun x : ℝ × (J → ℝ) => Spec.shiftDelta p x.2 x.1 j +
    computeMu T (Spec.shiftSigma p sigma x.1) (Spec.shiftPi p pi x.1) j i := by
  have hsnd : ContDiff ℝ 1 fun x : ℝ × (J → ℝ) => x.2 j := (contDiff_apply ℝ ℝ j).comp contDiff_snd
  have h1 : ContDiff ℝ 1 fun x : ℝ × (J → ℝ) => Spec.shiftDelta p x.2 x.1 j := by
    unfold Spec.shiftDelta
    cases p with
    | beta x => exact hsnd.add (contDiff_fst.mul contDiff_const)
    | _ => exact hsnd
  refine h1.add ?_
  unfold computeMu randomCoefficient
  simp only [coefficientIndex_shift]
  refine ContDiff.sum fun k _ => contDiff_const.mul ((contDiff_transform (T.rcType k)).comp ?_)
  exact contDiff_const.add (contDiff_fst.mul contDiff_const)

lemma contDiff_groupRho (n : Nesting J G) (g : G) :
    ContDiff ℝ 1 fun x : ℝ × (J → ℝ) => n.rho.groupRho g + x.1 * groupAssociations p g :=
  contDiff_const.add (contDiff_fst.mul contDiff_const)

lemma eventually_groupRho (n : Nesting J G) (hr : ∀ g, n.rho.groupRho g < 1) :
    ∀ᶠ x in nhds ((0 : ℝ), delta), ∀ g, n.rho.groupRho g + x.1 * groupAssociations p g < 1 :=
  Filter.eventually_all.mpr fun g =>
    (contDiff_groupRho p n g).continuous.continuousAt.eventually_lt continuousAt_const (by simpa using hr g)

include hm ho hp hset in
lemma contDiffAt_probabilitiesOf (j : J) : ContDiffAt ℝ 1 (Spec.probabilitiesOf m T sigma pi o p j i) (0, delta) := by
  have ha := hm.availNonneg o ho i
  have hset' : o.eliminateOutside = false ∨ ∃ j, 0 < multiplier m o i j :=
    hset.imp id fun ⟨j, hj⟩ => ⟨j, multiplier_pos hj⟩
  cases hn : m.nesting with
  | none =>
    have he : ∀ x, Spec.probabilitiesOf m T sigma pi o p j i x = _ := fun x =>
      computeProbabilities_plain (Spec.shiftMarket p m x.1) o _ _ (by unfold Spec.shiftMarket; rw [hn]; rfl) i j
    rw [funext he]
    exact contDiffAt_logit (fun k (x : ℝ × (J → ℝ)) => (Spec.shiftDelta p x.2 x.1 k +
      computeMu T (Spec.shiftSigma p sigma x.1) (Spec.shiftPi p pi x.1) k i) / m.epsilonScale) (0, delta) (multiplier m o i)
      (fun k => ((contDiff_totalUtility T sigma pi p i k).div_const _).contDiffAt) _
      (plain_denominator_pos _ (multiplier_nonneg ha) hset').ne' j
  | some n =>
    have hr : ∀ g, n.rho.groupRho g < 1 := hm.regular.rhoBelowOne n hn
    have h := contDiffAt_nested n.group (fun g (x : ℝ × (J → ℝ)) => n.rho.groupRho g + x.1 * groupAssociations p g)
      (fun k (x : ℝ × (J → ℝ)) => Spec.shiftDelta p x.2 x.1 k +
        computeMu T (Spec.shiftSigma p sigma x.1) (Spec.shiftPi p pi x.1) k i) (0, delta) (multiplier m o i)
      (by simpa using hr) (fun g => (contDiff_groupRho p n g).contDiffAt)
      (fun k => (contDiff_totalUtility T sigma pi p i k).contDiffAt) (multiplier_nonneg ha) (if o.eliminateOutside then 0 else 1)
      (nested_denominator_pos _ (multiplier_nonneg ha) hset').ne' j
    refine h.congr_of_eventuallyEq ?_
    filter_upwards [eventually_groupRho delta p n hr] with x hx
    have hn' : (Spec.shiftMarket p m x.1).nesting = some { n with rho := Spec.shiftRho p n.rho x.1 } := by
      unfold Spec.shiftMarket; rw [hn]; rfl
    unfold Spec.probabilitiesOf
    rw [computeProbabilities_nested _ _ _ _ _ hn' i ha (fun g => by rw [groupRho_shift p m hp n hn]; exact (hx g).ne)]
    have : (Spec.shiftRho p n.rho x.1).groupRho = fun g => n.rho.groupRho g + x.1 * groupAssociations p g :=
      funext fun g => groupRho_shift p m hp n hn g x.1
    simp only [this]
    rfl

include hm ho hp in
lemma contDiffAt_conditionalsOf (j : J) : ContDiffAt ℝ 1 (Spec.conditionalsOf m T sigma pi o p j i) (0, delta) := by
  have ha := hm.availNonneg o ho i
  cases hn : m.nesting with
  | none =>
    have he : ∀ x, Spec.conditionalsOf m T sigma pi o p j i x = 0 := fun x => by
      unfold Spec.conditionalsOf computeConditionals agentProbabilities Spec.shiftMarket
      simp [hn]
    rw [funext he]
    exact contDiffAt_const
  | some n =>
    have hr : ∀ g, n.rho.groupRho g < 1 := hm.regular.rhoBelowOne n hn
    have h := contDiffAt_within n.group (fun g (x : ℝ × (J → ℝ)) => n.rho.groupRho g + x.1 * groupAssociations p g)
      (fun k (x : ℝ × (J → ℝ)) => Spec.shiftDelta p x.2 x.1 k +
        computeMu T (Spec.shiftSigma p sigma x.1) (Spec.shiftPi p pi x.1) k i) (0, delta) (multiplier m o i)
      (by simpa using hr) (fun g => (contDiff_groupRho p n g).contDiffAt)
      (fun k => (contDiff_totalUtility T sigma pi p i k).contDiffAt) (multiplier_nonneg ha) j
    refine h.congr_of_eventuallyEq ?_
    filter_upwards [eventually_groupRho delta p n hr] with x hx
    have hn' : (Spec.shiftMarket p m x.1).nesting = some { n with rho := Spec.shiftRho p n.rho x.1 } := by
      unfold Spec.shiftMarket; rw [hn]; rfl
    unfold Spec.conditionalsOf
    rw [computeConditionals_nested _ _ _ _ _ hn' i ha (fun g => by rw [groupRho_shift p m hp n hn]; exact (hx g).ne)]
    have : (Spec.shiftRho p n.rho x.1).groupRho = fun g => n.rho.groupRho g + x.1 * groupAssociations p g :=
      funext fun g => groupRho_shift p m hp n hn g x.1
    simp only [this]
    rfl

end smooth

lemma hasDerivAt_updatePath (delta : J → ℝ) (k : J) (t : ℝ) :
    HasDerivAt (fun t => Function.update delta k t) (Pi.single k 1 : J → ℝ) t := by
  rw [hasDerivAt_pi]
  intro l
  by_cases h : l = k
  · subst h
    simp only [Function.update_self, Pi.single_eq_same]
    exact hasDerivAt_id t
  · simpa [h] using hasDerivAt_const t (delta l)

/-- The derivative along a path of a function of two arguments from its partial derivatives. -/
lemma hasDerivAt_of_partials (f : ℝ × (J → ℝ) → ℝ) (delta : J → ℝ) (hf : ContDiffAt ℝ 1 f (0, delta)) (f1 : ℝ) (f2 : J → ℝ)
    (h1 : HasDerivAt (fun t => f (t, delta)) f1 0) (h2 : ∀ k, HasDerivAt (fun t => f (0, Function.update delta k t)) (f2 k) (delta k))
    (d : ℝ → J → ℝ) (d' : J → ℝ) (h0 : d 0 = delta) (hd : ∀ k, HasDerivAt (fun t => d t k) (d' k) 0) :
    HasDerivAt (fun t => f (t, d t)) (f1 + ∑ k, f2 k * d' k) 0 := by
  have hF := (hf.differentiableAt (by norm_num)).hasFDerivAt
  set F := fderiv ℝ f (0, delta)
  have p1 : F (1, 0) = f1 := by
    have hpath : HasDerivAt (fun t : ℝ => (t, delta)) ((1 : ℝ), (0 : J → ℝ)) 0 :=
      (hasDerivAt_id (0 : ℝ)).prodMk (hasDerivAt_const _ _)
    exact (hF.comp_hasDerivAt (0 : ℝ) hpath).unique h1
  have p2 : ∀ k, F (0, Pi.single k 1) = f2 k := by
    intro k
    have hpath : HasDerivAt (fun t : ℝ => ((0 : ℝ), Function.update delta k t)) ((0 : ℝ), (Pi.single k 1 : J → ℝ)) (delta k) :=
      (hasDerivAt_const _ _).prodMk (hasDerivAt_updatePath delta k (delta k))
    refine (HasFDerivAt.comp_hasDerivAt (delta k) (f := fun t : ℝ => ((0 : ℝ), Function.update delta k t)) (l' := F) ?_ hpath).unique (h2 k)
    simpa using hF
  have hpath : HasDerivAt (fun t => (t, d t)) ((1 : ℝ), d') 0 := (hasDerivAt_id (0 : ℝ)).prodMk (hasDerivAt_pi.mpr hd)
  have h := HasFDerivAt.comp_hasDerivAt (0 : ℝ) (f := fun t => (t, d t)) (l := f) (l' := F) (by rw [h0]; exact hF) hpath
  refine h.congr_deriv ?_
  have : ((1 : ℝ), d') = (1, 0) + ∑ k, d' k • ((0 : ℝ), (Pi.single k 1 : J → ℝ)) := by
    refine Prod.ext ?_ ?_
    · simp [Prod.fst_sum]
    · simp only [Prod.snd_add, Prod.snd_sum, Prod.smul_snd, zero_add]
      funext l
      simp [Finset.sum_apply, Pi.single_apply]
  rw [this, map_add, map_sum, p1]
  congr 1
  refine Finset.sum_congr rfl fun k _ => ?_
  rw [map_smul, p2, smul_eq_mul, mul_comm]

section total

variable (m : Market J A G) (hm : WellFormed m) (T : Tastes J A K2 N D) (sigma : K2 → N → ℝ) (pi : K2 → D → ℝ) (safe : Bool)
  (delta : J → ℝ) (p : TangentParam J G K2 N D) (hp : Spec.Fits p m) (d : ℝ → J → ℝ) (d' : J → ℝ) (h0 : d 0 = delta)
  (hd : ∀ k, HasDerivAt (fun t => d t k) (d' k) 0)

include hm hp h0 hd in
lemma hasDerivAt_probabilitiesOf_options (o : ProbOpts J A) (ho : o.availability = none) (j : J) (i : A)
    (hset : SomethingOffered m o i) :
    HasDerivAt (fun t => Spec.probabilitiesOf m T sigma pi o p j i (t, d t))
      ((probabilitiesTangent m T sigma pi o delta (computeProbabilities m o delta (computeMu T sigma pi))
        (computeConditionals m o delta (computeMu T sigma pi)) p).1 j i +
        ∑ k, probabilitiesByXi m (computeProbabilities m o delta (computeMu T sigma pi))
          (computeConditionals m o delta (computeMu T sigma pi)) k j i * d' k) 0 := by
  refine hasDerivAt_of_partials _ delta (contDiffAt_probabilitiesOf m hm T sigma pi o ho delta p hp i hset j) _ _
    (C83_probabilities m hm T sigma pi o ho delta p hp i hset j) (fun k => ?_) d d' h0 hd
  have h := C27_probabilities_by_xi_options m hm o ho delta (computeMu T sigma pi) k j i hset
  unfold Spec.probabilitiesOf
  simpa only [shift_zero_market, shift_zero_delta, shift_zero_sigma, shift_zero_pi] using h

include hm hp h0 hd in
lemma hasDerivAt_probabilitiesOf (j : J) (i : A) :
    HasDerivAt (fun t => Spec.probabilitiesOf m T sigma pi { safe } p j i (t, d t))
      ((probabilitiesTangent m T sigma pi { safe } delta (computeProbabilities m { safe } delta (computeMu T sigma pi))
        (computeConditionals m { safe } delta (computeMu T sigma pi)) p).1 j i +
        ∑ k, probabilitiesByXi m (computeProbabilities m { safe } delta (computeMu T sigma pi))
          (computeConditionals m { safe } delta (computeMu T sigma pi)) k j i * d' k) 0 :=
  hasDerivAt_probabilitiesOf_options m hm T sigma pi delta p hp d d' h0 hd { safe } rfl j i (Or.inl rfl)

include hm hp h0 hd in
lemma hasDerivAt_conditionalsOf (n : Nesting J G) (hn : m.nesting = some n) (j : J) (i : A) :
    HasDerivAt (fun t => Spec.conditionalsOf m T sigma pi { safe } p j i (t, d t))
      ((probabilitiesTangent m T sigma pi { safe } delta (computeProbabilities m { safe } delta (computeMu T sigma pi))
        (computeConditionals m { safe } delta (computeMu T sigma pi)) p).2 j i +
        ∑ k, conditionalsByXi n (computeConditionals m { safe } delta (computeMu T sigma pi)) k j i * d' k) 0 := by
  refine hasDerivAt_of_partials _ delta (contDiffAt_conditionalsOf m hm T sigma pi { safe } rfl delta p hp i j) _ _
    (C83_conditionals m hm T sigma pi { safe } rfl delta p hp i j) (fun k => ?_) d d' h0 hd
  have h := C27_conditionals_by_xi m hm safe delta (computeMu T sigma pi) n hn k j i
  unfold Spec.conditionalsOf
  simpa only [shift_zero_market, shift_zero_delta, shift_zero_sigma, shift_zero_pi] using h

include hm hp in
lemma contDiffAt_sharesOf : ContDiffAt ℝ 1 (Spec.sharesOf m T sigma pi { safe } p) (0, delta) := by
  rw [contDiffAt_pi]
  intro j
  unfold Spec.sharesOf computeShares
  exact ContDiffAt.sum fun i _ =>
    (contDiffAt_probabilitiesOf m hm T sigma pi { safe } rfl delta p hp i (Or.inl rfl) j).mul contDiffAt_const

include hm hp h0 hd in
lemma hasDerivAt_sharesOf (j : J) :
    HasDerivAt (fun t => Spec.sharesOf m T sigma pi { safe } p (t, d t) j)
      (sharesByTheta m (probabilitiesTangent m T sigma pi { safe } delta (computeProbabilities m { safe } delta (computeMu T sigma pi))
        (computeConditionals m { safe } delta (computeMu T sigma pi)) p).1 j +
        ∑ k, sharesByXiJacobian m (computeShares m { safe } delta (computeMu T sigma pi))
          (computeProbabilities m { safe } delta (computeMu T sigma pi))
          (computeConditionals m { safe } delta (computeMu T sigma pi)) j k * d' k) 0 := by
  refine hasDerivAt_of_partials (fun x => Spec.sharesOf m T sigma pi { safe } p x j) delta
    (contDiffAt_pi.mp (contDiffAt_sharesOf m hm T sigma pi safe delta p hp) j) _ _
    (C83_shares m hm T sigma pi safe delta p hp j) (fun k => ?_) d d' h0 hd
  have h := C27_shares_by_xi m hm safe delta (computeMu T sigma pi) (computeShares m { safe } delta (computeMu T sigma pi))
    (fun _ => rfl) j k
  unfold Spec.sharesOf
  simpa only [shift_zero_market, shift_zero_delta, shift_zero_sigma, shift_zero_pi] using h

end total

/-! ## The Jacobian of shares is not singular -/

lemma sharesByXi_eq_sum (m : Market J A G) (hm : WellFormed m) (safe : Bool) (delta : J → ℝ) (mu : J → A → ℝ) (j k : J) :
    sharesByXiJacobian m (computeShares m { safe } delta mu) (computeProbabilities m { safe } delta mu)
      (computeConditionals m { safe } delta mu) j k =
    ∑ i, probabilitiesByXi m (computeProbabilities m { safe } delta mu) (computeConditionals m { safe } delta mu) k j i *
      m.weights i := by
  have h1 := C27_shares_by_xi m hm safe delta mu (computeShares m { safe } delta mu) (fun _ => rfl) j k
  refine h1.unique ?_
  unfold computeShares
  exact HasDerivAt.fun_sum fun i _ => (C27_probabilities_by_xi m hm safe delta mu k j i).mul_const (m.weights i)

/-- Signs of derivatives of probabilities: those with respect to other products' mean utilities are not positive, and the sum over
products is what the outside option gains or loses. -/
lemma probabilitiesByXi_signs (m : Market J A G) (hm : WellFormed m) (safe : Bool) (delta : J → ℝ) (mu : J → A → ℝ) (j : J) (i : A) :
    (∀ k, k ≠ j → probabilitiesByXi m (computeProbabilities m { safe } delta mu) (computeConditionals m { safe } delta mu) k j i ≤ 0) ∧
    ∑ k, probabilitiesByXi m (computeProbabilities m { safe } delta mu) (computeConditionals m { safe } delta mu) k j i =
      computeProbabilities m { safe } delta mu j i * Spec.outside m { safe } delta mu i / m.epsilonScale := by
  have ha := hm.availNonneg { safe } rfl i
  have hP := C17_probabilities m { safe } delta mu i ha hm.regular.rhoBelowOne (Or.inl rfl)
  have hP0 := hP.1
  have hsum := hP.2.2
  have hout : Spec.outside m { safe } delta mu i = 1 - ∑ k, computeProbabilities m { safe } delta mu k i := by linarith
  unfold probabilitiesByXi
  cases hn : m.nesting with
  | none =>
    simp only []
    constructor
    · intro k hk
      rw [if_neg hk, add_zero]
      have h1 : -computeProbabilities m { safe } delta mu j i * computeProbabilities m { safe } delta mu k i ≤ 0 := by
        have := mul_nonneg (hP0 j) (hP0 k)
        linarith
      split_ifs
      · exact div_nonpos_of_nonpos_of_nonneg h1 hm.regular.eps.le
      · exact h1
    · have : ∀ k, (if m.epsilonScale ≠ 1 then (-computeProbabilities m { safe } delta mu j i * computeProbabilities m { safe } delta mu k i +
          if k = j then computeProbabilities m { safe } delta mu j i else 0) / m.epsilonScale else
          (-computeProbabilities m { safe } delta mu j i * computeProbabilities m { safe } delta mu k i +
          if k = j then computeProbabilities m { safe } delta mu j i else 0)) =
          (-computeProbabilities m { safe } delta mu j i * computeProbabilities m { safe } delta mu k i +
          if k = j then computeProbabilities m { safe } delta mu j i else 0) / m.epsilonScale := by
        intro k
        split_ifs with h1 h2 h2
        · rfl
        · rfl
        all_goals (push Not at h1; rw [h1, div_one])
      simp only [this]
      rw [← Finset.sum_div, Finset.sum_add_distrib, Finset.sum_ite_eq', ← Finset.mul_sum, if_pos (Finset.mem_univ _), hout]
      ring
  | some n =>
    have hr := hm.regular.rho n hn
    have he : m.epsilonScale = 1 := hm.scale (by rw [hn]; simp)
    have hrne : ∀ g, n.rho.groupRho g ≠ 1 := fun g => (hr g).2.ne
    have hC0 : ∀ j, 0 ≤ computeConditionals m { safe } delta mu j i := fun j => by
      rw [computeConditionals_nested m _ _ _ n hn i ha hrne]
      unfold Spec.within
      exact div_nonneg (mul_nonneg (multiplier_nonneg ha j) (Real.exp_pos _).le) (groupSum_nonneg _ _ _ _ (multiplier_nonneg ha) _)
    have hCP : computeConditionals m { safe } delta mu j i *
        ∑ k with n.group k = n.group j, computeProbabilities m { safe } delta mu k i = computeProbabilities m { safe } delta mu j i := by
      simp only [computeConditionals_nested m _ _ _ n hn i ha hrne, computeProbabilities_nested m _ _ _ n hn i ha hrne]
      rw [nested_group_sum _ _ _ _ _ _ (hrne _)]
      rfl
    have hq : ∀ k, 0 ≤ n.productRho k / (1 - n.productRho k) := fun k =>
      div_nonneg (hr (n.group k)).1 (by have := (hr (n.group k)).2; unfold Nesting.productRho; linarith)
    simp only []
    constructor
    · intro k hk
      rw [if_neg hk, if_neg hk, add_zero, add_zero]
      have h1 := mul_nonneg (hP0 j) (hP0 k)
      have h2 : 0 ≤ membership n k j * (computeConditionals m { safe } delta mu j i *
          (n.productRho k / (1 - n.productRho k) * computeProbabilities m { safe } delta mu k i)) := by
        refine mul_nonneg ?_ (mul_nonneg (hC0 j) (mul_nonneg (hq k) (hP0 k)))
        unfold membership
        split_ifs <;> norm_num
      linarith
    · have hmem : ∑ k, membership n k j * (computeConditionals m { safe } delta mu j i *
          (n.productRho k / (1 - n.productRho k) * computeProbabilities m { safe } delta mu k i)) =
          n.productRho j / (1 - n.productRho j) * computeProbabilities m { safe } delta mu j i := by
        rw [← hCP, ← mul_assoc, mul_comm (n.productRho j / (1 - n.productRho j)), mul_assoc, Finset.mul_sum, Finset.mul_sum,
          Finset.sum_filter]
        refine Finset.sum_congr rfl fun k _ => ?_
        unfold membership
        by_cases h : n.group k = n.group j
        · rw [if_pos h, if_pos h]
          unfold Nesting.productRho
          rw [h]
          ring
        · rw [if_neg h, if_neg h, zero_mul]
      rw [Finset.sum_add_distrib, Finset.sum_sub_distrib, Finset.sum_add_distrib, hmem, Finset.sum_ite_eq', Finset.sum_ite_eq',
        ← Finset.mul_sum, if_pos (Finset.mem_univ _), if_pos (Finset.mem_univ _), hout, he]
      ring

/-- **C84.** The Jacobian of shares with respect to mean utility, which the code inverts, is not singular (each row is dominated by its
diagonal entry). -/
theorem C84_nonsingular (m : Market J A G) (hm : WellFormed m) (safe : Bool) (delta : J → ℝ) (mu : J → A → ℝ)
    (hw : ∀ i, 0 ≤ m.weights i) (hoff : ∀ j, ∃ i, 0 < m.weights i ∧ Offered m { safe } i j) :
    Matrix.det (Matrix.of (sharesByXiJacobian m (computeShares m { safe } delta mu) (computeProbabilities m { safe } delta mu)
      (computeConditionals m { safe } delta mu))) ≠ 0 := by
  apply det_ne_zero_of_sum_row_lt_diag
  intro j
  simp only [Matrix.of_apply, Real.norm_eq_abs]
  have hsum : 0 < ∑ k, sharesByXiJacobian m (computeShares m { safe } delta mu) (computeProbabilities m { safe } delta mu)
      (computeConditionals m { safe } delta mu) j k := by
    simp only [sharesByXi_eq_sum m hm]
    rw [Finset.sum_comm]
    simp only [← Finset.sum_mul, (probabilitiesByXi_signs m hm safe delta mu j _).2]
    have hnn : ∀ i, 0 ≤ computeProbabilities m { safe } delta mu j i ∧ 0 < Spec.outside m { safe } delta mu i := by
      intro i
      have ha := hm.availNonneg { safe } rfl i
      refine ⟨(C17_probabilities m { safe } delta mu i ha hm.regular.rhoBelowOne (Or.inl rfl)).1 j, ?_⟩
      unfold Spec.outside Spec.logitOutside Spec.nestedOutside
      cases hn : m.nesting with
      | none => exact div_pos (by simp) (plain_denominator_pos false (multiplier_nonneg ha) (Or.inl rfl))
      | some n => exact div_pos (by simp) (nested_denominator_pos false (multiplier_nonneg ha) (Or.inl rfl))
    obtain ⟨i, hi, ho⟩ := hoff j
    refine Finset.sum_pos' (fun i _ => mul_nonneg (div_nonneg (mul_nonneg (hnn i).1 (hnn i).2.le) hm.regular.eps.le) (hw i))
      ⟨i, Finset.mem_univ _, mul_pos (div_pos (mul_pos ?_ (hnn i).2) hm.regular.eps) hi⟩
    exact (C17_probabilities m { safe } delta mu i (hm.availNonneg { safe } rfl i) hm.regular.rhoBelowOne (Or.inl rfl)).2.1 j ho
  have hneg : ∀ k, k ≠ j → sharesByXiJacobian m (computeShares m { safe } delta mu) (computeProbabilities m { safe } delta mu)
      (computeConditionals m { safe } delta mu) j k ≤ 0 := by
    intro k hk
    rw [sharesByXi_eq_sum m hm]
    exact Finset.sum_nonpos fun i _ =>
      mul_nonpos_of_nonpos_of_nonneg ((probabilitiesByXi_signs m hm safe delta mu j i).1 k hk) (hw i)
  rw [Finset.sum_congr rfl fun k hk => abs_of_nonpos (hneg k (Finset.ne_of_mem_erase hk)), Finset.sum_neg_distrib]
  rw [← Finset.add_sum_erase _ _ (Finset.mem_univ j)] at hsum
  exact lt_of_lt_of_le (by linarith) (le_abs_self _)

section implicit

variable (m : Market J A G) (hm : WellFormed m) (T : Tastes J A K2 N D) (sigma : K2 → N → ℝ) (pi : K2 → D → ℝ) (safe : Bool)
  (delta : J → ℝ) (p : TangentParam J G K2 N D) (hp : Spec.Fits p m)
  (hw : ∀ i, 0 ≤ m.weights i) (hoff : ∀ j, ∃ i, 0 < m.weights i ∧ Offered m { safe } i j)

/-- Solving the equations for shares locally. -/
def SolvesNear (d : ℝ → J → ℝ) : Prop :=
  d 0 = delta ∧ ∀ᶠ t in nhds (0 : ℝ), Spec.sharesOf m T sigma pi { safe } p (t, d t) = computeShares m { safe } delta (computeMu T sigma pi)

lemma sharesOf_zero : Spec.sharesOf m T sigma pi { safe } p (0, delta) = computeShares m { safe } delta (computeMu T sigma pi) := by
  unfold Spec.sharesOf
  simp only [shift_zero_market, shift_zero_delta, shift_zero_sigma, shift_zero_pi]

include hm hp hw hoff in
lemma sharesOf_invertible :
    (fderiv ℝ (Spec.sharesOf m T sigma pi { safe } p) (0, delta) ∘L .inr ℝ ℝ (J → ℝ)).IsInvertible := by
  set F := fderiv ℝ (Spec.sharesOf m T sigma pi { safe } p) (0, delta)
  have hF : HasFDerivAt (Spec.sharesOf m T sigma pi { safe } p) F (0, delta) :=
    ((contDiffAt_sharesOf m hm T sigma pi safe delta p hp).differentiableAt (by norm_num)).hasFDerivAt
  set M := Matrix.of (sharesByXiJacobian m (computeShares m { safe } delta (computeMu T sigma pi))
    (computeProbabilities m { safe } delta (computeMu T sigma pi)) (computeConditionals m { safe } delta (computeMu T sigma pi)))
  have hM : ∀ y, (F ∘L .inr ℝ ℝ (J → ℝ)) y = M.mulVec y := by
    intro y
    have hpath : HasDerivAt (fun t : ℝ => ((0 : ℝ), delta + t • y)) ((0 : ℝ), y) 0 := by
      refine (hasDerivAt_const _ _).prodMk ?_
      have := ((hasDerivAt_id (0 : ℝ)).smul_const y).const_add delta
      simpa using this
    have h1 := HasFDerivAt.comp_hasDerivAt (0 : ℝ) (f := fun t : ℝ => ((0 : ℝ), delta + t • y))
      (l := Spec.sharesOf m T sigma pi { safe } p) (l' := F) (by simpa using hF) hpath
    have h2 : HasDerivAt ((Spec.sharesOf m T sigma pi { safe } p) ∘ fun t : ℝ => ((0 : ℝ), delta + t • y)) (M.mulVec y) 0 := by
      rw [hasDerivAt_pi]
      intro j
      have h3 := hasDerivAt_sharesOf m hm T sigma pi safe delta .phi (fun _ _ => by trivial)
        (fun t => delta + t • y) y (by simp) (fun k => by
          have := ((hasDerivAt_id (0 : ℝ)).mul_const (y k)).const_add (delta k)
          simpa using this) j
      have hz : sharesByTheta m (probabilitiesTangent m T sigma pi { safe } delta
          (computeProbabilities m { safe } delta (computeMu T sigma pi))
          (computeConditionals m { safe } delta (computeMu T sigma pi)) (.phi : TangentParam J G K2 N D)).1 j = 0 := by
        unfold sharesByTheta probabilitiesTangent plainTangent conditionalsTangent marginalsTangent utilityTangent
        cases m.nesting <;> simp
      rw [hz, zero_add] at h3
      refine (h3.congr_deriv ?_).congr_of_eventuallyEq ?_
      · rfl
      · refine Filter.Eventually.of_forall fun t => ?_
        simp only [Function.comp]
        unfold Spec.sharesOf
        simp only [shift_zero_market, shift_zero_delta, shift_zero_sigma, shift_zero_pi]
        simp only [Spec.shiftDelta, Spec.shiftSigma, Spec.shiftPi]
        congr 1
        unfold Spec.shiftMarket
        cases m
        simp only [Market.mk.injEq, and_true]
        rename_i nest _ _ _
        cases nest <;> rfl
    exact h1.unique h2
  have hdet := C84_nonsingular m hm safe delta (computeMu T sigma pi) hw hoff
  have hinj : Function.Injective (F ∘L .inr ℝ ℝ (J → ℝ) : (J → ℝ) →ₗ[ℝ] (J → ℝ)) := by
    intro x y hxy
    have h' : M.mulVec x = M.mulVec y := by rw [← hM, ← hM]; exact hxy
    exact Matrix.mulVec_injective_of_isUnit ((Matrix.isUnit_iff_isUnit_det M).mpr (isUnit_iff_ne_zero.mpr hdet)) h'
  exact ⟨(LinearEquiv.ofInjectiveEndo _ hinj).toContinuousLinearEquiv, by ext x; rfl⟩

include hm hp hw hoff in
/-- **C84.** Mean utilities that keep shares fixed exist as the parameter changes a little, and depend on it smoothly. -/
theorem C84_exists : ∃ d : ℝ → J → ℝ, SolvesNear m T sigma pi safe delta p d ∧ DifferentiableAt ℝ d 0 := by
  have hs := (contDiffAt_sharesOf m hm T sigma pi safe delta p hp).hasStrictFDerivAt (by norm_num)
  have hinv := sharesOf_invertible m hm T sigma pi safe delta p hp hw hoff
  refine ⟨hs.implicitFunctionOfProdDomain hinv, ⟨?_, ?_⟩, (hs.hasStrictFDerivAt_implicitFunctionOfProdDomain hinv).differentiableAt⟩
  · exact tendsto_nhds_unique (hs.hasStrictFDerivAt_implicitFunctionOfProdDomain hinv).continuousAt.tendsto
      (hs.tendsto_implicitFunctionOfProdDomain hinv)
  · have h := hs.eventually_apply_implicitFunctionOfProdDomain hinv
    rw [sharesOf_zero] at h
    exact h

/-- A nesting parameter that is differentiated is positive (zero is a bound for it). -/
def RhoInterior : Prop := ∀ n, m.nesting = some n → ∀ g, groupAssociations p g ≠ 0 → 0 < n.rho.groupRho g

include hm hp in
lemma regular_near (hint : RhoInterior m p) : ∀ᶠ t in nhds (0 : ℝ), Regular (Spec.shiftMarket p m t) := by
  cases hn : m.nesting with
  | none =>
    refine Filter.Eventually.of_forall fun t => ⟨?_, hm.regular.eps⟩
    intro n hn'
    unfold Spec.shiftMarket at hn'
    simp [hn] at hn'
  | some n =>
    have hr := hm.regular.rho n hn
    have hc : ∀ g, ContinuousAt (fun t : ℝ => n.rho.groupRho g + t * groupAssociations p g) 0 := fun g => by fun_prop
    have h1 : ∀ᶠ t in nhds (0 : ℝ), ∀ g, n.rho.groupRho g + t * groupAssociations p g < 1 :=
      Filter.eventually_all.mpr fun g => (hc g).eventually_lt continuousAt_const (by simpa using (hr g).2)
    have h2 : ∀ᶠ t in nhds (0 : ℝ), ∀ g, 0 ≤ n.rho.groupRho g + t * groupAssociations p g := by
      refine Filter.eventually_all.mpr fun g => ?_
      by_cases hg : groupAssociations p g = 0
      · exact Filter.Eventually.of_forall fun t => by rw [hg, mul_zero, add_zero]; exact (hr g).1
      · exact (continuousAt_const.eventually_lt (hc g) (by simpa using hint n hn g hg)).mono fun t ht => ht.le
    filter_upwards [h1, h2] with t ht1 ht2
    refine ⟨?_, hm.regular.eps⟩
    intro n' hn' g
    unfold Spec.shiftMarket at hn'
    rw [hn] at hn'
    simp only [Option.map_some, Option.some.injEq] at hn'
    subst hn'
    rw [groupRho_shift p m hp n hn]
    exact ⟨ht2 g, ht1 g⟩

include hm hp hw hoff in
lemma solution_unique (hint : RhoInterior m p) (d e : ℝ → J → ℝ) (hd : SolvesNear m T sigma pi safe delta p d)
    (he : SolvesNear m T sigma pi safe delta p e) :
    ∀ᶠ t in nhds (0 : ℝ), Spec.shiftDelta p (d t) t = Spec.shiftDelta p (e t) t := by
  filter_upwards [regular_near m hm p hp hint, hd.2, he.2] with t hr h1 h2
  refine C23_unique (Spec.shiftMarket p m t) hr safe (computeMu T (Spec.shiftSigma p sigma t) (Spec.shiftPi p pi t))
    (fun i => hm.availNonneg { safe } rfl i) hw hoff _ _ fun j => ?_
  exact (congrFun h1 j).trans (congrFun h2 j).symm

lemma shiftDelta_injective (t : ℝ) (x y : J → ℝ) (h : Spec.shiftDelta p x t = Spec.shiftDelta p y t) : x = y := by
  unfold Spec.shiftDelta at h
  cases p with
  | beta z => funext j; have := congrFun h j; simpa using this
  | _ => exact h

include hm hp hw hoff in
/-- **C84.** Whatever mean utilities keep shares fixed as a parameter changes (without what the parameter itself adds to mean utilities),
their derivative, and so the derivative of the unobserved characteristic, is what the code computes: minus the inverse of the Jacobian
of shares with respect to mean utilities times the derivative of shares with respect to the parameter. -/
theorem C84_xi_by_theta (hint : RhoInterior m p) (inverse : J → J → ℝ)
    (hinverse : ∀ j l, ∑ k, inverse j k * sharesByXiJacobian m (computeShares m { safe } delta (computeMu T sigma pi))
      (computeProbabilities m { safe } delta (computeMu T sigma pi)) (computeConditionals m { safe } delta (computeMu T sigma pi)) k l =
      if j = l then 1 else 0) (d : ℝ → J → ℝ) (hd : SolvesNear m T sigma pi safe delta p d) (j : J) :
    HasDerivAt (fun t => d t j) (xiByTheta m inverse
      (probabilitiesTangent m T sigma pi { safe } delta (computeProbabilities m { safe } delta (computeMu T sigma pi))
        (computeConditionals m { safe } delta (computeMu T sigma pi)) p).1 j) 0 := by
  obtain ⟨e, he, hdiff⟩ := C84_exists m hm T sigma pi safe delta p hp hw hoff
  have heq : d =ᶠ[nhds 0] e := (solution_unique m hm T sigma pi safe delta p hp hw hoff hint d e hd he).mono fun t ht =>
    shiftDelta_injective p t _ _ ht
  have hdd : ∀ k, HasDerivAt (fun t => d t k) (deriv e 0 k) 0 := fun k =>
    (hasDerivAt_pi.mp hdiff.hasDerivAt k).congr_of_eventuallyEq (heq.mono fun t ht => congrFun ht k)
  have hz : ∀ k, sharesByTheta m (probabilitiesTangent m T sigma pi { safe } delta
        (computeProbabilities m { safe } delta (computeMu T sigma pi))
        (computeConditionals m { safe } delta (computeMu T sigma pi)) p).1 k +
        ∑ l, sharesByXiJacobian m (computeShares m { safe } delta (computeMu T sigma pi))
          (computeProbabilities m { safe } delta (computeMu T sigma pi))
          (computeConditionals m { safe } delta (computeMu T sigma pi)) k l * deriv e 0 l = 0 := by
    intro k
    refine (hasDerivAt_sharesOf m hm T sigma pi safe delta p hp d (deriv e 0) hd.1 hdd k).unique ?_
    refine (hasDerivAt_const (0 : ℝ) (computeShares m { safe } delta (computeMu T sigma pi) k)).congr_of_eventuallyEq ?_
    exact hd.2.mono fun t ht => congrFun ht k
  refine (hdd j).congr_deriv ?_
  unfold xiByTheta
  have h1 : ∀ k, -sharesByTheta m (probabilitiesTangent m T sigma pi { safe } delta
        (computeProbabilities m { safe } delta (computeMu T sigma pi))
        (computeConditionals m { safe } delta (computeMu T sigma pi)) p).1 k =
        ∑ l, sharesByXiJacobian m (computeShares m { safe } delta (computeMu T sigma pi))
          (computeProbabilities m { safe } delta (computeMu T sigma pi))
          (computeConditionals m { safe } delta (computeMu T sigma pi)) k l * deriv e 0 l := fun k => by linarith [hz k]
  simp only [h1, Finset.mul_sum, ← mul_assoc]
  rw [Finset.sum_comm]
  simp only [← Finset.sum_mul, hinverse, ite_mul, one_mul, zero_mul, Finset.sum_ite_eq, Finset.mem_univ, if_true]

lemma tangent_supply (o : ProbOpts J A) (P C : J → A → ℝ) (x : J → ℝ) :
    probabilitiesTangent m T sigma pi o delta P C (.gamma x : TangentParam J G K2 N D) = (fun _ _ => 0, fun _ _ => 0) ∧
    probabilitiesTangent m T sigma pi o delta P C (.phi : TangentParam J G K2 N D) = (fun _ _ => 0, fun _ _ => 0) := by
  unfold probabilitiesTangent plainTangent conditionalsTangent marginalsTangent utilityTangent
  constructor <;> cases m.nesting <;> simp

lemma xiByTheta_zero (inverse : J → J → ℝ) (j : J) : xiByTheta m inverse (fun _ _ => 0) j = 0 := by
  simp [xiByTheta, sharesByTheta]

include hm hp hw hoff in
/-- **C84.** Derivatives of probabilities when unobserved characteristics change so as to keep shares fixed are those that the code stores
after adding the contribution of unobserved characteristics, also when products or the outside option are eliminated. -/
theorem C84_total_probabilities_options (hint : RhoInterior m p) (inverse : J → J → ℝ)
    (hinverse : ∀ j l, ∑ k, inverse j k * sharesByXiJacobian m (computeShares m { safe } delta (computeMu T sigma pi))
      (computeProbabilities m { safe } delta (computeMu T sigma pi)) (computeConditionals m { safe } delta (computeMu T sigma pi)) k l =
      if j = l then 1 else 0) (d : ℝ → J → ℝ) (hd : SolvesNear m T sigma pi safe delta p d) (o : ProbOpts J A)
    (ho : o.availability = none) (j : J) (i : A) (hset : SomethingOffered m o i) :
    let P := computeProbabilities m { safe } delta (computeMu T sigma pi)
    let C := computeConditionals m { safe } delta (computeMu T sigma pi)
    let xiJacobian := xiByTheta m inverse (probabilitiesTangent m T sigma pi { safe } delta P C p).1
    let Po := computeProbabilities m o delta (computeMu T sigma pi)
    let Co := computeConditionals m o delta (computeMu T sigma pi)
    HasDerivAt (fun t => Spec.probabilitiesOf m T sigma pi o p j i (t, d t))
      (updateTangent m Po Co p (probabilitiesTangent m T sigma pi o delta Po Co p).1 xiJacobian j i) 0 := by
  intro P C xiJacobian Po Co
  have hx := C84_xi_by_theta m hm T sigma pi safe delta p hp hw hoff hint inverse hinverse d hd
  have h := hasDerivAt_probabilitiesOf_options m hm T sigma pi delta p hp d _ hd.1 hx o ho j i hset
  unfold updateTangent
  cases p with
  | beta x =>
    -- mean utilities do not change
    have hc : SolvesNear m T sigma pi safe delta (.beta x : TangentParam J G K2 N D) (fun t j => delta j - t * x j) := by
      refine ⟨by funext j; simp, Filter.Eventually.of_forall fun t => ?_⟩
      unfold Spec.sharesOf
      have h1 : Spec.shiftMarket (.beta x : TangentParam J G K2 N D) m t = m := by
        unfold Spec.shiftMarket Spec.shiftRho; cases m; simp
      simp only [h1]
      simp [Spec.shiftDelta, Spec.shiftSigma, Spec.shiftPi]
    have hu := solution_unique m hm T sigma pi safe delta _ hp hw hoff hint d _ hd hc
    refine (hasDerivAt_const (0 : ℝ) (computeProbabilities m o delta (computeMu T sigma pi) j i)).congr_of_eventuallyEq ?_
    filter_upwards [hu] with t ht
    unfold Spec.probabilitiesOf
    have h1 : Spec.shiftMarket (.beta x : TangentParam J G K2 N D) m t = m := by
      unfold Spec.shiftMarket Spec.shiftRho; cases m; simp
    simp only [h1, ht]
    simp [Spec.shiftDelta, Spec.shiftSigma, Spec.shiftPi]
  | gamma x =>
    refine h.congr_deriv ?_
    simp only [(tangent_supply m T sigma pi delta _ _ _ x).1, xiByTheta_zero, mul_zero, Finset.sum_const_zero, add_zero]
  | phi =>
    refine h.congr_deriv ?_
    simp only [(tangent_supply m T sigma pi delta _ _ _ 0).2, xiByTheta_zero, mul_zero, Finset.sum_const_zero, add_zero]
  | sigma k c => exact h
  | pi k c => exact h
  | rhoAll => exact h
  | rhoOne g => exact h

include hm hp hw hoff in
/-- **C84.** The usual case, in which nothing is eliminated. -/
theorem C84_total_probabilities (hint : RhoInterior m p) (inverse : J → J → ℝ)
    (hinverse : ∀ j l, ∑ k, inverse j k * sharesByXiJacobian m (computeShares m { safe } delta (computeMu T sigma pi))
      (computeProbabilities m { safe } delta (computeMu T sigma pi)) (computeConditionals m { safe } delta (computeMu T sigma pi)) k l =
      if j = l then 1 else 0) (d : ℝ → J → ℝ) (hd : SolvesNear m T sigma pi safe delta p d) (j : J) (i : A) :
    let P := computeProbabilities m { safe } delta (computeMu T sigma pi)
    let C := computeConditionals m { safe } delta (computeMu T sigma pi)
    let tangent := (probabilitiesTangent m T sigma pi { safe } delta P C p).1
    HasDerivAt (fun t => Spec.probabilitiesOf m T sigma pi { safe } p j i (t, d t))
      (updateTangent m P C p tangent (xiByTheta m inverse tangent) j i) 0 :=
  C84_total_probabilities_options m hm T sigma pi safe delta p hp hw hoff hint inverse hinverse d hd { safe } rfl j i (Or.inl rfl)

include hm hp hw hoff in
/-- **C84.** The same for probabilities conditional on the group. -/
theorem C84_total_conditionals (hint : RhoInterior m p) (inverse : J → J → ℝ)
    (hinverse : ∀ j l, ∑ k, inverse j k * sharesByXiJacobian m (computeShares m { safe } delta (computeMu T sigma pi))
      (computeProbabilities m { safe } delta (computeMu T sigma pi)) (computeConditionals m { safe } delta (computeMu T sigma pi)) k l =
      if j = l then 1 else 0) (d : ℝ → J → ℝ) (hd : SolvesNear m T sigma pi safe delta p d) (n : Nesting J G)
    (hn : m.nesting = some n) (j : J) (i : A) :
    let P := computeProbabilities m { safe } delta (computeMu T sigma pi)
    let C := computeConditionals m { safe } delta (computeMu T sigma pi)
    let tangent := probabilitiesTangent m T sigma pi { safe } delta P C p
    HasDerivAt (fun t => Spec.conditionalsOf m T sigma pi { safe } p j i (t, d t))
      (updateConditionalsTangent n C p tangent.2 (xiByTheta m inverse tangent.1) j i) 0 := by
  intro P C tangent
  have hx := C84_xi_by_theta m hm T sigma pi safe delta p hp hw hoff hint inverse hinverse d hd
  have h := hasDerivAt_conditionalsOf m hm T sigma pi safe delta p hp d _ hd.1 hx n hn j i
  unfold updateConditionalsTangent
  cases p with
  | beta x =>
    have hc : SolvesNear m T sigma pi safe delta (.beta x : TangentParam J G K2 N D) (fun t j => delta j - t * x j) := by
      refine ⟨by funext j; simp, Filter.Eventually.of_forall fun t => ?_⟩
      unfold Spec.sharesOf
      have h1 : Spec.shiftMarket (.beta x : TangentParam J G K2 N D) m t = m := by
        unfold Spec.shiftMarket Spec.shiftRho; cases m; simp
      simp only [h1]
      simp [Spec.shiftDelta, Spec.shiftSigma, Spec.shiftPi]
    have hu := solution_unique m hm T sigma pi safe delta _ hp hw hoff hint d _ hd hc
    refine (hasDerivAt_const (0 : ℝ) (computeConditionals m { safe } delta (computeMu T sigma pi) j i)).congr_of_eventuallyEq ?_
    filter_upwards [hu] with t ht
    unfold Spec.conditionalsOf
    have h1 : Spec.shiftMarket (.beta x : TangentParam J G K2 N D) m t = m := by
      unfold Spec.shiftMarket Spec.shiftRho; cases m; simp
    simp only [h1, ht]
    simp [Spec.shiftDelta, Spec.shiftSigma, Spec.shiftPi]
  | gamma x =>
    refine h.congr_deriv ?_
    simp only [tangent, (tangent_supply m T sigma pi delta _ P C x).1, xiByTheta_zero, mul_zero, Finset.sum_const_zero, add_zero, P, C]
  | phi =>
    refine h.congr_deriv ?_
    simp only [tangent, (tangent_supply m T sigma pi delta _ P C 0).2, xiByTheta_zero, mul_zero, Finset.sum_const_zero, add_zero, P, C]
  | sigma k c => exact h
  | pi k c => exact h
  | rhoAll => exact h
  | rhoOne g => exact h

include hm hp hw hoff in
/-- **C84.** Total derivatives of probabilities integrate to zero: market shares stay what they are in the data. (Derivatives of micro
moments rely on this.) -/
theorem C84_total_shares (hint : RhoInterior m p) (inverse : J → J → ℝ)
    (hinverse : ∀ j l, ∑ k, inverse j k * sharesByXiJacobian m (computeShares m { safe } delta (computeMu T sigma pi))
      (computeProbabilities m { safe } delta (computeMu T sigma pi)) (computeConditionals m { safe } delta (computeMu T sigma pi)) k l =
      if j = l then 1 else 0) (j : J) :
    let P := computeProbabilities m { safe } delta (computeMu T sigma pi)
    let C := computeConditionals m { safe } delta (computeMu T sigma pi)
    let tangent := (probabilitiesTangent m T sigma pi { safe } delta P C p).1
    ∑ i, updateTangent m P C p tangent (xiByTheta m inverse tangent) j i * m.weights i = 0 := by
  intro P C tangent
  obtain ⟨d, hd, -⟩ := C84_exists m hm T sigma pi safe delta p hp hw hoff
  have h1 : HasDerivAt (fun t => Spec.sharesOf m T sigma pi { safe } p (t, d t) j)
      (∑ i, updateTangent m P C p tangent (xiByTheta m inverse tangent) j i * m.weights i) 0 := by
    unfold Spec.sharesOf computeShares
    exact HasDerivAt.fun_sum fun i _ =>
      (C84_total_probabilities m hm T sigma pi safe delta p hp hw hoff hint inverse hinverse d hd j i).mul_const (m.weights i)
  refine h1.unique ?_
  refine (hasDerivAt_const (0 : ℝ) (computeShares m { safe } delta (computeMu T sigma pi) j)).congr_of_eventuallyEq ?_
  exact hd.2.mono fun t ht => congrFun ht j

end implicit

/-- Non-vacuity of C84: the example market with two nests, a nesting parameter, and the inverse of the Jacobian. -/
example (sigma : Fin 2 → Fin 2 → ℝ) (pi : Fin 2 → Fin 1 → ℝ) (delta : Fin 3 → ℝ) :
    let p : TangentParam (Fin 3) (Fin 2) (Fin 2) (Fin 2) (Fin 1) := .rhoOne (some 1)
    let mu := computeMu exampleTastes sigma pi
    let M := Matrix.of (sharesByXiJacobian exampleMarket (computeShares exampleMarket {} delta mu)
      (computeProbabilities exampleMarket {} delta mu) (computeConditionals exampleMarket {} delta mu))
    RhoInterior exampleMarket p ∧ (∃ d, SolvesNear exampleMarket exampleTastes sigma pi true delta p d) ∧
      ∀ j l, ∑ k, M⁻¹ j k * M k l = if j = l then 1 else 0 := by
  intro p mu M
  have hp : Spec.Fits p exampleMarket := by
    intro n hn; simp only [exampleMarket, Option.some.injEq] at hn; subst hn; trivial
  have hw : ∀ i, 0 ≤ exampleMarket.weights i := by
    intro i; fin_cases i <;> (simp [exampleMarket]; try norm_num)
  refine ⟨?_, ?_, ?_⟩
  · intro n hn g _
    simp only [exampleMarket, Option.some.injEq] at hn
    subst hn
    fin_cases g <;> simp [RhoParam.groupRho]
  · obtain ⟨d, hd, -⟩ := C84_exists exampleMarket exampleMarket_wellFormed exampleTastes sigma pi true delta p hp hw exampleMarket_offered
    exact ⟨d, hd⟩
  · have hdet : IsUnit M.det :=
      isUnit_iff_ne_zero.mpr (C84_nonsingular exampleMarket exampleMarket_wellFormed true delta mu hw exampleMarket_offered)
    intro j l
    have := congrFun (congrFun (Matrix.nonsing_inv_mul M hdet) j) l
    rw [Matrix.mul_apply, Matrix.one_apply] at this
    exact this

end Pyblp
