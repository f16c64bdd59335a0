import Verif.Lemmas.RhoDeriv
import Verif.Model.Tangents
import Verif.Props.Demand

/-!
# C83: derivatives of choice probabilities with respect to parameters
-/

set_option linter.unusedSectionVars false

namespace Pyblp

variable {J A G K2 N D : Type} [Fintype J] [DecidableEq J] [Nonempty J] [Fintype G] [DecidableEq G]
  [Fintype K2] [DecidableEq K2] [Fintype N] [DecidableEq N] [Fintype D] [DecidableEq D] [Fintype A]

namespace Spec

/-- Nesting parameters when parameter `p` is increased by `t`. -/
def shiftRho (p : TangentParam J G K2 N D) (rho : RhoParam G) (t : ℝ) : RhoParam G :=
  match p, rho with
  | .rhoAll, .single r => .single (r + t)
  | .rhoOne (some g), .perGroup r => .perGroup fun h => if h = g then r h + t else r h
  | _, rho => rho

/-- The market when parameter `p` is increased by `t`. -/
def shiftMarket (p : TangentParam J G K2 N D) (m : Market J A G) (t : ℝ) : Market J A G :=
  { m with nesting := m.nesting.map fun n => { n with rho := shiftRho p n.rho t } }

/-- Mean utility when parameter `p` is increased by `t`: if it is the coefficient on a characteristic, by `t` times this
characteristic. -/
def shiftDelta (p : TangentParam J G K2 N D) (delta : J → ℝ) (t : ℝ) : J → ℝ :=
  match p with
  | .beta x => fun j => delta j + t * x j
  | _ => delta

/-- `sigma` when parameter `p` is increased by `t`. -/
def shiftSigma (p : TangentParam J G K2 N D) (sigma : K2 → N → ℝ) (t : ℝ) : K2 → N → ℝ :=
  match p with
  | .sigma k c => fun k' c' => if k' = k ∧ c' = c then sigma k' c' + t else sigma k' c'
  | _ => sigma

/-- `pi` when parameter `p` is increased by `t`. -/
def shiftPi (p : TangentParam J G K2 N D) (pi : K2 → D → ℝ) (t : ℝ) : K2 → D → ℝ :=
  match p with
  | .pi k d => fun k' d' => if k' = k ∧ d' = d then pi k' d' + t else pi k' d'
  | _ => pi

/-- The kind of nesting parameter fits the market: it is either one for all groups or one for each
(pyblp/parameters.py:283). -/
def Fits (p : TangentParam J G K2 N D) (m : Market J A G) : Prop :=
  ∀ n, m.nesting = some n → match p, n.rho with
    | .rhoAll, .perGroup _ => False
    | .rhoOne _, .single _ => False
    | _, _ => True

/-- Choice probabilities as a function of the increase of parameter `p`. -/
noncomputable def probabilitiesAlong (m : Market J A G) (T : Tastes J A K2 N D) (sigma : K2 → N → ℝ) (pi : K2 → D → ℝ) (o : ProbOpts J A)
    (delta : J → ℝ) (p : TangentParam J G K2 N D) (j : J) (i : A) (t : ℝ) : ℝ :=
  computeProbabilities (shiftMarket p m t) o (shiftDelta p delta t) (computeMu T (shiftSigma p sigma t) (shiftPi p pi t)) j i

/-- Probabilities conditional on the group as a function of the increase of parameter `p`. -/
noncomputable def conditionalsAlong (m : Market J A G) (T : Tastes J A K2 N D) (sigma : K2 → N → ℝ) (pi : K2 → D → ℝ) (o : ProbOpts J A)
    (delta : J → ℝ) (p : TangentParam J G K2 N D) (j : J) (i : A) (t : ℝ) : ℝ :=
  computeConditionals (shiftMarket p m t) o (shiftDelta p delta t) (computeMu T (shiftSigma p sigma t) (shiftPi p pi t)) j i

end Spec

/-! ## Derivatives of utilities -/

lemma hasDerivAt_transform (r : RcType) (f : ℝ → ℝ) (f' t : ℝ) (hf : HasDerivAt f f' t) :
    HasDerivAt (fun t => transformCoefficient r (f t))
      (match r with
        | .linear => f'
        | .log => f' * transformCoefficient .log (f t)
        | .logit => f' * transformCoefficient .logit (f t) * (1 - transformCoefficient .logit (f t))) t := by
  cases r with
  | linear => exact hf
  | log =>
    have := hf.exp
    rw [mul_comm] at this
    exact this
  | logit =>
    unfold transformCoefficient
    have h1 : (1 : ℝ) + Real.exp (-f t) ≠ 0 := by positivity
    have := ((hf.fun_neg.exp.const_add 1).fun_inv h1)
    simp only [one_div]
    refine this.congr_deriv ?_
    field_simp
    ring

lemma coefficientIndex_shift (T : Tastes J A K2 N D) (sigma : K2 → N → ℝ) (pi : K2 → D → ℝ) (p : TangentParam J G K2 N D)
    (k : K2) (i : A) (j : J) (t : ℝ) :
    coefficientIndex T (Spec.shiftSigma p sigma t) (Spec.shiftPi p pi t) k i j = coefficientIndex T sigma pi k i j +
      t * (match p with
        | .sigma k' c => if k = k' then T.nodes i c else 0
        | .pi k' d => if k = k' then T.demographics i d j else 0
        | _ => 0) := by
  unfold coefficientIndex Spec.shiftSigma Spec.shiftPi
  cases p with
  | sigma k' c =>
    simp only []
    by_cases h : k = k'
    · subst h
      have : ∀ x, (if k = k ∧ x = c then sigma k x + t else sigma k x) * T.nodes i x =
          sigma k x * T.nodes i x + if x = c then t * T.nodes i x else 0 := by
        intro x; by_cases hx : x = c <;> simp [hx]; ring
      rw [Finset.sum_congr rfl fun x _ => this x]
      simp only [Finset.sum_add_distrib, Finset.sum_ite_eq', Finset.mem_univ, if_true]
      ring
    · simp [h]
  | pi k' d =>
    simp only []
    by_cases h : k = k'
    · subst h
      have : ∀ x, (if k = k ∧ x = d then pi k x + t else pi k x) * T.demographics i x j =
          pi k x * T.demographics i x j + if x = d then t * T.demographics i x j else 0 := by
        intro x; by_cases hx : x = d <;> simp [hx]; ring
      rw [Finset.sum_congr rfl fun x _ => this x]
      simp only [Finset.sum_add_distrib, Finset.sum_ite_eq', Finset.mem_univ, if_true]
      ring
    · simp [h]
  | _ => simp

lemma hasDerivAt_mu (T : Tastes J A K2 N D) (sigma : K2 → N → ℝ) (pi : K2 → D → ℝ) (p : TangentParam J G K2 N D) (j : J) (i : A) :
    HasDerivAt (fun t => computeMu T (Spec.shiftSigma p sigma t) (Spec.shiftPi p pi t) j i)
      (match p with
        | .sigma k c => coefficientTangent T sigma pi k (fun i _ => T.nodes i c) j i
        | .pi k d => coefficientTangent T sigma pi k (fun i j => T.demographics i d j) j i
        | _ => 0) 0 := by
  unfold computeMu randomCoefficient
  simp only [coefficientIndex_shift]
  have key : ∀ (k' : K2) (v : A → J → ℝ), HasDerivAt
      (fun t => ∑ k, T.X2 j k * transformCoefficient (T.rcType k) (coefficientIndex T sigma pi k i j +
        t * if k = k' then v i j else 0)) (coefficientTangent T sigma pi k' v j i) 0 := by
    intro k' v
    have h := HasDerivAt.fun_sum (u := (Finset.univ : Finset K2)) (A := fun k t => T.X2 j k * transformCoefficient (T.rcType k)
      (coefficientIndex T sigma pi k i j + t * if k = k' then v i j else 0))
      (A' := fun k => if k = k' then coefficientTangent T sigma pi k v j i else 0) (x := (0 : ℝ)) (fun k _ => by
        by_cases hk : k = k'
        · subst hk
          simp only [if_true]
          have h0 := hasDerivAt_transform (T.rcType k) (fun t => coefficientIndex T sigma pi k i j + t * v i j) (v i j) 0
            (((hasDerivAt_mul_const (v i j))).const_add _)
          simp only [zero_mul, add_zero] at h0
          refine (h0.const_mul (T.X2 j k)).congr_deriv ?_
          unfold coefficientTangent randomCoefficient
          simp only []
          cases hr : T.rcType k <;> simp only [] <;> ring
        · simp only [if_neg hk, mul_zero, add_zero]
          exact hasDerivAt_const _ _)
    refine h.congr_deriv ?_
    rw [Finset.sum_ite_eq' Finset.univ k']
    simp
  cases p with
  | sigma k c => exact key k (fun i _ => T.nodes i c)
  | pi k d => exact key k (fun i j => T.demographics i d j)
  | _ => simp only [mul_zero, add_zero]; exact hasDerivAt_const _ _

lemma hasDerivAt_totalUtility (T : Tastes J A K2 N D) (sigma : K2 → N → ℝ) (pi : K2 → D → ℝ) (delta : J → ℝ)
    (p : TangentParam J G K2 N D) (j : J) (i : A) :
    HasDerivAt (fun t => Spec.shiftDelta p delta t j + computeMu T (Spec.shiftSigma p sigma t) (Spec.shiftPi p pi t) j i)
      (utilityTangent T sigma pi p j i) 0 := by
  have h := hasDerivAt_mu T sigma pi p j i
  unfold Spec.shiftDelta utilityTangent
  cases p with
  | beta x =>
    have := ((hasDerivAt_mul_const (x j) (x := (0 : ℝ))).const_add (delta j)).fun_add h
    simpa using this
  | _ => exact h.const_add _

lemma shift_zero_market (p : TangentParam J G K2 N D) (m : Market J A G) : Spec.shiftMarket p m 0 = m := by
  unfold Spec.shiftMarket
  have : ∀ n : Nesting J G, ({ n with rho := Spec.shiftRho p n.rho 0 } : Nesting J G) = n := by
    intro n
    cases n with
    | mk g r => cases p <;> cases r <;> simp [Spec.shiftRho]; split <;> simp_all
  simp only [this, Option.map_id']

lemma shift_zero_delta (p : TangentParam J G K2 N D) (delta : J → ℝ) : Spec.shiftDelta p delta 0 = delta := by
  unfold Spec.shiftDelta; cases p <;> simp

lemma shift_zero_sigma (p : TangentParam J G K2 N D) (sigma : K2 → N → ℝ) : Spec.shiftSigma p sigma 0 = sigma := by
  unfold Spec.shiftSigma; cases p <;> simp

lemma shift_zero_pi (p : TangentParam J G K2 N D) (pi : K2 → D → ℝ) : Spec.shiftPi p pi 0 = pi := by
  unfold Spec.shiftPi; cases p <;> simp

lemma groupRho_shift (p : TangentParam J G K2 N D) (m : Market J A G) (hp : Spec.Fits p m) (n : Nesting J G)
    (hn : m.nesting = some n) (g : G) (t : ℝ) :
    (Spec.shiftRho p n.rho t).groupRho g = n.rho.groupRho g + t * groupAssociations p g := by
  have h := hp n hn
  unfold Spec.shiftRho groupAssociations RhoParam.groupRho
  cases p with
  | rhoAll => cases hr : n.rho <;> simp_all
  | rhoOne g' =>
    cases hr : n.rho with
    | single r => simp_all
    | perGroup r =>
      cases g' with
      | none => simp
      | some g' => simp only []; split_ifs <;> ring
  | _ => simp

/-- `log` of the sum of exponentiated utilities of a group, as the code computes it, is `log` of the unscaled sum. -/
lemma logInclusive_eq (m : Market J A G) (n : Nesting J G) (o : ProbOpts J A) (ho : o.availability = none)
    (delta : J → ℝ) (mu : J → A → ℝ) (g : G) (i : A) (ha : AvailabilityNonneg m o i) :
    logInclusive m n o delta mu g i =
      if Spec.groupSum n.group n.rho.groupRho (fun k => delta k + mu k i) (multiplier m o i) g = 0 then none
      else some (Real.log (Spec.groupSum n.group n.rho.groupRho (fun k => delta k + mu k i) (multiplier m o i) g)) := by
  have hopt : ({ o with availability := none } : ProbOpts J A) = o := by cases o; simp_all
  unfold logInclusive
  simp only [hopt, restrict_eq]
  have hs := groupSum_scaled n (multiplier m o i) (fun k => delta k + mu k i)
  simp only [hs]
  have he : ∀ r, Real.exp (-r) ≠ 0 := fun r => (Real.exp_pos _).ne'
  by_cases h0 : Spec.groupSum n.group n.rho.groupRho (fun k => delta k + mu k i) (multiplier m o i) g = 0
  · simp [h0]
  · rw [if_neg h0, if_neg (mul_ne_zero (he _) h0), Real.log_mul (he _) h0, Real.log_exp]
    congr 1
    ring

/-- Options under which there is something to choose. -/
def SomethingOffered (m : Market J A G) (o : ProbOpts J A) (i : A) : Prop :=
  o.eliminateOutside = false ∨ ∃ j, Offered m o i j

lemma shift_multiplier (p : TangentParam J G K2 N D) (m : Market J A G) (o : ProbOpts J A) (i : A) (t : ℝ) :
    multiplier (Spec.shiftMarket p m t) o i = multiplier m o i := rfl

section nested

variable (m : Market J A G) (hm : WellFormed m) (T : Tastes J A K2 N D) (sigma : K2 → N → ℝ) (pi : K2 → D → ℝ) (o : ProbOpts J A)
  (ho : o.availability = none) (delta : J → ℝ) (p : TangentParam J G K2 N D) (hp : Spec.Fits p m) (i : A)
  (hset : SomethingOffered m o i) (n : Nesting J G) (hn : m.nesting = some n)

include hm ho hp hn in
lemma conditionalsAlong_nested :
    ∀ᶠ t in nhds (0 : ℝ), ∀ j, Spec.conditionalsAlong m T sigma pi o delta p j i t =
      Spec.within n.group (fun g => n.rho.groupRho g + t * groupAssociations p g)
        (fun k => Spec.shiftDelta p delta t k + computeMu T (Spec.shiftSigma p sigma t) (Spec.shiftPi p pi t) k i)
        (multiplier m o i) j := by
  have ha := hm.availNonneg o ho i
  have hr : ∀ g, n.rho.groupRho g < 1 := hm.regular.rhoBelowOne n hn
  have hrho : ∀ g, HasDerivAt (fun t => n.rho.groupRho g + t * groupAssociations p g) (groupAssociations p g) 0 :=
    fun g => (hasDerivAt_mul_const _).const_add _
  filter_upwards [eventually_rho_lt _ _ 0 (by simpa using hr) hrho] with t ht j
  have hn' : (Spec.shiftMarket p m t).nesting = some { n with rho := Spec.shiftRho p n.rho t } := by
    unfold Spec.shiftMarket; rw [hn]; rfl
  unfold Spec.conditionalsAlong
  rw [computeConditionals_nested _ _ _ _ _ hn' i ha (fun g => by rw [groupRho_shift p m hp n hn]; exact (ht g).ne)]
  have : (Spec.shiftRho p n.rho t).groupRho = fun g => n.rho.groupRho g + t * groupAssociations p g :=
    funext fun g => groupRho_shift p m hp n hn g t
  simp only [this]
  rfl

include hm ho hp hn in
lemma probabilitiesAlong_nested :
    ∀ᶠ t in nhds (0 : ℝ), ∀ j, Spec.probabilitiesAlong m T sigma pi o delta p j i t =
      Spec.nested n.group (fun g => n.rho.groupRho g + t * groupAssociations p g)
        (fun k => Spec.shiftDelta p delta t k + computeMu T (Spec.shiftSigma p sigma t) (Spec.shiftPi p pi t) k i)
        (multiplier m o i) (if o.eliminateOutside then 0 else 1) j := by
  have ha := hm.availNonneg o ho i
  have hr : ∀ g, n.rho.groupRho g < 1 := hm.regular.rhoBelowOne n hn
  have hrho : ∀ g, HasDerivAt (fun t => n.rho.groupRho g + t * groupAssociations p g) (groupAssociations p g) 0 :=
    fun g => (hasDerivAt_mul_const _).const_add _
  filter_upwards [eventually_rho_lt _ _ 0 (by simpa using hr) hrho] with t ht j
  have hn' : (Spec.shiftMarket p m t).nesting = some { n with rho := Spec.shiftRho p n.rho t } := by
    unfold Spec.shiftMarket; rw [hn]; rfl
  unfold Spec.probabilitiesAlong
  rw [computeProbabilities_nested _ _ _ _ _ hn' i ha (fun g => by rw [groupRho_shift p m hp n hn]; exact (ht g).ne)]
  have : (Spec.shiftRho p n.rho t).groupRho = fun g => n.rho.groupRho g + t * groupAssociations p g :=
    funext fun g => groupRho_shift p m hp n hn g t
  simp only [this]
  rfl

/-- Paths of utilities and nesting parameters. -/
lemma along_zero (f : ℝ → (G → ℝ) → (J → ℝ) → ℝ) :
    f 0 (fun g => n.rho.groupRho g + 0 * groupAssociations p g)
      (fun k => Spec.shiftDelta p delta 0 k + computeMu T (Spec.shiftSigma p sigma 0) (Spec.shiftPi p pi 0) k i) =
    f 0 n.rho.groupRho (fun k => delta k + computeMu T sigma pi k i) := by
  simp only [shift_zero_delta, shift_zero_sigma, shift_zero_pi, zero_mul, add_zero]

include hm ho hp hn in
lemma hasDerivAt_conditionalsAlong (j : J) :
    HasDerivAt (Spec.conditionalsAlong m T sigma pi o delta p j i)
      (computeConditionals m o delta (computeMu T sigma pi) j i *
        (utilityTangent T sigma pi p j i / (1 - n.productRho j) +
          (delta j + computeMu T sigma pi j i) * groupAssociations p (n.group j) / (1 - n.productRho j) ^ 2 -
        ∑ k with n.group k = n.group j, computeConditionals m o delta (computeMu T sigma pi) k i *
          (utilityTangent T sigma pi p k i / (1 - n.productRho k) +
            (delta k + computeMu T sigma pi k i) * groupAssociations p (n.group k) / (1 - n.productRho k) ^ 2))) 0 := by
  have ha := hm.availNonneg o ho i
  have hr : ∀ g, n.rho.groupRho g < 1 := hm.regular.rhoBelowOne n hn
  have hrho : ∀ g, HasDerivAt (fun t => n.rho.groupRho g + t * groupAssociations p g) (groupAssociations p g) 0 :=
    fun g => (hasDerivAt_mul_const _).const_add _
  have h := hasDerivAt_within_rho n.group (fun g t => n.rho.groupRho g + t * groupAssociations p g) (groupAssociations p)
    (fun k t => Spec.shiftDelta p delta t k + computeMu T (Spec.shiftSigma p sigma t) (Spec.shiftPi p pi t) k i)
    (fun k => utilityTangent T sigma pi p k i) 0 (multiplier m o i) (by simpa using hr) hrho
    (fun k => hasDerivAt_totalUtility T sigma pi delta p k i) (multiplier_nonneg ha) j
  have he : Spec.conditionalsAlong m T sigma pi o delta p j i =ᶠ[nhds 0] _ :=
    (conditionalsAlong_nested m hm T sigma pi o ho delta p hp i n hn).mono fun t ht => ht j
  refine (h.congr_of_eventuallyEq he).congr_deriv ?_
  unfold withinMean scaledSlope
  simp only [shift_zero_delta, shift_zero_sigma, shift_zero_pi, zero_mul, add_zero,
    computeConditionals_nested m o delta _ n hn i ha (fun g => (hr g).ne), Nesting.productRho]

include hm ho hp hn hset in
lemma hasDerivAt_probabilitiesAlong (j : J) :
    HasDerivAt (Spec.probabilitiesAlong m T sigma pi o delta p j i)
      ((probabilitiesTangent m T sigma pi o delta (computeProbabilities m o delta (computeMu T sigma pi))
        (computeConditionals m o delta (computeMu T sigma pi)) p).1 j i) 0 := by
  have ha := hm.availNonneg o ho i
  have hr : ∀ g, n.rho.groupRho g < 1 := hm.regular.rhoBelowOne n hn
  have hrho : ∀ g, HasDerivAt (fun t => n.rho.groupRho g + t * groupAssociations p g) (groupAssociations p g) 0 :=
    fun g => (hasDerivAt_mul_const _).const_add _
  have hset' : o.eliminateOutside = false ∨ ∃ j, 0 < multiplier m o i j :=
    hset.imp id fun ⟨j, hj⟩ => ⟨j, multiplier_pos hj⟩
  have h := hasDerivAt_nested_rho n.group (fun g t => n.rho.groupRho g + t * groupAssociations p g) (groupAssociations p)
    (fun k t => Spec.shiftDelta p delta t k + computeMu T (Spec.shiftSigma p sigma t) (Spec.shiftPi p pi t) k i)
    (fun k => utilityTangent T sigma pi p k i) 0 (multiplier m o i) (by simpa using hr) hrho
    (fun k => hasDerivAt_totalUtility T sigma pi delta p k i) (multiplier_nonneg ha)
    (if o.eliminateOutside then 0 else 1) (nested_denominator_pos _ (multiplier_nonneg ha) hset').ne' j
  have he : Spec.probabilitiesAlong m T sigma pi o delta p j i =ᶠ[nhds 0] _ :=
    (probabilitiesAlong_nested m hm T sigma pi o ho delta p hp i n hn).mono fun t ht => ht j
  refine (h.congr_of_eventuallyEq he).congr_deriv ?_
  unfold inclusiveSlope withinMean scaledSlope
  simp only [shift_zero_delta, shift_zero_sigma, shift_zero_pi, zero_mul, add_zero]
  set mu := computeMu T sigma pi with hmu
  have hq : ∀ g, ∑ k with n.group k = g, computeProbabilities m o delta mu k i =
      Spec.groupProb n.group n.rho.groupRho (fun k => delta k + mu k i) (multiplier m o i) (if o.eliminateOutside then 0 else 1) g := by
    intro g
    rw [← nested_group_sum _ _ _ _ _ _ (hr g).ne]
    exact Finset.sum_congr rfl fun k _ => computeProbabilities_nested m o delta mu n hn i ha (fun g => (hr g).ne) k
  have hq0 : ∀ g, Spec.groupSum n.group n.rho.groupRho (fun k => delta k + mu k i) (multiplier m o i) g = 0 →
      Spec.groupProb n.group n.rho.groupRho (fun k => delta k + mu k i) (multiplier m o i) (if o.eliminateOutside then 0 else 1) g = 0 := by
    intro g hg
    unfold Spec.groupProb Spec.expInclusive
    rw [hg, Real.zero_rpow (by linarith [hr g]), zero_div]
  have hc : ∀ j, computeConditionals m o delta mu j i =
      Spec.within n.group n.rho.groupRho (fun k => delta k + mu k i) (multiplier m o i) j :=
    fun j => computeConditionals_nested m o delta mu n hn i ha (fun g => (hr g).ne) j
  have h1 : ∀ g, 1 - n.rho.groupRho g ≠ 0 := fun g => by linarith [hr g]
  unfold probabilitiesTangent
  rw [hn]
  simp only [hq, hc]
  generalize hW : Spec.within n.group n.rho.groupRho (fun k => delta k + mu k i) (multiplier m o i) = W at *
  generalize hQ : Spec.groupProb n.group n.rho.groupRho (fun k => delta k + mu k i) (multiplier m o i)
    (if o.eliminateOutside then 0 else 1) = q at *
  have nonrho : (∀ g, groupAssociations p g = 0) → 
      W j * (utilityTangent T sigma pi p j i / (1 - n.rho.groupRho (n.group j)) +
                (delta j + mu j i) * groupAssociations p (n.group j) / (1 - n.rho.groupRho (n.group j)) ^ 2 -
              ∑ k with n.group k = n.group j,
                W k * (utilityTangent T sigma pi p k i / (1 - n.rho.groupRho (n.group k)) +
                    (delta k + mu k i) * groupAssociations p (n.group k) / (1 - n.rho.groupRho (n.group k)) ^ 2)) *
          q (n.group j) +
        W j * (q (n.group j) *
            ((1 - n.rho.groupRho (n.group j)) *
                  ∑ k with n.group k = n.group j, W k * (utilityTangent T sigma pi p k i / (1 - n.rho.groupRho (n.group k)) +
                        (delta k + mu k i) * groupAssociations p (n.group k) / (1 - n.rho.groupRho (n.group k)) ^ 2) -
                groupAssociations p (n.group j) * Real.log (Spec.groupSum n.group n.rho.groupRho (fun k => delta k + mu k i)
                  (multiplier m o i) (n.group j)) -
              ∑ x, q x * ((1 - n.rho.groupRho x) * ∑ k with n.group k = x, W k *
                          (utilityTangent T sigma pi p k i / (1 - n.rho.groupRho (n.group k)) +
                            (delta k + mu k i) * groupAssociations p (n.group k) / (1 - n.rho.groupRho (n.group k)) ^ 2) -
                    groupAssociations p x * Real.log (Spec.groupSum n.group n.rho.groupRho (fun k => delta k + mu k i)
                      (multiplier m o i) x)))) =
      conditionalsTangent n (computeConditionals m o delta mu) (utilityTangent T sigma pi p) j i * q (n.group j) +
        W j * marginalsTangent n (computeProbabilities m o delta mu) (computeConditionals m o delta mu)
          (utilityTangent T sigma pi p) (n.group j) i := by
    intro h0
    have hs : ∀ g, ∑ k with n.group k = g, W k * (utilityTangent T sigma pi p k i / (1 - n.rho.groupRho (n.group k)) +
        (delta k + mu k i) * groupAssociations p (n.group k) / (1 - n.rho.groupRho (n.group k)) ^ 2) =
        (∑ k with n.group k = g, W k * utilityTangent T sigma pi p k i) / (1 - n.rho.groupRho g) := by
      intro g
      rw [Finset.sum_div]
      refine Finset.sum_congr rfl fun k hk => ?_
      rw [(Finset.mem_filter.mp hk).2, h0]
      ring
    unfold conditionalsTangent marginalsTangent
    simp only [hs]
    simp only [h0, hq, hc, zero_mul, mul_zero, zero_div, add_zero, sub_zero, Nesting.productRho]
    have : ∀ g x, (1 - n.rho.groupRho g) * (x / (1 - n.rho.groupRho g)) = x := fun g x => by
      have := h1 g; field_simp
    simp only [this]
    ring
  have isrho : (∀ k i, utilityTangent T sigma pi p k i = 0) → 
      W j * (utilityTangent T sigma pi p j i / (1 - n.rho.groupRho (n.group j)) +
                (delta j + mu j i) * groupAssociations p (n.group j) / (1 - n.rho.groupRho (n.group j)) ^ 2 -
              ∑ k with n.group k = n.group j,
                W k * (utilityTangent T sigma pi p k i / (1 - n.rho.groupRho (n.group k)) +
                    (delta k + mu k i) * groupAssociations p (n.group k) / (1 - n.rho.groupRho (n.group k)) ^ 2)) *
          q (n.group j) +
        W j * (q (n.group j) *
            ((1 - n.rho.groupRho (n.group j)) *
                  ∑ k with n.group k = n.group j, W k * (utilityTangent T sigma pi p k i / (1 - n.rho.groupRho (n.group k)) +
                        (delta k + mu k i) * groupAssociations p (n.group k) / (1 - n.rho.groupRho (n.group k)) ^ 2) -
                groupAssociations p (n.group j) * Real.log (Spec.groupSum n.group n.rho.groupRho (fun k => delta k + mu k i)
                  (multiplier m o i) (n.group j)) -
              ∑ x, q x * ((1 - n.rho.groupRho x) * ∑ k with n.group k = x, W k *
                          (utilityTangent T sigma pi p k i / (1 - n.rho.groupRho (n.group k)) +
                            (delta k + mu k i) * groupAssociations p (n.group k) / (1 - n.rho.groupRho (n.group k)) ^ 2) -
                    groupAssociations p x * Real.log (Spec.groupSum n.group n.rho.groupRho (fun k => delta k + mu k i)
                      (multiplier m o i) x)))) =
      rhoConditionalsTangent n (groupAssociations p) (computeConditionals m o delta mu) delta mu j i * q (n.group j) +
        W j * rhoMarginalsTangent m n o (groupAssociations p) (computeProbabilities m o delta mu) (computeConditionals m o delta mu)
          delta mu (n.group j) i := by
    intro h0
    have hs : ∀ g, ∑ k with n.group k = g, W k * (utilityTangent T sigma pi p k i / (1 - n.rho.groupRho (n.group k)) +
        (delta k + mu k i) * groupAssociations p (n.group k) / (1 - n.rho.groupRho (n.group k)) ^ 2) =
        groupAssociations p g * ∑ k with n.group k = g, rhoA n (computeConditionals m o delta mu) delta mu k i := by
      intro g
      rw [Finset.mul_sum]
      refine Finset.sum_congr rfl fun k hk => ?_
      unfold rhoA
      rw [hc, (Finset.mem_filter.mp hk).2, h0, Nesting.productRho, (Finset.mem_filter.mp hk).2]
      have := h1 g
      field_simp
      ring
    have ht : ∀ g A', rhoTerm m n o delta mu (q g) A' g i = q g * (A' * (1 - n.rho.groupRho g) -
        Real.log (Spec.groupSum n.group n.rho.groupRho (fun k => delta k + mu k i) (multiplier m o i) g)) := by
      intro g A'
      unfold rhoTerm
      rw [logInclusive_eq m n o ho delta mu g i ha]
      by_cases hg : Spec.groupSum n.group n.rho.groupRho (fun k => delta k + mu k i) (multiplier m o i) g = 0
      · rw [if_pos hg, hq0 g hg, zero_mul]
      · rw [if_neg hg]
    unfold rhoConditionalsTangent rhoMarginalsTangent
    simp only [hs]
    simp only [h0, hq, hc, ht, zero_div, zero_add]
    have hx : ∀ x, q x * ((1 - n.rho.groupRho x) * (groupAssociations p x *
        ∑ k with n.group k = x, rhoA n (computeConditionals m o delta mu) delta mu k i) - groupAssociations p x *
        Real.log (Spec.groupSum n.group n.rho.groupRho (fun k => delta k + mu k i) (multiplier m o i) x)) =
        groupAssociations p x * (q x * ((∑ k with n.group k = x, rhoA n (computeConditionals m o delta mu) delta mu k i) *
          (1 - n.rho.groupRho x) - Real.log (Spec.groupSum n.group n.rho.groupRho (fun k => delta k + mu k i)
            (multiplier m o i) x))) := fun x => by ring
    simp only [hx]
    have hA : W j * ((delta j + mu j i) * groupAssociations p (n.group j) / (1 - n.rho.groupRho (n.group j)) ^ 2) =
        groupAssociations p (n.group j) * rhoA n (computeConditionals m o delta mu) delta mu j i := by
      unfold rhoA
      rw [hc, Nesting.productRho]
      have := h1 (n.group j)
      field_simp
    linear_combination q (n.group j) * hA
  cases p with
  | rhoAll => simpa using isrho (fun _ _ => rfl)
  | rhoOne g => simpa using isrho (fun _ _ => rfl)
  | beta x => simpa using nonrho (fun _ => rfl)
  | sigma k c => simpa using nonrho (fun _ => rfl)
  | pi k d => simpa using nonrho (fun _ => rfl)
  | gamma x => simpa using nonrho (fun _ => rfl)
  | phi => simpa using nonrho (fun _ => rfl)

end nested

/-! ## C83 -/

/-- **C83.** What the code computes as the derivative of choice probabilities with respect to an unfixed parameter is their derivative,
for each kind of parameter (linear coefficients, entries of `sigma` and `pi` for each type of random coefficient, one nesting parameter
for all groups or one for each), with or without nesting, for any availability, and with any products or the outside option
eliminated. -/
theorem C83_probabilities (m : Market J A G) (hm : WellFormed m) (T : Tastes J A K2 N D) (sigma : K2 → N → ℝ) (pi : K2 → D → ℝ)
    (o : ProbOpts J A) (ho : o.availability = none) (delta : J → ℝ) (p : TangentParam J G K2 N D) (hp : Spec.Fits p m) (i : A)
    (hset : SomethingOffered m o i) (j : J) :
    HasDerivAt (Spec.probabilitiesAlong m T sigma pi o delta p j i)
      ((probabilitiesTangent m T sigma pi o delta (computeProbabilities m o delta (computeMu T sigma pi))
        (computeConditionals m o delta (computeMu T sigma pi)) p).1 j i) 0 := by
  cases hn : m.nesting with
  | some n => exact hasDerivAt_probabilitiesAlong m hm T sigma pi o ho delta p hp i hset n hn j
  | none =>
    have ha := hm.availNonneg o ho i
    have hset' : o.eliminateOutside = false ∨ ∃ j, 0 < multiplier m o i j :=
      hset.imp id fun ⟨j, hj⟩ => ⟨j, multiplier_pos hj⟩
    have he : ∀ t, Spec.probabilitiesAlong m T sigma pi o delta p j i t = _ := fun t =>
      computeProbabilities_plain (Spec.shiftMarket p m t) o _ _ (by unfold Spec.shiftMarket; rw [hn]; rfl) i j
    rw [funext he]
    have h := hasDerivAt_logit (fun k t => (Spec.shiftDelta p delta t k +
      computeMu T (Spec.shiftSigma p sigma t) (Spec.shiftPi p pi t) k i) / m.epsilonScale)
      (fun k => utilityTangent T sigma pi p k i / m.epsilonScale) 0
      (fun k => (hasDerivAt_totalUtility T sigma pi delta p k i).div_const _) (multiplier m o i)
      (if o.eliminateOutside then 0 else 1) (plain_denominator_pos _ (multiplier_nonneg ha) hset').ne' j
    refine h.congr_deriv ?_
    unfold probabilitiesTangent
    rw [hn]
    unfold plainTangent
    simp only [shift_zero_delta, shift_zero_sigma, shift_zero_pi, computeProbabilities_plain m o _ _ hn]
    generalize Spec.logit (fun k => (delta k + computeMu T sigma pi k i) / m.epsilonScale) (multiplier m o i)
      (if o.eliminateOutside then 0 else 1) = P
    have hs : ∑ k, P k * (utilityTangent T sigma pi p k i / m.epsilonScale) =
        (∑ k, P k * utilityTangent T sigma pi p k i) / m.epsilonScale := by
      rw [Finset.sum_div]; exact Finset.sum_congr rfl fun k _ => by ring
    rw [hs]
    split_ifs with h1
    · ring
    · push Not at h1; rw [h1]; ring

/-- **C83.** The same for probabilities conditional on the group. -/
theorem C83_conditionals (m : Market J A G) (hm : WellFormed m) (T : Tastes J A K2 N D) (sigma : K2 → N → ℝ) (pi : K2 → D → ℝ)
    (o : ProbOpts J A) (ho : o.availability = none) (delta : J → ℝ) (p : TangentParam J G K2 N D) (hp : Spec.Fits p m) (i : A) (j : J) :
    HasDerivAt (Spec.conditionalsAlong m T sigma pi o delta p j i)
      ((probabilitiesTangent m T sigma pi o delta (computeProbabilities m o delta (computeMu T sigma pi))
        (computeConditionals m o delta (computeMu T sigma pi)) p).2 j i) 0 := by
  cases hn : m.nesting with
  | none =>
    have he : ∀ t, Spec.conditionalsAlong m T sigma pi o delta p j i t = 0 := fun t => by
      unfold Spec.conditionalsAlong computeConditionals agentProbabilities Spec.shiftMarket
      simp [hn]
    rw [funext he]
    unfold probabilitiesTangent
    rw [hn]
    exact hasDerivAt_const _ _
  | some n =>
    have hr : ∀ g, n.rho.groupRho g < 1 := hm.regular.rhoBelowOne n hn
    refine (hasDerivAt_conditionalsAlong m hm T sigma pi o ho delta p hp i n hn j).congr_deriv ?_
    have h1 : ∀ j, 1 - n.productRho j ≠ 0 := fun j => by
      have := hr (n.group j)
      unfold Nesting.productRho
      linarith
    have hgp : ∀ k, n.group k = n.group j → n.productRho k = n.productRho j := fun k hk => by
      unfold Nesting.productRho; rw [hk]
    unfold probabilitiesTangent
    rw [hn]
    generalize computeMu T sigma pi = mu
    generalize computeConditionals m o delta mu = C
    have nonrho : (∀ g, groupAssociations p g = 0) →
        C j i * (utilityTangent T sigma pi p j i / (1 - n.productRho j) +
            (delta j + mu j i) * groupAssociations p (n.group j) / (1 - n.productRho j) ^ 2 -
          ∑ k with n.group k = n.group j, C k i * (utilityTangent T sigma pi p k i / (1 - n.productRho k) +
            (delta k + mu k i) * groupAssociations p (n.group k) / (1 - n.productRho k) ^ 2)) =
        conditionalsTangent n C (utilityTangent T sigma pi p) j i := by
      intro h0
      unfold conditionalsTangent
      have hs : ∑ k with n.group k = n.group j, C k i * (utilityTangent T sigma pi p k i / (1 - n.productRho k) +
            (delta k + mu k i) * groupAssociations p (n.group k) / (1 - n.productRho k) ^ 2) =
          (∑ k with n.group k = n.group j, C k i * utilityTangent T sigma pi p k i) / (1 - n.productRho j) := by
        rw [Finset.sum_div]
        refine Finset.sum_congr rfl fun k hk => ?_
        rw [hgp k (Finset.mem_filter.mp hk).2, h0]
        ring
      rw [hs, h0]
      ring
    have isrho : (∀ k i, utilityTangent T sigma pi p k i = 0) →
        C j i * (utilityTangent T sigma pi p j i / (1 - n.productRho j) +
            (delta j + mu j i) * groupAssociations p (n.group j) / (1 - n.productRho j) ^ 2 -
          ∑ k with n.group k = n.group j, C k i * (utilityTangent T sigma pi p k i / (1 - n.productRho k) +
            (delta k + mu k i) * groupAssociations p (n.group k) / (1 - n.productRho k) ^ 2)) =
        rhoConditionalsTangent n (groupAssociations p) C delta mu j i := by
      intro h0
      unfold rhoConditionalsTangent
      have hs : ∑ k with n.group k = n.group j, C k i * (utilityTangent T sigma pi p k i / (1 - n.productRho k) +
            (delta k + mu k i) * groupAssociations p (n.group k) / (1 - n.productRho k) ^ 2) =
          groupAssociations p (n.group j) * ∑ k with n.group k = n.group j, rhoA n C delta mu k i := by
        rw [Finset.mul_sum]
        refine Finset.sum_congr rfl fun k hk => ?_
        unfold rhoA
        rw [hgp k (Finset.mem_filter.mp hk).2, (Finset.mem_filter.mp hk).2, h0]
        have := h1 j
        field_simp
        ring
      rw [hs, h0]
      unfold rhoA
      have := h1 j
      field_simp
      ring
    cases p with
    | rhoAll => simpa using isrho (fun _ _ => rfl)
    | rhoOne g => simpa using isrho (fun _ _ => rfl)
    | beta x => simpa using nonrho (fun _ => rfl)
    | sigma k c => simpa using nonrho (fun _ => rfl)
    | pi k d => simpa using nonrho (fun _ => rfl)
    | gamma x => simpa using nonrho (fun _ => rfl)
    | phi => simpa using nonrho (fun _ => rfl)

/-- **C83.** The Jacobian of market shares with respect to parameters, holding mean utility fixed but for its linear coefficients. -/
theorem C83_shares (m : Market J A G) (hm : WellFormed m) (T : Tastes J A K2 N D) (sigma : K2 → N → ℝ) (pi : K2 → D → ℝ)
    (safe : Bool) (delta : J → ℝ) (p : TangentParam J G K2 N D) (hp : Spec.Fits p m) (j : J) :
    HasDerivAt (fun t => computeShares (Spec.shiftMarket p m t) { safe } (Spec.shiftDelta p delta t)
        (computeMu T (Spec.shiftSigma p sigma t) (Spec.shiftPi p pi t)) j)
      (sharesByTheta m (probabilitiesTangent m T sigma pi { safe } delta (computeProbabilities m { safe } delta (computeMu T sigma pi))
        (computeConditionals m { safe } delta (computeMu T sigma pi)) p).1 j) 0 := by
  unfold computeShares sharesByTheta
  exact HasDerivAt.fun_sum fun i _ =>
    (C83_probabilities m hm T sigma pi { safe } rfl delta p hp i (Or.inl rfl) j).mul_const (m.weights i)

/-- A lognormal and a linear random coefficient, one product-specific demographic. -/
noncomputable def exampleTastes : Tastes (Fin 3) (Fin 2) (Fin 2) (Fin 2) (Fin 1) where
  X2 := ![![1, 2], ![1, -1], ![1, 3]]
  nodes := ![![1, -1], ![-2, 1/2]]
  demographics := fun i _ j => (i : ℝ) + 2 * (j : ℝ)
  rcType := ![.linear, .log]

/-- Non-vacuity of C83: each kind of parameter that has a derivative fits the example market. -/
example : Spec.Fits (.beta ![1, 2, 3] : TangentParam (Fin 3) (Fin 2) (Fin 2) (Fin 2) (Fin 1)) exampleMarket ∧
    Spec.Fits (.sigma 1 0 : TangentParam (Fin 3) (Fin 2) (Fin 2) (Fin 2) (Fin 1)) exampleMarket ∧
    Spec.Fits (.pi 1 0 : TangentParam (Fin 3) (Fin 2) (Fin 2) (Fin 2) (Fin 1)) exampleMarket ∧
    Spec.Fits (.rhoOne (some 1) : TangentParam (Fin 3) (Fin 2) (Fin 2) (Fin 2) (Fin 1)) exampleMarket := by
  refine ⟨?_, ?_, ?_, ?_⟩ <;> (intro n hn; simp only [exampleMarket, Option.some.injEq] at hn; subst hn; trivial)

example (o : ProbOpts (Fin 3) (Fin 2)) (hout : o.eliminateOutside = false) (i : Fin 2) :
    SomethingOffered exampleMarket o i := Or.inl hout

end Pyblp
