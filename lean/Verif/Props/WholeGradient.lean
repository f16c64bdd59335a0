import Verif.Model.WholeProblem
import Verif.Props.Implicit
import Verif.Props.SupplyTangents
import Verif.Props.PanelGradient
import Verif.Props.Inversion

set_option linter.unusedSectionVars false

/-!
# C118: the objective as a function of parameters
-/

namespace Pyblp

open Matrix Filter Topology

variable {n : ℕ} {M : Type} {J A : M → Type} {G K1 K2 K3 N D θ : Type} [∀ t, Fintype (J t)] [∀ t, DecidableEq (J t)] [∀ t, Nonempty (J t)]
  [∀ t, Fintype (A t)] [Fintype G] [DecidableEq G] [Fintype K1] [DecidableEq K1] [Fintype K2] [DecidableEq K2] [Fintype K3] [DecidableEq K3]
  [Fintype N] [DecidableEq N] [Fintype D] [DecidableEq D] [DecidableEq θ]

namespace Spec

/-- Mean utilities explain shares in each market, given parameters. -/
def Explained (P : PanelProblem n M J A G K1 K2 K3 N D θ) (theta : θ → ℝ) (delta : (t : M) → J t → ℝ) : Prop :=
  ∀ t, computeShares (P.marketAt theta t) {} (delta t) (P.muAt theta t) = P.shares t

/-- Different elements of `theta` are different parameters. Elements of `phi` are told apart elsewhere. -/
def Distinct (P : PanelProblem n M J A G K1 K2 K3 N D θ) : Prop :=
  ∀ p q, P.param p = P.param q → P.param p ≠ .phi → p = q

end Spec

section expand

variable (P : PanelProblem n M J A G K1 K2 K3 N D θ) (hP : Spec.Distinct P) (theta : θ → ℝ) (p : θ) (s : ℝ)

include hP in
lemma valueAt_self (q : ThetaParam G K1 K2 K3 N D) (hq : q ≠ .phi) (fixed : ℝ) (h : P.param p = q) : P.valueAt theta q fixed = theta p := by
  have hex : ∃ p, P.param p = q := ⟨p, h⟩
  unfold PanelProblem.valueAt
  rw [dif_pos hex]
  congr 1
  exact hP _ _ (hex.choose_spec.trans h.symm) (by rw [hex.choose_spec]; exact hq)

lemma valueAt_other (q : ThetaParam G K1 K2 K3 N D) (fixed : ℝ) (h : P.param p ≠ q) :
    P.valueAt (Function.update theta p s) q fixed = P.valueAt theta q fixed := by
  unfold PanelProblem.valueAt
  by_cases hex : ∃ p, P.param p = q
  · rw [dif_pos hex, dif_pos hex, Function.update_of_ne]
    rintro rfl
    exact h hex.choose_spec
  · rw [dif_neg hex, dif_neg hex]

include hP in
/-- When an element of `theta` changes, the parameter at its location changes by as much, and no other one does. -/
lemma valueAt_update (q : ThetaParam G K1 K2 K3 N D) (hq : q ≠ .phi) (fixed : ℝ) [Decidable (q = P.param p)] :
    P.valueAt (Function.update theta p s) q fixed =
      if q = P.param p then P.valueAt theta q fixed + (s - theta p) else P.valueAt theta q fixed := by
  split_ifs with h
  · rw [valueAt_self P hP _ p q hq _ h.symm, valueAt_self P hP _ p q hq _ h.symm, Function.update_self]
    ring
  · exact valueAt_other P theta p s q fixed fun h' => h h'.symm

include hP in
lemma sigmaAt_update (t : M) : P.sigmaAt (Function.update theta p s) =
    Spec.shiftSigma ((P.param p).tangent (P.X1 t) (P.X3 t) : TangentParam (J t) G K2 N D) (P.sigmaAt theta) (s - theta p) := by
  classical
  funext k c
  unfold PanelProblem.sigmaAt
  rw [valueAt_update P hP theta p s _ (by simp)]
  unfold Spec.shiftSigma
  cases h : P.param p <;> simp [ThetaParam.tangent]

include hP in
lemma piAt_update (t : M) : P.piAt (Function.update theta p s) =
    Spec.shiftPi ((P.param p).tangent (P.X1 t) (P.X3 t) : TangentParam (J t) G K2 N D) (P.piAt theta) (s - theta p) := by
  classical
  funext k c
  unfold PanelProblem.piAt
  rw [valueAt_update P hP theta p s _ (by simp)]
  unfold Spec.shiftPi
  cases h : P.param p <;> simp [ThetaParam.tangent]

include hP in
lemma betaAt_update : P.betaAt (Function.update theta p s) = Spec.shiftBeta (P.param p) (P.betaAt theta) (s - theta p) := by
  classical
  funext k
  unfold PanelProblem.betaAt
  rw [valueAt_update P hP theta p s _ (by simp)]
  unfold Spec.shiftBeta
  cases h : P.param p <;> simp

include hP in
lemma gammaAt_update : P.gammaAt (Function.update theta p s) = Spec.shiftGamma (P.param p) (P.gammaAt theta) (s - theta p) := by
  classical
  funext k
  unfold PanelProblem.gammaAt
  rw [valueAt_update P hP theta p s _ (by simp)]
  unfold Spec.shiftGamma
  cases h : P.param p <;> simp

include hP in
lemma rhoAt_update (t : M) (r : RhoParam G) : P.rhoAt (Function.update theta p s) r =
    Spec.shiftRho ((P.param p).tangent (P.X1 t) (P.X3 t) : TangentParam (J t) G K2 N D) (P.rhoAt theta r) (s - theta p) := by
  classical
  cases r with
  | single r =>
    simp only [PanelProblem.rhoAt]
    rw [valueAt_update P hP theta p s _ (by simp)]
    unfold Spec.shiftRho
    cases h : P.param p with
    | rhoOne g => cases g <;> simp [ThetaParam.tangent]
    | _ => simp [ThetaParam.tangent]
  | perGroup r =>
    simp only [PanelProblem.rhoAt, valueAt_update P hP theta p s _ (show (.rhoOne (some _) : ThetaParam G K1 K2 K3 N D) ≠ .phi by simp)]
    unfold Spec.shiftRho
    cases h : P.param p with
    | rhoOne g => cases g <;> simp [ThetaParam.tangent]
    | _ => simp [ThetaParam.tangent]

include hP in
lemma marketAt_update (t : M) : P.marketAt (Function.update theta p s) t =
    Spec.shiftMarket ((P.param p).tangent (P.X1 t) (P.X3 t) : TangentParam (J t) G K2 N D) (P.marketAt theta t) (s - theta p) := by
  unfold PanelProblem.marketAt Spec.shiftMarket
  cases (P.market t).nesting with
  | none => rfl
  | some n => simp only [Option.map_some, rhoAt_update P hP theta p s t]

end expand

/-! ## Unobserved characteristics as functions of parameters -/

namespace Spec

/-- What `solve` requires of data and parameters: nesting parameters are at least zero and smaller than one, and a nesting parameter that
is differentiated is positive; availability and weights are not negative; and each product is offered to somebody. -/
structure ProperPanel (P : PanelProblem n M J A G K1 K2 K3 N D θ) (theta : θ → ℝ) (p : θ) : Prop where
  distinct : Distinct P
  market : ∀ t, WellFormed (P.marketAt theta t)
  weights : ∀ t i, 0 ≤ (P.market t).weights i
  offered : ∀ t j, ∃ i, 0 < (P.market t).weights i ∧ Offered (P.market t) {} i j
  fits : ∀ t, Fits ((P.param p).tangent (P.X1 t) (P.X3 t) : TangentParam (J t) G K2 N D) (P.marketAt theta t)
  interior : ∀ t, RhoInterior (P.marketAt theta t) ((P.param p).tangent (P.X1 t) (P.X3 t) : TangentParam (J t) G K2 N D)

/-- `inverse` inverts the Jacobian of shares with respect to mean utilities in each market. -/
def InvertsShares (P : PanelProblem n M J A G K1 K2 K3 N D θ) (theta : θ → ℝ) (delta : (t : M) → J t → ℝ)
    (inverse : (t : M) → J t → J t → ℝ) : Prop :=
  ∀ t j l, ∑ k, inverse t j k * sharesByXiJacobian (P.marketAt theta t) (computeShares (P.marketAt theta t) {} (delta t) (P.muAt theta t))
    (computeProbabilities (P.marketAt theta t) {} (delta t) (P.muAt theta t))
    (computeConditionals (P.marketAt theta t) {} (delta t) (P.muAt theta t)) k l = if j = l then 1 else 0

/-- `inverse` inverts the matrix that defines markups in each market. -/
def InvertsMarkups (P : PanelProblem n M J A G K1 K2 K3 N D θ) (theta : θ → ℝ) (delta : (t : M) → J t → ℝ)
    (inverse : (t : M) → J t → J t → ℝ) : Prop :=
  ∀ t j l, ∑ k, inverse t j k * capitalDelta (P.marketAt theta t) (P.pricesAt theta t (delta t)) (P.ownership t) k l =
    if j = l then 1 else 0

end Spec

section path

variable (P : PanelProblem n M J A G K1 K2 K3 N D θ) (theta : θ → ℝ) (p : θ) (hP : Spec.ProperPanel P theta p)
  (delta : (θ → ℝ) → (t : M) → J t → ℝ)
  (hdelta : ∀ᶠ s in 𝓝 (theta p), Spec.Explained P (Function.update theta p s) (delta (Function.update theta p s)))

/-- From derivatives with respect to an increase to those with respect to the parameter. -/
lemma hasDerivAt_of_increase (f : ℝ → ℝ) (f' x : ℝ) (h : HasDerivAt (fun t => f (x + t)) f' 0) : HasDerivAt f f' x := by
  have h1 : HasDerivAt (fun s => (fun t => f (x + t)) (s - x)) (f' * 1) x :=
    HasDerivAt.comp x (h₂ := fun t => f (x + t)) (by simpa using h) ((hasDerivAt_id x).sub_const x)
  simpa using h1

lemma tendsto_increase (x : ℝ) : Tendsto (fun t : ℝ => x + t) (𝓝 0) (𝓝 x) := by
  have : ContinuousAt (fun t : ℝ => x + t) 0 := by fun_prop
  simpa [ContinuousAt] using this

/-- Mean utilities of a market without what the increase of the parameter adds to them. -/
noncomputable def PanelProblem.deltaPath (t : M) (s : ℝ) (j : J t) : ℝ :=
  let theta' := Function.update theta p (theta p + s)
  ∑ k, P.X1 t j k * P.betaAt theta k + (delta theta' t j - ∑ k, P.X1 t j k * P.betaAt theta' k)

include hP in
lemma shiftDelta_path (t : M) (s : ℝ) :
    Spec.shiftDelta ((P.param p).tangent (P.X1 t) (P.X3 t) : TangentParam (J t) G K2 N D) (P.deltaPath theta p delta t s) s =
      delta (Function.update theta p (theta p + s)) t := by
  unfold PanelProblem.deltaPath
  rw [shiftDelta_theta]
  funext j
  simp only [betaAt_update P hP.distinct theta p (theta p + s), add_sub_cancel_left]
  ring

include hP hdelta in
lemma solves_path (t : M) : SolvesNear (P.marketAt theta t) (P.tastes t) (P.sigmaAt theta) (P.piAt theta) true (delta theta t)
    ((P.param p).tangent (P.X1 t) (P.X3 t)) (P.deltaPath theta p delta t) := by
  have h0 := hdelta.self_of_nhds
  rw [Function.update_eq_self] at h0
  refine ⟨?_, ?_⟩
  · funext j
    simp [PanelProblem.deltaPath]
  · filter_upwards [(tendsto_increase (theta p)).eventually hdelta] with s hs
    unfold Spec.sharesOf
    rw [shiftDelta_path P theta p hP delta]
    have h1 := hs t
    unfold PanelProblem.muAt at h1
    rw [marketAt_update P hP.distinct theta p _ t, sigmaAt_update P hP.distinct theta p _ t, piAt_update P hP.distinct theta p _ t,
      add_sub_cancel_left] at h1
    rw [h1]
    exact (h0 t).symm

include hP hdelta in
/-- **C118, demand.** Mean utilities that explain shares, minus what is explained by linear parameters in `theta`, have the derivatives that
are stacked from all markets. -/
theorem C118_xi_jacobian (inverse : (t : M) → J t → J t → ℝ) (hinv : Spec.InvertsShares P theta (delta theta) inverse) (i : Fin n) :
    HasDerivAt (fun s => P.ivDelta (Function.update theta p s) (delta (Function.update theta p s)) i)
      (P.xiJacobian theta (delta theta) inverse i p) (theta p) := by
  refine hasDerivAt_of_increase _ _ _ ?_
  set t := (P.locate i).1
  set j := (P.locate i).2
  have h := C84_xi_by_theta (P.marketAt theta t) (hP.market t) (P.tastes t) (P.sigmaAt theta) (P.piAt theta) true (delta theta t)
    ((P.param p).tangent (P.X1 t) (P.X3 t)) (hP.fits t) (hP.weights t) (hP.offered t) (hP.interior t) (inverse t) (hinv t)
    (P.deltaPath theta p delta t) (solves_path P theta p hP delta hdelta t) j
  have h2 := h.sub_const (∑ k, P.X1 t j k * P.betaAt theta k)
  refine h2.congr_of_eventuallyEq (Eventually.of_forall fun s => ?_)
  simp only [PanelProblem.deltaPath, PanelProblem.ivDelta, add_sub_cancel_left]
  rfl

include hP hdelta in
/-- **C118, supply.** Transformed marginal costs at mean utilities that explain shares, minus what is explained by linear parameters in
`theta`, have the derivatives that are stacked from all markets, for costs inside of their bounds. -/
theorem C118_omega_jacobian (hX2 : ∀ t j k, (P.tastes t).X2 j k = (P.prices t).x2 k j ((P.prices t).x0 j))
    (inverse deltaInverse : (t : M) → J t → J t → ℝ) (hinv : Spec.InvertsShares P theta (delta theta) inverse)
    (hdinv : Spec.InvertsMarkups P theta (delta theta) deltaInverse) (last : (t : M) → J t → ℝ) (i : Fin n)
    (hlower : P.costsBounds.1 < (P.costsAt theta (P.locate i).1 (delta theta (P.locate i).1) (P.locate i).2 : EReal))
    (hupper : (P.costsAt theta (P.locate i).1 (delta theta (P.locate i).1) (P.locate i).2 : EReal) < P.costsBounds.2)
    (hlog : P.logCosts = true → 0 < P.costsAt theta (P.locate i).1 (delta theta (P.locate i).1) (P.locate i).2) :
    HasDerivAt (fun s => P.ivCosts (Function.update theta p s) (delta (Function.update theta p s)) i)
      (P.omegaJacobian theta (delta theta) inverse deltaInverse last i p) (theta p) := by
  refine hasDerivAt_of_increase _ _ _ ?_
  set t := (P.locate i).1 with ht
  set j := (P.locate i).2 with hj
  obtain ⟨omega, h1, h2⟩ := C85_omega_by_theta (P.marketAt theta t) (hP.market t) (P.prices t) (P.tastes t) (hX2 t) (P.sigmaAt theta)
    (P.piAt theta) (P.betaAt theta) (P.gammaAt theta) (delta theta t) (P.X1 t) (P.X3 t) (P.ownership t) (P.shares t) (P.param p) (hP.fits t)
    (hP.weights t) (hP.offered t) (hP.interior t) P.logCosts P.costsBounds (last t) (inverse t) (deltaInverse t) (hinv t) (hdinv t)
    (P.deltaPath theta p delta t) (solves_path P theta p hP delta hdelta t) j hlower hupper hlog
  refine h2.congr_of_eventuallyEq ?_
  filter_upwards [h1] with s hs
  unfold Spec.omegaAlong Spec.costsAlong Spec.pricesAlong at hs
  simp only [shiftDelta_path P theta p hP delta] at hs
  unfold PanelProblem.ivCosts PanelProblem.costsAt PanelProblem.pricesAt
  simp only [← hj]
  rw [marketAt_update P hP.distinct theta p _ t, sigmaAt_update P hP.distinct theta p _ t, piAt_update P hP.distinct theta p _ t,
    betaAt_update P hP.distinct, gammaAt_update P hP.distinct, add_sub_cancel_left]
  obtain ⟨y, hy, hy'⟩ := Option.map_eq_some_iff.mp hs
  rw [hy, Option.getD_some]
  exact hy'

end path

/-! ## Mean utilities that explain shares -/

namespace Spec

/-- The data can be explained: everybody is offered everything, shares are positive, and something is left to the outside option. -/
structure Explainable (P : PanelProblem n M J A G K1 K2 K3 N D θ) : Prop where
  weights : ∀ t i, 0 ≤ (P.market t).weights i
  somebody : ∀ t, ∃ i, 0 < (P.market t).weights i
  everything : ∀ t, AllOffered (P.market t) true
  positive : ∀ t j, 0 < P.shares t j
  outside : ∀ t, ∑ j, P.shares t j < ∑ i, (P.market t).weights i

open Classical in
/-- The mean utilities that explain shares, given parameters. -/
noncomputable def meanUtilities (P : PanelProblem n M J A G K1 K2 K3 N D θ) (theta : θ → ℝ) : (t : M) → J t → ℝ :=
  if h : ∃ delta, Explained P theta delta then h.choose else fun _ _ => 0

end Spec

/-- **C118, the objective is defined.** For all parameters with nesting parameters between zero and one there is exactly one vector of
mean utilities that explains shares. -/
theorem C118_defined (P : PanelProblem n M J A G K1 K2 K3 N D θ) (hE : Spec.Explainable P) (theta : θ → ℝ)
    (hm : ∀ t, Regular (P.marketAt theta t)) (ha : ∀ t a, (P.market t).availability = some a → ∀ i j, 0 ≤ a i j) :
    ∃! delta, Spec.Explained P theta delta := by
  have hav : ∀ t i, AvailabilityNonneg (P.marketAt theta t) { safe := true } i := fun t i a h j => by
    simp at h
    exact ha t a h i j
  have hex : ∀ t, ∃ x, ∀ j, computeShares (P.marketAt theta t) {} x (P.muAt theta t) j = P.shares t j := fun t =>
    (C117_exists (P.marketAt theta t) (hm t) true (P.muAt theta t) (hav t) (hE.weights t) (hE.somebody t) (hE.everything t) (P.shares t)).mpr
      ⟨hE.positive t, hE.outside t⟩
  choose x hx using hex
  refine ⟨x, fun t => funext (hx t), fun y hy => funext fun t => ?_⟩
  obtain ⟨i, hi⟩ := hE.somebody t
  exact C23_unique (P.marketAt theta t) (hm t) true (P.muAt theta t) (hav t) (hE.weights t) (fun j => ⟨i, hi, hE.everything t i hi j⟩) _ _
    fun j => (congrFun (hy t) j).trans (hx t j).symm

/-- Mean utilities explain shares at all parameters close to those at which something is differentiated. -/
theorem explained_near (P : PanelProblem n M J A G K1 K2 K3 N D θ) [Finite M] (hE : Spec.Explainable P) (theta : θ → ℝ) (p : θ)
    (hP : Spec.ProperPanel P theta p) :
    ∀ᶠ s in 𝓝 (theta p), Spec.Explained P (Function.update theta p s) (Spec.meanUtilities P (Function.update theta p s)) := by
  have hreg : ∀ᶠ s in 𝓝 (theta p), ∀ t, Regular (P.marketAt (Function.update theta p s) t) := by
    refine Filter.eventually_all.mpr fun t => ?_
    have h := regular_near (P.marketAt theta t) (hP.market t) ((P.param p).tangent (P.X1 t) (P.X3 t)) (hP.fits t) (hP.interior t)
    have htend : Tendsto (fun s : ℝ => s - theta p) (𝓝 (theta p)) (𝓝 0) := by
      have : ContinuousAt (fun s : ℝ => s - theta p) (theta p) := by fun_prop
      simpa [ContinuousAt] using this
    filter_upwards [htend.eventually h] with s hs
    rw [marketAt_update P hP.distinct theta p s t]
    exact hs
  filter_upwards [hreg] with s hs
  have hex := (C118_defined P hE (Function.update theta p s) hs fun t a h => (hP.market t).avail a h).exists
  unfold Spec.meanUtilities
  rw [dif_pos hex]
  exact hex.choose_spec

/-! ## The gradient -/

section gradient

variable {nd ns : ℕ} {m : Fin nd ⊕ Fin ns → Type} {q b g d : Type} [∀ e, Fintype (m e)] [Fintype q] [Fintype b] [Fintype g] [Fintype d]
  [DecidableEq b] [DecidableEq g] [IsEmpty q] [Fintype θ]

variable (P : PanelProblem n M J A G K1 K2 K3 N D θ) (Mo : MomentData n nd ns m q b g) (scale : Bool)
  (W : Matrix ((MomentIndex m ⊕ q) ⊕ d) ((MomentIndex m ⊕ q) ⊕ d) ℝ) (hW : ∀ a c, W a c = W c a)
  (hcross : ∀ a c, W (Sum.inl a) (Sum.inr c) = 0) (phi : (θ → ℝ) → Fin 2 → Fin 2 → ℝ) (mean : ℝ) (micro : (θ → ℝ) → d → ℝ)
  (location : θ → Option (Fin 2 × Fin 2)) (C : (θ → ℝ) → Matrix (b ⊕ g) (b ⊕ g) ℝ) (theta : θ → ℝ)
  (hphi : Spec.IsPhi location phi) (hsupply : Mo.hasSupply = false → ∀ p l, location p = some l → l = (0, 0))

/-- The objective as a function of parameters only: mean utilities are those that explain shares, marginal costs those that explain prices,
and linear parameters are concentrated out. -/
noncomputable def Spec.wholeObjective (delta : (θ → ℝ) → (t : M) → J t → ℝ) : (θ → ℝ) → ℝ :=
  Spec.concentratedObjective Mo scale W (fun theta => P.ivDelta theta (delta theta)) (fun theta => P.ivCosts theta (delta theta)) phi mean
    micro C

include hW hcross hphi hsupply in
/-- **C118, demand and supply.** If at each theta mean utilities explain shares, the derivative of the whole objective with respect to each
parameter is the element of the gradient that is computed from what markets report: for each kind of parameter, with and without nesting,
and for each type of random coefficient and moments. -/
theorem C118_gradient (p : θ) (hP : Spec.ProperPanel P theta p) (delta : (θ → ℝ) → (t : M) → J t → ℝ)
    (hdelta : ∀ᶠ s in 𝓝 (theta p), Spec.Explained P (Function.update theta p s) (delta (Function.update theta p s)))
    (hX2 : ∀ t j k, (P.tastes t).X2 j k = (P.prices t).x2 k j ((P.prices t).x0 j))
    (inverse deltaInverse : (t : M) → J t → J t → ℝ) (hinv : Spec.InvertsShares P theta (delta theta) inverse)
    (hdinv : Spec.InvertsMarkups P theta (delta theta) deltaInverse) (last : (t : M) → J t → ℝ)
    (hbounds : ∀ t j, P.costsBounds.1 < (P.costsAt theta t (delta theta t) j : EReal) ∧
      (P.costsAt theta t (delta theta t) j : EReal) < P.costsBounds.2 ∧ (P.logCosts = true → 0 < P.costsAt theta t (delta theta t) j))
    (micro' : Matrix d θ ℝ) (hmicro : ∀ c, HasDerivAt (fun s => micro (Function.update theta p s) c) (micro' c p) (theta p))
    (hC : ∀ᶠ s in 𝓝 (theta p), ivCovariancesInverse (Mo.regressors (phi (Function.update theta p s))) Mo.Z (ivWeights (ivWeights W)) *
      C (Function.update theta p s) = 1) :
    HasDerivAt (fun s => Spec.wholeObjective P Mo scale W phi mean micro C delta (Function.update theta p s))
      (Mo.gradient true scale (C theta) W (phi theta) (P.ivDelta theta (delta theta)) (P.ivCosts theta (delta theta))
        ((P.xiJacobian theta (delta theta) inverse).col p) ((P.omegaJacobian theta (delta theta) inverse deltaInverse last).col p) mean
        (location p) (micro theta) (micro'.col p)) (theta p) :=
  C94_gradient_partial Mo scale W hW hcross (fun theta => P.ivDelta theta (delta theta)) (fun theta => P.ivCosts theta (delta theta)) phi mean
    micro location C theta (P.xiJacobian theta (delta theta) inverse) (P.omegaJacobian theta (delta theta) inverse deltaInverse last) micro' p
    (C118_xi_jacobian P theta p hP delta hdelta inverse hinv)
    (fun i => C118_omega_jacobian P theta p hP delta hdelta hX2 inverse deltaInverse hinv hdinv last i (hbounds _ _).1 (hbounds _ _).2.1
      (hbounds _ _).2.2) hmicro hphi hsupply hC

/-- The objective of a problem without a supply side. -/
noncomputable def Spec.demandObjective (delta : (θ → ℝ) → (t : M) → J t → ℝ) : (θ → ℝ) → ℝ :=
  Spec.concentratedObjective Mo scale W (fun theta => P.ivDelta theta (delta theta)) (fun _ _ => 0) phi mean micro C

include hW hcross hphi hsupply in
/-- **C118, demand.** The same without a supply side. -/
theorem C118_demand_gradient (p : θ) (hP : Spec.ProperPanel P theta p) (delta : (θ → ℝ) → (t : M) → J t → ℝ)
    (hdelta : ∀ᶠ s in 𝓝 (theta p), Spec.Explained P (Function.update theta p s) (delta (Function.update theta p s)))
    (inverse : (t : M) → J t → J t → ℝ) (hinv : Spec.InvertsShares P theta (delta theta) inverse)
    (micro' : Matrix d θ ℝ) (hmicro : ∀ c, HasDerivAt (fun s => micro (Function.update theta p s) c) (micro' c p) (theta p))
    (hC : ∀ᶠ s in 𝓝 (theta p), ivCovariancesInverse (Mo.regressors (phi (Function.update theta p s))) Mo.Z (ivWeights (ivWeights W)) *
      C (Function.update theta p s) = 1) :
    HasDerivAt (fun s => Spec.demandObjective P Mo scale W phi mean micro C delta (Function.update theta p s))
      (Mo.gradient true scale (C theta) W (phi theta) (P.ivDelta theta (delta theta)) 0
        ((P.xiJacobian theta (delta theta) inverse).col p) 0 mean (location p) (micro theta) (micro'.col p)) (theta p) :=
  C94_gradient_partial Mo scale W hW hcross (fun theta => P.ivDelta theta (delta theta)) (fun _ _ => 0) phi mean
    micro location C theta (P.xiJacobian theta (delta theta) inverse) 0 micro' p
    (C118_xi_jacobian P theta p hP delta hdelta inverse hinv) (fun _ => hasDerivAt_const _ _) hmicro hphi hsupply hC

/-- The inverse of the Jacobian of shares with respect to mean utilities exists in each market. -/
theorem C118_invertible (hP : ∀ t, WellFormed (P.marketAt theta t)) (hw : ∀ t i, 0 ≤ (P.market t).weights i)
    (hoff : ∀ t j, ∃ i, 0 < (P.market t).weights i ∧ Offered (P.market t) {} i j) (delta : (t : M) → J t → ℝ) :
    ∃ inverse, Spec.InvertsShares P theta delta inverse := by
  refine ⟨fun t j l => (Matrix.of (sharesByXiJacobian (P.marketAt theta t) (computeShares (P.marketAt theta t) {} (delta t) (P.muAt theta t))
    (computeProbabilities (P.marketAt theta t) {} (delta t) (P.muAt theta t))
    (computeConditionals (P.marketAt theta t) {} (delta t) (P.muAt theta t))))⁻¹ j l, fun t j l => ?_⟩
  have h := C84_nonsingular (P.marketAt theta t) (hP t) true (delta t) (P.muAt theta t) (hw t) (hoff t)
  have h1 := congrFun (congrFun (Matrix.nonsing_inv_mul _ (isUnit_iff_ne_zero.mpr h)) j) l
  rw [Matrix.mul_apply, Matrix.one_apply] at h1
  simpa only [Matrix.of_apply] using h1

include hW hcross hphi hsupply in
/-- **C118.** Whatever shares there are (positive, and something is left to the outside option), at a `theta` that minimizes the objective
of a problem without a supply side among those close to it, with nesting parameters inside of their bounds, the gradient that is computed
from the mean utilities that explain shares is zero. -/
theorem C118_minimum [Finite M] (hE : Spec.Explainable P) (hP : ∀ p, Spec.ProperPanel P theta p)
    (inverse : (t : M) → J t → J t → ℝ) (hinv : Spec.InvertsShares P theta (Spec.meanUtilities P theta) inverse) (micro' : Matrix d θ ℝ)
    (hmicro : ∀ p c, HasDerivAt (fun s => micro (Function.update theta p s) c) (micro' c p) (theta p))
    (hC : ∀ p, ∀ᶠ s in 𝓝 (theta p), ivCovariancesInverse (Mo.regressors (phi (Function.update theta p s))) Mo.Z (ivWeights (ivWeights W)) *
      C (Function.update theta p s) = 1)
    (hmin : IsLocalMin (Spec.demandObjective P Mo scale W phi mean micro C (Spec.meanUtilities P)) theta) (p : θ) :
    Mo.gradient true scale (C theta) W (phi theta) (P.ivDelta theta (Spec.meanUtilities P theta)) 0
      ((P.xiJacobian theta (Spec.meanUtilities P theta) inverse).col p) 0 mean (location p) (micro theta) (micro'.col p) = 0 := by
  have h := C118_demand_gradient P Mo scale W hW hcross phi mean micro location C theta hphi hsupply p (hP p) (Spec.meanUtilities P)
    (explained_near P hE theta p (hP p)) inverse hinv micro' (hmicro p) (hC p)
  refine IsLocalMin.hasDerivAt_eq_zero (f := fun s => Spec.demandObjective P Mo scale W phi mean micro C (Spec.meanUtilities P)
    (Function.update theta p s)) ?_ h
  have hcont : Tendsto (fun s => Function.update theta p s) (𝓝 (theta p)) (𝓝 theta) := by
    have : Continuous fun s => Function.update theta p s := continuous_const.update p continuous_id
    have h2 := this.tendsto (theta p)
    rwa [Function.update_eq_self] at h2
  have := hcont.eventually hmin
  simpa [IsLocalMin, IsMinFilter, Function.update_eq_self] using this

end gradient

/-! ## Non-vacuity -/

/-- Two nested markets with three products each, in which an element of `sigma`, a nesting parameter and a linear coefficient are
unfixed. -/
noncomputable def wholeWitness : PanelProblem 6 (Fin 2) (fun _ => Fin 3) (fun _ => Fin 2) (Fin 2) (Fin 1) (Fin 2) (Fin 1) (Fin 2) (Fin 1)
    (Fin 3) where
  locate := (finProdFinEquiv (m := 2) (n := 3)).symm.trans (Equiv.sigmaEquivProd (Fin 2) (Fin 3)).symm
  market := fun _ => openMarket
  tastes := fun _ => exampleTastes
  prices := fun _ => examplePrices
  X1 := fun _ => fun j _ => ![1, 1, 2] j
  X3 := fun _ _ _ => 1
  ownership := fun _ _ _ => 1
  shares := ![![1/5, 1/4, 1/3], ![1/6, 1/2, 1/10]]
  sigma := fun _ _ => 0
  pi := fun _ _ => 1
  beta := fun _ => 0
  gamma := fun _ => 0
  param := ![.sigma 1 0, .rhoOne (some 1), .beta 0]
  logCosts := false
  costsBounds := (⊥, ⊤)

lemma wholeWitness_rho (theta : Fin 3 → ℝ) (g : Fin 2) :
    (wholeWitness.rhoAt theta (.perGroup ![1/2, 1/4])).groupRho g = if g = 1 then theta 1 else 1/2 := by
  have hd : Spec.Distinct wholeWitness := by
    intro p q h _
    fin_cases p <;> fin_cases q <;> simp_all [wholeWitness]
  simp only [PanelProblem.rhoAt, RhoParam.groupRho]
  by_cases hg : g = 1
  · rw [if_pos hg]
    exact valueAt_self wholeWitness hd theta 1 _ (by simp) _ (by simp [wholeWitness, hg])
  · rw [if_neg hg]
    unfold PanelProblem.valueAt
    rw [dif_neg]
    · have : g = 0 := by omega
      simp [this]
    · rintro ⟨p, hp⟩
      fin_cases p <;> simp [wholeWitness] at hp
      exact hg hp.symm

lemma wholeWitness_proper (theta : Fin 3 → ℝ) (h0 : 0 < theta 1) (h1 : theta 1 < 1) (p : Fin 3) : Spec.ProperPanel wholeWitness theta p where
  distinct := by
    intro p q h _
    fin_cases p <;> fin_cases q <;> simp_all [wholeWitness]
  market t := by
    refine ⟨⟨?_, by simp [wholeWitness, PanelProblem.marketAt, openMarket, exampleMarket]⟩, fun _ => by
      simp [wholeWitness, PanelProblem.marketAt, openMarket, exampleMarket], fun a h => by
      simp [wholeWitness, PanelProblem.marketAt, openMarket] at h⟩
    intro n hn g
    have : n.rho = wholeWitness.rhoAt theta (.perGroup ![1/2, 1/4]) := by
      simp only [PanelProblem.marketAt, show (wholeWitness.market t).nesting = some ⟨![0, 0, 1], .perGroup ![1/2, 1/4]⟩ from rfl,
        Option.map_some, Option.some.injEq] at hn
      rw [← hn]
    rw [this, wholeWitness_rho]
    split_ifs
    · exact ⟨h0.le, h1⟩
    · norm_num
  weights t i := (openMarket_weights i).le
  offered t j := ⟨0, openMarket_weights 0, openMarket_offered true 0 (openMarket_weights 0) j⟩
  fits t := by
    intro n hn
    have : n.rho = wholeWitness.rhoAt theta (.perGroup ![1/2, 1/4]) := by
      simp only [PanelProblem.marketAt, show (wholeWitness.market t).nesting = some ⟨![0, 0, 1], .perGroup ![1/2, 1/4]⟩ from rfl,
        Option.map_some, Option.some.injEq] at hn
      rw [← hn]
    rw [this]
    fin_cases p <;> simp [wholeWitness, ThetaParam.tangent, PanelProblem.rhoAt]
  interior t := by
    intro n hn g hg
    have : n.rho = wholeWitness.rhoAt theta (.perGroup ![1/2, 1/4]) := by
      simp only [PanelProblem.marketAt, show (wholeWitness.market t).nesting = some ⟨![0, 0, 1], .perGroup ![1/2, 1/4]⟩ from rfl,
        Option.map_some, Option.some.injEq] at hn
      rw [← hn]
    rw [this, wholeWitness_rho]
    split_ifs
    · exact h0
    · norm_num

lemma wholeWitness_explainable : Spec.Explainable wholeWitness where
  weights t i := (openMarket_weights i).le
  somebody t := ⟨0, openMarket_weights 0⟩
  everything t := openMarket_offered true
  positive t j := by fin_cases t <;> fin_cases j <;> simp [wholeWitness]
  outside t := by
    fin_cases t <;> simp [wholeWitness, openMarket, exampleMarket, Fin.sum_univ_succ] <;> norm_num

/-- A moment in levels with one instrument, and a concentrated-out constant. -/
def wholeMoments : MomentData 6 1 0 (fun _ => Fin 1) Empty Unit Empty where
  lag := fun i => i
  demand := fun _ => .levels
  supply := Fin.elim0
  hasSupply := false
  Z := fun _ => Matrix.of fun _ _ => 1
  ZC := Matrix.of fun _ c => c.elim
  X1 := Matrix.of fun _ _ => 1
  X3 := Matrix.of fun _ c => c.elim

lemma wholeMoments_inverse (phi : Fin 2 → Fin 2 → ℝ) :
    ivCovariancesInverse (wholeMoments.regressors phi) wholeMoments.Z 1 * ((1 / 36 : ℝ) • 1) = 1 := by
  ext a c
  rcases a with a | a
  · rcases c with c | c
    · rw [ivCovariancesInverse_eq, Matrix.mul_one]
      simp only [Matrix.mul_apply, Matrix.transpose_apply, ivP_apply, Matrix.smul_apply]
      simp [wholeMoments, MomentData.regressors, MomentData.equations, MomentData.extendedX1, Fintype.sum_sigma]
      norm_num
    · exact c.elim
  · exact a.elim

/-- Weights of the example. -/
abbrev wholeWeights : Matrix ((MomentIndex (fun _ : Fin 1 ⊕ Fin 0 => Fin 1) ⊕ Empty) ⊕ Empty)
    ((MomentIndex (fun _ : Fin 1 ⊕ Fin 0 => Fin 1) ⊕ Empty) ⊕ Empty) ℝ := 1

lemma wholeWeights_symmetric : ∀ a c, wholeWeights a c = wholeWeights c a := fun a c =>
  congrFun (congrFun Matrix.transpose_one.symm a) c

lemma wholeWeights_iv : ivWeights (ivWeights wholeWeights) = 1 := by
  ext a c
  simp [ivWeights, Matrix.one_apply]

/-- With one firm, the matrix that defines markups is the transposed Jacobian of shares with respect to mean utilities times minus the price
coefficient. -/
lemma prices_capitalDelta (m : Market (Fin 3) (Fin 2) (Fin 2)) (nest : Nesting (Fin 3) (Fin 2)) (hn : m.nesting = some nest)
    (hr : ∀ g, nest.rho.groupRho g < 1) (he : m.epsilonScale = 1) (sigma : Fin 2 → Fin 2 → ℝ) (pi : Fin 2 → Fin 1 → ℝ) (beta : Fin 1 → ℝ)
    (delta : Fin 3 → ℝ) (j k : Fin 3) :
    capitalDelta m (priceVariable examplePrices exampleTastes sigma pi beta delta) (fun _ _ => 1) j k =
      -beta 0 * sharesByXiJacobian m (computeShares m {} delta (computeMu exampleTastes sigma pi))
        (computeProbabilities m {} delta (computeMu exampleTastes sigma pi))
        (computeConditionals m {} delta (computeMu exampleTastes sigma pi)) k j := by
  have hmu := updateMu_prices examplePrices exampleTastes (fun _ _ => rfl) sigma pi beta delta
  have hdelta := updateDelta_prices examplePrices exampleTastes sigma pi beta delta
  have hx : (priceVariable examplePrices exampleTastes sigma pi beta delta).x0 = examplePrices.x0 := rfl
  have hU : ∀ x a b, utilityDerivatives m (priceVariable examplePrices exampleTastes sigma pi beta delta) x a b = beta 0 := by
    intro x a b
    simp [utilityDerivatives, priceVariable, examplePrices, he]
  unfold capitalDelta probabilitiesAt conditionalsAt
  simp only [Matrix.of_apply, hx, hmu, hdelta, mul_one]
  generalize computeMu exampleTastes sigma pi = mu
  have hs : ∀ a, computeShares m {} delta mu a = ∑ i, computeProbabilities m {} delta mu a i * m.weights i := fun _ => rfl
  rw [sharesByXi_of m _ (fun a => ∑ i, computeProbabilities m {} delta mu a i * m.weights i) _ _ k j (hs k)]
  generalize computeProbabilities m {} delta mu = P
  generalize computeConditionals m {} delta mu = C
  have hfun : utilityDerivatives m (priceVariable examplePrices exampleTastes sigma pi beta delta) examplePrices.x0 =
      fun _ _ => beta 0 := funext fun a => funext fun i => hU _ a i
  rw [hfun]
  have h0 : 1 - nest.productRho k ≠ 0 := by
    have := hr (nest.group k)
    unfold Nesting.productRho
    linarith
  unfold capitalGamma capitalLamda sharesByXiJacobian
  simp only [hn, ← mul_assoc, ← Finset.sum_mul]
  rw [show ∑ i, P k i * beta 0 * m.weights i = beta 0 * ∑ i, P k i * m.weights i by
    rw [Finset.mul_sum]; exact Finset.sum_congr rfl fun i _ => by ring]
  by_cases hjk : k = j
  · simp only [if_pos hjk]; field_simp; ring
  · simp only [if_neg hjk]; field_simp; ring

/-- The matrix that defines markups has an inverse if the price coefficient is not zero. -/
lemma wholeWitness_markups (theta : Fin 3 → ℝ) (h0 : 0 < theta 1) (h1 : theta 1 < 1) (h2 : theta 2 ≠ 0) (delta : Fin 2 → Fin 3 → ℝ) :
    ∃ inverse, Spec.InvertsMarkups wholeWitness theta delta inverse := by
  have hP := wholeWitness_proper theta h0 h1 0
  have hbeta : wholeWitness.betaAt theta 0 = theta 2 := valueAt_self wholeWitness hP.distinct theta 2 _ (by simp) _ (by simp [wholeWitness])
  set X : Fin 2 → Matrix (Fin 3) (Fin 3) ℝ := fun t => Matrix.of (sharesByXiJacobian (wholeWitness.marketAt theta t)
    (computeShares (wholeWitness.marketAt theta t) {} (delta t) (wholeWitness.muAt theta t))
    (computeProbabilities (wholeWitness.marketAt theta t) {} (delta t) (wholeWitness.muAt theta t))
    (computeConditionals (wholeWitness.marketAt theta t) {} (delta t) (wholeWitness.muAt theta t))) with hX
  refine ⟨fun t j l => (-(theta 2) • (X t)ᵀ)⁻¹ j l, fun t j l => ?_⟩
  have hdet : (X t).det ≠ 0 := C84_nonsingular _ (hP.market t) true (delta t) (wholeWitness.muAt theta t) (hP.weights t) (hP.offered t)
  have hunit : IsUnit (-(theta 2) • (X t)ᵀ).det := by
    rw [Matrix.det_smul, Matrix.det_transpose]
    exact isUnit_iff_ne_zero.mpr (mul_ne_zero (pow_ne_zero _ (neg_ne_zero.mpr h2)) hdet)
  have h := congrFun (congrFun (Matrix.nonsing_inv_mul _ hunit) j) l
  rw [Matrix.mul_apply, Matrix.one_apply] at h
  rw [← h]
  refine Finset.sum_congr rfl fun k _ => ?_
  congr 1
  have hn : (wholeWitness.marketAt theta t).nesting =
    some ⟨![0, 0, 1], wholeWitness.rhoAt theta (.perGroup ![1/2, 1/4])⟩ := rfl
  have := prices_capitalDelta (wholeWitness.marketAt theta t) _ hn (fun g => (((hP.market t).regular).rho _ hn g).2) rfl
    (wholeWitness.sigmaAt theta) (wholeWitness.piAt theta) (wholeWitness.betaAt theta) (delta t) k l
  rw [hbeta] at this
  exact this

/-- Non-vacuity of `C118_omega_jacobian`: with one firm in each market, and prices with a coefficient that is not zero. -/
example (theta : Fin 3 → ℝ) (h0 : 0 < theta 1) (h1 : theta 1 < 1) (h2 : theta 2 ≠ 0) (p : Fin 3) (i : Fin 6) :
    ∃ omega', HasDerivAt (fun s => wholeWitness.ivCosts (Function.update theta p s) (Spec.meanUtilities wholeWitness (Function.update theta p s)) i)
      omega' (theta p) := by
  have hP := wholeWitness_proper theta h0 h1
  obtain ⟨inverse, hinv⟩ := C118_invertible wholeWitness theta (hP 0).market (hP 0).weights (hP 0).offered
    (Spec.meanUtilities wholeWitness theta)
  obtain ⟨deltaInverse, hdinv⟩ := wholeWitness_markups theta h0 h1 h2 (Spec.meanUtilities wholeWitness theta)
  exact ⟨_, C118_omega_jacobian wholeWitness theta p (hP p) (Spec.meanUtilities wholeWitness)
    (explained_near wholeWitness wholeWitness_explainable theta p (hP p)) (fun _ _ _ => rfl) inverse deltaInverse hinv hdinv
    (fun _ _ => 0) i (EReal.bot_lt_coe _) (EReal.coe_lt_top _) (fun h => by simp [wholeWitness] at h)⟩

/-- Non-vacuity of C118: for each parameter of the example, the gradient is the derivative of the objective. -/
example (theta : Fin 3 → ℝ) (h0 : 0 < theta 1) (h1 : theta 1 < 1) :
    (∃! delta, Spec.Explained wholeWitness theta delta) ∧ ∃ inverse,
      Spec.InvertsShares wholeWitness theta (Spec.meanUtilities wholeWitness theta) inverse ∧ ∀ p,
      HasDerivAt (fun s => Spec.demandObjective wholeWitness wholeMoments true wholeWeights (fun _ _ _ => 0) 0 (fun _ c => c.elim)
        (fun _ => (1 / 36 : ℝ) • 1) (Spec.meanUtilities wholeWitness) (Function.update theta p s))
        (wholeMoments.gradient true true ((1 / 36 : ℝ) • 1) wholeWeights (fun _ _ => 0)
          (wholeWitness.ivDelta theta (Spec.meanUtilities wholeWitness theta)) 0
          ((wholeWitness.xiJacobian theta (Spec.meanUtilities wholeWitness theta) inverse).col p) 0 0 none (fun c => c.elim)
          ((Matrix.of fun c _ => c.elim : Matrix Empty (Fin 3) ℝ).col p)) (theta p) := by
  have hP := wholeWitness_proper theta h0 h1
  refine ⟨C118_defined wholeWitness wholeWitness_explainable theta (fun t => ((hP 0).market t).regular) fun t => ((hP 0).market t).avail, ?_⟩
  obtain ⟨inverse, hinv⟩ := C118_invertible wholeWitness theta (hP 0).market (hP 0).weights (hP 0).offered
    (Spec.meanUtilities wholeWitness theta)
  refine ⟨inverse, hinv, fun p => ?_⟩
  have hphi : Spec.IsPhi (fun _ : Fin 3 => none) (fun _ _ _ => (0 : ℝ)) := ⟨fun _ _ h => by simp at h, fun _ _ _ _ => rfl⟩
  exact C118_demand_gradient wholeWitness wholeMoments true wholeWeights wholeWeights_symmetric (fun a c => c.elim)
    (fun _ _ _ => 0) 0 (fun _ c => c.elim) (fun _ => none) (fun _ => (1 / 36 : ℝ) • 1) theta hphi (fun _ _ _ h => by simp at h) p (hP p)
    (Spec.meanUtilities wholeWitness) (explained_near wholeWitness wholeWitness_explainable theta p (hP p)) inverse hinv
    (Matrix.of fun c _ => c.elim) (fun c => c.elim)
    (Eventually.of_forall fun s => by rw [wholeWeights_iv]; exact wholeMoments_inverse _)

end Pyblp
