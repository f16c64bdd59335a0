import Verif.Lemmas.ContinuousDelta
import Verif.Props.WholeGradient

set_option linter.unusedSectionVars false

/-!
# C121: the tolerance of the inner loop controls the error of the objective and of the gradient
-/

namespace Pyblp

open Matrix Filter Topology

/-! ## Continuity of the objective and the gradient -/

section moments

variable {N nd ns : ℕ} {m : Fin nd ⊕ Fin ns → Type} {q b g d X : Type} [∀ e, Fintype (m e)] [Fintype q] [Fintype b] [Fintype g] [Fintype d]
  [TopologicalSpace X] (Mo : MomentData N nd ns m q b g) (z : X) (phi : Fin 2 → Fin 2 → ℝ)

lemma continuousAt_difference (lag : Fin N → Fin N) (t : DifferenceType) (x : X → Fin N → ℝ) (r : ℝ) (other : X → Option ((Fin N → ℝ) × ℝ))
    (hx : ∀ i, ContinuousAt (fun a => x a i) z) (hother : (∀ a, other a = none) ∨ ∃ (y : X → Fin N → ℝ) (c : ℝ),
      (∀ a, other a = some (y a, c)) ∧ ∀ i, ContinuousAt (fun a => y a i) z) (i : Fin N) :
    ContinuousAt (fun a => computeDifference lag t (x a) r (other a) i) z := by
  unfold computeDifference
  rcases hother with h | ⟨y, c, h, hy⟩
  · simp only [h]
    cases t with
    | innovations => cases hl : hasLag lag i <;> simp only [hl] <;> simp <;> fun_prop
    | differencedInnovations => cases hl : hasSecondLag lag i <;> simp only [hl] <;> simp <;> fun_prop
  · simp only [h]
    cases t with
    | innovations => cases hl : hasLag lag i <;> simp only [hl] <;> simp <;> fun_prop
    | differencedInnovations => cases hl : hasSecondLag lag i <;> simp only [hl] <;> simp <;> fun_prop

lemma continuousAt_equations (x1 x3 : X → Fin N → ℝ) (h1 : ∀ i, ContinuousAt (fun a => x1 a i) z) (h3 : ∀ i, ContinuousAt (fun a => x3 a i) z)
    (e : Fin nd ⊕ Fin ns) (i : Fin N) : ContinuousAt (fun a => Mo.equations phi (x1 a) (x3 a) e i) z := by
  cases e with
  | inl e =>
    cases h : Mo.demand e with
    | levels => simpa only [MomentData.equations, h] using h1 i
    | difference t =>
      simp only [MomentData.equations, h]
      refine continuousAt_difference z Mo.lag t x1 _ _ h1 ?_ i
      cases Mo.hasSupply
      · exact Or.inl fun _ => rfl
      · exact Or.inr ⟨x3, phi 0 1, fun _ => rfl, h3⟩
  | inr e =>
    cases h : Mo.supply e with
    | levels => simpa only [MomentData.equations, h] using h3 i
    | difference t =>
      simp only [MomentData.equations, h]
      exact continuousAt_difference z Mo.lag t x3 _ _ h3 (Or.inr ⟨x1, phi 1 0, fun _ => rfl, h1⟩) i

variable (C : Matrix (b ⊕ g) (b ⊕ g) ℝ) (W : Matrix (MomentIndex m) (MomentIndex m) ℝ) (delta costs delta' costs' : X → Fin N → ℝ)
  (hd : ∀ i, ContinuousAt (fun a => delta a i) z) (hc : ∀ i, ContinuousAt (fun a => costs a i) z)
  (hd' : ∀ i, ContinuousAt (fun a => delta' a i) z) (hc' : ∀ i, ContinuousAt (fun a => costs' a i) z)

include hd hc in
lemma continuousAt_linearParameters (k : b ⊕ g) : ContinuousAt (fun a => Mo.linearParameters C W phi (delta a) (costs a) k) z := by
  have he := continuousAt_equations Mo z phi delta costs hd hc
  unfold MomentData.linearParameters ivParameters
  simp only [Matrix.mulVec, dotProduct]
  fun_prop

include hd hc in
lemma continuousAt_residuals (e : Fin nd ⊕ Fin ns) (i : Fin N) : ContinuousAt (fun a => Mo.residuals C W phi (delta a) (costs a) e i) z := by
  have he := continuousAt_equations Mo z phi delta costs hd hc
  have hl := continuousAt_linearParameters Mo z phi C W delta costs hd hc
  unfold MomentData.linearParameters at hl
  unfold MomentData.residuals ivResiduals
  simp only [Matrix.mulVec, dotProduct]
  fun_prop

include hd hc in
lemma continuousAt_xi (i : Fin N) : ContinuousAt (fun a => Mo.xi C W phi (delta a) (costs a) i) z := by
  have hl := continuousAt_linearParameters Mo z phi C W delta costs hd hc
  unfold MomentData.xi
  cases levelsIndex Mo.demand with
  | some e => exact continuousAt_residuals Mo z phi C W delta costs hd hc (.inl e) i
  | none => fun_prop

include hd hc in
lemma continuousAt_omega (i : Fin N) : ContinuousAt (fun a => Mo.omega C W phi (delta a) (costs a) i) z := by
  have hl := continuousAt_linearParameters Mo z phi C W delta costs hd hc
  unfold MomentData.omega
  cases levelsIndex Mo.supply with
  | some e => exact continuousAt_residuals Mo z phi C W delta costs hd hc (.inr e) i
  | none => fun_prop

include hd' hc' in
lemma continuousAt_jacobians (e : Fin nd ⊕ Fin ns) (i : Fin N) : ContinuousAt (fun a => Mo.jacobians C W phi (delta' a) (costs' a) e i) z := by
  have he := continuousAt_equations Mo z phi delta' costs' hd' hc'
  unfold MomentData.jacobians
  cases Mo.converts
  · exact he e i
  · unfold ivJacobian
    simp only [Matrix.mulVec, dotProduct, if_true]
    fun_prop

include hd' hc' in
lemma continuousAt_xiJacobian (i : Fin N) : ContinuousAt (fun a => Mo.xiJacobian C W phi (delta' a) (costs' a) i) z := by
  unfold MomentData.xiJacobian
  cases levelsIndex Mo.demand with
  | some e => exact continuousAt_jacobians Mo z phi C W delta' costs' hd' hc' (.inl e) i
  | none => exact hd' i

include hd' hc' in
lemma continuousAt_omegaReported (i : Fin N) : ContinuousAt (fun a => Mo.omegaJacobian C W phi (delta' a) (costs' a) i) z := by
  unfold MomentData.omegaJacobian
  cases levelsIndex Mo.supply with
  | some e => exact continuousAt_jacobians Mo z phi C W delta' costs' hd' hc' (.inr e) i
  | none => exact hc' i

lemma continuousAt_differenceDerivative (lag : Fin N → Fin N) (t : DifferenceType) (x : X → Fin N → ℝ)
    (hx : ∀ i, ContinuousAt (fun a => x a i) z) (i : Fin N) : ContinuousAt (fun a => computeDifferenceDerivative lag t (x a) i) z := by
  unfold computeDifferenceDerivative
  cases t with
  | innovations => cases hl : hasLag lag i <;> simp only [hl] <;> simp <;> fun_prop
  | differencedInnovations => cases hl : hasSecondLag lag i <;> simp only [hl] <;> simp <;> fun_prop

lemma continuousAt_phiContribution (location : Option (Fin 2 × Fin 2)) (xi omega : X → Fin N → ℝ)
    (hx : ∀ i, ContinuousAt (fun a => xi a i) z) (ho : ∀ i, ContinuousAt (fun a => omega a i) z) (e : Fin nd ⊕ Fin ns) (i : Fin N) :
    ContinuousAt (fun a => Mo.phiContribution location (xi a) (omega a) e i) z := by
  unfold MomentData.phiContribution
  cases location with
  | none => exact continuousAt_const
  | some l =>
    have hu : ∀ i, ContinuousAt (fun a => (if l.2 = 0 then xi a else omega a) i) z := by
      intro i
      by_cases h : l.2 = 0
      · simpa only [if_pos h] using hx i
      · simpa only [if_neg h] using ho i
    cases e with
    | inl e =>
      by_cases h : l.1 = 0
      · simp only [if_pos h]
        cases Mo.demand e with
        | levels => exact continuousAt_const
        | difference t => exact continuousAt_differenceDerivative z Mo.lag t _ hu i
      · simp only [if_neg h]
        exact continuousAt_const
    | inr e =>
      by_cases h : l.1 = 0
      · simp only [if_pos h]
        exact continuousAt_const
      · simp only [if_neg h]
        cases Mo.supply e with
        | levels => exact continuousAt_const
        | difference t => exact continuousAt_differenceDerivative z Mo.lag t _ hu i

lemma continuousAt_quadratic {c : Type} [Fintype c] (s : ℝ) (W : Matrix c c ℝ) (g G : X → c → ℝ) (hg : ∀ k, ContinuousAt (fun a => g a k) z)
    (hG : ∀ k, ContinuousAt (fun a => G a k) z) : ContinuousAt (fun a => s * (G a ⬝ᵥ (W *ᵥ g a))) z := by
  simp only [Matrix.mulVec, dotProduct]
  fun_prop

variable (W : Matrix ((MomentIndex m ⊕ q) ⊕ d) ((MomentIndex m ⊕ q) ⊕ d) ℝ) (mean : ℝ) (micro micro' : X → d → ℝ)
  (hm : ∀ c, ContinuousAt (fun a => micro a c) z) (hm' : ∀ c, ContinuousAt (fun a => micro' a c) z) (scale : Bool)

include hd hc hm in
lemma continuousAt_meanMoments (k : (MomentIndex m ⊕ q) ⊕ d) : ContinuousAt (fun a =>
    Mo.meanMoments (Mo.residuals C (ivWeights (ivWeights W)) phi (delta a) (costs a)) (Mo.xi C (ivWeights (ivWeights W)) phi (delta a) (costs a))
      (Mo.omega C (ivWeights (ivWeights W)) phi (delta a) (costs a)) mean (micro a) k) z := by
  have hr := continuousAt_residuals Mo z phi C (ivWeights (ivWeights W)) delta costs hd hc
  have hx := continuousAt_xi Mo z phi C (ivWeights (ivWeights W)) delta costs hd hc
  have ho := continuousAt_omega Mo z phi C (ivWeights (ivWeights W)) delta costs hd hc
  unfold MomentData.meanMoments concat
  rcases k with (k | k) | k
  · simp only [Sum.elim_inl, gmmMomentsMean, rowMean, gmmMoments]
    fun_prop
  · simp only [Sum.elim_inl, Sum.elim_inr, gmmMomentsMean, rowMean, gmmMoments]
    fun_prop
  · exact hm k

include hd hc hm in
lemma continuousAt_objective : ContinuousAt (fun a => Mo.objective scale C W phi (delta a) (costs a) mean (micro a)) z := by
  have h := continuousAt_meanMoments Mo z phi C delta costs hd hc W mean micro hm
  exact continuousAt_quadratic z _ W _ _ h h

include hd hc hd' hc' hm hm' in
lemma continuousAt_gradient (location : Option (Fin 2 × Fin 2)) (analytic : Bool) : ContinuousAt (fun a =>
    Mo.gradient analytic scale C W phi (delta a) (costs a) (delta' a) (costs' a) mean location (micro a) (micro' a)) z := by
  have h := continuousAt_meanMoments Mo z phi C delta costs hd hc W mean micro hm
  have hx := continuousAt_xi Mo z phi C (ivWeights (ivWeights W)) delta costs hd hc
  have ho := continuousAt_omega Mo z phi C (ivWeights (ivWeights W)) delta costs hd hc
  have hj := continuousAt_jacobians Mo z phi C (ivWeights (ivWeights W)) delta' costs' hd' hc'
  have hx' := continuousAt_xiJacobian Mo z phi C (ivWeights (ivWeights W)) delta' costs' hd' hc'
  have ho' := continuousAt_omegaReported Mo z phi C (ivWeights (ivWeights W)) delta' costs' hd' hc'
  have hp := continuousAt_phiContribution Mo z location _ _ hx ho
  have hG : ∀ k, ContinuousAt (fun a => Mo.progressJacobian analytic C (ivWeights (ivWeights W)) phi (delta a) (costs a) (delta' a) (costs' a)
      location (micro' a) k) z := by
    intro k
    unfold MomentData.progressJacobian concat
    rcases k with (k | k) | k
    · simp only [Sum.elim_inl, gmmMomentsJacobianMean]
      cases analytic <;> simp only [Bool.false_eq_true, if_true, if_false] <;> fun_prop
    · simp only [Sum.elim_inl, Sum.elim_inr, gmmMomentsJacobianMean]
      fun_prop
    · exact hm' k
  unfold MomentData.gradient gmmGradient
  have := (continuousAt_quadratic z 2 W _ _ h hG).const_mul (if scale then (N : ℝ) else 1)
  exact this

end moments

/-! ## Reported mean utilities -/

variable {n : ℕ} {M : Type} {J A : M → Type} {G K1 K2 K3 N D θ : Type} [∀ t, Fintype (J t)] [∀ t, DecidableEq (J t)] [∀ t, Nonempty (J t)]
  [∀ t, Fintype (A t)] [Fintype G] [DecidableEq G] [Fintype K1] [DecidableEq K1] [Fintype K2] [DecidableEq K2] [Fintype K3] [DecidableEq K3]
  [Fintype N] [DecidableEq N] [Fintype D] [DecidableEq D] [DecidableEq θ] [Fintype M]

namespace Spec

/-- In each market an iteration over the contraction, simple or SQUAREM, with absolute tolerance `atol`, any starting values and any
limit on evaluations, has reported that it converged to these mean utilities. -/
def Reported (P : PanelProblem n M J A G K1 K2 K3 N D θ) (bounds : SharesBounds) (theta : θ → ℝ) (atol : ℝ) (delta : (t : M) → J t → ℝ) :
    Prop :=
  ∀ t, ∃ (maxEvaluations : ℕ) (initial : J t → ℝ) (r : _), 1 ≤ maxEvaluations ∧
    (r = simpleIterator ⟨maxEvaluations, atol, 0, infinityNorm⟩
        (realContraction (linearContraction (P.marketAt theta t) true bounds (P.muAt theta t) (P.shares t))) (lift initial) ∨
      ∃ o stepMin stepMax, r = squaremIterator ⟨maxEvaluations, atol, 0, infinityNorm⟩ o stepMin stepMax
        (realContraction (linearContraction (P.marketAt theta t) true bounds (P.muAt theta t) (P.shares t))) (lift initial)) ∧
    r.converged = true ∧ r.x = lift (delta t)

/-- What is required of a problem for its inner loop: shares can be explained, nesting parameters are between zero and one, epsilon is not
scaled down, and shares are inside of their bounds. -/
structure Solvable (P : PanelProblem n M J A G K1 K2 K3 N D θ) (bounds : SharesBounds) (theta : θ → ℝ) : Prop where
  explainable : Explainable P
  market : ∀ t, WellFormed (P.marketAt theta t)
  epsilon : ∀ t, (P.market t).nesting = none → 1 ≤ (P.market t).epsilonScale
  positive : bounds.Positive
  interior : ∀ t, Interior bounds (P.shares t)

/-- `inverse` inverts the Jacobian of shares with respect to mean utilities that is computed in each market: observed shares are on its
diagonal. -/
def InvertsObserved (P : PanelProblem n M J A G K1 K2 K3 N D θ) (theta : θ → ℝ) (delta : (t : M) → J t → ℝ)
    (inverse : (t : M) → J t → J t → ℝ) : Prop :=
  ∀ t j l, ∑ k, inverse t j k * sharesByXiJacobian (P.marketAt theta t) (P.shares t)
    (computeProbabilities (P.marketAt theta t) {} (delta t) (P.muAt theta t))
    (computeConditionals (P.marketAt theta t) {} (delta t) (P.muAt theta t)) k l = if j = l then 1 else 0

end Spec

section reported

variable (P : PanelProblem n M J A G K1 K2 K3 N D θ) (bounds : SharesBounds) (theta : θ → ℝ) (hS : Spec.Solvable P bounds theta)

include hS in
lemma meanUtilities_explained : Spec.Explained P theta (Spec.meanUtilities P theta) := by
  have hex := (C118_defined P hS.explainable theta (fun t => (hS.market t).regular) fun t => (hS.market t).avail).exists
  unfold Spec.meanUtilities
  rw [dif_pos hex]
  exact hex.choose_spec

lemma offered_all (hE : Spec.Explainable P) (t : M) (j : J t) : ∃ i, 0 < (P.market t).weights i ∧ Offered (P.market t) {} i j := by
  obtain ⟨i, hi⟩ := hE.somebody t
  exact ⟨i, hi, hE.everything t i hi j⟩

include hS in
/-- **C121, mean utilities.** For each accuracy there is a tolerance such that mean utilities of all markets are that close to those that
explain shares whenever iterations with this or a smaller tolerance report that they converged. -/
theorem C121_mean_utilities (accuracy : ℝ) (hacc : 0 < accuracy) : ∃ tolerance, 0 < tolerance ∧ ∀ atol, atol ≤ tolerance → ∀ delta,
    Spec.Reported P bounds theta atol delta → ∀ t j, |delta t j - Spec.meanUtilities P theta t j| ≤ accuracy := by
  have hex := meanUtilities_explained P bounds theta hS
  have hav : ∀ t i, AvailabilityNonneg (P.marketAt theta t) { safe := true } i := fun t i => (hS.market t).availNonneg _ rfl i
  have h := fun t =>
    C117_reported (P.marketAt theta t) (hS.market t).regular (fun h => hS.epsilon t (by simpa [PanelProblem.marketAt] using h)) true bounds
      hS.positive (P.muAt theta t) (hav t) (hS.explainable.weights t) (offered_all P hS.explainable t) (P.shares t) (hS.interior t)
      (Spec.meanUtilities P theta t) (congrFun (hex t)) accuracy hacc
  choose tol htol h using h
  cases isEmpty_or_nonempty M with
  | inl _ => exact ⟨1, one_pos, fun _ _ _ _ t => isEmptyElim t⟩
  | inr _ =>
    obtain ⟨t₀, -, hmin⟩ := Finset.exists_min_image Finset.univ tol (Finset.univ_nonempty (α := M))
    refine ⟨tol t₀, htol t₀, fun atol hatol delta hr t j => ?_⟩
    obtain ⟨maxEvaluations, initial, r, hmax, hr, hconv, hx⟩ := hr t
    obtain ⟨x, hx', hclose⟩ := h t atol (hatol.trans (hmin t (Finset.mem_univ t))) maxEvaluations hmax initial r hr hconv
    have : x = delta t := by
      have h2 := hx'.symm.trans hx
      funext j
      have h3 := congrFun h2 j
      simpa [lift] using h3
    rw [← this]
    exact hclose j

include hS in
/-- **C121, attained.** Whatever the tolerance, mean utilities are reported: simple iteration from any starting values reports that it
converged once its limit on evaluations is large enough. -/
theorem C121_attained (atol : ℝ) (ha : 0 < atol) (initial : (t : M) → J t → ℝ) : ∃ budget, ∀ maxEvaluations, budget ≤ maxEvaluations →
    ∃ delta, Spec.Reported P bounds theta atol delta ∧ ∀ t, (simpleIterator ⟨maxEvaluations, atol, 0, infinityNorm⟩
      (realContraction (linearContraction (P.marketAt theta t) true bounds (P.muAt theta t) (P.shares t))) (lift (initial t))).x =
        lift (delta t) := by
  have h := fun t => C117_simple (P.marketAt theta t) (hS.market t).regular
    (fun h => hS.epsilon t (by simpa [PanelProblem.marketAt] using h)) true bounds hS.positive (P.muAt theta t)
    (fun i => (hS.market t).availNonneg _ rfl i) (hS.explainable.weights t) (hS.explainable.somebody t) (hS.explainable.everything t)
    (P.shares t) (hS.interior t) (hS.explainable.positive t) (hS.explainable.outside t) (initial t) atol 0 ha
  choose budget h using h
  refine ⟨∑ t, budget t + 1, fun maxEvaluations hmax => ?_⟩
  have hbudget : ∀ t, budget t ≤ maxEvaluations := fun t =>
    (Finset.single_le_sum (f := budget) (fun _ _ => Nat.zero_le _) (Finset.mem_univ t)).trans (by omega)
  have hx : ∀ t, ∃ x : J t → ℝ, (simpleIterator ⟨maxEvaluations, atol, 0, infinityNorm⟩
      (realContraction (linearContraction (P.marketAt theta t) true bounds (P.muAt theta t) (P.shares t))) (lift (initial t))).x = lift x := by
    intro t
    obtain ⟨-, -, -, h4, -⟩ := C14_simple ⟨maxEvaluations, atol, 0, infinityNorm⟩ (by simp only; omega)
      (realContraction (linearContraction (P.marketAt theta t) true bounds (P.muAt theta t) (P.shares t))) (lift (initial t))
    obtain ⟨-, hx, -, -⟩ := h4 (h t maxEvaluations (hbudget t))
    exact ⟨_, hx.trans (iterate_real _ _ _)⟩
  choose x hx using hx
  exact ⟨x, fun t => ⟨maxEvaluations, initial t, _, by omega, Or.inl rfl, h t maxEvaluations (hbudget t), hx t⟩, hx⟩

include hS in
/-- What holds close to the mean utilities that explain shares holds for reported ones if the tolerance is small enough. -/
lemma reported_of_eventually (Q : ((t : M) → J t → ℝ) → Prop) (hQ : ∀ᶠ delta in 𝓝 (Spec.meanUtilities P theta), Q delta) :
    ∃ tolerance, 0 < tolerance ∧ ∀ atol, atol ≤ tolerance → ∀ delta, Spec.Reported P bounds theta atol delta → Q delta := by
  obtain ⟨e, he, hclose⟩ := Metric.eventually_nhds_iff.mp hQ
  obtain ⟨tol, htol, h⟩ := C121_mean_utilities P bounds theta hS (e / 2) (by positivity)
  refine ⟨tol, htol, fun atol hatol delta hr => hclose ?_⟩
  have : dist delta (Spec.meanUtilities P theta) ≤ e / 2 := by
    refine (dist_pi_le_iff (by positivity)).mpr fun t => (dist_pi_le_iff (by positivity)).mpr fun j => ?_
    rw [Real.dist_eq]
    exact h atol hatol delta hr t j
  linarith

lemma eventually_accurate (F : ((t : M) → J t → ℝ) → ℝ) (z : (t : M) → J t → ℝ) (hF : ContinuousAt F z) (accuracy : ℝ)
    (hacc : 0 < accuracy) : ∀ᶠ delta in 𝓝 z, |F delta - F z| ≤ accuracy := by
  filter_upwards [Metric.tendsto_nhds.mp hF accuracy hacc] with delta h
  rw [Real.dist_eq] at h
  exact h.le

/-! ## The objective -/

lemma continuousAt_ivDelta (z : (t : M) → J t → ℝ) (i : Fin n) : ContinuousAt (fun delta => P.ivDelta theta delta i) z := by
  unfold PanelProblem.ivDelta
  refine ContinuousAt.sub ?_ continuousAt_const
  exact ((continuous_apply (P.locate i).2).comp (continuous_apply (P.locate i).1)).continuousAt

lemma continuousAt_market {t : M} (F : (J t → ℝ) → ℝ) (z : (t : M) → J t → ℝ) (hF : ContinuousAt F (z t)) :
    ContinuousAt (fun delta : (t : M) → J t → ℝ => F (delta t)) z :=
  ContinuousAt.comp (g := F) (f := fun delta : (t : M) → J t → ℝ => delta t) hF (continuous_apply t).continuousAt

lemma markups_nonsingular (z : (t : M) → J t → ℝ) (hdinv : ∃ inverse, Spec.InvertsMarkups P theta z inverse) (t : M) :
    (capitalDelta (P.marketAt theta t) (P.pricesAt theta t (z t)) (P.ownership t)).det ≠ 0 := by
  obtain ⟨R, hR⟩ := hdinv
  have : Matrix.of (R t) * capitalDelta (P.marketAt theta t) (P.pricesAt theta t (z t)) (P.ownership t) = 1 := by
    ext j l
    rw [Matrix.mul_apply, Matrix.one_apply]
    exact hR t j l
  exact (Matrix.isUnit_iff_isUnit_det _).mp (.of_mul_eq_one_right _ this) |>.ne_zero

lemma continuousAt_ivCosts (hm : ∀ t, WellFormed (P.marketAt theta t))
    (hX2 : ∀ t j k, (P.tastes t).X2 j k = (P.prices t).x2 k j ((P.prices t).x0 j)) (z : (t : M) → J t → ℝ)
    (hdinv : ∃ inverse, Spec.InvertsMarkups P theta z inverse)
    (hbounds : ∀ t j, P.costsBounds.1 < (P.costsAt theta t (z t) j : EReal) ∧
      (P.costsAt theta t (z t) j : EReal) < P.costsBounds.2 ∧ (P.logCosts = true → 0 < P.costsAt theta t (z t) j)) (i : Fin n) :
    ContinuousAt (fun delta => P.ivCosts theta delta i) z := by
  unfold PanelProblem.ivCosts
  refine ContinuousAt.sub ?_ continuousAt_const
  refine continuousAt_market (t := (P.locate i).1)
    (fun x => (tildeCosts P.logCosts P.costsBounds (P.costsAt theta (P.locate i).1 x) (P.locate i).2).getD 0) z ?_
  refine continuousAt_tildeCosts P.logCosts P.costsBounds (P.costsAt theta (P.locate i).1) _ _ ?_ (hbounds _ _).1 (hbounds _ _).2.1
    (hbounds _ _).2.2 0
  exact continuousAt_const.sub (continuousAt_eta (P.marketAt theta (P.locate i).1) (hm _) (P.prices _) (P.tastes _) (hX2 _) (P.sigmaAt theta)
    (P.piAt theta) (P.betaAt theta) (P.ownership _) (P.shares _) _ (markups_nonsingular P theta z hdinv _) _)

end reported

section accuracy

variable {nd ns : ℕ} {m : Fin nd ⊕ Fin ns → Type} {q b g d : Type} [∀ e, Fintype (m e)] [Fintype q] [Fintype b] [Fintype g] [Fintype d]
  [DecidableEq b] [DecidableEq g] [Fintype θ]

variable (P : PanelProblem n M J A G K1 K2 K3 N D θ) (bounds : SharesBounds) (theta : θ → ℝ) (hS : Spec.Solvable P bounds theta)
  (Mo : MomentData n nd ns m q b g) (scale : Bool) (W : Matrix ((MomentIndex m ⊕ q) ⊕ d) ((MomentIndex m ⊕ q) ⊕ d) ℝ)
  (phi : (θ → ℝ) → Fin 2 → Fin 2 → ℝ) (mean : ℝ) (micro : (θ → ℝ) → d → ℝ) (C : (θ → ℝ) → Matrix (b ⊕ g) (b ⊕ g) ℝ)
  (microAt : ((t : M) → J t → ℝ) → d → ℝ) (hmicro : microAt (Spec.meanUtilities P theta) = micro theta)
  (hcont : ∀ c, ContinuousAt (fun delta => microAt delta c) (Spec.meanUtilities P theta))

include hS hmicro hcont in
/-- **C121, the objective without a supply side.** For each accuracy there is a tolerance such that whenever iterations with this or a
smaller tolerance report in all markets that they converged, the objective that is computed from reported mean utilities is that close to
the objective at mean utilities that explain shares exactly. -/
theorem C121_demand_objective (accuracy : ℝ) (hacc : 0 < accuracy) : ∃ tolerance, 0 < tolerance ∧ ∀ atol, atol ≤ tolerance → ∀ delta,
    Spec.Reported P bounds theta atol delta →
      |Mo.objective scale (C theta) W (phi theta) (P.ivDelta theta delta) 0 mean (microAt delta) -
        Spec.demandObjective P Mo scale W phi mean micro C (Spec.meanUtilities P) theta| ≤ accuracy := by
  have hF := continuousAt_objective Mo (Spec.meanUtilities P theta) (phi theta) (C theta) (P.ivDelta theta) (fun _ => 0)
    (continuousAt_ivDelta P theta _) (fun _ => continuousAt_const) W mean microAt hcont scale
  obtain ⟨tol, htol, h⟩ := reported_of_eventually P bounds theta hS _ (eventually_accurate _ _ hF accuracy hacc)
  refine ⟨tol, htol, fun atol hatol delta hr => ?_⟩
  have h2 := h atol hatol delta hr
  simp only [hmicro] at h2
  unfold Spec.demandObjective
  rw [← C94_objective Mo scale C W (fun theta => P.ivDelta theta (Spec.meanUtilities P theta)) (fun _ _ => 0) phi mean micro theta]
  exact h2

include hS hmicro hcont in
/-- **C121, the objective with a supply side.** The same, if at the mean utilities that explain shares marginal costs are well defined and
inside of their bounds. -/
theorem C121_objective (hX2 : ∀ t j k, (P.tastes t).X2 j k = (P.prices t).x2 k j ((P.prices t).x0 j))
    (hdinv : ∃ inverse, Spec.InvertsMarkups P theta (Spec.meanUtilities P theta) inverse)
    (hbounds : ∀ t j, P.costsBounds.1 < (P.costsAt theta t (Spec.meanUtilities P theta t) j : EReal) ∧
      (P.costsAt theta t (Spec.meanUtilities P theta t) j : EReal) < P.costsBounds.2 ∧
      (P.logCosts = true → 0 < P.costsAt theta t (Spec.meanUtilities P theta t) j))
    (accuracy : ℝ) (hacc : 0 < accuracy) : ∃ tolerance, 0 < tolerance ∧ ∀ atol, atol ≤ tolerance → ∀ delta,
    Spec.Reported P bounds theta atol delta →
      |Mo.objective scale (C theta) W (phi theta) (P.ivDelta theta delta) (P.ivCosts theta delta) mean (microAt delta) -
        Spec.wholeObjective P Mo scale W phi mean micro C (Spec.meanUtilities P) theta| ≤ accuracy := by
  have hF := continuousAt_objective Mo (Spec.meanUtilities P theta) (phi theta) (C theta) (P.ivDelta theta) (P.ivCosts theta)
    (continuousAt_ivDelta P theta _) (continuousAt_ivCosts P theta hS.market hX2 _ hdinv hbounds) W mean microAt hcont scale
  obtain ⟨tol, htol, h⟩ := reported_of_eventually P bounds theta hS _ (eventually_accurate _ _ hF accuracy hacc)
  refine ⟨tol, htol, fun atol hatol delta hr => ?_⟩
  have h2 := h atol hatol delta hr
  simp only [hmicro] at h2
  unfold Spec.wholeObjective
  rw [← C94_objective Mo scale C W (fun theta => P.ivDelta theta (Spec.meanUtilities P theta))
    (fun theta => P.ivCosts theta (Spec.meanUtilities P theta)) phi mean micro theta]
  exact h2

/-! ## The gradient -/

/-- Elements of the inverse of a matrix. -/
noncomputable def inverseOf {I : Type} [Fintype I] [DecidableEq I] (S : Matrix I I ℝ) : I → I → ℝ := fun j k => S⁻¹ j k

/-- The Jacobian of shares with respect to mean utilities that is computed in a market. -/
noncomputable def observedJacobian (t : M) (x : J t → ℝ) : Matrix (J t) (J t) ℝ :=
  Matrix.of (sharesByXiJacobian (P.marketAt theta t) (P.shares t) (computeProbabilities (P.marketAt theta t) {} x (P.muAt theta t))
    (computeConditionals (P.marketAt theta t) {} x (P.muAt theta t)))

include hS in
lemma observedJacobian_exact (t : M) : (observedJacobian P theta t (Spec.meanUtilities P theta t)).det ≠ 0 := by
  have h := C84_nonsingular (P.marketAt theta t) (hS.market t) true (Spec.meanUtilities P theta t) (P.muAt theta t) (hS.explainable.weights t)
    (offered_all P hS.explainable t)
  rw [meanUtilities_explained P bounds theta hS t] at h
  exact h

lemma observedJacobian_continuous (hm : ∀ t, WellFormed (P.marketAt theta t)) (t : M) (j k : J t) :
    Continuous fun x => observedJacobian P theta t x j k :=
  continuous_sharesByXi (P.marketAt theta t) (hm t) (P.shares t) (P.muAt theta t) j k

lemma markups_continuous (hm : ∀ t, WellFormed (P.marketAt theta t))
    (hX2 : ∀ t j k, (P.tastes t).X2 j k = (P.prices t).x2 k j ((P.prices t).x0 j)) (t : M) (j k : J t) :
    Continuous fun x => capitalDelta (P.marketAt theta t) (P.pricesAt theta t x) (P.ownership t) j k :=
  continuous_capitalDelta (P.marketAt theta t) (hm t) (P.prices t) (P.tastes t) (hX2 t) (P.sigmaAt theta) (P.piAt theta) (P.betaAt theta)
    (P.ownership t) j k

lemma eventually_nonsingular (S : (t : M) → (J t → ℝ) → Matrix (J t) (J t) ℝ) (hS : ∀ t j k, Continuous fun x => S t x j k)
    (z : (t : M) → J t → ℝ) (hz : ∀ t, (S t (z t)).det ≠ 0) : ∀ᶠ delta in 𝓝 z, ∀ t, (S t (delta t)).det ≠ 0 := by
  refine Filter.eventually_all.mpr fun t => ?_
  have hc : Continuous fun delta : (t : M) → J t → ℝ => (S t (delta t)).det :=
    (continuous_matrix (hS t)).matrix_det.comp (continuous_apply t)
  exact hc.continuousAt.eventually_ne (hz t)

lemma inverts_of_nonsingular {t : M} (S : Matrix (J t) (J t) ℝ) (h : S.det ≠ 0) (j l : J t) :
    ∑ k, S⁻¹ j k * S k l = if j = l then 1 else 0 := by
  have h1 := congrFun (congrFun (Matrix.nonsing_inv_mul _ (isUnit_iff_ne_zero.mpr h)) j) l
  rwa [Matrix.mul_apply, Matrix.one_apply] at h1

include hS in
lemma continuousAt_xiStacked (p : θ) (hP : Spec.ProperPanel P theta p) (i : Fin n) : ContinuousAt (fun delta : (t : M) → J t → ℝ =>
    (P.xiJacobian theta delta fun t => inverseOf (observedJacobian P theta t (delta t))).col p i) (Spec.meanUtilities P theta) := by
  refine continuousAt_market (t := (P.locate i).1) (fun x => xiByTheta (P.marketAt theta (P.locate i).1)
    (inverseOf (observedJacobian P theta (P.locate i).1 x)) (probabilitiesTangent (P.marketAt theta (P.locate i).1) (P.tastes _) (P.sigmaAt theta)
      (P.piAt theta) {} x (computeProbabilities (P.marketAt theta (P.locate i).1) {} x (P.muAt theta _))
      (computeConditionals (P.marketAt theta (P.locate i).1) {} x (P.muAt theta _)) ((P.param p).tangent (P.X1 _) (P.X3 _))).1
      (P.locate i).2) _ ?_
  exact continuousAt_xiByTheta (P.marketAt theta (P.locate i).1) (hS.market _) (P.tastes _) (P.sigmaAt theta) (P.piAt theta) _ (hP.fits _) _
    (fun x => inverseOf (observedJacobian P theta (P.locate i).1 x))
    (continuousAt_inv_apply _ (observedJacobian_continuous P theta hS.market _) _ (observedJacobian_exact P bounds theta hS _)) _

include hS in
lemma continuousAt_omegaStacked (p : θ) (hP : Spec.ProperPanel P theta p)
    (hX2 : ∀ t j k, (P.tastes t).X2 j k = (P.prices t).x2 k j ((P.prices t).x0 j))
    (hdinv : ∃ inverse, Spec.InvertsMarkups P theta (Spec.meanUtilities P theta) inverse)
    (hbounds : ∀ t j, P.costsBounds.1 < (P.costsAt theta t (Spec.meanUtilities P theta t) j : EReal) ∧
      (P.costsAt theta t (Spec.meanUtilities P theta t) j : EReal) < P.costsBounds.2 ∧
      (P.logCosts = true → 0 < P.costsAt theta t (Spec.meanUtilities P theta t) j)) (last : (t : M) → J t → ℝ) (i : Fin n) :
    ContinuousAt (fun delta : (t : M) → J t → ℝ =>
      (P.omegaJacobian theta delta (fun t => inverseOf (observedJacobian P theta t (delta t)))
        (fun t => inverseOf (capitalDelta (P.marketAt theta t) (P.pricesAt theta t (delta t)) (P.ownership t))) last).col p i)
      (Spec.meanUtilities P theta) := by
  have hdet := markups_nonsingular P theta _ hdinv (P.locate i).1
  refine continuousAt_market (t := (P.locate i).1) (fun x => omegaJacobian (P.marketAt theta (P.locate i).1) (P.prices _) (P.tastes _)
    (P.sigmaAt theta) (P.piAt theta) (P.betaAt theta) x (P.X1 _) (P.X3 _) (P.ownership _) (P.shares _) P.logCosts P.costsBounds
    (inverseOf (observedJacobian P theta (P.locate i).1 x)) (inverseOf (capitalDelta (P.marketAt theta _) (P.pricesAt theta _ x) (P.ownership _))) (last _)
    (P.param p) (P.locate i).2) _ ?_
  exact continuousAt_omegaJacobian (P.marketAt theta (P.locate i).1) (hS.market _) (P.prices _) (P.tastes _) (hX2 _) (P.sigmaAt theta)
    (P.piAt theta) (P.betaAt theta) (P.ownership _) (P.shares _) (P.X1 _) (P.X3 _) P.logCosts P.costsBounds (last _) (P.param p) (hP.fits _) _
    hdet (fun x => inverseOf (observedJacobian P theta (P.locate i).1 x))
    (fun x => inverseOf (capitalDelta (P.marketAt theta _) (P.pricesAt theta _ x) (P.ownership _)))
    (continuousAt_inv_apply _ (observedJacobian_continuous P theta hS.market _) _ (observedJacobian_exact P bounds theta hS _))
    (continuousAt_inv_apply _ (markups_continuous P theta hS.market hX2 _) _ hdet) _ (hbounds _ _).1 (hbounds _ _).2.1 (hbounds _ _).2.2

variable [IsEmpty q] (hW : ∀ a c, W a c = W c a) (hcross : ∀ a c, W (Sum.inl a) (Sum.inr c) = 0) (location : θ → Option (Fin 2 × Fin 2))
  (hphi : Spec.IsPhi location phi) (hsupply : Mo.hasSupply = false → ∀ p l, location p = some l → l = (0, 0)) (p : θ)
  (hP : Spec.ProperPanel P theta p)
  (hC : ∀ᶠ s in 𝓝 (theta p), ivCovariancesInverse (Mo.regressors (phi (Function.update theta p s))) Mo.Z (ivWeights (ivWeights W)) *
    C (Function.update theta p s) = 1)
  (microAt' : ((t : M) → J t → ℝ) → Matrix d θ ℝ)
  (hmicro' : ∀ c, HasDerivAt (fun s => micro (Function.update theta p s) c) (microAt' (Spec.meanUtilities P theta) c p) (theta p))
  (hcont' : ∀ c, ContinuousAt (fun delta => microAt' delta c p) (Spec.meanUtilities P theta))

include hS hmicro hcont hW hcross hphi hsupply hP hC hmicro' hcont' in
/-- **C121, the gradient without a supply side.** For each accuracy there is a tolerance such that whenever iterations with this or a
smaller tolerance report in all markets that they converged, the matrices that have to be inverted have inverses, and the gradient that is
computed from reported mean utilities is that close to the derivative of the objective at mean utilities that explain shares exactly. -/
theorem C121_demand_gradient (accuracy : ℝ) (hacc : 0 < accuracy) : ∃ tolerance, 0 < tolerance ∧ ∀ atol, atol ≤ tolerance → ∀ delta,
    Spec.Reported P bounds theta atol delta → (∃ inverse, Spec.InvertsObserved P theta delta inverse) ∧
      ∀ inverse, Spec.InvertsObserved P theta delta inverse →
      |Mo.gradient true scale (C theta) W (phi theta) (P.ivDelta theta delta) 0 ((P.xiJacobian theta delta inverse).col p) 0 mean (location p)
          (microAt delta) ((microAt' delta).col p) -
        deriv (fun s => Spec.demandObjective P Mo scale W phi mean micro C (Spec.meanUtilities P) (Function.update theta p s)) (theta p)| ≤
          accuracy := by
  have hex := meanUtilities_explained P bounds theta hS
  have hF := continuousAt_gradient Mo (Spec.meanUtilities P theta) (phi theta) (C theta) (P.ivDelta theta) (fun _ => 0)
    (fun delta => (P.xiJacobian theta delta fun t => inverseOf (observedJacobian P theta t (delta t))).col p) (fun _ => 0)
    (continuousAt_ivDelta P theta _) (fun _ => continuousAt_const) (continuousAt_xiStacked P bounds theta hS p hP)
    (fun _ => continuousAt_const) W mean microAt (fun delta => (microAt' delta).col p) hcont hcont' scale (location p) true
  have hdet := eventually_nonsingular (observedJacobian P theta) (observedJacobian_continuous P theta hS.market) _
    (observedJacobian_exact P bounds theta hS)
  obtain ⟨tol, htol, h⟩ := reported_of_eventually P bounds theta hS _ (hdet.and (eventually_accurate _ _ hF accuracy hacc))
  refine ⟨tol, htol, fun atol hatol delta hr => ?_⟩
  obtain ⟨h1, h2⟩ := h atol hatol delta hr
  refine ⟨⟨fun t => inverseOf (observedJacobian P theta t (delta t)), fun t j l => inverts_of_nonsingular _ (h1 t) j l⟩, fun inverse hinv => ?_⟩
  have he : inverse = fun t => inverseOf (observedJacobian P theta t (delta t)) := funext fun t => funext fun j => funext fun k =>
    congrFun (congrFun (eq_inv_of_left (observedJacobian P theta t (delta t)) _ (hinv t)) j) k
  have hexact : Spec.InvertsShares P theta (Spec.meanUtilities P theta) fun t =>
      inverseOf (observedJacobian P theta t (Spec.meanUtilities P theta t)) := by
    intro t j l
    rw [hex t]
    exact inverts_of_nonsingular _ (observedJacobian_exact P bounds theta hS t) j l
  have hderiv := C118_demand_gradient P Mo scale W hW hcross phi mean micro location C theta hphi hsupply p hP (Spec.meanUtilities P)
    (explained_near P hS.explainable theta p hP) _ hexact (microAt' (Spec.meanUtilities P theta)) hmicro' hC
  rw [hderiv.deriv, he, ← hmicro]
  exact h2

include hS hmicro hcont hW hcross hphi hsupply hP hC hmicro' hcont' in
/-- **C121, the gradient with a supply side.** The same, if at the mean utilities that explain shares marginal costs are well defined and
inside of their bounds. -/
theorem C121_gradient (hX2 : ∀ t j k, (P.tastes t).X2 j k = (P.prices t).x2 k j ((P.prices t).x0 j))
    (hdinv : ∃ inverse, Spec.InvertsMarkups P theta (Spec.meanUtilities P theta) inverse)
    (hbounds : ∀ t j, P.costsBounds.1 < (P.costsAt theta t (Spec.meanUtilities P theta t) j : EReal) ∧
      (P.costsAt theta t (Spec.meanUtilities P theta t) j : EReal) < P.costsBounds.2 ∧
      (P.logCosts = true → 0 < P.costsAt theta t (Spec.meanUtilities P theta t) j)) (last : (t : M) → J t → ℝ)
    (accuracy : ℝ) (hacc : 0 < accuracy) : ∃ tolerance, 0 < tolerance ∧ ∀ atol, atol ≤ tolerance → ∀ delta,
    Spec.Reported P bounds theta atol delta →
      (∃ inverse deltaInverse, Spec.InvertsObserved P theta delta inverse ∧ Spec.InvertsMarkups P theta delta deltaInverse) ∧
      ∀ inverse deltaInverse, Spec.InvertsObserved P theta delta inverse → Spec.InvertsMarkups P theta delta deltaInverse →
      |Mo.gradient true scale (C theta) W (phi theta) (P.ivDelta theta delta) (P.ivCosts theta delta) ((P.xiJacobian theta delta inverse).col p)
          ((P.omegaJacobian theta delta inverse deltaInverse last).col p) mean (location p) (microAt delta) ((microAt' delta).col p) -
        deriv (fun s => Spec.wholeObjective P Mo scale W phi mean micro C (Spec.meanUtilities P) (Function.update theta p s)) (theta p)| ≤
          accuracy := by
  have hex := meanUtilities_explained P bounds theta hS
  have hF := continuousAt_gradient Mo (Spec.meanUtilities P theta) (phi theta) (C theta) (P.ivDelta theta) (P.ivCosts theta)
    (fun delta => (P.xiJacobian theta delta fun t => inverseOf (observedJacobian P theta t (delta t))).col p)
    (fun delta => (P.omegaJacobian theta delta (fun t => inverseOf (observedJacobian P theta t (delta t)))
      (fun t => inverseOf (capitalDelta (P.marketAt theta t) (P.pricesAt theta t (delta t)) (P.ownership t))) last).col p)
    (continuousAt_ivDelta P theta _) (continuousAt_ivCosts P theta hS.market hX2 _ hdinv hbounds)
    (continuousAt_xiStacked P bounds theta hS p hP) (continuousAt_omegaStacked P bounds theta hS p hP hX2 hdinv hbounds last) W mean microAt
    (fun delta => (microAt' delta).col p) hcont hcont' scale (location p) true
  have hdet := eventually_nonsingular (observedJacobian P theta) (observedJacobian_continuous P theta hS.market) _
    (observedJacobian_exact P bounds theta hS)
  have hdet2 := eventually_nonsingular (fun t x => capitalDelta (P.marketAt theta t) (P.pricesAt theta t x) (P.ownership t))
    (markups_continuous P theta hS.market hX2) _ (markups_nonsingular P theta _ hdinv)
  obtain ⟨tol, htol, h⟩ := reported_of_eventually P bounds theta hS _ ((hdet.and hdet2).and (eventually_accurate _ _ hF accuracy hacc))
  refine ⟨tol, htol, fun atol hatol delta hr => ?_⟩
  obtain ⟨⟨h1, h3⟩, h2⟩ := h atol hatol delta hr
  refine ⟨⟨fun t => inverseOf (observedJacobian P theta t (delta t)), fun t =>
    inverseOf (capitalDelta (P.marketAt theta t) (P.pricesAt theta t (delta t)) (P.ownership t)), fun t j l => inverts_of_nonsingular _ (h1 t) j l,
    fun t j l => inverts_of_nonsingular _ (h3 t) j l⟩, fun inverse deltaInverse hinv hdi => ?_⟩
  have he : inverse = fun t => inverseOf (observedJacobian P theta t (delta t)) := funext fun t => funext fun j => funext fun k =>
    congrFun (congrFun (eq_inv_of_left (observedJacobian P theta t (delta t)) _ (hinv t)) j) k
  have he2 : deltaInverse = fun t => inverseOf (capitalDelta (P.marketAt theta t) (P.pricesAt theta t (delta t)) (P.ownership t)) :=
    funext fun t => funext fun j => funext fun k => congrFun (congrFun (eq_inv_of_left _ _ (hdi t)) j) k
  have hexact : Spec.InvertsShares P theta (Spec.meanUtilities P theta) fun t =>
      inverseOf (observedJacobian P theta t (Spec.meanUtilities P theta t)) := by
    intro t j l
    rw [hex t]
    exact inverts_of_nonsingular _ (observedJacobian_exact P bounds theta hS t) j l
  have hderiv := C118_gradient P Mo scale W hW hcross phi mean micro location C theta hphi hsupply p hP (Spec.meanUtilities P)
    (explained_near P hS.explainable theta p hP) hX2 _ _ hexact
    (fun t j l => inverts_of_nonsingular _ (markups_nonsingular P theta _ hdinv t) j l) last hbounds
    (microAt' (Spec.meanUtilities P theta)) hmicro' hC
  rw [hderiv.deriv, he, he2, ← hmicro]
  exact h2

include hS hmicro hcont hW hcross hphi hsupply hP hC hmicro' hcont' in
/-- **C121, minima.** At parameters that minimize the exact objective of a problem without a supply side among those close to them, the
gradient that is computed from reported mean utilities is as small as one likes if the tolerance is small enough. -/
theorem C121_minimum (hmin : IsLocalMin (Spec.demandObjective P Mo scale W phi mean micro C (Spec.meanUtilities P)) theta) (accuracy : ℝ)
    (hacc : 0 < accuracy) : ∃ tolerance, 0 < tolerance ∧ ∀ atol, atol ≤ tolerance → ∀ delta, Spec.Reported P bounds theta atol delta →
      ∀ inverse, Spec.InvertsObserved P theta delta inverse →
      |Mo.gradient true scale (C theta) W (phi theta) (P.ivDelta theta delta) 0 ((P.xiJacobian theta delta inverse).col p) 0 mean (location p)
          (microAt delta) ((microAt' delta).col p)| ≤ accuracy := by
  obtain ⟨tol, htol, h⟩ := C121_demand_gradient P bounds theta hS Mo scale W phi mean micro C microAt hmicro hcont hW hcross location hphi hsupply
    p hP hC microAt' hmicro' hcont' accuracy hacc
  refine ⟨tol, htol, fun atol hatol delta hr inverse hinv => ?_⟩
  have h2 := (h atol hatol delta hr).2 inverse hinv
  have hzero : deriv (fun s => Spec.demandObjective P Mo scale W phi mean micro C (Spec.meanUtilities P) (Function.update theta p s))
      (theta p) = 0 := by
    refine IsLocalMin.deriv_eq_zero ?_
    have hc : Tendsto (fun s => Function.update theta p s) (𝓝 (theta p)) (𝓝 theta) := by
      have : Continuous fun s => Function.update theta p s := continuous_const.update p continuous_id
      have h2 := this.tendsto (theta p)
      rwa [Function.update_eq_self] at h2
    have := hc.eventually hmin
    simpa [IsLocalMin, IsMinFilter, Function.update_eq_self] using this
  rwa [hzero, sub_zero] at h2

end accuracy

/-! ## Non-vacuity -/

lemma wholeWitness_solvable (theta : Fin 3 → ℝ) (h0 : 0 < theta 1) (h1 : theta 1 < 1) : Spec.Solvable wholeWitness ⟨none, none⟩ theta where
  explainable := wholeWitness_explainable
  market := (wholeWitness_proper theta h0 h1 0).market
  epsilon t h := by simp [wholeWitness, openMarket, exampleMarket] at h
  positive := ⟨by simp, by simp⟩
  interior t := ⟨by simp, by simp⟩

/-- Non-vacuity: in the example with two nested markets, mean utilities are reported with a tolerance for which the objective and the
gradient have an error of at most a millionth, for each parameter. -/
example (theta : Fin 3 → ℝ) (h0 : 0 < theta 1) (h1 : theta 1 < 1) (p : Fin 3) : ∃ atol, 0 < atol ∧
    (∃ delta, Spec.Reported wholeWitness ⟨none, none⟩ theta atol delta) ∧ ∀ delta, Spec.Reported wholeWitness ⟨none, none⟩ theta atol delta →
      |wholeMoments.objective true ((1 / 36 : ℝ) • 1) wholeWeights (fun _ _ => 0) (wholeWitness.ivDelta theta delta) 0 0 (fun c => c.elim) -
        Spec.demandObjective wholeWitness wholeMoments true wholeWeights (fun _ _ _ => 0) 0 (fun _ c => c.elim) (fun _ => (1 / 36 : ℝ) • 1)
          (Spec.meanUtilities wholeWitness) theta| ≤ 1 / 1000000 ∧
      ∃ inverse, |wholeMoments.gradient true true ((1 / 36 : ℝ) • 1) wholeWeights (fun _ _ => 0) (wholeWitness.ivDelta theta delta) 0
          ((wholeWitness.xiJacobian theta delta inverse).col p) 0 0 none (fun c => c.elim)
          ((Matrix.of fun c _ => c.elim : Matrix Empty (Fin 3) ℝ).col p) -
        deriv (fun s => Spec.demandObjective wholeWitness wholeMoments true wholeWeights (fun _ _ _ => 0) 0 (fun _ c => c.elim)
          (fun _ => (1 / 36 : ℝ) • 1) (Spec.meanUtilities wholeWitness) (Function.update theta p s)) (theta p)| ≤ 1 / 1000000 := by
  have hS := wholeWitness_solvable theta h0 h1
  have hphi : Spec.IsPhi (fun _ : Fin 3 => none) (fun _ _ _ => (0 : ℝ)) := ⟨fun _ _ h => by simp at h, fun _ _ _ _ => rfl⟩
  obtain ⟨tol1, htol1, hobj⟩ := C121_demand_objective wholeWitness ⟨none, none⟩ theta hS wholeMoments true wholeWeights (fun _ _ _ => 0) 0
    (fun _ c => c.elim) (fun _ => (1 / 36 : ℝ) • 1) (fun _ c => c.elim) rfl (fun c => c.elim) (1 / 1000000) (by norm_num)
  obtain ⟨tol2, htol2, hgrad⟩ := C121_demand_gradient wholeWitness ⟨none, none⟩ theta hS wholeMoments true wholeWeights (fun _ _ _ => 0) 0
    (fun _ c => c.elim) (fun _ => (1 / 36 : ℝ) • 1) (fun _ c => c.elim) rfl (fun c => c.elim) wholeWeights_symmetric (fun a c => c.elim)
    (fun _ => none) hphi (fun _ _ _ h => by simp at h) p (wholeWitness_proper theta h0 h1 p)
    (Eventually.of_forall fun s => by rw [wholeWeights_iv]; exact wholeMoments_inverse _) (fun _ => Matrix.of fun c _ => c.elim)
    (fun c => c.elim) (fun c => c.elim) (1 / 1000000) (by norm_num)
  refine ⟨min tol1 tol2, lt_min htol1 htol2, ?_, fun delta hr => ⟨hobj _ (min_le_left _ _) delta hr, ?_⟩⟩
  · obtain ⟨budget, h⟩ := C121_attained wholeWitness ⟨none, none⟩ theta hS (min tol1 tol2) (lt_min htol1 htol2) fun _ _ => 0
    obtain ⟨delta, hd, -⟩ := h budget le_rfl
    exact ⟨delta, hd⟩
  · obtain ⟨⟨inverse, hinv⟩, h⟩ := hgrad _ (min_le_right _ _) delta hr
    exact ⟨inverse, h inverse hinv⟩

/-- Non-vacuity with a supply side: with one firm in each market and prices with a coefficient that is not zero. -/
example (theta : Fin 3 → ℝ) (h0 : 0 < theta 1) (h1 : theta 1 < 1) (h2 : theta 2 ≠ 0) : ∃ tolerance, 0 < tolerance ∧
    ∀ atol, atol ≤ tolerance → ∀ delta, Spec.Reported wholeWitness ⟨none, none⟩ theta atol delta →
      |wholeMoments.objective true ((1 / 36 : ℝ) • 1) wholeWeights (fun _ _ => 0) (wholeWitness.ivDelta theta delta)
          (wholeWitness.ivCosts theta delta) 0 (fun c => c.elim) -
        Spec.wholeObjective wholeWitness wholeMoments true wholeWeights (fun _ _ _ => 0) 0 (fun _ c => c.elim) (fun _ => (1 / 36 : ℝ) • 1)
          (Spec.meanUtilities wholeWitness) theta| ≤ 1 / 1000000 :=
  C121_objective wholeWitness ⟨none, none⟩ theta (wholeWitness_solvable theta h0 h1) wholeMoments true wholeWeights (fun _ _ _ => 0) 0
    (fun _ c => c.elim) (fun _ => (1 / 36 : ℝ) • 1) (fun _ c => c.elim) rfl (fun c => c.elim) (fun _ _ _ => rfl)
    (wholeWitness_markups theta h0 h1 h2 _)
    (fun t j => ⟨EReal.bot_lt_coe _, EReal.coe_lt_top _, fun h => by simp [wholeWitness] at h⟩) (1 / 1000000) (by norm_num)

end Pyblp
