import Verif.Model.Hessian
import Verif.Props.PanelGradient
import Verif.Props.FiniteDifferences
import Mathlib.Analysis.Calculus.FDeriv.Symmetric
import Mathlib.Analysis.Calculus.FDeriv.Pi
import Mathlib.Analysis.Calculus.FDeriv.Pow
import Mathlib.Analysis.Calculus.Deriv.Prod

set_option linter.unusedSectionVars false

/-!
# The Hessian: C96
-/

namespace Pyblp

open Matrix Filter Topology

variable {N nd ns : ℕ} {m : Fin nd ⊕ Fin ns → Type} {q b g θ d ι D : Type} [∀ e, Fintype (m e)] [Fintype q] [Fintype b] [Fintype g]
  [Fintype θ] [Fintype d] [LinearOrder ι]

namespace Spec

/-- The objective as a function of `theta`, with linear parameters concentrated out given each `theta`. -/
noncomputable def stepObjective (E : Estimation N nd ns m q b g θ d ι D) (W : Estimation.Weights m q d) (s : D) (theta : θ → ℝ) : ℝ :=
  E.objective W (E.markets s theta).1

/-- The gradient that results report as a function of `theta`. -/
noncomputable def stepGradient (E : Estimation N nd ns m q b g θ d ι D) (W : Estimation.Weights m q d) (s : D) (theta : θ → ℝ) : θ → ℝ :=
  E.gradient W (E.markets s theta).1

/-- A central difference with a step of `epsilon`. -/
noncomputable def centralDifference [DecidableEq θ] (f : (θ → ℝ) → ℝ) (x : θ → ℝ) (p : θ) (epsilon : ℝ) : ℝ :=
  (f (Function.update x p (x p + epsilon / 2)) - f (Function.update x p (x p - epsilon / 2))) / epsilon

/-- A gradient as a linear function of changes in parameters. -/
noncomputable def differential : (θ → ℝ) →L[ℝ] (θ → ℝ) →L[ℝ] ℝ :=
  ∑ p, (ContinuousLinearMap.proj (R := ℝ) (φ := fun _ : θ => ℝ) p).smulRight (ContinuousLinearMap.proj (R := ℝ) (φ := fun _ : θ => ℝ) p)

end Spec

theorem differential_apply (x v : θ → ℝ) : Spec.differential x v = ∑ p, x p * v p := by
  simp [Spec.differential]

variable (E : Estimation N nd ns m q b g θ d ι D)

theorem onlyLevels_iff : E.onlyLevels = true ↔ (∀ e, E.data.demand e = .levels) ∧ ∀ e, E.data.supply e = .levels := by
  have h : ∀ t : MomentType, t.isLevels = true ↔ t = .levels := by
    intro t
    cases t <;> simp [MomentType.isLevels]
  simp only [Estimation.onlyLevels, List.all_append, Bool.and_eq_true, List.all_eq_true, List.mem_ofFn, h]
  constructor
  · exact fun ⟨h1, h2⟩ => ⟨fun e => h1 _ ⟨e, rfl⟩, fun e => h2 _ ⟨e, rfl⟩⟩
  · rintro ⟨h1, h2⟩
    exact ⟨by rintro _ ⟨e, rfl⟩; exact h1 e, by rintro _ ⟨e, rfl⟩; exact h2 e⟩

theorem regressors_levels (h : E.onlyLevels = true) (phi : Fin 2 → Fin 2 → ℝ) : E.data.regressors phi = E.data.levelRegressors := by
  obtain ⟨h1, h2⟩ := (onlyLevels_iff E).1 h
  funext e i c
  rcases e with e | e
  · simp [MomentData.regressors, MomentData.equations, h1 e, MomentData.levelRegressors]
  · simp [MomentData.regressors, MomentData.equations, h2 e, MomentData.levelRegressors]

/-- A regression that is initialised before optimization is the one for each `theta`. -/
theorem regression_initial (W : Estimation.Weights m q d) (o : Evaluated N θ d) :
    E.regression (E.initialRegression W) W o = E.covariances W o.phi := by
  unfold Estimation.initialRegression Estimation.covariances
  by_cases h : E.onlyLevels = true
  · rw [if_pos h, regressors_levels E h]
    rfl
  · rw [if_neg h]
    rfl

theorem progressObjective_initial (W : Estimation.Weights m q d) (s : D) (theta : θ → ℝ) :
    E.progressObjective (E.initialRegression W) W s theta = Spec.stepObjective E W s theta := by
  unfold Estimation.progressObjective
  dsimp only
  rw [regression_initial]
  rfl

theorem progressGradient_initial (W : Estimation.Weights m q d) (s : D) (theta : θ → ℝ) :
    E.progressGradient (E.initialRegression W) W s theta = Spec.stepGradient E W s theta := by
  funext p
  unfold Estimation.progressGradient
  dsimp only
  rw [regression_initial]
  rfl

section Positive

variable [DecidableEq θ]

theorem progressGradient_fixed (W : Estimation.Weights m q d) (s : D) (theta theta' : θ → ℝ)
    (h : ((∀ e, E.data.demand e = .levels) ∧ ∀ e, E.data.supply e = .levels) ∨
      (E.markets s theta').1.phi = (E.markets s theta).1.phi) :
    E.progressGradient (some (E.regression (E.initialRegression W) W (E.markets s theta).1)) W s theta' =
      Spec.stepGradient E W s theta' := by
  have : E.covariances W (E.markets s theta).1.phi = E.covariances W (E.markets s theta').1.phi := by
    rcases h with h | h
    · have h := (onlyLevels_iff E).2 h
      unfold Estimation.covariances
      rw [regressors_levels E h, regressors_levels E h]
    · rw [h]
  rw [regression_initial, this]
  rfl

/-- **C96, with moments in levels or autocorrelations that are not estimated.** The Hessian that a step reports is the matrix of central
differences of the reported gradient, averaged with its transpose. Missing: estimated autocorrelations (`C96_refuted`). -/
theorem C96_differences_partial (r : StepResults (Estimation.Weights m q d) (θ → ℝ) D) (epsilon : ℝ)
    (h : ((∀ e, E.data.demand e = .levels) ∧ ∀ e, E.data.supply e = .levels) ∨
      ∀ theta', (E.markets (E.lastDelta r.step r.start) theta').1.phi = (E.markets (E.lastDelta r.step r.start) r.theta).1.phi) (p k : θ) :
    E.hessian r epsilon p k =
      (Spec.centralDifference (fun theta => Spec.stepGradient E r.start.W (E.lastDelta r.step r.start) theta p) r.theta k epsilon +
        Spec.centralDifference (fun theta => Spec.stepGradient E r.start.W (E.lastDelta r.step r.start) theta k) r.theta p epsilon) / 2 := by
  have hg : E.progressGradient (some (E.regression (E.initialRegression r.start.W) r.start.W
      (E.markets (E.lastDelta r.step r.start) r.theta).1)) r.start.W (E.lastDelta r.step r.start) =
      Spec.stepGradient E r.start.W (E.lastDelta r.step r.start) :=
    funext fun theta' => progressGradient_fixed E _ _ _ _ (h.imp_right fun h => h theta')
  unfold Estimation.hessian Estimation.progressHessian differenceHessian
  rw [hg]
  rfl

/-- **C96, with moments in levels or autocorrelations that are not estimated.** If the reported gradient is the derivative of the
objective around the estimate (C94), the reported Hessian goes to the matrix of second derivatives as the step goes to zero.
Missing: estimated autocorrelations (`C96_refuted`). -/
theorem C96_limit_partial (r : StepResults (Estimation.Weights m q d) (θ → ℝ) D)
    (h : ((∀ e, E.data.demand e = .levels) ∧ ∀ e, E.data.supply e = .levels) ∨
      ∀ theta', (E.markets (E.lastDelta r.step r.start) theta').1.phi = (E.markets (E.lastDelta r.step r.start) r.theta).1.phi)
    (hf : ∀ᶠ theta in 𝓝 r.theta, HasFDerivAt (Spec.stepObjective E r.start.W (E.lastDelta r.step r.start))
      (Spec.differential (Spec.stepGradient E r.start.W (E.lastDelta r.step r.start) theta)) theta)
    (H : (θ → ℝ) →L[ℝ] (θ → ℝ) →L[ℝ] ℝ)
    (hH : HasFDerivAt (fun theta => Spec.differential (Spec.stepGradient E r.start.W (E.lastDelta r.step r.start) theta)) H r.theta)
    (p k : θ) : Tendsto (fun epsilon => E.hessian r epsilon p k) (𝓝[≠] 0) (𝓝 (H (Pi.single p 1) (Pi.single k 1))) := by
  set G := Spec.stepGradient E r.start.W (E.lastDelta r.step r.start) with hG
  have hsym : ∀ v w, H v w = H w v := fun v w => second_derivative_symmetric_of_eventually hf hH v w
  have hg : E.progressGradient (some (E.regression (E.initialRegression r.start.W) r.start.W
      (E.markets (E.lastDelta r.step r.start) r.theta).1)) r.start.W (E.lastDelta r.step r.start) = G :=
    funext fun theta' => progressGradient_fixed E _ _ _ _ (h.imp_right fun h => h theta')
  have hbump : ∀ k, HasDerivAt (fun e => bump r.theta k e) (Pi.single k 1) 0 := by
    intro k
    rw [hasDerivAt_pi]
    intro j
    have : (fun e => bump r.theta k e j) = fun e => r.theta j + if j = k then e else 0 := by
      funext e
      rw [bump_eq]
    rw [this]
    by_cases hj : j = k
    · subst hj
      simpa using (hasDerivAt_id (0 : ℝ)).const_add (r.theta j)
    · simpa [hj] using hasDerivAt_const (0 : ℝ) (r.theta j)
  have hd : ∀ p k, HasDerivAt (fun e => G (bump r.theta k e) p) (H (Pi.single k 1) (Pi.single p 1)) 0 := by
    intro p k
    have h0 : bump r.theta k 0 = r.theta := by rw [bump_eq]; simp
    have hH' : HasFDerivAt (fun theta => Spec.differential (G theta)) H (bump r.theta k 0) := by rw [h0]; exact hH
    have h1 := hH'.comp_hasDerivAt (0 : ℝ) (hbump k)
    have h2 := ((ContinuousLinearMap.apply ℝ ℝ (Pi.single p 1 : θ → ℝ)).hasFDerivAt).comp_hasDerivAt (0 : ℝ) h1
    have : (fun e => G (bump r.theta k e) p) =
        (ContinuousLinearMap.apply ℝ ℝ (Pi.single p 1 : θ → ℝ)) ∘ (fun theta => Spec.differential (G theta)) ∘ fun e => bump r.theta k e := by
      funext e
      simp [differential_apply, Pi.single_apply]
    rw [this]
    exact h2
  unfold Estimation.hessian Estimation.progressHessian differenceHessian
  rw [hg]
  have h1 := C62_limit G r.theta p k _ (hd p k)
  have h2 := C62_limit G r.theta k p _ (hd k p)
  have := (h1.add h2).div_const 2
  rw [hsym (Pi.single k 1), add_self_div_two] at this
  exact this

end Positive

/-! ## A case that meets hypotheses -/

/-- One product whose mean utility is the parameter, no linear parameters, and a moment in levels. -/
noncomputable def levelsWitness : Estimation 1 1 0 (fun _ => Fin 1) Empty Empty Empty Unit Empty Unit Unit where
  data := {
    lag := id
    demand := fun _ => .levels
    supply := Fin.elim0
    hasSupply := false
    Z := fun _ => Matrix.of fun _ _ => 1
    ZC := Matrix.of fun _ c => c.elim
    X1 := Matrix.of fun _ c => c.elim
    X3 := Matrix.of fun _ c => c.elim }
  location := fun _ => none
  mean := 0
  scale := false
  analytic := true
  wType := .robust
  seType := .robust
  center := false
  ids := fun _ => ()
  sort := [0]
  markets := fun _ theta => (⟨0, fun _ => theta (), 0, Matrix.of fun _ _ => 1, 0, Empty.elim, Matrix.of fun c _ => c.elim, 0⟩, ())
  resampled := fun _ _ => []
  strategy := fun _ start _ => .inr (start, ⟨true, 0, 0⟩)
  budget := 1
  invertLinear := fun S => S⁻¹
  invertAggregate := fun S => S⁻¹
  invertMoments := fun S => S⁻¹
  invertParameters := fun S => S⁻¹

theorem levelsWitness_objective (theta : Unit → ℝ) : Spec.stepObjective levelsWitness 1 () theta = theta () ^ 2 := by
  unfold Spec.stepObjective Estimation.objective MomentData.objective gmmObjective
  simp only [meanMoments_eq]
  simp only [xi_eq, Matrix.one_mulVec, dotProduct, Fintype.sum_sum_type, Fintype.sum_sigma]
  simp [levelsWitness, Spec.averagedMoments, Spec.momentError, Spec.unobserved, pow_two]

theorem levelsWitness_gradient (theta : Unit → ℝ) (p : Unit) : Spec.stepGradient levelsWitness 1 () theta p = 2 * theta () := by
  unfold Spec.stepGradient Estimation.gradient MomentData.gradient gmmGradient
  simp only [meanMoments_eq]
  simp only [xi_eq, Matrix.one_mulVec, dotProduct, Fintype.sum_sum_type, Fintype.sum_sigma]
  simp [levelsWitness, concat, Spec.averagedMoments, Spec.momentError, Spec.unobserved, MomentData.progressJacobian,
    gmmMomentsJacobianMean, MomentData.phiContribution, MomentData.jacobians, MomentData.converts, MomentData.equations]

example (x : ℝ) : ((∀ e, levelsWitness.data.demand e = .levels) ∧ ∀ e, levelsWitness.data.supply e = .levels) ∧
    (∀ᶠ theta in 𝓝 (fun _ : Unit => x), HasFDerivAt (Spec.stepObjective levelsWitness 1 ())
      (Spec.differential (Spec.stepGradient levelsWitness 1 () theta)) theta) ∧
    ∃ H : (Unit → ℝ) →L[ℝ] (Unit → ℝ) →L[ℝ] ℝ, HasFDerivAt (fun theta => Spec.differential (Spec.stepGradient levelsWitness 1 () theta)) H fun _ : Unit => x := by
  refine ⟨⟨fun _ => rfl, (Fin.elim0 ·)⟩, Filter.Eventually.of_forall fun theta => ?_,
    Spec.differential.comp ((2 : ℝ) • ContinuousLinearMap.id ℝ (Unit → ℝ)), ?_⟩
  · have : Spec.stepObjective levelsWitness 1 () = fun theta => theta () ^ 2 := funext levelsWitness_objective
    rw [this]
    have h := (hasFDerivAt_apply (𝕜 := ℝ) (F' := fun _ : Unit => ℝ) () theta).pow 2
    refine h.congr_fderiv ?_
    ext v
    simp [differential_apply, levelsWitness_gradient]
  · have : Spec.stepGradient levelsWitness 1 () = fun theta => ((2 : ℝ) • ContinuousLinearMap.id ℝ (Unit → ℝ)) theta := by
      funext theta p
      rw [levelsWitness_gradient]
      rfl
    rw [this]
    exact (Spec.differential.comp ((2 : ℝ) • ContinuousLinearMap.id ℝ (Unit → ℝ))).hasFDerivAt

/-! ## Estimated autocorrelations -/

/-- Three products in two periods with one characteristic, moments in innovations of each product, and an estimated autocorrelation. -/
noncomputable def staleWitness : Estimation 6 1 0 (fun _ => Fin 3) Empty Unit Empty Unit Empty Unit Unit where
  data := {
    lag := ![0, 0, 2, 2, 4, 4]
    demand := fun _ => .difference .innovations
    supply := Fin.elim0
    hasSupply := false
    Z := fun _ => Matrix.of fun i j => ![![0, 0, 0], ![1, 0, 0], ![0, 0, 0], ![0, 1, 0], ![0, 0, 0], ![0, 0, 1]] i j
    ZC := Matrix.of fun _ c => c.elim
    X1 := Matrix.of fun i _ => ![0, 1, -1, 0, 0, 0] i
    X3 := Matrix.of fun _ c => c.elim }
  location := fun _ => some (0, 0)
  mean := 0
  scale := false
  analytic := true
  wType := .robust
  seType := .robust
  center := false
  ids := fun _ => ()
  sort := [0, 1, 2, 3, 4, 5]
  markets := fun _ theta => (⟨panelPhi theta, ![0, 1, 0, 0, 1 / 4, 5 / 4], 0, 0, 0, Empty.elim, Matrix.of fun c _ => c.elim, 0⟩, ())
  resampled := fun _ _ => []
  strategy := fun _ start _ => .inr (start, ⟨true, 0, 0⟩)
  budget := 1
  invertLinear := fun S => S⁻¹
  invertAggregate := fun S => S⁻¹
  invertMoments := fun S => S⁻¹
  invertParameters := fun S => S⁻¹

/-- The weighting matrix of the counterexample. -/
def staleWeights : Estimation.Weights (fun _ : Fin 1 ⊕ Fin 0 => Fin 3) Empty Empty := (36 : ℝ) • 1

theorem staleWeights_iv : ivWeights (ivWeights staleWeights) = (36 : ℝ) • 1 := by
  ext a c
  simp [ivWeights, staleWeights, Matrix.one_apply]

theorem stale_covariances (theta : Unit → ℝ) :
    staleWitness.covariances staleWeights (panelPhi theta) = (1 / (36 * (1 + theta () ^ 2))) • (1 : Matrix (Unit ⊕ Empty) (Unit ⊕ Empty) ℝ) := by
  have h1 : (1 + theta () ^ 2 : ℝ) ≠ 0 := by positivity
  unfold Estimation.covariances
  rw [staleWeights_iv]
  refine Matrix.inv_eq_right_inv ?_
  ext a c
  rcases a with a | a
  · rcases c with c | c
    · rw [ivCovariancesInverse_eq]
      simp only [Matrix.mul_smul, Matrix.smul_mul, Matrix.mul_one, Matrix.smul_apply, Matrix.mul_apply, Matrix.transpose_apply, ivP_apply]
      simp [staleWitness, MomentData.regressors, MomentData.equations, MomentData.extendedX1,
        computeDifference, hasLag, panelPhi, Fintype.sum_sigma, Fin.sum_univ_succ]
      field_simp
    · exact c.elim
  · exact a.elim

theorem stale_parameters (x : ℝ) (theta : Unit → ℝ) (k : Unit) :
    staleWitness.data.linearParameters (x • 1) ((36 : ℝ) • 1) (panelPhi theta) ![0, 1, 0, 0, 1 / 4, 5 / 4] 0 (.inl k) = 36 * x := by
  rw [MomentData.linearParameters, ivParameters_eq]
  simp only [mulVec, dotProduct, Matrix.smul_mul, Matrix.one_mul, Matrix.mul_apply, Matrix.transpose_apply, ivP_apply, ivV_apply,
    Matrix.smul_apply]
  simp [staleWitness, MomentData.regressors, MomentData.equations, MomentData.extendedX1,
    computeDifference, hasLag, panelPhi, Fintype.sum_sigma, Fin.sum_univ_succ]
  ring

theorem stale_gradient (x : ℝ) (theta : Unit → ℝ) :
    staleWitness.progressGradient (some (x • 1)) staleWeights () theta () = 2 * ((36 * x) ^ 2 * theta () - (5 - theta ()) / 16) := by
  have hm : (staleWitness.markets () theta).1 =
      ⟨panelPhi theta, ![0, 1, 0, 0, 1 / 4, 5 / 4], 0, 0, 0, Empty.elim, Matrix.of fun c _ => c.elim, 0⟩ := rfl
  unfold Estimation.progressGradient MomentData.gradient gmmGradient
  rw [hm]
  dsimp only [Estimation.regression]
  rw [staleWeights_iv]
  simp only [meanMoments_eq]
  simp only [MomentData.progressJacobian, xi_eq, stale_parameters]
  unfold staleWeights
  simp only [Matrix.smul_mulVec, Matrix.one_mulVec, dotProduct, Fintype.sum_sum_type, Fintype.sum_sigma, concat]
  simp [Fin.sum_univ_succ, Spec.averagedMoments, Spec.momentError, Spec.innovation, Spec.unobserved, staleWitness,
    gmmMomentsJacobianMean, MomentData.phiContribution, computeDifferenceDerivative, MomentData.jacobians, MomentData.converts,
    MomentData.equations, computeDifference, hasLag, panelPhi]
  ring

theorem stale_objective (theta : Unit → ℝ) :
    Spec.stepObjective staleWitness staleWeights () theta = theta () ^ 2 / (1 + theta () ^ 2) + ((5 - theta ()) / 4) ^ 2 := by
  have h1 : (1 + theta () ^ 2 : ℝ) ≠ 0 := by positivity
  have hm : (staleWitness.markets () theta).1 =
      ⟨panelPhi theta, ![0, 1, 0, 0, 1 / 4, 5 / 4], 0, 0, 0, Empty.elim, Matrix.of fun c _ => c.elim, 0⟩ := rfl
  unfold Spec.stepObjective Estimation.objective MomentData.objective gmmObjective
  rw [hm]
  dsimp only
  rw [staleWeights_iv, stale_covariances]
  simp only [meanMoments_eq]
  simp only [xi_eq, stale_parameters]
  unfold staleWeights
  simp only [Matrix.smul_mulVec, Matrix.one_mulVec, dotProduct, Fintype.sum_sum_type, Fintype.sum_sigma]
  simp [Fin.sum_univ_succ, Spec.averagedMoments, Spec.momentError, Spec.innovation, Spec.unobserved, staleWitness, panelPhi]
  field_simp
  ring

/-- **C96, refutation.** There is one estimated autocorrelation, and the objective and the gradient are correct for each of its values.
At a strict local maximum, the reported gradient is zero and the reported Hessian is positive for every step of differences, as it would
be at a minimum. -/
theorem C96_refuted : ∃ (E : Estimation 6 1 0 (fun _ => Fin 3) Empty Unit Empty Unit Empty Unit Unit)
    (s : GmmState (Estimation.Weights (fun _ => Fin 3) Empty Empty) (Unit → ℝ) Unit)
    (r : StepResults (Estimation.Weights (fun _ => Fin 3) Empty Empty) (Unit → ℝ) Unit),
    E.solve .oneStep false s = [r] ∧ Spec.IsPhi E.location (fun theta => (E.markets () theta).1.phi) ∧
    (∀ theta, HasDerivAt (fun x => Spec.stepObjective E r.start.W () fun _ => x)
      (Spec.stepGradient E r.start.W () (fun _ => theta) ()) theta) ∧
    Spec.stepGradient E r.start.W () r.theta () = 0 ∧
    (∀ᶠ x in 𝓝[≠] r.theta (), Spec.stepObjective E r.start.W () (fun _ => x) < Spec.stepObjective E r.start.W () r.theta) ∧
    ∀ epsilon, epsilon ≠ 0 → E.hessian r epsilon () () = 5 / 8 := by
  have hgradient : ∀ theta : Unit → ℝ, Spec.stepGradient staleWitness staleWeights () theta () =
      2 * (theta () / (1 + theta () ^ 2) ^ 2 - (5 - theta ()) / 16) := by
    intro theta
    have h1 : (1 + theta () ^ 2 : ℝ) ≠ 0 := by positivity
    have : Spec.stepGradient staleWitness staleWeights () theta () = staleWitness.progressGradient
        (some (staleWitness.covariances staleWeights (panelPhi theta))) staleWeights () theta () := rfl
    rw [this, stale_covariances, stale_gradient]
    field_simp
  have htheta : (gmmStep staleWitness.oracle (Fintype.card Unit) 1 ⟨staleWeights, fun _ => 1, ()⟩ none).theta = fun _ => 1 := rfl
  have hW : (gmmStep staleWitness.oracle (Fintype.card Unit) 1 ⟨staleWeights, fun _ => 1, ()⟩ none).start.W = staleWeights := rfl
  have hsolve : staleWitness.solve .oneStep false ⟨staleWeights, fun _ => 1, ()⟩ =
      [gmmStep staleWitness.oracle (Fintype.card Unit) 1 ⟨staleWeights, fun _ => 1, ()⟩ none] := by
    unfold Estimation.solve gmmSolve
    rw [gmmLoop]
    simp
  refine ⟨staleWitness, _, _, hsolve, panelPhi_isPhi, ?_, ?_, ?_, ?_⟩ <;> try simp only [hW, htheta]
  · intro x
    have h1 : (1 + x ^ 2 : ℝ) ≠ 0 := by positivity
    simp only [stale_objective, hgradient]
    have h2 : HasDerivAt (fun x : ℝ => x ^ 2) (2 * x) x := by simpa using hasDerivAt_pow 2 x
    have h3 := h2.fun_div (h2.const_add 1) h1
    have h4 := (((hasDerivAt_id' x).const_sub 5).div_const 4).fun_pow 2
    refine (h3.fun_add h4).congr_deriv ?_
    field_simp
    ring
  · rw [hgradient]
    norm_num
  · have h : ∀ᶠ x in 𝓝 (1 : ℝ), x ^ 2 - 8 * x + 1 < 0 := by
      have hc : ContinuousAt (fun x : ℝ => x ^ 2 - 8 * x + 1) 1 := by fun_prop
      exact hc.eventually_lt continuousAt_const (by norm_num)
    filter_upwards [h.filter_mono nhdsWithin_le_nhds, self_mem_nhdsWithin] with x hx hne
    have h1 : (0 : ℝ) < 1 + x ^ 2 := by positivity
    have h2 : 0 < (x - 1) ^ 2 := by
      have : x - 1 ≠ 0 := sub_ne_zero.2 hne
      positivity
    simp only [stale_objective]
    have : x ^ 2 / (1 + x ^ 2) + ((5 - x) / 4) ^ 2 - (1 ^ 2 / (1 + 1 ^ 2) + ((5 - 1) / 4) ^ 2) =
        (x - 1) ^ 2 * (x ^ 2 - 8 * x + 1) / (16 * (1 + x ^ 2)) := by
      field_simp
      ring
    have h3 : (x - 1) ^ 2 * (x ^ 2 - 8 * x + 1) / (16 * (1 + x ^ 2)) < 0 :=
      div_neg_of_neg_of_pos (mul_neg_of_pos_of_neg h2 hx) (by positivity)
    linarith
  · intro epsilon he
    have hiv : staleWitness.regression (staleWitness.initialRegression staleWeights) staleWeights
        (staleWitness.markets () fun _ => 1).1 = (1 / 72 : ℝ) • 1 := by
      rw [regression_initial]
      refine (stale_covariances fun _ => 1).trans ?_
      norm_num
    unfold Estimation.hessian Estimation.progressHessian differenceHessian computeFiniteDifferences
    rw [show ∀ k s', staleWitness.lastDelta k s' = () from fun _ _ => rfl]
    simp only [hW, htheta, hiv, stale_gradient, bump, Function.update_self]
    field_simp
    ring

end Pyblp
