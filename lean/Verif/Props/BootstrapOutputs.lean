import Verif.Props.BootstrapDraws
import Verif.Props.BootstrapSample
import Verif.Props.PostEstimation

/-!
# C138: percentiles of bootstrapped outputs

Outputs of bootstrapped results are functions of drawn parameters and of estimates, because estimated unobserved characteristics are kept. This is how often intervals
between percentiles of such outputs have the truth.
-/

set_option linter.unusedSectionVars false

open MeasureTheory ProbabilityTheory Filter Topology Matrix

namespace Pyblp

open Pyblp.Sampling Pyblp.Asymptotic Pyblp.Bootstrapping

section

variable {C Ω : Type} {nd ns : ℕ} {m : Fin nd ⊕ Fin ns → Type} {q b g θ d ι D : Type} [∀ e, Fintype (m e)] [Fintype q] [Fintype b] [Fintype g]
  [Fintype θ] [Fintype d] [LinearOrder ι] [∀ e, DecidableEq (m e)] [DecidableEq q] [DecidableEq b] [DecidableEq g] [DecidableEq θ] [DecidableEq d]
  [MeasurableSpace C] [MeasurableSpace Ω] [IsEmpty q] [IsEmpty d] {μ : Measure Ω} {law : Measure C} {M : Spec.Models C m (b ⊕ g) θ}
  {slope : (θ → ℝ) → C → Fin nd ⊕ Fin ns → ℕ → θ → ℝ} {Θ : Set (θ → ℝ)} {theta0 : θ → ℝ} {beta0 : b ⊕ g → ℝ}
  {w : ℕ → Ω → C} {N : ℕ × Ω → ℕ} {E : ∀ i, Estimation (N i) nd ns m q b g θ d ι D} {o : ∀ i, (θ → ℝ) → Evaluated (N i) θ d} {method : GmmMethod}
  {wType seType : CovarianceType} {W0 : Matrix (MomentIndex m) (MomentIndex m) ℝ} {s : ℕ × Ω → GmmState (Estimation.Weights m q d) (θ → ℝ) D}
  {r : ℕ × Ω → StepResults (Estimation.Weights m q d) (θ → ℝ) D}

/-! ## Theorems -/

/-- **C138, in general.** An output `f` of a bootstrapped draw is a function of the draw and of estimates. The output of results is the one for which the draw is the estimate,
and the true output is the one for which both are the truth. The probability with which the true output is between percentiles of bootstrapped ones converges to
the probability that a standard normal variable is between normal percentiles that are scaled by the ratio of standard deviations of bootstrapped outputs and of outputs.
Only if this ratio is one is this the difference between percentages. -/
theorem C138_coverage_partial [IsProbabilityMeasure μ] (h : Spec.NonlinearErrors μ law M slope Θ theta0 beta0 w E o method wType seType W0 s r)
    (hvalid : Spec.Valid (M.at theta0 beta0) law method (Spec.lastWeights (M.at theta0 beta0) law method false wType W0) seType)
    (hV : (Spec.variance (M.jacobian law slope theta0 beta0) (Spec.lastWeights (M.at theta0 beta0) law method false wType W0)
      ((M.at theta0 beta0).covariances law .clustered)).PosDef)
    {root : Matrix (θ ⊕ b ⊕ g) (θ ⊕ b ⊕ g) ℝ → Matrix (θ ⊕ b ⊕ g) (θ ⊕ b ⊕ g) ℝ} (hroot : Spec.ComputesRoots root) {bounds : θ ⊕ b ⊕ g → EReal × EReal}
    (hb : ∀ p, (bounds p).1 < (Sum.elim theta0 beta0 p : ℝ) ∧ ((Sum.elim theta0 beta0 p : ℝ) : EReal) < (bounds p).2)
    {f : (θ ⊕ b ⊕ g → ℝ) × (θ ⊕ b ⊕ g → ℝ) → ℝ} {f' : (θ ⊕ b ⊕ g → ℝ) × (θ ⊕ b ⊕ g → ℝ) →L[ℝ] ℝ}
    (hf : HasStrictFDerivAt f f' (Sum.elim theta0 beta0, Sum.elim theta0 beta0)) {v u : ℝ}
    (hv : v = Spec.functionVariance (Spec.variance (M.jacobian law slope theta0 beta0) (Spec.lastWeights (M.at theta0 beta0) law method false wType W0)
      ((M.at theta0 beta0).covariances law .clustered)) fun x => f' (x, 0))
    (hu : u = Spec.functionVariance (Spec.variance (M.jacobian law slope theta0 beta0) (Spec.lastWeights (M.at theta0 beta0) law method false wType W0)
      ((M.at theta0 beta0).covariances law .clustered)) fun x => f' (x, x)) (hv0 : 0 < v) (hu0 : 0 < u) {lo hi qlo qhi : ℝ}
    (hlo : (gaussianReal 0 1).real (Set.Iic qlo) = lo) (hhi : (gaussianReal 0 1).real (Set.Iic qhi) = hi) (hq : qlo < qhi) :
    Tendsto (fun T => μ.real {ω | (Spec.normals (θ ⊕ b ⊕ g)).real
      {z | f ((E (T, ω)).bootstrapped (r (T, ω)) root bounds z, Spec.estimates (E (T, ω)) (r (T, ω))) ≤ f (Sum.elim theta0 beta0, Sum.elim theta0 beta0)} ∈
        Set.Icc lo hi}) atTop (𝓝 ((gaussianReal 0 1).real (Set.Ioc (√v / √u * qlo) (√v / √u * qhi)))) := by
  have h1 := coverage_limit h hvalid hV hroot hb hf hv hu hv0 hu0 hq
  rw [phi_sub (mul_le_mul_of_nonneg_left hq.le (by positivity))] at h1
  have e1 : phi qlo = lo := hlo
  have e2 : phi qhi = hi := hhi
  rw [e1, e2] at h1
  exact h1

/-- **C138, when intervals are right.** If the output depends on estimates only through the draw, at least for small changes, then intervals have the right coverage. -/
theorem C138_intervals_partial [IsProbabilityMeasure μ] (h : Spec.NonlinearErrors μ law M slope Θ theta0 beta0 w E o method wType seType W0 s r)
    (hvalid : Spec.Valid (M.at theta0 beta0) law method (Spec.lastWeights (M.at theta0 beta0) law method false wType W0) seType)
    (hV : (Spec.variance (M.jacobian law slope theta0 beta0) (Spec.lastWeights (M.at theta0 beta0) law method false wType W0)
      ((M.at theta0 beta0).covariances law .clustered)).PosDef)
    {root : Matrix (θ ⊕ b ⊕ g) (θ ⊕ b ⊕ g) ℝ → Matrix (θ ⊕ b ⊕ g) (θ ⊕ b ⊕ g) ℝ} (hroot : Spec.ComputesRoots root) {bounds : θ ⊕ b ⊕ g → EReal × EReal}
    (hb : ∀ p, (bounds p).1 < (Sum.elim theta0 beta0 p : ℝ) ∧ ((Sum.elim theta0 beta0 p : ℝ) : EReal) < (bounds p).2)
    {f : (θ ⊕ b ⊕ g → ℝ) × (θ ⊕ b ⊕ g → ℝ) → ℝ} {f' : (θ ⊕ b ⊕ g → ℝ) × (θ ⊕ b ⊕ g → ℝ) →L[ℝ] ℝ}
    (hf : HasStrictFDerivAt f f' (Sum.elim theta0 beta0, Sum.elim theta0 beta0)) (hf0 : f' ≠ 0) (hf2 : ∀ x, f' (0, x) = 0) {lo hi : ℝ} (hlo : 0 < lo)
    (hlh : lo < hi) (hhi : hi < 1) :
    Tendsto (fun T => μ.real {ω | (Spec.normals (θ ⊕ b ⊕ g)).real
      {z | f ((E (T, ω)).bootstrapped (r (T, ω)) root bounds z, Spec.estimates (E (T, ω)) (r (T, ω))) ≤ f (Sum.elim theta0 beta0, Sum.elim theta0 beta0)} ∈
        Set.Icc lo hi}) atTop (𝓝 (hi - lo)) := by
  have hsplit : ∀ x y, f' (x, y) = f' (x, 0) := fun x y => by
    rw [show (x, y) = (x, 0) + ((0 : θ ⊕ b ⊕ g → ℝ), y) by simp, map_add, hf2, add_zero]
  have hpos : 0 < Spec.functionVariance (limitV law M slope theta0 beta0 method wType W0) fun x => f' (x, 0) :=
    functionVariance_pos (f' := f'.comp (ContinuousLinearMap.inl ℝ _ _)) hV fun h0 => hf0 (ContinuousLinearMap.ext fun p => by
      rw [show p = (p.1, p.2) from rfl, hsplit]
      exact congrArg (fun k : (θ ⊕ b ⊕ g → ℝ) →L[ℝ] ℝ => k p.1) h0)
  have heq : Spec.functionVariance (limitV law M slope theta0 beta0 method wType W0) (fun x => f' (x, x)) =
      Spec.functionVariance (limitV law M slope theta0 beta0 method wType W0) fun x => f' (x, 0) := by
    congr 1
    exact funext fun x => hsplit x x
  obtain ⟨qlo, rfl⟩ := exists_phi hlo (hlh.trans hhi)
  obtain ⟨qhi, rfl⟩ := exists_phi (hlo.trans hlh) hhi
  have h1 := coverage_limit h hvalid hV hroot hb hf rfl heq.symm hpos hpos (strictMono_phi.lt_iff_lt.mp hlh)
  rw [div_self (Real.sqrt_pos.mpr hpos).ne', one_mul, one_mul] at h1
  exact h1

end

/-! ## Elasticities -/

/-- Logarithms of odds of the product of a market with signs `x`. -/
noncomputable def signOdds (theta0 beta0 : ℝ) (x : Bool × Bool) : ℝ := beta0 + sign x.2 + Real.exp theta0 * sign x.1

/-- A market in the population with random signs, for estimates `est` and a draw `draw`. The price is one. The lognormal coefficient on a characteristic that is a sign is
`exp (theta)`, and the coefficient on prices is the linear parameter. Mean utilities are those of `signEvaluated`. -/
noncomputable def signEconomy (theta0 beta0 : ℝ) (x : Bool × Bool) (draw est : Unit ⊕ Unit ⊕ Empty → ℝ) : BootstrapEconomy Unit 1 1 Unit Unit Unit 0 where
  ids _ := ()
  agents _ := 1
  market _ _ := ⟨none, 1, fun _ => 1, none⟩
  ownership _ _ _ := 1
  coef _ _ _ _ _ := Real.exp (draw (Sum.inl ()))
  prices _ := 1
  shares _ := Real.exp (signOdds theta0 beta0 x) / (1 + Real.exp (signOdds theta0 beta0 x))
  delta _ := beta0 + sign x.2 + (Real.exp theta0 - Real.exp (est (Sum.inl ()))) * sign x.1
  tildeCosts _ := 0
  beta _ := est (Sum.inr (Sum.inl ()))
  drawnBeta _ _ := draw (Sum.inr (Sum.inl ()))
  has1 _ := true
  x1 _ _ p := p
  d1 _ _ _ := 1
  dd1 _ _ _ := 0
  has2 _ := false
  x2 _ _ _ := sign x.1
  d2 _ _ _ := 0
  dd2 _ _ _ := 0
  logCosts := false
  gamma _ := 0
  drawnGamma _ _ := 0
  has3 _ := false
  x3 _ _ _ := 0
  d3 _ _ _ := 0

/-- Bootstrapped elasticities, pyblp/results/bootstrapped_results.py:203-222 and pyblp/markets/economy_results_market.py:99-116. -/
noncomputable def bootstrappedElasticity {ι : Type} [LinearOrder ι] {N D : ℕ} {G K1 K2 : Type} {K3 : ℕ} [Fintype G] [DecidableEq G] [Fintype K1] [Fintype K2]
    (e : BootstrapEconomy ι N D G K1 K2 K3) (results : Fin D → Fin N → DrawRow) (c : Fin D) (t : ι) [Nonempty (MarketRows e.ids t)] (j k : MarketRows e.ids t) : ℝ :=
  elasticities (jacobianAt (e.market c t) (resultsCharacteristic e results c t) fun j => (results c j).price) (fun j => (results c j).price)
    (fun j => (results c j).share) j k

/-- The utility at a draw. -/
noncomputable def signUtility (theta0 beta0 : ℝ) (x : Bool × Bool) (p : (Unit ⊕ Unit ⊕ Empty → ℝ) × (Unit ⊕ Unit ⊕ Empty → ℝ)) : ℝ :=
  signOdds theta0 beta0 x + (p.1 (Sum.inr (Sum.inl ())) - p.2 (Sum.inr (Sum.inl ()))) +
    (Real.exp (p.1 (Sum.inl ())) - Real.exp (p.2 (Sum.inl ()))) * sign x.1

/-- The elasticity at a draw. -/
noncomputable def signElasticity (theta0 beta0 : ℝ) (x : Bool × Bool) (p : (Unit ⊕ Unit ⊕ Empty → ℝ) × (Unit ⊕ Unit ⊕ Empty → ℝ)) : ℝ :=
  p.1 (Sum.inr (Sum.inl ())) * (1 + Real.exp (signUtility theta0 beta0 x p))⁻¹

lemma signEconomy_valid (theta0 beta0 : ℝ) (x : Bool × Bool) (draw est : Unit ⊕ Unit ⊕ Empty → ℝ) :
    Spec.DrawFormulasValid (signEconomy theta0 beta0 x draw est) where
  x1 _ h := by cases h
  x2 _ _ _ _ _ := rfl
  x3 k := k.elim0

instance (theta0 beta0 : ℝ) (x : Bool × Bool) (draw est : Unit ⊕ Unit ⊕ Empty → ℝ) : Nonempty (MarketRows (signEconomy theta0 beta0 x draw est).ids ()) :=
  ⟨⟨0, rfl⟩⟩

instance (theta0 beta0 : ℝ) (x : Bool × Bool) (draw est : Unit ⊕ Unit ⊕ Empty → ℝ) : Unique (MarketRows (signEconomy theta0 beta0 x draw est).ids ()) where
  default := ⟨0, rfl⟩
  uniq _ := Subtype.ext (Subsingleton.elim _ _)

lemma single_probability {J G : Type} [Fintype J] [DecidableEq J] [Unique J] [Fintype G] [DecidableEq G] (delta : J → ℝ) (mu : J → Fin 1 → ℝ) (j : J) (a : Fin 1) :
    computeProbabilities (⟨none, 1, fun _ => 1, none⟩ : Market J (Fin 1) G) {} delta mu j a =
      Real.exp (delta j + mu j a) / (1 + Real.exp (delta j + mu j a)) := by
  rw [computeProbabilities_plain _ _ _ _ rfl, multiplier_one _ _ rfl rfl rfl (fun _ => rfl)]
  simp [Spec.logit, Subsingleton.elim j default]

/-- Elasticities of a single product with one agent. -/
lemma single_elasticity {J G : Type} [Fintype J] [DecidableEq J] [Unique J] [Fintype G] [DecidableEq G] (c : Characteristic J (Fin 1) Unit Unit)
    (h1 : c.has1 = fun _ => true) (hd : c.d1 = fun _ _ _ => 1) (h2 : c.has2 = fun _ => false) {u : ℝ} (j : J)
    (hu : updateDelta c (fun _ => 1) j + updateMu c (fun _ => 1) j 0 = u) {s : J → ℝ} (hs : s j = Real.exp u / (1 + Real.exp u)) :
    elasticities (jacobianAt (⟨none, 1, fun _ => 1, none⟩ : Market J (Fin 1) G) c fun _ => 1) (fun _ => 1) s j j = c.beta () * (1 + Real.exp u)⁻¹ := by
  unfold elasticities jacobianAt sharesJacobian capitalLamda capitalGamma probabilitiesAt utilityDerivatives
  simp only [h1, h2, hd, if_true, Finset.univ_unique, Finset.sum_singleton, single_probability, hs]
  have h0 : (default : Fin 1) = 0 := rfl
  rw [h0, hu]
  have := Real.exp_pos u
  simp
  field_simp
  ring

/-- **What elasticities of draws are.** -/
lemma signEconomy_elasticity {theta0 beta0 : ℝ} {x : Bool × Bool} {draw est : Unit ⊕ Unit ⊕ Empty → ℝ} {pool : Option ℕ} {constantCosts : Bool}
    {solve : DrawSolver (signEconomy theta0 beta0 x draw est)} {results : Fin 1 → Fin 1 → DrawRow}
    (h : BootstrapRealizations pool (signEconomy theta0 beta0 x draw est) constantCosts solve results) :
    bootstrappedElasticity (signEconomy theta0 beta0 x draw est) results 0 () ⟨0, rfl⟩ ⟨0, rfl⟩ = signElasticity theta0 beta0 x (draw, est) := by
  have hv := signEconomy_valid theta0 beta0 x draw est
  have hp : (fun j : MarketRows (signEconomy theta0 beta0 x draw est).ids () => (results 0 j).price) = fun _ => 1 :=
    funext fun j => C106_prices h rfl 0 j
  have hu : updateDelta (drawCharacteristic (signEconomy theta0 beta0 x draw est) 0 ()) (fun _ => 1) ⟨0, rfl⟩ +
      updateMu (drawCharacteristic (signEconomy theta0 beta0 x draw est) 0 ()) (fun _ => 1) ⟨0, rfl⟩ (0 : Fin 1) = signUtility theta0 beta0 x (draw, est) := by
    rw [updateDelta_draw hv, updateMu_draw hv]
    simp [signEconomy, Spec.drawUtility, Spec.unexplainedUtility, Spec.drawDeviation, signUtility, signOdds]
    ring
  have hs : (results 0 0).share = Real.exp (signUtility theta0 beta0 x (draw, est)) / (1 + Real.exp (signUtility theta0 beta0 x (draw, est))) := by
    have h1 := congrFun (draw_share h 0 ()) ⟨0, rfl⟩
    rw [hp] at h1
    refine h1.trans ?_
    rw [← hu]
    refine (Fin.sum_univ_one _).trans ?_
    refine (mul_one _).trans ?_
    exact single_probability _ _ _ _
  unfold bootstrappedElasticity
  rw [hp]
  refine single_elasticity (G := Unit) _ rfl rfl rfl _ ?_ hs
  refine Eq.trans ?_ hu
  exact congrArg₂ (· + ·) (((C106_results hv h 0 ()).2.1 _ _).trans (updateDelta_draw hv 0 () (fun _ => 1) ⟨0, rfl⟩).symm)
    (congrFun (congrFun (((C106_results hv h 0 ()).2.2.1 _).trans (updateMu_draw hv 0 () fun _ => 1).symm) _) _)

/-! ### Derivatives -/

/-- A parameter of a draw. -/
noncomputable def drawPart (p : Unit ⊕ Unit ⊕ Empty) : (Unit ⊕ Unit ⊕ Empty → ℝ) × (Unit ⊕ Unit ⊕ Empty → ℝ) →L[ℝ] ℝ :=
  (ContinuousLinearMap.proj (R := ℝ) (φ := fun _ : Unit ⊕ Unit ⊕ Empty => ℝ) p).comp (ContinuousLinearMap.fst ℝ _ _)

/-- An estimate. -/
noncomputable def estimatePart (p : Unit ⊕ Unit ⊕ Empty) : (Unit ⊕ Unit ⊕ Empty → ℝ) × (Unit ⊕ Unit ⊕ Empty → ℝ) →L[ℝ] ℝ :=
  (ContinuousLinearMap.proj (R := ℝ) (φ := fun _ : Unit ⊕ Unit ⊕ Empty => ℝ) p).comp (ContinuousLinearMap.snd ℝ _ _)

/-- Derivatives of elasticities. -/
noncomputable def signDerivative (theta0 beta0 : ℝ) (x : Bool × Bool) : (Unit ⊕ Unit ⊕ Empty → ℝ) × (Unit ⊕ Unit ⊕ Empty → ℝ) →L[ℝ] ℝ :=
  (1 + Real.exp (signOdds theta0 beta0 x))⁻¹ • drawPart (Sum.inr (Sum.inl ())) -
    (beta0 * (Real.exp (signOdds theta0 beta0 x) / (1 + Real.exp (signOdds theta0 beta0 x)) ^ 2)) •
      ((drawPart (Sum.inr (Sum.inl ())) - estimatePart (Sum.inr (Sum.inl ()))) +
        (Real.exp theta0 * sign x.1) • (drawPart (Sum.inl ()) - estimatePart (Sum.inl ())))

lemma signDerivative_apply (theta0 beta0 : ℝ) (x : Bool × Bool) (y z : Unit ⊕ Unit ⊕ Empty → ℝ) :
    signDerivative theta0 beta0 x (y, z) = (1 + Real.exp (signOdds theta0 beta0 x))⁻¹ * y (Sum.inr (Sum.inl ())) -
      beta0 * (Real.exp (signOdds theta0 beta0 x) / (1 + Real.exp (signOdds theta0 beta0 x)) ^ 2) * ((y (Sum.inr (Sum.inl ())) - z (Sum.inr (Sum.inl ()))) +
        Real.exp theta0 * sign x.1 * (y (Sum.inl ()) - z (Sum.inl ()))) := rfl

lemma signElasticity_derivative (theta0 beta0 : ℝ) (x : Bool × Bool) :
    HasStrictFDerivAt (signElasticity theta0 beta0 x) (signDerivative theta0 beta0 x)
      (Sum.elim (fun _ => theta0) fun _ => beta0, Sum.elim (fun _ => theta0) fun _ => beta0) := by
  set P0 : (Unit ⊕ Unit ⊕ Empty → ℝ) × (Unit ⊕ Unit ⊕ Empty → ℝ) := (Sum.elim (fun _ => theta0) fun _ => beta0, Sum.elim (fun _ => theta0) fun _ => beta0)
  have hd : ∀ p, HasStrictFDerivAt (fun y : (Unit ⊕ Unit ⊕ Empty → ℝ) × (Unit ⊕ Unit ⊕ Empty → ℝ) => y.1 p) (drawPart p) P0 :=
    fun p => (drawPart p).hasStrictFDerivAt
  have he : ∀ p, HasStrictFDerivAt (fun y : (Unit ⊕ Unit ⊕ Empty → ℝ) × (Unit ⊕ Unit ⊕ Empty → ℝ) => y.2 p) (estimatePart p) P0 :=
    fun p => (estimatePart p).hasStrictFDerivAt
  have hu : HasStrictFDerivAt (signUtility theta0 beta0 x) _ P0 :=
    (((hd (Sum.inr (Sum.inl ()))).sub (he (Sum.inr (Sum.inl ())))).const_add (signOdds theta0 beta0 x)).add
      (((hd (Sum.inl ())).exp.sub (he (Sum.inl ())).exp).mul_const (sign x.1))
  have hu0 : signUtility theta0 beta0 x P0 = signOdds theta0 beta0 x := by simp [signUtility, P0]
  have hinv : HasStrictDerivAt (fun y : ℝ => (1 + Real.exp y)⁻¹) (-Real.exp (signUtility theta0 beta0 x P0) / (1 + Real.exp (signUtility theta0 beta0 x P0)) ^ 2)
      (signUtility theta0 beta0 x P0) := by
    have h := HasStrictDerivAt.comp (signUtility theta0 beta0 x P0) (hasStrictDerivAt_inv (by positivity : 1 + Real.exp (signUtility theta0 beta0 x P0) ≠ 0))
      ((Real.hasStrictDerivAt_exp (signUtility theta0 beta0 x P0)).const_add 1)
    refine h.congr_deriv ?_
    field_simp
  have h1 := (hd (Sum.inr (Sum.inl ()))).mul
    (HasStrictDerivAt.comp_hasStrictFDerivAt (h₂ := fun y : ℝ => (1 + Real.exp y)⁻¹) (f := signUtility theta0 beta0 x) _ hinv hu)
  refine h1.congr_fderiv (ContinuousLinearMap.ext fun y => ?_)
  rw [show y = (y.1, y.2) from rfl, signDerivative_apply]
  simp only [_root_.add_apply, _root_.smul_apply, _root_.sub_apply, smul_eq_mul, drawPart, estimatePart, ContinuousLinearMap.comp_apply, ContinuousLinearMap.proj_apply,
    ContinuousLinearMap.coe_fst', ContinuousLinearMap.coe_snd', Function.comp_apply, hu0]
  simp only [P0, Sum.elim_inl, Sum.elim_inr]
  ring

/-! ### Variances -/

lemma sign_sq (y : Bool) : sign y * sign y = 1 := by cases y <;> simp [sign]

lemma sign_limitV (theta0 beta0 : ℝ) (type : CovarianceType) :
    limitV signs (signModel Unit theta0 beta0) signSlope (fun _ => theta0) (fun _ => beta0) .twoStep type 1 =
      Matrix.diagonal (Sum.elim (fun _ => (Real.exp theta0 ^ 2)⁻¹) fun _ => 1) := by
  have hb : ∑ _l : Unit, beta0 = beta0 := by simp
  set J := (signModel Unit theta0 beta0).jacobian signs signSlope (fun _ => theta0) fun _ => beta0 with hJ
  unfold limitV
  rw [signWeights _ hb, signModel_covariances _ hb]
  unfold Spec.variance Spec.gain
  have hp : (Jᵀ * J).PosDef := by
    have h1 := (Matrix.PosDef.one (n := MomentIndex fun _ : Fin 1 ⊕ Fin 0 => Bool) (R := ℝ)).conjTranspose_mul_mul_same (signModel_rank (b := Unit) theta0 beta0 beta0)
    rwa [Matrix.mul_one, Matrix.conjTranspose_eq_transpose_of_trivial] at h1
  simp only [Matrix.mul_one]
  rw [Matrix.transpose_mul, Matrix.transpose_transpose, Matrix.transpose_nonsing_inv, Matrix.transpose_mul, Matrix.transpose_transpose, Matrix.mul_assoc,
    ← Matrix.mul_assoc Jᵀ, Matrix.mul_nonsing_inv _ (isUnit_iff_ne_zero.mpr hp.det_pos.ne'), Matrix.mul_one]
  refine Matrix.inv_eq_right_inv ?_
  have hJJ : Jᵀ * J = Matrix.diagonal (Sum.elim (fun _ => Real.exp theta0 ^ 2) fun _ => 1) := by
    ext p p'
    rw [Matrix.mul_apply]
    have hrow : ∀ e a, J ⟨e, a⟩ = Sum.elim (fun _ => if a then -Real.exp theta0 else 0) fun _ => if a then 0 else -1 := signModel_jacobian theta0 beta0 beta0
    have hsum : ∑ i, Jᵀ p i * J i p' = J ⟨Sum.inl 0, true⟩ p * J ⟨Sum.inl 0, true⟩ p' + J ⟨Sum.inl 0, false⟩ p * J ⟨Sum.inl 0, false⟩ p' := by
      rw [Fintype.sum_sigma, Fintype.sum_sum_type, Fin.sum_univ_one, Fin.sum_univ_zero, add_zero, Fintype.sum_bool]
      rfl
    rw [hsum, hrow, hrow]
    rcases p with p | p | p
    · rcases p' with p' | p' | p'
      · simp [sq]
      · simp
      · exact p'.elim
    · rcases p' with p' | p' | p'
      · simp
      · simp
      · exact p'.elim
    · exact p.elim
  rw [hJJ, Matrix.diagonal_mul_diagonal]
  refine (congrArg Matrix.diagonal (funext fun p => ?_)).trans Matrix.diagonal_one
  rcases p with p | p
  · simp
  · simp

lemma diagonal_variance {P : Type} [Fintype P] [DecidableEq P] (v : P → ℝ) (f : (P → ℝ) → ℝ) :
    Spec.functionVariance (Matrix.diagonal v) f = ∑ p, f (Pi.single p 1) ^ 2 * v p := by
  unfold Spec.functionVariance
  refine Finset.sum_congr rfl fun p _ => ?_
  rw [Finset.sum_eq_single p]
  · rw [Matrix.diagonal_apply_eq]
    ring
  · intro p' _ hp
    rw [Matrix.diagonal_apply_ne _ hp.symm]
    ring
  · simp

lemma sign_variances (theta0 beta0 : ℝ) (x : Bool × Bool) (type : CovarianceType) :
    Spec.functionVariance (limitV signs (signModel Unit theta0 beta0) signSlope (fun _ => theta0) (fun _ => beta0) .twoStep type 1)
      (fun y => signDerivative theta0 beta0 x (y, 0)) = ((1 + Real.exp (signOdds theta0 beta0 x))⁻¹) ^ 2 *
        ((beta0 * (Real.exp (signOdds theta0 beta0 x) / (1 + Real.exp (signOdds theta0 beta0 x)))) ^ 2 +
          (1 - beta0 * (Real.exp (signOdds theta0 beta0 x) / (1 + Real.exp (signOdds theta0 beta0 x)))) ^ 2) ∧
    Spec.functionVariance (limitV signs (signModel Unit theta0 beta0) signSlope (fun _ => theta0) (fun _ => beta0) .twoStep type 1)
      (fun y => signDerivative theta0 beta0 x (y, y)) = ((1 + Real.exp (signOdds theta0 beta0 x))⁻¹) ^ 2 := by
  rw [sign_limitV, diagonal_variance, diagonal_variance]
  simp only [Fintype.sum_sum_type, Finset.univ_unique, Finset.sum_singleton, Finset.univ_eq_empty, Finset.sum_empty, signDerivative_apply, Sum.elim_inl, Sum.elim_inr]
  have hθ := Real.exp_pos theta0
  have hs := sign_sq x.1
  have hE := Real.exp_pos (signOdds theta0 beta0 x)
  generalize Real.exp (signOdds theta0 beta0 x) = E at hE ⊢
  generalize Real.exp theta0 = t at hθ ⊢
  generalize sign x.1 = g at hs ⊢
  constructor
  · simp
    field_simp
    have : g ^ 2 = 1 := by rw [sq]; exact hs
    rw [this]
    ring
  · simp

lemma phi_zero : phi 0 = 1 / 2 := by
  have hnull := nullSingletonClass_gaussianReal (μ := 0) (v := 1) one_ne_zero
  have h1 : (gaussianReal 0 1).real (Set.Ici 0) = phi 0 := by
    have h2 : (gaussianReal 0 1).map (fun x => -x) = gaussianReal 0 1 := by rw [gaussianReal_map_neg, neg_zero]
    have h3 : (gaussianReal 0 1).real (Set.Ici 0) = ((gaussianReal 0 1).map fun x => -x).real (Set.Ici 0) := by rw [h2]
    rw [h3, map_measureReal_apply measurable_neg measurableSet_Ici]
    unfold phi
    congr 1
    ext y
    simp
  have h4 : (gaussianReal 0 1).real (Set.Iic 0) + (gaussianReal 0 1).real (Set.Ioi 0) = 1 := by
    rw [← Set.compl_Iic, probReal_compl_eq_one_sub measurableSet_Iic]
    ring
  have h5 : (gaussianReal 0 1).real (Set.Ioi 0) = (gaussianReal 0 1).real (Set.Ici 0) := measureReal_congr Ioi_ae_eq_Ici
  rw [h5, h1] at h4
  have h6 : phi 0 + phi 0 = 1 := h4
  linarith

/-- **C138 fails for elasticities.** In the population with random signs, the price of each product is one and the coefficient on it is `beta0`. All conditions for large samples
are met, and the true elasticity in a market with signs `x` is `beta0` times one minus the share. If `beta0` is negative, then intervals between percentiles of bootstrapped
elasticities are too wide, even in the limit, and if `beta0` is between zero and one, then they are too narrow: the true elasticity is in them with a probability that converges to a
number that is different from the nominal one. Draws change both the coefficient and the share, but the estimated elasticity has the observed share. -/
theorem C138_elasticities_refuted (theta0 : ℝ) {beta0 : ℝ} (type : CovarianceType) (x : Bool × Bool) :
    ∃ (N : ℕ × (ℕ → Bool × Bool) → ℕ) (E : ∀ i, Estimation (N i) 1 0 (fun _ => Bool) Empty Unit Empty Unit Empty ℕ Unit)
      (o : ∀ i, (Unit → ℝ) → Evaluated (N i) Unit Empty)
      (s : ℕ × (ℕ → Bool × Bool) → GmmState (Estimation.Weights (fun _ : Fin 1 ⊕ Fin 0 => Bool) Empty Empty) (Unit → ℝ) Unit)
      (r : ℕ × (ℕ → Bool × Bool) → StepResults (Estimation.Weights (fun _ : Fin 1 ⊕ Fin 0 => Bool) Empty Empty) (Unit → ℝ) Unit),
      Spec.NonlinearErrors (Measure.infinitePi fun _ : ℕ => signs) signs (signModel Unit theta0 beta0) signSlope (signSet theta0) (fun _ => theta0)
        (fun _ => beta0) (fun t ω => ω t) E o .twoStep type type 1 s r ∧
      ∀ root : Matrix (Unit ⊕ Unit ⊕ Empty) (Unit ⊕ Unit ⊕ Empty) ℝ → Matrix (Unit ⊕ Unit ⊕ Empty) (Unit ⊕ Unit ⊕ Empty) ℝ, Spec.ComputesRoots root →
      ∀ bounds : Unit ⊕ Unit ⊕ Empty → EReal × EReal,
        (∀ p, (bounds p).1 < (Sum.elim (fun _ => theta0) (fun _ => beta0) p : ℝ) ∧ ((Sum.elim (fun _ => theta0) (fun _ => beta0) p : ℝ) : EReal) < (bounds p).2) →
      ∀ (pool : Option ℕ) (constantCosts : Bool)
        (solve : ∀ i z, DrawSolver (signEconomy theta0 beta0 x ((E i).bootstrapped (r i) root bounds z) (Spec.estimates (E i) (r i))))
        (results : ℕ × (ℕ → Bool × Bool) → (Unit ⊕ Unit ⊕ Empty → ℝ) → Fin 1 → Fin 1 → DrawRow),
        (∀ i z, BootstrapRealizations pool (signEconomy theta0 beta0 x ((E i).bootstrapped (r i) root bounds z) (Spec.estimates (E i) (r i))) constantCosts (solve i z)
          (results i z)) →
      ∀ lo hi : ℝ, 0 < lo → lo < 1 / 2 → 1 / 2 < hi → hi < 1 →
      ∃ limit : ℝ, Tendsto (fun T => (Measure.infinitePi fun _ : ℕ => signs).real {ω | (Spec.normals (Unit ⊕ Unit ⊕ Empty)).real
          {z | bootstrappedElasticity (signEconomy theta0 beta0 x ((E (T, ω)).bootstrapped (r (T, ω)) root bounds z) (Spec.estimates (E (T, ω)) (r (T, ω))))
            (results (T, ω) z) 0 () ⟨0, rfl⟩ ⟨0, rfl⟩ ≤ beta0 * (1 - Real.exp (signOdds theta0 beta0 x) / (1 + Real.exp (signOdds theta0 beta0 x)))} ∈ Set.Icc lo hi})
          atTop (𝓝 limit) ∧
        (beta0 < 0 → hi - lo < limit) ∧ (0 < beta0 → beta0 ≤ 1 → limit < hi - lo) := by
  have hb0 : ∑ _l : Unit, beta0 = beta0 := by simp
  obtain ⟨minimum, s, r, h⟩ := signErrors theta0 hb0 type
  refine ⟨_, _, _, s, r, h, fun root hroot bounds hb pool constantCosts solve results hres lo hi hlo hlo2 hhi2 hhi => ?_⟩
  obtain ⟨qlo, rfl⟩ := exists_phi hlo (by linarith)
  obtain ⟨qhi, rfl⟩ := exists_phi (show 0 < hi by linarith) hhi
  have hq1 : qlo < 0 := strictMono_phi.lt_iff_lt.mp (by rw [phi_zero]; exact hlo2)
  have hq2 : 0 < qhi := strictMono_phi.lt_iff_lt.mp (by rw [phi_zero]; exact hhi2)
  obtain ⟨hv, hu⟩ := sign_variances theta0 beta0 x type
  set c := (1 + Real.exp (signOdds theta0 beta0 x))⁻¹ with hc
  set a := beta0 * (Real.exp (signOdds theta0 beta0 x) / (1 + Real.exp (signOdds theta0 beta0 x))) with ha
  have hE := Real.exp_pos (signOdds theta0 beta0 x)
  have hc0 : 0 < c := by positivity
  have hk : 0 < a ^ 2 + (1 - a) ^ 2 := by nlinarith [sq_nonneg (2 * a - 1)]
  have h1 := coverage_limit h (signValid theta0 hb0 type) (signVariance theta0 hb0 type) hroot hb (signElasticity_derivative theta0 beta0 x) hv.symm hu.symm
    (by positivity) (by positivity) (hq1.trans hq2)
  have hρ : √(c ^ 2 * (a ^ 2 + (1 - a) ^ 2)) / √(c ^ 2) = √(a ^ 2 + (1 - a) ^ 2) := by
    rw [Real.sqrt_mul (by positivity), Real.sqrt_sq hc0.le]
    field_simp
  rw [hρ] at h1
  refine ⟨_, h1.congr fun T => ?_, fun hneg => ?_, fun hpos hle => ?_⟩
  · congr 1
    ext ω
    rw [Set.mem_ofPred_eq, Set.mem_ofPred_eq]
    have ht : signElasticity theta0 beta0 x (Sum.elim (fun _ => theta0) fun _ => beta0, Sum.elim (fun _ => theta0) fun _ => beta0) =
        beta0 * (1 - Real.exp (signOdds theta0 beta0 x) / (1 + Real.exp (signOdds theta0 beta0 x))) := by
      unfold signElasticity signUtility
      simp only [Sum.elim_inl, Sum.elim_inr, sub_self, zero_mul, add_zero]
      field_simp
      ring
    rw [ht]
    have hset : {z | signElasticity theta0 beta0 x ((signProblem Unit theta0 beta0 T ω type (minimum (T, ω))).bootstrapped (r (T, ω)) root bounds z,
        (signProblem Unit theta0 beta0 T ω type (minimum (T, ω))).parameters (r (T, ω))) ≤
          beta0 * (1 - Real.exp (signOdds theta0 beta0 x) / (1 + Real.exp (signOdds theta0 beta0 x)))} =
        {z | bootstrappedElasticity (signEconomy theta0 beta0 x ((signProblem Unit theta0 beta0 T ω type (minimum (T, ω))).bootstrapped (r (T, ω)) root bounds z)
          (Spec.estimates (signProblem Unit theta0 beta0 T ω type (minimum (T, ω))) (r (T, ω)))) (results (T, ω) z) 0 () ⟨0, rfl⟩ ⟨0, rfl⟩ ≤
          beta0 * (1 - Real.exp (signOdds theta0 beta0 x) / (1 + Real.exp (signOdds theta0 beta0 x)))} := by
      ext z
      rw [Set.mem_ofPred_eq, Set.mem_ofPred_eq, signEconomy_elasticity (hres (T, ω) z)]
      exact Iff.rfl
    rw [← hset]
  · have ha0 : a < 0 := mul_neg_of_neg_of_pos hneg (by positivity)
    have hρ1 : 1 < √(a ^ 2 + (1 - a) ^ 2) := by
      rw [Real.lt_sqrt (by norm_num)]
      nlinarith
    have e1 := strictMono_phi (show √(a ^ 2 + (1 - a) ^ 2) * qlo < qlo by nlinarith)
    have e2 := strictMono_phi (show qhi < √(a ^ 2 + (1 - a) ^ 2) * qhi by nlinarith)
    linarith
  · have ha0 : 0 < a := mul_pos hpos (by positivity)
    have ha1 : a < 1 := by
      have : Real.exp (signOdds theta0 beta0 x) / (1 + Real.exp (signOdds theta0 beta0 x)) < 1 := by
        rw [div_lt_one (by positivity)]
        linarith
      calc a ≤ 1 * (Real.exp (signOdds theta0 beta0 x) / (1 + Real.exp (signOdds theta0 beta0 x))) := mul_le_mul_of_nonneg_right hle (by positivity)
        _ < 1 := by linarith
    have hρ1 : √(a ^ 2 + (1 - a) ^ 2) < 1 := by
      rw [Real.sqrt_lt' (by norm_num)]
      nlinarith
    have e1 := strictMono_phi (show qlo < √(a ^ 2 + (1 - a) ^ 2) * qlo by nlinarith)
    have e2 := strictMono_phi (show √(a ^ 2 + (1 - a) ^ 2) * qhi < qhi by nlinarith)
    linarith

/-- Everything that is assumed is met by elasticities in the population with random signs (see C137 for other assumptions): derivatives exist, variances are positive, the truth is where
bounds do not bind, roots of covariances exist, and so do bootstrapped results. The drawn coefficient itself is an output that does not depend on estimates in other ways. -/
example (theta0 beta0 : ℝ) (type : CovarianceType) (x : Bool × Bool) (draw est : Unit ⊕ Unit ⊕ Empty → ℝ) :
    HasStrictFDerivAt (signElasticity theta0 beta0 x) (signDerivative theta0 beta0 x)
      (Sum.elim (fun _ => theta0) fun _ => beta0, Sum.elim (fun _ => theta0) fun _ => beta0) ∧
    0 < Spec.functionVariance (limitV signs (signModel Unit theta0 beta0) signSlope (fun _ => theta0) (fun _ => beta0) .twoStep type 1)
      (fun y => signDerivative theta0 beta0 x (y, 0)) ∧
    0 < Spec.functionVariance (limitV signs (signModel Unit theta0 beta0) signSlope (fun _ => theta0) (fun _ => beta0) .twoStep type 1)
      (fun y => signDerivative theta0 beta0 x (y, y)) ∧
    (∃ root : Matrix (Unit ⊕ Unit ⊕ Empty) (Unit ⊕ Unit ⊕ Empty) ℝ → Matrix (Unit ⊕ Unit ⊕ Empty) (Unit ⊕ Unit ⊕ Empty) ℝ, Spec.ComputesRoots root) ∧
    (∃ results, BootstrapRealizations none (signEconomy theta0 beta0 x draw est) false (fun _ _ _ p => p) results ∧
      bootstrappedElasticity (signEconomy theta0 beta0 x draw est) results 0 () ⟨0, rfl⟩ ⟨0, rfl⟩ = signElasticity theta0 beta0 x (draw, est)) ∧
    drawPart (Sum.inr (Sum.inl ())) ≠ 0 ∧ ∀ y, drawPart (Sum.inr (Sum.inl ())) (0, y) = 0 := by
  obtain ⟨hv, hu⟩ := sign_variances theta0 beta0 x type
  have hE := Real.exp_pos (signOdds theta0 beta0 x)
  have hk : ∀ a : ℝ, 0 < a ^ 2 + (1 - a) ^ 2 := fun a => by nlinarith [sq_nonneg (2 * a - 1)]
  refine ⟨signElasticity_derivative _ _ _, ?_, ?_, exists_roots _, ?_, fun h => ?_, fun _ => rfl⟩
  · rw [hv]
    exact mul_pos (by positivity) (hk _)
  · rw [hu]
    positivity
  · have h : BootstrapRealizations none (signEconomy theta0 beta0 x draw est) false (fun _ _ _ p => p) _ := ⟨_, rfl, rfl⟩
    exact ⟨_, h, signEconomy_elasticity h⟩
  · have : drawPart (Sum.inr (Sum.inl ())) (fun _ => 1, 0) = 0 := by rw [h]; rfl
    exact one_ne_zero this

end Pyblp
