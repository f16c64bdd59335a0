import Verif.Lemmas.RandomRegular

/-!
# What is computed with random coefficients are outcomes of the model and their derivatives
-/

set_option linter.unusedSectionVars false

open MeasureTheory ProbabilityTheory Filter Topology

namespace Pyblp

variable {C A K2 N D θ b z : Type} [Fintype A] [Fintype K2] [Fintype N] [Fintype D] [Fintype θ] [DecidableEq θ] [DecidableEq K2]
  [DecidableEq N] [DecidableEq D] [Fintype b] [Fintype z] [MeasurableSpace C]
  {law : Measure C} {R : Spec.Markets C A K2 N D b z} {L : Spec.Coefficients K2 N D θ} {w : ℕ → C} {T n : ℕ}
  {P : PanelProblem n (Fin T) (fun t => R.Product (w t)) (fun _ => A) Unit Empty K2 Empty N D θ}

lemma panel_distinct (h : R.Regular L law) (hP : R.Panel L w T n P) : Spec.Distinct P := by
  intro p p' hpp _
  rw [hP.param, hP.param] at hpp
  refine h.distinct ?_
  rcases h1 : L.param p with ⟨k, c⟩ | ⟨k, c⟩ <;> rcases h2 : L.param p' with ⟨k', c'⟩ | ⟨k', c'⟩ <;> rw [h1, h2] at hpp <;> simp_all

lemma panel_sigma (h : R.Regular L law) (hP : R.Panel L w T n P) (theta : θ → ℝ) : P.sigmaAt theta = L.sigmaAt theta := by
  funext k c
  unfold PanelProblem.sigmaAt Spec.Coefficients.sigmaAt
  have hiff : ∀ p, P.param p = .sigma k c ↔ L.param p = .inl (k, c) := fun p => by
    rw [hP.param]
    rcases L.param p with ⟨k', c'⟩ | ⟨k', c'⟩ <;> simp
  by_cases hex : ∃ p, L.param p = .inl (k, c)
  · rw [if_pos hex]
    obtain ⟨p, hp⟩ := hex
    rw [valueAt_self P (panel_distinct h hP) theta p (.sigma k c) (by simp) _ ((hiff p).mpr hp), Finset.sum_eq_single p]
    · rw [if_pos hp]
    · intro p' _ hne
      rw [if_neg]
      exact fun hc => hne (h.distinct (hc.trans hp.symm))
    · simp
  · rw [if_neg hex]
    unfold PanelProblem.valueAt
    rw [dif_neg fun ⟨p, hp⟩ => hex ⟨p, (hiff p).mp hp⟩, hP.sigma]

lemma panel_pi (h : R.Regular L law) (hP : R.Panel L w T n P) (theta : θ → ℝ) : P.piAt theta = L.piAt theta := by
  funext k c
  unfold PanelProblem.piAt Spec.Coefficients.piAt
  have hiff : ∀ p, P.param p = .pi k c ↔ L.param p = .inr (k, c) := fun p => by
    rw [hP.param]
    rcases L.param p with ⟨k', c'⟩ | ⟨k', c'⟩ <;> simp
  by_cases hex : ∃ p, L.param p = .inr (k, c)
  · rw [if_pos hex]
    obtain ⟨p, hp⟩ := hex
    rw [valueAt_self P (panel_distinct h hP) theta p (.pi k c) (by simp) _ ((hiff p).mpr hp), Finset.sum_eq_single p]
    · rw [if_pos hp]
    · intro p' _ hne
      rw [if_neg]
      exact fun hc => hne (h.distinct (hc.trans hp.symm))
    · simp
  · rw [if_neg hex]
    unfold PanelProblem.valueAt
    rw [dif_neg fun ⟨p, hp⟩ => hex ⟨p, (hiff p).mp hp⟩, hP.pi]

lemma panel_market (hP : R.Panel L w T n P) (theta : θ → ℝ) (t : Fin T) : P.marketAt theta t = plainMarket (R.weights (w t)) := by
  unfold PanelProblem.marketAt
  rw [hP.market]
  rfl

lemma panel_mu (h : R.Regular L law) (hP : R.Panel L w T n P) (theta : θ → ℝ) (t : Fin T) : P.muAt theta t = R.mu L theta (w t) := by
  unfold PanelProblem.muAt Spec.Markets.mu
  rw [panel_sigma h hP, panel_pi h hP, hP.tastes]

lemma panel_explained (h : R.Regular L law) (hP : R.Panel L w T n P) {theta : θ → ℝ} {delta : (t : Fin T) → R.Product (w t) → ℝ} :
    Spec.Explained P theta delta ↔ ∀ t : Fin T, R.Explains L theta (w t) (delta t) := by
  unfold Spec.Explained Spec.Markets.Explains
  refine forall_congr' fun t => ?_
  rw [panel_market hP, panel_mu h hP]
  have : P.shares t = fun j : R.Product (w t) => R.share (w t) j := funext (hP.shares t)
  rw [this]

lemma panel_delta (h : R.Regular L law) (hP : R.Panel L w T n P) {theta : θ → ℝ} {delta : (t : Fin T) → R.Product (w t) → ℝ}
    (hd : Spec.Explained P theta delta) : delta = fun t : Fin T => R.meanUtilities L theta (w t) :=
  funext fun t => meanUtilities_unique h ((panel_explained h hP).mp hd t)

lemma panel_iv (P : PanelProblem n (Fin T) (fun t => R.Product (w t)) (fun _ => A) Unit Empty K2 Empty N D θ) (theta : θ → ℝ)
    (delta : (t : Fin T) → R.Product (w t) → ℝ) (i : Fin n) : P.ivDelta theta delta i = delta (P.locate i).1 (P.locate i).2 := by
  unfold PanelProblem.ivDelta
  simp

lemma panel_proper (h : R.Regular L law) (hP : R.Panel L w T n P) (theta : θ → ℝ) (p : θ) : Spec.ProperPanel P theta p where
  distinct := panel_distinct h hP
  market t := by
    rw [panel_market hP]
    exact plain_wellFormed _
  weights t i := by
    rw [hP.market]
    exact h.nonneg _ i
  offered t j := by
    rw [hP.market]
    obtain ⟨i, hi⟩ := plain_some _ (h.one (w t))
    exact ⟨i, hi, plain_offered _ i j⟩
  fits t := by
    rw [hP.param]
    rcases L.param p with ⟨k, c⟩ | ⟨k, c⟩ <;> intro n hn <;> rw [panel_market hP] at hn <;> simp [plainMarket] at hn
  interior t := by
    rw [panel_market hP]
    intro n hn
    simp [plainMarket] at hn

/-- The Jacobian that is computed has derivatives of mean utilities. -/
lemma panel_jacobian (h : R.Regular L law) (hP : R.Panel L w T n P) {theta : θ → ℝ} {delta : (t : Fin T) → R.Product (w t) → ℝ}
    {inverse : (t : Fin T) → R.Product (w t) → R.Product (w t) → ℝ} (hd : Spec.Explained P theta delta) (hi : Spec.InvertsShares P theta delta inverse)
    (i : Fin n) (e : Fin 1 ⊕ Fin 0) (p : θ) : P.xiJacobian theta delta inverse i p = R.slope L theta (w (P.locate i).1) e (P.locate i).2 p := by
  set f : (θ → ℝ) → (t : Fin T) → R.Product (w t) → ℝ := fun theta t => R.meanUtilities L theta (w t) with hf
  have hex : ∀ theta, Spec.Explained P theta (f theta) := fun theta => (panel_explained h hP).mpr fun t => meanUtilities_explain h theta (w t)
  have hdelta : delta = f theta := panel_delta h hP hd
  have hi' : Spec.InvertsShares P theta (f theta) inverse := hdelta ▸ hi
  have h1 := C118_xi_jacobian P theta p (panel_proper h hP theta p) f (Eventually.of_forall fun s => hex _) inverse hi' i
  have h2 : P.xiJacobian theta delta inverse i p = P.xiJacobian theta (f theta) inverse i p := by rw [hdelta]
  rw [h2, ← h1.deriv]
  unfold Spec.Markets.slope
  congr 1
  funext s
  rw [panel_iv, outcome_lt (P.locate i).2.isLt]

/-- Matrices that have to be inverted can be. -/
lemma panel_inverts (h : R.Regular L law) (hP : R.Panel L w T n P) (theta : θ → ℝ)
    (delta : (t : Fin T) → R.Product (w t) → ℝ) : ∃ inverse, Spec.InvertsShares P theta delta inverse := by
  refine Classical.axiom_of_choice (r := fun (t : Fin T) (B : R.Product (w t) → R.Product (w t) → ℝ) => ∀ j l, ∑ k, B j k * sharesByXiJacobian (P.marketAt theta t)
    (computeShares (P.marketAt theta t) {} (delta t) (P.muAt theta t)) (computeProbabilities (P.marketAt theta t) {} (delta t) (P.muAt theta t))
    (computeConditionals (P.marketAt theta t) {} (delta t) (P.muAt theta t)) k l = if j = l then 1 else 0) fun t => ?_
  obtain ⟨i, hi⟩ := plain_some _ (h.one (w t))
  rw [panel_market hP]
  have h1 := C84_nonsingular (plainMarket (R.weights (w t)) : Market (R.Product (w t)) A Unit) (plain_wellFormed _) true (delta t) (P.muAt theta t) (h.nonneg _)
    fun j => ⟨i, hi, plain_offered _ i j⟩
  obtain ⟨B, hB⟩ : ∃ B, B * Matrix.of (sharesByXiJacobian (plainMarket (R.weights (w t)) : Market (R.Product (w t)) A Unit)
      (computeShares (plainMarket (R.weights (w t))) {} (delta t) (P.muAt theta t))
      (computeProbabilities (plainMarket (R.weights (w t))) {} (delta t) (P.muAt theta t))
      (computeConditionals (plainMarket (R.weights (w t))) {} (delta t) (P.muAt theta t))) = 1 :=
    ⟨_, Matrix.nonsing_inv_mul _ (isUnit_iff_ne_zero.mpr h1)⟩
  refine ⟨B, fun j l => ?_⟩
  have h2 := congrFun (congrFun hB j) l
  rw [Matrix.mul_apply, Matrix.one_apply] at h2
  exact h2

variable {q d ι S : Type} [Fintype q] [Fintype d] {Θ : Set (θ → ℝ)} {E : Estimation n 1 0 (fun _ => z) q b Empty θ d ι S} {o : (θ → ℝ) → Evaluated n θ d}

lemma random_sampled (h : R.Regular L law) (hE : R.Evaluates L Θ w T E o) (beta : b ⊕ Empty → ℝ) {theta : θ → ℝ} (ht : theta ∈ Θ) :
    Spec.Sampled ((R.models L).at theta beta) w T E (o theta) beta := by
  obtain ⟨P, hP, hl, hX, hZ, hids, hev⟩ := hE
  obtain ⟨delta, inverse, hd, hi, ho, hj⟩ := hev theta ht
  refine ⟨P.locate, ?_, ?_, ?_, hids⟩
  · rintro i (e | e) (l | l)
    · obtain rfl := Subsingleton.elim e 0
      simp only [MomentData.regressors, MomentData.equations, hl]
      exact hX i l
    · exact l.elim
    · exact e.elim0
    · exact e.elim0
  · rintro i (e | e) a
    · obtain rfl := Subsingleton.elim e 0
      exact hZ i a
    · exact e.elim0
  · rintro i (e | e)
    · obtain rfl := Subsingleton.elim e 0
      have h1 : E.data.equations (o theta).phi (o theta).delta (o theta).costs (.inl 0) i = (o theta).delta i := by
        simp only [MomentData.equations, hl]
      rw [h1, ho, panel_iv, panel_delta h hP hd]
      change _ = ∑ l, (R.models L).regressor (w (P.locate i).1) (.inl 0) (P.locate i).2 l * beta l + ((R.models L).outcome theta (w (P.locate i).1) (.inl 0)
        (P.locate i).2 - ∑ l, (R.models L).regressor (w (P.locate i).1) (.inl 0) (P.locate i).2 l * beta l)
      rw [outcome_lt (P.locate i).2.isLt]
      ring
    · exact e.elim0

lemma random_slopes (h : R.Regular L law) (hE : R.Evaluates L Θ w T E o) {theta : θ → ℝ} (ht : theta ∈ Θ) :
    Spec.SlopesSampled (R.models L) (R.slope L theta) w T E (o theta) := by
  obtain ⟨P, hP, hl, hX, hZ, hids, hev⟩ := hE
  obtain ⟨delta, inverse, hd, hi, ho, hj⟩ := hev theta ht
  refine ⟨P.locate, ?_, ?_⟩
  · rintro i (e | e) a
    · obtain rfl := Subsingleton.elim e 0
      exact hZ i a
    · exact e.elim0
  · rintro i (e | e) p
    · obtain rfl := Subsingleton.elim e 0
      have h1 : E.data.equations (o theta).phi ((o theta).deltaJacobian.col p) ((o theta).costsJacobian.col p) (.inl 0) i = (o theta).deltaJacobian i p := by
        simp only [MomentData.equations, hl]
        rfl
      rw [h1, hj]
      exact panel_jacobian h hP hd hi i _ p
    · exact e.elim0

end Pyblp
