import Verif.Model.MomentsJacobian
import Verif.Props.Panel
import Verif.Props.Statistics

set_option linter.unusedSectionVars false

/-!
# The Jacobian of moments (C93)
-/

namespace Pyblp

open Matrix

variable {N nd ns : ℕ} {m : Fin nd ⊕ Fin ns → Type} {q b g θ d : Type} [∀ e, Fintype (m e)] [Fintype q] [Fintype b] [Fintype g]
  [Fintype θ] [Fintype d]

namespace Spec

/-- What is left after subtracting contributions of linear parameters: `xi` from `delta`, and `omega` from transformed costs. -/
def unobserved {k : Type} [Fintype k] (X : Matrix (Fin N) k ℝ) (y : Fin N → ℝ) (parameters : k → ℝ) (i : Fin N) : ℝ :=
  y i - ∑ c, X i c * parameters c

/-- The error that a moment interacts with instruments: one's own structural error, its innovation, or the change in innovations. -/
noncomputable def momentError (lag : Fin N → Fin N) (type : MomentType) (own : Fin N → ℝ) (phi : ℝ) (other : Fin N → ℝ) (cross : ℝ)
    (i : Fin N) : ℝ :=
  match type with
  | .levels => own i
  | .difference .innovations => innovation lag own phi other cross i
  | .difference .differencedInnovations => differencedInnovation lag own phi other cross i

/-- Averaged moments as a function of structural errors, `phi` and micro moments: each equation's error interacted with its
instruments, the product of structural errors less its mean interacted with covariance instruments, and micro moments. -/
noncomputable def averagedMoments (M : MomentData N nd ns m q b g) (phi : Fin 2 → Fin 2 → ℝ) (xi omega : Fin N → ℝ) (mean : ℝ)
    (micro : d → ℝ) : (MomentIndex m ⊕ q) ⊕ d → ℝ
  | .inl (.inl ⟨.inl e, c⟩) =>
    (∑ i, momentError M.lag (M.demand e) xi (phi 0 0) (if M.hasSupply then omega else 0) (phi 0 1) i * M.Z (.inl e) i c) / N
  | .inl (.inl ⟨.inr e, c⟩) => (∑ i, momentError M.lag (M.supply e) omega (phi 1 1) xi (phi 1 0) i * M.Z (.inr e) i c) / N
  | .inl (.inr c) => (∑ i, (xi i * omega i - mean) * M.ZC i c) / N
  | .inr c => micro c

/-- Averaged moments as a function of all parameters: those in theta, on which mean utilities, costs, `phi` and micro moments depend,
and those that are concentrated out. -/
noncomputable def parametricMoments (M : MomentData N nd ns m q b g) (delta costs : (θ → ℝ) → Fin N → ℝ)
    (phi : (θ → ℝ) → Fin 2 → Fin 2 → ℝ) (mean : ℝ) (micro : (θ → ℝ) → d → ℝ) (x : θ ⊕ b ⊕ g → ℝ) : (MomentIndex m ⊕ q) ⊕ d → ℝ :=
  let theta := fun p => x (.inl p)
  averagedMoments M (phi theta) (unobserved M.X1 (delta theta) fun k => x (.inr (.inl k)))
    (unobserved M.X3 (costs theta) fun k => x (.inr (.inr k))) mean (micro theta)

/-- Elements of `phi` at a location of a parameter are that parameter, and others are fixed. -/
def IsPhi (location : θ → Option (Fin 2 × Fin 2)) (phi : (θ → ℝ) → Fin 2 → Fin 2 → ℝ) : Prop :=
  (∀ p l, location p = some l → ∀ theta, phi theta l.1 l.2 = theta p) ∧
    ∀ l, (∀ p, location p ≠ some l) → ∀ theta theta', phi theta l.1 l.2 = phi theta' l.1 l.2

end Spec

/-! ## Structural errors -/

theorem equations_eq (M : MomentData N nd ns m q b g) (phi : Fin 2 → Fin 2 → ℝ) (x1 x3 : Fin N → ℝ) (e : Fin nd ⊕ Fin ns) (i : Fin N) :
    M.equations phi x1 x3 e i = e.elim
      (fun e => Spec.momentError M.lag (M.demand e) x1 (phi 0 0) (if M.hasSupply then x3 else 0) (phi 0 1) i)
      (fun e => Spec.momentError M.lag (M.supply e) x3 (phi 1 1) x1 (phi 1 0) i) := by
  rcases e with e | e
  · rcases hd : M.demand e with _ | t
    · simp [MomentData.equations, Spec.momentError, hd]
    · cases hs : M.hasSupply
      · cases t
        · simp only [MomentData.equations, hd, hs, Spec.momentError, Sum.elim_inl]
          refine ((C52_innovations M.lag x1 0 (phi 0 0) 0 i).2).trans ?_
          simp [Spec.innovation]
        · simp only [MomentData.equations, hd, hs, Spec.momentError, Sum.elim_inl]
          refine ((C52_differenced M.lag x1 0 (phi 0 0) 0 i).2).trans ?_
          simp [Spec.innovation, Spec.differencedInnovation]
      · cases t
        · simp only [MomentData.equations, hd, hs, Spec.momentError, Sum.elim_inl]
          exact (C52_innovations M.lag x1 x3 (phi 0 0) (phi 0 1) i).1
        · simp only [MomentData.equations, hd, hs, Spec.momentError, Sum.elim_inl]
          exact (C52_differenced M.lag x1 x3 (phi 0 0) (phi 0 1) i).1
  · rcases hd : M.supply e with _ | t
    · simp [MomentData.equations, Spec.momentError, hd]
    · cases t
      · simp only [MomentData.equations, hd, Spec.momentError, Sum.elim_inr]
        exact (C52_innovations M.lag x3 x1 (phi 1 1) (phi 1 0) i).1
      · simp only [MomentData.equations, hd, Spec.momentError, Sum.elim_inr]
        exact (C52_differenced M.lag x3 x1 (phi 1 1) (phi 1 0) i).1

theorem levelsIndex_some {n : ℕ} {types : Fin n → MomentType} {i : Fin n} (h : levelsIndex types = some i) : types i = .levels := by
  have := List.find?_some h
  cases ht : types i with
  | levels => rfl
  | difference t => simp [ht, MomentType.isLevels] at this

/-- The structural error that an evaluation stores is `delta` less contributions of the linear parameters, whichever moment types
there are. -/
theorem xi_eq (M : MomentData N nd ns m q b g) (C : Matrix (b ⊕ g) (b ⊕ g) ℝ) (W : Matrix (MomentIndex m) (MomentIndex m) ℝ)
    (phi : Fin 2 → Fin 2 → ℝ) (delta costs : Fin N → ℝ) :
    M.xi C W phi delta costs = Spec.unobserved M.X1 delta fun k => M.linearParameters C W phi delta costs (.inl k) := by
  funext j
  unfold MomentData.xi Spec.unobserved
  cases h : levelsIndex M.demand with
  | none => rfl
  | some i =>
    have hl := levelsIndex_some h
    simp [MomentData.residuals, ivResiduals, MomentData.linearParameters, MomentData.equations, hl, vstack, mulVec, dotProduct,
      MomentData.regressors, MomentData.extendedX1]

/-- The same for `omega` and transformed costs. -/
theorem omega_eq (M : MomentData N nd ns m q b g) (C : Matrix (b ⊕ g) (b ⊕ g) ℝ) (W : Matrix (MomentIndex m) (MomentIndex m) ℝ)
    (phi : Fin 2 → Fin 2 → ℝ) (delta costs : Fin N → ℝ) :
    M.omega C W phi delta costs = Spec.unobserved M.X3 costs fun k => M.linearParameters C W phi delta costs (.inr k) := by
  funext j
  unfold MomentData.omega Spec.unobserved
  cases h : levelsIndex M.supply with
  | none => rfl
  | some i =>
    have hl := levelsIndex_some h
    simp [MomentData.residuals, ivResiduals, MomentData.linearParameters, MomentData.equations, hl, vstack, mulVec, dotProduct,
      MomentData.regressors, MomentData.extendedX3]

/-! ## Derivatives of errors along a path -/

theorem hasDerivAt_innovation (lag : Fin N → Fin N) {x y : ℝ → Fin N → ℝ} {phi c : ℝ → ℝ} {x' y' : Fin N → ℝ} {phi' c' : ℝ} {s : ℝ}
    (hx : ∀ i, HasDerivAt (fun s => x s i) (x' i) s) (hy : ∀ i, HasDerivAt (fun s => y s i) (y' i) s)
    (hphi : HasDerivAt phi phi' s) (hc : HasDerivAt c c' s) (i : Fin N) :
    HasDerivAt (fun s => Spec.innovation lag (x s) (phi s) (y s) (c s) i)
      (Spec.innovation lag x' (phi s) y' (c s) i +
        (phi' * computeDifferenceDerivative lag .innovations (x s) i + c' * computeDifferenceDerivative lag .innovations (y s) i)) s := by
  unfold Spec.innovation
  by_cases h : lag i = i
  · simp only [if_pos h]
    refine (hasDerivAt_const s (0 : ℝ)).congr_deriv ?_
    simp [computeDifferenceDerivative, hasLag, h]
  · simp only [if_neg h]
    refine ((hx i).sub ((hphi.fun_mul (hx (lag i))).add (hc.fun_mul (hy (lag i))))).congr_deriv ?_
    simp [computeDifferenceDerivative, hasLag, h]
    ring

theorem hasDerivAt_differenced (lag : Fin N → Fin N) {x y : ℝ → Fin N → ℝ} {phi c : ℝ → ℝ} {x' y' : Fin N → ℝ} {phi' c' : ℝ} {s : ℝ}
    (hx : ∀ i, HasDerivAt (fun s => x s i) (x' i) s) (hy : ∀ i, HasDerivAt (fun s => y s i) (y' i) s)
    (hphi : HasDerivAt phi phi' s) (hc : HasDerivAt c c' s) (i : Fin N) :
    HasDerivAt (fun s => Spec.differencedInnovation lag (x s) (phi s) (y s) (c s) i)
      (Spec.differencedInnovation lag x' (phi s) y' (c s) i +
        (phi' * computeDifferenceDerivative lag .differencedInnovations (x s) i +
          c' * computeDifferenceDerivative lag .differencedInnovations (y s) i)) s := by
  unfold Spec.differencedInnovation
  by_cases h : lag i = i ∨ lag (lag i) = lag i
  · simp only [if_pos h]
    refine (hasDerivAt_const s (0 : ℝ)).congr_deriv ?_
    rcases h with h | h
    · simp [computeDifferenceDerivative, hasLag, hasSecondLag, h]
    · simp [computeDifferenceDerivative, hasLag, hasSecondLag, h]
  · simp only [if_neg h]
    refine ((hasDerivAt_innovation lag hx hy hphi hc i).sub (hasDerivAt_innovation lag hx hy hphi hc (lag i))).congr_deriv ?_
    rw [not_or] at h
    simp [computeDifferenceDerivative, hasLag, hasSecondLag, h.1, h.2]
    ring

/-- How the error of a moment changes along a path. -/
theorem hasDerivAt_momentError (lag : Fin N → Fin N) (type : MomentType) {x y : ℝ → Fin N → ℝ} {phi c : ℝ → ℝ} {x' y' : Fin N → ℝ}
    {phi' c' : ℝ} {s : ℝ} (hx : ∀ i, HasDerivAt (fun s => x s i) (x' i) s) (hy : ∀ i, HasDerivAt (fun s => y s i) (y' i) s)
    (hphi : HasDerivAt phi phi' s) (hc : HasDerivAt c c' s) (i : Fin N) :
    HasDerivAt (fun s => Spec.momentError lag type (x s) (phi s) (y s) (c s) i)
      (Spec.momentError lag type x' (phi s) y' (c s) i + match type with
        | .levels => 0
        | .difference t => phi' * computeDifferenceDerivative lag t (x s) i + c' * computeDifferenceDerivative lag t (y s) i) s := by
  rcases type with _ | t
  · simpa [Spec.momentError] using hx i
  · cases t
    · exact hasDerivAt_innovation lag hx hy hphi hc i
    · exact hasDerivAt_differenced lag hx hy hphi hc i

theorem computeDifferenceDerivative_zero (lag : Fin N → Fin N) (t : DifferenceType) (i : Fin N) :
    computeDifferenceDerivative lag t 0 i = 0 := by
  cases t <;> simp [computeDifferenceDerivative]

/-- Errors along a path on which `phi` changes at one location, with unit speed, or nowhere. -/
theorem hasDerivAt_equations (M : MomentData N nd ns m q b g) {xi omega : ℝ → Fin N → ℝ} {phi : ℝ → Fin 2 → Fin 2 → ℝ}
    {xi' omega' : Fin N → ℝ} {s : ℝ} (location : Option (Fin 2 × Fin 2)) (hxi : ∀ i, HasDerivAt (fun s => xi s i) (xi' i) s)
    (homega : ∀ i, HasDerivAt (fun s => omega s i) (omega' i) s)
    (hphi : ∀ r c, HasDerivAt (fun s => phi s r c) (if location = some (r, c) then 1 else 0) s)
    (hsupply : M.hasSupply = false → ∀ l, location = some l → l = (0, 0)) (e : Fin nd ⊕ Fin ns) (i : Fin N) :
    HasDerivAt (fun s => M.equations (phi s) (xi s) (omega s) e i)
      (M.equations (phi s) xi' omega' e i + M.phiContribution location (xi s) (omega s) e i) s := by
  simp only [equations_eq]
  rcases e with e | e
  · simp only [Sum.elim_inl]
    have hy : ∀ i, HasDerivAt (fun s => (if M.hasSupply then omega s else 0) i) ((if M.hasSupply then omega' else 0) i) s := by
      intro i
      cases M.hasSupply
      · exact hasDerivAt_const s (0 : ℝ)
      · exact homega i
    refine (hasDerivAt_momentError M.lag (M.demand e) hxi hy (hphi 0 0) (hphi 0 1) i).congr_deriv ?_
    congr 1
    unfold MomentData.phiContribution
    cases location with
    | none => cases hd : M.demand e <;> simp
    | some l =>
      obtain ⟨r, c⟩ := l
      cases hd : M.demand e with
      | levels => fin_cases r <;> simp [hd]
      | difference t =>
        cases hs : M.hasSupply
        · have := hsupply hs _ rfl
          simp only [Prod.mk.injEq] at this
          obtain ⟨rfl, rfl⟩ := this
          simp [hd]
        · fin_cases r <;> fin_cases c <;> simp [hd]
  · simp only [Sum.elim_inr]
    refine (hasDerivAt_momentError M.lag (M.supply e) homega hxi (hphi 1 1) (hphi 1 0) i).congr_deriv ?_
    congr 1
    unfold MomentData.phiContribution
    cases location with
    | none => cases hd : M.supply e <;> simp
    | some l =>
      obtain ⟨r, c⟩ := l
      cases hd : M.supply e with
      | levels => fin_cases r <;> simp [hd]
      | difference t => fin_cases r <;> fin_cases c <;> simp [hd]

/-! ## C93 -/

theorem averagedMoments_eq (M : MomentData N nd ns m q b g) (phi : Fin 2 → Fin 2 → ℝ) (xi omega : Fin N → ℝ) (mean : ℝ) (micro : d → ℝ)
    (r : (MomentIndex m ⊕ q) ⊕ d) :
    Spec.averagedMoments M phi xi omega mean micro r = M.meanMoments (M.equations phi xi omega) xi omega mean micro r := by
  rcases r with (⟨e | e, c⟩ | c) | c
  · simp [Spec.averagedMoments, MomentData.meanMoments, concat, gmmMomentsMean, rowMean, gmmMoments, equations_eq]
  · simp [Spec.averagedMoments, MomentData.meanMoments, concat, gmmMomentsMean, rowMean, gmmMoments, equations_eq]
  · simp [Spec.averagedMoments, MomentData.meanMoments, concat, gmmMomentsMean, rowMean, gmmMoments]
  · rfl

/-- Averaged moments along a path of structural errors, `phi` and micro moments. -/
theorem hasDerivAt_averaged (M : MomentData N nd ns m q b g) {xi omega : ℝ → Fin N → ℝ} {phi : ℝ → Fin 2 → Fin 2 → ℝ}
    {micro : ℝ → d → ℝ} {xi' omega' : Fin N → ℝ} {micro' : d → ℝ} {s : ℝ} (mean : ℝ) (location : Option (Fin 2 × Fin 2))
    (hxi : ∀ i, HasDerivAt (fun s => xi s i) (xi' i) s) (homega : ∀ i, HasDerivAt (fun s => omega s i) (omega' i) s)
    (hphi : ∀ r c, HasDerivAt (fun s => phi s r c) (if location = some (r, c) then 1 else 0) s)
    (hmicro : ∀ c, HasDerivAt (fun s => micro s c) (micro' c) s)
    (hsupply : M.hasSupply = false → ∀ l, location = some l → l = (0, 0)) (r : (MomentIndex m ⊕ q) ⊕ d) :
    HasDerivAt (fun s => Spec.averagedMoments M (phi s) (xi s) (omega s) mean (micro s) r)
      (concat (concat (gmmMomentsJacobianMean (fun e i => M.equations (phi s) xi' omega' e i +
          M.phiContribution location (xi s) (omega s) e i) M.Z)
        (gmmMomentsJacobianMean (ε := Unit) (m := fun _ => q) (fun _ i => xi' i * omega s i + xi s i * omega' i) (fun _ => M.ZC) ⟨(), ·⟩))
        micro' r) s := by
  simp only [averagedMoments_eq]
  rcases r with (c | c) | c
  · simp only [MomentData.meanMoments, concat, gmmMomentsMean, rowMean, gmmMoments, gmmMomentsJacobianMean, Sum.elim_inl]
    exact (HasDerivAt.fun_sum fun i _ =>
      (hasDerivAt_equations M location hxi homega hphi hsupply c.1 i).mul_const (M.Z c.1 i c.2)).div_const _
  · simp only [MomentData.meanMoments, concat, gmmMomentsMean, rowMean, gmmMoments, gmmMomentsJacobianMean, Sum.elim_inl, Sum.elim_inr]
    exact (HasDerivAt.fun_sum fun i _ => (((hxi i).fun_mul (homega i)).sub_const mean).mul_const (M.ZC i c)).div_const _
  · exact hmicro c

variable [DecidableEq θ] [DecidableEq b] [DecidableEq g]

theorem phi_path {location : θ → Option (Fin 2 × Fin 2)} {phi : (θ → ℝ) → Fin 2 → Fin 2 → ℝ} (h : Spec.IsPhi location phi)
    (theta : θ → ℝ) (p : θ) (r c : Fin 2) :
    HasDerivAt (fun s => phi (Function.update theta p s) r c) (if location p = some (r, c) then 1 else 0) (theta p) := by
  by_cases hp : location p = some (r, c)
  · rw [if_pos hp]
    have : (fun s => phi (Function.update theta p s) r c) = fun s => s := by
      funext s
      exact (h.1 p (r, c) hp _).trans (Function.update_self ..)
    rw [this]
    exact hasDerivAt_id _
  · rw [if_neg hp]
    have : (fun s => phi (Function.update theta p s) r c) = fun _ => phi theta r c := by
      funext s
      by_cases hq : ∃ p', location p' = some (r, c)
      · obtain ⟨p', hp'⟩ := hq
        rw [h.1 p' (r, c) hp', h.1 p' (r, c) hp', Function.update_of_ne]
        rintro rfl
        exact hp hp'
      · push Not at hq
        exact h.2 (r, c) hq _ _
    rw [this]
    exact hasDerivAt_const _ _

theorem unobserved_path {k : Type} [Fintype k] [DecidableEq k] (X : Matrix (Fin N) k ℝ) (y : Fin N → ℝ) (parameters : k → ℝ) (c : k)
    (i : Fin N) : HasDerivAt (fun s => Spec.unobserved X y (Function.update parameters c s) i) (-X i c) (parameters c) := by
  unfold Spec.unobserved
  have : HasDerivAt (fun s => ∑ c', X i c' * Function.update parameters c s c') (∑ c', if c' = c then X i c' else 0) (parameters c) := by
    refine HasDerivAt.fun_sum fun c' _ => ?_
    by_cases h : c' = c
    · subst h
      simpa using (hasDerivAt_id (parameters c')).const_mul (X i c')
    · simp only [Function.update_of_ne h, if_neg h]
      exact hasDerivAt_const _ _
  simpa using this.const_sub (y i)

/-- The Jacobian with Jacobians of `delta` and transformed costs in place of the stored ones is that of the moments. -/
theorem meanG_hasDerivAt (M : MomentData N nd ns m q b g) (delta costs : (θ → ℝ) → Fin N → ℝ) (phi : (θ → ℝ) → Fin 2 → Fin 2 → ℝ)
    (mean : ℝ) (micro : (θ → ℝ) → d → ℝ) (location : θ → Option (Fin 2 × Fin 2)) (x : θ ⊕ b ⊕ g → ℝ)
    (delta' costs' : Matrix (Fin N) θ ℝ) (micro' : Matrix d θ ℝ)
    (hdelta : ∀ p i, HasDerivAt (fun s => delta (Function.update (fun p => x (.inl p)) p s) i) (delta' i p) (x (.inl p)))
    (hcosts : ∀ p i, HasDerivAt (fun s => costs (Function.update (fun p => x (.inl p)) p s) i) (costs' i p) (x (.inl p)))
    (hmicro : ∀ p c, HasDerivAt (fun s => micro (Function.update (fun p => x (.inl p)) p s) c) (micro' c p) (x (.inl p)))
    (hphi : Spec.IsPhi location phi) (hsupply : M.hasSupply = false → ∀ p l, location p = some l → l = (0, 0))
    (r : (MomentIndex m ⊕ q) ⊕ d) (p : θ ⊕ b ⊕ g) :
    HasDerivAt (fun s => Spec.parametricMoments M delta costs phi mean micro (Function.update x p s) r)
      (M.meanG (phi fun p => x (.inl p)) delta' costs'
        (Spec.unobserved M.X1 (delta fun p => x (.inl p)) fun k => x (.inr (.inl k)))
        (Spec.unobserved M.X3 (costs fun p => x (.inl p)) fun k => x (.inr (.inr k))) location micro' r p) (x p) := by
  unfold Spec.parametricMoments
  rcases p with p | k | k
  · have htheta : ∀ s, (fun p' => Function.update x (.inl p) s (.inl p')) = Function.update (fun p => x (.inl p)) p s := by
      intro s
      funext p'
      by_cases h : p' = p
      · subst h
        simp
      · simp [Function.update_of_ne h]
    have hself : Function.update (fun p => x (.inl p)) p (x (.inl p)) = fun p => x (.inl p) := Function.update_eq_self _ _
    have := hasDerivAt_averaged M (s := x (.inl p))
      (xi := fun s => Spec.unobserved M.X1 (delta (Function.update (fun p => x (.inl p)) p s)) fun k => x (.inr (.inl k)))
      (omega := fun s => Spec.unobserved M.X3 (costs (Function.update (fun p => x (.inl p)) p s)) fun k => x (.inr (.inr k)))
      (phi := fun s => phi (Function.update (fun p => x (.inl p)) p s))
      (micro := fun s => micro (Function.update (fun p => x (.inl p)) p s)) mean (location p)
      (fun i => (hdelta p i).sub_const _) (fun i => (hcosts p i).sub_const _) (phi_path hphi _ p) (hmicro p)
      (fun h => hsupply h p) r
    simp only [htheta]
    simp only [hself] at this
    refine (this.congr_deriv ?_)
    rcases r with (c | c) | c <;> rfl
  · have htheta : ∀ s, (fun p' => Function.update x (.inr (.inl k)) s (.inl p')) = fun p => x (.inl p) := by
      intro s
      funext p'
      simp
    have hb : ∀ s, (fun k' => Function.update x (.inr (.inl k)) s (.inr (.inl k'))) = Function.update (fun k => x (.inr (.inl k))) k s := by
      intro s
      funext k'
      by_cases h : k' = k
      · subst h
        simp
      · simp [Function.update_of_ne h]
    have hg : ∀ s, (fun k' => Function.update x (.inr (.inl k)) s (.inr (.inr k'))) = fun k => x (.inr (.inr k)) := by
      intro s
      funext k'
      simp
    have hself : Function.update (fun k => x (.inr (.inl k))) k (x (.inr (.inl k))) = fun k => x (.inr (.inl k)) :=
      Function.update_eq_self _ _
    have hlin := unobserved_path M.X1 (delta fun p => x (.inl p)) (fun k => x (.inr (.inl k))) k
    have := hasDerivAt_averaged M (s := x (.inr (.inl k)))
      (xi := fun s => Spec.unobserved M.X1 (delta fun p => x (.inl p)) (Function.update (fun k => x (.inr (.inl k))) k s))
      (omega := fun s => Spec.unobserved M.X3 (costs fun p => x (.inl p)) fun k => x (.inr (.inr k)))
      (phi := fun s => phi fun p => x (.inl p)) (micro := fun s => micro fun p => x (.inl p)) mean none
      hlin (fun i => hasDerivAt_const _ _) (fun r c => hasDerivAt_const _ _) (fun c => hasDerivAt_const _ _) (by simp) r
    simp only [htheta, hb, hg]
    simp only [hself] at this
    refine (this.congr_deriv ?_)
    rcases r with (c | c) | c
    · rfl
    · simp [MomentData.meanG, concat, gmmMomentsJacobianMean, MomentData.reportedCovariance]
    · rfl
  · have htheta : ∀ s, (fun p' => Function.update x (.inr (.inr k)) s (.inl p')) = fun p => x (.inl p) := by
      intro s
      funext p'
      simp
    have hb : ∀ s, (fun k' => Function.update x (.inr (.inr k)) s (.inr (.inr k'))) = Function.update (fun k => x (.inr (.inr k))) k s := by
      intro s
      funext k'
      by_cases h : k' = k
      · subst h
        simp
      · simp [Function.update_of_ne h]
    have hg : ∀ s, (fun k' => Function.update x (.inr (.inr k)) s (.inr (.inl k'))) = fun k => x (.inr (.inl k)) := by
      intro s
      funext k'
      simp
    have hself : Function.update (fun k => x (.inr (.inr k))) k (x (.inr (.inr k))) = fun k => x (.inr (.inr k)) :=
      Function.update_eq_self _ _
    have hlin := unobserved_path M.X3 (costs fun p => x (.inl p)) (fun k => x (.inr (.inr k))) k
    have := hasDerivAt_averaged M (s := x (.inr (.inr k)))
      (xi := fun s => Spec.unobserved M.X1 (delta fun p => x (.inl p)) fun k => x (.inr (.inl k)))
      (omega := fun s => Spec.unobserved M.X3 (costs fun p => x (.inl p)) (Function.update (fun k => x (.inr (.inr k))) k s))
      (phi := fun s => phi fun p => x (.inl p)) (micro := fun s => micro fun p => x (.inl p)) mean none
      (fun i => hasDerivAt_const _ _) hlin (fun r c => hasDerivAt_const _ _) (fun c => hasDerivAt_const _ _) (by simp) r
    simp only [htheta, hb, hg]
    simp only [hself] at this
    refine (this.congr_deriv ?_)
    rcases r with (c | c) | c
    · rfl
    · simp [MomentData.meanG, concat, gmmMomentsJacobianMean, MomentData.reportedCovariance]
    · rfl

/-- Parameters at which results are reported: theta, and linear parameters that are concentrated out given theta. -/
def reportedParameters (M : MomentData N nd ns m q b g) (C : Matrix (b ⊕ g) (b ⊕ g) ℝ) (W : Matrix (MomentIndex m) (MomentIndex m) ℝ)
    (phi : Fin 2 → Fin 2 → ℝ) (delta costs : Fin N → ℝ) (theta : θ → ℝ) : θ ⊕ b ⊕ g → ℝ :=
  Sum.elim theta (M.linearParameters C W phi delta costs)

/-- **C93, without covariance moments.** Each element of the reported Jacobian is the derivative of the averaged moment with respect to
the parameter, other parameters held fixed. Missing: with covariance moments this is false, see `C93_refuted`. -/
theorem C93_jacobian_partial [IsEmpty q] (M : MomentData N nd ns m q b g) (delta costs : (θ → ℝ) → Fin N → ℝ)
    (phi : (θ → ℝ) → Fin 2 → Fin 2 → ℝ) (mean : ℝ) (micro : (θ → ℝ) → d → ℝ) (location : θ → Option (Fin 2 × Fin 2))
    (theta : θ → ℝ) (delta' costs' : Matrix (Fin N) θ ℝ) (micro' : Matrix d θ ℝ)
    (hdelta : ∀ p i, HasDerivAt (fun s => delta (Function.update theta p s) i) (delta' i p) (theta p))
    (hcosts : ∀ p i, HasDerivAt (fun s => costs (Function.update theta p s) i) (costs' i p) (theta p))
    (hmicro : ∀ p c, HasDerivAt (fun s => micro (Function.update theta p s) c) (micro' c p) (theta p))
    (hphi : Spec.IsPhi location phi) (hsupply : M.hasSupply = false → ∀ p l, location p = some l → l = (0, 0))
    (C : Matrix (b ⊕ g) (b ⊕ g) ℝ) (W : Matrix (MomentIndex m) (MomentIndex m) ℝ)
    (r : (MomentIndex m ⊕ q) ⊕ d) (p : θ ⊕ b ⊕ g) :
    let x := reportedParameters M C W (phi theta) (delta theta) (costs theta) theta
    HasDerivAt (fun s => Spec.parametricMoments M delta costs phi mean micro (Function.update x p s) r)
      (M.momentsJacobian C W (phi theta) (delta theta) (costs theta) delta' costs' location micro' r p) (x p) := by
  intro x
  have hconv : M.converts = false := by simp [MomentData.converts]
  have h1 : (Matrix.of fun i p => M.xiJacobian C W (phi theta) (delta'.col p) (costs'.col p) i) = delta' := by
    ext i p
    rw [Matrix.of_apply]
    unfold MomentData.xiJacobian
    cases h : levelsIndex M.demand with
    | none => rfl
    | some e => simp [MomentData.jacobians, hconv, MomentData.equations, levelsIndex_some h]
  have h2 : (Matrix.of fun i p => M.omegaJacobian C W (phi theta) (delta'.col p) (costs'.col p) i) = costs' := by
    ext i p
    rw [Matrix.of_apply]
    unfold MomentData.omegaJacobian
    cases h : levelsIndex M.supply with
    | none => rfl
    | some e => simp [MomentData.jacobians, hconv, MomentData.equations, levelsIndex_some h]
  unfold MomentData.momentsJacobian
  rw [h1, h2, xi_eq, omega_eq]
  exact meanG_hasDerivAt M delta costs phi mean micro location x delta' costs' micro' hdelta hcosts hmicro hphi hsupply r p

/-! ### Covariance moments -/

theorem levelsIndex_of_all {n : ℕ} [NeZero n] {types : Fin n → MomentType} (h : ∀ i, types i = .levels) :
    ∃ i, levelsIndex types = some i := by
  cases hf : levelsIndex types with
  | some i => exact ⟨i, rfl⟩
  | none =>
    have := List.find?_eq_none.1 hf 0 (List.mem_finRange _)
    simp [h 0, MomentType.isLevels] at this

/-- How linear parameters respond to each element of theta when they are concentrated out. -/
def linearResponse (M : MomentData N nd ns m q b g) (C : Matrix (b ⊕ g) (b ⊕ g) ℝ) (W : Matrix (MomentIndex m) (MomentIndex m) ℝ)
    (phi : Fin 2 → Fin 2 → ℝ) (delta' costs' : Matrix (Fin N) θ ℝ) : Matrix (b ⊕ g) θ ℝ :=
  Matrix.of fun c p => M.linearParameters C W phi (delta'.col p) (costs'.col p) c

theorem ivJacobian_eq {ε n k : Type} {m : ε → Type} [Fintype ε] [DecidableEq ε] [Fintype n] [Fintype k] [∀ e, Fintype (m e)]
    (C : Matrix k k ℝ) (X : ε → Matrix n k ℝ) (Z : (e : ε) → Matrix n (m e) ℝ) (W : Matrix (MomentIndex m) (MomentIndex m) ℝ)
    (y : ε → n → ℝ) : ivJacobian C X Z W y = ivResiduals C X Z W y := by
  funext e i
  simp only [ivJacobian, ivResiduals, ivParameters, mulVec_mulVec, Matrix.mul_assoc]

theorem xiJacobian_converted [Nonempty q] [NeZero nd] (M : MomentData N nd ns m q b g) (hdemand : ∀ e, M.demand e = .levels)
    (C : Matrix (b ⊕ g) (b ⊕ g) ℝ) (W : Matrix (MomentIndex m) (MomentIndex m) ℝ) (phi : Fin 2 → Fin 2 → ℝ) (delta' costs' : Fin N → ℝ) :
    M.xiJacobian C W phi delta' costs' =
      Spec.unobserved M.X1 delta' fun k => M.linearParameters C W phi delta' costs' (.inl k) := by
  obtain ⟨e, he⟩ := levelsIndex_of_all hdemand
  have hconv : M.converts = true := by simp [MomentData.converts, Fintype.card_pos]
  rw [← xi_eq]
  simp [MomentData.xiJacobian, MomentData.xi, he, MomentData.jacobians, hconv, ivJacobian_eq, MomentData.residuals]

theorem omegaJacobian_converted [Nonempty q] [NeZero ns] (M : MomentData N nd ns m q b g) (hsupply : ∀ e, M.supply e = .levels)
    (C : Matrix (b ⊕ g) (b ⊕ g) ℝ) (W : Matrix (MomentIndex m) (MomentIndex m) ℝ) (phi : Fin 2 → Fin 2 → ℝ) (delta' costs' : Fin N → ℝ) :
    M.omegaJacobian C W phi delta' costs' =
      Spec.unobserved M.X3 costs' fun k => M.linearParameters C W phi delta' costs' (.inr k) := by
  obtain ⟨e, he⟩ := levelsIndex_of_all hsupply
  have hconv : M.converts = true := by simp [MomentData.converts, Fintype.card_pos]
  rw [← omega_eq]
  simp [MomentData.omegaJacobian, MomentData.omega, he, MomentData.jacobians, hconv, ivJacobian_eq, MomentData.residuals]

/-- Theta as it is, and linear parameters less their responses to theta. -/
def lessResponse (B : Matrix (b ⊕ g) θ ℝ) : Matrix (θ ⊕ b ⊕ g) (θ ⊕ b ⊕ g) ℝ := Matrix.fromBlocks 1 0 (-B) 1

theorem average_unobserved {k : Type} [Fintype k] (X : Matrix (Fin N) k ℝ) (y : Fin N → ℝ) (l : k → ℝ) (z : Fin N → ℝ) :
    (∑ i, Spec.unobserved X y l i * z i) / (N : ℝ) = (∑ i, y i * z i) / (N : ℝ) + ∑ c, (-∑ i, X i c * z i) / (N : ℝ) * l c := by
  have : ∑ c, (-∑ i, X i c * z i) / (N : ℝ) * l c = -((∑ i, (∑ c, X i c * l c) * z i) / (N : ℝ)) := by
    simp only [neg_div, neg_mul, Finset.sum_neg_distrib, div_mul_eq_mul_div, ← Finset.sum_div, Finset.sum_mul]
    rw [Finset.sum_comm]
    congr 2
    exact Finset.sum_congr rfl fun i _ => Finset.sum_congr rfl fun c _ => by ring
  rw [this]
  simp only [Spec.unobserved, sub_mul, Finset.sum_sub_distrib]
  ring

/-- With covariance moments, columns of the reported Jacobian for theta have contributions of the linear parameters' responses. -/
theorem momentsJacobian_converted [Nonempty q] [NeZero nd] [NeZero ns] (M : MomentData N nd ns m q b g)
    (hdemand : ∀ e, M.demand e = .levels) (hlevels : ∀ e, M.supply e = .levels)
    (C : Matrix (b ⊕ g) (b ⊕ g) ℝ) (W : Matrix (MomentIndex m) (MomentIndex m) ℝ) (phi : Fin 2 → Fin 2 → ℝ) (delta costs : Fin N → ℝ)
    (delta' costs' : Matrix (Fin N) θ ℝ) (location : θ → Option (Fin 2 × Fin 2)) (micro' : Matrix d θ ℝ) :
    M.momentsJacobian C W phi delta costs delta' costs' location micro' =
      M.meanG phi delta' costs' (M.xi C W phi delta costs) (M.omega C W phi delta costs) location micro' *
        Matrix.fromBlocks 1 0 (linearResponse M C W phi delta' costs') 1 := by
  have hphi : ∀ l xi omega e, M.phiContribution l xi omega e = 0 := by
    intro l xi omega e
    rcases l with _ | l
    · rfl
    · rcases e with e | e <;> simp [MomentData.phiContribution, hdemand, hlevels]
  ext r p
  rw [Matrix.mul_apply, Fintype.sum_sum_type]
  rcases p with p | p
  · rcases r with (⟨e | e, c⟩ | c) | c
    · simp [MomentData.momentsJacobian, MomentData.meanG, concat, hphi, gmmMomentsJacobianMean, MomentData.equations, hdemand,
        MomentData.reportedXi, Matrix.one_apply, xiJacobian_converted M hdemand, linearResponse]
      exact average_unobserved M.X1 _ _ _
    · simp [MomentData.momentsJacobian, MomentData.meanG, concat, hphi, gmmMomentsJacobianMean, MomentData.equations, hlevels,
        MomentData.reportedOmega, Matrix.one_apply, omegaJacobian_converted M hlevels, linearResponse]
      exact average_unobserved M.X3 _ _ _
    · simp [MomentData.momentsJacobian, MomentData.meanG, concat, gmmMomentsJacobianMean,
        MomentData.reportedCovariance, Matrix.one_apply, xiJacobian_converted M hdemand, omegaJacobian_converted M hlevels,
        linearResponse]
      have h1 := average_unobserved M.X1 (delta'.col p) (fun k => M.linearParameters C W phi (delta'.col p) (costs'.col p) (.inl k))
        (fun i => M.omega C W phi delta costs i * M.ZC i c)
      have h2 := average_unobserved M.X3 (costs'.col p) (fun k => M.linearParameters C W phi (delta'.col p) (costs'.col p) (.inr k))
        (fun i => M.xi C W phi delta costs i * M.ZC i c)
      simp only [Matrix.col_apply] at h1 h2
      simp only [mul_left_comm _ (M.xi C W phi delta costs _)] at h2
      simp only [← mul_assoc] at h1 h2
      simp only [add_mul, Finset.sum_add_distrib, add_div]
      rw [h1, h2]
      ring
    · simp [MomentData.momentsJacobian, MomentData.meanG, concat, Matrix.one_apply]
  · have : ∀ c : b ⊕ g, M.momentsJacobian C W phi delta costs delta' costs' location micro' r (.inr c) =
        M.meanG phi delta' costs' (M.xi C W phi delta costs) (M.omega C W phi delta costs) location micro' r (.inr c) := by
      intro c
      rcases c with c | c <;> rcases r with (⟨e | e, k⟩ | k) | k <;> rfl
    rw [this]
    simp [Matrix.one_apply]

/-- **C93, with covariance moments.** Columns of the reported Jacobian for theta are derivatives of averaged moments when linear
parameters are concentrated out again as theta changes, and not when they are held fixed. -/
theorem C93_total [Nonempty q] [NeZero nd] [NeZero ns] (M : MomentData N nd ns m q b g)
    (hdemand : ∀ e, M.demand e = .levels) (hlevels : ∀ e, M.supply e = .levels) (delta costs : (θ → ℝ) → Fin N → ℝ)
    (phi : Fin 2 → Fin 2 → ℝ) (mean : ℝ) (micro : (θ → ℝ) → d → ℝ) (location : θ → Option (Fin 2 × Fin 2))
    (theta : θ → ℝ) (delta' costs' : Matrix (Fin N) θ ℝ) (micro' : Matrix d θ ℝ)
    (hdelta : ∀ p i, HasDerivAt (fun s => delta (Function.update theta p s) i) (delta' i p) (theta p))
    (hcosts : ∀ p i, HasDerivAt (fun s => costs (Function.update theta p s) i) (costs' i p) (theta p))
    (hmicro : ∀ p c, HasDerivAt (fun s => micro (Function.update theta p s) c) (micro' c p) (theta p))
    (C : Matrix (b ⊕ g) (b ⊕ g) ℝ) (W : Matrix (MomentIndex m) (MomentIndex m) ℝ) (r : (MomentIndex m ⊕ q) ⊕ d) (p : θ) :
    HasDerivAt (fun s => Spec.parametricMoments M delta costs (fun _ => phi) mean micro
        (reportedParameters M C W phi (delta (Function.update theta p s)) (costs (Function.update theta p s))
          (Function.update theta p s)) r)
      (M.momentsJacobian C W phi (delta theta) (costs theta) delta' costs' location micro' r (.inl p)) (theta p) := by
  have hy : ∀ e i, HasDerivAt (fun s => M.equations phi (delta (Function.update theta p s)) (costs (Function.update theta p s)) e i)
      (M.equations phi (delta'.col p) (costs'.col p) e i) (theta p) := by
    intro e i
    rcases e with e | e
    · simp only [MomentData.equations, hdemand]
      exact hdelta p i
    · simp only [MomentData.equations, hlevels]
      exact hcosts p i
  have hu := C75_converted C (M.regressors phi) M.Z W _ _ _ hy
  have hconv : M.converts = true := by simp [MomentData.converts, Fintype.card_pos]
  obtain ⟨e1, he1⟩ := levelsIndex_of_all hdemand
  obtain ⟨e3, he3⟩ := levelsIndex_of_all hlevels
  have hxi : ∀ i, HasDerivAt (fun s => M.xi C W phi (delta (Function.update theta p s)) (costs (Function.update theta p s)) i)
      (M.xiJacobian C W phi (delta'.col p) (costs'.col p) i) (theta p) := by
    intro i
    simp only [MomentData.xi, MomentData.xiJacobian, he1, MomentData.jacobians, hconv, if_true]
    exact hu (.inl e1) i
  have homega : ∀ i, HasDerivAt (fun s => M.omega C W phi (delta (Function.update theta p s)) (costs (Function.update theta p s)) i)
      (M.omegaJacobian C W phi (delta'.col p) (costs'.col p) i) (theta p) := by
    intro i
    simp only [MomentData.omega, MomentData.omegaJacobian, he3, MomentData.jacobians, hconv, if_true]
    exact hu (.inr e3) i
  have := hasDerivAt_averaged M (s := theta p) (phi := fun _ => phi) (micro := fun s => micro (Function.update theta p s)) mean none
    hxi homega (fun r c => hasDerivAt_const _ _) (hmicro p) (by simp) r
  simp only [xi_eq, omega_eq] at this
  refine this.congr_deriv ?_
  have hphi : ∀ l xi omega e, M.phiContribution l xi omega e = 0 := by
    intro l xi omega e
    rcases l with _ | l
    · rfl
    · rcases e with e | e <;> simp [MomentData.phiContribution, hdemand, hlevels]
  simp only [Function.update_eq_self, hphi, MomentData.momentsJacobian, MomentData.meanG, xi_eq, omega_eq]
  rcases r with (c | c) | c <;> rfl

theorem lessResponse_mul (B : Matrix (b ⊕ g) θ ℝ) : lessResponse B * Matrix.fromBlocks 1 0 B 1 = 1 := by
  simp [lessResponse, Matrix.fromBlocks_multiply, Matrix.fromBlocks_one]

theorem mul_lessResponse (B : Matrix (b ⊕ g) θ ℝ) : Matrix.fromBlocks 1 0 B 1 * lessResponse B = 1 := by
  simp [lessResponse, Matrix.fromBlocks_multiply, Matrix.fromBlocks_one]

/-- Covariances after a change of parameters. -/
theorem covariances_of_mul {c p : Type} [Fintype c] [Fintype p] [DecidableEq p] (W S : Matrix c c ℝ) (G : Matrix c p ℝ)
    (T U inverse inverse' : Matrix p p ℝ) (hUT : U * T = 1) (hTU : T * U = 1) (hinv : Gᵀ * W * G * inverse = 1)
    (hinv' : (G * T)ᵀ * W * (G * T) * inverse' = 1) (unadjusted : Bool) :
    gmmParameterCovariances W S (G * T) inverse' unadjusted = U * gmmParameterCovariances W S G inverse unadjusted * Uᵀ := by
  have hTU' : Tᵀ * Uᵀ = 1 := by rw [← Matrix.transpose_mul, hUT, Matrix.transpose_one]
  have hUT' : Uᵀ * Tᵀ = 1 := by rw [← Matrix.transpose_mul, hTU, Matrix.transpose_one]
  have hi : inverse' = U * inverse * Uᵀ := by
    have h1 : (G * T)ᵀ * W * (G * T) * (U * inverse * Uᵀ) = 1 := by
      calc (G * T)ᵀ * W * (G * T) * (U * inverse * Uᵀ) = Tᵀ * (Gᵀ * W * G * ((T * U) * inverse)) * Uᵀ := by
            simp only [Matrix.transpose_mul, Matrix.mul_assoc]
        _ = 1 := by rw [hTU, Matrix.one_mul, hinv, Matrix.mul_one, hTU']
    have h2 := mul_eq_one_comm.1 hinv'
    calc inverse' = inverse' * ((G * T)ᵀ * W * (G * T) * (U * inverse * Uᵀ)) := by rw [h1, Matrix.mul_one]
      _ = inverse' * ((G * T)ᵀ * W * (G * T)) * (U * inverse * Uᵀ) := by simp only [Matrix.mul_assoc]
      _ = U * inverse * Uᵀ := by rw [h2, Matrix.one_mul]
  have hsym : ∀ V : Matrix p p ℝ, symmetrized (U * V * Uᵀ) = U * symmetrized V * Uᵀ := by
    intro V
    have hs : ∀ V : Matrix p p ℝ, symmetrized V = (1 / 2 : ℝ) • (V + Vᵀ) := by
      intro V
      ext i j
      simp [symmetrized]
      ring
    rw [hs, hs, Matrix.transpose_mul, Matrix.transpose_mul, Matrix.transpose_transpose, Matrix.mul_smul, Matrix.smul_mul,
      Matrix.mul_add, Matrix.add_mul, Matrix.mul_assoc U Vᵀ]
  unfold gmmParameterCovariances
  rw [← hsym]
  congr 1
  cases unadjusted
  · simp only [Bool.false_eq_true, if_false]
    calc inverse' * (G * T)ᵀ * W * S * W * (G * T) * inverse' =
          U * inverse * (Uᵀ * Tᵀ) * Gᵀ * W * S * W * G * (T * U) * inverse * Uᵀ := by
            rw [hi]
            simp only [Matrix.transpose_mul, Matrix.mul_assoc]
      _ = _ := by
            rw [hUT', hTU]
            simp only [Matrix.mul_one, Matrix.mul_assoc]
  · simpa using hi

/-- **C93, covariances of parameters with covariance moments.** With `G` the actual Jacobian of moments with respect to all parameters,
reported covariances are those of theta and of linear parameters less their responses to theta. -/
theorem C93_covariances [Nonempty q] [NeZero nd] [NeZero ns] (M : MomentData N nd ns m q b g)
    (hdemand : ∀ e, M.demand e = .levels) (hlevels : ∀ e, M.supply e = .levels) (delta costs : (θ → ℝ) → Fin N → ℝ)
    (phi : Fin 2 → Fin 2 → ℝ) (mean : ℝ) (micro : (θ → ℝ) → d → ℝ)
    (theta : θ → ℝ) (delta' costs' : Matrix (Fin N) θ ℝ) (micro' : Matrix d θ ℝ)
    (hdelta : ∀ p i, HasDerivAt (fun s => delta (Function.update theta p s) i) (delta' i p) (theta p))
    (hcosts : ∀ p i, HasDerivAt (fun s => costs (Function.update theta p s) i) (costs' i p) (theta p))
    (hmicro : ∀ p c, HasDerivAt (fun s => micro (Function.update theta p s) c) (micro' c p) (theta p))
    (hsupply : M.hasSupply = true)
    (C : Matrix (b ⊕ g) (b ⊕ g) ℝ) (W : Matrix (MomentIndex m) (MomentIndex m) ℝ)
    (G : Matrix ((MomentIndex m ⊕ q) ⊕ d) (θ ⊕ b ⊕ g) ℝ)
    (hG : let x := reportedParameters M C W phi (delta theta) (costs theta) theta
      ∀ r p, HasDerivAt (fun s => Spec.parametricMoments M delta costs (fun _ => phi) mean micro (Function.update x p s) r) (G r p) (x p))
    (V S : Matrix ((MomentIndex m ⊕ q) ⊕ d) ((MomentIndex m ⊕ q) ⊕ d) ℝ)
    (inverse inverse' : Matrix (θ ⊕ b ⊕ g) (θ ⊕ b ⊕ g) ℝ) (unadjusted : Bool) :
    let reported := M.momentsJacobian C W phi (delta theta) (costs theta) delta' costs' (fun _ => none) micro'
    let U := lessResponse (linearResponse M C W phi delta' costs')
    Gᵀ * V * G * inverse = 1 → reportedᵀ * V * reported * inverse' = 1 →
      gmmParameterCovariances V S reported inverse' unadjusted = U * gmmParameterCovariances V S G inverse unadjusted * Uᵀ := by
  intro reported U hinv hinv'
  have hGeq : G = M.meanG phi delta' costs' (M.xi C W phi (delta theta) (costs theta)) (M.omega C W phi (delta theta) (costs theta))
      (fun _ => none) micro' := by
    ext r p
    refine (hG r p).unique ?_
    rw [xi_eq, omega_eq]
    exact meanG_hasDerivAt M delta costs (fun _ => phi) mean micro (fun _ => none)
      (reportedParameters M C W phi (delta theta) (costs theta) theta) delta' costs' micro' hdelta hcosts hmicro
      ⟨fun p l h => by simp at h, fun l _ _ _ => rfl⟩ (by simp [hsupply]) r p
  have hr : reported = G * Matrix.fromBlocks 1 0 (linearResponse M C W phi delta' costs') 1 := by
    rw [hGeq]
    exact momentsJacobian_converted M hdemand hlevels C W phi (delta theta) (costs theta) delta' costs' (fun _ => none) micro'
  rw [hr] at hinv' ⊢
  exact covariances_of_mul V S G _ U inverse inverse' (lessResponse_mul _) (mul_lessResponse _) hinv hinv' unadjusted

/-- **C93, standard errors of theta with covariance moments.** They are what the actual Jacobian of moments gives. -/
theorem C93_theta [Nonempty q] [NeZero nd] [NeZero ns] (M : MomentData N nd ns m q b g)
    (hdemand : ∀ e, M.demand e = .levels) (hlevels : ∀ e, M.supply e = .levels) (delta costs : (θ → ℝ) → Fin N → ℝ)
    (phi : Fin 2 → Fin 2 → ℝ) (mean : ℝ) (micro : (θ → ℝ) → d → ℝ)
    (theta : θ → ℝ) (delta' costs' : Matrix (Fin N) θ ℝ) (micro' : Matrix d θ ℝ)
    (hdelta : ∀ p i, HasDerivAt (fun s => delta (Function.update theta p s) i) (delta' i p) (theta p))
    (hcosts : ∀ p i, HasDerivAt (fun s => costs (Function.update theta p s) i) (costs' i p) (theta p))
    (hmicro : ∀ p c, HasDerivAt (fun s => micro (Function.update theta p s) c) (micro' c p) (theta p))
    (hsupply : M.hasSupply = true)
    (C : Matrix (b ⊕ g) (b ⊕ g) ℝ) (W : Matrix (MomentIndex m) (MomentIndex m) ℝ)
    (G : Matrix ((MomentIndex m ⊕ q) ⊕ d) (θ ⊕ b ⊕ g) ℝ)
    (hG : let x := reportedParameters M C W phi (delta theta) (costs theta) theta
      ∀ r p, HasDerivAt (fun s => Spec.parametricMoments M delta costs (fun _ => phi) mean micro (Function.update x p s) r) (G r p) (x p))
    (V S : Matrix ((MomentIndex m ⊕ q) ⊕ d) ((MomentIndex m ⊕ q) ⊕ d) ℝ)
    (inverse inverse' : Matrix (θ ⊕ b ⊕ g) (θ ⊕ b ⊕ g) ℝ) (unadjusted : Bool) (p p' : θ) :
    let reported := M.momentsJacobian C W phi (delta theta) (costs theta) delta' costs' (fun _ => none) micro'
    Gᵀ * V * G * inverse = 1 → reportedᵀ * V * reported * inverse' = 1 →
      gmmParameterCovariances V S reported inverse' unadjusted (.inl p) (.inl p') =
        gmmParameterCovariances V S G inverse unadjusted (.inl p) (.inl p') := by
  intro reported hinv hinv'
  rw [C93_covariances M hdemand hlevels delta costs phi mean micro theta delta' costs' micro' hdelta hcosts hmicro hsupply C W G hG V S
    inverse inverse' unadjusted hinv hinv']
  simp [Matrix.mul_apply, lessResponse, Matrix.one_apply, Fintype.sum_sum_type]

/-! ### The counterexample

Two products, a constant in each equation, one parameter in theta, and covariance instruments that are one. -/

/-- Data of the counterexample. -/
def covarianceWitness : MomentData 2 1 1 (fun _ => Unit) Unit Unit Unit where
  lag := id
  demand := fun _ => .levels
  supply := fun _ => .levels
  hasSupply := true
  Z := fun _ => Matrix.of fun _ _ => 1
  ZC := Matrix.of fun _ _ => 1
  X1 := Matrix.of fun _ _ => 1
  X3 := Matrix.of fun _ _ => 1

/-- Mean utilities `(theta, 2 theta)`. -/
def witnessDelta (theta : Unit → ℝ) : Fin 2 → ℝ := ![theta (), 2 * theta ()]

/-- Transformed costs `(theta, -theta)`. -/
def witnessCosts (theta : Unit → ℝ) : Fin 2 → ℝ := ![theta (), -theta ()]

/-- Their derivatives. -/
def witnessDelta' : Matrix (Fin 2) Unit ℝ := Matrix.of fun i _ => ![1, 2] i

/-- Their derivatives. -/
def witnessCosts' : Matrix (Fin 2) Unit ℝ := Matrix.of fun i _ => ![1, -1] i

/-- `(X'ZWZ'X)⁻¹` of the counterexample, in which `W` is the identity. -/
noncomputable def witnessInverse : Matrix (Unit ⊕ Unit) (Unit ⊕ Unit) ℝ := (1 / 4 : ℝ) • 1

/-- The actual Jacobian: rows are the demand, supply and covariance moment, and columns are theta, beta and gamma. -/
noncomputable def witnessG : Matrix ((MomentIndex (fun _ : Fin 1 ⊕ Fin 1 => Unit) ⊕ Unit) ⊕ Empty) (Unit ⊕ Unit ⊕ Unit) ℝ :=
  Matrix.of fun r p => match r, p with
    | .inl (.inl ⟨.inl _, _⟩), .inl _ => 3 / 2
    | .inl (.inl ⟨.inl _, _⟩), .inr (.inl _) => -1
    | .inl (.inl ⟨.inl _, _⟩), .inr (.inr _) => 0
    | .inl (.inl ⟨.inr _, _⟩), .inl _ => 0
    | .inl (.inl ⟨.inr _, _⟩), .inr (.inl _) => 0
    | .inl (.inl ⟨.inr _, _⟩), .inr (.inr _) => -1
    | .inl (.inr _), .inl _ => -1
    | .inl (.inr _), .inr (.inl _) => 0
    | .inl (.inr _), .inr (.inr _) => 0

theorem witness_inverse : ivCovariancesInverse (covarianceWitness.regressors 0) covarianceWitness.Z 1 * witnessInverse = 1 := by
  ext a c
  rcases a with a | a <;> rcases c with c | c <;>
    simp [ivCovariancesInverse, witnessInverse, Matrix.mul_apply, vstack, blockDiag, covarianceWitness, MomentData.regressors,
      MomentData.equations, MomentData.extendedX1, MomentData.extendedX3, Fintype.sum_prod_type, Fintype.sum_sigma, Fin.sum_univ_two,
      Fintype.sum_sum_type, Matrix.one_apply] <;> norm_num

theorem witness_parameters (delta costs : Fin 2 → ℝ) (c : Unit ⊕ Unit) :
    covarianceWitness.linearParameters witnessInverse 1 0 delta costs c =
      c.elim (fun _ => (delta 0 + delta 1) / 2) fun _ => (costs 0 + costs 1) / 2 := by
  rcases c with c | c <;>
    simp [MomentData.linearParameters, ivParameters, witnessInverse, Matrix.mul_apply, mulVec, dotProduct, vstack, blockDiag,
      covarianceWitness, MomentData.regressors, MomentData.equations, MomentData.extendedX1, MomentData.extendedX3,
      Fintype.sum_prod_type, Fintype.sum_sigma, Fin.sum_univ_two, Fintype.sum_sum_type] <;> ring

/-- The reported Jacobian of the counterexample. -/
noncomputable def witnessReported : Matrix ((MomentIndex (fun _ : Fin 1 ⊕ Fin 1 => Unit) ⊕ Unit) ⊕ Empty) (Unit ⊕ Unit ⊕ Unit) ℝ :=
  covarianceWitness.momentsJacobian witnessInverse 1 0 (witnessDelta fun _ => 1) (witnessCosts fun _ => 1) witnessDelta' witnessCosts'
    (fun _ => none) 0

theorem witness_meanG : covarianceWitness.meanG 0 witnessDelta' witnessCosts'
      (covarianceWitness.xi witnessInverse 1 0 (witnessDelta fun _ => 1) (witnessCosts fun _ => 1))
      (covarianceWitness.omega witnessInverse 1 0 (witnessDelta fun _ => 1) (witnessCosts fun _ => 1)) (fun _ => none)
      (0 : Matrix Empty Unit ℝ) = witnessG := by
  rw [xi_eq, omega_eq]
  simp only [witness_parameters]
  ext r p
  rcases r with (⟨e | e, c⟩ | c) | c <;> rcases p with p | p | p <;> try exact c.elim
  all_goals
    simp [MomentData.meanG, witnessG, concat, gmmMomentsJacobianMean, MomentData.equations, covarianceWitness, MomentData.reportedXi,
      MomentData.reportedOmega, MomentData.reportedCovariance, witnessDelta', witnessCosts', witnessDelta, witnessCosts,
      Fin.sum_univ_two, MomentData.phiContribution, Spec.unobserved] <;> norm_num

/-- The inverse of `G'G`. -/
noncomputable def witnessCovariances : Matrix (Unit ⊕ Unit ⊕ Unit) (Unit ⊕ Unit ⊕ Unit) ℝ :=
  Matrix.of fun p p' => match p, p' with
    | .inl _, .inl _ => 1
    | .inl _, .inr (.inl _) => 3 / 2
    | .inr (.inl _), .inl _ => 3 / 2
    | .inr (.inl _), .inr (.inl _) => 13 / 4
    | .inr (.inr _), .inr (.inr _) => 1
    | _, _ => 0

theorem witness_covariances : witnessGᵀ * (1 : Matrix _ _ ℝ) * witnessG * witnessCovariances = 1 := by
  rw [Matrix.mul_one]
  ext p p'
  rcases p with p | p | p <;> rcases p' with p' | p' | p' <;>
    simp [Matrix.mul_apply, witnessG, witnessCovariances, Fintype.sum_sum_type, Fintype.sum_sigma] <;> norm_num

theorem witness_reported : witnessReported = Matrix.of fun r p => match r, p with
    | .inl (.inl ⟨.inl _, _⟩), .inr (.inl _) => -1
    | .inl (.inl ⟨.inr _, _⟩), .inr (.inr _) => -1
    | .inl (.inr _), .inl _ => -1
    | _, _ => 0 := by
  unfold witnessReported
  rw [momentsJacobian_converted covarianceWitness (fun _ => rfl) (fun _ => rfl), witness_meanG]
  ext r p
  rcases r with (⟨e | e, c⟩ | c) | c <;> rcases p with p | p | p <;> try exact c.elim
  all_goals
    simp [Matrix.mul_apply, witnessG, Fintype.sum_sum_type, linearResponse, witness_parameters, witnessDelta', witnessCosts',
      Matrix.one_apply] <;> norm_num

theorem witness_reported_inverse : witnessReportedᵀ * (1 : Matrix _ _ ℝ) * witnessReported * (1 : Matrix (Unit ⊕ Unit ⊕ Unit) (Unit ⊕ Unit ⊕ Unit) ℝ) = 1 := by
  rw [Matrix.mul_one, Matrix.mul_one, witness_reported]
  ext p p'
  rcases p with p | p | p <;> rcases p' with p' | p' | p' <;>
    simp [Matrix.mul_apply, Fintype.sum_sum_type, Fintype.sum_sigma]

theorem witness_delta (p : Unit) (i : Fin 2) :
    HasDerivAt (fun s => witnessDelta (Function.update (fun _ => 1) p s) i) (witnessDelta' i p) 1 := by
  fin_cases i
  · simpa [witnessDelta, witnessDelta'] using hasDerivAt_id' (1 : ℝ)
  · simpa [witnessDelta, witnessDelta'] using (hasDerivAt_id' (1 : ℝ)).const_mul 2

theorem witness_costs (p : Unit) (i : Fin 2) :
    HasDerivAt (fun s => witnessCosts (Function.update (fun _ => 1) p s) i) (witnessCosts' i p) 1 := by
  fin_cases i
  · simpa [witnessCosts, witnessCosts'] using hasDerivAt_id' (1 : ℝ)
  · simpa [witnessCosts, witnessCosts'] using (hasDerivAt_id' (1 : ℝ)).fun_neg

/-- **C93, refutation.** With covariance moments, the reported Jacobian need not be that of the moments: here the derivative of the
demand-side moment with respect to theta is `3 / 2` and `0` is reported. Because of this, reported variances of linear parameters can be
wrong: that of the constant in mean utility is `13 / 4` and `1` is reported. All regularity conditions are met: the Jacobian has full
rank, both matrices that are inverted have inverses, and moments are differentiable. -/
theorem C93_refuted : ∃ (M : MomentData 2 1 1 (fun _ => Unit) Unit Unit Unit) (delta costs : (Unit → ℝ) → Fin 2 → ℝ)
    (delta' costs' : Matrix (Fin 2) Unit ℝ) (theta : Unit → ℝ) (C : Matrix (Unit ⊕ Unit) (Unit ⊕ Unit) ℝ)
    (G : Matrix ((MomentIndex (fun _ : Fin 1 ⊕ Fin 1 => Unit) ⊕ Unit) ⊕ Empty) (Unit ⊕ Unit ⊕ Unit) ℝ)
    (inverse inverse' : Matrix (Unit ⊕ Unit ⊕ Unit) (Unit ⊕ Unit ⊕ Unit) ℝ),
    (∀ e, M.demand e = .levels) ∧ (∀ e, M.supply e = .levels) ∧ M.hasSupply = true ∧
    (∀ p i, HasDerivAt (fun s => delta (Function.update theta p s) i) (delta' i p) (theta p)) ∧
    (∀ p i, HasDerivAt (fun s => costs (Function.update theta p s) i) (costs' i p) (theta p)) ∧
    ivCovariancesInverse (M.regressors 0) M.Z 1 * C = 1 ∧
    let x := reportedParameters M C 1 0 (delta theta) (costs theta) theta
    let reported := M.momentsJacobian C 1 0 (delta theta) (costs theta) delta' costs' (fun _ => none) (0 : Matrix Empty Unit ℝ)
    (∀ r p, HasDerivAt (fun s => Spec.parametricMoments M delta costs (fun _ => 0) 0 (fun _ _ => 0) (Function.update x p s) r)
      (G r p) (x p)) ∧
    Gᵀ * (1 : Matrix _ _ ℝ) * G * inverse = 1 ∧ reportedᵀ * (1 : Matrix _ _ ℝ) * reported * inverse' = 1 ∧
    G (.inl (.inl ⟨.inl 0, ()⟩)) (.inl ()) = 3 / 2 ∧ reported (.inl (.inl ⟨.inl 0, ()⟩)) (.inl ()) = 0 ∧
    ∀ unadjusted, gmmParameterCovariances 1 1 G inverse unadjusted (.inr (.inl ())) (.inr (.inl ())) = 13 / 4 ∧
      gmmParameterCovariances 1 1 reported inverse' unadjusted (.inr (.inl ())) (.inr (.inl ())) = 1 := by
  have hG : ∀ r p, HasDerivAt (fun s => Spec.parametricMoments covarianceWitness witnessDelta witnessCosts (fun _ => 0) 0 (fun _ _ => 0)
      (Function.update (reportedParameters covarianceWitness witnessInverse 1 0 (witnessDelta fun _ => 1) (witnessCosts fun _ => 1)
        fun _ : Unit => 1) p s) r) (witnessG r p) (reportedParameters covarianceWitness witnessInverse 1 0 (witnessDelta fun _ => 1)
          (witnessCosts fun _ => 1) (fun _ : Unit => 1) p) := by
    intro r p
    have := meanG_hasDerivAt covarianceWitness witnessDelta witnessCosts (fun _ => 0) 0 (fun _ _ => 0) (fun _ => none)
      (reportedParameters covarianceWitness witnessInverse 1 0 (witnessDelta fun _ => 1) (witnessCosts fun _ => 1) fun _ : Unit => 1)
      witnessDelta' witnessCosts' (0 : Matrix Empty Unit ℝ) witness_delta witness_costs (fun _ c => c.elim)
      ⟨fun p l h => by simp at h, fun l _ _ _ => rfl⟩ (by simp) r p
    rw [← witness_meanG, xi_eq, omega_eq]
    exact this
  refine ⟨covarianceWitness, witnessDelta, witnessCosts, witnessDelta', witnessCosts', fun _ => 1, witnessInverse, witnessG,
    witnessCovariances, 1, fun _ => rfl, fun _ => rfl, rfl, witness_delta, witness_costs, witness_inverse, hG, witness_covariances,
    witness_reported_inverse, rfl, ?_, ?_⟩
  · change witnessReported _ _ = 0
    rw [witness_reported]
    rfl
  · intro unadjusted
    have h1 : witnessCovariances * (witnessGᵀ * witnessG) * witnessCovariances = witnessCovariances := by
      have := witness_covariances
      rw [Matrix.mul_one] at this
      rw [Matrix.mul_assoc, this, Matrix.mul_one]
    have h2 : witnessReportedᵀ * witnessReported = 1 := by
      have := witness_reported_inverse
      rwa [Matrix.mul_one, Matrix.mul_one] at this
    constructor
    · cases unadjusted
      · simp only [gmmParameterCovariances, Bool.false_eq_true, if_false, Matrix.mul_one]
        rw [Matrix.mul_assoc witnessCovariances, h1]
        simp [symmetrized, witnessCovariances]
      · simp [gmmParameterCovariances, symmetrized, witnessCovariances]
    · change gmmParameterCovariances 1 1 witnessReported 1 unadjusted _ _ = 1
      cases unadjusted
      · simp only [gmmParameterCovariances, Bool.false_eq_true, if_false, Matrix.mul_one, Matrix.one_mul]
        rw [h2]
        simp [symmetrized]
      · simp [gmmParameterCovariances, symmetrized]

/-- Two periods of one product with a constant and a moment in innovations. -/
def panelWitness : MomentData 2 1 0 (fun _ => Unit) Empty Unit Empty where
  lag := ![0, 0]
  demand := fun _ => .difference .innovations
  supply := Fin.elim0
  hasSupply := false
  Z := fun _ => Matrix.of fun _ _ => 1
  ZC := Matrix.of fun _ c => c.elim
  X1 := Matrix.of fun _ _ => 1
  X3 := Matrix.of fun _ c => c.elim

/-- An estimated autocorrelation. -/
noncomputable def panelPhi (theta : Unit → ℝ) (r c : Fin 2) : ℝ := if r = 0 ∧ c = 0 then theta () else 0

theorem panel_parameters (delta costs : Fin 2 → ℝ) :
    panelWitness.linearParameters ((4 : ℝ) • 1) 1 (panelPhi fun _ => 1 / 2) delta costs (.inl ()) = 2 * (delta 1 - delta 0 / 2) := by
  simp [MomentData.linearParameters, ivParameters, Matrix.mul_apply, mulVec, dotProduct, vstack, blockDiag, panelWitness,
    MomentData.regressors, MomentData.equations, MomentData.extendedX1, computeDifference, hasLag, panelPhi,
    Fintype.sum_prod_type, Fintype.sum_sigma, Fin.sum_univ_two, Fintype.sum_sum_type]
  ring

/-- `C93_jacobian_partial` applies to an estimated autocorrelation of `1 / 2`: the linear parameter is `5`, structural errors are
`(-4, -2)`, and the reported derivative of the moment with respect to the autocorrelation is `2`. -/
example :
    let x := reportedParameters panelWitness ((4 : ℝ) • 1) 1 (panelPhi fun _ => 1 / 2) ![1, 3] 0 (fun _ : Unit => 1 / 2)
    ivCovariancesInverse (panelWitness.regressors (panelPhi fun _ => 1 / 2)) panelWitness.Z 1 * ((4 : ℝ) • 1) = 1 ∧
    x (.inr (.inl ())) = 5 ∧
    HasDerivAt (fun s => Spec.parametricMoments panelWitness (fun _ => ![1, 3]) (fun _ => 0) panelPhi
      0 (fun _ => (Empty.elim : Empty → ℝ)) (Function.update x (.inl ()) s) (.inl (.inl ⟨.inl 0, ()⟩))) 2 (1 / 2) := by
  intro x
  refine ⟨?_, ?_, ?_⟩
  · ext a c
    rcases a with a | a
    · rcases c with c | c
      · simp [ivCovariancesInverse, Matrix.mul_apply, vstack, blockDiag, panelWitness, MomentData.regressors,
          MomentData.equations, MomentData.extendedX1, computeDifference, hasLag, panelPhi, Fintype.sum_prod_type, Fintype.sum_sigma,
          Fin.sum_univ_two, Fintype.sum_sum_type]
        norm_num
      · exact c.elim
    · exact a.elim
  · refine (panel_parameters ![1, 3] 0).trans ?_
    norm_num
  · have := C93_jacobian_partial panelWitness (fun _ => ![1, 3]) (fun _ => 0) panelPhi 0 (fun _ => (Empty.elim : Empty → ℝ))
      (fun _ => some (0, 0)) (fun _ : Unit => 1 / 2) 0 0 0 (fun _ _ => hasDerivAt_const _ _) (fun _ _ => hasDerivAt_const _ _)
      (fun _ c => c.elim)
      ⟨fun p l h theta => by simp at h; subst h; rfl, fun l h => by
        have := h ()
        intro theta theta'
        simp only [panelPhi]
        rw [if_neg, if_neg] <;>
        · rintro ⟨h1, h2⟩
          exact this (by rw [← Prod.mk.eta (p := l), h1, h2])⟩
      (fun _ p l h => by simpa using h.symm) ((4 : ℝ) • 1) 1 (.inl (.inl ⟨.inl 0, ()⟩)) (.inl ())
    refine this.congr_deriv ?_
    rw [MomentData.momentsJacobian, xi_eq, omega_eq]
    have hp : ∀ k, panelWitness.linearParameters ((4 : ℝ) • 1) 1 (panelPhi fun _ => 1 / 2) ![1, 3] 0 (.inl k) = 5 := by
      intro k
      refine (panel_parameters ![1, 3] _).trans ?_
      norm_num
    have hx : ∀ a c, panelWitness.xiJacobian ((4 : ℝ) • 1) 1 (panelPhi fun _ => 1 / 2) a c = a := fun a c => rfl
    simp only [hp, hx]
    simp [MomentData.meanG, concat, gmmMomentsJacobianMean, Fin.sum_univ_two, MomentData.phiContribution, panelWitness, computeDifferenceDerivative,
      hasLag, Spec.unobserved, MomentData.equations, MomentData.reportedXi, computeDifference]
    norm_num

end Pyblp
