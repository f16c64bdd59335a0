import Verif.Model.PostEstimation
import Verif.Props.Probabilities
import Verif.Props.Relabeling

set_option linter.unusedSectionVars false

/-!
# Units of prices (C115)
-/

namespace Pyblp

variable {J A G K1 K2 : Type}

namespace Spec

/-- The same preferences with prices in other units, one of which is worth `1 / κ` of the original one: a price `t` becomes `κ * t`.
Contributions of columns to utility are unchanged, so derivatives of utility with respect to prices are divided by `κ`. For columns of
`X1` what matters is how contributions change, because everything else is in `delta`. Prices are among `S`, such as positive ones for
formulas with logs of prices. -/
structure InUnits (S : Set ℝ) (κ : ℝ) (c c' : Characteristic J A K1 K2) : Prop where
  delta : c'.delta = c.delta
  x0 : ∀ j, c'.x0 j = κ * c.x0 j
  stored : ∀ j, c.x0 j ∈ S
  has1 : c'.has1 = c.has1
  x1 : ∀ k j, ∀ t ∈ S, ∀ t₀ ∈ S, c.has1 k = true →
    c'.beta k * (c'.x1 k j (κ * t) - c'.x1 k j (κ * t₀)) = c.beta k * (c.x1 k j t - c.x1 k j t₀)
  d1 : ∀ k j, ∀ t ∈ S, c.has1 k = true → c'.d1 k j (κ * t) * c'.beta k = c.d1 k j t * c.beta k / κ
  dd1 : ∀ k j, ∀ t ∈ S, c.has1 k = true → c'.dd1 k j (κ * t) * c'.beta k = c.dd1 k j t * c.beta k / κ ^ 2
  has2 : c'.has2 = c.has2
  x2 : ∀ k j i, ∀ t ∈ S, c'.x2 k j (κ * t) * c'.coef k i j = c.x2 k j t * c.coef k i j
  d2 : ∀ k j i, ∀ t ∈ S, c.has2 k = true → c'.d2 k j (κ * t) * c'.coef k i j = c.d2 k j t * c.coef k i j / κ
  dd2 : ∀ k j i, ∀ t ∈ S, c.has2 k = true → c'.dd2 k j (κ * t) * c'.coef k i j = c.dd2 k j t * c.coef k i j / κ ^ 2

/-- Prices in the other units. -/
def inUnits (κ : ℝ) (x : J → ℝ) : J → ℝ := fun j => κ * x j

end Spec

open Spec

section Market

variable [Fintype J] [DecidableEq J] [Nonempty J] [Fintype G] [DecidableEq G] [Fintype A] [Fintype K1] [Fintype K2]
  {S : Set ℝ} {κ : ℝ} {c c' : Characteristic J A K1 K2} (m : Market J A G)

theorem units_delta (hc : InUnits S κ c c') (x : J → ℝ) (hx : ∀ j, x j ∈ S) : updateDelta c' (inUnits κ x) = updateDelta c x := by
  funext j
  unfold updateDelta
  rw [hc.delta, hc.has1]
  congr 1
  refine Finset.sum_congr rfl fun k hk => ?_
  rw [hc.x0 j]
  exact hc.x1 k j (x j) (hx j) (c.x0 j) (hc.stored j) (Finset.mem_filter.1 hk).2

theorem units_mu (hc : InUnits S κ c c') (x : J → ℝ) (hx : ∀ j, x j ∈ S) : updateMu c' (inUnits κ x) = updateMu c x := by
  funext j i
  unfold updateMu
  refine Finset.sum_congr rfl fun k _ => ?_
  rw [hc.has2, hc.x0 j]
  split
  · exact hc.x2 k j i (x j) (hx j)
  · exact hc.x2 k j i (c.x0 j) (hc.stored j)

theorem units_probabilities (hc : InUnits S κ c c') (x : J → ℝ) (hx : ∀ j, x j ∈ S) : probabilitiesAt m c' (inUnits κ x) = probabilitiesAt m c x := by
  unfold probabilitiesAt
  rw [units_delta hc x hx, units_mu hc x hx]

theorem units_conditionals (hc : InUnits S κ c c') (x : J → ℝ) (hx : ∀ j, x j ∈ S) : conditionalsAt m c' (inUnits κ x) = conditionalsAt m c x := by
  unfold conditionalsAt
  rw [units_delta hc x hx, units_mu hc x hx]

theorem units_shares (hc : InUnits S κ c c') (x : J → ℝ) (hx : ∀ j, x j ∈ S) : sharesAt m c' (inUnits κ x) = sharesAt m c x := by
  funext j
  unfold sharesAt
  rw [units_probabilities m hc x hx]

theorem units_derivatives (hc : InUnits S κ c c') (x : J → ℝ) (hx : ∀ j, x j ∈ S) :
    utilityDerivatives m c' (inUnits κ x) = fun j i => utilityDerivatives m c x j i / κ := by
  funext j i
  have h1 : (∑ k, (if c'.has1 k then c'.d1 k j (inUnits κ x j) else 0) * c'.beta k) =
      (∑ k, (if c.has1 k then c.d1 k j (x j) else 0) * c.beta k) / κ := by
    rw [Finset.sum_div]
    refine Finset.sum_congr rfl fun k _ => ?_
    rw [hc.has1]
    by_cases hk : c.has1 k = true
    · rw [if_pos hk, if_pos hk]
      exact hc.d1 k j (x j) (hx j) hk
    · rw [if_neg hk, if_neg hk]
      simp
  have h2 : (∑ k, (if c'.has2 k then c'.d2 k j (inUnits κ x j) else 0) * c'.coef k i j) =
      (∑ k, (if c.has2 k then c.d2 k j (x j) else 0) * c.coef k i j) / κ := by
    rw [Finset.sum_div]
    refine Finset.sum_congr rfl fun k _ => ?_
    rw [hc.has2]
    by_cases hk : c.has2 k = true
    · rw [if_pos hk, if_pos hk]
      exact hc.d2 k j i (x j) (hx j) hk
    · rw [if_neg hk, if_neg hk]
      simp
  unfold utilityDerivatives
  simp only [h1, h2]
  split
  · ring
  · ring

theorem units_second (hc : InUnits S κ c c') (x : J → ℝ) (hx : ∀ j, x j ∈ S) :
    utilitySecondDerivatives m c' (inUnits κ x) = fun j i => utilitySecondDerivatives m c x j i / κ ^ 2 := by
  funext j i
  have h1 : (∑ k, (if c'.has1 k then c'.dd1 k j (inUnits κ x j) else 0) * c'.beta k) =
      (∑ k, (if c.has1 k then c.dd1 k j (x j) else 0) * c.beta k) / κ ^ 2 := by
    rw [Finset.sum_div]
    refine Finset.sum_congr rfl fun k _ => ?_
    rw [hc.has1]
    by_cases hk : c.has1 k = true
    · rw [if_pos hk, if_pos hk]
      exact hc.dd1 k j (x j) (hx j) hk
    · rw [if_neg hk, if_neg hk]
      simp
  have h2 : (∑ k, (if c'.has2 k then c'.dd2 k j (inUnits κ x j) else 0) * c'.coef k i j) =
      (∑ k, (if c.has2 k then c.dd2 k j (x j) else 0) * c.coef k i j) / κ ^ 2 := by
    rw [Finset.sum_div]
    refine Finset.sum_congr rfl fun k _ => ?_
    rw [hc.has2]
    by_cases hk : c.has2 k = true
    · rw [if_pos hk, if_pos hk]
      exact hc.dd2 k j i (x j) (hx j) hk
    · rw [if_neg hk, if_neg hk]
      simp
  unfold utilitySecondDerivatives
  simp only [h1, h2]
  split
  · ring
  · ring

theorem units_x0 (hc : InUnits S κ c c') : c'.x0 = inUnits κ c.x0 := funext hc.x0

theorem lamda_div (P U : J → A → ℝ) (j : J) : capitalLamda m P (fun j i => U j i / κ) j = capitalLamda m P U j / κ := by
  have h : ∑ i, P j i * (U j i / κ) * m.weights i = (∑ i, P j i * U j i * m.weights i) / κ := by
    rw [Finset.sum_div]
    exact Finset.sum_congr rfl fun i _ => by ring
  unfold capitalLamda
  split
  · exact h
  · rw [h]
    ring

theorem gamma_div (P C U : J → A → ℝ) (j k : J) :
    capitalGamma m P C (fun j i => U j i / κ) j k = capitalGamma m P C U j k / κ := by
  have h : ∀ Q : J → A → ℝ, ∑ i, Q j i * (m.weights i * (P k i * (U k i / κ))) = (∑ i, Q j i * (m.weights i * (P k i * U k i))) / κ := by
    intro Q
    rw [Finset.sum_div]
    exact Finset.sum_congr rfl fun i _ => by ring
  unfold capitalGamma
  split
  · exact h P
  · rw [h P, h C]
    ring

theorem jacobian_div (P C U : J → A → ℝ) (j k : J) :
    sharesJacobian m P C (fun j i => U j i / κ) j k = sharesJacobian m P C U j k / κ := by
  unfold sharesJacobian
  rw [lamda_div, gamma_div]
  split <;> ring

theorem probabilityDerivatives_div (P C U : J → A → ℝ) (l j : J) (i : A) :
    probabilityDerivatives m P C (fun j i => U j i / κ) l j i = probabilityDerivatives m P C U l j i / κ := by
  unfold probabilityDerivatives
  split <;> split <;> ring

theorem probabilitySecond_div (P C U U2 : J → A → ℝ) (l j : J) (i : A) :
    probabilityUtilitySecondDerivatives m P C (fun j i => U j i / κ) (fun j i => U2 j i / κ ^ 2) l j i =
      probabilityUtilitySecondDerivatives m P C U U2 l j i / κ ^ 2 := by
  unfold probabilityUtilitySecondDerivatives
  rw [probabilityDerivatives_div]
  split <;> ring

theorem conditionalDerivatives_div (n : Nesting J G) (C U : J → A → ℝ) (l j : J) (i : A) :
    conditionalDerivatives n C (fun j i => U j i / κ) l j i = conditionalDerivatives n C U l j i / κ := by
  unfold conditionalDerivatives
  split <;> ring

theorem lamdaTensor_div (P C U U2 : J → A → ℝ) (j l : J) :
    capitalLamdaTensor m P C (fun j i => U j i / κ) (fun j i => U2 j i / κ ^ 2) j l = capitalLamdaTensor m P C U U2 j l / κ ^ 2 := by
  unfold capitalLamdaTensor
  simp only [probabilitySecond_div]
  have h : ∑ i, probabilityUtilitySecondDerivatives m P C U U2 l j i / κ ^ 2 * m.weights i =
      (∑ i, probabilityUtilitySecondDerivatives m P C U U2 l j i * m.weights i) / κ ^ 2 := by
    rw [Finset.sum_div]
    exact Finset.sum_congr rfl fun i _ => by ring
  rw [h]
  split
  · rfl
  · ring

theorem gammaTensor_div (P C U U2 : J → A → ℝ) (j k l : J) :
    capitalGammaTensor m P C (fun j i => U j i / κ) (fun j i => U2 j i / κ ^ 2) j k l = capitalGammaTensor m P C U U2 j k l / κ ^ 2 := by
  unfold capitalGammaTensor
  simp only [probabilitySecond_div, probabilityDerivatives_div, conditionalDerivatives_div]
  have h1 : ∀ Q : A → ℝ, ∑ i, Q i / κ * (m.weights i * (P k i * (U k i / κ))) = (∑ i, Q i * (m.weights i * (P k i * U k i))) / κ ^ 2 := by
    intro Q
    rw [Finset.sum_div]
    exact Finset.sum_congr rfl fun i _ => by ring
  have h2 : ∀ Q : J → A → ℝ, ∑ i, Q j i * (m.weights i * (probabilityUtilitySecondDerivatives m P C U U2 l k i / κ ^ 2)) =
      (∑ i, Q j i * (m.weights i * probabilityUtilitySecondDerivatives m P C U U2 l k i)) / κ ^ 2 := by
    intro Q
    rw [Finset.sum_div]
    exact Finset.sum_congr rfl fun i _ => by ring
  split
  · rw [h1 fun i => probabilityDerivatives m P C U l j i, h2 P]
    ring
  · rename_i n _
    rw [h1 fun i => probabilityDerivatives m P C U l j i, h1 fun i => conditionalDerivatives n C U l j i, h2 P, h2 C]
    ring

theorem hessian_div (P C U U2 : J → A → ℝ) (j k l : J) :
    sharesHessian m P C (fun j i => U j i / κ) (fun j i => U2 j i / κ ^ 2) j k l = sharesHessian m P C U U2 j k l / κ ^ 2 := by
  unfold sharesHessian
  rw [lamdaTensor_div, gammaTensor_div]
  split <;> ring

theorem inv_div (M : Matrix J J ℝ) (hκ : κ ≠ 0) : (κ⁻¹ • M)⁻¹ = κ • M⁻¹ := by
  by_cases h : IsUnit M.det
  · have := invertibleOfNonzero (inv_ne_zero hκ)
    rw [Matrix.inv_smul _ _ h, invOf_eq_inv, inv_inv]
  · have h' : ¬ IsUnit (κ⁻¹ • M).det := by
      rw [Matrix.det_smul]
      intro hu
      exact h (isUnit_of_mul_isUnit_right hu)
    rw [Matrix.nonsing_inv_apply_not_isUnit _ h, Matrix.nonsing_inv_apply_not_isUnit _ h', smul_zero]

theorem units_capitalDelta (hc : InUnits S κ c c') (O : J → J → ℝ) : capitalDelta m c' O = κ⁻¹ • capitalDelta m c O := by
  ext j k
  simp only [capitalDelta, Matrix.of_apply, Matrix.smul_apply, smul_eq_mul, units_x0 hc, units_probabilities m hc c.x0 hc.stored,
    units_conditionals m hc c.x0 hc.stored, units_derivatives m hc c.x0 hc.stored, gamma_div, lamda_div]
  split <;> ring

theorem units_eta (hκ : κ ≠ 0) (hc : InUnits S κ c c') (O : J → J → ℝ) (s : J → ℝ) :
    computeEta m c' O s = inUnits κ (computeEta m c O s) := by
  unfold computeEta
  rw [units_capitalDelta m hc, inv_div _ hκ, Matrix.smul_mulVec]
  rfl

theorem units_passthrough (hκ : κ ≠ 0) (hc : InUnits S κ c c') (O : J → J → ℝ) (s : J → ℝ) :
    passthroughInverse m c' O s = passthroughInverse m c O s := by
  unfold passthroughInverse
  simp only [units_x0 hc, units_probabilities m hc c.x0 hc.stored, units_conditionals m hc c.x0 hc.stored, units_derivatives m hc c.x0 hc.stored, units_second m hc c.x0 hc.stored, jacobian_div,
    hessian_div]
  set P := probabilitiesAt m c c.x0
  set C := conditionalsAt m c c.x0
  set U := utilityDerivatives m c c.x0
  set U2 := utilitySecondDerivatives m c c.x0
  have h1 : (Matrix.of fun j k => sharesJacobian m P C U j k / κ : Matrix J J ℝ) = κ⁻¹ • Matrix.of fun j k => sharesJacobian m P C U j k := by
    ext j k
    simp only [Matrix.of_apply, Matrix.smul_apply, smul_eq_mul]
    ring
  have h2 : (Matrix.of fun j k => -(O j k) * (sharesJacobian m P C U j k / κ) : Matrix J J ℝ) =
      κ⁻¹ • Matrix.of fun j k => -(O j k) * sharesJacobian m P C U j k := by
    ext j k
    simp only [Matrix.of_apply, Matrix.smul_apply, smul_eq_mul]
    ring
  have h3 : ∀ l, (Matrix.of fun j k => -(O j k) * (sharesHessian m P C U U2 j k l / κ ^ 2) : Matrix J J ℝ) =
      (κ⁻¹ * κ⁻¹) • Matrix.of fun j k => -(O j k) * sharesHessian m P C U U2 j k l := by
    intro l
    ext j k
    simp only [Matrix.of_apply, Matrix.smul_apply, smul_eq_mul]
    rw [div_eq_mul_inv, pow_two, mul_inv]
    ring
  simp only [h1, h2, h3, inv_div _ hκ, Matrix.smul_mul, Matrix.mul_smul, smul_smul]
  have e1 : κ * (κ⁻¹ * κ⁻¹ * κ) = 1 := by field_simp
  have e2 : κ⁻¹ * κ = 1 := by field_simp
  simp only [mul_comm, mul_assoc] at *
  simp [hκ]

/-! ## Iteration -/

open Classical

/-- A vector times a number. -/
def FVec.scale (κ : ℝ) (x : FVec J) : FVec J := fun j => (x j).map fun a => κ * a

/-- What a routine returns, times a number. -/
def IterResult.scale (κ : ℝ) (r : IterResult J) : IterResult J := ⟨r.x.scale κ, r.converged, r.calls⟩

theorem scale_finite (x : FVec J) : (x.scale κ).Finite ↔ x.Finite := by
  unfold FVec.Finite FVec.scale
  simp

theorem scale_sub (x y : FVec J) : (x.scale κ).sub (y.scale κ) = (x.sub y).scale κ := by
  funext j
  simp only [FVec.sub, FVec.scale]
  cases x j with
  | none => rfl
  | some a =>
    cases y j with
    | none => rfl
    | some b => simp [mul_sub]

theorem scale_mul (hκ : κ ≠ 0) (x y : FVec J) : (x.scale κ⁻¹).mul (y.scale κ) = x.mul y := by
  funext j
  simp only [FVec.mul, FVec.scale]
  cases x j with
  | none => rfl
  | some a =>
    cases y j with
    | none => rfl
    | some b =>
      simp only [Option.map_some, Option.bind_some]
      congr 1
      field_simp

/-- Contractions of prices in other units, weighted by derivatives with respect to them. -/
def ScaledContraction (κ : ℝ) (f f' : Contraction J) : Prop :=
  ∀ n x, (f' n (x.scale κ)).1 = (f n x).1.scale κ ∧ ∃ w, (f n x).2 = some w ∧ (f' n (x.scale κ)).2 = some (w.scale κ⁻¹)

theorem scale_evaluate (hκ : κ ≠ 0) (o : IterOptions J) {f f' : Contraction J} (hf : ScaledContraction κ f f') (n : ℕ) (fb x : FVec J) :
    evaluate o f' n (fb.scale κ) (x.scale κ) =
      match evaluate o f n fb x with
      | .stop r => .stop (r.scale κ)
      | .go y => .go (y.scale κ) := by
  obtain ⟨h1, w, h2, h3⟩ := hf n x
  unfold evaluate
  rw [show f' n (x.scale κ) = ((f n x).1.scale κ, some (w.scale κ⁻¹)) from Prod.ext h1 h3,
    show f n x = ((f n x).1, some w) from Prod.ext rfl h2]
  simp only
  have hfin : allFinite ((f n x).1.scale κ) (some (w.scale κ⁻¹)) ↔ allFinite (f n x).1 (some w) := by
    unfold allFinite
    simp [scale_finite]
  by_cases hx : allFinite (f n x).1 (some w)
  · rw [if_neg (not_not.2 hx), if_neg (not_not.2 (hfin.2 hx))]
    have ht : terminationCheck o.norm o.atol o.rtol ((f n x).1.scale κ) (((f n x).1.scale κ).sub (x.scale κ)) (some (w.scale κ⁻¹)) ↔
        terminationCheck o.norm o.atol o.rtol (f n x).1 ((f n x).1.sub x) (some w) := by
      unfold terminationCheck
      simp only [weightBy, scale_sub, scale_mul hκ]
    rw [ht]
    split <;> rfl
  · rw [if_pos hx, if_pos (mt hfin.1 hx)]
    rfl

theorem scale_simpleLoop (hκ : κ ≠ 0) (o : IterOptions J) {f f' : Contraction J} (hf : ScaledContraction κ f f') (n : ℕ) (x : FVec J) :
    simpleLoop o f' n (x.scale κ) = (simpleLoop o f n x).scale κ := by
  induction hk : o.maxEvaluations - n using Nat.strong_induction_on generalizing n x with
  | _ k ih =>
    have he := scale_evaluate hκ o hf n x x
    rw [simpleLoop, simpleLoop]
    cases h : evaluate o f n x x with
    | stop r =>
      rw [h] at he
      split
      · rename_i r' h'
        rw [he] at h'
        cases h'
        rfl
      · rename_i y h'
        rw [he] at h'
        cases h'
    | go y =>
      rw [h] at he
      have hlt := evaluate_go h
      split
      · rename_i r' h'
        rw [he] at h'
        cases h'
      · rename_i y' h'
        rw [he] at h'
        cases h'
        exact ih (o.maxEvaluations - (n + 1)) (by omega) (n + 1) y rfl

theorem scale_fdot (x y : FVec J) : fdot (x.scale κ) (y.scale κ) = (fdot x y).map fun a => κ ^ 2 * a := by
  unfold fdot
  rw [scale_finite, scale_finite]
  split
  · rename_i h
    simp only [Option.map_some]
    congr 1
    rw [Finset.mul_sum]
    refine Finset.sum_congr rfl fun j _ => ?_
    obtain ⟨a, ha⟩ := Option.isSome_iff_exists.1 (h.1 j)
    obtain ⟨b, hb⟩ := Option.isSome_iff_exists.1 (h.2 j)
    simp only [FVec.scale, ha, hb, Option.map_some, Option.getD_some]
    ring
  · rfl

theorem scale_fdiv (hκ : κ ≠ 0) (neg : Bool) (a b : Option ℝ) :
    fdiv neg (a.map fun a => κ ^ 2 * a) (b.map fun b => κ ^ 2 * b) = fdiv neg a b := by
  have hp : 0 < κ ^ 2 := by positivity
  cases a with
  | none => rfl
  | some a =>
    cases b with
    | none => rfl
    | some b =>
      simp only [Option.map_some, fdiv]
      have h1 : κ ^ 2 * b ≠ 0 ↔ b ≠ 0 := by simp [hκ]
      have h2 : κ ^ 2 * a = 0 ↔ a = 0 := by simp [hκ]
      have h3 : 0 < κ ^ 2 * a ↔ 0 < a := mul_pos_iff_of_pos_left hp
      simp only [h1, h2, h3, mul_div_mul_left _ _ hp.ne']

theorem scale_boundedStep (hκ : κ ≠ 0) (neg : Bool) (scheme : ℕ) (stepMin stepMax : ℝ) (r v : FVec J) :
    boundedStep neg scheme stepMin stepMax (r.scale κ) (v.scale κ) = boundedStep neg scheme stepMin stepMax r v := by
  unfold boundedStep rawStep
  simp only [scale_fdot, scale_fdiv hκ]

theorem scale_accelerate (x r v : FVec J) (alpha : Option ℝ) :
    accelerate (x.scale κ) (r.scale κ) (v.scale κ) alpha = (accelerate x r v alpha).scale κ := by
  funext j
  simp only [accelerate, FVec.scale]
  cases x j <;> cases r j <;> cases v j <;> cases alpha <;> simp
  ring

theorem scale_squaremLoop (hκ : κ ≠ 0) (o : IterOptions J) {f f' : Contraction J} (hf : ScaledContraction κ f f') (s : SquaremOptions)
    (n : ℕ) (stepMin stepMax : ℝ) (x : FVec J) :
    squaremLoop o s f' n stepMin stepMax (x.scale κ) = (squaremLoop o s f n stepMin stepMax x).scale κ := by
  induction hk : o.maxEvaluations - n using Nat.strong_induction_on generalizing n stepMin stepMax x with
  | _ k ih =>
    have he := scale_evaluate hκ o hf n x x
    rw [squaremLoop, squaremLoop]
    cases h : evaluate o f n x x with
    | stop r =>
      rw [h] at he
      split
      · rename_i r' h'
        rw [he] at h'
        cases h'
        rfl
      · rename_i y h'
        rw [he] at h'
        cases h'
    | go x1 =>
      rw [h] at he
      have hlt := evaluate_go h
      split
      · rename_i r' h'
        rw [he] at h'
        cases h'
      · rename_i y' h'
        rw [he] at h'
        cases h'
        rw [scale_evaluate hκ o hf (n + 1) x1 x1]
        cases h2 : evaluate o f (n + 1) x1 x1 with
        | stop r => rfl
        | go x2 =>
          simp only [scale_sub, scale_boundedStep hκ, scale_accelerate]
          rw [scale_evaluate hκ o hf (n + 2) x2]
          cases h3 : evaluate o f (n + 2) x2 (accelerate x (x1.sub x) ((x2.sub x1).sub (x1.sub x))
            (boundedStep (s.negZero n) s.scheme stepMin stepMax (x1.sub x) ((x2.sub x1).sub (x1.sub x)))) with
          | stop r => rfl
          | go y =>
            simp only
            exact ih (o.maxEvaluations - (n + 3)) (by omega) (n + 3) _ _ y rfl

theorem scaledContraction_ofReal {f f' v v' : (J → ℝ) → J → ℝ} (hf : ∀ x, f' (inUnits κ x) = inUnits κ (f x))
    (hv : ∀ x, v' (inUnits κ x) = inUnits κ⁻¹ (v x)) :
    ScaledContraction κ (Contraction.ofReal f (some v)) (Contraction.ofReal f' (some v')) := by
  intro n x
  unfold Contraction.ofReal
  rw [scale_finite]
  by_cases hx : x.Finite
  · rw [if_pos hx, if_pos hx]
    have hval : (fun k => ((x.scale κ) k).getD 0) = inUnits κ fun k => (x k).getD 0 := by
      funext k
      obtain ⟨a, ha⟩ := Option.isSome_iff_exists.1 (hx k)
      simp [FVec.scale, inUnits, ha]
    refine ⟨?_, _, rfl, ?_⟩
    · funext j
      simp only [hval, hf]
      rfl
    · simp only [hval, hv, Option.map_some]
      rfl
  · rw [if_neg hx, if_neg hx]
    exact ⟨rfl, _, rfl, rfl⟩

theorem scale_solve (hκ : κ ≠ 0) (routine : Routine) (l : Limits) {f f' v v' : (J → ℝ) → J → ℝ}
    (hf : ∀ x, f' (inUnits κ x) = inUnits κ (f x)) (hv : ∀ x, v' (inUnits κ x) = inUnits κ⁻¹ (v x)) (initial : J → ℝ) :
    routine.solve l f' (some v') (inUnits κ initial) = (routine.solve l f (some v) initial).scale κ := by
  have hc := scaledContraction_ofReal hf hv
  unfold Routine.solve
  cases routine with
  | simple => exact scale_simpleLoop hκ _ hc 0 fun j => some (initial j)
  | squarem s stepMin stepMax => exact scale_squaremLoop hκ _ hc s 0 stepMin stepMax fun j => some (initial j)
  | returned => rfl

theorem units_lamdaInverse (hc : InUnits S κ c c') (x : J → ℝ) (hx : ∀ j, x j ∈ S) (j : J)
    (h : capitalLamda m (probabilitiesAt m c x) (utilityDerivatives m c x) j ≠ 0) (hκ : κ ≠ 0) :
    capitalLamdaInverse m c' (inUnits κ x) j = κ * capitalLamdaInverse m c x j := by
  unfold capitalLamdaInverse
  rw [units_probabilities m hc x hx, units_derivatives m hc x hx, lamda_div]
  simp only
  rw [if_neg h, if_neg (div_ne_zero h hκ)]
  field_simp

theorem units_contraction (hκ : κ ≠ 0) (hc : InUnits Set.univ κ c c') (O : J → J → ℝ) (costOf : J → ℝ → ℝ)
    (h : ∀ x j, capitalLamda m (probabilitiesAt m c x) (utilityDerivatives m c x) j ≠ 0) (x : J → ℝ) :
    priceContraction m c' O (fun j s => κ * costOf j s) (inUnits κ x) = inUnits κ (priceContraction m c O costOf x) := by
  have hx : ∀ j, x j ∈ Set.univ := fun _ => Set.mem_univ _
  funext j
  unfold priceContraction zeta
  simp only [units_lamdaInverse m hc x hx j (h x j) hκ, units_probabilities m hc x hx, units_conditionals m hc x hx, units_derivatives m hc x hx,
    units_shares m hc x hx, gamma_div]
  simp only [inUnits]
  have hsum : ∑ k, O k j * (capitalGamma m (probabilitiesAt m c x) (conditionalsAt m c x) (utilityDerivatives m c x) k j / κ) *
      (κ * x k - κ * costOf k (sharesAt m c x k)) =
      ∑ k, O k j * capitalGamma m (probabilitiesAt m c x) (conditionalsAt m c x) (utilityDerivatives m c x) k j *
        (x k - costOf k (sharesAt m c x k)) :=
    Finset.sum_congr rfl fun k _ => by field_simp
  rw [hsum]
  ring

theorem units_weights (hκ : 0 < κ) (hc : InUnits S κ c c') (x : J → ℝ) (hx : ∀ j, x j ∈ S) :
    priceWeights m c' (inUnits κ x) = inUnits κ⁻¹ (priceWeights m c x) := by
  funext j
  unfold priceWeights inUnits
  have := units_probabilities m hc x hx
  have h2 := units_derivatives m hc x hx
  unfold inUnits at this h2
  rw [this, h2, lamda_div, abs_div, abs_of_pos hκ]
  ring

/-- **C115.** Demand does not depend on units of prices: choice probabilities, market shares, elasticities with respect to prices,
diversion ratios and the aggregate elasticity are the same. Derivatives of shares with respect to prices are per unit of price, and
consumer surplus is in units of prices. -/
theorem C115_demand (κ : ℝ) (hκ : κ ≠ 0) (m : Market J A G) (c c' : Characteristic J A K1 K2) (hc : InUnits S κ c c') (x s : J → ℝ)
    (hx : ∀ j, x j ∈ S) :
    let jacobian := fun (c : Characteristic J A K1 K2) x =>
      sharesJacobian m (probabilitiesAt m c x) (conditionalsAt m c x) (utilityDerivatives m c x)
    probabilitiesAt m c' (inUnits κ x) = probabilitiesAt m c x ∧
      sharesAt m c' (inUnits κ x) = sharesAt m c x ∧
      (∀ j k, jacobian c' (inUnits κ x) j k = jacobian c x j k / κ) ∧
      elasticities (jacobian c' (inUnits κ x)) (inUnits κ x) s = elasticities (jacobian c x) x s ∧
      diversionRatios (jacobian c' (inUnits κ x)) = diversionRatios (jacobian c x) ∧
      (∀ factor, (∀ j, (1 + factor) * c.x0 j ∈ S) → aggregateElasticity m c' s factor = aggregateElasticity m c s factor) ∧
      ∀ first out, consumerSurplus m c' first (inUnits κ x) out = κ * consumerSurplus m c first x out := by
  intro jacobian
  have hjac : ∀ j k, jacobian c' (inUnits κ x) j k = jacobian c x j k / κ := by
    intro j k
    simp only [jacobian, units_probabilities m hc x hx, units_conditionals m hc x hx, units_derivatives m hc x hx, jacobian_div]
  refine ⟨units_probabilities m hc x hx, units_shares m hc x hx, hjac, ?_, ?_, ?_, ?_⟩
  · funext j k
    simp only [elasticities, hjac, inUnits]
    field_simp
  · funext j k
    simp only [diversionRatios, hjac]
    rw [← Finset.sum_div]
    have : -(if j = k then -((∑ l, jacobian c x j l) / κ) else jacobian c x j k / κ) =
        -(if j = k then -∑ l, jacobian c x j l else jacobian c x j k) / κ := by
      split <;> ring
    rw [this, div_div_div_cancel_right₀ hκ]
  · intro factor hfactor
    have : (fun k => (1 + factor) * c'.x0 k) = inUnits κ fun k => (1 + factor) * c.x0 k := by
      funext k
      rw [hc.x0 k]
      unfold inUnits
      ring
    unfold aggregateElasticity
    rw [this, units_shares m hc _ hfactor]
  · intro first out
    unfold consumerSurplus
    rw [units_delta hc x hx, units_mu hc x hx, units_x0 hc, units_derivatives m hc c.x0 hc.stored, Finset.mul_sum]
    refine Finset.sum_congr rfl fun i _ => ?_
    rw [← neg_div, div_div_eq_mul_div]
    ring

/-- **C115.** Markups, marginal costs and approximate equilibrium prices are in units of prices. Shares of markups in prices and
passthrough do not depend on them. -/
theorem C115_supply (κ : ℝ) (hκ : κ ≠ 0) (m : Market J A G) (c c' : Characteristic J A K1 K2) (hc : InUnits S κ c c') (O : J → J → ℝ)
    (s costs : J → ℝ) :
    (∀ j, computeEta m c' O s j = κ * computeEta m c O s j) ∧
      (∀ j, computeCosts m c' O s j = κ * computeCosts m c O s j) ∧
      (∀ j, approximatePrices m c' O s (fun j => κ * costs j) j = κ * approximatePrices m c O s costs j) ∧
      (∀ j, (c'.x0 j - computeCosts m c' O s j) / c'.x0 j = (c.x0 j - computeCosts m c O s j) / c.x0 j) ∧
      passthrough m c' O s = passthrough m c O s := by
  have he : ∀ j, computeEta m c' O s j = κ * computeEta m c O s j := fun j => congrFun (units_eta m hκ hc O s) j
  have hcost : ∀ j, computeCosts m c' O s j = κ * computeCosts m c O s j := by
    intro j
    unfold computeCosts
    rw [he, hc.x0 j]
    ring
  refine ⟨he, hcost, fun j => ?_, fun j => ?_, ?_⟩
  · unfold approximatePrices
    rw [he]
    ring
  · rw [hcost, hc.x0 j, ← mul_sub, mul_div_mul_left _ _ hκ]
  · unfold passthrough
    rw [units_passthrough m hκ hc]

/-- **C115.** Equilibrium prices are in units of prices, not only in the limit: a routine that starts with the same prices in other units
returns the same prices in these units after the same number of evaluations, with the same report about convergence, because
differences between iterates are weighted by derivatives with respect to prices. Derivatives of shares with respect to own prices must
not be zero, because what is then divided by zero is replaced by a constant that does not depend on units. -/
theorem C115_prices (κ : ℝ) (hκ : 0 < κ) (m : Market J A G) (c c' : Characteristic J A K1 K2) (hc : InUnits Set.univ κ c c') (O : J → J → ℝ)
    (costOf : J → ℝ → ℝ) (h : ∀ x j, capitalLamda m (probabilitiesAt m c x) (utilityDerivatives m c x) j ≠ 0) (routine : Routine)
    (l : Limits) (initial : J → ℝ) :
    let old := routine.solve l (priceContraction m c O costOf) (some (priceWeights m c)) initial
    let new := routine.solve l (priceContraction m c' O fun j s => κ * costOf j s) (some (priceWeights m c')) (inUnits κ initial)
    (∀ j, new.x j = (old.x j).map fun p => κ * p) ∧ new.converged = old.converged ∧ new.calls = old.calls := by
  intro old new
  have hs : new = old.scale κ := scale_solve hκ.ne' routine l (units_contraction m hκ.ne' hc O costOf h) (fun x => units_weights m hκ hc x fun _ => Set.mem_univ _) initial
  rw [hs]
  exact ⟨fun j => rfl, rfl, rfl⟩

end Market

/-! ## Example -/

/-- Two products and one agent, with a price coefficient for the agent and prices in `X1` twice: as they are, and in logs if `log`, and
interacted with a characteristic otherwise. The number is what one unit of the original currency is worth. -/
noncomputable def exampleCurrency (log : Bool) (κ : ℝ) : Characteristic (Fin 2) Unit (Fin 2) Unit where
  delta := ![1, 2]
  x0 := fun j => κ * ![3, 4] j
  beta := ![-2 / κ, if log then -1 else -1 / κ]
  has1 := fun _ => true
  x1 := fun k j t => if k = 0 then t else if log then Real.log t else ![1, 2] j * t
  d1 := fun k j t => if k = 0 then 1 else if log then 1 / t else ![1, 2] j
  dd1 := fun k _ t => if k = 0 then 0 else if log then -1 / t ^ 2 else 0
  coef := fun _ _ _ => -1 / (10 * κ)
  has2 := fun _ => true
  x2 := fun _ _ t => t
  d2 := fun _ _ _ => 1
  dd2 := fun _ _ _ => 0

theorem exampleCurrency_log : InUnits {t | 0 < t} 100 (exampleCurrency true 1) (exampleCurrency true 100) where
  delta := rfl
  x0 := fun j => by simp [exampleCurrency]
  stored := fun j => by fin_cases j <;> simp [exampleCurrency]
  has1 := rfl
  x1 := by
    intro k j t ht t₀ ht₀ _
    have h1 : t ≠ 0 := ne_of_gt ht
    have h2 : t₀ ≠ 0 := ne_of_gt ht₀
    fin_cases k
    · simp [exampleCurrency]
      ring
    · simp [exampleCurrency, Real.log_mul, h1, h2]
  d1 := by
    intro k j t ht _
    have h1 : t ≠ 0 := ne_of_gt ht
    fin_cases k
    · simp [exampleCurrency]
    · simp [exampleCurrency]
      field_simp
  dd1 := by
    intro k j t ht _
    have h1 : t ≠ 0 := ne_of_gt ht
    fin_cases k
    · simp [exampleCurrency]
    · simp [exampleCurrency]
      field_simp
  has2 := rfl
  x2 := by
    intro k j i t _
    simp [exampleCurrency]
    ring
  d2 := by
    intro k j i t _ _
    simp [exampleCurrency]
    norm_num
  dd2 := by
    intro k j i t _ _
    simp [exampleCurrency]

theorem exampleCurrency_linear : InUnits Set.univ 100 (exampleCurrency false 1) (exampleCurrency false 100) where
  delta := rfl
  x0 := fun j => by simp [exampleCurrency]
  stored := fun j => Set.mem_univ _
  has1 := rfl
  x1 := by
    intro k j t _ t₀ _ _
    fin_cases k
    · simp [exampleCurrency]
      ring
    · simp [exampleCurrency]
      ring
  d1 := by
    intro k j t _ _
    fin_cases k
    · simp [exampleCurrency]
    · simp [exampleCurrency]
      ring
  dd1 := by
    intro k j t _ _
    fin_cases k
    · simp [exampleCurrency]
    · simp [exampleCurrency]
  has2 := rfl
  x2 := by
    intro k j i t _
    simp [exampleCurrency]
    ring
  d2 := by
    intro k j i t _ _
    simp [exampleCurrency]
    norm_num
  dd2 := by
    intro k j i t _ _
    simp [exampleCurrency]

/-- A market for these products. -/
noncomputable def exampleCurrencyMarket : Market (Fin 2) Unit Unit := ⟨none, 1, fun _ => 1, none⟩

/-- Derivatives of shares with respect to own prices are negative. -/
theorem exampleCurrency_lamda (x : Fin 2 → ℝ) (j : Fin 2) :
    capitalLamda exampleCurrencyMarket (probabilitiesAt exampleCurrencyMarket (exampleCurrency false 1) x)
      (utilityDerivatives exampleCurrencyMarket (exampleCurrency false 1) x) j ≠ 0 := by
  have hp := (C17_probabilities_interior exampleCurrencyMarket true (updateDelta (exampleCurrency false 1) x)
    (updateMu (exampleCurrency false 1) x) () rfl (by intro n hn; cases hn)).1 j
  have hu : utilityDerivatives exampleCurrencyMarket (exampleCurrency false 1) x j () < 0 := by
    fin_cases j <;> simp [utilityDerivatives, exampleCurrencyMarket, exampleCurrency, Fin.sum_univ_two] <;> norm_num
  have hl : capitalLamda exampleCurrencyMarket (probabilitiesAt exampleCurrencyMarket (exampleCurrency false 1) x)
      (utilityDerivatives exampleCurrencyMarket (exampleCurrency false 1) x) j =
      probabilitiesAt exampleCurrencyMarket (exampleCurrency false 1) x j () *
        utilityDerivatives exampleCurrencyMarket (exampleCurrency false 1) x j () := by
    simp [capitalLamda, exampleCurrencyMarket]
  rw [hl]
  exact (mul_neg_of_pos_of_neg hp hu).ne

/-- Equilibrium prices in cents are those in dollars times a hundred, whenever the routine stops. -/
example (l : Limits) (j : Fin 2) :
    (Routine.simple.solve l (priceContraction exampleCurrencyMarket (exampleCurrency false 100) (fun _ _ => 1) fun _ _ => 100 * 2)
        (some (priceWeights exampleCurrencyMarket (exampleCurrency false 100))) (inUnits 100 ![3, 5])).x j =
      ((Routine.simple.solve l (priceContraction exampleCurrencyMarket (exampleCurrency false 1) (fun _ _ => 1) fun _ _ => 2)
        (some (priceWeights exampleCurrencyMarket (exampleCurrency false 1))) ![3, 5]).x j).map fun p => 100 * p :=
  (C115_prices 100 (by norm_num) exampleCurrencyMarket _ _ exampleCurrency_linear (fun _ _ => 1) (fun _ _ => 2) exampleCurrency_lamda
    .simple l ![3, 5]).1 j

/-- Diversion ratios are the same in dollars and in cents, with logs of prices. -/
example : diversionRatios (sharesJacobian exampleCurrencyMarket
      (probabilitiesAt exampleCurrencyMarket (exampleCurrency true 100) (inUnits 100 ![3, 5]))
      (conditionalsAt exampleCurrencyMarket (exampleCurrency true 100) (inUnits 100 ![3, 5]))
      (utilityDerivatives exampleCurrencyMarket (exampleCurrency true 100) (inUnits 100 ![3, 5]))) =
    diversionRatios (sharesJacobian exampleCurrencyMarket
      (probabilitiesAt exampleCurrencyMarket (exampleCurrency true 1) ![3, 5])
      (conditionalsAt exampleCurrencyMarket (exampleCurrency true 1) ![3, 5])
      (utilityDerivatives exampleCurrencyMarket (exampleCurrency true 1) ![3, 5])) :=
  (C115_demand 100 (by norm_num) exampleCurrencyMarket _ _ exampleCurrency_log ![3, 5] ![1 / 4, 1 / 4]
    (fun j => by fin_cases j <;> simp)).2.2.2.2.1

end Pyblp
