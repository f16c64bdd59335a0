import Verif.Model.Delta
import Verif.Model.Tangents

set_option linter.unusedSectionVars false

/-!
# Units of characteristics with random coefficients and of demographics (C116)
-/

namespace Pyblp

variable {J A G K2 N D : Type} [Fintype J] [DecidableEq J] [Nonempty J] [Fintype G] [DecidableEq G] [Fintype K2] [Fintype N] [Fintype D]

namespace Spec

/-- The same tastes when characteristic `k` is in units of which there are `κ k` in the original one, demographic `d` in units of which
there are `γ d`, and parameters are per unit. Only linear coefficients are proportional to parameters, so that units of characteristics
with other ones stay the same. -/
structure OtherUnits (κ : K2 → ℝ) (γ : D → ℝ) (T T' : Tastes J A K2 N D) (sigma sigma' : K2 → N → ℝ) (pi pi' : K2 → D → ℝ) : Prop where
  types : T'.rcType = T.rcType
  nodes : T'.nodes = T.nodes
  characteristics : ∀ j k, T'.X2 j k = κ k * T.X2 j k
  demographics : ∀ i d j, T'.demographics i d j = γ d * T.demographics i d j
  sigma : ∀ k c, sigma k c = κ k * sigma' k c
  pi : ∀ k d, pi k d = κ k * γ d * pi' k d
  linear : ∀ k, T.rcType k ≠ .linear → κ k = 1

/-- How many units of a parameter there are in the original one. -/
def unit (κ : K2 → ℝ) (γ : D → ℝ) : TangentParam J G K2 N D → ℝ
  | .sigma k _ => κ k
  | .pi k d => κ k * γ d
  | _ => 1

end Spec

variable {κ : K2 → ℝ} {γ : D → ℝ} {T T' : Tastes J A K2 N D} {sigma sigma' : K2 → N → ℝ} {pi pi' : K2 → D → ℝ}

theorem coefficientIndex_units (h : Spec.OtherUnits κ γ T T' sigma sigma' pi pi') (k : K2) (i : A) (j : J) :
    coefficientIndex T sigma pi k i j = κ k * coefficientIndex T' sigma' pi' k i j := by
  unfold coefficientIndex
  rw [mul_add, Finset.mul_sum, Finset.mul_sum]
  congr 1
  · refine Finset.sum_congr rfl fun c _ => ?_
    rw [h.sigma, h.nodes, mul_assoc]
  · refine Finset.sum_congr rfl fun d _ => ?_
    rw [h.pi, h.demographics]
    ring

theorem randomCoefficient_units (h : Spec.OtherUnits κ γ T T' sigma sigma' pi pi') (k : K2) (i : A) (j : J) :
    randomCoefficient T sigma pi k i j = κ k * randomCoefficient T' sigma' pi' k i j := by
  unfold randomCoefficient
  rw [h.types, coefficientIndex_units h]
  cases hk : T.rcType k with
  | linear => rfl
  | log => rw [h.linear k (by rw [hk]; simp), one_mul, one_mul]
  | logit => rw [h.linear k (by rw [hk]; simp), one_mul, one_mul]

theorem computeMu_units (h : Spec.OtherUnits κ γ T T' sigma sigma' pi pi') : computeMu T' sigma' pi' = computeMu T sigma pi := by
  funext j i
  unfold computeMu
  refine Finset.sum_congr rfl fun k _ => ?_
  rw [h.characteristics, randomCoefficient_units h]
  ring

theorem coefficientTangent_units (h : Spec.OtherUnits κ γ T T' sigma sigma' pi pi') (k : K2) (v v' : A → J → ℝ) (x : ℝ)
    (hv : ∀ i j, v' i j = x * v i j) (j : J) (i : A) :
    coefficientTangent T' sigma' pi' k v' j i = κ k * x * coefficientTangent T sigma pi k v j i := by
  unfold coefficientTangent
  simp only
  rw [h.types, randomCoefficient_units h, h.characteristics, hv]
  cases hk : T.rcType k with
  | linear =>
    simp only
    ring
  | log =>
    have := h.linear k (by rw [hk]; simp)
    simp only [this]
    ring
  | logit =>
    have := h.linear k (by rw [hk]; simp)
    simp only [this]
    ring

theorem utilityTangent_units (h : Spec.OtherUnits κ γ T T' sigma sigma' pi pi') (p : TangentParam J G K2 N D) (j : J) (i : A) :
    utilityTangent T' sigma' pi' p j i = Spec.unit κ γ p * utilityTangent T sigma pi p j i := by
  cases p with
  | sigma k c =>
    have := coefficientTangent_units h k (fun i _ => T.nodes i c) (fun i _ => T'.nodes i c) 1 (fun i j => by rw [h.nodes, one_mul]) j i
    simpa [utilityTangent, Spec.unit] using this
  | pi k d => exact coefficientTangent_units h k _ _ (γ d) (fun i j => h.demographics i d j) j i
  | _ => simp [utilityTangent, Spec.unit]

theorem plainTangent_mul (m : Market J A G) (P vx : J → A → ℝ) (x : ℝ) (j : J) (i : A) :
    plainTangent m P (fun j i => x * vx j i) j i = x * plainTangent m P vx j i := by
  unfold plainTangent
  simp only
  have : ∑ k, P k i * (x * vx k i) = x * ∑ k, P k i * vx k i := by
    rw [Finset.mul_sum]
    exact Finset.sum_congr rfl fun _ _ => by ring
  rw [this]
  by_cases hm : m.epsilonScale ≠ 1
  · rw [if_pos hm, if_pos hm]
    ring
  · rw [if_neg hm, if_neg hm]
    ring

theorem conditionalsTangent_mul (n : Nesting J G) (C vx : J → A → ℝ) (x : ℝ) (j : J) (i : A) :
    conditionalsTangent n C (fun j i => x * vx j i) j i = x * conditionalsTangent n C vx j i := by
  unfold conditionalsTangent
  have : ∑ k with n.group k = n.group j, C k i * (x * vx k i) = x * ∑ k with n.group k = n.group j, C k i * vx k i := by
    rw [Finset.mul_sum]
    exact Finset.sum_congr rfl fun _ _ => by ring
  rw [this]
  ring

theorem marginalsTangent_mul (n : Nesting J G) (P C vx : J → A → ℝ) (x : ℝ) (g : G) (i : A) :
    marginalsTangent n P C (fun j i => x * vx j i) g i = x * marginalsTangent n P C vx g i := by
  unfold marginalsTangent
  simp only
  have h1 : ∀ g, ∑ k with n.group k = g, C k i * (x * vx k i) = x * ∑ k with n.group k = g, C k i * vx k i := by
    intro g
    rw [Finset.mul_sum]
    exact Finset.sum_congr rfl fun _ _ => by ring
  simp only [h1]
  have h2 : ∑ h, (∑ k with n.group k = h, P k i) * (x * ∑ k with n.group k = h, C k i * vx k i) =
      x * ∑ h, (∑ k with n.group k = h, P k i) * ∑ k with n.group k = h, C k i * vx k i := by
    rw [Finset.mul_sum]
    exact Finset.sum_congr rfl fun _ _ => by ring
  rw [h2]
  ring

theorem probabilitiesTangent_units (h : Spec.OtherUnits κ γ T T' sigma sigma' pi pi') (m : Market J A G) (o : ProbOpts J A)
    (delta : J → ℝ) (P C : J → A → ℝ) (p : TangentParam J G K2 N D) (j : J) (i : A) :
    (probabilitiesTangent m T' sigma' pi' o delta P C p).1 j i =
        Spec.unit κ γ p * (probabilitiesTangent m T sigma pi o delta P C p).1 j i ∧
      (probabilitiesTangent m T' sigma' pi' o delta P C p).2 j i =
        Spec.unit κ γ p * (probabilitiesTangent m T sigma pi o delta P C p).2 j i := by
  have hu : utilityTangent T' sigma' pi' p = fun j i => Spec.unit κ γ p * utilityTangent T sigma pi p j i := by
    funext j i
    exact utilityTangent_units h p j i
  unfold probabilitiesTangent
  rw [computeMu_units h, hu]
  cases m.nesting with
  | none => exact ⟨plainTangent_mul m P _ _ j i, (mul_zero _).symm⟩
  | some n =>
    cases p with
    | rhoAll => simp [Spec.unit]
    | rhoOne g => simp [Spec.unit]
    | _ =>
      simp only [Bool.false_eq_true, if_false]
      rw [conditionalsTangent_mul, marginalsTangent_mul]
      exact ⟨by ring, rfl⟩

/-- **C116.** If characteristics with random coefficients or demographics are in other units and parameters are per unit, then
coefficients are per unit and heterogeneous parts of utility are the same, hence so are probabilities, shares, mean utilities and what
else is computed from them. Derivatives of probabilities, shares and unobserved characteristics with respect to a parameter are per unit
of the parameter, with or without nests and eliminated products. -/
theorem C116_nonlinear [Fintype A] (m : Market J A G) (h : Spec.OtherUnits κ γ T T' sigma sigma' pi pi') :
    (∀ k i j, randomCoefficient T sigma pi k i j = κ k * randomCoefficient T' sigma' pi' k i j) ∧
      (∀ j i, computeMu T' sigma' pi' j i = computeMu T sigma pi j i) ∧
      ∀ (o : ProbOpts J A) (delta : J → ℝ) (inverse : J → J → ℝ) (p : TangentParam J G K2 N D),
        let P := computeProbabilities m o delta (computeMu T sigma pi)
        let C := computeConditionals m o delta (computeMu T sigma pi)
        let P' := computeProbabilities m o delta (computeMu T' sigma' pi')
        let C' := computeConditionals m o delta (computeMu T' sigma' pi')
        let t := probabilitiesTangent m T sigma pi o delta P C p
        let t' := probabilitiesTangent m T' sigma' pi' o delta P' C' p
        P' = P ∧ C' = C ∧ (∀ j i, t'.1 j i = Spec.unit κ γ p * t.1 j i) ∧ (∀ j i, t'.2 j i = Spec.unit κ γ p * t.2 j i) ∧
          (∀ j, sharesByTheta m t'.1 j = Spec.unit κ γ p * sharesByTheta m t.1 j) ∧
          ∀ j, xiByTheta m inverse t'.1 j = Spec.unit κ γ p * xiByTheta m inverse t.1 j := by
  have hmu := computeMu_units h
  refine ⟨fun k i j => randomCoefficient_units h k i j, fun j i => congrFun (congrFun hmu j) i, fun o delta inverse p => ?_⟩
  simp only [hmu]
  have hs : ∀ j, sharesByTheta m (probabilitiesTangent m T' sigma' pi' o delta (computeProbabilities m o delta (computeMu T sigma pi))
      (computeConditionals m o delta (computeMu T sigma pi)) p).1 j = Spec.unit κ γ p * sharesByTheta m (probabilitiesTangent m T sigma pi
        o delta (computeProbabilities m o delta (computeMu T sigma pi)) (computeConditionals m o delta (computeMu T sigma pi)) p).1 j := by
    intro j
    unfold sharesByTheta
    rw [Finset.mul_sum]
    exact Finset.sum_congr rfl fun i _ => by rw [(probabilitiesTangent_units h m o delta _ _ p j i).1, mul_assoc]
  refine ⟨trivial, trivial, fun j i => (probabilitiesTangent_units h m o delta _ _ p j i).1,
    fun j i => (probabilitiesTangent_units h m o delta _ _ p j i).2, hs, fun j => ?_⟩
  unfold xiByTheta
  rw [Finset.mul_sum]
  exact Finset.sum_congr rfl fun k _ => by rw [hs]; ring

/-- A characteristic in percent with a linear coefficient, another one with a log one, and income in cents. -/
example : Spec.OtherUnits (J := Fin 2) (A := Fin 2) (N := Fin 2) ![100, 1] (fun _ : Fin 1 => 100)
    ⟨fun j _ => j + 1, fun i _ => i, fun i _ _ => i, ![.linear, .log]⟩
    ⟨fun j k => ![100, 1] k * (j + 1), fun i _ => i, fun i _ _ => 100 * i, ![.linear, .log]⟩
    (fun _ _ => 2) (fun k _ => 2 / ![100, 1] k) (fun _ _ => 3) (fun k _ => 3 / (![100, 1] k * 100)) := by
  refine ⟨rfl, rfl, fun _ _ => rfl, fun _ _ _ => rfl, ?_, ?_, ?_⟩
  · intro k c
    fin_cases k <;> norm_num
  · intro k d
    fin_cases k <;> norm_num
  · intro k hk
    fin_cases k
    · exact absurd rfl hk
    · rfl

end Pyblp
