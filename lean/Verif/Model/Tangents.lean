import Verif.Model.Demand

/-!
# Random coefficients and derivatives with respect to parameters

`Market.compute_random_coefficients`, `compute_mu`, `compute_probabilities_by_parameter_tangent`, and what is built from them
(pyblp/markets/market.py:183-240, 933-1148, 1357-1362 and 1465-1480). Derivatives are computed elementwise in agents, so that restricting them to
some agents (`agent_indices`) is a restriction of the result.
-/

namespace Pyblp

variable {J A G K2 N D : Type}

/-- Types of random coefficients, pyblp/markets/market.py:194-208 (`rc_types`). -/
inductive RcType where
  | linear
  | log
  | logit
  deriving DecidableEq

/-- Data that random coefficients depend on. `demographics` has an index for the product because demographics can be product-specific;
others are the same for all products. Used for pyblp/markets/market.py:190-192 and 214-218 and 183-227. -/
structure Tastes (J A K2 N D : Type) where
  X2 : J → K2 → ℝ
  nodes : A → N → ℝ
  demographics : A → D → J → ℝ
  rcType : K2 → RcType

variable [Fintype J] [DecidableEq J] [Nonempty J] [Fintype G] [DecidableEq G] [Fintype K2] [Fintype N] [Fintype D]

/-- `sigma @ nodes.T + pi @ demographics.T`, pyblp/markets/market.py:190-192 and 214-218. -/
def coefficientIndex (T : Tastes J A K2 N D) (sigma : K2 → N → ℝ) (pi : K2 → D → ℝ) (k : K2) (i : A) (j : J) : ℝ :=
  ∑ c, sigma k c * T.nodes i c + ∑ d, pi k d * T.demographics i d j

/-- The transformation of a random coefficient, pyblp/markets/market.py:194-208 and 220-225. `scipy.special.expit` is the logistic
function. -/
noncomputable def transformCoefficient : RcType → ℝ → ℝ
  | .linear, x => x
  | .log, x => Real.exp x
  | .logit, x => 1 / (1 + Real.exp (-x))

/-- `compute_random_coefficients` and `compute_single_random_coefficient`, pyblp/markets/market.py:183-227. -/
noncomputable def randomCoefficient (T : Tastes J A K2 N D) (sigma : K2 → N → ℝ) (pi : K2 → D → ℝ) (k : K2) (i : A) (j : J) : ℝ :=
  transformCoefficient (T.rcType k) (coefficientIndex T sigma pi k i j)

/-- `compute_mu`, pyblp/markets/market.py:229-240. -/
noncomputable def computeMu (T : Tastes J A K2 N D) (sigma : K2 → N → ℝ) (pi : K2 → D → ℝ) (j : J) (i : A) : ℝ :=
  ∑ k, T.X2 j k * randomCoefficient T sigma pi k i j

/-- An unfixed parameter, pyblp/parameters.py:33-139. `beta` carries its product characteristic. `rhoOne` is for one of several nesting
parameters: its group, or `none` if no product of the market is in that group. -/
inductive TangentParam (J G K2 N D : Type) where
  | beta (x : J → ℝ)
  | sigma (k : K2) (c : N)
  | pi (k : K2) (d : D)
  | rhoAll
  | rhoOne (g : Option G)
  | gamma (x : J → ℝ)
  | phi

/-- `v.T * x` after `v` is transformed, pyblp/markets/market.py:1026-1040 and 1068-1083, for a row `k` of `sigma` or `pi` and agent
characteristics `v`. -/
noncomputable def coefficientTangent (T : Tastes J A K2 N D) (sigma : K2 → N → ℝ) (pi : K2 → D → ℝ) (k : K2) (v : A → J → ℝ) (j : J)
    (i : A) : ℝ :=
  let rc := randomCoefficient T sigma pi k i j
  (match T.rcType k with
    | .linear => v i j
    | .log => v i j * rc
    | .logit => v i j * rc * (1 - rc)) * T.X2 j k

/-- Derivatives of utility with respect to a parameter other than a nesting parameter: the characteristic `x` or `vx` of
pyblp/markets/market.py:1022-1044, 1055-1083 and 1138-1141. -/
noncomputable def utilityTangent (T : Tastes J A K2 N D) (sigma : K2 → N → ℝ) (pi : K2 → D → ℝ) :
    TangentParam J G K2 N D → J → A → ℝ
  | .beta x, j, _ => x j
  | .sigma k c, j, i => coefficientTangent T sigma pi k (fun i _ => T.nodes i c) j i
  | .pi k d, j, i => coefficientTangent T sigma pi k (fun i j => T.demographics i d j) j i
  | _, _, _ => 0

/-- `get_group_associations`, pyblp/parameters.py:91-106. -/
def groupAssociations : TangentParam J G K2 N D → G → ℝ
  | .rhoAll, _ => 1
  | .rhoOne (some g), h => if h = g then 1 else 0
  | _, _ => 0

/-- `np.log(self.groups.sum(exp_utilities)) + utility_reduction`, pyblp/markets/market.py:1101-1132, or `none` if it is not finite. Unlike
in `compute_probabilities`, eliminated products do not count for the reduction. -/
noncomputable def logInclusive (m : Market J A G) (n : Nesting J G) (o : ProbOpts J A) (delta : J → ℝ) (mu : J → A → ℝ) (g : G) (i : A) :
    Option ℝ :=
  let kept := Finset.univ.filter fun j : J => ¬ (o.eliminateProduct = some j ∨ o.eliminateMask j = true)
  let u := fun j => (delta j + mu j i) / (1 - n.productRho j)
  let reduction := if h : kept.Nonempty then max (kept.sup' h u) 0 else 0
  let total := ∑ j with n.group j = g, restrict m { o with availability := none } (fun j => Real.exp (u j - reduction)) i j
  if total = 0 then none else some (Real.log total + reduction)

/-- `B` for a nesting parameter, pyblp/markets/market.py:1129-1133. -/
noncomputable def rhoTerm (m : Market J A G) (n : Nesting J G) (o : ProbOpts J A) (delta : J → ℝ) (mu : J → A → ℝ) (marginal sum : ℝ) (g : G)
    (i : A) : ℝ :=
  match logInclusive m n o delta mu g i with
  | none => 0
  | some l => marginal * (sum * (1 - n.rho.groupRho g) - l)

/-- The first value returned by `compute_probabilities_by_parameter_tangent`, pyblp/markets/market.py:1020-1049, without nesting. -/
noncomputable def plainTangent (m : Market J A G) (P vx : J → A → ℝ) (j : J) (i : A) : ℝ :=
  let tangent := P j i * (vx j i - ∑ k, P k i * vx k i)
  if m.epsilonScale ≠ 1 then tangent / m.epsilonScale else tangent

/-- `conditionals_tangent` for parameters other than nesting parameters, pyblp/markets/market.py:1058-1061 and 1083-1086. -/
noncomputable def conditionalsTangent (n : Nesting J G) (C vx : J → A → ℝ) (j : J) (i : A) : ℝ :=
  C j i * (vx j i - ∑ k with n.group k = n.group j, C k i * vx k i) / (1 - n.productRho j)

/-- `marginals_tangent` for parameters other than nesting parameters, pyblp/markets/market.py:1052, 1064-1065 and 1089-1090. -/
noncomputable def marginalsTangent (n : Nesting J G) (P C vx : J → A → ℝ) (g : G) (i : A) : ℝ :=
  let marginals := fun g => ∑ k with n.group k = g, P k i
  let B := fun g => marginals g * ∑ k with n.group k = g, C k i * vx k i
  B g - marginals g * ∑ h, B h

/-- `A` for a nesting parameter, pyblp/markets/market.py:1102-1105. -/
noncomputable def rhoA (n : Nesting J G) (C : J → A → ℝ) (delta : J → ℝ) (mu : J → A → ℝ) (j : J) (i : A) : ℝ :=
  C j i * ((delta j + mu j i) / (1 - n.productRho j)) / (1 - n.productRho j)

/-- `conditionals_tangent` for a nesting parameter, pyblp/markets/market.py:1093-1107. -/
noncomputable def rhoConditionalsTangent (n : Nesting J G) (assoc : G → ℝ) (C : J → A → ℝ) (delta : J → ℝ) (mu : J → A → ℝ) (j : J) (i : A) :
    ℝ :=
  assoc (n.group j) * (rhoA n C delta mu j i - C j i * ∑ k with n.group k = n.group j, rhoA n C delta mu k i)

/-- `marginals_tangent` for a nesting parameter, pyblp/markets/market.py:1129-1136. -/
noncomputable def rhoMarginalsTangent (m : Market J A G) (n : Nesting J G) (o : ProbOpts J A) (assoc : G → ℝ) (P C : J → A → ℝ) (delta : J → ℝ)
    (mu : J → A → ℝ) (g : G) (i : A) : ℝ :=
  let marginals := fun g => ∑ k with n.group k = g, P k i
  let B := fun g => rhoTerm m n o delta mu (marginals g) (∑ k with n.group k = g, rhoA n C delta mu k i) g i
  assoc g * B g - marginals g * ∑ h, assoc h * B h

/-- `compute_probabilities_by_parameter_tangent`, pyblp/markets/market.py:1004-1148: tangents of probabilities and of conditional
probabilities (zero without nesting). `o` has eliminated products; `P` and `C` are probabilities computed with these options. -/
noncomputable def probabilitiesTangent (m : Market J A G) (T : Tastes J A K2 N D) (sigma : K2 → N → ℝ) (pi : K2 → D → ℝ) (o : ProbOpts J A)
    (delta : J → ℝ) (P C : J → A → ℝ) (p : TangentParam J G K2 N D) : (J → A → ℝ) × (J → A → ℝ) :=
  match m.nesting with
  | none => (plainTangent m P (utilityTangent T sigma pi p), fun _ _ => 0)
  | some n =>
    let mu := computeMu T sigma pi
    let isRho := match p with
      | .rhoAll => true
      | .rhoOne _ => true
      | _ => false
    let ct := if isRho then rhoConditionalsTangent n (groupAssociations p) C delta mu
      else conditionalsTangent n C (utilityTangent T sigma pi p)
    let mt := if isRho then rhoMarginalsTangent m n o (groupAssociations p) P C delta mu
      else marginalsTangent n P C (utilityTangent T sigma pi p)
    (fun j i => ct j i * (∑ k with n.group k = n.group j, P k i) + C j i * mt (n.group j) i, ct)

/-- `update_probabilities_by_parameter_tangent_mapping`, pyblp/markets/market.py:965-1002: tangents of probabilities when unobserved
characteristics change, too. `xiJacobian` is a column of the Jacobian. -/
noncomputable def updateTangent (m : Market J A G) (P C : J → A → ℝ) (p : TangentParam J G K2 N D) (tangent : J → A → ℝ) (xiJacobian : J → ℝ)
    (j : J) (i : A) : ℝ :=
  match p with
  | .beta _ => 0
  | .gamma _ => tangent j i
  | .phi => tangent j i
  | _ => tangent j i + ∑ k, probabilitiesByXi m P C k j i * xiJacobian k

/-- The same for conditional probabilities, pyblp/markets/market.py:982-983 and 1000-1002. -/
noncomputable def updateConditionalsTangent (n : Nesting J G) (C : J → A → ℝ) (p : TangentParam J G K2 N D) (tangent : J → A → ℝ)
    (xiJacobian : J → ℝ) (j : J) (i : A) : ℝ :=
  match p with
  | .beta _ => 0
  | .gamma _ => tangent j i
  | .phi => tangent j i
  | _ => tangent j i + ∑ k, conditionalsByXi n C k j i * xiJacobian k

section

variable [Fintype A]

/-- `compute_shares_by_theta_jacobian`, pyblp/markets/market.py:1357-1362: one column. -/
def sharesByTheta (m : Market J A G) (tangent : J → A → ℝ) (j : J) : ℝ := ∑ i, tangent j i * m.weights i

/-- `compute_xi_by_theta_jacobian`, pyblp/markets/market.py:1465-1480: one column. `inverse` is what the linear solver of
`approximately_solve` applies to the right-hand side (the inverse of the matrix if it has one). -/
noncomputable def xiByTheta (m : Market J A G) (inverse : J → J → ℝ) (tangent : J → A → ℝ) (j : J) : ℝ :=
  ∑ k, inverse j k * -sharesByTheta m tangent k

end

end Pyblp
