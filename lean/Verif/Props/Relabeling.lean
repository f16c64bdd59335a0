import Verif.Model.Delta
import Verif.Model.Iteration
import Verif.Model.Supply
import Verif.Props.Parallel
import Verif.Props.Statistics

set_option linter.unusedSectionVars false

/-!
# Order of rows and identity of agents (C114)
-/

namespace Pyblp

variable {J A G K1 K2 J' A' G' : Type}

namespace Spec

/-- Another way to write down the same market: products in another order, agents of which several may be the same one, and other
names for nesting groups. -/
structure Relabeling (J A G J' A' G' : Type) where
  product : J' ≃ J
  agent : A' → A
  group : G' ≃ G

/-- Nesting parameters of groups with other names. -/
def Relabeling.rho (r : Relabeling J A G J' A' G') : RhoParam G → RhoParam G'
  | .single x => .single x
  | .perGroup f => .perGroup fun g => f (r.group g)

/-- Nests of the same products. -/
def Relabeling.nesting (r : Relabeling J A G J' A' G') (n : Nesting J G) : Nesting J' G' where
  group := fun j => r.group.symm (n.group (r.product j))
  rho := r.rho n.rho

/-- The same market, written down in another way, with weights for its agents. -/
def Relabeling.market (r : Relabeling J A G J' A' G') (m : Market J A G) (weights : A' → ℝ) : Market J' A' G' where
  nesting := m.nesting.map r.nesting
  epsilonScale := m.epsilonScale
  weights := weights
  availability := m.availability.map fun a i j => a (r.agent i) (r.product j)

/-- The total weight of agents that are the same one is the weight of this one. -/
def Relabeling.SameWeights [Fintype A'] [DecidableEq A] (r : Relabeling J A G J' A' G') (m : Market J A G) (weights : A' → ℝ) :
    Prop := ∀ i, m.weights i = ∑ i' with r.agent i' = i, weights i'

/-- Options of choice probabilities in the other way to write down the market. -/
def Relabeling.opts (r : Relabeling J A G J' A' G') (o : ProbOpts J A) : ProbOpts J' A' where
  safe := o.safe
  eliminateOutside := o.eliminateOutside
  eliminateProduct := o.eliminateProduct.map r.product.symm
  eliminateMask := fun j => o.eliminateMask (r.product j)
  availability := o.availability.map fun a i j => a (r.agent i) (r.product j)

/-- Values for products. -/
def Relabeling.vec (r : Relabeling J A G J' A' G') (x : J → ℝ) : J' → ℝ := fun j => x (r.product j)

/-- Values for products and agents. -/
def Relabeling.mat (r : Relabeling J A G J' A' G') (x : J → A → ℝ) : J' → A' → ℝ := fun j i => x (r.product j) (r.agent i)

/-- The characteristic in the other way to write down the market. -/
def Relabeling.characteristic (r : Relabeling J A G J' A' G') (c : Characteristic J A K1 K2) : Characteristic J' A' K1 K2 where
  delta := r.vec c.delta
  x0 := r.vec c.x0
  beta := c.beta
  has1 := c.has1
  x1 := fun k j => c.x1 k (r.product j)
  d1 := fun k j => c.d1 k (r.product j)
  dd1 := fun k j => c.dd1 k (r.product j)
  coef := fun k i j => c.coef k (r.agent i) (r.product j)
  has2 := c.has2
  x2 := fun k j => c.x2 k (r.product j)
  d2 := fun k j => c.d2 k (r.product j)
  dd2 := fun k j => c.dd2 k (r.product j)

end Spec

open Spec

section Market

variable [Fintype J] [DecidableEq J] [Nonempty J] [Fintype G] [DecidableEq G] [Fintype A] [DecidableEq A]
  [Fintype J'] [DecidableEq J'] [Nonempty J'] [Fintype G'] [DecidableEq G'] [Fintype A'] [Fintype K1] [Fintype K2]
  (r : Relabeling J A G J' A' G') (m : Market J A G) (w : A' → ℝ)

theorem relabel_groupRho (x : RhoParam G) (g : G') : (r.rho x).groupRho g = x.groupRho (r.group g) := by cases x <;> rfl

theorem relabel_sizeGtOne (x : RhoParam G) : (r.rho x).sizeGtOne = x.sizeGtOne := by cases x <;> rfl

theorem relabel_productRho (n : Nesting J G) (j : J') : (r.nesting n).productRho j = n.productRho (r.product j) := by
  unfold Nesting.productRho
  change (r.rho n.rho).groupRho (r.group.symm (n.group (r.product j))) = _
  rw [relabel_groupRho, Equiv.apply_symm_apply]

theorem relabel_group (n : Nesting J G) (j k : J') :
    (r.nesting n).group j = (r.nesting n).group k ↔ n.group (r.product j) = n.group (r.product k) :=
  r.group.symm.injective.eq_iff

theorem relabel_group_eq (n : Nesting J G) (j : J') (g : G') :
    (r.nesting n).group j = g ↔ n.group (r.product j) = r.group g := Equiv.symm_apply_eq _

theorem relabel_utilities (delta : J → ℝ) (mu : J → A → ℝ) (j : J') (i : A') :
    utilities (r.market m w) (r.vec delta) (r.mat mu) j i = utilities m delta mu (r.product j) (r.agent i) := by
  unfold utilities
  cases hn : m.nesting with
  | none => simp only [Relabeling.market, hn, Option.map_none]; rfl
  | some n =>
    simp only [Relabeling.market, hn, Option.map_some, relabel_productRho]
    rfl

theorem relabel_reduction (u : J → ℝ) : utilityReduction (fun j : J' => u (r.product j)) = utilityReduction u := by
  unfold utilityReduction
  congr 1
  apply le_antisymm
  · apply Finset.sup'_le
    intro j _
    exact Finset.le_sup' u (Finset.mem_univ _)
  · apply Finset.sup'_le
    intro j _
    have := Finset.le_sup' (fun j : J' => u (r.product j)) (Finset.mem_univ (r.product.symm j))
    simp only [Equiv.apply_symm_apply] at this
    exact this

theorem relabel_restrict (o : ProbOpts J A) (e : J → ℝ) (i : A') (j : J') :
    restrict (r.market m w) (r.opts o) (fun j => e (r.product j)) i j = restrict m o e (r.agent i) (r.product j) := by
  unfold restrict
  have h1 : (r.opts o).eliminateProduct = some j ↔ o.eliminateProduct = some (r.product j) := by
    unfold Relabeling.opts
    cases o.eliminateProduct with
    | none => simp
    | some k => simp [Equiv.symm_apply_eq]
  have h2 : (r.opts o).eliminateMask j = o.eliminateMask (r.product j) := rfl
  simp only [h1, h2]
  split
  · rfl
  · unfold Relabeling.opts Relabeling.market
    cases o.availability <;> cases m.availability <;> rfl

theorem relabel_sum (F : J → ℝ) : ∑ j : J', F (r.product j) = ∑ j, F j := Equiv.sum_comp r.product F

theorem relabel_sum_group (F : G → ℝ) : ∑ g : G', F (r.group g) = ∑ g, F g := Equiv.sum_comp r.group F

theorem relabel_sum_in (n : Nesting J G) (F : J → ℝ) (g : G') :
    ∑ j : J' with (r.nesting n).group j = g, F (r.product j) = ∑ j with n.group j = r.group g, F j := by
  rw [Finset.sum_filter, Finset.sum_filter, ← relabel_sum r]
  exact Finset.sum_congr rfl fun j _ => by simp only [relabel_group_eq]

theorem relabel_agent (o : ProbOpts J A) (delta : J → ℝ) (mu : J → A → ℝ) (i : A') :
    agentProbabilities (r.market m w) (r.opts o) (r.vec delta) (r.mat mu) i =
      ((fun j => (agentProbabilities m o delta mu (r.agent i)).1 (r.product j)),
        (agentProbabilities m o delta mu (r.agent i)).2.map fun C j => C (r.product j)) := by
  unfold agentProbabilities
  simp only [relabel_utilities]
  have hs : (r.opts o).safe = o.safe := rfl
  have he : (r.opts o).eliminateOutside = o.eliminateOutside := rfl
  simp only [hs, he, relabel_reduction r fun j => utilities m delta mu j (r.agent i)]
  generalize hred : (if o.safe = true then some (utilityReduction fun j => utilities m delta mu j (r.agent i)) else none) = red
  have hexp : (restrict (r.market m w) (r.opts o) (fun j => Real.exp (utilities m delta mu (r.product j) (r.agent i) - red.getD 0)) i) =
      fun j => restrict m o (fun j => Real.exp (utilities m delta mu j (r.agent i) - red.getD 0)) (r.agent i) (r.product j) :=
    funext fun j => relabel_restrict r m w o (fun j => Real.exp (utilities m delta mu j (r.agent i) - red.getD 0)) i j
  simp only [hexp]
  generalize restrict m o (fun j => Real.exp (utilities m delta mu j (r.agent i) - red.getD 0)) (r.agent i) = e
  cases hn : m.nesting with
  | none =>
    simp only [Relabeling.market, hn, Option.map_none]
    rw [relabel_sum r]
  | some n =>
    simp only [Relabeling.market, hn, Option.map_some, relabel_sum_in]
    have hrho : ∀ g, (r.nesting n).rho.groupRho g = n.rho.groupRho (r.group g) := relabel_groupRho r n.rho
    have hg : ∀ j, r.group ((r.nesting n).group j) = n.group (r.product j) := fun j => Equiv.apply_symm_apply _ _
    have hscale : ∀ a g, nestedScale (r.nesting n) a red g = nestedScale n a red (r.group g) := by
      intro a g
      unfold nestedScale
      rw [hrho]
    have hweight : ∀ g h, scaleWeight (r.nesting n) red g h = scaleWeight n red (r.group g) (r.group h) := by
      intro g h
      unfold scaleWeight
      rw [hrho, hrho, show (r.nesting n).rho.sizeGtOne = n.rho.sizeGtOne from relabel_sizeGtOne r n.rho]
    simp only [hrho, hg, hscale, hweight]
    refine Prod.ext ?_ rfl
    funext j
    simp only
    rw [relabel_sum_group r fun h => scaleWeight n red (n.group (r.product j)) h *
      expLogMul (∑ k with n.group k = h, e k) (1 - n.rho.groupRho h)]

theorem relabel_probabilities (o : ProbOpts J A) (delta : J → ℝ) (mu : J → A → ℝ) :
    computeProbabilities (r.market m w) (r.opts o) (r.vec delta) (r.mat mu) = r.mat (computeProbabilities m o delta mu) := by
  funext j i
  unfold computeProbabilities
  rw [relabel_agent]
  rfl

theorem relabel_conditionals (o : ProbOpts J A) (delta : J → ℝ) (mu : J → A → ℝ) :
    computeConditionals (r.market m w) (r.opts o) (r.vec delta) (r.mat mu) = r.mat (computeConditionals m o delta mu) := by
  funext j i
  unfold computeConditionals
  rw [relabel_agent]
  change _ = (match (agentProbabilities m o delta mu (r.agent i)).2 with | some c => c (r.product j) | none => 0)
  cases (agentProbabilities m o delta mu (r.agent i)).2 <;> rfl

theorem relabel_integrate (hw : r.SameWeights m w) (F : A → ℝ) : ∑ i', F (r.agent i') * w i' = ∑ i, F i * m.weights i := by
  rw [← Finset.sum_fiberwise (s := Finset.univ) (g := r.agent)]
  refine Finset.sum_congr rfl fun i _ => ?_
  rw [hw i, Finset.mul_sum]
  refine Finset.sum_congr rfl fun i' hi' => ?_
  rw [(Finset.mem_filter.1 hi').2]

theorem relabel_shares (hw : r.SameWeights m w) (o : ProbOpts J A) (delta : J → ℝ) (mu : J → A → ℝ) :
    computeShares (r.market m w) (r.opts o) (r.vec delta) (r.mat mu) = r.vec (computeShares m o delta mu) := by
  funext j
  unfold computeShares
  rw [relabel_probabilities r m w o delta mu]
  exact relabel_integrate r m w hw fun i => computeProbabilities m o delta mu (r.product j) i

/-! ## Mean utilities -/

theorem relabel_safe (safe : Bool) : r.opts ({ safe } : ProbOpts J A) = { safe } := rfl

theorem relabel_dampener (j : J') : dampener (r.market m w) j = dampener m (r.product j) := by
  unfold dampener
  cases hn : m.nesting with
  | none => simp only [Relabeling.market, hn, Option.map_none]
  | some n => simp only [Relabeling.market, hn, Option.map_some, relabel_productRho]

theorem relabel_linear (hw : r.SameWeights m w) (safe : Bool) (b : SharesBounds) (mu : J → A → ℝ) (s x : J → ℝ) :
    linearContraction (r.market m w) safe b (r.mat mu) (r.vec s) (r.vec x) = r.vec (linearContraction m safe b mu s x) := by
  funext j
  unfold linearContraction
  have := relabel_shares r m w hw { safe } x mu
  rw [relabel_safe] at this
  rw [this, relabel_dampener]
  rfl

theorem relabel_clipped (hw : r.SameWeights m w) (safe : Bool) (b : SharesBounds) (mu : J → A → ℝ) (x : J → ℝ) (j : J') :
    contractionClipped (r.market m w) safe b (r.mat mu) (r.vec x) j = contractionClipped m safe b mu x (r.product j) := by
  unfold contractionClipped
  have := relabel_shares r m w hw { safe } x mu
  rw [relabel_safe] at this
  rw [this]
  rfl

theorem relabel_nonlinear_probabilities (expDelta expMu : J → ℝ) (red : Option ℝ) (numerator : Option (J → ℝ)) (j : J') :
    nonlinearProbabilities (r.market m w) (r.vec expDelta) (r.vec expMu) red (numerator.map r.vec) j =
      nonlinearProbabilities m expDelta expMu red numerator (r.product j) := by
  unfold nonlinearProbabilities
  cases hn : m.nesting with
  | none =>
    simp only [Relabeling.market, hn, Option.map_none]
    have h1 : ∑ k : J', r.vec expDelta k * r.vec expMu k = ∑ k, expDelta k * expMu k := relabel_sum r fun k => expDelta k * expMu k
    rw [h1]
    cases numerator <;> rfl
  | some n =>
    simp only [Relabeling.market, hn, Option.map_some, relabel_productRho]
    have hrho : ∀ g, (r.nesting n).rho.groupRho g = n.rho.groupRho (r.group g) := relabel_groupRho r n.rho
    have hg : ∀ j, r.group ((r.nesting n).group j) = n.group (r.product j) := fun j => Equiv.apply_symm_apply _ _
    have hscale : ∀ a g, nestedScale (r.nesting n) a red g = nestedScale n a red (r.group g) := by
      intro a g
      unfold nestedScale
      rw [hrho]
    have hweight : ∀ g h, scaleWeight (r.nesting n) red g h = scaleWeight n red (r.group g) (r.group h) := by
      intro g h
      unfold scaleWeight
      rw [hrho, hrho, show (r.nesting n).rho.sizeGtOne = n.rho.sizeGtOne from relabel_sizeGtOne r n.rho]
    have hincl : ∀ g, ∑ k : J' with (r.nesting n).group k = g, (r.vec expDelta k * r.vec expMu k) ^ (1 / (1 - n.productRho (r.product k))) =
        ∑ k with n.group k = r.group g, (expDelta k * expMu k) ^ (1 / (1 - n.productRho k)) := fun g =>
      relabel_sum_in r n (fun k => (expDelta k * expMu k) ^ (1 / (1 - n.productRho k))) g
    simp only [hincl, hrho, hg, hscale, hweight]
    rw [relabel_sum_group r fun h => scaleWeight n red (n.group (r.product j)) h *
      expLogMul (∑ k with n.group k = h, (expDelta k * expMu k) ^ (1 / (1 - n.productRho k))) (1 - n.rho.groupRho h)]
    rfl

theorem relabel_nonlinear (hw : r.SameWeights m w) (safe : Bool) (mu : J → A → ℝ) (s x : J → ℝ) :
    nonlinearContraction (r.market m w) safe (r.mat mu) (r.vec s) (r.vec x) = r.vec (nonlinearContraction m safe mu s x) := by
  have hred : ∀ i, nonlinearReduction safe (r.mat mu) i = nonlinearReduction safe mu (r.agent i) := by
    intro i
    unfold nonlinearReduction
    have := relabel_reduction r fun j => mu j (r.agent i)
    rw [← this]
    rfl
  funext j
  unfold nonlinearContraction
  simp only [hred]
  have hexp : ∀ i, (fun k => Real.exp (r.mat mu k i - (nonlinearReduction safe mu (r.agent i)).getD 0)) =
      r.vec fun k => Real.exp (mu k (r.agent i) - (nonlinearReduction safe mu (r.agent i)).getD 0) := fun i => rfl
  simp only [hexp]
  cases hn : m.nesting with
  | none =>
    have hn' : (r.market m w).nesting = none := by simp [Relabeling.market, hn]
    simp only [hn', Relabeling.vec]
    congr 1
    rw [← relabel_integrate r m w hw]
    refine Finset.sum_congr rfl fun i _ => ?_
    congr 1
    exact relabel_nonlinear_probabilities r m w x _ _ (some _) j
  | some n =>
    have hn' : (r.market m w).nesting = some (r.nesting n) := by simp [Relabeling.market, hn]
    simp only [hn', Relabeling.vec, relabel_productRho]
    congr 3
    rw [← relabel_integrate r m w hw]
    refine Finset.sum_congr rfl fun i _ => ?_
    congr 1
    exact relabel_nonlinear_probabilities r m w x _ _ none j

theorem relabel_closedForm (s : J → ℝ) : closedFormDelta (r.market m w) (r.vec s) = r.vec (closedFormDelta m s) := by
  funext j
  unfold closedFormDelta Relabeling.vec
  rw [relabel_sum r s]
  cases hn : m.nesting with
  | none =>
    simp only [Relabeling.market, hn, Option.map_none]
  | some n =>
    simp only [Relabeling.market, hn, Option.map_some, relabel_productRho]
    congr 4
    have := relabel_sum_in r n s ((r.nesting n).group j)
    rw [show r.group ((r.nesting n).group j) = n.group (r.product j) from Equiv.apply_symm_apply _ _] at this
    exact this

end Market

/-! ## Iteration -/

section Iteration

open Classical

/-- A vector for products in another order. -/
def FVec.relabel (e : J' ≃ J) (x : FVec J) : FVec J' := fun j => x (e j)

/-- What a routine returns, for products in another order. -/
def IterResult.relabel (e : J' ≃ J) (r : IterResult J) : IterResult J' := ⟨r.x.relabel e, r.converged, r.calls⟩

variable (e : J' ≃ J)

theorem relabel_finite (x : FVec J) : (x.relabel e).Finite ↔ x.Finite := by
  unfold FVec.Finite FVec.relabel
  constructor
  · intro h j
    have := h (e.symm j)
    rwa [Equiv.apply_symm_apply] at this
  · intro h j
    exact h (e j)

theorem relabel_sub (x y : FVec J) : (x.relabel e).sub (y.relabel e) = (x.sub y).relabel e := rfl

theorem relabel_weightBy (x : FVec J) (weights : Option (FVec J)) :
    weightBy (x.relabel e) (weights.map (FVec.relabel e)) = (weightBy x weights).relabel e := by cases weights <;> rfl

theorem relabel_allFinite (x : FVec J) (weights : Option (FVec J)) :
    allFinite (x.relabel e) (weights.map (FVec.relabel e)) ↔ allFinite x weights := by
  unfold allFinite
  rw [relabel_finite]
  cases weights <;> simp [relabel_finite]

/-- Options for products in another order: the norm of a vector does not depend on it. -/
structure SameOptions (e : J' ≃ J) (o : IterOptions J) (o' : IterOptions J') : Prop where
  maxEvaluations : o'.maxEvaluations = o.maxEvaluations
  atol : o'.atol = o.atol
  rtol : o'.rtol = o.rtol
  norm : ∀ x : FVec J, o'.norm (x.relabel e) = o.norm x

/-- Contractions that do the same for products in another order. -/
def SameContraction (e : J' ≃ J) (c : Contraction J) (c' : Contraction J') : Prop :=
  ∀ n x, c' n (x.relabel e) = ((c n x).1.relabel e, (c n x).2.map (FVec.relabel e))

theorem relabel_evaluate {o : IterOptions J} {o' : IterOptions J'} {c : Contraction J} {c' : Contraction J'} (ho : SameOptions e o o')
    (hc : SameContraction e c c') (n : ℕ) (fb x : FVec J) :
    evaluate o' c' n (fb.relabel e) (x.relabel e) =
      match evaluate o c n fb x with
      | .stop r => .stop (r.relabel e)
      | .go y => .go (y.relabel e) := by
  unfold evaluate
  simp only [hc n x]
  by_cases h1 : allFinite (c n x).1 (c n x).2
  · have h1' := (relabel_allFinite e _ _).2 h1
    rw [if_neg (not_not.2 h1), if_neg (not_not.2 h1')]
    have ht : terminationCheck o'.norm o'.atol o'.rtol ((c n x).1.relabel e) (((c n x).1.relabel e).sub (x.relabel e))
        ((c n x).2.map (FVec.relabel e)) ↔ terminationCheck o.norm o.atol o.rtol (c n x).1 ((c n x).1.sub x) (c n x).2 := by
      unfold terminationCheck
      simp only [relabel_sub, relabel_weightBy, ho.norm, ho.atol, ho.rtol]
    rw [ht, ho.maxEvaluations]
    split <;> rfl
  · have h1' := mt (relabel_allFinite e _ _).1 h1
    rw [if_pos h1, if_pos h1']
    rfl

theorem relabel_simpleLoop {o : IterOptions J} {o' : IterOptions J'} {c : Contraction J} {c' : Contraction J'}
    (ho : SameOptions e o o') (hc : SameContraction e c c') (n : ℕ) (x : FVec J) :
    simpleLoop o' c' n (x.relabel e) = (simpleLoop o c n x).relabel e := by
  induction hk : o.maxEvaluations - n using Nat.strong_induction_on generalizing n x with
  | _ k ih =>
    have he := relabel_evaluate e ho hc n x x
    rw [simpleLoop, simpleLoop]
    cases h : evaluate o c n x x with
    | stop r =>
      rw [h] at he
      split
      · rename_i r' h'
        rw [he] at h'
        cases h'
        rfl
      · rename_i y h'
        rw [he] at h'
        cases h'
    | go y =>
      rw [h] at he
      have hlt := evaluate_go h
      split
      · rename_i r' h'
        rw [he] at h'
        cases h'
      · rename_i y' h'
        rw [he] at h'
        cases h'
        exact ih (o.maxEvaluations - (n + 1)) (by omega) (n + 1) y rfl

theorem relabel_fdot [Fintype J] [Fintype J'] (r v : FVec J) : fdot (r.relabel e) (v.relabel e) = fdot r v := by
  unfold fdot
  rw [relabel_finite, relabel_finite]
  have : ∑ i : J', ((r.relabel e) i).getD 0 * ((v.relabel e) i).getD 0 = ∑ i, (r i).getD 0 * (v i).getD 0 :=
    Equiv.sum_comp e fun i => (r i).getD 0 * (v i).getD 0
  rw [this]

theorem relabel_boundedStep [Fintype J] [Fintype J'] (neg : Bool) (scheme : ℕ) (stepMin stepMax : ℝ) (r v : FVec J) :
    boundedStep neg scheme stepMin stepMax (r.relabel e) (v.relabel e) = boundedStep neg scheme stepMin stepMax r v := by
  unfold boundedStep rawStep
  rw [relabel_fdot, relabel_fdot, relabel_fdot]

theorem relabel_accelerate (x r v : FVec J) (alpha : Option ℝ) :
    accelerate (x.relabel e) (r.relabel e) (v.relabel e) alpha = (accelerate x r v alpha).relabel e := rfl

theorem relabel_squaremLoop [Fintype J] [Fintype J'] {o : IterOptions J} {o' : IterOptions J'} {c : Contraction J}
    {c' : Contraction J'} (ho : SameOptions e o o') (hc : SameContraction e c c') (s : SquaremOptions) (n : ℕ)
    (stepMin stepMax : ℝ) (x : FVec J) :
    squaremLoop o' s c' n stepMin stepMax (x.relabel e) = (squaremLoop o s c n stepMin stepMax x).relabel e := by
  induction hk : o.maxEvaluations - n using Nat.strong_induction_on generalizing n stepMin stepMax x with
  | _ k ih =>
    have he := relabel_evaluate e ho hc n x x
    rw [squaremLoop, squaremLoop]
    cases h : evaluate o c n x x with
    | stop r =>
      rw [h] at he
      split
      · rename_i r' h'
        rw [he] at h'
        cases h'
        rfl
      · rename_i y h'
        rw [he] at h'
        cases h'
    | go x1 =>
      rw [h] at he
      have hlt := evaluate_go h
      split
      · rename_i r' h'
        rw [he] at h'
        cases h'
      · rename_i y' h'
        rw [he] at h'
        cases h'
        rw [relabel_evaluate e ho hc (n + 1) x1 x1]
        cases h2 : evaluate o c (n + 1) x1 x1 with
        | stop r => rfl
        | go x2 =>
          simp only [relabel_sub, relabel_boundedStep, relabel_accelerate]
          rw [relabel_evaluate e ho hc (n + 2) x2]
          cases h3 : evaluate o c (n + 2) x2 (accelerate x (x1.sub x) ((x2.sub x1).sub (x1.sub x))
            (boundedStep (s.negZero n) s.scheme stepMin stepMax (x1.sub x) ((x2.sub x1).sub (x1.sub x)))) with
          | stop r => rfl
          | go y =>
            simp only
            exact ih (o.maxEvaluations - (n + 3)) (by omega) (n + 3) _ _ y rfl

theorem relabel_infinityNorm [Fintype J] [Nonempty J] [Fintype J'] [Nonempty J'] (x : FVec J) :
    infinityNorm (x.relabel e) = infinityNorm x := by
  unfold infinityNorm
  rw [relabel_finite]
  congr 2
  apply le_antisymm
  · apply Finset.sup'_le
    intro j _
    exact Finset.le_sup' (fun j => |(x j).getD 0|) (Finset.mem_univ (e j))
  · apply Finset.sup'_le
    intro j _
    have := Finset.le_sup' (fun j : J' => |((x.relabel e) j).getD 0|) (Finset.mem_univ (e.symm j))
    simp only [FVec.relabel, Equiv.apply_symm_apply] at this
    exact this

/-- A real map as a contraction for the routines: values that are not all finite give nothing finite. Used for
pyblp/markets/market.py:609, 660 and 886. -/
noncomputable def Contraction.ofReal (f : (J → ℝ) → J → ℝ) (weights : Option ((J → ℝ) → J → ℝ)) : Contraction J := fun _ x =>
  if x.Finite then
    ((fun j => some (f (fun k => (x k).getD 0) j)), weights.map fun v j => some (v (fun k => (x k).getD 0) j))
  else (fun _ => none, weights.map fun _ _ => none)

theorem sameContraction_ofReal {f : (J → ℝ) → J → ℝ} {f' : (J' → ℝ) → J' → ℝ} {v : Option ((J → ℝ) → J → ℝ)}
    {v' : Option ((J' → ℝ) → J' → ℝ)} (hf : ∀ x, f' (fun j => x (e j)) = fun j => f x (e j))
    (hv : ∀ x, v'.map (fun v => v fun j => x (e j)) = v.map fun v j => v x (e j)) :
    SameContraction e (Contraction.ofReal f v) (Contraction.ofReal f' v') := by
  intro n x
  unfold Contraction.ofReal
  rw [relabel_finite]
  by_cases hx : x.Finite
  · rw [if_pos hx, if_pos hx]
    refine Prod.ext ?_ ?_
    · funext j
      have := congrFun (hf fun k => (x k).getD 0) j
      exact congrArg some this
    · have := hv fun k => (x k).getD 0
      cases v with
      | none =>
        cases v' with
        | none => rfl
        | some v' => simp at this
      | some v =>
        cases v' with
        | none => simp at this
        | some v' =>
          simp only [Option.map_some, Option.some.injEq] at this ⊢
          funext j
          exact congrArg some (congrFun this j)
  · rw [if_neg hx, if_neg hx]
    refine Prod.ext rfl ?_
    have := hv fun k => 0
    cases v with
    | none =>
      cases v' with
      | none => rfl
      | some v' => simp at this
    | some v =>
      cases v' with
      | none => simp at this
      | some v' => rfl

/-- The routines written in pyblp, pyblp/configurations/iteration.py:152-171. -/
inductive Routine where
  | simple
  | squarem (s : SquaremOptions) (stepMin stepMax : ℝ)
  | returned

/-- Limits of a routine, pyblp/configurations/iteration.py:152-171. -/
structure Limits where
  maxEvaluations : ℕ
  atol : ℝ
  rtol : ℝ

/-- A routine with the default norm applied to a map of real vectors, pyblp/configurations/iteration.py:258-294. -/
noncomputable def Routine.solve [Fintype J] [Nonempty J] (routine : Routine) (l : Limits) (f : (J → ℝ) → J → ℝ)
    (weights : Option ((J → ℝ) → J → ℝ)) (initial : J → ℝ) : IterResult J :=
  let o : IterOptions J := { maxEvaluations := l.maxEvaluations, norm := infinityNorm, atol := l.atol, rtol := l.rtol }
  let x : FVec J := fun j => some (initial j)
  match routine with
  | .simple => simpleIterator o (Contraction.ofReal f weights) x
  | .squarem s stepMin stepMax => squaremIterator o s stepMin stepMax (Contraction.ofReal f weights) x
  | .returned => returnIterator x

theorem relabel_solve [Fintype J] [Nonempty J] [Fintype J'] [Nonempty J'] (routine : Routine) (l : Limits)
    {f : (J → ℝ) → J → ℝ} {f' : (J' → ℝ) → J' → ℝ} {v : Option ((J → ℝ) → J → ℝ)}
    {v' : Option ((J' → ℝ) → J' → ℝ)} (hf : ∀ x, f' (fun j => x (e j)) = fun j => f x (e j))
    (hv : ∀ x, v'.map (fun v => v fun j => x (e j)) = v.map fun v j => v x (e j)) (initial : J → ℝ) :
    routine.solve l f' v' (fun j => initial (e j)) = (routine.solve l f v initial).relabel e := by
  have hc := sameContraction_ofReal e hf hv
  have ho : SameOptions e { maxEvaluations := l.maxEvaluations, norm := infinityNorm, atol := l.atol, rtol := l.rtol }
      { maxEvaluations := l.maxEvaluations, norm := infinityNorm, atol := l.atol, rtol := l.rtol } :=
    ⟨rfl, rfl, rfl, relabel_infinityNorm e⟩
  unfold Routine.solve
  cases routine with
  | simple => exact relabel_simpleLoop e ho hc 0 fun j => some (initial j)
  | squarem s stepMin stepMax => exact relabel_squaremLoop e ho hc s 0 stepMin stepMax fun j => some (initial j)
  | returned => rfl

end Iteration

section Supply

variable [Fintype J] [DecidableEq J] [Nonempty J] [Fintype G] [DecidableEq G] [Fintype A] [DecidableEq A]
  [Fintype J'] [DecidableEq J'] [Nonempty J'] [Fintype G'] [DecidableEq G'] [Fintype A'] [Fintype K1] [Fintype K2]
  (r : Relabeling J A G J' A' G') (m : Market J A G) (w : A' → ℝ) (c : Characteristic J A K1 K2)

theorem relabel_default : r.opts ({} : ProbOpts J A) = {} := rfl

theorem relabel_probabilitiesAt (x : J → ℝ) :
    probabilitiesAt (r.market m w) (r.characteristic c) (r.vec x) = r.mat (probabilitiesAt m c x) := by
  have := relabel_probabilities r m w {} (updateDelta c x) (updateMu c x)
  rw [relabel_default] at this
  exact this

theorem relabel_conditionalsAt (x : J → ℝ) :
    conditionalsAt (r.market m w) (r.characteristic c) (r.vec x) = r.mat (conditionalsAt m c x) := by
  have := relabel_conditionals r m w {} (updateDelta c x) (updateMu c x)
  rw [relabel_default] at this
  exact this

theorem relabel_sharesAt (hw : r.SameWeights m w) (x : J → ℝ) :
    sharesAt (r.market m w) (r.characteristic c) (r.vec x) = r.vec (sharesAt m c x) := by
  funext j
  unfold sharesAt
  rw [relabel_probabilitiesAt r m w c x]
  exact relabel_integrate r m w hw fun i => probabilitiesAt m c x (r.product j) i

theorem relabel_derivatives (x : J → ℝ) :
    utilityDerivatives (r.market m w) (r.characteristic c) (r.vec x) = r.mat (utilityDerivatives m c x) := rfl

theorem relabel_integrate₂ (hw : r.SameWeights m w) (F H : A → ℝ) :
    ∑ i', F (r.agent i') * (w i' * H (r.agent i')) = ∑ i, F i * (m.weights i * H i) := by
  have := relabel_integrate r m w hw fun i => F i * H i
  rw [show (∑ i', F (r.agent i') * (w i' * H (r.agent i'))) = ∑ i', F (r.agent i') * H (r.agent i') * w i' from
    Finset.sum_congr rfl fun i _ => by ring, this]
  exact Finset.sum_congr rfl fun i _ => by ring

theorem relabel_lamda (hw : r.SameWeights m w) (P U : J → A → ℝ) (j : J') :
    capitalLamda (r.market m w) (r.mat P) (r.mat U) j = capitalLamda m P U (r.product j) := by
  unfold capitalLamda
  have h := relabel_integrate r m w hw fun i => P (r.product j) i * U (r.product j) i
  have hw' : (r.market m w).weights = w := rfl
  cases hn : m.nesting with
  | none =>
    have hn' : (r.market m w).nesting = none := by simp [Relabeling.market, hn]
    simp only [hn', hw']
    exact h
  | some n =>
    have hn' : (r.market m w).nesting = some (r.nesting n) := by simp [Relabeling.market, hn]
    simp only [hn', hw', relabel_productRho]
    rw [← h]
    rfl

theorem relabel_gamma (hw : r.SameWeights m w) (P C U : J → A → ℝ) (j k : J') :
    capitalGamma (r.market m w) (r.mat P) (r.mat C) (r.mat U) j k = capitalGamma m P C U (r.product j) (r.product k) := by
  unfold capitalGamma
  have h1 := relabel_integrate₂ r m w hw (fun i => P (r.product j) i) fun i => P (r.product k) i * U (r.product k) i
  have h2 := relabel_integrate₂ r m w hw (fun i => C (r.product j) i) fun i => P (r.product k) i * U (r.product k) i
  have hw' : (r.market m w).weights = w := rfl
  cases hn : m.nesting with
  | none =>
    have hn' : (r.market m w).nesting = none := by simp [Relabeling.market, hn]
    simp only [hn', hw']
    exact h1
  | some n =>
    have hn' : (r.market m w).nesting = some (r.nesting n) := by simp [Relabeling.market, hn]
    simp only [hn', hw', relabel_productRho]
    rw [← h1, ← h2]
    have hm : membership (r.nesting n) j k = membership n (r.product j) (r.product k) := by
      unfold membership
      simp only [relabel_group]
    rw [hm]
    rfl

theorem relabel_jacobian (hw : r.SameWeights m w) (P C U : J → A → ℝ) (j k : J') :
    sharesJacobian (r.market m w) (r.mat P) (r.mat C) (r.mat U) j k = sharesJacobian m P C U (r.product j) (r.product k) := by
  unfold sharesJacobian
  rw [relabel_gamma r m w hw, relabel_lamda r m w hw]
  simp only [r.product.injective.eq_iff]

theorem relabel_capitalDelta (hw : r.SameWeights m w) (O : J → J → ℝ) :
    capitalDelta (r.market m w) (r.characteristic c) (fun j k => O (r.product j) (r.product k)) =
      (capitalDelta m c O).submatrix r.product r.product := by
  ext j k
  have hx : (r.characteristic c).x0 = r.vec c.x0 := rfl
  simp only [capitalDelta, Matrix.of_apply, Matrix.submatrix_apply, hx, relabel_probabilitiesAt r m w c c.x0, relabel_conditionalsAt r m w c c.x0,
    relabel_derivatives r m w c c.x0, relabel_gamma r m w hw, relabel_lamda r m w hw, r.product.injective.eq_iff]

theorem relabel_eta (hw : r.SameWeights m w) (O : J → J → ℝ) (s : J → ℝ) :
    computeEta (r.market m w) (r.characteristic c) (fun j k => O (r.product j) (r.product k)) (r.vec s) =
      r.vec (computeEta m c O s) := by
  unfold computeEta
  rw [relabel_capitalDelta r m w c hw O, Matrix.inv_submatrix_equiv, Matrix.submatrix_mulVec_equiv]
  have : r.vec s ∘ r.product.symm = s := by
    funext j
    simp only [Function.comp, Relabeling.vec, Equiv.apply_symm_apply]
  rw [this]
  rfl

theorem relabel_contraction (hw : r.SameWeights m w) (O : J → J → ℝ) (costOf : J → ℝ → ℝ) (x : J → ℝ) :
    priceContraction (r.market m w) (r.characteristic c) (fun j k => O (r.product j) (r.product k))
      (fun j => costOf (r.product j)) (r.vec x) = r.vec (priceContraction m c O costOf x) := by
  funext j
  have hinv : capitalLamdaInverse (r.market m w) (r.characteristic c) (r.vec x) j = capitalLamdaInverse m c x (r.product j) := by
    unfold capitalLamdaInverse
    rw [relabel_probabilitiesAt r m w c x, relabel_derivatives r m w c x, relabel_lamda r m w hw]
  unfold priceContraction zeta
  simp only [hinv, relabel_sharesAt r m w c hw x, relabel_probabilitiesAt r m w c x, relabel_conditionalsAt r m w c x, relabel_derivatives r m w c x,
    relabel_gamma r m w hw]
  simp only [Relabeling.vec]
  have hsum := relabel_sum r fun k => O k (r.product j) * capitalGamma m (probabilitiesAt m c x) (conditionalsAt m c x)
    (utilityDerivatives m c x) k (r.product j) * (x k - costOf k (sharesAt m c x k))
  rw [hsum]

theorem relabel_priceWeights (hw : r.SameWeights m w) (x : J → ℝ) :
    priceWeights (r.market m w) (r.characteristic c) (r.vec x) = r.vec (priceWeights m c x) := by
  funext j
  unfold priceWeights
  rw [relabel_probabilitiesAt r m w c x, relabel_derivatives r m w c x, relabel_lamda r m w hw]
  rfl

end Supply

section Moments

open scoped Matrix

variable {ε k d ι : Type} {q : ε → Type} [Fintype ε] [DecidableEq ε] [Fintype k] [∀ e, Fintype (q e)] [LinearOrder ι] {N : ℕ}
  (σ : Equiv.Perm (Fin N))

/-- Rows of a matrix for each equation in another order. -/
def permuteRows {κ : ε → Type} (X : (e : ε) → Matrix (Fin N) (κ e) ℝ) : (e : ε) → Matrix (Fin N) (κ e) ℝ := fun e i => X e (σ i)

theorem permute_vstack (X : ε → Matrix (Fin N) k ℝ) :
    vstack (permuteRows σ X) = (vstack X).submatrix ((Equiv.refl ε).prodCongr σ) (Equiv.refl k) := rfl

theorem permute_blockDiag (Z : (e : ε) → Matrix (Fin N) (q e) ℝ) :
    blockDiag (permuteRows σ Z) = (blockDiag Z).submatrix ((Equiv.refl ε).prodCongr σ) (Equiv.refl _) := rfl

theorem permute_product (X : ε → Matrix (Fin N) k ℝ) (Z : (e : ε) → Matrix (Fin N) (q e) ℝ) :
    (blockDiag (permuteRows σ Z))ᵀ * vstack (permuteRows σ X) = (blockDiag Z)ᵀ * vstack X := by
  rw [permute_vstack, permute_blockDiag, Matrix.transpose_submatrix, Matrix.submatrix_mul_equiv]
  rfl

theorem permute_product' (X : ε → Matrix (Fin N) k ℝ) (Z : (e : ε) → Matrix (Fin N) (q e) ℝ) :
    (vstack (permuteRows σ X))ᵀ * blockDiag (permuteRows σ Z) = (vstack X)ᵀ * blockDiag Z := by
  rw [permute_vstack, permute_blockDiag, Matrix.transpose_submatrix, Matrix.submatrix_mul_equiv]
  rfl

theorem permute_moments (Z : (e : ε) → Matrix (Fin N) (q e) ℝ) (y : ε → Fin N → ℝ) :
    (blockDiag (permuteRows σ Z))ᵀ *ᵥ (fun r => y r.1 (σ r.2)) = (blockDiag Z)ᵀ *ᵥ fun r => y r.1 r.2 := by
  rw [permute_blockDiag, Matrix.transpose_submatrix, Matrix.submatrix_mulVec_equiv]
  funext c
  simp [Function.comp_def]

theorem permute_covariances (X : ε → Matrix (Fin N) k ℝ) (Z : (e : ε) → Matrix (Fin N) (q e) ℝ)
    (W : Matrix (MomentIndex q) (MomentIndex q) ℝ) :
    ivCovariancesInverse (permuteRows σ X) (permuteRows σ Z) W = ivCovariancesInverse X Z W := by
  unfold ivCovariancesInverse
  rw [permute_product]

theorem permute_parameters (V : Matrix k k ℝ) (X : ε → Matrix (Fin N) k ℝ) (Z : (e : ε) → Matrix (Fin N) (q e) ℝ)
    (W : Matrix (MomentIndex q) (MomentIndex q) ℝ) (y : ε → Fin N → ℝ) :
    ivParameters V (permuteRows σ X) (permuteRows σ Z) W (fun e i => y e (σ i)) = ivParameters V X Z W y := by
  unfold ivParameters
  rw [permute_product', permute_moments]

theorem permute_residuals (V : Matrix k k ℝ) (X : ε → Matrix (Fin N) k ℝ) (Z : (e : ε) → Matrix (Fin N) (q e) ℝ)
    (W : Matrix (MomentIndex q) (MomentIndex q) ℝ) (y : ε → Fin N → ℝ) :
    ivResiduals V (permuteRows σ X) (permuteRows σ Z) W (fun e i => y e (σ i)) = fun e i => ivResiduals V X Z W y e (σ i) := by
  unfold ivResiduals
  rw [permute_parameters]
  rfl

theorem permute_mean (u : ε → Fin N → ℝ) (Z : (e : ε) → Matrix (Fin N) (q e) ℝ) :
    gmmMomentsMean (fun e i => u e (σ i)) (permuteRows σ Z) = gmmMomentsMean u Z := by
  funext c
  unfold gmmMomentsMean rowMean gmmMoments permuteRows
  rw [Equiv.sum_comp σ fun i => u c.1 i * Z c.1 i c.2]

theorem permute_jacobian_mean (u : ε → Fin N → ℝ) (Z : (e : ε) → Matrix (Fin N) (q e) ℝ) :
    gmmMomentsJacobianMean (fun e i => u e (σ i)) (permuteRows σ Z) = gmmMomentsJacobianMean u Z := by
  funext c
  unfold gmmMomentsJacobianMean permuteRows
  rw [Equiv.sum_comp σ fun i => u c.1 i * Z c.1 i c.2]

theorem permute_momentRow (u : ε → Fin N → ℝ) (Z : (e : ε) → Matrix (Fin N) (q e) ℝ) (center : Bool) (i : Fin N)
    (a : (e : ε) × q e) :
    Spec.momentRow (fun e i => u e (σ i)) (permuteRows σ Z) center i a = Spec.momentRow u Z center (σ i) a := by
  unfold Spec.momentRow permuteRows
  rw [Equiv.sum_comp σ fun i => u a.1 i * Z a.1 i a.2]

theorem permute_moment_covariances (u : ε → Fin N → ℝ) (Z : (e : ε) → Matrix (Fin N) (q e) ℝ) (type : CovarianceType)
    (ids : Fin N → ι) (sort sort' : List (Fin N)) (hs : IsArgsort ids sort) (hs' : IsArgsort (fun i => ids (σ i)) sort')
    (center : Bool) :
    gmmMomentCovariances (fun e i => u e (σ i)) (permuteRows σ Z) type (fun i => ids (σ i)) sort' center =
      gmmMomentCovariances u Z type ids sort center := by
  ext a b
  cases type with
  | unadjusted =>
    rw [C41_unadjusted, C41_unadjusted]
    unfold permuteRows
    rw [Equiv.sum_comp σ fun i => u a.1 i * u b.1 i, Equiv.sum_comp σ fun i => u a.1 i, Equiv.sum_comp σ fun i => u b.1 i,
      Equiv.sum_comp σ fun i => Z a.1 i a.2 * Z b.1 i b.2]
  | robust =>
    rw [C41_robust, C41_robust]
    simp only [permute_momentRow]
    rw [Equiv.sum_comp σ fun i => Spec.momentRow u Z center i a * Spec.momentRow u Z center i b]
  | clustered =>
    rw [C41_clustered _ _ _ _ hs', C41_clustered _ _ _ _ hs]
    simp only [permute_momentRow]
    have himage : Finset.univ.image (fun i => ids (σ i)) = Finset.univ.image ids := by
      ext c
      simp only [Finset.mem_image, Finset.mem_univ, true_and]
      exact ⟨fun ⟨i, h⟩ => ⟨σ i, h⟩, fun ⟨i, h⟩ => ⟨σ.symm i, by rwa [Equiv.apply_symm_apply]⟩⟩
    have hsum : ∀ (c : ι) (F : Fin N → ℝ), ∑ i with ids (σ i) = c, F (σ i) = ∑ i with ids i = c, F i := by
      intro c F
      rw [Finset.sum_filter, Finset.sum_filter, Equiv.sum_comp σ fun i => if ids i = c then F i else 0]
    rw [himage]
    congr 1
    exact Finset.sum_congr rfl fun c _ => by
      rw [hsum c fun i => Spec.momentRow u Z center i a, hsum c fun i => Spec.momentRow u Z center i b]

end Moments

/-! ## Rows of all markets -/

section Rows

variable {ι α D : Type} [LinearOrder ι] {N : ℕ}

namespace Spec

/-- What is computed for a market from the data for its products, whatever their number: the results for products in another
order are the results, in this order. -/
def Equivariant (f : (n : ℕ) → (Fin n → D) → Fin n → α) : Prop :=
  ∀ (n n' : ℕ) (e : Fin n ≃ Fin n') (data : Fin n' → D) (j : Fin n), f n (fun j => data (e j)) j = f n' data (e j)

end Spec

/-- Work for each market: select the rows of the market, in their order (pyblp/markets/market.py:83-88), and compute. -/
noncomputable def marketWork [Inhabited α] (f : ι → (n : ℕ) → (Fin n → D) → Fin n → α) (ids : Fin N → ι) (data : Fin N → D) (t : ι) : ℕ → α :=
  fun p =>
    if h : p < (indicesOf ids t).length then
      f t (indicesOf ids t).length (fun j => data ((indicesOf ids t).get j)) ⟨p, h⟩
    else default

theorem equivariant_list {f : (n : ℕ) → (Fin n → D) → Fin n → α} (hf : Spec.Equivariant f) (data : Fin N → D)
    (L L' : List (Fin N)) (hL : L.Nodup) (σ : Equiv.Perm (Fin N)) (hL' : L'.Nodup) (h : ∀ i, i ∈ L' ↔ σ i ∈ L) (i : Fin N)
    (h1 : L'.idxOf i < L'.length) (h2 : L.idxOf (σ i) < L.length) :
    f L'.length (fun j => data (σ (L'.get j))) ⟨L'.idxOf i, h1⟩ = f L.length (fun j => data (L.get j)) ⟨L.idxOf (σ i), h2⟩ := by
  let e : Fin L'.length ≃ Fin L.length :=
    { toFun := fun j => ⟨L.idxOf (σ (L'.get j)), List.idxOf_lt_length_iff.2 ((h _).1 (List.get_mem _ _))⟩
      invFun := fun j => ⟨L'.idxOf (σ.symm (L.get j)), List.idxOf_lt_length_iff.2 ((h _).2 (by
        rw [Equiv.apply_symm_apply]; exact List.get_mem _ _))⟩
      left_inv := fun j => by
        apply Fin.ext
        simp only [List.get_eq_getElem, List.getElem_idxOf, Equiv.symm_apply_apply]
        exact hL'.idxOf_getElem _ _
      right_inv := fun j => by
        apply Fin.ext
        simp only [List.get_eq_getElem, List.getElem_idxOf, Equiv.apply_symm_apply]
        exact hL.idxOf_getElem _ _ }
  have he : ∀ j, L.get (e j) = σ (L'.get j) := fun j => List.getElem_idxOf _
  have := hf L'.length L.length e (fun j => data (L.get j)) ⟨L'.idxOf i, h1⟩
  simp only [he] at this
  rw [this]
  congr 1
  apply Fin.ext
  change L.idxOf (σ (L'.get ⟨L'.idxOf i, h1⟩)) = _
  rw [List.get_eq_getElem, List.getElem_idxOf]

/-- **C114.** If what is computed for each market does not depend on the order of its products, what is computed for all of the data
does not depend on the order of its rows: with rows in another order, in which markets may be interleaved in any other way, the
result is the same result with its rows in this order. Whether and how markets are processed in parallel does not matter. -/
theorem C114_rows [Inhabited α] (pool pool' : Option ℕ) (f : ι → (n : ℕ) → (Fin n → D) → Fin n → α) (hf : ∀ t, Spec.Equivariant (f t))
    (ids : Fin N → ι) (data : Fin N → D) (σ : Equiv.Perm (Fin N)) (initial initial' : Fin N → α) (items items' : List (ι × (ℕ → α)))
    (h : Generated pool (uniqueIds ids) (marketWork f ids data) items)
    (h' : Generated pool' (uniqueIds fun i => ids (σ i)) (marketWork f (fun i => ids (σ i)) fun i => data (σ i)) items') (i : Fin N) :
    assemble (fun i => ids (σ i)) initial' items' i = assemble ids initial items (σ i) := by
  rw [C08_assembled pool' _ initial' _ items' h', C08_assembled pool _ initial _ items h, ← idxOf_indices, ← idxOf_indices]
  have hnd : ∀ ids : Fin N → ι, ∀ t, (indicesOf ids t).Nodup := by
    intro ids t
    rw [indicesOf_eq]
    exact (List.nodup_finRange N).filter _
  have h1 : (indicesOf (fun i => ids (σ i)) (ids (σ i))).idxOf i < (indicesOf (fun i => ids (σ i)) (ids (σ i))).length :=
    List.idxOf_lt_length_iff.2 ((mem_indicesOf _ _ _).2 rfl)
  have h2 : (indicesOf ids (ids (σ i))).idxOf (σ i) < (indicesOf ids (ids (σ i))).length :=
    List.idxOf_lt_length_iff.2 ((mem_indicesOf _ _ _).2 rfl)
  unfold marketWork
  rw [dif_pos h1, dif_pos h2]
  refine equivariant_list (hf (ids (σ i))) data _ _ (hnd _ _) σ (hnd _ _) ?_ i h1 h2
  intro i'
  rw [mem_indicesOf, mem_indicesOf]

end Rows

/-! ## Markets -/

section Markets

variable [Fintype J] [DecidableEq J] [Nonempty J] [Fintype G] [DecidableEq G] [Fintype A] [DecidableEq A]
  [Fintype J'] [DecidableEq J'] [Nonempty J'] [Fintype G'] [DecidableEq G'] [Fintype A'] [Fintype K1] [Fintype K2]

/-- **C114.** Choice probabilities, conditional probabilities and market shares of products are the same in whatever order products are
given, whatever nesting groups are called, and whether an agent is given once or as several agents that share its weight (or,
with weight zero, is left out). -/
theorem C114_probabilities (r : Relabeling J A G J' A' G') (m : Market J A G) (w : A' → ℝ) (o : ProbOpts J A) (delta : J → ℝ)
    (mu : J → A → ℝ) :
    (∀ j i, computeProbabilities (r.market m w) (r.opts o) (r.vec delta) (r.mat mu) j i =
        computeProbabilities m o delta mu (r.product j) (r.agent i)) ∧
      (∀ j i, computeConditionals (r.market m w) (r.opts o) (r.vec delta) (r.mat mu) j i =
        computeConditionals m o delta mu (r.product j) (r.agent i)) ∧
      (r.SameWeights m w → ∀ j, computeShares (r.market m w) (r.opts o) (r.vec delta) (r.mat mu) j =
        computeShares m o delta mu (r.product j)) :=
  ⟨fun j i => congrFun (congrFun (relabel_probabilities r m w o delta mu) j) i,
    fun j i => congrFun (congrFun (relabel_conditionals r m w o delta mu) j) i,
    fun hw j => congrFun (relabel_shares r m w hw o delta mu) j⟩

/-- **C114.** So are the mean utilities that solve for shares, for each type of contraction and each routine written in pyblp: not
only their limits, but what a routine returns after any number of evaluations, how many evaluations it takes, and whether it
reports convergence. -/
theorem C114_delta (r : Relabeling J A G J' A' G') (m : Market J A G) (w : A' → ℝ) (hw : r.SameWeights m w) (K2 : ℕ)
    (b : SharesBounds) (mu : J → A → ℝ) (s initial : J → ℝ) (routine : Routine) (l : Limits) (fp : FpType) :
    computeDelta (r.market m w) K2 b (r.mat mu) (r.vec s)
        (fun initial f j => ((routine.solve l f none initial).x j).getD 0) fp (r.vec initial) =
      r.vec (computeDelta m K2 b mu s (fun initial f j => ((routine.solve l f none initial).x j).getD 0) fp initial) ∧
    (∀ safe, routine.solve l (linearContraction (r.market m w) safe b (r.mat mu) (r.vec s)) none (r.vec initial) =
      (routine.solve l (linearContraction m safe b mu s) none initial).relabel r.product) ∧
    (∀ safe, routine.solve l (nonlinearContraction (r.market m w) safe (r.mat mu) (r.vec s)) none (r.vec initial) =
      (routine.solve l (nonlinearContraction m safe mu s) none initial).relabel r.product) := by
  have h1 : ∀ safe initial, routine.solve l (linearContraction (r.market m w) safe b (r.mat mu) (r.vec s)) none (r.vec initial) =
      (routine.solve l (linearContraction m safe b mu s) none initial).relabel r.product := fun safe initial =>
    relabel_solve r.product routine l (relabel_linear r m w hw safe b mu s) (fun _ => rfl) initial
  have h2 : ∀ safe initial, routine.solve l (nonlinearContraction (r.market m w) safe (r.mat mu) (r.vec s)) none (r.vec initial) =
      (routine.solve l (nonlinearContraction m safe mu s) none initial).relabel r.product := fun safe initial =>
    relabel_solve r.product routine l (relabel_nonlinear r m w hw safe mu s) (fun _ => rfl) initial
  refine ⟨?_, fun safe => h1 safe initial, fun safe => h2 safe initial⟩
  unfold computeDelta
  split
  · exact relabel_closedForm r m w s
  · split
    · funext j
      change ((routine.solve l _ none _).x j).getD 0 = _
      rw [h1]
      rfl
    · funext j
      have := h2 (isSubstring ['s', 'a', 'f', 'e'] fp.chars) fun k => Real.exp (initial k)
      change Real.log (((routine.solve l _ none (r.vec fun k => Real.exp (initial k))).x j).getD 0) = _
      rw [this]
      rfl

/-- **C114.** So are derivatives of market shares, markups and marginal costs, given that the ownership matrix is for products in the
same order. -/
theorem C114_costs (r : Relabeling J A G J' A' G') (m : Market J A G) (w : A' → ℝ) (hw : r.SameWeights m w)
    (c : Characteristic J A K1 K2) (O : J → J → ℝ) (x s : J → ℝ) :
    (∀ j k, sharesJacobian (r.market m w) (probabilitiesAt (r.market m w) (r.characteristic c) (r.vec x))
        (conditionalsAt (r.market m w) (r.characteristic c) (r.vec x))
        (utilityDerivatives (r.market m w) (r.characteristic c) (r.vec x)) j k =
      sharesJacobian m (probabilitiesAt m c x) (conditionalsAt m c x) (utilityDerivatives m c x) (r.product j) (r.product k)) ∧
    (∀ j, computeEta (r.market m w) (r.characteristic c) (fun j k => O (r.product j) (r.product k)) (r.vec s) j =
      computeEta m c O s (r.product j)) ∧
    (∀ j, computeCosts (r.market m w) (r.characteristic c) (fun j k => O (r.product j) (r.product k)) (r.vec s) j =
      computeCosts m c O s (r.product j)) := by
  refine ⟨fun j k => ?_, fun j => congrFun (relabel_eta r m w c hw O s) j, fun j => ?_⟩
  · rw [relabel_probabilitiesAt r m w c x, relabel_conditionalsAt r m w c x, relabel_derivatives r m w c x, relabel_jacobian r m w hw]
  · unfold computeCosts
    rw [relabel_eta r m w c hw O s]
    rfl

/-- **C114.** So are equilibrium prices: what a routine returns for them, how many evaluations it takes, and whether it reports
convergence, given marginal costs that may depend on shares. -/
theorem C114_prices (r : Relabeling J A G J' A' G') (m : Market J A G) (w : A' → ℝ) (hw : r.SameWeights m w)
    (c : Characteristic J A K1 K2) (O : J → J → ℝ) (costOf : J → ℝ → ℝ) (routine : Routine) (l : Limits) (initial : J → ℝ) :
    routine.solve l
        (priceContraction (r.market m w) (r.characteristic c) (fun j k => O (r.product j) (r.product k)) fun j => costOf (r.product j))
        (some (priceWeights (r.market m w) (r.characteristic c))) (r.vec initial) =
      (routine.solve l (priceContraction m c O costOf) (some (priceWeights m c)) initial).relabel r.product :=
  relabel_solve r.product routine l (v := some (priceWeights m c)) (v' := some (priceWeights (r.market m w) (r.characteristic c)))
    (relabel_contraction r m w c hw O costOf) (fun x => congrArg some (relabel_priceWeights r m w c hw x)) initial

end Markets

section Estimates

open scoped Matrix

variable {ε k d ι : Type} {q : ε → Type} [Fintype ε] [DecidableEq ε] [Fintype k] [∀ e, Fintype (q e)] [Fintype d] [LinearOrder ι]
  {N : ℕ}

/-- **C114.** Given mean utilities and costs in the order of the rows, linear parameters do not depend on it, structural errors
follow it, and averaged moments, the objective, its gradient and covariances of moments of each type do not depend on it. -/
theorem C114_moments (σ : Equiv.Perm (Fin N)) (scale : Bool) (V : Matrix k k ℝ) (X : ε → Matrix (Fin N) k ℝ)
    (Z : (e : ε) → Matrix (Fin N) (q e) ℝ) (W : Matrix (MomentIndex q ⊕ d) (MomentIndex q ⊕ d) ℝ)
    (y yJacobian u : ε → Fin N → ℝ) (micro microJacobian : d → ℝ) :
    ivCovariancesInverse (permuteRows σ X) (permuteRows σ Z) (ivWeights W) = ivCovariancesInverse X Z (ivWeights W) ∧
      ivParameters V (permuteRows σ X) (permuteRows σ Z) (ivWeights W) (fun e i => y e (σ i)) = ivParameters V X Z (ivWeights W) y ∧
      (∀ e i, ivResiduals V (permuteRows σ X) (permuteRows σ Z) (ivWeights W) (fun e i => y e (σ i)) e i =
        ivResiduals V X Z (ivWeights W) y e (σ i)) ∧
      progressObjective scale V (permuteRows σ X) (permuteRows σ Z) W (fun e i => y e (σ i)) micro =
        progressObjective scale V X Z W y micro ∧
      progressGradient scale V (permuteRows σ X) (permuteRows σ Z) W (fun e i => y e (σ i)) (fun e i => yJacobian e (σ i)) micro
        microJacobian = progressGradient scale V X Z W y yJacobian micro microJacobian ∧
      (∀ (type : CovarianceType) (ids : Fin N → ι) (sort sort' : List (Fin N)), IsArgsort ids sort →
        IsArgsort (fun i => ids (σ i)) sort' → ∀ center,
        gmmMomentCovariances (fun e i => u e (σ i)) (permuteRows σ Z) type (fun i => ids (σ i)) sort' center =
          gmmMomentCovariances u Z type ids sort center) := by
  refine ⟨permute_covariances σ X Z _, permute_parameters σ V X Z _ y,
    fun e i => congrFun (congrFun (permute_residuals σ V X Z _ y) e) i, ?_, ?_,
    fun type ids sort sort' hs hs' center => permute_moment_covariances σ u Z type ids sort sort' hs hs' center⟩
  · unfold progressObjective
    rw [permute_residuals, permute_mean]
  · unfold progressGradient
    rw [permute_residuals, permute_mean, permute_jacobian_mean]

end Estimates

/-! ## Example -/

/-- Data for a product: a share, a group, and utility above the mean for each of two agents. -/
structure ExampleRow where
  share : ℝ
  group : Bool
  mu : Bool → ℝ
  initial : ℝ

/-- A market with these products and two agents, of weights that differ by market. -/
noncomputable def exampleRows (weights : Bool → ℝ) (n : ℕ) (d : Fin n → ExampleRow) : Market (Fin n) Bool Bool where
  nesting := some ⟨fun j => (d j).group, .perGroup fun g => if g then 1 / 2 else 1 / 4⟩
  epsilonScale := 1
  weights := weights
  availability := none

/-- Mean utilities of these markets. -/
noncomputable def exampleDelta (t : ℕ) (n : ℕ) (d : Fin n → ExampleRow) (j : Fin n) : ℝ :=
  haveI : Nonempty (Fin n) := ⟨j⟩
  computeDelta (exampleRows (fun i => if i then 1 / (t + 1) else 1 - 1 / (t + 1)) n d) 1 ⟨none, none⟩ (fun j i => (d j).mu i) (fun j => (d j).share)
    (fun initial f j => ((Routine.simple.solve ⟨1000, 1 / 10 ^ 14, 0⟩ f none initial).x j).getD 0) .safe_linear
    (fun j => (d j).initial) j

/-- Mean utilities of nested markets with random coefficients, solved by iteration in each market, do not depend on the order of
rows: the hypothesis of `C114_rows` holds by `C114_delta`. -/
example (t : ℕ) : Spec.Equivariant (exampleDelta t) := by
  intro n n' e data j
  have : Nonempty (Fin n) := ⟨j⟩
  have : Nonempty (Fin n') := ⟨e j⟩
  let r : Relabeling (Fin n') Bool Bool (Fin n) Bool Bool := ⟨e, id, Equiv.refl _⟩
  have hw : r.SameWeights (exampleRows (fun i => if i then 1 / (t + 1) else 1 - 1 / (t + 1)) n' data) fun i => if i then 1 / (t + 1) else 1 - 1 / (t + 1) := by
    intro i
    simp [r, exampleRows, Finset.filter_eq']
  exact congrFun (C114_delta r _ _ hw 1 ⟨none, none⟩ (fun j i => (data j).mu i) (fun j => (data j).share)
    (fun j => (data j).initial) .simple ⟨1000, 1 / 10 ^ 14, 0⟩ .safe_linear).1 j

/-- An agent of weight one half as two agents of weights one third and one sixth, and an agent of weight zero left out. -/
example : (⟨Equiv.refl _, ![0, 0, 1], Equiv.refl _⟩ : Relabeling (Fin 2) (Fin 3) Unit (Fin 2) (Fin 3) Unit).SameWeights
    ⟨none, 1, ![1 / 2, 1 / 2, 0], none⟩ ![1 / 3, 1 / 6, 1 / 2] := by
  intro i
  rw [Finset.sum_filter, Fin.sum_univ_three]
  fin_cases i <;> simp; norm_num

end Pyblp
