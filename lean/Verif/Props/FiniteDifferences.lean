import Verif.Model.FiniteDifferences
import Mathlib.Algebra.BigOperators.Fin
import Mathlib.Analysis.Calculus.Deriv.Slope
import Mathlib.Analysis.Calculus.Deriv.Comp
import Mathlib.Analysis.Calculus.Deriv.Add
import Mathlib.Analysis.Calculus.Deriv.Mul

/-!
# Finite differences: C62
-/

set_option linter.unusedSectionVars false

namespace Pyblp

variable {P ι : Type} [DecidableEq P]

namespace Spec

/-- A quadraticPolynomial function of several variables; affine if `A = 0`. -/
def quadraticPolynomial [Fintype P] (c : ℝ) (b : P → ℝ) (A : P → P → ℝ) (x : P → ℝ) : ℝ := c + ∑ p, b p * x p + ∑ p, ∑ q, A p q * x p * x q

/-- Its partial derivatives. -/
def quadraticGradient [Fintype P] (b : P → ℝ) (A : P → P → ℝ) (x : P → ℝ) (p : P) : ℝ := b p + ∑ q, (A p q + A q p) * x q

end Spec

theorem bump_eq (x : P → ℝ) (k : P) (e : ℝ) : bump x k e = fun p => x p + if p = k then e else 0 := by
  funext p
  unfold bump
  by_cases h : p = k
  · subst h
    simp
  · simp [h]

theorem quadraticFunction_add [Fintype P] (c : ℝ) (b : P → ℝ) (A : P → P → ℝ) (x d : P → ℝ) :
    Spec.quadraticPolynomial c b A (fun p => x p + d p) =
      Spec.quadraticPolynomial c b A x + ∑ p, Spec.quadraticGradient b A x p * d p + ∑ p, ∑ q, A p q * d p * d q := by
  unfold Spec.quadraticPolynomial Spec.quadraticGradient
  have h1 : ∑ p, ∑ q, A p q * (x p + d p) * (x q + d q) = ∑ p, ∑ q, A p q * x p * x q + ∑ p, ∑ q, A p q * x q * d p +
      ∑ p, ∑ q, A p q * x p * d q + ∑ p, ∑ q, A p q * d p * d q := by
    simp only [← Finset.sum_add_distrib]
    refine Finset.sum_congr rfl fun p _ => Finset.sum_congr rfl fun q _ => ?_
    ring
  have h2 : ∑ p, ∑ q, A p q * x p * d q = ∑ p, ∑ q, A q p * x q * d p := Finset.sum_comm
  have h3 : ∑ p, (b p + ∑ q, (A p q + A q p) * x q) * d p = ∑ p, b p * d p + (∑ p, ∑ q, A p q * x q * d p + ∑ p, ∑ q, A q p * x q * d p) := by
    simp only [← Finset.sum_add_distrib]
    refine Finset.sum_congr rfl fun p _ => ?_
    rw [add_mul, Finset.sum_mul]
    congr 1
    refine Finset.sum_congr rfl fun q _ => ?_
    ring
  have h4 : ∑ p, b p * (x p + d p) = ∑ p, b p * x p + ∑ p, b p * d p := by
    rw [← Finset.sum_add_distrib]
    exact Finset.sum_congr rfl fun p _ => by ring
  rw [h1, h2, h3, h4]
  ring

theorem quadratic_bump [Fintype P] (c : ℝ) (b : P → ℝ) (A : P → P → ℝ) (x : P → ℝ) (k : P) (e : ℝ) :
    Spec.quadraticPolynomial c b A (bump x k e) = Spec.quadraticPolynomial c b A x + Spec.quadraticGradient b A x k * e + A k k * e * e := by
  rw [bump_eq, quadraticFunction_add]
  congr 1
  · congr 1
    simp
  · simp

/-- The specification's gradient is the derivative. -/
theorem C62_gradient [Fintype P] (c : ℝ) (b : P → ℝ) (A : P → P → ℝ) (x : P → ℝ) (k : P) :
    HasDerivAt (fun e => Spec.quadraticPolynomial c b A (bump x k e)) (Spec.quadraticGradient b A x k) 0 := by
  have : (fun e => Spec.quadraticPolynomial c b A (bump x k e)) =
      fun e => Spec.quadraticPolynomial c b A x + Spec.quadraticGradient b A x k * e + A k k * e * e := by
    funext e
    exact quadratic_bump c b A x k e
  rw [this]
  have h1 := ((hasDerivAt_id (0 : ℝ)).const_mul (Spec.quadraticGradient b A x k)).const_add (Spec.quadraticPolynomial c b A x)
  have h2 := ((hasDerivAt_id (0 : ℝ)).const_mul (A k k)).mul (hasDerivAt_id (0 : ℝ))
  exact (h1.add h2).congr_deriv (by simp)

/-- **C62.** Central differences of quadraticPolynomial (in particular affine) functions are their derivatives for every step. -/
theorem C62_first [Fintype P] (c : ι → ℝ) (b : ι → P → ℝ) (A : ι → P → P → ℝ) (x : P → ℝ) (epsilon : ℝ) (he : epsilon ≠ 0) (i : ι) (k : P) :
    computeFiniteDifferences (fun x i => Spec.quadraticPolynomial (c i) (b i) (A i) x) x epsilon i k = Spec.quadraticGradient (b i) (A i) x k := by
  unfold computeFiniteDifferences
  dsimp only
  rw [quadratic_bump, quadratic_bump]
  field_simp
  ring

/-- **C62.** Second differences of quadraticPolynomial functions are their second derivatives for every step. -/
theorem C62_second [Fintype P] (c : ι → ℝ) (b : ι → P → ℝ) (A : ι → P → P → ℝ) (x : P → ℝ) (scaled : ℝ) (he : 0 < scaled) (i : ι) (k l : P) :
    computeSecondFiniteDifferences (fun x i => Spec.quadraticPolynomial (c i) (b i) (A i) x) x scaled i k l = A i k l + A i l k := by
  unfold computeSecondFiniteDifferences
  have hs : Real.sqrt scaled ≠ 0 := (Real.sqrt_pos.2 he).ne'
  generalize Real.sqrt scaled = e at hs
  dsimp only
  have hg : ∀ a, Spec.quadraticGradient (b i) (A i) (bump x l a) k =
      Spec.quadraticGradient (b i) (A i) x k + (A i k l + A i l k) * a := by
    intro a
    rw [bump_eq]
    unfold Spec.quadraticGradient
    simp only [mul_add, Finset.sum_add_distrib]
    simp
    ring
  rw [quadratic_bump _ _ _ _ k, quadratic_bump _ _ _ _ k, quadratic_bump _ _ _ _ k, quadratic_bump _ _ _ _ k, hg, hg]
  field_simp
  ring

/-- **C62.** Second differences of any function are symmetric. -/
theorem C62_symmetric (f : (P → ℝ) → ι → ℝ) (x : P → ℝ) (scaled : ℝ) (i : ι) (k l : P) :
    computeSecondFiniteDifferences f x scaled i k l = computeSecondFiniteDifferences f x scaled i l k := by
  have hcomm : ∀ a c, bump (bump x k a) l c = bump (bump x l c) k a := by
    intro a c
    simp only [bump_eq]
    funext p
    ring
  unfold computeSecondFiniteDifferences
  dsimp only
  simp only [hcomm]
  ring

/-- **C62.** The Hessian is exact when the gradient is quadraticPolynomial with symmetric derivatives, for every step, and always symmetric. -/
theorem C62_hessian [Fintype P] (c : P → ℝ) (b : P → P → ℝ) (A : P → P → P → ℝ) (x : P → ℝ) (epsilon : ℝ) (he : epsilon ≠ 0)
    (hsym : ∀ p q, Spec.quadraticGradient (b p) (A p) x q = Spec.quadraticGradient (b q) (A q) x p) (p q : P) :
    differenceHessian (fun x p => Spec.quadraticPolynomial (c p) (b p) (A p) x) x epsilon p q = Spec.quadraticGradient (b p) (A p) x q ∧
      ∀ gradient, differenceHessian gradient x epsilon p q = differenceHessian gradient x epsilon q p := by
  constructor
  · unfold differenceHessian
    rw [C62_first c b A x epsilon he p q, C62_first c b A x epsilon he q p, hsym q p]
    ring
  · intro gradient
    unfold differenceHessian
    ring

/-- **C62.** For any differentiable function central differences converge to the derivative as the step goes to zero. -/
theorem C62_limit (f : (P → ℝ) → ι → ℝ) (x : P → ℝ) (i : ι) (k : P) (d : ℝ) (hf : HasDerivAt (fun e => f (bump x k e) i) d 0) :
    Filter.Tendsto (fun epsilon => computeFiniteDifferences f x epsilon i k) (nhdsWithin 0 {0}ᶜ) (nhds d) := by
  have hp : HasDerivAt (fun e : ℝ => f (bump x k (e / 2)) i) (d * (1 / 2)) 0 := by
    have h0 : HasDerivAt (fun e => f (bump x k e) i) d ((0 : ℝ) / 2) := by simpa using hf
    exact h0.comp (0 : ℝ) ((hasDerivAt_id (0 : ℝ)).div_const 2)
  have hm : HasDerivAt (fun e : ℝ => f (bump x k (-(e / 2))) i) (d * (-(1 / 2))) 0 := by
    have h0 : HasDerivAt (fun e => f (bump x k e) i) d (-((0 : ℝ) / 2)) := by simpa using hf
    exact h0.comp (0 : ℝ) ((hasDerivAt_id (0 : ℝ)).div_const 2).neg
  have hd : HasDerivAt (fun e : ℝ => f (bump x k (e / 2)) i - f (bump x k (-(e / 2))) i) d 0 :=
    (hp.sub hm).congr_deriv (by ring)
  have := hd.tendsto_slope
  refine this.congr' ?_
  filter_upwards [self_mem_nhdsWithin] with e he
  unfold computeFiniteDifferences slope
  simp only [sub_zero, vsub_eq_sub, zero_div, neg_zero, sub_self, smul_eq_mul]
  exact (div_eq_inv_mul _ _).symm

/-- A quadraticPolynomial function of two variables with a cross term. -/
example : computeFiniteDifferences (fun (x : Fin 2 → ℝ) (_ : Unit) => Spec.quadraticPolynomial 1 ![2, 0] ![![0, 3], ![0, 5]] x) ![1, 4] (1 / 7) () 1 =
    3 * 1 + 2 * 5 * 4 := by
  rw [C62_first (fun _ => 1) (fun _ => ![2, 0]) (fun _ => ![![0, 3], ![0, 5]]) ![1, 4] (1 / 7) (by norm_num) () 1]
  unfold Spec.quadraticGradient
  rw [Fin.sum_univ_two]
  norm_num

end Pyblp
