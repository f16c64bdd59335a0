import Verif.Lemmas.ProfitSmooth
import Verif.Lemmas.SecondOrder
import Verif.Model.SecondOrder
import Mathlib.Analysis.Matrix.PosDef
import Mathlib.Analysis.Calculus.FDeriv.Symmetric

/-!
# C149: second order conditions that simulations report
-/

set_option linter.unusedSectionVars false

namespace Pyblp

open Finset

/-! ## Eigenvalues -/

section

variable {I : Type} [Fintype I] [LinearOrder I]

lemma lowerSymmetric_eq (x : Matrix I I ℝ) (h : ∀ k l, x k l = x l k) : lowerSymmetric x = x := by
  ext k l
  simp only [lowerSymmetric, Matrix.of_apply]
  split_ifs
  · rfl
  · exact h l k

/-- **C149.** Reported eigenvalues of a symmetric matrix are its eigenvalues. -/
theorem C149_eigenvalues (x : Matrix I I ℝ) (h : ∀ k l, x k l = x l k) (e : ℝ) :
    (∃ i, computeEigenvalues x i = e) ↔ ∃ v, v ≠ 0 ∧ x.mulVec v = e • v := by
  have h1 : e ∈ spectrum ℝ (lowerSymmetric x) ↔ ∃ i, computeEigenvalues x i = e := by
    rw [(lowerSymmetric_isHermitian x).spectrum_real_eq_range_eigenvalues]
    rfl
  rw [← h1, lowerSymmetric_eq x h, ← Matrix.spectrum_toLin', ← Module.End.hasEigenvalue_iff_mem_spectrum]
  constructor
  · intro he
    obtain ⟨v, hv⟩ := he.exists_hasEigenvector
    exact ⟨v, hv.2, by simpa using hv.apply_eq_smul⟩
  · rintro ⟨v, hv, hxv⟩
    exact Module.End.hasEigenvalue_of_hasEigenvector ⟨Module.End.mem_eigenspace_iff.mpr (by simpa using hxv), hv⟩

/-- They are all negative exactly if the matrix is negative definite. -/
lemma eigenvalues_neg_iff (x : Matrix I I ℝ) (h : ∀ k l, x k l = x l k) :
    (∀ i, computeEigenvalues x i < 0) ↔ ∀ v : I → ℝ, v ≠ 0 → ∑ k, ∑ l, v k * x k l * v l < 0 := by
  have hA : x.IsHermitian := by
    have := lowerSymmetric_isHermitian x
    rwa [lowerSymmetric_eq x h] at this
  have hmem : ∀ e, (∃ i, computeEigenvalues x i = e) ↔ ∃ i, hA.neg.eigenvalues i = -e := fun e => by
    have h1 : e ∈ spectrum ℝ (lowerSymmetric x) ↔ ∃ i, computeEigenvalues x i = e := by
      rw [(lowerSymmetric_isHermitian x).spectrum_real_eq_range_eigenvalues]
      rfl
    have h2 : -e ∈ spectrum ℝ (-x) ↔ ∃ i, hA.neg.eigenvalues i = -e := by
      rw [hA.neg.spectrum_real_eq_range_eigenvalues]
      rfl
    rw [← h1, ← h2, lowerSymmetric_eq x h, ← spectrum.neg_eq]
    simp
  have hq : ∀ v : I → ℝ, star v ⬝ᵥ ((-x).mulVec v) = -∑ k, ∑ l, v k * x k l * v l := fun v => by
    simp only [star_trivial, dotProduct, Matrix.mulVec, Finset.mul_sum, mul_assoc, Matrix.neg_apply, neg_mul, mul_neg, Finset.sum_neg_distrib]
  have hpd : (∀ i, computeEigenvalues x i < 0) ↔ (-x).PosDef := by
    rw [hA.neg.posDef_iff_eigenvalues_pos]
    constructor
    · intro hi i
      obtain ⟨i', hi'⟩ := (hmem (-(hA.neg.eigenvalues i))).mpr ⟨i, by ring⟩
      linarith [hi i']
    · intro hi i
      obtain ⟨i', hi'⟩ := (hmem _).mp ⟨i, rfl⟩
      linarith [hi i']
  rw [hpd, Matrix.posDef_iff_dotProduct_mulVec]
  constructor
  · intro hp v hv
    have := hp.2 hv
    rw [hq] at this
    linarith
  · intro hp
    refine ⟨hA.neg, fun v hv => ?_⟩
    rw [hq]
    linarith [hp v hv]

/-- And none is positive exactly if it is negative semidefinite. -/
lemma eigenvalues_nonpos (x : Matrix I I ℝ) (h : ∀ k l, x k l = x l k) (hv : ∀ v : I → ℝ, ∑ k, ∑ l, v k * x k l * v l ≤ 0) (i : I) :
    computeEigenvalues x i ≤ 0 := by
  obtain ⟨v, hv0, hxv⟩ := (C149_eigenvalues x h _).mp ⟨i, rfl⟩
  have h1 : ∑ k, ∑ l, v k * x k l * v l = computeEigenvalues x i * ∑ k, v k ^ 2 := by
    rw [Finset.mul_sum]
    refine Finset.sum_congr rfl fun k _ => ?_
    have := congrFun hxv k
    simp only [Matrix.mulVec, dotProduct, Pi.smul_apply, smul_eq_mul] at this
    rw [show computeEigenvalues x i * v k ^ 2 = v k * (computeEigenvalues x i * v k) by ring, ← this, Finset.mul_sum]
    exact Finset.sum_congr rfl fun l _ => by ring
  have h2 : 0 < ∑ k, v k ^ 2 := by
    obtain ⟨k, hk⟩ := Function.ne_iff.mp hv0
    exact Finset.sum_pos' (fun k _ => sq_nonneg _) ⟨k, Finset.mem_univ _, by have : v k ≠ 0 := hk; positivity⟩
  by_contra hpos
  push Not at hpos
  have := mul_pos hpos h2
  linarith [hv v]

/-- The reported norm is zero exactly if the gradient is. -/
lemma gradientNorm_eq_zero [Nonempty I] (g : I → ℝ) : gradientNorm g = 0 ↔ ∀ k, g k = 0 := by
  unfold gradientNorm
  constructor
  · intro h k
    have := Finset.le_sup' (fun k => |g k|) (Finset.mem_univ k)
    rw [h] at this
    exact abs_eq_zero.mp (le_antisymm this (abs_nonneg _))
  · intro h
    simp [h]

end

/-! ## Profits -/

variable {J A G K1 K2 F : Type} [Fintype J] [LinearOrder J] [Nonempty J] [Fintype G] [DecidableEq G] [Fintype A]
  [Fintype K1] [Fintype K2] [DecidableEq F]

variable (m : Market J A G) (hm : WellFormed m) (c : Characteristic J A K1 K2) (hc : c.Smooth) (firm : J → F) (costs x : J → ℝ) (f : F)

/-- Changes of prices of one firm. -/
def ownChanges (firm : J → F) (f : F) : Submodule ℝ (J → ℝ) where
  carrier := {v | ∀ k, firm k ≠ f → v k = 0}
  add_mem' := fun ha hb k hk => by simp [ha k hk, hb k hk]
  zero_mem' := fun _ _ => rfl
  smul_mem' := fun a v hv k hk => by simp [hv k hk]

lemma firmProfitGradient_eq (k : J) (hk : firm k = f) :
    firmProfitGradient m c (ownershipFromIds firm) costs x k = profitSlope m c costs firm f x k := by
  unfold firmProfitGradient profitSlope ownershipFromIds
  rw [Finset.sum_filter, hk]
  exact Finset.sum_congr rfl fun j _ => by split_ifs <;> ring

lemma firmProfitHessian_eq (k l : J) (hk : firm k = f) :
    firmProfitHessian m c (ownershipFromIds firm) costs x k l = ∑ j with firm j = f, profitHessian m c costs x j k l := by
  unfold firmProfitHessian ownershipFromIds
  rw [Finset.sum_filter, hk]
  exact Finset.sum_congr rfl fun j _ => by split_ifs <;> ring

lemma sum_own {g : J → ℝ} (hg : ∀ k, firm k ≠ f → g k = 0) : ∑ k, g k = ∑ k : {k // firm k = f}, g k := by
  rw [← Finset.sum_subtype (Finset.univ.filter fun k => firm k = f) (by simp) g, Finset.sum_filter]
  exact Finset.sum_congr rfl fun k _ => by
    split_ifs with hk
    · rfl
    · exact hg k hk

include hm hc

/-- **C149.** Hessians reported for firms are symmetric, so computing eigenvalues from one triangle loses nothing. -/
theorem C149_hessian_symmetric (k l : {k // firm k = f}) : firmHessianBlock m c firm costs x f k l = firmHessianBlock m c firm costs x f l k := by
  simp only [firmHessianBlock, Matrix.of_apply]
  rw [firmProfitHessian_eq m c firm costs x f _ _ k.2, firmProfitHessian_eq m c firm costs x f _ _ l.2,
    ← fderiv_profitDerivative m hm c hc, ← fderiv_profitDerivative m hm c hc]
  exact second_derivative_symmetric (hasFDerivAt_jointProfit m hm c hc costs firm f)
    (differentiableAt_profitDerivative m hm c hc costs firm f x).hasFDerivAt _ _

lemma profitQuadratic_eq (v : J → ℝ) (hv : v ∈ ownChanges firm f) :
    fderiv ℝ (profitDerivative m c costs firm f) x v v =
      ∑ k : {k // firm k = f}, ∑ l : {k // firm k = f}, v k * firmHessianBlock m c firm costs x f k l * v l := by
  have hexp : fderiv ℝ (profitDerivative m c costs firm f) x v v =
      ∑ l, ∑ k, v l * v k * fderiv ℝ (profitDerivative m c costs firm f) x (Pi.single l 1) (Pi.single k 1) := by
    have hs : ∀ k, (Pi.single k (v k) : J → ℝ) = v k • Pi.single k 1 := fun k => by
      rw [← Pi.single_smul, smul_eq_mul, mul_one]
    have hv' : v = ∑ k, v k • (Pi.single k 1 : J → ℝ) := by
      simp only [← hs]
      exact (Finset.univ_sum_single v).symm
    set B := fderiv ℝ (profitDerivative m c costs firm f) x
    calc B v v = B (∑ l, v l • (Pi.single l 1 : J → ℝ)) (∑ k, v k • (Pi.single k 1 : J → ℝ)) := by rw [← hv']
      _ = ∑ k, ∑ l, v l * v k * B (Pi.single l 1) (Pi.single k 1) := by
        simp only [map_sum, map_smul, FunLike.coe_sum, Finset.sum_apply, smul_apply, smul_eq_mul, Finset.mul_sum]
        exact Finset.sum_congr rfl fun k _ => Finset.sum_congr rfl fun l _ => by ring
      _ = _ := Finset.sum_comm
  rw [hexp, sum_own firm f (g := fun l => ∑ k, v l * v k * fderiv ℝ (profitDerivative m c costs firm f) x (Pi.single l 1) (Pi.single k 1)) fun l hl => by simp [hv l hl], Finset.sum_comm]
  rw [sum_own firm f (g := fun k => ∑ l : {k // firm k = f}, v l * v k * fderiv ℝ (profitDerivative m c costs firm f) x (Pi.single (l : J) 1) (Pi.single k 1)) fun k hk => by simp [hv k hk]]
  refine Finset.sum_congr rfl fun k _ => Finset.sum_congr rfl fun l _ => ?_
  rw [fderiv_profitDerivative m hm c hc, firmHessianBlock, Matrix.of_apply, firmProfitHessian_eq m c firm costs x f _ _ k.2]
  ring

/-- **C149.** If the gradient norm that is reported for a firm is zero and all eigenvalues reported for it are negative, then all small
changes of its prices, of any number of them at once, lower its profits. -/
theorem C149_second_order [Nonempty {k // firm k = f}] (h1 : gradientNorm (firmGradientBlock m c firm costs x f) = 0)
    (h2 : ∀ i, computeEigenvalues (firmHessianBlock m c firm costs x f) i < 0) :
    ∃ ε > 0, ∀ q : J → ℝ, (∀ k, firm k ≠ f → q k = x k) → (∀ k, |q k - x k| < ε) → q ≠ x →
      Spec.jointProfit (sharesAt m c) costs firm f q < Spec.jointProfit (sharesAt m c) costs firm f x := by
  rw [gradientNorm_eq_zero] at h1
  rw [eigenvalues_neg_iff _ (C149_hessian_symmetric m hm c hc firm costs x f)] at h2
  obtain ⟨ε, hε, hmax⟩ := second_order_sufficient (ownChanges firm f) (hasFDerivAt_jointProfit m hm c hc costs firm f)
    (differentiableAt_profitDerivative m hm c hc costs firm f x).hasFDerivAt (fun v hv => by
      rw [profitDerivative_apply]
      refine Finset.sum_eq_zero fun k _ => ?_
      by_cases hk : firm k = f
      · rw [← firmProfitGradient_eq m c firm costs x f k hk]
        have := h1 ⟨k, hk⟩
        simp only [firmGradientBlock] at this
        rw [this, zero_mul]
      · rw [hv k hk, mul_zero]) (fun v hv hv0 => by
      rw [profitQuadratic_eq m hm c hc firm costs x f v hv]
      refine h2 (fun k => v k) fun h0 => hv0 (funext fun k => ?_)
      by_cases hk : firm k = f
      · exact congrFun h0 ⟨k, hk⟩
      · exact hv k hk)
  refine ⟨ε, hε, fun q hq hqε hqx => ?_⟩
  have := hmax (q - x) (fun k hk => by simp [hq k hk]) ((pi_norm_lt_iff hε).mpr fun k => by simpa using hqε k) (sub_ne_zero.mpr hqx)
  simpa using this

/-- **C149.** At prices at which no firm can gain, reported gradient norms are zero and no reported eigenvalue is positive. -/
theorem C149_second_order_necessary [Nonempty {k // firm k = f}] (hn : Spec.NashEquilibrium (sharesAt m c) costs firm x) :
    gradientNorm (firmGradientBlock m c firm costs x f) = 0 ∧ ∀ i, computeEigenvalues (firmHessianBlock m c firm costs x f) i ≤ 0 := by
  refine ⟨(gradientNorm_eq_zero _).mpr fun k => C149_gradients m hm c hc firm costs x hn k,
    eigenvalues_nonpos _ (C149_hessian_symmetric m hm c hc firm costs x f) fun v => ?_⟩
  set w : J → ℝ := fun k => if h : firm k = f then v ⟨k, h⟩ else 0 with hw
  have hwV : w ∈ ownChanges firm f := fun k hk => by simp [hw, hk]
  have h2 := (second_order_necessary w (hasFDerivAt_jointProfit m hm c hc costs firm f)
    (differentiableAt_profitDerivative m hm c hc costs firm f x).hasFDerivAt fun t => hn f _ fun k hk => by simp [hwV k hk]).2
  rw [profitQuadratic_eq m hm c hc firm costs x f w hwV] at h2
  have hwv : ∀ k : {k // firm k = f}, w k = v k := fun k => by simp [hw, k.2]
  simpa only [hwv] using h2

omit hm hc

/-! ## Non-vacuity -/

/-- Second order conditions of firms in the duopoly. -/
example (f : Fin 2) : ∀ i, computeEigenvalues (firmHessianBlock duopoly duopolyPrices (id : Fin 2 → Fin 2) (fun _ => 3 / 2) (fun _ => 3) f) i ≤ 0 :=
  have : Nonempty {k : Fin 2 // id k = f} := ⟨⟨f, rfl⟩⟩
  (C149_second_order_necessary _ duopoly_wellFormed _ duopolyPrices_smooth id _ _ f ((C149_plain_partial duopoly_plain _ _ _).mp duopoly_equilibrium)).2

/-- The monopolist with two kinds of consumers loses by small changes of its price. -/
example : ∃ ε > 0, ∀ q : Fin 1 → ℝ, |q 0 - 4| < ε → q ≠ (fun _ => 4) →
    Spec.jointProfit (sharesAt twoKinds twoKindsPrices) (fun _ => 4 / 101) id 0 q <
      Spec.jointProfit (sharesAt twoKinds twoKindsPrices) (fun _ => 4 / 101) id 0 (fun _ => 4) := by
  have : Nonempty {k : Fin 1 // id k = 0} := ⟨⟨0, rfl⟩⟩
  obtain ⟨ε, hε, h⟩ := C149_second_order _ twoKinds_wellFormed _ twoKindsPrices_smooth (id : Fin 1 → Fin 1) (fun _ => 4 / 101) (fun _ => 4) 0
    ((gradientNorm_eq_zero _).mpr fun k => by
      rw [Subsingleton.elim k ⟨0, rfl⟩]; exact C149_random_coefficients_refuted.2.2.1)
    ((eigenvalues_neg_iff _ (C149_hessian_symmetric _ twoKinds_wellFormed _ twoKindsPrices_smooth _ _ _ _)).mpr fun v hv => by
      have hu : ∀ k : {k : Fin 1 // id k = 0}, k = ⟨0, rfl⟩ := fun _ => Subsingleton.elim _ _
      rw [Fintype.sum_eq_single (⟨0, rfl⟩ : {k : Fin 1 // id k = 0}) (fun k hk => absurd (hu k) hk),
        Fintype.sum_eq_single (⟨0, rfl⟩ : {k : Fin 1 // id k = 0}) (fun k hk => absurd (hu k) hk)]
      simp only [firmHessianBlock, Matrix.of_apply]
      have h0 : v ⟨0, rfl⟩ ≠ 0 := fun h0 => hv (funext fun k => by rw [hu k, h0]; rfl)
      have hneg := C149_random_coefficients_refuted.2.2.2.1
      nlinarith [mul_pos_of_neg_of_neg hneg (neg_neg_of_pos (pow_pos (abs_pos.mpr h0) 2)), sq_abs (v ⟨0, rfl⟩)])
  exact ⟨ε, hε, fun q hq hne => h q (fun k hk => absurd (Subsingleton.elim _ _) hk) (fun k => by rw [Subsingleton.elim k 0]; exact hq) hne⟩

end Pyblp
