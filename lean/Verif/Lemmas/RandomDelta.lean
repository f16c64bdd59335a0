import Verif.Props.Inversion
import Verif.Spec.RandomCoefficients
import Mathlib.Analysis.Calculus.InverseFunctionTheorem.ContDiff
import Mathlib.Analysis.Calculus.Deriv.Pi

/-!
# Mean utilities of logit models with random coefficients

In a market without nesting, in which everybody is offered everything, mean utilities that explain shares are bounded by shares and by how much tastes differ,
are Lipschitz continuous in tastes, and are continuously differentiable functions of parameters if tastes are.
-/

set_option linter.unusedSectionVars false

open Filter Topology

namespace Pyblp

variable {J A G : Type} [Fintype J] [DecidableEq J] [Nonempty J] [Fintype A] [Fintype G] [DecidableEq G]

variable (w : A → ℝ) (hw : ∀ i, 0 ≤ w i) (hw1 : ∑ i, w i = 1)

lemma plain_regular : Regular (plainMarket w : Market J A G) := ⟨by simp [plainMarket], by simp [plainMarket]⟩

lemma plain_wellFormed : WellFormed (plainMarket w : Market J A G) := ⟨plain_regular w, by simp [plainMarket], by simp [plainMarket]⟩

lemma plain_available (i : A) : AvailabilityNonneg (plainMarket w : Market J A G) {} i := by
  intro a ha
  simp [plainMarket] at ha

lemma plain_offered (i : A) (j : J) : Offered (plainMarket w : Market J A G) {} i j := ⟨by simp, rfl, by simp [plainMarket]⟩

include hw1 in
lemma plain_some : ∃ i, 0 < w i := by
  by_contra hc
  push Not at hc
  have : ∑ i, w i ≤ 0 := Finset.sum_nonpos fun i _ => hc i
  linarith

lemma plain_probability (delta : J → ℝ) (mu : J → A → ℝ) (j : J) (i : A) :
    computeProbabilities (plainMarket w : Market J A G) {} delta mu j i = Real.exp (delta j + mu j i) / (1 + ∑ k, Real.exp (delta k + mu k i)) := by
  rw [computeProbabilities_plain _ _ _ _ rfl]
  simp [Spec.logit, multiplier, plainMarket]

lemma plain_outside (delta : J → ℝ) (mu : J → A → ℝ) (i : A) :
    Spec.outside (plainMarket w : Market J A G) {} delta mu i = 1 / (1 + ∑ k, Real.exp (delta k + mu k i)) := by
  unfold Spec.outside
  simp [plainMarket, Spec.logitOutside, multiplier]

lemma plainMarket_shares (delta : J → ℝ) (mu : J → A → ℝ) (j : J) : computeShares (plainMarket w : Market J A G) {} delta mu j =
    ∑ i, Real.exp (delta j + mu j i) / (1 + ∑ k, Real.exp (delta k + mu k i)) * w i := by
  unfold computeShares
  simp only [plain_probability]
  rfl

lemma plain_denominator (delta : J → ℝ) (mu : J → A → ℝ) (i : A) : 0 < 1 + ∑ k, Real.exp (delta k + mu k i) := by
  have := Finset.sum_nonneg fun k (_ : k ∈ Finset.univ) => (Real.exp_pos (delta k + mu k i)).le
  linarith

variable (G) in
include hw1 in
lemma plain_rest (delta : J → ℝ) (mu : J → A → ℝ) : 1 - ∑ j, computeShares (plainMarket w : Market J A G) {} delta mu j =
    ∑ i, w i / (1 + ∑ k, Real.exp (delta k + mu k i)) := by
  have h := sum_shares (plainMarket w : Market J A G) (plain_regular w) true mu (plain_available w) delta
  have e : ∑ i, (plainMarket w : Market J A G).weights i = 1 := hw1
  rw [e] at h
  rw [h, sub_sub_cancel]
  refine Finset.sum_congr rfl fun i _ => ?_
  rw [plain_outside, mul_one_div]
  rfl

section bounds

variable {s : J → ℝ} {delta : J → ℝ} {mu : J → A → ℝ} {B : ℝ}

include hw hw1 in
/-- Mean utilities differ from those without random coefficients by at most how much tastes differ from zero. -/
lemma plain_delta_le (hs : ∀ j, 0 < s j) (h0 : ∑ j, s j < 1) (hd : computeShares (plainMarket w : Market J A G) {} delta mu = s) (hB : ∀ j i, |mu j i| ≤ B)
    (j : J) : |delta j - (Real.log (s j) - Real.log (1 - ∑ k, s k))| ≤ B := by
  have hrest := plain_rest G w hw1 delta mu
  have hj := plainMarket_shares (G := G) w delta mu j
  rw [hd] at hrest hj
  have h0' : 0 < 1 - ∑ k, s k := by linarith
  have hterm : ∀ i, 0 ≤ w i / (1 + ∑ k, Real.exp (delta k + mu k i)) := fun i => div_nonneg (hw i) (plain_denominator _ _ _).le
  have hup : s j ≤ Real.exp (delta j + B) * (1 - ∑ k, s k) := by
    rw [hj, hrest, Finset.mul_sum]
    refine Finset.sum_le_sum fun i _ => ?_
    rw [div_mul_eq_mul_div, mul_div_assoc]
    exact mul_le_mul_of_nonneg_right (Real.exp_le_exp.mpr (by linarith [(abs_le.mp (hB j i)).2])) (hterm i)
  have hlow : Real.exp (delta j - B) * (1 - ∑ k, s k) ≤ s j := by
    rw [hj, hrest, Finset.mul_sum]
    refine Finset.sum_le_sum fun i _ => ?_
    rw [div_mul_eq_mul_div, mul_div_assoc]
    exact mul_le_mul_of_nonneg_right (Real.exp_le_exp.mpr (by linarith [(abs_le.mp (hB j i)).1])) (hterm i)
  have h1 := Real.log_le_log (hs j) hup
  have h2 := Real.log_le_log (mul_pos (Real.exp_pos _) h0') hlow
  rw [Real.log_mul (Real.exp_ne_zero _) h0'.ne', Real.log_exp] at h1 h2
  rw [abs_le]
  constructor <;> linarith

/-- With such mean utilities and any such tastes, the outside option is chosen. -/
lemma plain_outside_le (hs : ∀ j, 0 < s j) (h0 : ∑ j, s j < 1) (hB0 : 0 ≤ B) (hd : ∀ j, |delta j - (Real.log (s j) - Real.log (1 - ∑ k, s k))| ≤ B)
    (hB : ∀ j i, |mu j i| ≤ B) (i : A) : Real.exp (-(2 * B)) * (1 - ∑ k, s k) ≤ Spec.outside (plainMarket w : Market J A G) {} delta mu i := by
  have h0' : 0 < 1 - ∑ k, s k := by linarith
  have hk : ∀ k, Real.exp (delta k + mu k i) ≤ Real.exp (2 * B) * (s k / (1 - ∑ k, s k)) := by
    intro k
    rw [← Real.exp_log (div_pos (hs k) h0'), Real.log_div (hs k).ne' h0'.ne', ← Real.exp_add]
    exact Real.exp_le_exp.mpr (by linarith [(abs_le.mp (hB k i)).2, (abs_le.mp (hd k)).2])
  have hsum : 1 + ∑ k, Real.exp (delta k + mu k i) ≤ Real.exp (2 * B) / (1 - ∑ k, s k) := by
    have h1 : ∑ k, Real.exp (delta k + mu k i) ≤ Real.exp (2 * B) * ((∑ k, s k) / (1 - ∑ k, s k)) := by
      rw [Finset.sum_div, Finset.mul_sum]
      exact Finset.sum_le_sum fun k _ => hk k
    have h2 : (1 : ℝ) ≤ Real.exp (2 * B) := Real.one_le_exp (by linarith)
    rw [le_div_iff₀ h0', add_mul, one_mul]
    have h3 : (∑ k, Real.exp (delta k + mu k i)) * (1 - ∑ k, s k) ≤ Real.exp (2 * B) * ∑ k, s k := by
      refine (mul_le_mul_of_nonneg_right h1 h0'.le).trans (le_of_eq ?_)
      field_simp
    nlinarith
  rw [plain_outside, le_div_iff₀ (plain_denominator _ _ _), Real.exp_neg]
  have h4 := mul_le_mul_of_nonneg_left hsum (mul_pos (inv_pos.mpr (Real.exp_pos (2 * B))) h0').le
  refine h4.trans (le_of_eq ?_)
  field_simp

/-- Shares do not change much if tastes do not. -/
lemma plain_shares_le {mu' : J → A → ℝ} {e : ℝ} (he : ∀ j i, |mu j i - mu' j i| ≤ e) (hw : ∀ i, 0 ≤ w i) (j : J) :
    computeShares (plainMarket w : Market J A G) {} delta mu j ≤ Real.exp (2 * e) * computeShares (plainMarket w : Market J A G) {} delta mu' j := by
  rw [plainMarket_shares, plainMarket_shares, Finset.mul_sum]
  refine Finset.sum_le_sum fun i _ => ?_
  rw [← mul_assoc]
  refine mul_le_mul_of_nonneg_right ?_ (hw i)
  have h1 : Real.exp (delta j + mu j i) ≤ Real.exp e * Real.exp (delta j + mu' j i) := by
    rw [← Real.exp_add]
    exact Real.exp_le_exp.mpr (by linarith [(abs_le.mp (he j i)).2])
  have he0 : 0 ≤ e := (abs_nonneg _).trans (he j i)
  have h2 : 1 + ∑ k, Real.exp (delta k + mu' k i) ≤ Real.exp e * (1 + ∑ k, Real.exp (delta k + mu k i)) := by
    rw [mul_add, mul_one, Finset.mul_sum]
    refine add_le_add (Real.one_le_exp he0) (Finset.sum_le_sum fun k _ => ?_)
    rw [← Real.exp_add]
    exact Real.exp_le_exp.mpr (by linarith [(abs_le.mp (he k i)).1])
  have d1 := plain_denominator delta mu i
  have d2 := plain_denominator delta mu' i
  rw [← mul_div_assoc, div_le_div_iff₀ d1 d2, two_mul, Real.exp_add e e]
  calc Real.exp (delta j + mu j i) * (1 + ∑ k, Real.exp (delta k + mu' k i))
      ≤ (Real.exp e * Real.exp (delta j + mu' j i)) * (Real.exp e * (1 + ∑ k, Real.exp (delta k + mu k i))) :=
        mul_le_mul h1 h2 d2.le (mul_pos (Real.exp_pos _) (Real.exp_pos _)).le
    _ = _ := by ring

variable (G) in
include hw hw1 in
/-- Mean utilities are Lipschitz continuous in tastes. -/
lemma plain_lipschitz {mu' : J → A → ℝ} {delta' : J → ℝ} (hs : ∀ j, 0 < s j) (h0 : ∑ j, s j < 1)
    (hd : computeShares (plainMarket w : Market J A G) {} delta mu = s) (hd' : computeShares (plainMarket w : Market J A G) {} delta' mu' = s)
    (hB0 : 0 ≤ B) (hB : ∀ j i, |mu j i| ≤ B) (hB' : ∀ j i, |mu' j i| ≤ B) {e : ℝ} (he : ∀ j i, |mu j i - mu' j i| ≤ e) (j : J) :
    |delta j - delta' j| ≤ 2 * Real.exp (2 * B) / (1 - ∑ k, s k) * e := by
  have h0' : 0 < 1 - ∑ k, s k := by linarith
  have hq0 : 0 < Real.exp (-(2 * B)) * (1 - ∑ k, s k) := mul_pos (Real.exp_pos _) h0'
  have hb := plain_delta_le w hw hw1 hs h0 hd hB
  have hb' := plain_delta_le w hw hw1 hs h0 hd' hB'
  obtain ⟨i, hi⟩ := plain_some w hw1
  have h := C117_distance (plainMarket w : Market J A G) (plain_regular w) true mu (plain_available w) hw (fun j => ⟨i, hi, plain_offered w i j⟩) delta delta'
    (Real.exp (-(2 * B)) * (1 - ∑ k, s k)) (2 * e) hq0
    (fun i _ => ⟨plain_outside_le w hs h0 hB0 hb hB i, plain_outside_le w hs h0 hB0 hb' hB i⟩) (fun k => ?_) j
  · refine h.trans (le_of_eq ?_)
    have : Spec.scale (plainMarket w : Market J A G) = 1 := rfl
    rw [this, one_mul, Real.exp_neg]
    field_simp
  · have e1 : computeShares (plainMarket w : Market J A G) { safe := true } delta mu k = s k := congrFun hd k
    have e2 : computeShares (plainMarket w : Market J A G) {} delta' mu' k = s k := congrFun hd' k
    have u1 := plain_shares_le (G := G) (delta := delta') w he hw k
    have u2 := plain_shares_le (G := G) (delta := delta') w (mu := mu') (mu' := mu) (fun j i => by rw [abs_sub_comm]; exact he j i) hw k
    rw [e2] at u1 u2
    have hp : 0 < computeShares (plainMarket w : Market J A G) {} delta' mu k := by
      have := hs k
      by_contra hc
      push Not at hc
      have := mul_nonpos_of_nonneg_of_nonpos (Real.exp_pos (2 * e)).le hc
      linarith
    have l1 := Real.log_le_log hp u1
    have l2 := Real.log_le_log (hs k) u2
    rw [Real.log_mul (Real.exp_ne_zero _) (hs k).ne', Real.log_exp] at l1
    rw [Real.log_mul (Real.exp_ne_zero _) hp.ne', Real.log_exp] at l2
    rw [e1]
    change |Real.log (s k) - Real.log (computeShares (plainMarket w : Market J A G) {} delta' mu k)| ≤ 2 * e
    rw [abs_le]
    constructor <;> linarith

end bounds

section smooth

variable {E : Type} [NormedAddCommGroup E] [NormedSpace ℝ E] [FiniteDimensional ℝ E] {mu : E → J → A → ℝ} (hmu : ∀ j i, ContDiff ℝ 1 fun x => mu x j i)

variable (G) in
include hmu in
lemma plain_contDiff_shares : ContDiff ℝ 1 fun x : E × (J → ℝ) => computeShares (plainMarket w : Market J A G) {} x.2 (mu x.1) := by
  rw [contDiff_pi]
  intro j
  have e : (fun x : E × (J → ℝ) => computeShares (plainMarket w : Market J A G) {} x.2 (mu x.1) j) = fun x =>
      ∑ i, Real.exp (x.2 j + mu x.1 j i) / (1 + ∑ k, Real.exp (x.2 k + mu x.1 k i)) * w i := by
    funext x
    rw [plainMarket_shares]
  rw [e]
  have hu : ∀ k i, ContDiff ℝ 1 fun x : E × (J → ℝ) => Real.exp (x.2 k + mu x.1 k i) := fun k i =>
    (((contDiff_apply ℝ ℝ k).comp contDiff_snd).add ((hmu k i).comp contDiff_fst)).exp
  refine ContDiff.sum fun i _ => ContDiff.mul (ContDiff.div (hu j i) (contDiff_const.add (ContDiff.sum fun k _ => hu k i)) fun x => ?_) contDiff_const
  exact (plain_denominator x.2 (mu x.1) i).ne'

variable (G) in
include hmu hw hw1 in
/-- Mean utilities are continuously differentiable functions of parameters. -/
lemma plain_contDiff {s : J → ℝ} {delta : E → J → ℝ} (hd : ∀ x, computeShares (plainMarket w : Market J A G) {} (delta x) (mu x) = s) : ContDiff ℝ 1 delta := by
  have hcomplete : CompleteSpace E := FiniteDimensional.complete ℝ E
  rw [contDiff_iff_contDiffAt]
  intro x
  obtain ⟨i0, hi0⟩ := plain_some w hw1
  have hoff : ∀ j, ∃ i, 0 < (plainMarket w : Market J A G).weights i ∧ Offered (plainMarket w : Market J A G) {} i j := fun j => ⟨i0, hi0, plain_offered w i0 j⟩
  set F : E × (J → ℝ) → J → ℝ := fun y => computeShares (plainMarket w : Market J A G) {} y.2 (mu y.1) with hF
  have hFc : ContDiff ℝ 1 F := plain_contDiff_shares G w hmu
  set F' := fderiv ℝ F (x, delta x)
  have hF' : HasFDerivAt F F' (x, delta x) := (hFc.differentiable (by norm_num) _).hasFDerivAt
  set Q := Matrix.of (sharesByXiJacobian (plainMarket w : Market J A G) (computeShares (plainMarket w : Market J A G) {} (delta x) (mu x))
    (computeProbabilities (plainMarket w : Market J A G) {} (delta x) (mu x)) (computeConditionals (plainMarket w : Market J A G) {} (delta x) (mu x)))
  have hdet : Q.det ≠ 0 := C84_nonsingular (plainMarket w : Market J A G) (plain_wellFormed w) true (delta x) (mu x) hw hoff
  have hcol : ∀ k j, F' (0, Pi.single k 1) j = Q j k := by
    intro k j
    have h1 : HasDerivAt (fun t : ℝ => (x, Function.update (delta x) k t)) ((0 : E), Pi.single k (1 : ℝ)) (delta x k) := by
      refine (hasDerivAt_const _ _).prodMk ?_
      exact hasDerivAt_update (delta x) k (delta x k)
    have h2 := HasFDerivAt.comp_hasDerivAt (delta x k) (f := fun t : ℝ => (x, Function.update (delta x) k t)) (l := F) (l' := F')
      (by rw [Function.update_eq_self]; exact hF') h1
    have h3 := C27_shares_by_xi (plainMarket w : Market J A G) (plain_wellFormed w) true (delta x) (mu x) _ (fun _ => rfl) j k
    exact (hasDerivAt_pi.mp h2 j).unique h3
  have hmul : ∀ y, F' (0, y) = Q.mulVec y := by
    intro y
    have hy : ((0 : E), y) = ∑ k, y k • ((0 : E), (Pi.single k (1 : ℝ) : J → ℝ)) := by
      rw [Prod.ext_iff]
      constructor
      · simp [Prod.fst_sum]
      · simp only [Prod.snd_sum, Prod.smul_snd]
        funext l
        simp [Finset.sum_apply, Pi.single_apply]
    rw [hy, map_sum]
    funext j
    simp only [map_smul, Finset.sum_apply, Pi.smul_apply, hcol, smul_eq_mul, Matrix.mulVec, dotProduct]
    exact Finset.sum_congr rfl fun k _ => mul_comm _ _
  set P : E × (J → ℝ) → E × (J → ℝ) := fun y => (y.1, F y) with hP
  have hPc : ContDiff ℝ 1 P := contDiff_fst.prodMk hFc
  have hP' : HasFDerivAt P ((ContinuousLinearMap.fst ℝ E (J → ℝ)).prod F') (x, delta x) := hasFDerivAt_fst.prodMk hF'
  have hinj : Function.Injective ((ContinuousLinearMap.fst ℝ E (J → ℝ)).prod F' : E × (J → ℝ) →ₗ[ℝ] E × (J → ℝ)) := by
    rw [← LinearMap.ker_eq_bot, LinearMap.ker_eq_bot']
    intro y hy
    obtain ⟨h1, h2⟩ := Prod.ext_iff.mp hy
    have h1' : y.1 = 0 := h1
    have h2' : F' y = 0 := h2
    have : y = (0, y.2) := Prod.ext h1' rfl
    rw [this, hmul] at h2'
    have h3 := Matrix.eq_zero_of_mulVec_eq_zero hdet h2'
    rw [this, h3]
    rfl
  set P'e := (LinearEquiv.ofInjectiveEndo _ hinj).toContinuousLinearEquiv
  have hPe : HasFDerivAt P (P'e : E × (J → ℝ) →L[ℝ] E × (J → ℝ)) (x, delta x) := hP'
  have hloc := hPc.contDiffAt.to_localInverse (a := (x, delta x)) hPe (by norm_num)
  have hright := (hPc.contDiffAt.hasStrictFDerivAt' hPe (by norm_num)).eventually_right_inverse
  have hPx : P (x, delta x) = (x, s) := by simp only [hP, hF, hd]
  have hcurve : Tendsto (fun z : E => (z, s)) (𝓝 x) (𝓝 (P (x, delta x))) := by
    rw [hPx]
    exact (continuous_id.prodMk continuous_const).tendsto x
  have hd2 : delta =ᶠ[𝓝 x] fun z => ((hPc.contDiffAt.localInverse hPe (by norm_num)) (z, s)).2 := by
    filter_upwards [hcurve.eventually hright] with z hz
    set u := (hPc.contDiffAt.localInverse hPe (by norm_num)) (z, s) with hu
    have hz' : P u = (z, s) := hz
    obtain ⟨h1, h2⟩ := Prod.ext_iff.mp hz'
    have h1' : u.1 = z := h1
    have h2' : computeShares (plainMarket w : Market J A G) {} u.2 (mu u.1) = s := h2
    rw [h1', ← hd z] at h2'
    exact (C23_unique (plainMarket w : Market J A G) (plain_regular w) true (mu z) (plain_available w) hw hoff u.2 (delta z) fun j => congrFun h2' j).symm
  refine ContDiffAt.congr_of_eventuallyEq ?_ hd2
  rw [hPx] at hloc
  exact contDiff_snd.contDiffAt.comp x (hloc.comp x (contDiff_id.prodMk contDiff_const).contDiffAt)

end smooth

end Pyblp
