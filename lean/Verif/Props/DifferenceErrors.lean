import Verif.Props.FiniteDifferences
import Mathlib.Analysis.Calculus.MeanValue
import Mathlib.Analysis.Calculus.Deriv.MeanValue
import Mathlib.Analysis.Calculus.Deriv.Pow
import Mathlib.Analysis.SpecialFunctions.ExpDeriv

/-!
# C62: how wrong finite differences are
-/

set_option linter.unusedSectionVars false

namespace Pyblp

open Filter Topology

variable {P ι : Type} [DecidableEq P]

/-- A function that starts at zero is bounded by the bound that starts at zero and grows faster. -/
lemma bounded_by_growth {F F' B B' : ℝ → ℝ} {h : ℝ} (hF : ∀ t ∈ Set.Icc 0 h, HasDerivAt F (F' t) t) (hB : ∀ t, HasDerivAt B (B' t) t)
    (h0 : F 0 = 0) (hB0 : B 0 = 0) (hle : ∀ t ∈ Set.Icc 0 h, |F' t| ≤ B' t) {t : ℝ} (ht : t ∈ Set.Icc 0 h) : |F t| ≤ B t := by
  have := image_norm_le_of_norm_deriv_right_le_deriv_boundary (f := F) (f' := F') (B := B) (B' := B') (a := 0) (b := h)
    (fun s hs => (hF s hs).continuousAt.continuousWithinAt) (fun s hs => (hF s ⟨hs.1, hs.2.le⟩).hasDerivWithinAt)
    (by rw [h0, hB0, norm_zero]) hB (fun s hs => by simpa using hle s ⟨hs.1, hs.2.le⟩) ht
  simpa using this

/-- **C62.** The error of central differences is at most the square of the step divided by 24 times a bound on third derivatives. -/
theorem C62_error (f : (P → ℝ) → ι → ℝ) (x : P → ℝ) (i : ι) (k : P) (epsilon : ℝ) (he : 0 < epsilon) (g1 g2 g3 : ℝ → ℝ) (M : ℝ)
    (h1 : ∀ e, |e| ≤ epsilon / 2 → HasDerivAt (fun e => f (bump x k e) i) (g1 e) e) (h2 : ∀ e, |e| ≤ epsilon / 2 → HasDerivAt g1 (g2 e) e)
    (h3 : ∀ e, |e| ≤ epsilon / 2 → HasDerivAt g2 (g3 e) e) (hM : ∀ e, |e| ≤ epsilon / 2 → |g3 e| ≤ M) :
    |computeFiniteDifferences f x epsilon i k - g1 0| ≤ M * epsilon ^ 2 / 24 := by
  set h := epsilon / 2 with hh
  have hin : ∀ t ∈ Set.Icc 0 h, |t| ≤ h ∧ |-t| ≤ h := fun t ht => by rw [abs_neg, abs_of_nonneg ht.1]; exact ⟨ht.2, ht.2⟩
  have hneg : ∀ {F : ℝ → ℝ} {d : ℝ} (t : ℝ), HasDerivAt F d (-t) → HasDerivAt (fun t => F (-t)) (-d) t := fun {F d} t hd => by
    have := hd.comp t (hasDerivAt_neg t)
    rw [mul_neg_one] at this
    exact this
  have b1 : ∀ t ∈ Set.Icc 0 h, |g2 t - g2 (-t)| ≤ 2 * M * t := fun t ht => by
    refine bounded_by_growth (F := fun t => g2 t - g2 (-t)) (F' := fun t => g3 t - -(g3 (-t))) (B := fun t => 2 * M * t) (B' := fun _ => 2 * M)
      (fun s hs => (h3 s (hin s hs).1).fun_sub (hneg s (h3 (-s) (hin s hs).2))) (fun s => by simpa using (hasDerivAt_id s).const_mul (2 * M))
      (by simp) (by simp) (fun s hs => ?_) ht
    have a1 := hM s (hin s hs).1
    have a2 := hM (-s) (hin s hs).2
    rw [sub_neg_eq_add]
    exact (abs_add_le _ _).trans (by linarith)
  have b2 : ∀ t ∈ Set.Icc 0 h, |g1 t + g1 (-t) - 2 * g1 0| ≤ M * t ^ 2 := fun t ht => by
    refine bounded_by_growth (F := fun t => g1 t + g1 (-t) - 2 * g1 0) (F' := fun t => g2 t + -(g2 (-t))) (B := fun t => M * t ^ 2)
      (B' := fun t => 2 * M * t) (fun s hs => ((h2 s (hin s hs).1).fun_add (hneg s (h2 (-s) (hin s hs).2))).sub_const _)
      (fun s => ((hasDerivAt_pow 2 s).const_mul M).congr_deriv (by simp; ring)) (by simp; ring) (by simp) (fun s hs => ?_) ht
    rw [← sub_eq_add_neg]; exact b1 s hs
  have b3 : ∀ t ∈ Set.Icc 0 h, |f (bump x k t) i - f (bump x k (-t)) i - 2 * g1 0 * t| ≤ M * t ^ 3 / 3 := fun t ht => by
    refine bounded_by_growth (F := fun t => f (bump x k t) i - f (bump x k (-t)) i - 2 * g1 0 * t) (F' := fun t => g1 t - -(g1 (-t)) - 2 * g1 0)
      (B := fun t => M * t ^ 3 / 3) (B' := fun t => M * t ^ 2)
      (fun s hs => ((h1 s (hin s hs).1).fun_sub (hneg (F := fun e => f (bump x k e) i) s (h1 (-s) (hin s hs).2))).fun_sub
        (by simpa using (hasDerivAt_id s).const_mul (2 * g1 0)))
      (fun s => (((hasDerivAt_pow 3 s).const_mul M).div_const 3).congr_deriv (by simp; ring)) (by simp) (by simp) (fun s hs => ?_) ht
    rw [sub_neg_eq_add]; exact b2 s hs
  have hlast := b3 h ⟨by positivity, le_rfl⟩
  have heq : computeFiniteDifferences f x epsilon i k - g1 0 =
      (f (bump x k h) i - f (bump x k (-h)) i - 2 * g1 0 * h) / epsilon := by
    unfold computeFiniteDifferences
    rw [← hh, show 2 * g1 0 * h = g1 0 * epsilon by rw [hh]; ring]
    field_simp
  rw [heq, abs_div, abs_of_pos he, div_le_iff₀ he]
  refine hlast.trans (le_of_eq ?_)
  rw [hh]; ring

/-- **C62.** If values of the function are wrong by at most `noise`, for example because of rounding or because of the tolerance of the
inner loop, differences are wrong by at most twice the noise divided by the step more. This is why the step should not be too small. -/
theorem C62_noise (f : (P → ℝ) → ι → ℝ) (x : P → ℝ) (i : ι) (k : P) (epsilon : ℝ) (he : 0 < epsilon) (g1 g2 g3 : ℝ → ℝ) (M noise : ℝ)
    (h1 : ∀ e, |e| ≤ epsilon / 2 → HasDerivAt (fun e => f (bump x k e) i) (g1 e) e) (h2 : ∀ e, |e| ≤ epsilon / 2 → HasDerivAt g1 (g2 e) e)
    (h3 : ∀ e, |e| ≤ epsilon / 2 → HasDerivAt g2 (g3 e) e) (hM : ∀ e, |e| ≤ epsilon / 2 → |g3 e| ≤ M)
    (computed : (P → ℝ) → ι → ℝ) (hn : ∀ y, |computed y i - f y i| ≤ noise) :
    |computeFiniteDifferences computed x epsilon i k - g1 0| ≤ M * epsilon ^ 2 / 24 + 2 * noise / epsilon := by
  have hd : |computeFiniteDifferences computed x epsilon i k - computeFiniteDifferences f x epsilon i k| ≤ 2 * noise / epsilon := by
    unfold computeFiniteDifferences
    rw [← sub_div, abs_div, abs_of_pos he]
    refine div_le_div_of_nonneg_right ?_ he.le
    have a := hn (bump x k (epsilon / 2))
    have b := hn (bump x k (-(epsilon / 2)))
    rw [abs_le] at a b ⊢
    constructor <;> linarith [a.1, a.2, b.1, b.2]
  have := C62_error f x i k epsilon he g1 g2 g3 M h1 h2 h3 hM
  calc _ = |(computeFiniteDifferences computed x epsilon i k - computeFiniteDifferences f x epsilon i k) +
        (computeFiniteDifferences f x epsilon i k - g1 0)| := by congr 1; ring
    _ ≤ _ := (abs_add_le _ _).trans (by linarith)

/-- **C62.** Second differences are a second derivative at a point within half a step. -/
theorem C62_second_mean_value (f : (P → ℝ) → ι → ℝ) (x : P → ℝ) (i : ι) (k l : P) (scaled : ℝ) (he : 0 < scaled) (d1 d12 : ℝ → ℝ → ℝ)
    (h1 : ∀ s t, |s| ≤ Real.sqrt scaled / 2 → |t| ≤ Real.sqrt scaled / 2 → HasDerivAt (fun s => f (bump (bump x k s) l t) i) (d1 s t) s)
    (h2 : ∀ s t, |s| ≤ Real.sqrt scaled / 2 → |t| ≤ Real.sqrt scaled / 2 → HasDerivAt (fun t => d1 s t) (d12 s t) t) :
    ∃ s t, |s| ≤ Real.sqrt scaled / 2 ∧ |t| ≤ Real.sqrt scaled / 2 ∧ computeSecondFiniteDifferences f x scaled i l k = d12 s t := by
  have hs : 0 < Real.sqrt scaled := Real.sqrt_pos.mpr he
  set h := Real.sqrt scaled / 2 with hh
  have hpos : 0 < h := by positivity
  have habs : ∀ {t}, t ∈ Set.Icc (-h) h → |t| ≤ h := fun ht => abs_le.mpr ht
  have hH : |h| ≤ h := (abs_of_pos hpos).le
  have hH' : |-h| ≤ h := by rw [abs_neg]; exact hH
  obtain ⟨s, hs1, hs2⟩ := exists_hasDerivAt_eq_slope (fun s => f (bump (bump x k s) l h) i - f (bump (bump x k s) l (-h)) i)
    (fun s => d1 s h - d1 s (-h)) (a := -h) (b := h) (by linarith)
    (fun r hr => ((h1 r h (habs hr) hH).fun_sub (h1 r (-h) (habs hr) hH')).continuousAt.continuousWithinAt)
    (fun r hr => (h1 r h (habs ⟨hr.1.le, hr.2.le⟩) hH).fun_sub (h1 r (-h) (habs ⟨hr.1.le, hr.2.le⟩) hH'))
  have hsh : |s| ≤ h := habs ⟨hs1.1.le, hs1.2.le⟩
  obtain ⟨t, ht1, ht2⟩ := exists_hasDerivAt_eq_slope (fun t => d1 s t) (fun t => d12 s t) (a := -h) (b := h) (by linarith)
    (fun r hr => (h2 s r hsh (habs hr)).continuousAt.continuousWithinAt) (fun r hr => h2 s r hsh (habs ⟨hr.1.le, hr.2.le⟩))
  refine ⟨s, t, hsh, habs ⟨ht1.1.le, ht1.2.le⟩, ?_⟩
  rw [ht2]
  have h2h : h - -h = Real.sqrt scaled := by rw [hh]; ring
  rw [h2h] at hs2 ⊢
  rw [hs2]
  unfold computeSecondFiniteDifferences
  simp only [← hh]
  field_simp
  ring

/-- **C62.** Second differences converge to continuous second derivatives as the step goes to zero. -/
theorem C62_second_limit (f : (P → ℝ) → ι → ℝ) (x : P → ℝ) (i : ι) (k l : P) (d1 d12 : ℝ → ℝ → ℝ) (r : ℝ) (hr : 0 < r)
    (h1 : ∀ s t, |s| ≤ r → |t| ≤ r → HasDerivAt (fun s => f (bump (bump x k s) l t) i) (d1 s t) s)
    (h2 : ∀ s t, |s| ≤ r → |t| ≤ r → HasDerivAt (fun t => d1 s t) (d12 s t) t)
    (hc : ContinuousAt (fun p : ℝ × ℝ => d12 p.1 p.2) (0, 0)) :
    Tendsto (fun scaled => computeSecondFiniteDifferences f x scaled i l k) (𝓝[>] 0) (𝓝 (d12 0 0)) := by
  rw [Metric.tendsto_nhds]
  intro e he
  obtain ⟨δ, hδ, hclose⟩ := Metric.continuousAt_iff.mp hc e he
  have hsqrt : Tendsto Real.sqrt (𝓝[>] 0) (𝓝 0) := by
    have := (Real.continuous_sqrt.tendsto 0).mono_left (nhdsWithin_le_nhds (s := Set.Ioi 0))
    simpa using this
  have hsmall : ∀ᶠ scaled in 𝓝[>] (0 : ℝ), Real.sqrt scaled < min r δ := hsqrt.eventually_lt_const (lt_min hr hδ)
  filter_upwards [hsmall, self_mem_nhdsWithin] with scaled hsc hpos
  have hpos : 0 < scaled := hpos
  have hs : 0 < Real.sqrt scaled := Real.sqrt_pos.mpr hpos
  have hr' : Real.sqrt scaled / 2 ≤ r := by linarith [min_le_left r δ]
  obtain ⟨s, t, hsb, htb, heq⟩ := C62_second_mean_value f x i k l scaled hpos d1 d12
    (fun s t hs ht => h1 s t (hs.trans hr') (ht.trans hr')) (fun s t hs ht => h2 s t (hs.trans hr') (ht.trans hr'))
  rw [heq]
  refine hclose (x := (s, t)) ?_
  have hd : Real.sqrt scaled / 2 < δ := by linarith [min_le_right r δ]
  rw [Prod.dist_eq, max_lt_iff, Real.dist_eq, Real.dist_eq, sub_zero, sub_zero]
  exact ⟨hsb.trans_lt hd, htb.trans_lt hd⟩

/-- Non-vacuity: central differences of the exponential function with a step of one tenth. -/
example : |computeFiniteDifferences (fun (x : Unit → ℝ) (_ : Unit) => Real.exp (x ())) (fun _ => 0) (1 / 10) () () - 1| ≤
    Real.exp (1 / 20) * (1 / 10) ^ 2 / 24 := by
  have h : ∀ e, HasDerivAt (fun e : ℝ => Real.exp e) (Real.exp e) e := Real.hasDerivAt_exp
  have := C62_error (fun (x : Unit → ℝ) (_ : Unit) => Real.exp (x ())) (fun _ => 0) () () (1 / 10) (by norm_num) Real.exp Real.exp Real.exp
    (Real.exp (1 / 20)) (fun e _ => by simpa [bump] using h e) (fun e _ => h e) (fun e _ => h e) (fun e he => by
      rw [abs_of_pos (Real.exp_pos _)]
      exact Real.exp_le_exp.mpr (by have := (abs_le.mp he).2; linarith))
  simpa using this

/-- Non-vacuity: second differences of a product of exponentials. -/
example : Tendsto (fun scaled => computeSecondFiniteDifferences (fun (x : Fin 2 → ℝ) (_ : Unit) => Real.exp (x 0 + 2 * x 1)) (fun _ => 0) scaled () 1 0)
    (𝓝[>] 0) (𝓝 2) := by
  have hval : ∀ s t : ℝ, bump (bump (fun _ : Fin 2 => (0 : ℝ)) 0 s) 1 t 0 + 2 * bump (bump (fun _ : Fin 2 => (0 : ℝ)) 0 s) 1 t 1 = s + 2 * t := fun s t => by
    simp [bump]
  have h1 : ∀ s t : ℝ, HasDerivAt (fun s => Real.exp (s + 2 * t)) (Real.exp (s + 2 * t)) s := fun s t => by
    simpa using ((hasDerivAt_id s).add_const (2 * t)).exp
  have h2 : ∀ s t : ℝ, HasDerivAt (fun t => Real.exp (s + 2 * t)) (Real.exp (s + 2 * t) * 2) t := fun s t => by
    simpa using (((hasDerivAt_id t).const_mul 2).const_add s).exp
  have := C62_second_limit (fun (x : Fin 2 → ℝ) (_ : Unit) => Real.exp (x 0 + 2 * x 1)) (fun _ => 0) () 0 1 (fun s t => Real.exp (s + 2 * t))
    (fun s t => Real.exp (s + 2 * t) * 2) 1 one_pos (fun s t _ _ => by simpa only [hval] using h1 s t) (fun s t _ _ => h2 s t)
    (by fun_prop)
  simpa using this

end Pyblp
