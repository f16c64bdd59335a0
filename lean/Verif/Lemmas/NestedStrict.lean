import Verif.Lemmas.NestedOligopoly

/-!
# Nested logit oligopoly: what rivals' markups do to shares and profits
-/

set_option linter.unusedSectionVars false

namespace Pyblp

namespace NestedOligopoly

variable {J G : Type} [Fintype J] [Fintype G] [DecidableEq G] {group : J → G} {rho : G → ℝ} {a : ℝ} {A : J → ℝ}
  (ha : 0 < a) (hr0 : ∀ g, 0 ≤ rho g) (hr1 : ∀ g, rho g < 1) (hA : ∀ j, 0 < A j)

include ha hr0 hr1 hA

/-- If no markup falls and some rise, products with markups that do not change sell more. -/
lemma share_rivals (q w : J → ℝ) (hle : ∀ j, q j ≤ w j) (k : J) (hk : q k < w k) (j : J) (hj : q j = w j) :
    share group rho a A q j < share group rho a A w j := by
  have hm : mass group rho a A q j = mass group rho a A w j := by rw [mass, mass, hj]
  have hmp := mass_pos (group := group) (rho := rho) (a := a) hA w j
  have hN : nestMass group rho a A w (group j) ≤ nestMass group rho a A q (group j) := Finset.sum_le_sum fun i _ => by
    rw [mass, mass]
    refine mul_le_mul_of_nonneg_left (Real.exp_le_exp.mpr ?_) (hA i).le
    have := mul_le_mul_of_nonneg_left (hle i) (div_pos ha (show (0 : ℝ) < 1 - rho (group i) by linarith [hr1 (group i)])).le
    linarith
  have hNp : 0 < nestMass group rho a A w (group j) := Finset.sum_pos (fun i _ => mass_pos hA w i) ⟨j, by simp⟩
  have hd := denom_pos (group := group) (rho := rho) (a := a) hA w
  rw [share, share, hm]
  calc _ < mass group rho a A w j * nestMass group rho a A q (group j) ^ (-rho (group j)) / denom group rho a A w :=
        div_lt_div_of_pos_left (mul_pos hmp (Real.rpow_pos_of_pos (hNp.trans_le hN) _)) hd (denom_lt ha hr1 hA q w hle k hk)
    _ ≤ _ := div_le_div_of_nonneg_right (mul_le_mul_of_nonneg_left (Real.rpow_le_rpow_of_nonpos hNp hN (by linarith [hr0 (group j)])) hmp.le) hd.le

/-- If no markup falls and some of rivals rise, a firm with positive markups that do not change earns more. -/
lemma profit_rivals (own : J → Prop) [DecidablePred own] (q w : J → ℝ) (hle : ∀ j, q j ≤ w j) (k : J) (hk : q k < w k) (hown : ∀ j, own j → q j = w j)
    (hpos : ∀ j, own j → 0 < q j) (i : J) (hi : own i) : profit group rho a A own q < profit group rho a A own w := by
  refine Finset.sum_lt_sum_of_nonempty ⟨i, by simpa using hi⟩ fun j hj => ?_
  have hj' := (Finset.mem_filter.mp hj).2
  rw [← hown j hj']
  exact mul_lt_mul_of_pos_left (share_rivals ha hr0 hr1 hA q w hle k hk j (hown j hj')) (hpos j hj')

/-- A firm earns more in equilibrium than with lower markups of rivals, if some are strictly lower. -/
lemma optimal_strict (own : J → Prop) [DecidablePred own] (q z : J → ℝ) (hz : Foc group rho a A own z) (hle : ∀ j, ¬own j → q j ≤ z j) (k : J) (hno : ¬own k)
    (hk : q k < z k) (hpos : ∀ j, own j → 0 < q j) (i : J) (hi : own i) : profit group rho a A own q < profit group rho a A own z := by
  classical
  refine (profit_rivals ha hr0 hr1 hA own q (fun j => if own j then q j else z j) (fun j => ?_) k (by simpa [hno] using hk)
    (fun j hj => by simp [hj]) hpos i hi).trans_le (optimal ha hr0 hr1 hA own z hz _ fun j hj => ?_)
  · by_cases hj : own j
    · simp [hj]
    · simpa [hj] using hle j hj
  · simp [hj]

end NestedOligopoly

end Pyblp
