import Verif.Model.OptimalInstruments
import Mathlib.Probability.Moments.Covariance
import Mathlib.Probability.Moments.Variance
import Mathlib.Probability.Distributions.Gaussian.Real
import Mathlib.Tactic.FieldSimp
import Mathlib.Tactic.Ring
import Mathlib.Tactic.Linarith
import Mathlib.Tactic.NormNum
import Mathlib.Algebra.BigOperators.Fin
import Mathlib.Data.Fintype.BigOperators
import Mathlib.LinearAlgebra.Matrix.Notation

/-!
# Optimal instruments (C69, C80)
-/

set_option linter.unusedSectionVars false

namespace Pyblp

open MeasureTheory ProbabilityTheory

section draws

variable {N P Ω : Type} [Fintype N] [Fintype P] [MeasurableSpace Ω] {μ : Measure Ω}

/-- The variance of draws without a supply side is the squared variance of estimated errors. -/
theorem C69_normal_demand_variance (xi : N → ℝ) (e : N → Ω → ℝ) (he : ∀ i, Var[e i; μ] = 1) (i : N) :
    Var[fun ω => sampleNormalDemand xi (fun j => e j ω) i; μ] = npVar xi ^ 2 := by
  have h1 : (fun ω => sampleNormalDemand xi (fun j => e j ω) i) = fun ω => npVar xi * e i ω := by
    funext ω
    unfold sampleNormalDemand stateNormal
    ring
  rw [h1, variance_const_mul, he, mul_one]

/-- **C69**, for errors that happen to have a variance of zero or one: with the normal method and no supply side, the variance of drawn
errors is that of estimated errors in no other case. -/
theorem C69_normal_demand_partial (xi : N → ℝ) (e : N → Ω → ℝ) (he : ∀ i, Var[e i; μ] = 1) (i : N) :
    Var[fun ω => sampleNormalDemand xi (fun j => e j ω) i; μ] = npVar xi ↔ npVar xi = 0 ∨ npVar xi = 1 := by
  rw [C69_normal_demand_variance xi e he i]
  constructor
  · intro h
    have h1 : npVar xi * (npVar xi - 1) = 0 := by linarith [sq (npVar xi)]
    rcases mul_eq_zero.1 h1 with h2 | h2
    · exact Or.inl h2
    · exact Or.inr (by linarith)
  · rintro (h | h) <;> rw [h] <;> norm_num

theorem npVar_example : npVar ![(0 : ℝ), 4] = 4 := by
  simp [npVar, npMean]
  norm_num

/-- **C69 does not hold**: estimated errors of 0 and 4 have a variance of 4, but errors drawn from their normal approximation have a
variance of 16. -/
theorem C69_normal_demand_refuted (e : Fin 2 → Ω → ℝ) (he : ∀ i, Var[e i; μ] = 1) (i : Fin 2) :
    npVar ![(0 : ℝ), 4] = 4 ∧ Var[fun ω => sampleNormalDemand ![(0 : ℝ), 4] (fun j => e j ω) i; μ] = 16 := by
  refine ⟨npVar_example, ?_⟩
  rw [C69_normal_demand_variance _ e he i, npVar_example]
  norm_num

/-- **C69**, with a supply side: drawn demand and supply errors of a product have mean zero and the covariances of estimated errors,
if the root that NumPy computes is a root of the covariance matrix. -/
theorem C69_normal_joint (xi omega : N → ℝ) (root : Matrix (Fin 2) (Fin 2) ℝ) (hroot : root.transpose * root = errorCovariance xi omega)
    (e : N → Fin 2 → Ω → ℝ) [IsProbabilityMeasure μ] (hm : ∀ i k, MemLp (e i k) 2 μ) (h0 : ∀ i k, ∫ ω, e i k ω ∂μ = 0)
    (he : ∀ i k l, cov[e i k, e i l; μ] = if k = l then 1 else 0) (i : N) (a b : Fin 2) :
    (∫ ω, stateMultivariateNormal root (fun j k => e j k ω) i a ∂μ) = 0 ∧
    cov[fun ω => stateMultivariateNormal root (fun j k => e j k ω) i a,
      fun ω => stateMultivariateNormal root (fun j k => e j k ω) i b; μ] =
        npCov (if a = 0 then xi else omega) (if b = 0 then xi else omega) := by
  have h1 : ∀ a, (fun ω => stateMultivariateNormal root (fun j k => e j k ω) i a) = fun ω => ∑ k, e i k ω * root k a := by
    intro a
    funext ω
    exact zero_add _
  constructor
  · rw [h1, integral_finsetSum]
    · apply Finset.sum_eq_zero
      intro k _
      rw [integral_mul_const, h0, zero_mul]
    · intro k _
      exact ((hm i k).integrable one_le_two).mul_const _
  · rw [h1, h1]
    have hmem : ∀ a k, MemLp (fun ω => e i k ω * root k a) 2 μ := fun a k => (hm i k).mul_const _
    rw [covariance_fun_sum_fun_sum (hmem a) (hmem b)]
    have h2 : ∀ k l, cov[fun ω => e i k ω * root k a, fun ω => e i l ω * root l b; μ] =
        if k = l then root k a * root l b else 0 := by
      intro k l
      rw [covariance_mul_const_left, covariance_mul_const_right, he]
      split <;> ring
    simp only [h2, Finset.sum_ite_eq, Finset.mem_univ, if_true]
    have h3 := congrFun (congrFun hroot a) b
    rw [Matrix.mul_apply] at h3
    exact h3

/-- **C69.** With the empirical method, the errors drawn for a product are the estimated demand and supply errors of one product. -/
theorem C69_empirical (xi omega : N → ℝ) (choice : N → N) (i : N) :
    ∃ j, (sampleEmpirical xi omega choice).1 i = xi j ∧ (sampleEmpirical xi omega choice).2 i = omega j :=
  ⟨choice i, rfl, rfl⟩

/-- **C69.** With the empirical method, if every product is equally likely to be chosen, drawn errors have the mean and the variance of
estimated errors. -/
theorem C69_empirical_variance (xi omega : N → ℝ) (choice : Ω → N → N) (i : N)
    (hu : ∀ f : N → ℝ, ∫ ω, f (choice ω i) ∂μ = npMean f) [IsProbabilityMeasure μ]
    (hm : MemLp (fun ω => xi (choice ω i)) 2 μ) :
    (∫ ω, (sampleEmpirical xi omega (choice ω)).1 i ∂μ) = npMean xi ∧
      Var[fun ω => (sampleEmpirical xi omega (choice ω)).1 i; μ] = npVar xi := by
  have hmean : (∫ ω, (sampleEmpirical xi omega (choice ω)).1 i ∂μ) = npMean xi := hu xi
  refine ⟨hmean, ?_⟩
  have hm' : AEMeasurable (fun ω => (sampleEmpirical xi omega (choice ω)).1 i) μ := hm.aemeasurable
  rw [variance_eq_integral hm', hmean]
  exact hu fun j => (xi j - npMean xi) ^ 2

/-- Standard normal draws have a variance of one. -/
example : ∀ i : Fin 2, Var[(fun _ : Fin 2 => id) i; gaussianReal 0 1] = 1 := fun _ => by simp [variance_id_gaussianReal]

/-- Errors, a root of their covariance matrix and uncorrelated standard normal draws. -/
example : ∃ (xi omega : Fin 3 → ℝ) (root : Matrix (Fin 2) (Fin 2) ℝ) (μ : Measure (ℝ × ℝ)) (e : Fin 3 → Fin 2 → ℝ × ℝ → ℝ),
    root.transpose * root = errorCovariance xi omega ∧ IsProbabilityMeasure μ ∧ (∀ i k, MemLp (e i k) 2 μ) ∧
      (∀ i k, ∫ ω, e i k ω ∂μ = 0) ∧ ∀ i k l, cov[e i k, e i l; μ] = if k = l then 1 else 0 := by
  have hid : MemLp (id : ℝ → ℝ) 2 (gaussianReal 0 1) := memLp_id_gaussianReal 2
  have hf : MemLp (fun ω : ℝ × ℝ => ω.1) 2 ((gaussianReal 0 1).prod (gaussianReal 0 1)) := hid.comp_fst _
  have hs : MemLp (fun ω : ℝ × ℝ => ω.2) 2 ((gaussianReal 0 1).prod (gaussianReal 0 1)) := hid.comp_snd _
  have hf0 : ∫ ω, ω.1 ∂((gaussianReal 0 1).prod (gaussianReal 0 1)) = 0 := by
    rw [integral_fun_fst (fun x : ℝ => x)]
    simp [integral_id_gaussianReal]
  have hs0 : ∫ ω, ω.2 ∂((gaussianReal 0 1).prod (gaussianReal 0 1)) = 0 := by
    rw [integral_fun_snd (fun x : ℝ => x)]
    simp [integral_id_gaussianReal]
  refine ⟨![1, -1, 0], ![1, 1, -2], !![1, 0; 0, Real.sqrt 3], (gaussianReal 0 1).prod (gaussianReal 0 1),
    fun _ k ω => if k = 0 then ω.1 else ω.2, ?_, inferInstance, ?_, ?_, ?_⟩
  · ext a b
    fin_cases a <;> fin_cases b <;>
      simp [Matrix.mul_apply, errorCovariance, npCov, npMean, Fin.sum_univ_succ] <;> norm_num
  · intro i k
    fin_cases k
    · exact hf
    · exact hs
  · intro i k
    fin_cases k
    · exact hf0
    · exact hs0
  · intro i k l
    have h01 : cov[fun ω : ℝ × ℝ => ω.1, fun ω : ℝ × ℝ => ω.2; (gaussianReal 0 1).prod (gaussianReal 0 1)] = 0 :=
      covariance_fst_snd_prod hid hid
    have h00 : cov[fun ω : ℝ × ℝ => ω.1, fun ω : ℝ × ℝ => ω.1; (gaussianReal 0 1).prod (gaussianReal 0 1)] = 1 := by
      rw [covariance_self hf.aemeasurable]
      have := (measurePreserving_fst (μ := gaussianReal 0 1) (ν := gaussianReal 0 1)).variance_fun_comp (f := id)
        measurable_id.aemeasurable
      rw [variance_id_gaussianReal] at this
      exact this
    have h11 : cov[fun ω : ℝ × ℝ => ω.2, fun ω : ℝ × ℝ => ω.2; (gaussianReal 0 1).prod (gaussianReal 0 1)] = 1 := by
      rw [covariance_self hs.aemeasurable]
      have := (measurePreserving_snd (μ := gaussianReal 0 1) (ν := gaussianReal 0 1)).variance_fun_comp (f := id)
        measurable_id.aemeasurable
      rw [variance_id_gaussianReal] at this
      exact this
    fin_cases k <;> fin_cases l
    · exact h00
    · exact h01
    · rw [covariance_comm]
      exact h01
    · exact h11

end draws

/-! ## C80 -/

section instruments

variable {N P : Type} [Fintype N] [Fintype P]

/-- **C80.** The mean utility of a realization is what explains the estimated mean utility without the estimated error, plus the drawn
error. In particular the approximate method uses fitted mean utilities. -/
theorem C80_delta (fitted xi draw : N → ℝ) : realizationDelta (fun i => fitted i + xi i) xi draw = fun i => fitted i + draw i := by
  funext i
  unfold realizationDelta
  ring

/-- **C80.** The same holds for marginal costs, in logs if they are log-linear. -/
theorem C80_costs (log : Bool) (exp : ℝ → ℝ) (fitted omega draw : N → ℝ) :
    realizationCosts log exp (fun i => fitted i + omega i) omega draw =
      fun i => if log then exp (fitted i + draw i) else fitted i + draw i := by
  funext i
  unfold realizationCosts
  have : fitted i + omega i - omega i + draw i = fitted i + draw i := by ring
  rw [this]

theorem foldl_average {α : Type} (draws : ℕ) (realization : ℕ → α → ℝ) (l : List ℕ) (total : α → ℝ) (a : α) :
    l.foldl (fun total d => fun a => total a + realization d a / draws) total a = total a + (l.map fun d => realization d a / draws).sum := by
  induction l generalizing total with
  | nil => simp
  | cons d l ih =>
    rw [List.foldl_cons, ih, List.map_cons, List.sum_cons]
    ring

/-- **C80.** Expected prices, shares and Jacobians are averages over draws. -/
theorem C80_average {α : Type} (draws : ℕ) (realization : ℕ → α → ℝ) (a : α) :
    averageRealizations draws realization a = (∑ d ∈ Finset.range draws, realization d a) / draws := by
  unfold averageRealizations
  rw [foldl_average, zero_add, Finset.sum_div]
  rfl

/-- **C80.** Without a supply side, optimal instruments times the variance of demand errors are expected Jacobians. -/
theorem C80_demand (xi : N → ℝ) (jacobian : N → P → ℝ) (h : npVar xi ≠ 0) (i : N) (p : P) :
    npVar xi * demandInstruments xi jacobian i p = jacobian i p := by
  unfold demandInstruments
  field_simp

/-- Columns of reshaped instruments. -/
theorem splitInstruments_eq {n : ℕ} (x : N → Fin 2 → Fin n → ℝ) :
    splitInstruments x = (fun i p => x i 0 p, fun i p => x i 1 p) := by
  unfold splitInstruments reshapeInstruments
  refine Prod.ext (funext fun i => funext fun p => ?_) (funext fun i => funext fun p => ?_)
  · have hp := p.2
    have h : 0 < n ∧ (p : ℕ) < 2 * n := ⟨by omega, by omega⟩
    dsimp only
    rw [dif_pos h]
    congr 1
    · congr 1
      exact Nat.div_eq_of_lt hp
    · exact Fin.ext (Nat.mod_eq_of_lt hp)
  · have hp := p.2
    have h : 0 < n ∧ n + (p : ℕ) < 2 * n := ⟨by omega, by omega⟩
    dsimp only
    rw [dif_pos h]
    congr 1
    · congr 1
      show (n + (p : ℕ)) / n = 1
      rw [Nat.add_div_left _ h.1, Nat.div_eq_of_lt hp]
    · apply Fin.ext
      show (n + (p : ℕ)) % n = p
      rw [Nat.add_mod_left, Nat.mod_eq_of_lt hp]

/-- **C80.** With a supply side, for every product and parameter, the covariance matrix of errors times the demand- and supply-side
instruments are the expected demand- and supply-side Jacobians. -/
theorem C80_joint {n : ℕ} (xi omega : N → ℝ) (inverse : Matrix (Fin 2) (Fin 2) ℝ) (h : errorCovariance xi omega * inverse = 1)
    (xiJacobian omegaJacobian : N → Fin n → ℝ) (i : N) (p : Fin n) :
    let Z := splitInstruments (jointInstruments inverse xiJacobian omegaJacobian)
    npCov xi xi * Z.1 i p + npCov xi omega * Z.2 i p = xiJacobian i p ∧
      npCov omega xi * Z.1 i p + npCov omega omega * Z.2 i p = omegaJacobian i p := by
  intro Z
  have hZ : Z = (fun i p => jointInstruments inverse xiJacobian omegaJacobian i 0 p,
      fun i p => jointInstruments inverse xiJacobian omegaJacobian i 1 p) := splitInstruments_eq _
  have hZ1 : Z.1 i p = inverse 0 0 * xiJacobian i p + inverse 0 1 * omegaJacobian i p := by
    rw [hZ]
    simp [jointInstruments, Fin.sum_univ_two]
  have hZ2 : Z.2 i p = inverse 1 0 * xiJacobian i p + inverse 1 1 * omegaJacobian i p := by
    rw [hZ]
    simp [jointInstruments, Fin.sum_univ_two]
  have h00 := congrFun (congrFun h 0) 0
  have h01 := congrFun (congrFun h 0) 1
  have h10 := congrFun (congrFun h 1) 0
  have h11 := congrFun (congrFun h 1) 1
  simp [Matrix.mul_apply, Fin.sum_univ_two, errorCovariance] at h00 h01 h10 h11
  rw [hZ1, hZ2]
  constructor
  · linear_combination xiJacobian i p * h00 + omegaJacobian i p * h01
  · linear_combination xiJacobian i p * h10 + omegaJacobian i p * h11

/-- **C80.** Default expected prices differ from prices by residuals that are orthogonal to instruments, if the normal equations of
the regression were solved. -/
theorem C80_expected_prices {Z : Type} [Fintype Z] (ZD : N → Z → ℝ) (parameters : Z → ℝ) (prices absorbed : N → ℝ)
    (h : ∀ z, ∑ z', (∑ i, ZD i z * ZD i z') * parameters z' = ∑ i, ZD i z * absorbed i) (z : Z) :
    ∑ i, ZD i z * (prices i - expectedPrices ZD parameters prices absorbed i) = 0 := by
  unfold expectedPrices
  have h1 : ∀ i, ZD i z * (prices i - (∑ z, ZD i z * parameters z + prices i - absorbed i)) =
      ZD i z * absorbed i - ∑ z', ZD i z * ZD i z' * parameters z' := by
    intro i
    have : ∑ z', ZD i z * ZD i z' * parameters z' = ZD i z * ∑ z', ZD i z' * parameters z' := by
      rw [Finset.mul_sum]
      exact Finset.sum_congr rfl fun z' _ => by ring
    rw [this]
    ring
  rw [Finset.sum_congr rfl fun i _ => h1 i, Finset.sum_sub_distrib, ← h z, Finset.sum_comm, sub_eq_zero]
  exact Finset.sum_congr rfl fun z' _ => by rw [Finset.sum_mul]

/-- **C80.** By default, `to_problem` drops the columns of linear parameters on characteristics that involve neither prices nor
shares, and keeps all others. -/
theorem C80_dropped (n : ℕ) (isLinear : ℕ → Bool) (names : ℕ → List String) :
    ∃ l, droppedColumns n none isLinear names = some l ∧ l.length = n ∧
      ∀ p, p < n → (l[p]? = some true ↔ isLinear p = true ∧ "prices" ∉ names p ∧ "shares" ∉ names p) := by
  refine ⟨_, rfl, by simp, fun p hp => ?_⟩
  rw [List.getElem?_map, List.getElem?_range hp]
  simp [and_assoc]

/-- Dropped columns that are given. -/
theorem foldl_dropped (n : ℕ) (l : List ℤ) (dropped out : List Bool) (hd : dropped.length = n)
    (h : l.foldl (fun acc (i : ℤ) => acc.bind fun dropped : List Bool =>
      if 0 ≤ i ∧ i < n then some (dropped.set i.toNat true)
      else if i < 0 ∧ 0 ≤ i + n then some (dropped.set (i + n).toNat true) else none) (some dropped) = some out) :
    out.length = n ∧ ∀ p, p < n → (out[p]? = some true ↔ dropped[p]? = some true ∨ (p : ℤ) ∈ l ∨ (p : ℤ) - n ∈ l) := by
  induction l generalizing dropped with
  | nil =>
    obtain rfl := Option.some.inj h
    exact ⟨hd, fun p _ => by simp⟩
  | cons i l ih =>
    have hnone : ∀ l : List ℤ, l.foldl (fun acc (i : ℤ) => acc.bind fun dropped : List Bool =>
        if 0 ≤ i ∧ i < n then some (dropped.set i.toNat true)
        else if i < 0 ∧ 0 ≤ i + n then some (dropped.set (i + n).toNat true) else none) none = none := by
      intro l
      induction l with
      | nil => rfl
      | cons _ _ ih => exact ih
    rw [List.foldl_cons, Option.bind_some] at h
    by_cases h1 : 0 ≤ i ∧ i < n
    · rw [if_pos h1] at h
      obtain ⟨ho, hp⟩ := ih _ (by rw [List.length_set]; exact hd) h
      refine ⟨ho, fun p hpn => ?_⟩
      rw [hp p hpn, List.getElem?_set]
      by_cases h2 : i.toNat = p
      · have hpi : (p : ℤ) = i := by omega
        rw [if_pos h2, if_pos (by omega)]
        simp [hpi]
      · have h3 : (p : ℤ) ≠ i := by omega
        have h4 : (p : ℤ) - n ≠ i := by omega
        rw [if_neg h2, List.mem_cons, List.mem_cons]
        simp [h3, h4]
    · rw [if_neg h1] at h
      by_cases h2 : i < 0 ∧ 0 ≤ i + n
      · rw [if_pos h2] at h
        obtain ⟨ho, hp⟩ := ih _ (by rw [List.length_set]; exact hd) h
        refine ⟨ho, fun p hpn => ?_⟩
        rw [hp p hpn, List.getElem?_set]
        by_cases h3 : (i + n).toNat = p
        · have hpi : (p : ℤ) - n = i := by omega
          rw [if_pos h3, if_pos (by omega)]
          simp [hpi]
        · have h5 : (p : ℤ) ≠ i := by omega
          have h4 : (p : ℤ) - n ≠ i := by omega
          rw [if_neg h3, List.mem_cons, List.mem_cons]
          simp [h5, h4]
      · rw [if_neg h2, hnone] at h
        cases h

/-- **C80.** If indices of columns are given, exactly these are dropped, counting from the end if negative. -/
theorem C80_dropped_given (n : ℕ) (indices : List ℤ) (isLinear : ℕ → Bool) (names : ℕ → List String) (l : List Bool)
    (h : droppedColumns n (some indices) isLinear names = some l) :
    l.length = n ∧ ∀ p, p < n → (l[p]? = some true ↔ (p : ℤ) ∈ indices ∨ (p : ℤ) - n ∈ indices) := by
  obtain ⟨h1, h2⟩ := foldl_dropped n indices (List.replicate n false) l (by simp) h
  refine ⟨h1, fun p hp => ?_⟩
  rw [h2 p hp]
  simp [List.getElem?_replicate]

/-- Both kinds of indices. -/
example : droppedColumns 3 (some [0, -1]) (fun _ => false) (fun _ => []) = some [true, false, true] := by decide +kernel

/-- An invertible covariance matrix of errors. -/
example : ∃ (xi omega : Fin 3 → ℝ) (inverse : Matrix (Fin 2) (Fin 2) ℝ), errorCovariance xi omega * inverse = 1 := by
  refine ⟨![1, -1, 0], ![1, 1, -2], !![1, 0; 0, 1 / 3], ?_⟩
  ext a b
  fin_cases a <;> fin_cases b <;>
    simp [Matrix.mul_apply, errorCovariance, npCov, npMean, Fin.sum_univ_succ] <;> norm_num

end instruments

end Pyblp
