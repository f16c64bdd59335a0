import Verif.Model.SigmaSquared
import Verif.Props.Algebra
import Verif.Props.Parameters
import Mathlib.Analysis.Calculus.Deriv.Mul
import Mathlib.Analysis.Calculus.Deriv.Add

/-!
# Standard errors of `sigma * sigma'`: C91
-/

set_option linter.unusedSectionVars false

namespace Pyblp

open Classical

/-! ## Specification -/

namespace Spec

/-- `P` is the Moore-Penrose pseudo-inverse of a matrix `D` with `s` rows and `h` columns. -/
structure IsPinv (s h : ℕ) (D P : Mat) : Prop where
  dpd : ∀ p < s, ∀ r < h, matMul s (matMul h D P) D p r = D p r
  pdp : ∀ r < h, ∀ p < s, matMul h (matMul s P D) P r p = P r p
  dp : ∀ p < s, ∀ q < s, matMul h D P p q = matMul h D P q p
  pd : ∀ r < h, ∀ c < h, matMul s P D r c = matMul s P D c r

end Spec

/-! ## Sums over positions -/

/-- Where the entry at position `p` of a vectorized symmetric matrix is in its half-vectorization. -/
def symPos (n p : ℕ) : ℕ :=
  let i := max (p % n) (p / n)
  let j := min (p % n) (p / n)
  j * n + i - j * (j + 1) / 2

theorem div_mod_lt {n p : ℕ} (hp : p < n ^ 2) : p / n < n ∧ p % n < n ∧ 0 < n := by
  have hn : 0 < n := by
    rcases Nat.eq_zero_or_pos n with h | h
    · subst h; simp at hp
    · exact h
  exact ⟨by rw [Nat.div_lt_iff_lt_mul hn]; simpa [sq] using hp, Nat.mod_lt _ hn, hn⟩

theorem symPos_lt {n p : ℕ} (hp : p < n ^ 2) : symPos n p < n * (n + 1) / 2 := by
  obtain ⟨h1, h2, _⟩ := div_mod_lt hp
  exact pos_lt n _ _ (min_le_max) (max_lt h2 h1)

theorem symPos_of {n i j : ℕ} (hi : i < n) (hj : j < n) :
    symPos n (j * n + i) = min i j * n + max i j - min i j * (min i j + 1) / 2 := by
  obtain ⟨_, h2, h3⟩ := vec_pos n i j hi hj
  unfold symPos
  rw [h2, h3]

theorem symPos_lower {n i j : ℕ} (hji : j ≤ i) (hi : i < n) : symPos n (j * n + i) = j * n + i - j * (j + 1) / 2 := by
  rw [symPos_of hi (hji.trans_lt hi), min_eq_right hji, max_eq_left hji]

theorem exists_lower {n r : ℕ} (hr : r < n * (n + 1) / 2) : ∃ i j, j ≤ i ∧ i < n ∧ r = j * n + i - j * (j + 1) / 2 := by
  have hlen : r < (triuIndices n 0).length := by rw [triu_length]; exact hr
  obtain ⟨⟨j, i⟩, hji⟩ : ∃ q, (triuIndices n 0)[r]? = some q := ⟨_, List.getElem?_eq_getElem hlen⟩
  have hmem : (j, i) ∈ triuIndices n 0 := List.mem_of_getElem? hji
  rw [mem_triu] at hmem
  refine ⟨i, j, by omega, hmem.2, ?_⟩
  have h2 := triu_get n i j (by omega) hmem.2
  have hlt := (List.getElem?_eq_some_iff.1 h2).1
  have e1 := (List.getElem?_eq_some_iff.1 hji).2
  have e2 := (List.getElem?_eq_some_iff.1 h2).2
  exact (List.Nodup.getElem_inj_iff (nodup_triu n 0)).1 (e1.trans e2.symm)

/-- The duplication matrix times a vector. -/
theorem duplication_mul (n : ℕ) (v : ℕ → ℝ) (p : ℕ) (hp : p < n ^ 2) :
    ∑ r ∈ Finset.range (n * (n + 1) / 2), duplicationMatrix n p r * v r = v (symPos n p) := by
  obtain ⟨h1, h2, h3⟩ := div_mod_lt hp
  have h := C38_duplication n (fun i j => v (min i j * n + max i j - min i j * (min i j + 1) / 2))
    (fun i j _ _ => by simp only [min_comm, max_comm]) p hp
  refine Eq.trans (Finset.sum_congr rfl fun r hr => ?_) h
  obtain ⟨i, j, hji, hi, rfl⟩ := exists_lower (Finset.mem_range.1 hr)
  rw [vech_get n _ i j hji hi, min_eq_right hji, max_eq_left hji]

theorem duplication_entry (n p r : ℕ) (hp : p < n ^ 2) (hr : r < n * (n + 1) / 2) :
    duplicationMatrix n p r = if symPos n p = r then 1 else 0 := by
  have h := duplication_mul n (fun c => if c = r then 1 else 0) p hp
  rw [← h, Finset.sum_eq_single r]
  · simp
  · intro c _ hc
    simp [hc]
  · intro hc
    exact absurd (Finset.mem_range.2 hr) hc

/-- The position of the transposed entry. -/
def trPos (n p : ℕ) : ℕ := p % n * n + p / n

theorem trPos_spec {n p : ℕ} (hp : p < n ^ 2) : trPos n p < n ^ 2 ∧ trPos n p % n = p / n ∧ trPos n p / n = p % n := by
  obtain ⟨h1, h2, _⟩ := div_mod_lt hp
  exact vec_pos n (p / n) (p % n) h1 h2

theorem trPos_trPos {n p : ℕ} (hp : p < n ^ 2) : trPos n (trPos n p) = p := by
  obtain ⟨_, h2, h3⟩ := trPos_spec hp
  rw [trPos, h2, h3]
  exact (vec_pos_eq n p _ _ rfl rfl).symm

theorem symPos_trPos {n p : ℕ} (hp : p < n ^ 2) : symPos n (trPos n p) = symPos n p := by
  obtain ⟨_, h2, h3⟩ := trPos_spec hp
  unfold symPos
  rw [h2, h3, min_comm, max_comm]

theorem sum_trPos (n : ℕ) (f : ℕ → ℝ) : ∑ p ∈ Finset.range (n ^ 2), f (trPos n p) = ∑ p ∈ Finset.range (n ^ 2), f p := by
  refine Finset.sum_nbij' (trPos n) (trPos n) ?_ ?_ ?_ ?_ ?_
  · intro p hp
    exact Finset.mem_range.2 (trPos_spec (Finset.mem_range.1 hp)).1
  · intro p hp
    exact Finset.mem_range.2 (trPos_spec (Finset.mem_range.1 hp)).1
  · intro p hp
    exact trPos_trPos (Finset.mem_range.1 hp)
  · intro p hp
    exact trPos_trPos (Finset.mem_range.1 hp)
  · intro p hp
    rfl

/-- A sum over positions of a vectorized matrix. -/
theorem sum_vec (n : ℕ) (f : ℕ → ℕ → ℝ) :
    ∑ p ∈ Finset.range (n ^ 2), f (p % n) (p / n) = ∑ i ∈ Finset.range n, ∑ j ∈ Finset.range n, f i j := by
  rw [← Finset.sum_product']
  refine Finset.sum_nbij' (fun p => (p % n, p / n)) (fun q => q.2 * n + q.1) ?_ ?_ ?_ ?_ ?_
  · intro p hp
    obtain ⟨h1, h2, _⟩ := div_mod_lt (Finset.mem_range.1 hp)
    simp [h1, h2]
  · intro q hq
    rw [Finset.mem_product, Finset.mem_range, Finset.mem_range] at hq
    exact Finset.mem_range.2 (vec_pos n q.1 q.2 hq.1 hq.2).1
  · intro p _
    exact (vec_pos_eq n p _ _ rfl rfl).symm
  · intro q hq
    rw [Finset.mem_product, Finset.mem_range, Finset.mem_range] at hq
    obtain ⟨_, h2, h3⟩ := vec_pos n q.1 q.2 hq.1 hq.2
    exact Prod.ext h2 h3
  · intro p _
    rfl

/-- A sum over positions of a half-vectorized matrix. -/
theorem sum_vech (n : ℕ) (f : ℕ → ℝ) : ∑ r ∈ Finset.range (n * (n + 1) / 2), f r =
    ∑ i ∈ Finset.range n, ∑ j ∈ Finset.range n, if j ≤ i then f (j * n + i - j * (j + 1) / 2) else 0 := by
  rw [← sum_vec n fun i j => if j ≤ i then f (j * n + i - j * (j + 1) / 2) else 0]
  rw [← Finset.sum_congr rfl fun p hp => eliminationT_mul n f p (Finset.mem_range.1 hp), Finset.sum_comm]
  refine Finset.sum_congr rfl fun r hr => ?_
  rw [← Finset.sum_mul]
  obtain ⟨i, j, hji, hi, rfl⟩ := exists_lower (Finset.mem_range.1 hr)
  have h := elimination_mul n (fun _ => 1) i j hji hi
  simp only [mul_one] at h
  rw [h, one_mul]

/-! ## The pseudo-inverse of the duplication matrix -/

section

variable {n : ℕ} {P : Mat} (hP : Spec.IsPinv (n ^ 2) (n * (n + 1) / 2) (duplicationMatrix n) P)

include hP

theorem pinv_mul_duplication (r c : ℕ) (hr : r < n * (n + 1) / 2) (hc : c < n * (n + 1) / 2) :
    ∑ q ∈ Finset.range (n ^ 2), P r q * duplicationMatrix n q c = if r = c then 1 else 0 := by
  obtain ⟨i, j, hji, hi, rfl⟩ := exists_lower hr
  have hp := (vec_pos n i j hi (hji.trans_lt hi)).1
  have h := hP.dpd _ hp c hc
  rw [duplication_entry n _ c hp hc, symPos_lower hji hi] at h
  rw [← h]
  unfold matMul
  refine Finset.sum_congr rfl fun q _ => ?_
  rw [duplication_mul n (fun k => P k q) _ hp, symPos_lower hji hi]

theorem pinv_symm (p q : ℕ) (hp : p < n ^ 2) (hq : q < n ^ 2) : P (symPos n p) q = P (symPos n q) p := by
  have h := hP.dp p hp q hq
  unfold matMul at h
  rwa [duplication_mul n (fun k => P k q) _ hp, duplication_mul n (fun k => P k p) _ hq] at h

theorem pinv_trPos (r p : ℕ) (hr : r < n * (n + 1) / 2) (hp : p < n ^ 2) : P r (trPos n p) = P r p := by
  obtain ⟨i, j, hji, hi, rfl⟩ := exists_lower hr
  have hq := (vec_pos n i j hi (hji.trans_lt hi)).1
  have e := symPos_lower hji hi
  rw [← e, pinv_symm hP _ _ hq (trPos_spec hp).1, symPos_trPos hp, pinv_symm hP _ _ hq hp]

/-- The pseudo-inverse of the duplication matrix half-vectorizes the symmetric part of a matrix. -/
theorem pinv_mul_vec (x : Mat) (i j : ℕ) (hji : j ≤ i) (hi : i < n) :
    ∑ p ∈ Finset.range (n ^ 2), P (j * n + i - j * (j + 1) / 2) p * vec n x p = (x i j + x j i) / 2 := by
  have hr := pos_lt n i j hji hi
  have hp0 := (vec_pos n i j hi (hji.trans_lt hi)).1
  have e := symPos_lower hji hi
  generalize hrr : j * n + i - j * (j + 1) / 2 = r at *
  have hhalf : ∑ p ∈ Finset.range (n ^ 2), P r p * vec n x p =
      ∑ p ∈ Finset.range (n ^ 2), P r p * ((vec n x p + vec n x (trPos n p)) / 2) := by
    have h1 := sum_trPos n fun p => P r p * vec n x p
    have h2 : ∑ p ∈ Finset.range (n ^ 2), P r (trPos n p) * vec n x (trPos n p) =
        ∑ p ∈ Finset.range (n ^ 2), P r p * vec n x (trPos n p) :=
      Finset.sum_congr rfl fun p hp => by rw [pinv_trPos hP r p hr (Finset.mem_range.1 hp)]
    have h3 : ∑ p ∈ Finset.range (n ^ 2), P r p * ((vec n x p + vec n x (trPos n p)) / 2) =
        (∑ p ∈ Finset.range (n ^ 2), P r p * vec n x p + ∑ p ∈ Finset.range (n ^ 2), P r p * vec n x (trPos n p)) / 2 := by
      rw [← Finset.sum_add_distrib, Finset.sum_div]
      exact Finset.sum_congr rfl fun p _ => by ring
    rw [h3, ← h2, h1]
    ring
  -- the symmetric part as a function of positions in the half-vectorization
  let y : List ℝ := vech n fun a b => (x a b + x b a) / 2
  have hy : ∀ p < n ^ 2, (vec n x p + vec n x (trPos n p)) / 2 =
      ∑ c ∈ Finset.range (n * (n + 1) / 2), duplicationMatrix n p c * y.getD c 0 := by
    intro p hp
    have h := C38_duplication n (fun a b => (x a b + x b a) / 2) (fun a b _ _ => by rw [add_comm]) p hp
    rw [h]
    obtain ⟨_, h2, h3⟩ := trPos_spec hp
    simp only [vec, h2, h3]
  rw [hhalf, Finset.sum_congr rfl fun p hp => by rw [hy p (Finset.mem_range.1 hp), Finset.mul_sum], Finset.sum_comm]
  have hfin : ∀ c ∈ Finset.range (n * (n + 1) / 2), ∑ p ∈ Finset.range (n ^ 2), P r p * (duplicationMatrix n p c * y.getD c 0) =
      if r = c then y.getD c 0 else 0 := by
    intro c hc
    have h := pinv_mul_duplication hP r c hr (Finset.mem_range.1 hc)
    rw [Finset.sum_congr rfl fun p _ => (mul_assoc _ _ _).symm, ← Finset.sum_mul, h]
    split <;> simp
  rw [Finset.sum_congr rfl hfin, Finset.sum_ite_eq, if_pos (Finset.mem_range.2 hr), ← hrr]
  exact vech_get n _ i j hji hi

/-- Entries of the Jacobian: the derivative of entry `(i, j)` of `sigma * sigma'` with respect to entry `(a, b)` of `sigma`. -/
theorem jacobian_entry {pinv : ℕ → ℕ → Mat → Mat} (he : pinv (n ^ 2) (n * (n + 1) / 2) (duplicationMatrix n) = P) (sigma : Mat)
    (i j a b : ℕ) (hji : j ≤ i) (hi : i < n) (hba : b ≤ a) (ha : a < n) :
    sigmaSquaredJacobian pinv n sigma (j * n + i - j * (j + 1) / 2) (b * n + a - b * (b + 1) / 2) =
      (if i = a then sigma j b else 0) + (if j = a then sigma i b else 0) := by
  unfold sigmaSquaredJacobian
  rw [he]
  obtain ⟨_, hm, hd⟩ := vec_pos n a b ha (hba.trans_lt ha)
  have h1 := elimination_mul n (fun q => matMul (n ^ 2) (fun i j => 2 * P i j) (kron n sigma eye) (j * n + i - j * (j + 1) / 2) q)
    a b hba ha
  have h2 := pinv_mul_vec hP (fun k l => eye k a * sigma l b) i j hji hi
  have h3 : matMul (n ^ 2) (fun i j => 2 * P i j) (kron n sigma eye) (j * n + i - j * (j + 1) / 2) (b * n + a) =
      2 * ∑ p ∈ Finset.range (n ^ 2), P (j * n + i - j * (j + 1) / 2) p * vec n (fun k l => eye k a * sigma l b) p := by
    unfold matMul kron vec
    rw [hm, hd, Finset.mul_sum]
    exact Finset.sum_congr rfl fun p _ => by ring
  rw [matMul]
  refine Eq.trans (Finset.sum_congr rfl fun q _ => mul_comm _ _) (Eq.trans h1 ?_)
  rw [h3, h2]
  unfold eye
  split <;> split <;> ring

end

/-! ## Locations of elements of `sigma` in `theta` -/

section

variable {e : ParamInputs} {p : Parameters} (h : buildParameters e = .ok p)

include h

theorem sigma_shape : (p.mats .sigma).rows = e.K2 ∧ (p.mats .sigma).cols = e.K2 := by
  obtain ⟨b0, H⟩ := built_of_ok h
  have := H.shape .sigma
  simp only [ParamInputs.shapes, List.mem_singleton] at this
  exact Prod.mk.inj this

theorem idxOf_upper {a b : ℕ} (hab : a < b) : p.stored.unfixed.idxOf (⟨.sigma, a, b⟩ : Param) = p.P := by
  apply List.idxOf_of_notMem
  intro hm
  have := ((C44_estimated h .sigma a b).1 hm).2.2.1 rfl
  omega

theorem expand_sigma_mem (theta : List Fl) (ht : theta.length = p.stored.unfixed.length) (nullify : Bool) {a b : ℕ}
    (hm : (⟨.sigma, a, b⟩ : Param) ∈ p.stored.unfixed) :
    expand p theta nullify .sigma a b = theta[p.stored.unfixed.idxOf (⟨.sigma, a, b⟩ : Param)]'(by
      rw [ht]; exact List.idxOf_lt_length_iff.2 hm) := by
  have hk := List.idxOf_lt_length_iff.2 hm
  have hx := expand_unfixed h theta ht nullify _ hk
  rw [List.getElem_idxOf hk] at hx
  exact hx

theorem sigmaIndices_get {a b : ℕ} (hba : b ≤ a) (ha : a < e.K2) :
    (sigmaIndices p e.K2).getD (b * e.K2 + a - b * (b + 1) / 2) 0 = p.stored.unfixed.idxOf (⟨.sigma, a, b⟩ : Param) := by
  unfold sigmaIndices vech
  dsimp only
  rw [List.getD, List.getElem?_map, List.getElem?_map, triu_get e.K2 a b hba ha]
  simp only [Option.map_some, Option.getD_some]
  by_cases hm : (⟨.sigma, a, b⟩ : Param) ∈ p.stored.unfixed
  · rw [expand_sigma_mem h _ (by simp [Parameters.P]) true hm, List.getElem_map, List.getElem_range]
    change ⌊(((p.stored.unfixed.idxOf (⟨.sigma, a, b⟩ : Param) : ℕ) : ℝ) : EReal).toReal⌋₊ = _
    rw [EReal.toReal_coe, Nat.floor_natCast]
  · rw [expand_null _ _ _ _ hm, List.idxOf_of_notMem hm]
    rfl

/-- How an element of `sigma` changes with an element of `theta`. -/
theorem sigmaAt_deriv (theta : ℕ → ℝ) (k : ℕ) (hk : k < p.P) {a b : ℕ} (ha : a < e.K2) (hb : b < e.K2) :
    HasDerivAt (fun t => sigmaAt p (Function.update theta k t) a b)
      (if p.stored.unfixed.idxOf (⟨.sigma, a, b⟩ : Param) = k then 1 else 0) (theta k) := by
  obtain ⟨hr, hc⟩ := sigma_shape h
  by_cases hm : (⟨.sigma, a, b⟩ : Param) ∈ p.stored.unfixed
  · have hv : ∀ θ : ℕ → ℝ, sigmaAt p θ a b = θ (p.stored.unfixed.idxOf (⟨.sigma, a, b⟩ : Param)) := by
      intro θ
      unfold sigmaAt
      rw [expand_sigma_mem h _ (by simp [Parameters.P]) false hm]
      simp
    simp only [hv]
    by_cases hi : p.stored.unfixed.idxOf (⟨.sigma, a, b⟩ : Param) = k
    · rw [if_pos hi]
      simp only [hi, Function.update_self]
      exact hasDerivAt_id _
    · rw [if_neg hi]
      simp only [Function.update_of_ne hi]
      exact hasDerivAt_const _ _
  · have hv : ∀ θ : ℕ → ℝ, sigmaAt p θ a b = ((Spec.start e .sigma a b).getD 0).toReal := by
      intro θ
      unfold sigmaAt
      rw [C43_fixed h _ (by simp [Parameters.P]) .sigma a b (by rw [hr]; exact ha) (by rw [hc]; exact hb) hm]
    simp only [hv]
    rw [if_neg (by rw [List.idxOf_of_notMem hm]; exact (ne_of_lt hk).symm)]
    exact hasDerivAt_const _ _

theorem sigmaSquared_deriv (theta : ℕ → ℝ) (k : ℕ) (hk : k < p.P) {i j : ℕ} (hi : i < e.K2) (hj : j < e.K2) :
    HasDerivAt (fun t => sigmaSquared p e.K2 (Function.update theta k t) i j)
      (∑ b ∈ Finset.range e.K2, ((if p.stored.unfixed.idxOf (⟨.sigma, i, b⟩ : Param) = k then 1 else 0) * sigmaAt p theta j b +
        sigmaAt p theta i b * (if p.stored.unfixed.idxOf (⟨.sigma, j, b⟩ : Param) = k then 1 else 0))) (theta k) := by
  unfold sigmaSquared matMul matT
  have := HasDerivAt.fun_sum (u := Finset.range e.K2) fun b hb =>
    (sigmaAt_deriv h theta k hk hi (Finset.mem_range.1 hb)).fun_mul (sigmaAt_deriv h theta k hk hj (Finset.mem_range.1 hb))
  simpa only [Function.update_eq_self] using this

/-- Summing over elements of the half-vectorization of `sigma` is summing over `theta`. -/
theorem sum_jacobian {pinv : ℕ → ℕ → Mat → Mat}
    (hP : Spec.IsPinv (e.K2 ^ 2) (e.K2 * (e.K2 + 1) / 2) (duplicationMatrix e.K2)
      (pinv (e.K2 ^ 2) (e.K2 * (e.K2 + 1) / 2) (duplicationMatrix e.K2)))
    (theta : ℕ → ℝ) {i j : ℕ} (hji : j ≤ i) (hi : i < e.K2) (grad : ℕ → ℝ)
    (hg : ∀ k < p.P, HasDerivAt (fun t => sigmaSquared p e.K2 (Function.update theta k t) i j) (grad k) (theta k))
    (w : ℕ → ℝ) (hw : ∀ k, p.P ≤ k → w k = 0) :
    ∑ c ∈ Finset.range (e.K2 * (e.K2 + 1) / 2),
      sigmaSquaredJacobian pinv e.K2 (sigmaAt p theta) (j * e.K2 + i - j * (j + 1) / 2) c * w ((sigmaIndices p e.K2).getD c 0) =
    ∑ k ∈ Finset.range p.P, grad k * w k := by
  have hj : j < e.K2 := hji.trans_lt hi
  -- a sum over `theta` picks the element at a location
  have hpick : ∀ q : Param, ∑ k ∈ Finset.range p.P, (if p.stored.unfixed.idxOf q = k then (1 : ℝ) else 0) * w k =
      w (p.stored.unfixed.idxOf q) := by
    intro q
    simp only [ite_mul, one_mul, zero_mul]
    rw [Finset.sum_ite_eq]
    split
    · rfl
    · rename_i hn
      rw [Finset.mem_range, not_lt] at hn
      exact (hw _ hn).symm
  have hright : ∑ k ∈ Finset.range p.P, grad k * w k = ∑ b ∈ Finset.range e.K2,
      (w (p.stored.unfixed.idxOf (⟨.sigma, i, b⟩ : Param)) * sigmaAt p theta j b +
        sigmaAt p theta i b * w (p.stored.unfixed.idxOf (⟨.sigma, j, b⟩ : Param))) := by
    rw [Finset.sum_congr rfl fun k hk => by
      rw [(hg k (Finset.mem_range.1 hk)).unique (sigmaSquared_deriv h theta k (Finset.mem_range.1 hk) hi hj), Finset.sum_mul],
      Finset.sum_comm]
    refine Finset.sum_congr rfl fun b _ => ?_
    rw [← hpick ⟨.sigma, i, b⟩, ← hpick ⟨.sigma, j, b⟩, Finset.sum_mul, Finset.mul_sum, ← Finset.sum_add_distrib]
    exact Finset.sum_congr rfl fun k _ => by ring
  rw [hright, sum_vech, Finset.sum_comm]
  refine Finset.sum_congr rfl fun b hb => ?_
  have hterm : ∀ a ∈ Finset.range e.K2, (if b ≤ a then
      sigmaSquaredJacobian pinv e.K2 (sigmaAt p theta) (j * e.K2 + i - j * (j + 1) / 2) (b * e.K2 + a - b * (b + 1) / 2) *
        w ((sigmaIndices p e.K2).getD (b * e.K2 + a - b * (b + 1) / 2) 0) else 0) =
      (if i = a then sigmaAt p theta j b * w (p.stored.unfixed.idxOf (⟨.sigma, a, b⟩ : Param)) else 0) +
        (if j = a then sigmaAt p theta i b * w (p.stored.unfixed.idxOf (⟨.sigma, a, b⟩ : Param)) else 0) := by
    intro a ha
    by_cases hba : b ≤ a
    · rw [if_pos hba, jacobian_entry hP rfl _ i j a b hji hi hba (Finset.mem_range.1 ha), sigmaIndices_get h hba (Finset.mem_range.1 ha)]
      split <;> split <;> ring
    · rw [if_neg hba, idxOf_upper h (not_le.1 hba), hw _ le_rfl]
      simp
  rw [Finset.sum_congr rfl hterm, Finset.sum_add_distrib, Finset.sum_ite_eq, Finset.sum_ite_eq, if_pos (Finset.mem_range.2 hi),
    if_pos (Finset.mem_range.2 hj)]
  ring

/-- **C91.** The standard error of each element of `sigma * sigma'` is the one of the delta method: the square root of
`grad' V grad / N`, in which `V` are covariances of `theta` and `grad` is the gradient of the element with respect to `theta`. Both
triangles are filled. -/
theorem C91_delta_method {pinv : ℕ → ℕ → Mat → Mat}
    (hP : Spec.IsPinv (e.K2 ^ 2) (e.K2 * (e.K2 + 1) / 2) (duplicationMatrix e.K2)
      (pinv (e.K2 ^ 2) (e.K2 * (e.K2 + 1) / 2) (duplicationMatrix e.K2)))
    (N : ℕ) (theta : ℕ → ℝ) (V : Mat) (i j : ℕ) (hi : i < e.K2) (hj : j < e.K2) (grad : ℕ → ℝ)
    (hg : ∀ k < p.P, HasDerivAt (fun t => sigmaSquared p e.K2 (Function.update theta k t) i j) (grad k) (theta k)) :
    sigmaSquaredSe pinv p e.K2 N theta V i j =
      Spec.standardError (some (∑ k ∈ Finset.range p.P, ∑ l ∈ Finset.range p.P, grad k * V k l * grad l)) N := by
  -- the lower triangle
  have hlow : ∀ i j, j ≤ i → i < e.K2 → ∀ grad : ℕ → ℝ,
      (∀ k < p.P, HasDerivAt (fun t => sigmaSquared p e.K2 (Function.update theta k t) i j) (grad k) (theta k)) →
      sigmaSquaredVectorCovariances pinv e.K2 (sigmaAt p theta) (extractSigmaVectorCovariances p e.K2 V)
        (j * e.K2 + i - j * (j + 1) / 2) (j * e.K2 + i - j * (j + 1) / 2) =
      ∑ k ∈ Finset.range p.P, ∑ l ∈ Finset.range p.P, grad k * V k l * grad l := by
    intro i j hji hi grad hg
    unfold sigmaSquaredVectorCovariances extractSigmaVectorCovariances
    dsimp only
    rw [matMul]
    unfold matT
    have hin : ∀ c, matMul (e.K2 * (e.K2 + 1) / 2) (sigmaSquaredJacobian pinv e.K2 (sigmaAt p theta))
        (fun r c => padCovariances p.P V ((sigmaIndices p e.K2).getD r 0) ((sigmaIndices p e.K2).getD c 0))
        (j * e.K2 + i - j * (j + 1) / 2) c =
        ∑ k ∈ Finset.range p.P, grad k * padCovariances p.P V k ((sigmaIndices p e.K2).getD c 0) := by
      intro c
      exact sum_jacobian h hP theta hji hi grad hg (fun k => padCovariances p.P V k ((sigmaIndices p e.K2).getD c 0))
        (fun k hk => if_neg fun hh => absurd hh.1 (not_lt.2 hk))
    rw [Finset.sum_congr rfl fun c _ => by rw [hin c, mul_comm]]
    rw [sum_jacobian h hP theta hji hi grad hg
      (fun l => ∑ k ∈ Finset.range p.P, grad k * padCovariances p.P V k l)
      (fun l hl => Finset.sum_eq_zero fun k _ => by rw [padCovariances, if_neg fun hh => absurd hh.2 (not_lt.2 hl), mul_zero])]
    simp only [Finset.mul_sum]
    rw [Finset.sum_comm]
    refine Finset.sum_congr rfl fun k hk => Finset.sum_congr rfl fun l hl => ?_
    rw [padCovariances, if_pos ⟨Finset.mem_range.1 hk, Finset.mem_range.1 hl⟩]
    ring
  -- the list of standard errors is the half-vectorization of a symmetric matrix
  let f : ℕ → Fl := fun r => sqrtFl (some (sigmaSquaredVectorCovariances pinv e.K2 (sigmaAt p theta)
    (extractSigmaVectorCovariances p e.K2 V) r r / N))
  let x : ℕ → ℕ → Fl := fun a b => f (min a b * e.K2 + max a b - min a b * (min a b + 1) / 2)
  have hlist : (List.range (e.K2 * (e.K2 + 1) / 2)).map f = vech e.K2 x := by
    apply List.ext_getElem
    · rw [List.length_map, List.length_range, vech, List.length_map, triu_length]
    · intro r h1 h2
      have hr : r < e.K2 * (e.K2 + 1) / 2 := by simpa using h1
      obtain ⟨a, b, hba, ha, hrr⟩ := exists_lower hr
      have hv := vech_get e.K2 x a b hba ha
      rw [← hrr, List.getD, List.getElem?_eq_getElem h2, Option.getD_some] at hv
      rw [hv, List.getElem_map, List.getElem_range]
      change f r = f _
      rw [min_eq_right hba, max_eq_left hba, hrr]
  have hfull : sigmaSquaredSe pinv p e.K2 N theta V i j = x i j := by
    change vechToFull ((List.range (e.K2 * (e.K2 + 1) / 2)).map f) e.K2 i j = x i j
    rw [hlist]
    exact C38_full e.K2 x (fun a b _ _ => by simp only [x, min_comm, max_comm]) i j hi hj
  rw [hfull]
  have hsq : ∀ t, sigmaSquared p e.K2 t i j = sigmaSquared p e.K2 t j i := fun t => by
    unfold sigmaSquared matMul matT
    exact Finset.sum_congr rfl fun b _ => mul_comm _ _
  change sqrtFl (some (_ / (N : ℝ))) = _
  rcases le_total j i with hji | hij
  · rw [min_eq_right hji, max_eq_left hji, hlow i j hji hi grad hg]
    rfl
  · rw [min_eq_left hij, max_eq_right hij, hlow j i hij hj grad (fun k hk => by simpa only [hsq] using hg k hk)]
    rfl

end

/-! ## The hypotheses can be met -/

/-- Half-vectorizing the symmetric part of a matrix. -/
noncomputable def halfSymmetric (n : ℕ) : Mat := fun r p =>
  if symPos n p = r then ((if p / n ≤ p % n then 1 else 0) + (if p % n ≤ p / n then 1 else 0)) / 2 else 0

theorem sum_halfSymmetric {n r : ℕ} (hr : r < n * (n + 1) / 2) : ∑ p ∈ Finset.range (n ^ 2), halfSymmetric n r p = 1 := by
  obtain ⟨i, j, hji, hi, hrr⟩ := exists_lower hr
  have hl : ∑ p ∈ Finset.range (n ^ 2), (if symPos n p = r then (if p / n ≤ p % n then (1 : ℝ) else 0) else 0) = 1 := by
    have h := elimination_mul n (fun _ => 1) i j hji hi
    refine Eq.trans (Finset.sum_congr rfl fun p hp => ?_) h
    rw [elimination_entry n _ p (Finset.mem_range.1 hp), ← hrr, mul_one]
    by_cases hle : p / n ≤ p % n
    · have : symPos n p = p / n * n + p % n - p / n * (p / n + 1) / 2 := by
        unfold symPos
        rw [min_eq_right hle, max_eq_left hle]
      rw [this]
      simp only [hle, if_true, true_and, eq_comm]
    · simp [hle]
  have hu : ∑ p ∈ Finset.range (n ^ 2), (if symPos n p = r then (if p % n ≤ p / n then (1 : ℝ) else 0) else 0) = 1 := by
    refine Eq.trans (Finset.sum_congr rfl fun p hp => ?_)
      ((sum_trPos n fun p => if symPos n p = r then (if p / n ≤ p % n then (1 : ℝ) else 0) else 0).trans hl)
    obtain ⟨_, h2, h3⟩ := trPos_spec (Finset.mem_range.1 hp)
    rw [symPos_trPos (Finset.mem_range.1 hp), h2, h3]
  have : ∑ p ∈ Finset.range (n ^ 2), halfSymmetric n r p = (1 + 1) / 2 := by
    refine Eq.trans ?_ (congrArg₂ (fun a b : ℝ => (a + b) / 2) hl hu)
    rw [← Finset.sum_add_distrib, Finset.sum_div]
    refine Finset.sum_congr rfl fun p _ => ?_
    unfold halfSymmetric
    split <;> simp
  rw [this]
  norm_num

theorem halfSymmetric_mul {n r c : ℕ} (hr : r < n * (n + 1) / 2) (hc : c < n * (n + 1) / 2) :
    matMul (n ^ 2) (halfSymmetric n) (duplicationMatrix n) r c = if r = c then 1 else 0 := by
  have h : matMul (n ^ 2) (halfSymmetric n) (duplicationMatrix n) r c =
      (∑ p ∈ Finset.range (n ^ 2), halfSymmetric n r p) * (if r = c then 1 else 0) := by
    rw [matMul, Finset.sum_mul]
    refine Finset.sum_congr rfl fun p hp => ?_
    rw [duplication_entry n p c (Finset.mem_range.1 hp) hc]
    unfold halfSymmetric
    by_cases hp : symPos n p = r
    · rw [if_pos hp, hp]
    · rw [if_neg hp]
      simp
  rw [h, sum_halfSymmetric hr, one_mul]

/-- For every size, the duplication matrix has a Moore-Penrose pseudo-inverse. -/
theorem isPinv_halfSymmetric (n : ℕ) : Spec.IsPinv (n ^ 2) (n * (n + 1) / 2) (duplicationMatrix n) (halfSymmetric n) where
  dpd := by
    intro p hp r hr
    have h : matMul (n ^ 2) (matMul (n * (n + 1) / 2) (duplicationMatrix n) (halfSymmetric n)) (duplicationMatrix n) p r =
        matMul (n ^ 2) (halfSymmetric n) (duplicationMatrix n) (symPos n p) r := by
      unfold matMul
      refine Finset.sum_congr rfl fun q _ => ?_
      rw [duplication_mul n (fun k => halfSymmetric n k q) p hp]
    rw [h, halfSymmetric_mul (symPos_lt hp) hr, duplication_entry n p r hp hr]
  pdp := by
    intro r hr p _
    rw [matMul, Finset.sum_congr rfl fun k hk => by rw [halfSymmetric_mul hr (Finset.mem_range.1 hk)]]
    simp [hr]
  dp := by
    intro p hp q hq
    unfold matMul
    rw [duplication_mul n (fun k => halfSymmetric n k q) p hp, duplication_mul n (fun k => halfSymmetric n k p) q hq]
    unfold halfSymmetric
    by_cases hs : symPos n p = symPos n q
    · rw [if_pos hs.symm, if_pos hs]
      obtain ⟨h1, h2, _⟩ := div_mod_lt hp
      obtain ⟨h3, h4, _⟩ := div_mod_lt hq
      obtain ⟨e1, e2⟩ := pos_inj n _ _ _ _ min_le_max (max_lt h2 h1) min_le_max (max_lt h4 h3) hs
      rcases le_total (p % n) (p / n) with hp' | hp' <;> rcases le_total (q % n) (q / n) with hq' | hq' <;>
        simp only [max_eq_left, max_eq_right, min_eq_left, min_eq_right, hp', hq'] at e1 e2 <;> simp only [e1, e2] <;> ring
    · rw [if_neg (Ne.symm hs), if_neg hs]
  pd := by
    intro r hr c hc
    rw [halfSymmetric_mul hr hc, halfSymmetric_mul hc hr]
    simp only [eq_comm]

/-- One random coefficient with a standard deviation of `s` that is estimated: the standard error of its variance is `2 |s|` times
the standard error of the standard deviation. -/
theorem C91_scalar {e : ParamInputs} {p : Parameters} (h : buildParameters e = .ok p) (h1 : e.K2 = 1)
    (hm : (⟨.sigma, 0, 0⟩ : Param) ∈ p.stored.unfixed) (N : ℕ) (theta : ℕ → ℝ) (V : Mat) :
    let k := p.stored.unfixed.idxOf (⟨.sigma, 0, 0⟩ : Param)
    sigmaSquaredSe (fun _ _ _ => halfSymmetric 1) p 1 N theta V 0 0 = Spec.standardError (some ((2 * theta k) ^ 2 * V k k)) N := by
  intro k
  have hk : k < p.P := List.idxOf_lt_length_iff.2 hm
  have hv : sigmaAt p theta 0 0 = theta k := by
    unfold sigmaAt
    rw [expand_sigma_mem h _ (by simp [Parameters.P]) false hm]
    simp
    rfl
  have hmain := C91_delta_method (pinv := fun _ _ _ => halfSymmetric 1) h (by rw [h1]; exact isPinv_halfSymmetric 1) N theta V 0 0
    (by omega) (by omega) (fun l => if k = l then 2 * theta k else 0) (fun l hl => by
      have := sigmaSquared_deriv h theta l hl (i := 0) (j := 0) (by omega) (by omega)
      refine this.congr_deriv ?_
      rw [h1, Finset.sum_range_one, hv]
      change (if k = l then (1 : ℝ) else 0) * theta k + theta k * (if k = l then 1 else 0) = _
      split <;> ring)
  rw [h1] at hmain
  rw [hmain]
  congr 2
  simp only [ite_mul, zero_mul, mul_ite, mul_zero, Finset.sum_ite_eq, Finset.mem_range, hk, if_true]
  ring

/-- Its hypotheses hold in the example of C44. -/
example : ∃ p, buildParameters exampleInputs = .ok p ∧ exampleInputs.K2 = 1 ∧ (⟨.sigma, 0, 0⟩ : Param) ∈ p.stored.unfixed := by
  obtain ⟨p, hp, hs, _⟩ := example_ok
  exact ⟨p, hp, rfl, hs⟩

end Pyblp
