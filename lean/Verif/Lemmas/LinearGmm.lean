import Verif.Props.TwoStep
import Mathlib.Topology.Instances.Matrix
import Mathlib.Topology.Algebra.Order.Field
import Mathlib.LinearAlgebra.Matrix.NonsingularInverse

/-!
# Limits of estimates and covariances that are functions of averages

`F` is a filter on an index of samples: sample sizes that grow for one outcome, or sample sizes that grow and outcomes that are likely.
-/

set_option linter.unusedSectionVars false

open Filter Topology Matrix

namespace Pyblp.Asymptotic

variable {I c p ι : Type} [Fintype c] [DecidableEq c] [Fintype p] [DecidableEq p] [LinearOrder ι] {F : Filter I}

/-! ## Matrices -/

lemma tendsto_matrix {A : I → Matrix c p ℝ} {B : Matrix c p ℝ} : Tendsto A F (𝓝 B) ↔ ∀ a l, Tendsto (fun i => A i a l) F (𝓝 (B a l)) := by
  refine ⟨fun h a l => ?_, fun h => tendsto_pi_nhds.mpr fun a => tendsto_pi_nhds.mpr fun l => h a l⟩
  exact tendsto_pi_nhds.mp (tendsto_pi_nhds.mp h a) l

lemma tendsto_mul {a b c : Type} [Fintype b] {A : I → Matrix a b ℝ} {B : I → Matrix b c ℝ} {A0 : Matrix a b ℝ} {B0 : Matrix b c ℝ}
    (hA : Tendsto A F (𝓝 A0)) (hB : Tendsto B F (𝓝 B0)) : Tendsto (fun i => A i * B i) F (𝓝 (A0 * B0)) := by
  have hc : Continuous fun x : Matrix a b ℝ × Matrix b c ℝ => x.1 * x.2 := continuous_fst.matrix_mul continuous_snd
  exact (hc.tendsto (A0, B0)).comp (hA.prodMk_nhds hB)

lemma tendsto_transpose {a b : Type} {A : I → Matrix a b ℝ} {A0 : Matrix a b ℝ} (hA : Tendsto A F (𝓝 A0)) : Tendsto (fun i => (A i)ᵀ) F (𝓝 A0ᵀ) :=
  (continuous_id.matrix_transpose.tendsto A0).comp hA

lemma tendsto_det {A : I → Matrix p p ℝ} {A0 : Matrix p p ℝ} (hA : Tendsto A F (𝓝 A0)) : Tendsto (fun i => (A i).det) F (𝓝 A0.det) :=
  (continuous_id.matrix_det.tendsto A0).comp hA

lemma eventually_det {A : I → Matrix p p ℝ} {A0 : Matrix p p ℝ} (hA : Tendsto A F (𝓝 A0)) (h0 : A0.det ≠ 0) : ∀ᶠ i in F, (A i).det ≠ 0 :=
  (tendsto_det hA).eventually_ne h0

lemma tendsto_inv {A : I → Matrix p p ℝ} {A0 : Matrix p p ℝ} (hA : Tendsto A F (𝓝 A0)) (h0 : A0.det ≠ 0) :
    Tendsto (fun i => (A i)⁻¹) F (𝓝 A0⁻¹) := by
  have h1 := (tendsto_det hA).inv₀ h0
  have h2 : Tendsto (fun i => (A i).adjugate) F (𝓝 A0.adjugate) := (continuous_id.matrix_adjugate.tendsto A0).comp hA
  have h3 := h1.smul h2
  simp only [Matrix.inv_def, Ring.inverse_eq_inv]
  exact h3

/-- Estimates are the truth plus this matrix times averages of moments at the truth. -/
noncomputable def gain (Q : Matrix c p ℝ) (W : Matrix c c ℝ) : Matrix p c ℝ := (Qᵀ * W * Q)⁻¹ * Qᵀ * W

lemma tendsto_gain {Q : I → Matrix c p ℝ} {W : I → Matrix c c ℝ} {Q0 : Matrix c p ℝ} {W0 : Matrix c c ℝ} (hQ : Tendsto Q F (𝓝 Q0))
    (hW : Tendsto W F (𝓝 W0)) (h0 : (Q0ᵀ * W0 * Q0).det ≠ 0) : Tendsto (fun i => gain (Q i) (W i)) F (𝓝 (gain Q0 W0)) :=
  tendsto_mul (tendsto_mul (tendsto_inv (tendsto_mul (tendsto_mul (tendsto_transpose hQ) hW) hQ) h0) (tendsto_transpose hQ)) hW

/-! ## Averages over rows -/

/-- What averages of products are needed of. -/
inductive Term (c p : Type) where
  | one
  | error (a : c)
  | regressor (a : c) (l : p)
  | instrument (a : c)
  | moment (a : c)
  | slope (a : c) (l : p)

/-- Errors, regressors and instruments of each moment. -/
structure Rows (R : Type) (c p : Type) where
  error : c → R → ℝ
  regressor : c → p → R → ℝ
  instrument : c → R → ℝ

/-- The value of a term for one row. -/
def Rows.value {R : Type} (r : Rows R c p) : Term c p → R → ℝ
  | .one, _ => 1
  | .error a, j => r.error a j
  | .regressor a l, j => r.regressor a l j
  | .instrument a, j => r.instrument a j
  | .moment a, j => r.error a j * r.instrument a j
  | .slope a l, j => r.regressor a l j * r.instrument a j

/-- Sums over clusters of products of sums over rows in clusters, divided by the number of rows. -/
noncomputable def clusterProducts {N : ℕ} {ι : Type} [DecidableEq ι] (ids : Fin N → ι) (f g : Fin N → ℝ) : ℝ :=
  (∑ k ∈ Finset.univ.image ids, (∑ i with ids i = k, f i) * ∑ i with ids i = k, g i) / N

lemma clusterProducts_id {N : ℕ} (f g : Fin N → ℝ) : clusterProducts (ι := Fin N) id f g = Spec.overProducts fun j => f j * g j := by
  unfold clusterProducts Spec.overProducts
  congr 1
  rw [Finset.image_id]
  refine Finset.sum_congr rfl fun k _ => ?_
  simp [Finset.filter_eq']

lemma clusterProducts_sum {N : ℕ} {ι S S' : Type} [DecidableEq ι] [Fintype S] [Fintype S'] (ids : Fin N → ι) (a : S → ℝ) (f : S → Fin N → ℝ)
    (a' : S' → ℝ) (f' : S' → Fin N → ℝ) : clusterProducts ids (fun j => ∑ s, a s * f s j) (fun j => ∑ s, a' s * f' s j) =
      ∑ s, ∑ s', a s * a' s' * clusterProducts ids (f s) (f' s') := by
  have h : ∀ k, (∑ i with ids i = k, ∑ s, a s * f s i) * (∑ i with ids i = k, ∑ s, a' s * f' s i) =
      ∑ s, ∑ s', a s * a' s' * ((∑ i with ids i = k, f s i) * ∑ i with ids i = k, f' s' i) := by
    intro k
    rw [Finset.sum_comm, Finset.sum_comm (s := Finset.univ.filter fun i => ids i = k) (t := (Finset.univ : Finset S')), Finset.sum_mul_sum]
    refine Finset.sum_congr rfl fun s _ => Finset.sum_congr rfl fun s' _ => ?_
    rw [← Finset.mul_sum, ← Finset.mul_sum]
    ring
  unfold clusterProducts
  simp only [h]
  rw [Finset.sum_comm, Finset.sum_div]
  refine Finset.sum_congr rfl fun s _ => ?_
  rw [Finset.sum_comm, Finset.sum_div]
  refine Finset.sum_congr rfl fun s' _ => ?_
  rw [← Finset.mul_sum]
  ring

/-- Averages of products converge. -/
structure Limits {N : I → ℕ} (F : Filter I) (rows : ∀ i, Rows (Fin (N i)) c p) (ids : ∀ i, Fin (N i) → ι) (R K : Term c p → Term c p → ℝ) : Prop where
  averages : ∀ v v', Tendsto (fun i => Spec.overProducts fun j => (rows i).value v j * (rows i).value v' j) F (𝓝 (R v v'))
  clusters : ∀ v v', Tendsto (fun i => clusterProducts (ids i) ((rows i).value v) ((rows i).value v')) F (𝓝 (K v v'))

/-- Limits of covariances of moments. -/
def limitCovariances (R K : Term c p → Term c p → ℝ) : CovarianceType → Matrix c c ℝ
  | .unadjusted => Matrix.of fun a b => (R (.error a) (.error b) - R (.error a) .one * R (.error b) .one) * R (.instrument a) (.instrument b)
  | .robust => Matrix.of fun a b => R (.moment a) (.moment b)
  | .clustered => Matrix.of fun a b => K (.moment a) (.moment b)

variable {N : I → ℕ} {rows : ∀ i, Rows (Fin (N i)) c p} {ids : ∀ i, Fin (N i) → ι} {R K : Term c p → Term c p → ℝ}

/-- Errors for estimates that differ from the truth by `d`. -/
def Rows.residual {R : Type} (r : Rows R c p) (d : p → ℝ) (a : c) (j : R) : ℝ := r.error a j - ∑ l, d l * r.regressor a l j

/-- Terms that a moment at estimates is a combination of. -/
def momentTerm (a : c) : Option (Option p) → Term c p
  | none => .moment a
  | some none => .one
  | some (some l) => .slope a l

/-- What they are multiplied by. -/
def momentCoefficient (d : p → ℝ) (e : ℝ) : Option (Option p) → ℝ
  | none => 1
  | some none => -e
  | some (some l) => -d l

/-- Terms that an error at estimates is a combination of. -/
def errorTerm (a : c) : Option p → Term c p
  | none => .error a
  | some l => .regressor a l

/-- What they are multiplied by. -/
def errorCoefficient (d : p → ℝ) : Option p → ℝ
  | none => 1
  | some l => -d l

lemma moment_eq {R : Type} (r : Rows R c p) (d : p → ℝ) (e : ℝ) (a : c) (j : R) :
    r.residual d a j * r.instrument a j - e = ∑ s, momentCoefficient d e s * r.value (momentTerm a s) j := by
  rw [Fintype.sum_option, Fintype.sum_option]
  simp only [momentCoefficient, momentTerm, Rows.value, Rows.residual, neg_mul, Finset.sum_neg_distrib]
  rw [sub_mul, Finset.sum_mul]
  simp only [mul_assoc]
  ring

lemma error_eq {R : Type} (r : Rows R c p) (d : p → ℝ) (a : c) (j : R) :
    r.residual d a j = ∑ s, errorCoefficient d s * r.value (errorTerm a s) j := by
  rw [Fintype.sum_option]
  simp only [errorCoefficient, errorTerm, Rows.value, Rows.residual, neg_mul, Finset.sum_neg_distrib]
  ring

lemma tendsto_momentCoefficient {d : I → p → ℝ} {e : I → ℝ} (hd : Tendsto d F (𝓝 0)) (he : Tendsto e F (𝓝 0)) (s : Option (Option p)) :
    Tendsto (fun i => momentCoefficient (d i) (e i) s) F (𝓝 (if s = none then 1 else 0)) := by
  rcases s with _ | _ | l
  · exact tendsto_const_nhds
  · simpa [momentCoefficient] using he.neg
  · have := (tendsto_pi_nhds.mp hd l).neg
    simpa [momentCoefficient] using this

lemma tendsto_errorCoefficient {d : I → p → ℝ} (hd : Tendsto d F (𝓝 0)) (s : Option p) :
    Tendsto (fun i => errorCoefficient (d i) s) F (𝓝 (if s = none then 1 else 0)) := by
  rcases s with _ | l
  · exact tendsto_const_nhds
  · have := (tendsto_pi_nhds.mp hd l).neg
    simpa [errorCoefficient] using this

/-- Combinations of terms have limits of which only first terms remain. -/
lemma tendsto_combination {S S' : Type} [Fintype S] [Fintype S'] [DecidableEq S] [DecidableEq S'] {a : I → S → ℝ} {a' : I → S' → ℝ}
    {f : I → S → S' → ℝ} {L : S → S' → ℝ} (s : S) (s' : S') (ha : ∀ x, Tendsto (fun i => a i x) F (𝓝 (if x = s then 1 else 0)))
    (ha' : ∀ x, Tendsto (fun i => a' i x) F (𝓝 (if x = s' then 1 else 0))) (hf : ∀ x x', Tendsto (fun i => f i x x') F (𝓝 (L x x'))) :
    Tendsto (fun i => ∑ x, ∑ x', a i x * a' i x' * f i x x') F (𝓝 (L s s')) := by
  have h : Tendsto (fun i => ∑ x, ∑ x', a i x * a' i x' * f i x x') F
      (𝓝 (∑ x, ∑ x', (if x = s then 1 else 0) * (if x' = s' then 1 else 0) * L x x')) :=
    tendsto_finsetSum _ fun x _ => tendsto_finsetSum _ fun x' _ => ((ha x).mul (ha' x')).mul (hf x x')
  have e : ∑ x, ∑ x', (if x = s then (1 : ℝ) else 0) * (if x' = s' then 1 else 0) * L x x' = L s s' := by
    rw [Finset.sum_eq_single s (fun x _ hx => by simp [hx]) (by simp), Finset.sum_eq_single s' (fun x _ hx => by simp [hx]) (by simp)]
    simp
  rwa [e] at h

/-- Averages of moments at estimates converge to those at the truth. -/
lemma tendsto_moment (h : Limits F rows ids R K) {d : I → p → ℝ} (hd : Tendsto d F (𝓝 0)) (a : c) :
    Tendsto (fun i => Spec.overProducts fun j => (rows i).residual (d i) a j * (rows i).instrument a j) F (𝓝 (R (.moment a) .one)) := by
  have e : ∀ i, (Spec.overProducts fun j => (rows i).residual (d i) a j * (rows i).instrument a j) =
      ∑ s, ∑ s' : Unit, momentCoefficient (d i) 0 s * 1 * Spec.overProducts fun j => (rows i).value (momentTerm a s) j * (rows i).value .one j := by
    intro i
    have h1 := clusterProducts_sum (ι := Fin (N i)) id (momentCoefficient (d i) 0) (fun s => (rows i).value (momentTerm a s))
      (fun _ : Unit => 1) (fun _ => (rows i).value .one)
    simp only [clusterProducts_id] at h1
    rw [← h1]
    congr 1
    funext j
    rw [← moment_eq]
    simp [Rows.value]
  simp only [e]
  exact tendsto_combination (L := fun s _ => R (momentTerm a s) .one) none () (tendsto_momentCoefficient hd tendsto_const_nhds)
    (fun _ => by simpa using tendsto_const_nhds) fun s _ => h.averages _ _

/-- Covariances of moments at estimates converge to those at the truth. -/
lemma tendsto_covariances (h : Limits F rows ids R K) (hmean : ∀ a, R (.moment a) .one = 0) {d : I → p → ℝ} (hd : Tendsto d F (𝓝 0))
    (type : CovarianceType) (center : Bool) :
    Tendsto (fun i => Spec.typedCovariances type (ids i) center ((rows i).residual (d i)) (rows i).instrument) F
      (𝓝 (limitCovariances R K type)) := by
  set e : I → c → ℝ := fun i a => if center then Spec.overProducts (fun j => (rows i).residual (d i) a j * (rows i).instrument a j) else 0 with he
  have hcenter : ∀ a, Tendsto (fun i => e i a) F (𝓝 0) := by
    intro a
    cases center
    · exact tendsto_const_nhds
    · have := tendsto_moment h hd a
      rw [hmean] at this
      exact this
  rw [tendsto_matrix]
  intro a b
  cases type with
  | unadjusted =>
    have hprod : ∀ (v v' : c), Tendsto (fun i => Spec.overProducts fun j => (rows i).residual (d i) v j * (rows i).residual (d i) v' j) F
        (𝓝 (R (.error v) (.error v'))) := by
      intro v v'
      have e1 : ∀ i, (Spec.overProducts fun j => (rows i).residual (d i) v j * (rows i).residual (d i) v' j) =
          ∑ s, ∑ s', errorCoefficient (d i) s * errorCoefficient (d i) s' *
            Spec.overProducts fun j => (rows i).value (errorTerm v s) j * (rows i).value (errorTerm v' s') j := by
        intro i
        have h1 := clusterProducts_sum (ι := Fin (N i)) id (errorCoefficient (d i)) (fun s => (rows i).value (errorTerm v s))
          (errorCoefficient (d i)) (fun s => (rows i).value (errorTerm v' s))
        simp only [clusterProducts_id] at h1
        rw [← h1]
        congr 1
        funext j
        rw [← error_eq, ← error_eq]
      simp only [e1]
      exact tendsto_combination (L := fun s s' => R (errorTerm v s) (errorTerm v' s')) none none (tendsto_errorCoefficient hd)
        (tendsto_errorCoefficient hd) fun s s' => h.averages _ _
    have hone : ∀ v : c, Tendsto (fun i => Spec.overProducts ((rows i).residual (d i) v)) F (𝓝 (R (.error v) .one)) := by
      intro v
      have e1 : ∀ i, Spec.overProducts ((rows i).residual (d i) v) =
          ∑ s, ∑ s' : Unit, errorCoefficient (d i) s * 1 * Spec.overProducts fun j => (rows i).value (errorTerm v s) j * (rows i).value .one j := by
        intro i
        have h1 := clusterProducts_sum (ι := Fin (N i)) id (errorCoefficient (d i)) (fun s => (rows i).value (errorTerm v s))
          (fun _ : Unit => 1) (fun _ => (rows i).value .one)
        simp only [clusterProducts_id] at h1
        rw [← h1]
        congr 1
        funext j
        rw [← error_eq]
        simp [Rows.value]
      simp only [e1]
      exact tendsto_combination (L := fun s _ => R (errorTerm v s) .one) none () (tendsto_errorCoefficient hd)
        (fun _ => by simpa using tendsto_const_nhds) fun s _ => h.averages _ _
    exact ((hprod a b).sub ((hone a).mul (hone b))).mul (h.averages (.instrument a) (.instrument b))
  | robust =>
    have e1 : ∀ i, Spec.typedCovariances .robust (ids i) center ((rows i).residual (d i)) (rows i).instrument a b =
        ∑ s, ∑ s', momentCoefficient (d i) (e i a) s * momentCoefficient (d i) (e i b) s' *
          Spec.overProducts fun j => (rows i).value (momentTerm a s) j * (rows i).value (momentTerm b s') j := by
      intro i
      have h1 := clusterProducts_sum (ι := Fin (N i)) id (momentCoefficient (d i) (e i a)) (fun s => (rows i).value (momentTerm a s))
        (momentCoefficient (d i) (e i b)) (fun s => (rows i).value (momentTerm b s))
      simp only [clusterProducts_id] at h1
      rw [← h1]
      change Spec.overProducts _ = Spec.overProducts _
      congr 1
      funext j
      rw [← moment_eq, ← moment_eq]
    simp only [e1]
    exact tendsto_combination (L := fun s s' => R (momentTerm a s) (momentTerm b s')) none none (tendsto_momentCoefficient hd (hcenter a))
      (tendsto_momentCoefficient hd (hcenter b)) fun s s' => h.averages _ _
  | clustered =>
    have e1 : ∀ i, Spec.typedCovariances .clustered (ids i) center ((rows i).residual (d i)) (rows i).instrument a b =
        ∑ s, ∑ s', momentCoefficient (d i) (e i a) s * momentCoefficient (d i) (e i b) s' *
          clusterProducts (ids i) ((rows i).value (momentTerm a s)) ((rows i).value (momentTerm b s')) := by
      intro i
      rw [← clusterProducts_sum]
      simp only [← moment_eq]
      rfl
    simp only [e1]
    exact tendsto_combination (L := fun s s' => K (momentTerm a s) (momentTerm b s')) none none (tendsto_momentCoefficient hd (hcenter a))
      (tendsto_momentCoefficient hd (hcenter b)) fun s s' => h.clusters _ _

end Pyblp.Asymptotic
