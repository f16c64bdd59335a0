import Verif.Lemmas.HaltonSpread
import Verif.Lemmas.BoxAverages
import Verif.Lemmas.NormalQuantile
import Verif.Props.BootstrapOutputs
import Verif.Model.QuasiRandom

/-!
# C139: Halton nodes are evenly spread in all dimensions at once, and averages over them approximate normal expectations
-/

set_option linter.unusedSectionVars false

open MeasureTheory ProbabilityTheory

namespace Pyblp

lemma haltonMany_range {ι : Type} (discard size count : ℕ) (ids : List ι) : ∀ r ∈ haltonMany discard size count ids, ∃ start, r.2 = List.range' start size := by
  induction ids generalizing count with
  | nil => intro r hr; cases hr
  | cons i ids ih =>
    intro r hr
    rw [haltonMany, List.mem_cons] at hr
    rcases hr with rfl | hr
    · exact ⟨_, rfl⟩
    · exact ih _ r hr

lemma filter_range' (start size : ℕ) (p : ℕ → Prop) [DecidablePred p] :
    ((List.range' start size).filter fun i => decide (p i)).length = ((Finset.Ico start (start + size)).filter p).card := by
  have h1 : (Finset.Ico start (start + size)) = (List.range' start size).toFinset := by
    ext i
    simp [List.mem_range'_1]
  rw [h1, ← List.toFinset_card_of_nodup (List.Nodup.filter _ List.nodup_range'), List.toFinset_filter]
  simp

lemma sum_range' (start size : ℕ) (f : ℕ → ℝ) : ((List.range' start size).map f).sum = ∑ i ∈ Finset.Ico start (start + size), f i := by
  have h1 : (Finset.Ico start (start + size)) = (List.range' start size).toFinset := by
    ext i
    simp [List.mem_range'_1]
  rw [h1, List.sum_toFinset _ List.nodup_range']

section
variable {ι : Type} {d : ℕ} {base : Fin d → ℕ} {permutations : Fin d → ℕ → ℕ → ℕ} {k : Fin d → ℕ}

open Classical in
/-- **C139.** Cut each dimension of the cube into as many intervals of the same length as a power of the dimension's prime, for any powers below `2 ^ 54`. For
each market, whatever is discarded, however many markets come before it, and whatever permutations scramble digits, the number of points in each of the boxes
that result is the market's number of points divided by the number of boxes, up to less than one point. -/
theorem C139_boxes (hbase : ∀ j : Fin d, getPrime j = .ok (base j)) (hp : ∀ j k, ∀ x < base j, permutations j k x < base j)
    (hinj : ∀ j k, ∀ x < base j, ∀ y < base j, permutations j k x = permutations j k y → x = y) (hk : ∀ j, base j ^ k j < 2 ^ 54)
    (discard size : ℕ) (ids : List ι) {r : ι × List ℕ} (hr : r ∈ haltonMany discard size 0 ids) (a : ∀ j, Fin (base j ^ k j)) :
    |((r.2.filter fun i => decide ((fun j => haltonValue (base j) (permutations j) i) ∈ Spec.box (fun j => base j ^ k j) fun j => (a j : ℕ))).length : ℝ) -
      size / ∏ j, ((base j ^ k j : ℕ) : ℝ)| < 1 := by
  obtain ⟨start, hs⟩ := haltonMany_range _ _ _ _ r hr
  obtain ⟨c, hc⟩ := exists_joint_remainder hbase hp hinj hk (a := fun j => (a j : ℕ)) fun j => (a j).2
  have hM : 0 < ∏ j, base j ^ k j := Finset.prod_pos fun j _ => Nat.pow_pos ((base_coprime hbase).1 j).pos
  rw [hs, filter_range']
  simp only [hc]
  have h := count_remainder hM start size c
  push_cast at h ⊢
  convert h using 3

/-- **C139.** The average of a function over a market's Halton nodes, weighted by integration weights, is the function's expected value with independent
standard normal variables, up to an error that is bounded by how much the function varies within boxes of the cube and by the number of boxes relative to the
number of nodes. This holds for any cut of the cube into boxes that is described above. -/
theorem C139_integrals {ppf : ℝ → ℝ} (hppf : Spec.NormalQuantile ppf) (hbase : ∀ j : Fin d, getPrime j = .ok (base j))
    (hp : ∀ j k, ∀ x < base j, permutations j k x < base j)
    (hinj : ∀ j k, ∀ x < base j, ∀ y < base j, permutations j k x = permutations j k y → x = y) (hk : ∀ j, base j ^ k j < 2 ^ 54)
    (discard : ℕ) {size : ℕ} (hsize : 0 < size) (ids : List ι) {r : ι × List ℕ} (hr : r ∈ haltonMany discard size 0 ids)
    {g : (Fin d → ℝ) → ℝ} (hg : Measurable g) {B : ℝ} (hB : ∀ ν, |g ν| ≤ B) {variation : (∀ j, Fin (base j ^ k j)) → ℝ}
    (hv : ∀ a, ∀ y ∈ Spec.box (fun j => base j ^ k j) (fun j => (a j : ℕ)), ∀ z ∈ Spec.box (fun j => base j ^ k j) (fun j => (a j : ℕ)),
      |g (fun j => ppf (y j)) - g (fun j => ppf (z j))| ≤ variation a) :
    |(r.2.map fun i => equalWeight size * g (haltonNode ppf base permutations i)).sum - ∫ ν, g ν ∂(Spec.normalNodes d)| ≤
      (1 / ∏ j, ((base j ^ k j : ℕ) : ℝ) + 1 / size) * ∑ a, variation a + B * (∏ j, ((base j ^ k j : ℕ) : ℝ)) / size := by
  classical
  have hboxes := C139_boxes hbase hp hinj hk discard size ids hr
  obtain ⟨start, hs⟩ := haltonMany_range _ _ _ _ r hr
  have hcard : (Finset.Ico start (start + size)).card = size := by simp
  obtain ⟨hprime, -⟩ := base_coprime hbase
  have hmap := map_quantiles (d := d) hppf
  have hint : ∫ ν, g ν ∂(Spec.normalNodes d) = ∫ y, g (fun j => ppf (y j)) ∂(Spec.uniformCube d) := by
    rw [← hmap.2, integral_map hmap.1 hg.aestronglyMeasurable]
  have hcube : ∀ i, ∀ j, 0 ≤ haltonValue (base j) (permutations j) i ∧ haltonValue (base j) (permutations j) i < 1 := by
    intro i j
    exact C60_unit_interval (base j) (hprime j).two_le (permutations j) (hp j) i
  have h := box_average (m := fun j => base j ^ k j) (fun j => Nat.pow_pos (hprime j).pos) (S := Finset.Ico start (start + size)) (by rw [hcard]; exact hsize)
    (x := fun i j => haltonValue (base j) (permutations j) i) (fun i _ => hcube i)
    (fun a => by
      have := hboxes a
      rw [hs, filter_range'] at this
      rw [hcard]
      convert this using 3)
    (f := fun y => g (fun j => ppf (y j))) (hg.aestronglyMeasurable.comp_aemeasurable hmap.1) (B := B) (fun y _ => hB _) hv
  rw [hcard] at h
  rw [hs, sum_range', hint]
  exact h

end

/-- A case that meets the hypotheses: the share of nodes, for the second of two markets, that are negative in the first of two dimensions is one half, up to an
error of at most two nodes. -/
example : ∃ ppf, Spec.NormalQuantile ppf ∧
    |((List.range' 1050 50).map fun i => equalWeight 50 * if haltonNode ppf ![2, 3] (fun _ _ x => x) i 0 < 0 then (1 : ℝ) else 0).sum -
      ∫ ν, (if ν 0 < 0 then (1 : ℝ) else 0) ∂(Spec.normalNodes 2)| ≤ 2 / 50 := by
  classical
  obtain ⟨q, hq⟩ := exists_quantile
  have hppf : Spec.NormalQuantile (fun u => if u = 0 then -1 else q u) := by
    intro u h0 h1
    simp only [h0.ne', if_false]
    exact hq u h0 h1
  refine ⟨_, hppf, ?_⟩
  have hr : (true, List.range' 1050 50) ∈ haltonMany 1000 50 0 [false, true] := by
    simp [haltonMany, haltonIndices]
  have hneg : ∀ u : ℝ, 0 ≤ u → u < 1 → ((if u = 0 then -1 else q u) < 0 ↔ u < 1 / 2) := by
    intro u h0 h1
    rcases h0.eq_or_lt with rfl | h0
    · simp
    · rw [if_neg h0.ne', ← not_le, ← not_le, not_iff_not]
      have e : Bootstrapping.phi (q u) = u := hq u h0 h1
      conv_rhs => rw [← e, ← phi_zero]
      exact strictMono_phi.le_iff_le.symm
  have h := C139_integrals (d := 2) (base := ![2, 3]) (permutations := fun _ _ x => x) (k := ![1, 0]) hppf
    (by intro j; fin_cases j <;> rfl) (fun _ _ _ h => h) (fun _ _ _ _ _ _ h => h) (by intro j; fin_cases j <;> simp) 1000 (size := 50) (by norm_num)
    [false, true] hr (g := fun ν => if ν 0 < 0 then (1 : ℝ) else 0)
    (Measurable.ite (measurableSet_lt (measurable_pi_apply 0) measurable_const) measurable_const measurable_const) (B := 1)
    (fun ν => by split_ifs <;> simp) (variation := fun _ => 0) (by
      intro a y hy z hz
      have hy0 := hy 0
      have hz0 := hz 0
      have ha : ((a 0 : ℕ)) < 2 := by
        have := (a 0).2
        simpa using this
      simp only [Matrix.cons_val_zero, pow_one, Nat.cast_ofNat] at hy0 hz0
      have hy1 : 0 ≤ y 0 ∧ y 0 < 1 := by
        have h2 : ((a 0 : ℕ) : ℝ) + 1 ≤ 2 := by exact_mod_cast ha
        have h3 : (0 : ℝ) ≤ (a 0 : ℕ) := Nat.cast_nonneg _
        constructor <;> linarith [hy0.1, hy0.2]
      have hz1 : 0 ≤ z 0 ∧ z 0 < 1 := by
        have h2 : ((a 0 : ℕ) : ℝ) + 1 ≤ 2 := by exact_mod_cast ha
        have h3 : (0 : ℝ) ≤ (a 0 : ℕ) := Nat.cast_nonneg _
        constructor <;> linarith [hz0.1, hz0.2]
      have hiff : y 0 < 1 / 2 ↔ z 0 < 1 / 2 := by
        rcases (show (a 0 : ℕ) = 0 ∨ (a 0 : ℕ) = 1 by omega) with e | e <;> rw [e] at hy0 hz0 <;> norm_num at hy0 hz0 ⊢ <;> constructor <;> intro _ <;> linarith
      simp only [hneg _ hy1.1 hy1.2, hneg _ hz1.1 hz1.2, hiff, sub_self, abs_zero, le_refl])
  refine h.trans (le_of_eq ?_)
  simp [Fin.prod_univ_two]

end Pyblp
