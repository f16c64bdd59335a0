import Verif.Model.Scores
import Verif.Props.Micro

/-!
# Micro scores with agents split into chunks: C87

Numerators and denominators of probabilities, and derivatives of numerators, do not depend on the number of chunks. (Derivatives of
denominators do, `C56_denominator_refuted`.)
-/

set_option linter.unusedSectionVars false

namespace Pyblp

open Classical

variable {A S C D P Q : Type}

/-- Contributions of some agents when the user's functions work row by row. -/
theorem datasetContributions_rows {m : MicroMarket A S C D Q} {u : MicroFunctions A S C D P} {dataset : P → D} {shape : D → S}
    {weight : D → A → C → ℝ} {value : P → A → C → ℝ} (hu : Spec.RowByRow m u dataset shape weight value) (d : D) (indices : List ℕ)
    (hi : ∀ i ∈ indices, i < m.I) :
    ∃ x, datasetContributions m u d indices = .ok x ∧ x.shape = shape d ∧
      x.weights = indices.map (Spec.cellWeight m weight d) ∧
      (∀ q, x.tangents q = indices.map (Spec.cellTangent m weight d q)) ∧
      x.denominator = (indices.map fun i => ∑ c ∈ m.cells (shape d), Spec.cellWeight m weight d i c).sum := by
  have hw : computeMicroWeights m u d indices = .ok ⟨shape d, (indices.map m.row).map (weight d)⟩ := by
    unfold computeMicroWeights
    rw [hu.weights]
    dsimp only
    rw [if_neg (by simp), if_neg]
    rintro ⟨r, hr, c, hc, hlt⟩
    rw [List.map_map, List.mem_map] at hr
    obtain ⟨i, him, rfl⟩ := hr
    exact absurd (hu.nonneg d i (hi i him) c hc) (not_le.2 hlt)
  unfold datasetContributions
  rw [hw]
  refine ⟨_, rfl, rfl, ?_, fun q => ?_, ?_⟩
  · simp only [List.map_map, Function.comp_def, zipWith_self_map]
    rfl
  · simp only [List.map_map, Function.comp_def, zipWith_self_map]
    rfl
  · simp only [List.map_map, Function.comp_def, zipWith_self_map, sumRows_map]
    rfl

theorem loopScore_sums {X : Type} (f : List X → Except PyErr (ℝ × (Q → ℝ))) (g : X → ℝ) (t : Q → X → ℝ) (chunks : List (List X))
    (h : ∀ c ∈ chunks, f c = .ok ((c.map g).sum, fun q => (c.map (t q)).sum)) (total : ℝ × (Q → ℝ)) :
    loopScore f total chunks = .ok (total.1 + (chunks.flatten.map g).sum, fun q => total.2 q + (chunks.flatten.map (t q)).sum) := by
  induction chunks generalizing total with
  | nil => simp [loopScore]
  | cons c chunks ih =>
    unfold loopScore
    rw [h c (by simp)]
    dsimp only
    rw [ih fun c' hc' => h c' (List.mem_cons_of_mem _ hc')]
    simp only [List.flatten_cons, List.map_append, List.sum_append, add_assoc]

theorem loopScore_first {X : Type} (f : List X → Except PyErr (ℝ × (Q → ℝ))) (g : X → ℝ) (chunks : List (List X))
    (h : ∀ c ∈ chunks, ∃ y, f c = .ok ((c.map g).sum, y)) (total : ℝ × (Q → ℝ)) :
    ∃ y, loopScore f total chunks = .ok (total.1 + (chunks.flatten.map g).sum, y) := by
  induction chunks generalizing total with
  | nil => exact ⟨total.2, by simp [loopScore]⟩
  | cons c chunks ih =>
    obtain ⟨y, hy⟩ := h c (by simp)
    unfold loopScore
    rw [hy]
    dsimp only
    obtain ⟨z, hz⟩ := ih (fun c' hc' => h c' (List.mem_cons_of_mem _ hc')) (total.1 + (c.map g).sum, fun q => total.2 q + y q)
    exact ⟨z, by rw [hz]; simp only [List.flatten_cons, List.map_append, List.sum_append, add_assoc]⟩

/-- **C87.** Whatever the number of chunks, the numerator of the probability of an observation whose choices select cell `c`, and its
derivatives, are sums over all agents over which it integrates. -/
theorem C87_chunks_numerator {J : ℕ} {m : MicroMarket A MicroShape (MicroCell (Fin J)) D Q}
    {u : MicroFunctions A MicroShape (MicroCell (Fin J)) D P} {dataset : P → D} {shape : D → MicroShape}
    {weight : D → A → MicroCell (Fin J) → ℝ} {value : P → A → MicroCell (Fin J) → ℝ}
    (hu : Spec.RowByRow m u dataset shape weight value) (d : D) (hd : m.included d = true) (j : ℤ) (k : Option ℤ)
    (c : MicroCell (Fin J)) (hc : selectCell (shape d) j k = .ok c) (chunks : ℤ) (h : 1 ≤ chunks) :
    scoreNumerator m u d j k chunks = .ok (∑ i ∈ Finset.range m.I, Spec.cellWeight m weight d i c,
      fun q => ∑ i ∈ Finset.range m.I, Spec.cellTangent m weight d q i c) := by
  obtain ⟨l, hl, hf⟩ := C56_partition m.I chunks h
  unfold scoreNumerator
  rw [hl]
  dsimp only
  rw [loopScore_sums _ (fun i => Spec.cellWeight m weight d i c) (fun q i => Spec.cellTangent m weight d q i c), hf]
  · simp only [sum_range_list, zero_add]
  · intro a ha
    obtain ⟨x, hx, hs, hw, ht, _⟩ := datasetContributions_rows hu d a (fun i hi => by
      have : i ∈ l.flatten := List.mem_flatten.2 ⟨a, ha, hi⟩
      rw [hf] at this
      exact List.mem_range.1 this)
    unfold numeratorChunk
    rw [if_pos hd, hx]
    dsimp only
    rw [hs, hc]
    dsimp only
    rw [hw]
    simp only [ht, List.map_map, Function.comp_def]

/-- **C87.** Whatever the number of chunks, what a market adds to the denominator of probabilities is the sum over all agents of the
market and all choices. -/
theorem C87_chunks_denominator {m : MicroMarket A S C D Q} {u : MicroFunctions A S C D P} {dataset : P → D} {shape : D → S}
    {weight : D → A → C → ℝ} {value : P → A → C → ℝ} (hu : Spec.RowByRow m u dataset shape weight value) (d : D)
    (hd : m.included d = true) (chunks : ℤ) (h : 1 ≤ chunks) :
    ∃ y, scoreDenominator m u d chunks = .ok (Spec.overMarket m (shape d) (Spec.cellWeight m weight d), y) := by
  obtain ⟨l, hl, hf⟩ := C56_partition m.I chunks h
  unfold scoreDenominator
  rw [hl]
  dsimp only
  obtain ⟨y, hy⟩ := loopScore_first (denominatorChunk m u d)
    (fun i => ∑ c ∈ m.cells (shape d), Spec.cellWeight m weight d i c) l (by
      intro a ha
      obtain ⟨x, hx, _, _, _, hden⟩ := datasetContributions_rows hu d a (fun i hi => by
        have : i ∈ l.flatten := List.mem_flatten.2 ⟨a, ha, hi⟩
        rw [hf] at this
        exact List.mem_range.1 this)
      refine ⟨x.denominatorTangent, ?_⟩
      unfold denominatorChunk
      rw [if_pos hd, hx]
      dsimp only
      rw [hden]) (0, fun _ => 0)
  refine ⟨y, ?_⟩
  rw [hy, hf, sum_range_list, zero_add]
  rfl

/-- Agents whose survey weights differ, split into two chunks: the sum is the one of C56's example. -/
example : ∃ y, scoreDenominator exampleMicro exampleFunctions () 2 = .ok (1 / 4, y) := by
  obtain ⟨y, hy⟩ := C87_chunks_denominator example_rowByRow () rfl 2 (by norm_num)
  refine ⟨y, hy.trans ?_⟩
  congr 2
  simp [Spec.overMarket, Spec.cellWeight, exampleMicro, Finset.sum_range_succ]

/-- Two agents with a choice between one product and the outside option. -/
noncomputable def chunkMicro : MicroMarket ℕ MicroShape (MicroCell (Fin 1)) Unit Unit where
  I := 2
  row := id
  cells := fun _ => {.first none, .first (some 0)}
  included := fun _ => true
  factor := fun _ i _ => if i = 0 then 1 / 4 else 1 / 3
  tangent := fun _ _ i _ => if i = 0 then 1 / 2 else -1 / 3
  flat := fun _ _ => true

/-- Their survey weights, which are all one. -/
noncomputable def chunkFunctions : MicroFunctions ℕ MicroShape (MicroCell (Fin 1)) Unit Unit where
  weights := fun _ l => some ⟨.first true, l.map fun _ _ => 1⟩
  values := fun _ l => some ⟨.first true, l.map fun _ _ => 0⟩

theorem chunk_rowByRow : Spec.RowByRow chunkMicro chunkFunctions (fun _ => ()) (fun _ => .first true) (fun _ _ _ => 1)
    (fun _ _ _ => 0) where
  weights := fun _ _ => rfl
  values := fun _ _ => rfl
  nonneg := fun _ _ _ _ _ => zero_le_one

/-- An observation of the product, for which agents are split into two chunks. -/
example : ∃ y, scoreNumerator chunkMicro chunkFunctions () 1 none 2 = .ok y ∧ y.1 = 7 / 12 ∧ y.2 () = 1 / 6 := by
  refine ⟨_, C87_chunks_numerator chunk_rowByRow () rfl 1 none (.first (some 0)) rfl 2 (by norm_num), ?_, ?_⟩
  · simp [Spec.cellWeight, chunkMicro, Finset.sum_range_succ]
    norm_num
  · simp [Spec.cellTangent, chunkMicro, Finset.sum_range_succ]
    norm_num

end Pyblp
