import Verif.Model.Micro
import Mathlib.Algebra.BigOperators.Group.List.Basic
import Mathlib.Data.List.Basic
import Mathlib.Data.Int.Notation

/-!
# Micro computations in chunks: C56
-/

set_option linter.unusedSectionVars false

namespace Pyblp

open Classical

variable {A S C D P Q : Type}

/-! ## Specification -/

namespace Spec

/-- A user's functions work row by row: the row they return for an agent depends only on that agent. All parts of a dataset have
arrays of the shape of its weights, and weights are not negative. -/
structure RowByRow (m : MicroMarket A S C D Q) (u : MicroFunctions A S C D P) (dataset : P → D) (shape : D → S)
    (weight : D → A → C → ℝ) (value : P → A → C → ℝ) : Prop where
  weights : ∀ d l, u.weights d l = some ⟨shape d, l.map (weight d)⟩
  values : ∀ p l, u.values p l = some ⟨shape (dataset p), l.map (value p)⟩
  nonneg : ∀ d i, i < m.I → ∀ c ∈ m.cells (shape d), 0 ≤ weight d (m.row i) c

/-- A sum over all agents of a market and all cells of an array. -/
noncomputable def overMarket (m : MicroMarket A S C D Q) (s : S) (f : ℕ → C → ℝ) : ℝ := ∑ i ∈ Finset.range m.I, ∑ c ∈ m.cells s, f i c

/-- How much a cell counts: the survey weight times the integration weight and choice probabilities, but at least zero. -/
noncomputable def cellWeight (m : MicroMarket A S C D Q) (weight : D → A → C → ℝ) (d : D) (i : ℕ) (c : C) : ℝ :=
  max (weight d (m.row i) c * m.factor d i c) 0

/-- The derivative of how much a cell counts. -/
def cellTangent (m : MicroMarket A S C D Q) (weight : D → A → C → ℝ) (d : D) (q : Q) (i : ℕ) (c : C) : ℝ :=
  weight d (m.row i) c * m.tangent d q i c

end Spec

/-! ## Chunks -/

theorem cut_flatten {α : Type} (sizes : List ℕ) (l : List α) (h : l.length ≤ sizes.sum) : (cut sizes l).flatten = l := by
  induction sizes generalizing l with
  | nil =>
    rw [List.sum_nil] at h
    rw [List.length_eq_zero_iff.1 (Nat.le_zero.1 h)]
    rfl
  | cons s sizes ih =>
    rw [List.sum_cons] at h
    unfold cut
    rw [List.flatten_cons, ih _ (by rw [List.length_drop]; omega), List.take_append_drop]

theorem splitSizes_sum (N n : ℕ) (hn : 0 < n) : (splitSizes N n).sum = N := by
  unfold splitSizes
  rw [List.sum_append, List.sum_replicate, List.sum_replicate, smul_eq_mul, smul_eq_mul]
  have h1 := Nat.mod_lt N hn
  have h2 := Nat.div_add_mod N n
  obtain ⟨k, hk⟩ : ∃ k, n = N % n + k := ⟨n - N % n, by omega⟩
  have h3 : n - N % n = k := by omega
  rw [h3]
  have h4 : n * (N / n) = (N % n) * (N / n) + k * (N / n) := by
    conv_lhs => rw [hk]
    rw [add_mul, ← hk]
  rw [mul_add, mul_one]
  omega

theorem flatten_filter_nonempty {α : Type} (l : List (List α)) : (l.filter fun c => decide (c ≠ [])).flatten = l.flatten := by
  induction l with
  | nil => rfl
  | cons a l ih =>
    by_cases h : a = []
    · rw [List.filter_cons_of_neg (by simp [h]), ih, h]
      rfl
    · rw [List.filter_cons_of_pos (by simp [h]), List.flatten_cons, ih, List.flatten_cons]

/-- **C56.** Chunks go through all agents once, in order. -/
theorem C56_partition (I : ℕ) (chunks : ℤ) (h : 1 ≤ chunks) : ∃ l, generateChunks I chunks = .ok l ∧ l.flatten = List.range I := by
  unfold generateChunks
  rw [if_neg (not_lt.2 h)]
  by_cases h1 : chunks > 1
  · rw [if_pos h1]
    refine ⟨_, rfl, ?_⟩
    rw [flatten_filter_nonempty]
    unfold arraySplit
    exact cut_flatten _ _ (by rw [splitSizes_sum _ _ (by omega)])
  · rw [if_neg h1]
    exact ⟨_, rfl, by simp⟩

/-! ## Rows -/

theorem mulRows_map {α : Type} (l : List α) (a b : α → C → ℝ) : mulRows (l.map a) (l.map b) = l.map fun i c => a i c * b i c := by
  unfold mulRows
  induction l with
  | nil => rfl
  | cons x l ih => rw [List.map_cons, List.map_cons, List.zipWith_cons_cons, ih, List.map_cons]

theorem zipWith_self_map {α β γ : Type} (l : List α) (f : α → β → γ) (r : α → β) :
    List.zipWith f l (l.map r) = l.map fun i => f i (r i) := by
  induction l with
  | nil => rfl
  | cons x l ih => rw [List.map_cons, List.zipWith_cons_cons, ih, List.map_cons]

theorem sumRows_map {α : Type} (cells : Finset C) (l : List α) (f : α → C → ℝ) :
    sumRows cells (l.map f) = (l.map fun i => ∑ c ∈ cells, f i c).sum := by
  unfold sumRows
  rw [List.map_map]
  rfl

theorem otherValues_eq {m : MicroMarket A S C D Q} {u : MicroFunctions A S C D P} {dataset : P → D} {shape : D → S}
    {weight : D → A → C → ℝ} {value : P → A → C → ℝ} (hu : Spec.RowByRow m u dataset shape weight value) (indices : List ℕ) (d : D)
    (earlier : List P) : otherValues m u dataset (shape d) indices d earlier =
      .ok ((earlier.filter fun p2 => decide (dataset p2 = d)).map fun p2 => (p2, indices.map fun i => value p2 (m.row i))) := by
  induction earlier with
  | nil => rfl
  | cons p2 rest ih =>
    unfold otherValues
    by_cases h : dataset p2 = d
    · have hv : computeMicroValues m u p2 (shape d) indices = .ok ⟨shape d, (indices.map m.row).map (value p2)⟩ := by
        unfold computeMicroValues
        rw [hu.values]
        dsimp only
        rw [h, if_neg]
        simp
      rw [if_pos h, hv]
      dsimp only
      rw [ih, List.filter_cons_of_pos (by simp [h]), List.map_cons, List.map_map]
      rfl
    · rw [if_neg h, ih, List.filter_cons_of_neg (by simp [h])]

/-- What a chunk adds if the user's functions work row by row. -/
noncomputable def rowContribution (m : MicroMarket A S C D Q) (dataset : P → D) (shape : D → S) (weight : D → A → C → ℝ)
    (value : P → A → C → ℝ) (earlier : List P) (p : P) (indices : List ℕ) (w : UserArray S C) : PartContribution P Q :=
  let d := dataset p
  { numerator := (indices.map fun i => ∑ c ∈ m.cells (shape d), Spec.cellWeight m weight d i c * value p (m.row i) c).sum
    denominator := (indices.map fun i => ∑ c ∈ m.cells (shape d), Spec.cellWeight m weight d i c).sum
    numeratorJacobian := fun q =>
      (indices.map fun i => ∑ c ∈ m.cells (shape d), Spec.cellTangent m weight d q i c * value p (m.row i) c).sum
    denominatorJacobian := fun q => if constantDenominator m w then 0 else
      (indices.map fun i => ∑ c ∈ m.cells (shape d), Spec.cellTangent m weight d q i c).sum
    covariances := fun p2 => ((earlier.filter fun p' => decide (dataset p' = d)).filter fun p' => decide (p' = p2)).map (fun p' =>
      (indices.map fun i => ∑ c ∈ m.cells (shape d), Spec.cellWeight m weight d i c * value p (m.row i) c * value p' (m.row i) c).sum)
      |>.sum }

theorem partContribution_eq {m : MicroMarket A S C D Q} {u : MicroFunctions A S C D P} {dataset : P → D} {shape : D → S}
    {weight : D → A → C → ℝ} {value : P → A → C → ℝ} (hu : Spec.RowByRow m u dataset shape weight value) (earlier : List P) (p : P)
    (hp : m.included (dataset p) = true) (indices : List ℕ) (hi : ∀ i ∈ indices, i < m.I) :
    partContribution m u dataset earlier p indices = .ok (rowContribution m dataset shape weight value earlier p indices
      ⟨shape (dataset p), (indices.map m.row).map (weight (dataset p))⟩) := by
  have hw : computeMicroWeights m u (dataset p) indices = .ok ⟨shape (dataset p), (indices.map m.row).map (weight (dataset p))⟩ := by
    unfold computeMicroWeights
    rw [hu.weights]
    dsimp only
    rw [if_neg (by simp), if_neg]
    rintro ⟨r, hr, c, hc, hlt⟩
    rw [List.map_map, List.mem_map] at hr
    obtain ⟨i, him, rfl⟩ := hr
    exact absurd (hu.nonneg (dataset p) i (hi i him) c hc) (not_le.2 hlt)
  have hv : computeMicroValues m u p (shape (dataset p)) indices = .ok ⟨shape (dataset p), (indices.map m.row).map (value p)⟩ := by
    unfold computeMicroValues
    rw [hu.values]
    dsimp only
    rw [if_neg]
    simp
  unfold partContribution
  rw [if_neg (by rw [hp]; simp)]
  unfold datasetContributions
  rw [hw]
  dsimp only
  rw [hv]
  dsimp only
  rw [otherValues_eq hu]
  dsimp only
  unfold rowContribution
  simp only [List.map_map, Function.comp_def, zipWith_self_map, mulRows_map, sumRows_map, List.filter_map]
  rfl

theorem loopChunks_eq {m : MicroMarket A S C D Q} {u : MicroFunctions A S C D P} {dataset : P → D} {earlier : List P} {p : P}
    (f : List ℕ → PartContribution P Q) (chunks : List (List ℕ)) (total : PartContribution P Q)
    (h : ∀ c ∈ chunks, partContribution m u dataset earlier p c = .ok (f c)) :
    loopChunks m u dataset earlier p total chunks = .ok (chunks.foldl (fun t c => t.add (f c)) total) := by
  induction chunks generalizing total with
  | nil => rfl
  | cons c chunks ih =>
    unfold loopChunks
    rw [h c (by simp)]
    exact ih _ fun c' hc' => h c' (List.mem_cons_of_mem _ hc')

theorem foldl_numerator (f : List ℕ → PartContribution P Q) (g : ℕ → ℝ) (h : ∀ c, (f c).numerator = (c.map g).sum)
    (chunks : List (List ℕ)) (total : PartContribution P Q) :
    (chunks.foldl (fun t c => t.add (f c)) total).numerator = total.numerator + (chunks.flatten.map g).sum := by
  induction chunks generalizing total with
  | nil => simp
  | cons c chunks ih =>
    rw [List.foldl_cons, ih, List.flatten_cons, List.map_append, List.sum_append, ← add_assoc]
    show total.numerator + (f c).numerator + _ = _
    rw [h]

theorem foldl_denominator (f : List ℕ → PartContribution P Q) (g : ℕ → ℝ) (h : ∀ c, (f c).denominator = (c.map g).sum)
    (chunks : List (List ℕ)) (total : PartContribution P Q) :
    (chunks.foldl (fun t c => t.add (f c)) total).denominator = total.denominator + (chunks.flatten.map g).sum := by
  induction chunks generalizing total with
  | nil => simp
  | cons c chunks ih =>
    rw [List.foldl_cons, ih, List.flatten_cons, List.map_append, List.sum_append, ← add_assoc]
    show total.denominator + (f c).denominator + _ = _
    rw [h]

theorem foldl_numeratorJacobian (f : List ℕ → PartContribution P Q) (q : Q) (g : ℕ → ℝ)
    (h : ∀ c, (f c).numeratorJacobian q = (c.map g).sum) (chunks : List (List ℕ)) (total : PartContribution P Q) :
    (chunks.foldl (fun t c => t.add (f c)) total).numeratorJacobian q = total.numeratorJacobian q + (chunks.flatten.map g).sum := by
  induction chunks generalizing total with
  | nil => simp
  | cons c chunks ih =>
    rw [List.foldl_cons, ih, List.flatten_cons, List.map_append, List.sum_append, ← add_assoc]
    show total.numeratorJacobian q + (f c).numeratorJacobian q + _ = _
    rw [h]

theorem foldl_denominatorJacobian (f : List ℕ → PartContribution P Q) (q : Q) (g : ℕ → ℝ) (chunks : List (List ℕ))
    (h : ∀ c ∈ chunks, (f c).denominatorJacobian q = (c.map g).sum) (total : PartContribution P Q) :
    (chunks.foldl (fun t c => t.add (f c)) total).denominatorJacobian q = total.denominatorJacobian q + (chunks.flatten.map g).sum := by
  induction chunks generalizing total with
  | nil => simp
  | cons c chunks ih =>
    rw [List.foldl_cons, ih (fun c' hc' => h c' (List.mem_cons_of_mem _ hc')), List.flatten_cons, List.map_append, List.sum_append,
      ← add_assoc]
    show total.denominatorJacobian q + (f c).denominatorJacobian q + _ = _
    rw [h c (by simp)]

theorem foldl_covariances (f : List ℕ → PartContribution P Q) (p2 : P) (g : ℕ → ℝ) (h : ∀ c, (f c).covariances p2 = (c.map g).sum)
    (chunks : List (List ℕ)) (total : PartContribution P Q) :
    (chunks.foldl (fun t c => t.add (f c)) total).covariances p2 = total.covariances p2 + (chunks.flatten.map g).sum := by
  induction chunks generalizing total with
  | nil => simp
  | cons c chunks ih =>
    rw [List.foldl_cons, ih, List.flatten_cons, List.map_append, List.sum_append, ← add_assoc]
    show total.covariances p2 + (f c).covariances p2 + _ = _
    rw [h]

theorem sum_range_list (n : ℕ) (g : ℕ → ℝ) : ((List.range n).map g).sum = ∑ i ∈ Finset.range n, g i := by
  rw [Finset.sum_range, ← List.sum_ofFn]
  congr 1
  rw [List.ofFn_eq_map, ← List.map_coe_finRange_eq_range, List.map_map]
  rfl

theorem microContributions_eq {m : MicroMarket A S C D Q} {u : MicroFunctions A S C D P} {dataset : P → D} {shape : D → S}
    {weight : D → A → C → ℝ} {value : P → A → C → ℝ} (hu : Spec.RowByRow m u dataset shape weight value) (earlier : List P) (p : P)
    (hp : m.included (dataset p) = true) (chunks : ℤ) (h : 1 ≤ chunks) : ∃ l, generateChunks m.I chunks = .ok l ∧
      l.flatten = List.range m.I ∧ microContributions m u dataset earlier p chunks = .ok (l.foldl (fun t c => t.add
        (rowContribution m dataset shape weight value earlier p c ⟨shape (dataset p), (c.map m.row).map (weight (dataset p))⟩))
        PartContribution.zero) := by
  obtain ⟨l, hl, hf⟩ := C56_partition m.I chunks h
  refine ⟨l, hl, hf, ?_⟩
  unfold microContributions
  rw [hl]
  dsimp only
  apply loopChunks_eq
  intro c hc
  apply partContribution_eq hu earlier p hp
  intro i hi
  have : i ∈ l.flatten := List.mem_flatten.2 ⟨c, hc, hi⟩
  rw [hf] at this
  exact List.mem_range.1 this

theorem filter_single {α : Type} (l : List α) (hn : l.Nodup) (a : α) (ha : a ∈ l) : l.filter (fun x => decide (x = a)) = [a] := by
  induction l with
  | nil => cases ha
  | cons x l ih =>
    rw [List.nodup_cons] at hn
    rcases List.mem_cons.1 ha with rfl | h
    · rw [List.filter_cons_of_pos (by simp)]
      congr 1
      rw [List.filter_eq_nil_iff]
      intro b hb
      rw [decide_eq_true_eq]
      rintro rfl
      exact hn.1 hb
    · rw [List.filter_cons_of_neg, ih hn.2 h]
      rw [decide_eq_true_eq]
      rintro rfl
      exact hn.1 h

/-! ## C56 -/

/-- **C56.** Whatever the number of chunks, contributions to numerators and denominators of parts, to Jacobians of numerators and to
numerators of covariances of a part with an earlier part of its dataset are sums over all agents of the market. They do not depend
on the number of chunks. -/
theorem C56_contributions_partial {m : MicroMarket A S C D Q} {u : MicroFunctions A S C D P} {dataset : P → D} {shape : D → S}
    {weight : D → A → C → ℝ} {value : P → A → C → ℝ} (hu : Spec.RowByRow m u dataset shape weight value) (earlier : List P)
    (hn : earlier.Nodup) (p : P) (hp : m.included (dataset p) = true) (chunks : ℤ) (h : 1 ≤ chunks) :
    ∃ x, microContributions m u dataset earlier p chunks = .ok x ∧
      x.numerator =
        Spec.overMarket m (shape (dataset p)) (fun i c => Spec.cellWeight m weight (dataset p) i c * value p (m.row i) c) ∧
      x.denominator = Spec.overMarket m (shape (dataset p)) (Spec.cellWeight m weight (dataset p)) ∧
      (∀ q, x.numeratorJacobian q =
        Spec.overMarket m (shape (dataset p)) (fun i c => Spec.cellTangent m weight (dataset p) q i c * value p (m.row i) c)) ∧
      ∀ p2, x.covariances p2 = if p2 ∈ earlier ∧ dataset p2 = dataset p then
        Spec.overMarket m (shape (dataset p))
          (fun i c => Spec.cellWeight m weight (dataset p) i c * value p (m.row i) c * value p2 (m.row i) c) else 0 := by
  obtain ⟨l, _, hf, hx⟩ := microContributions_eq hu earlier p hp chunks h
  refine ⟨_, hx, ?_, ?_, fun q => ?_, fun p2 => ?_⟩
  · rw [foldl_numerator _ _ (fun c => rfl), hf, sum_range_list]
    exact zero_add _
  · rw [foldl_denominator _ _ (fun c => rfl), hf, sum_range_list]
    exact zero_add _
  · rw [foldl_numeratorJacobian _ q _ (fun c => rfl), hf, sum_range_list]
    exact zero_add _
  · by_cases h2 : p2 ∈ earlier ∧ dataset p2 = dataset p
    · rw [if_pos h2, foldl_covariances _ p2 (fun i => ∑ c ∈ m.cells (shape (dataset p)),
        Spec.cellWeight m weight (dataset p) i c * value p (m.row i) c * value p2 (m.row i) c), hf, sum_range_list]
      · exact zero_add _
      · intro c
        have hfil : ((earlier.filter fun p' => decide (dataset p' = dataset p)).filter fun p' => decide (p' = p2)) = [p2] := by
          exact filter_single _ (hn.filter _) p2 (List.mem_filter.2 ⟨h2.1, by simp [h2.2]⟩)
        show ((((earlier.filter fun p' => decide (dataset p' = dataset p)).filter fun p' => decide (p' = p2)).map _).sum) = _
        rw [hfil]
        simp
    · rw [if_neg h2, foldl_covariances _ p2 (fun _ => 0)]
      · rw [hf]
        simp [PartContribution.zero]
      · intro c
        have hfil : ((earlier.filter fun p' => decide (dataset p' = dataset p)).filter fun p' => decide (p' = p2)) = [] := by
          rw [List.filter_eq_nil_iff]
          intro a ha
          rw [List.mem_filter, decide_eq_true_eq] at ha
          rw [decide_eq_true_eq]
          rintro rfl
          exact h2 ha
        show ((((earlier.filter fun p' => decide (dataset p' = dataset p)).filter fun p' => decide (p' = p2)).map _).sum) = _
        rw [hfil]
        simp

/-- **C56.** A number of chunks that is not positive is rejected with a `TypeError`. -/
theorem C56_invalid (m : MicroMarket A S C D Q) (u : MicroFunctions A S C D P) (dataset : P → D) (earlier : List P) (p : P)
    (chunks : ℤ) (h : chunks < 1) : microContributions m u dataset earlier p chunks = .error .typeError := by
  unfold microContributions generateChunks
  rw [if_pos h]

/-- **C56.** If all agents of a market have the same survey weights, which with second choices do not depend on the second choice, the
Jacobian of the denominator is set to zero for any number of chunks. -/
theorem C56_constant_denominator {m : MicroMarket A S C D Q} {u : MicroFunctions A S C D P} {dataset : P → D} {shape : D → S}
    {weight : D → A → C → ℝ} {value : P → A → C → ℝ} (hu : Spec.RowByRow m u dataset shape weight value) (earlier : List P) (p : P)
    (hp : m.included (dataset p) = true) (chunks : ℤ) (h : 1 ≤ chunks)
    (hsame : ∀ i < m.I, ∀ k < m.I, ∀ c ∈ m.cells (shape (dataset p)), weight (dataset p) (m.row i) c = weight (dataset p) (m.row k) c)
    (hflat : ∀ i < m.I, m.flat (shape (dataset p)) (weight (dataset p) (m.row i)) = true) :
    ∃ x, microContributions m u dataset earlier p chunks = .ok x ∧ ∀ q, x.denominatorJacobian q = 0 := by
  obtain ⟨l, _, hf, hx⟩ := microContributions_eq hu earlier p hp chunks h
  refine ⟨_, hx, fun q => ?_⟩
  rw [foldl_denominatorJacobian _ q (fun _ => 0)]
  · rw [hf]
    simp [PartContribution.zero]
  · intro c hc
    have hlt : ∀ i ∈ c, i < m.I := by
      intro i hi
      have : i ∈ l.flatten := List.mem_flatten.2 ⟨c, hc, hi⟩
      rw [hf] at this
      exact List.mem_range.1 this
    have hconst : constantDenominator m ⟨shape (dataset p), (c.map m.row).map (weight (dataset p))⟩ = true := by
      unfold constantDenominator
      rw [decide_eq_true_eq]
      constructor
      · intro r hr r0 hr0 x hx
        rw [List.map_map] at hr hr0
        obtain ⟨i, hi, rfl⟩ := List.mem_map.1 hr
        obtain ⟨k, hk, rfl⟩ := List.mem_map.1 (List.mem_of_mem_head? hr0)
        exact hsame i (hlt i hi) k (hlt k hk) x hx
      · intro r hr
        rw [List.map_map] at hr
        obtain ⟨i, hi, rfl⟩ := List.mem_map.1 hr
        exact hflat i (hlt i hi)
    show (if constantDenominator m _ then 0 else _) = _
    rw [if_pos hconst]
    simp

/-- **C56.** If no chunk consists of agents with the same survey weights, the Jacobian of the denominator is the sum over all agents. -/
theorem C56_varying_denominator {m : MicroMarket A S C D Q} {u : MicroFunctions A S C D P} {dataset : P → D} {shape : D → S}
    {weight : D → A → C → ℝ} {value : P → A → C → ℝ} (hu : Spec.RowByRow m u dataset shape weight value) (earlier : List P) (p : P)
    (hp : m.included (dataset p) = true) (chunks : ℤ) (h : 1 ≤ chunks)
    (hvary : ∀ l, generateChunks m.I chunks = .ok l → ∀ c ∈ l, ∃ i ∈ c, ∃ k ∈ c, ∃ x ∈ m.cells (shape (dataset p)),
      weight (dataset p) (m.row i) x ≠ weight (dataset p) (m.row k) x) :
    ∃ x, microContributions m u dataset earlier p chunks = .ok x ∧
      ∀ q, x.denominatorJacobian q = Spec.overMarket m (shape (dataset p)) (Spec.cellTangent m weight (dataset p) q) := by
  obtain ⟨l, hl, hf, hx⟩ := microContributions_eq hu earlier p hp chunks h
  refine ⟨_, hx, fun q => ?_⟩
  rw [foldl_denominatorJacobian _ q (fun i => ∑ c ∈ m.cells (shape (dataset p)), Spec.cellTangent m weight (dataset p) q i c)]
  · rw [hf, sum_range_list]
    exact zero_add _
  · intro c hc
    obtain ⟨i, hi, k, hk, x, hx, hne⟩ := hvary l hl c hc
    have hconst : ¬ constantDenominator m ⟨shape (dataset p), (c.map m.row).map (weight (dataset p))⟩ = true := by
      unfold constantDenominator
      rw [decide_eq_true_eq]
      rintro ⟨hs, _⟩
      cases c with
      | nil => cases hi
      | cons a c =>
        have hhead : ((((a :: c).map m.row).map (weight (dataset p))).head?) = some (weight (dataset p) (m.row a)) := rfl
        have e1 := hs (weight (dataset p) (m.row i)) (by rw [List.map_map]; exact List.mem_map.2 ⟨i, hi, rfl⟩) _ hhead x hx
        have e2 := hs (weight (dataset p) (m.row k)) (by rw [List.map_map]; exact List.mem_map.2 ⟨k, hk, rfl⟩) _ hhead x hx
        exact hne (e1.trans e2.symm)
    show (if constantDenominator m _ then 0 else _) = _
    rw [if_neg hconst]

/-- Two agents, one product, and a dataset that only samples the first agent. Agents have probabilities of one half, and derivatives of
probabilities that leave the market share unchanged. -/
noncomputable def exampleMicro : MicroMarket ℕ Unit Unit Unit Unit where
  I := 2
  row := id
  cells := fun _ => {()}
  included := fun _ => true
  factor := fun _ _ _ => 1 / 4
  tangent := fun _ _ i _ => if i = 0 then 1 / 2 else -1 / 2
  flat := fun _ _ => true

/-- Values of the example. -/
noncomputable def exampleValue (i : ℕ) : ℝ := (i : ℝ) + 3

/-- The weights and values of the example. -/
noncomputable def exampleFunctions : MicroFunctions ℕ Unit Unit Unit Unit where
  weights := fun _ l => some ⟨(), l.map fun i _ => if i = 0 then 1 else 0⟩
  values := fun _ l => some ⟨(), l.map fun i _ => exampleValue i⟩

theorem example_rowByRow : Spec.RowByRow exampleMicro exampleFunctions (fun _ => ()) (fun _ => ())
    (fun _ i _ => if i = 0 then 1 else 0) (fun _ i _ => exampleValue i) where
  weights := fun _ _ => rfl
  values := fun _ _ => rfl
  nonneg := fun _ i _ _ _ => by split <;> norm_num

theorem constantDenominator_of (m : MicroMarket A S C D Q) (w : UserArray S C)
    (h1 : ∀ r ∈ w.rows, ∀ r0, w.rows.head? = some r0 → ∀ c ∈ m.cells w.shape, r c = r0 c)
    (h2 : ∀ r ∈ w.rows, m.flat w.shape r = true) : constantDenominator m w = true := by
  unfold constantDenominator
  rw [decide_eq_true_eq]
  exact ⟨h1, h2⟩

theorem constant_singleton (i : ℕ) (shape : Unit) (weight : ℕ → Unit → ℝ) :
    constantDenominator exampleMicro ⟨shape, ([i].map exampleMicro.row).map weight⟩ = true := by
  apply constantDenominator_of
  · intro r hr r0 hr0 c _
    rw [List.map_cons, List.map_nil, List.map_cons, List.map_nil, List.mem_singleton] at hr
    have : weight (exampleMicro.row i) = r0 := by simpa using hr0
    rw [hr, this]
  · intro r _
    rfl

/-- **C56 does not hold** for Jacobians of denominators, and so not for Jacobians of micro moments: whether survey weights are the same
for all agents is decided chunk by chunk, so with chunks of one agent each the Jacobian is zero. -/
theorem C56_denominator_refuted : ∃ x y : PartContribution Unit Unit,
    microContributions exampleMicro exampleFunctions (fun _ => ()) [()] () 1 = .ok x ∧
      microContributions exampleMicro exampleFunctions (fun _ => ()) [()] () 2 = .ok y ∧
      x.denominatorJacobian () = 1 / 2 ∧ y.denominatorJacobian () = 0 ∧
      x.numerator = y.numerator ∧ x.denominator = y.denominator ∧ x.numeratorJacobian = y.numeratorJacobian := by
  obtain ⟨x, hx, hx1, hx2, hx3, _⟩ := C56_contributions_partial example_rowByRow [()] (by simp) () rfl 1 le_rfl
  obtain ⟨y, hy, hy1, hy2, hy3, _⟩ := C56_contributions_partial example_rowByRow [()] (by simp) () rfl 2 (by norm_num)
  refine ⟨x, y, hx, hy, ?_, ?_, by rw [hx1, hy1], by rw [hx2, hy2], by funext q; rw [hx3, hy3]⟩
  · obtain ⟨x', hx', hj⟩ := C56_varying_denominator example_rowByRow [()] () rfl 1 le_rfl (by
      intro l hl c hc
      have : l = [List.range 2] := (Except.ok.inj hl).symm
      rw [this, List.mem_singleton] at hc
      rw [hc]
      exact ⟨0, by simp, 1, by simp, (), by simp [exampleMicro], by simp [exampleMicro]⟩)
    rw [hx] at hx'
    cases hx'
    rw [hj]
    simp [Spec.overMarket, Spec.cellTangent, exampleMicro, Finset.sum_range_succ]
  · obtain ⟨l, hl, _, hy'⟩ := microContributions_eq example_rowByRow [()] () rfl 2 (by norm_num)
    have hl' : l = [[0], [1]] := by
      have : generateChunks exampleMicro.I 2 = .ok [[0], [1]] := by decide +kernel
      rw [hl] at this
      exact Except.ok.inj this
    rw [hy] at hy'
    rw [Except.ok.inj hy', hl']
    show (0 : ℝ) + (if constantDenominator exampleMicro _ then 0 else _) + (if constantDenominator exampleMicro _ then 0 else _) = 0
    rw [if_pos (constant_singleton 0 _ _), if_pos (constant_singleton 1 _ _)]
    simp

example : ∃ l, generateChunks 5 2 = .ok l ∧ l.flatten = List.range 5 := C56_partition 5 2 (by norm_num)

/-- Two agents with the same weights in two chunks. -/
example : ∃ x, microContributions exampleMicro
    { weights := fun _ l => some ⟨(), l.map fun _ _ => 1⟩, values := fun _ l => some ⟨(), l.map fun i _ => exampleValue i⟩ } (fun _ : Unit => ()) [] () 2 = .ok x ∧
      ∀ q, x.denominatorJacobian q = 0 :=
  C56_constant_denominator (shape := fun _ => ()) (weight := fun _ _ _ => 1) (value := fun _ i _ => exampleValue i)
    ⟨fun _ _ => rfl, fun _ _ => rfl, fun _ _ _ _ _ => zero_le_one⟩ [] () rfl 2 (by norm_num) (fun _ _ _ _ _ _ => rfl) fun _ _ => rfl

end Pyblp
