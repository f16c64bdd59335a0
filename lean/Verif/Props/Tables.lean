import Verif.Model.Tables
import Verif.Props.Parameters
import Verif.Props.ParametersAccepted
import Mathlib.Data.List.GetD

/-!
# C104: labels and printed tables of parameters
-/

set_option linter.unusedSectionVars false

namespace Pyblp

/-! ### Specification -/

namespace Spec

/-- There is a label for each column of product characteristics and demographics, for each nesting group, and for each structural error. -/
structure Labelled (e : ParamInputs) (l : ParamLabels) : Prop where
  sigma : l.sigma.length = e.K2
  pi : l.pi.length = e.D
  rho : l.rho.length = e.H
  phi : l.phi.length = if e.K3 > 0 then 2 else 1
  beta : l.beta.length = e.K1
  gamma : l.gamma.length = e.K3
  rcTypes : l.rcTypes.length = e.K2

/-- An element that is estimated, either by optimization or because it is concentrated out. -/
def Estimated (p : Parameters) (b : Block) (i j : ℕ) : Prop :=
  (⟨b, i, j⟩ : Param) ∈ p.stored.unfixed ∨ (⟨b, i, j⟩ : Param) ∈ p.stored.eliminated

/-- What should be printed as a standard error. -/
def ErrorCell (p : Parameters) (b : Block) (i j : ℕ) (x : Fl) (c : Option Cell) : Prop :=
  (Estimated p b i j → c = some (.se x)) ∧ (¬ Estimated p b i j → c = some (.text ""))

/-- A table shows a vector: below each label are its number and, if it is estimated, its standard error. -/
structure ShowsVector (p : Parameters) (b : Block) (labels : List String) (v s : ParamValues) (t : Table) : Prop where
  header : t.header = labels
  rows : ∃ values errors, t.rows = [values, errors] ∧ values.length = labels.length ∧ errors.length = labels.length ∧
    ∀ i < labels.length, values[i]? = some (.number (v.values b i 0)) ∧ ErrorCell p b i 0 (s.values b i 0) errors[i]?

/-- In a row of a table, columns after `start` show elements of a row of a matrix: below the header `title` is the label of the row, and below the
label of each column is its number, and in the next row of the table, its standard error. -/
structure ShowsSection (title : String) (rowLabel : String) (labels : List String) (t : Table) (values errors : List Cell) (start : ℕ)
    (value : ℕ → Cell) (error : ℕ → Option Cell → Prop) : Prop where
  title : t.header[start]? = some title
  label : values[start]? = some (.text rowLabel)
  columns : ∀ j < labels.length, t.header[start + 1 + j]? = labels[j]? ∧ values[start + 1 + j]? = some (value j) ∧ error j errors[start + 1 + j]?

/-- What an element of a matrix of parameters should be called: by the characteristics of its row and column, by its nesting group, by the structural
errors that it relates, or by its characteristic. -/
inductive Names (l : ParamLabels) : Param → String → Prop
  | sigma (i j : ℕ) (a b : String) : l.sigma[i]? = some a → l.sigma[j]? = some b → Names l ⟨.sigma, i, j⟩ (a ++ " x " ++ b)
  | pi (i j : ℕ) (a b : String) : l.sigma[i]? = some a → l.pi[j]? = some b → Names l ⟨.pi, i, j⟩ (a ++ " x " ++ b)
  | rho (i : ℕ) (a : String) : l.rho[i]? = some a → Names l ⟨.rho, i, 0⟩ a
  | phi (i j : ℕ) (a b : String) : l.phi[i]? = some a → l.phi[j]? = some b → Names l ⟨.phi, i, j⟩ (a ++ " on " ++ b)
  | beta (i : ℕ) (a : String) : l.beta[i]? = some a → Names l ⟨.beta, i, 0⟩ a
  | gamma (i : ℕ) (a : String) : l.gamma[i]? = some a → Names l ⟨.gamma, i, 0⟩ a

/-- Text is centered in some columns of a line. -/
def Shown (line : List Char) (offset width : ℕ) (text : List Char) : Prop :=
  ∃ a b, a ≤ b ∧ b ≤ a + 1 ∧ a + text.length + b = width ∧
    (line.drop offset).take width = List.replicate a ' ' ++ text ++ List.replicate b ' '

end Spec

/-! ### Vectors -/

theorem isFixedRow_iff (p : Parameters) (b : Block) (i : ℕ) (hb : ∀ q ∈ p.stored.fixed, q.1.block = b → q.1.col = 0) :
    isFixedRow p b i = true ↔ (⟨b, i, 0⟩ : Param) ∈ p.stored.fixed.map Prod.fst := by
  unfold isFixedRow
  rw [List.any_eq_true, List.mem_map]
  constructor
  · rintro ⟨q, hq, h⟩
    rw [decide_eq_true_eq] at h
    refine ⟨q, hq, ?_⟩
    have := hb q hq h.1
    obtain ⟨⟨qb, qr, qc⟩, x⟩ := q
    simp only at h this
    rw [h.1, h.2, this]
  · rintro ⟨q, hq, h⟩
    refine ⟨q, hq, ?_⟩
    rw [h]
    simp

theorem not_fixed_iff {e : ParamInputs} {p : Parameters} (h : buildParameters e = .ok p) (b : Block) (i j : ℕ) (hi : i < (p.mats b).rows)
    (hj : j < (p.mats b).cols) (hs : b = .sigma → j ≤ i) : (⟨b, i, j⟩ : Param) ∉ p.stored.fixed.map Prod.fst ↔ Spec.Estimated p b i j := by
  obtain ⟨h1, h2⟩ := C44_partition h
  have hm := (h2 b i j).2 ⟨hi, hj, hs⟩
  rw [List.append_assoc] at h1 hm
  have hd := List.disjoint_of_nodup_append h1
  unfold Spec.Estimated
  rw [List.mem_append, List.mem_append] at hm
  constructor
  · intro hn
    exact hm.resolve_left hn
  · intro he hf
    exact hd hf (List.mem_append.2 he)

theorem fixed_in_range {e : ParamInputs} {p : Parameters} (h : buildParameters e = .ok p) (q : Param × EReal) (hq : q ∈ p.stored.fixed) :
    q.1.row < (p.mats q.1.block).rows ∧ q.1.col < (p.mats q.1.block).cols := by
  have := ((C44_partition h).2 q.1.block q.1.row q.1.col).1
    (List.mem_append_left _ (List.mem_append_left _ (List.mem_map.2 ⟨q, hq, rfl⟩)))
  exact ⟨this.1, this.2.1⟩

theorem formatVector_shows {e : ParamInputs} {p : Parameters} (h : buildParameters e = .ok p) (b kind : Block) (hb : (p.mats b).cols = 1)
    (hs : b ≠ .sigma) (hk : ∀ i < (p.mats b).rows, isFixedRow p kind i = isFixedRow p b i) (labels : List String)
    (hl : labels.length = (p.mats b).rows) (v s : ParamValues) :
    Spec.ShowsVector p b labels v s
      (formatVector p kind labels (p.mats b).rows (fun i => v.values b i 0) (some fun i => s.values b i 0)) := by
  refine ⟨rfl, _, _, rfl, by simp [hl], by simp [hl], ?_⟩
  intro i hi
  rw [hl] at hi
  constructor
  · rw [List.getElem?_map, List.getElem?_range hi]
    rfl
  · rw [List.getElem?_map, List.getElem?_range hi, Option.map_some, hk i hi]
    have hf := isFixedRow_iff p b i fun q hq hqb => by
      have := (fixed_in_range h q hq).2
      rw [hqb, hb] at this
      omega
    have hn := not_fixed_iff h b i 0 hi (by omega) fun h' => absurd h' hs
    constructor
    · intro he
      rw [if_neg fun h' => (hn.2 he) (hf.1 h')]
    · intro he
      rw [if_pos (hf.2 (not_not.1 fun h' => he (hn.1 h')))]
      rfl

/-- **C104** (rho). Estimates of nesting parameters are printed below labels of groups, or of all groups if there is only one parameter, with standard
errors of those that are estimated. -/
theorem C104_rho {e : ParamInputs} {p : Parameters} (h : buildParameters e = .ok p) (l : ParamLabels) (hl : Spec.Labelled e l)
    (hr : 0 < (p.mats .rho).rows) (v s : ParamValues) :
    Spec.ShowsVector p .rho (if (p.mats .rho).rows = 1 then ["All Groups"] else l.rho) v s (formatRho p l v (some s)) := by
  obtain ⟨b0, H⟩ := built_of_ok h
  have hshape := H.shape .rho
  simp only [ParamInputs.shapes, List.mem_cons, List.not_mem_nil, or_false, Prod.mk.injEq] at hshape
  have hcols : (p.mats .rho).cols = 1 := by rcases hshape with h' | h' <;> exact h'.2
  have hheader : (if (p.mats .rho).rows > 1 then l.rho else ["All Groups"]) = if (p.mats .rho).rows = 1 then ["All Groups"] else l.rho := by
    by_cases h1 : (p.mats .rho).rows = 1
    · rw [if_pos h1, if_neg (by omega)]
    · rw [if_neg h1, if_pos (by omega)]
  unfold formatRho
  dsimp only
  rw [hheader]
  apply formatVector_shows h .rho .rho hcols (by decide) (fun _ _ => rfl)
  by_cases h1 : (p.mats .rho).rows = 1
  · rw [if_pos h1, h1]; rfl
  · rw [if_neg h1, hl.rho]
    rcases hshape with h' | h'
    · exact h'.1.symm
    · exact absurd h'.1 h1

/-- **C104** (beta). Estimates of demand-side linear parameters are printed below labels of product characteristics, with standard errors of those that
are estimated. -/
theorem C104_beta {e : ParamInputs} {p : Parameters} (h : buildParameters e = .ok p) (l : ParamLabels) (hl : Spec.Labelled e l)
    (v s : ParamValues) : Spec.ShowsVector p .beta l.beta v s (formatBeta p l v (some s)) := by
  obtain ⟨b0, H⟩ := built_of_ok h
  have hshape := H.shape .beta
  simp only [ParamInputs.shapes, List.mem_singleton, Prod.mk.injEq] at hshape
  exact formatVector_shows h .beta .beta hshape.2 (by decide) (fun _ _ => rfl) _ (by rw [hl.beta, hshape.1]) v s

/-- **C104** (gamma). Estimates of supply-side linear parameters are printed below labels of cost characteristics, with standard errors of those that
are estimated, if elements of `gamma` are fixed exactly where elements of `beta` with the same indices are. Missing: other cases, see
`C104_refuted_gamma`. -/
theorem C104_gamma_partial {e : ParamInputs} {p : Parameters} (h : buildParameters e = .ok p) (l : ParamLabels) (hl : Spec.Labelled e l)
    (hf : ∀ i < e.K3, (⟨.beta, i, 0⟩ : Param) ∈ p.stored.fixed.map Prod.fst ↔ (⟨.gamma, i, 0⟩ : Param) ∈ p.stored.fixed.map Prod.fst)
    (v s : ParamValues) : Spec.ShowsVector p .gamma l.gamma v s (formatGamma p l v (some s)) := by
  obtain ⟨b0, H⟩ := built_of_ok h
  have hshape := H.shape .gamma
  simp only [ParamInputs.shapes, List.mem_singleton, Prod.mk.injEq] at hshape
  have hcol : ∀ b, Spec.Linear b → ∀ q ∈ p.stored.fixed, q.1.block = b → q.1.col = 0 := by
    intro b hb q hq hqb
    have := (fixed_in_range h q hq).2
    rw [hqb, shape_linear h hb] at this
    omega
  refine formatVector_shows h .gamma .beta hshape.2 (by decide) (fun i hi => ?_) _ (by rw [hl.gamma, hshape.1]) v s
  rw [Bool.eq_iff_iff, isFixedRow_iff p .beta i (hcol _ (Or.inl rfl)), isFixedRow_iff p .gamma i (hcol _ (Or.inr rfl))]
  exact hf i (by rw [← hshape.1]; exact hi)

/-! ### Matrices -/

theorem flatMap_get {α β : Type} (f : α → List β) (c : ℕ) : ∀ (l : List α), (∀ i, ∀ hi : i + 1 < l.length, (f l[i]).length = c) →
    ∀ (i : ℕ) (hi : i < l.length) (r : ℕ), r < c → (f l[i]).length ≤ c → (l.flatMap f)[c * i + r]? = (f l[i])[r]?
  | [], _, i, hi, _, _, _ => absurd hi (Nat.not_lt_zero _)
  | [a], _, i, hi, r, _, _ => by
    have h0 : i = 0 := by simpa using hi
    subst h0
    simp
  | a :: b :: l, h, i, hi, r, hr, hc => by
    rw [List.flatMap_cons]
    have ha : (f a).length = c := h 0 (by simp)
    cases i with
    | zero =>
      rw [Nat.mul_zero, Nat.zero_add, List.getElem?_append_left (by rw [ha]; exact hr)]
      rfl
    | succ i =>
      rw [List.getElem?_append_right (by rw [ha, Nat.mul_succ]; omega), ha,
        show c * (i + 1) + r - c = c * i + r by rw [Nat.mul_succ]; omega]
      exact flatMap_get f c (b :: l) (fun k hk => h (k + 1) (by simpa using hk)) i (by simpa using hi) r hr hc

theorem isFixedPhi_iff (p : Parameters) (i j : ℕ) : isFixedPhi p i j = true ↔ (⟨.phi, i, j⟩ : Param) ∈ p.stored.fixed.map Prod.fst := by
  unfold isFixedPhi
  rw [List.any_eq_true, List.mem_map]
  constructor
  · rintro ⟨⟨⟨qb, qr, qc⟩, x⟩, hq, h⟩
    rw [List.mem_filter, decide_eq_true_eq] at hq
    rw [decide_eq_true_eq] at h
    refine ⟨_, hq.1, ?_⟩
    simp only at h hq ⊢
    rw [h.1, h.2, hq.2]
  · rintro ⟨q, hq, h⟩
    refine ⟨q, List.mem_filter.2 ⟨hq, ?_⟩, ?_⟩ <;> rw [h] <;> simp

theorem isUnfixed_iff (p : Parameters) (b : Block) (i j : ℕ) : isUnfixed p b i j = true ↔ (⟨b, i, j⟩ : Param) ∈ p.stored.unfixed := by
  unfold isUnfixed
  rw [List.any_eq_true]
  constructor
  · rintro ⟨⟨qb, qr, qc⟩, hq, h⟩
    rw [List.mem_filter, decide_eq_true_eq] at hq
    rw [decide_eq_true_eq] at h
    simp only at h hq
    rw [← h.1, ← h.2, ← hq.2]
    exact hq.1
  · intro hq
    exact ⟨_, List.mem_filter.2 ⟨hq, by simp⟩, by simp⟩

theorem estimated_nonlinear {e : ParamInputs} {p : Parameters} (h : buildParameters e = .ok p) (b : Block) (hb : ¬ Spec.Linear b) (i j : ℕ) :
    Spec.Estimated p b i j ↔ (⟨b, i, j⟩ : Param) ∈ p.stored.unfixed := by
  unfold Spec.Estimated
  constructor
  · rintro (h' | h')
    · exact h'
    · exact absurd ((C44_concentrated h b i j).1 h').2.2.1 hb
  · exact Or.inl

/-- **C104** (phi). Estimates of autoregressive parameters are printed below labels of structural errors and next to those of the errors that they
explain, with standard errors of those that are estimated. -/
theorem C104_phi {e : ParamInputs} {p : Parameters} (h : buildParameters e = .ok p) (l : ParamLabels) (hl : Spec.Labelled e l)
    (hlags : e.hasLags = true) (v s : ParamValues) :
    (e.K3 = 0 → Spec.ShowsVector p .phi l.phi v s (formatPhi p l v (some s))) ∧
    (0 < e.K3 → (formatPhi p l v (some s)).header = "" :: l.phi ∧
      ∀ i < 2, ∃ values errors, (formatPhi p l v (some s)).rows[2 * i]? = some values ∧ (formatPhi p l v (some s)).rows[2 * i + 1]? = some errors ∧
        values.length = 3 ∧ errors.length = 3 ∧ values[0]? = (l.phi[i]?).map Cell.text ∧
        ∀ j < 2, values[j + 1]? = some (.number (v.values .phi i j)) ∧ Spec.ErrorCell p .phi i j (s.values .phi i j) errors[j + 1]?) := by
  obtain ⟨b0, H⟩ := built_of_ok h
  have hshape := H.shape .phi
  simp only [ParamInputs.shapes, List.mem_singleton, Prod.mk.injEq, hlags, if_true] at hshape
  constructor
  · intro hk
    rw [if_neg (by omega)] at hshape
    unfold formatPhi
    dsimp only
    rw [if_pos (by rw [hshape.1, hshape.2])]
    exact formatVector_shows h .phi .phi hshape.2 (by decide) (fun _ _ => rfl) _ (by rw [hl.phi, if_neg (by omega), hshape.1]) v s
  · intro hk
    rw [if_pos hk] at hshape
    have hphi : l.phi.length = 2 := by rw [hl.phi, if_pos hk]
    unfold formatPhi
    dsimp only
    rw [if_neg (by rw [hshape.1, hshape.2]; decide)]
    refine ⟨rfl, fun i hi => ?_⟩
    have hi' : i < l.phi.zipIdx.length := by rw [List.length_zipIdx, hphi]; exact hi
    have hget : l.phi.zipIdx[i] = (l.phi[i]'(by rw [hphi]; exact hi), i) := by
      rw [List.getElem_zipIdx]; simp
    refine ⟨_, _, (flatMap_get _ 2 l.phi.zipIdx (fun _ _ => rfl) i hi' 0 (by omega) (le_refl _)).trans rfl,
      (flatMap_get _ 2 l.phi.zipIdx (fun _ _ => rfl) i hi' 1 (by omega) (le_refl _)).trans rfl, ?_, ?_, ?_, ?_⟩
    · simp [hshape.2]
    · simp [hshape.2]
    · have hl' : l.phi[i]? = some (l.phi[i]'(by rw [hphi]; exact hi)) := List.getElem?_eq_getElem _
      rw [hget, hl']
      rfl
    · intro j hj
      have hj' : j < (p.mats .phi).cols := by rw [hshape.2]; omega
      rw [List.getElem?_cons_succ, List.getElem?_cons_succ, List.getElem?_map, List.getElem?_map, List.getElem?_range hj', hget]
      refine ⟨rfl, ?_⟩
      dsimp only [Option.map_some]
      have hn := not_fixed_iff h .phi i j (by rw [hshape.1]; omega) hj' (fun h' => absurd h' (by decide))
      constructor
      · intro he
        rw [if_neg fun h' => (hn.2 he) ((isFixedPhi_iff p i j).1 h')]
      · intro he
        rw [if_pos ((isFixedPhi_iff p i j).2 (not_not.1 fun h' => he (hn.1 h')))]
        rfl

/-- A list with a part in the middle. -/
theorem get_middle {α : Type} (a b c : List α) (j : ℕ) (hj : j < b.length) : (a ++ b ++ c)[a.length + j]? = b[j]? := by
  rw [List.append_assoc, List.getElem?_append_right (by omega), Nat.add_sub_cancel_left, List.getElem?_append_left hj]

/-- **C104** (sigma and pi). The table of nonlinear parameters has three rows for each product characteristic with a random coefficient (and no third
one for the last): its values, their standard errors, and a blank one. All have one cell below each header. The row of values has the label of the
characteristic, and below the label of each column, the element of that row and column: of the lower triangle of sigma, of sigma squared if sigma is
not diagonal, and of pi. Below each is its standard error if it is estimated. -/
theorem C104_nonlinear {e : ParamInputs} {p : Parameters} (h : buildParameters e = .ok p) (l : ParamLabels) (hl : Spec.Labelled e l)
    (v s : ParamValues) (i : ℕ) (hi : i < e.K2) :
    let t := formatNonlinear p l v (some s)
    ∃ values errors, t.rows[3 * i]? = some values ∧ t.rows[3 * i + 1]? = some errors ∧ values.length = t.header.length ∧
      errors.length = t.header.length ∧
      ∃ label, l.sigma[i]? = some label ∧
      (∃ start, Spec.ShowsSection "Sigma:" label l.sigma t values errors start
        (fun j => if j ≤ i then .number (v.values .sigma i j) else .text "")
        (fun j => Spec.ErrorCell p .sigma i j (s.values .sigma i j))) ∧
      ((∃ i j, j < i ∧ i < e.K2 ∧ Spec.start e .sigma i j ≠ some 0) → ∃ start, Spec.ShowsSection "Sigma Squared:" label l.sigma t values errors start
        (fun j => .number (v.sigmaSquared i j)) (fun j c => c = some (.se (s.sigmaSquared i j)))) ∧
      (0 < e.D → ∃ start, Spec.ShowsSection "Pi:" label l.pi t values errors start (fun j => .number (v.values .pi i j))
        (fun j => Spec.ErrorCell p .pi i j (s.values .pi i j))) := by
  obtain ⟨b0, H⟩ := built_of_ok h
  have hsigma := H.shape .sigma
  simp only [ParamInputs.shapes, List.mem_singleton, Prod.mk.injEq] at hsigma
  have hpi := H.shape .pi
  simp only [ParamInputs.shapes, List.mem_singleton, Prod.mk.injEq] at hpi
  intro t
  have ht : t = formatNonlinear p l v (some s) := rfl
  unfold formatNonlinear at ht
  dsimp only at ht
  rw [hsigma.2, hpi.2] at ht
  have hsq : (!diagonalSigma p) = true ↔ ∃ i j, j < i ∧ i < e.K2 ∧ Spec.start e .sigma i j ≠ some 0 := by
    unfold diagonalSigma
    rw [Bool.not_not, decide_eq_true_eq, hsigma.1]
    constructor
    · rintro ⟨i, hi, j, hj, hne⟩
      exact ⟨i, j, hj, hi, by rw [← H.entry]; exact hne⟩
    · rintro ⟨i, j, hj, hi, hne⟩
      exact ⟨i, hi, j, hj, by rw [H.entry]; exact hne⟩
  rw [← hsq]
  generalize (!diagonalSigma p) = squared at ht
  generalize (l.rcTypes.any fun d => decide (d ≠ "linear")) = types at ht
  have hli : i < l.sigma.length := by rw [hl.sigma]; exact hi
  have hri : i < l.rcTypes.length := by rw [hl.rcTypes]; exact hi
  have hlen : (l.rcTypes.zip l.sigma).zipIdx.length = e.K2 := by simp [hl.sigma, hl.rcTypes]
  have hget : ((l.rcTypes.zip l.sigma).zipIdx)[i]'(by rw [hlen]; exact hi) = ((l.rcTypes[i], l.sigma[i]), i) := by
    rw [List.getElem_zipIdx, List.getElem_zip]; simp
  have hidx : ∀ k (hk : k < (l.rcTypes.zip l.sigma).zipIdx.length), ((l.rcTypes.zip l.sigma).zipIdx[k]).2 = k := by
    intro k hk
    rw [List.getElem_zipIdx]; simp
  -- rows
  have hrows : ∀ r < 3, t.rows[3 * i + r]? = (nonlinearValues e.K2 e.D types squared v i l.rcTypes[i] l.sigma[i] ::
      nonlinearErrors p e.K2 e.D types squared s i ::
        if i < e.K2 - 1 then [List.replicate (nonlinearErrors p e.K2 e.D types squared s i).length Cell.blank] else [])[r]? := by
    intro r hr
    rw [ht]
    dsimp only
    refine (flatMap_get _ 3 (l.rcTypes.zip l.sigma).zipIdx ?_ i (by rw [hlen]; exact hi) r hr ?_).trans ?_
    · intro k hk
      rw [hidx k (by omega), if_pos (by rw [hlen] at hk; omega)]
      rfl
    · split <;> simp
    · rw [hget]
  have hpiempty : l.pi = [] ↔ ¬ 0 < e.D := by
    rw [← hl.pi, Nat.pos_iff_ne_zero, ne_eq, not_not, List.length_eq_zero_iff]
  -- parts of the header and of rows
  have hheader : t.header = ((if types then ["Types:"] else []) ++ ["Sigma:"] ++ l.sigma) ++ (if squared then "Sigma Squared:" :: l.sigma else []) ++
      (if 0 < e.D then "Pi:" :: l.pi else []) := by
    rw [ht]
    dsimp only
    congr 1
    by_cases hD : 0 < e.D
    · rw [if_pos hD, if_neg fun h' => (hpiempty.1 h') hD]
    · rw [if_neg hD, if_pos (hpiempty.2 hD)]
  have hvl : ∀ label : Cell, ∀ f : ℕ → Cell, (label :: (List.range e.K2).map f).length = e.K2 + 1 := by intro label f; simp
  refine ⟨_, _, (hrows 0 (by omega)).trans rfl, (hrows 1 (by omega)).trans rfl, ?_, ?_, l.sigma[i], List.getElem?_eq_getElem hli, ?_, ?_, ?_⟩
  · rw [hheader]
    cases types <;> cases squared <;> by_cases hD : 0 < e.D <;> simp [nonlinearValues, hD, hl.sigma, hl.pi] <;> omega
  · rw [hheader]
    cases types <;> cases squared <;> by_cases hD : 0 < e.D <;> simp [nonlinearErrors, hD, hl.sigma, hl.pi] <;> omega
  · -- sigma
    refine ⟨if types then 1 else 0, ?_, ?_, ?_⟩
    · rw [hheader]
      cases types <;> simp
    · cases types <;> simp [nonlinearValues]
    · intro j hj
      rw [hl.sigma] at hj
      have hcell : ∀ (f : ℕ → Cell) (rest : List Cell) (a : List Cell), (a ++ ((List.range (i + 1)).map f) ++ List.replicate (e.K2 - i - 1) Cell.blank ++ rest)[a.length + j]? =
          some (if j ≤ i then f j else .blank) := by
        intro f rest a
        rw [List.append_assoc a, get_middle _ _ _ _ (by simp; omega)]
        by_cases hji : j ≤ i
        · rw [if_pos hji, List.getElem?_append_left (by simp; omega), List.getElem?_map, List.getElem?_range (by omega)]
          rfl
        · rw [if_neg hji, List.getElem?_append_right (by simp; omega), List.length_map, List.length_range, List.getElem?_replicate,
            if_pos (by omega)]
      refine ⟨?_, ?_, ?_⟩
      · rw [hheader, List.append_assoc]
        have := get_middle ((if types then ["Types:"] else []) ++ ["Sigma:"]) l.sigma
          ((if squared then "Sigma Squared:" :: l.sigma else []) ++ (if 0 < e.D then "Pi:" :: l.pi else [])) j (by rw [hl.sigma]; exact hj)
        rw [← this]
        congr 1
        cases types <;> simp
      · have := hcell (fun j => Cell.number (v.values .sigma i j)) ((if squared then Cell.text l.sigma[i] :: (List.range e.K2).map fun j => Cell.number (v.sigmaSquared i j) else []) ++
          (if 0 < e.D then Cell.text l.sigma[i] :: (List.range e.D).map fun j => Cell.number (v.values .pi i j) else []))
          ((if types then [Cell.text (l.rcTypes[i].capitalize)] else []) ++ [.text l.sigma[i]])
        unfold nonlinearValues
        rw [List.append_assoc (_ ++ _ ++ _ ++ List.replicate _ _)]
        refine Eq.trans ?_ this
        congr 1
        cases types <;> simp
      · have := hcell (fun j => if isUnfixed p .sigma i j then Cell.se (s.values .sigma i j) else .blank)
          ((if squared then Cell.blank :: (List.range e.K2).map fun j => Cell.se (s.sigmaSquared i j) else []) ++
            (if 0 < e.D then Cell.blank :: (List.range e.D).map fun j => if isUnfixed p .pi i j then Cell.se (s.values .pi i j) else .blank else []))
          (List.replicate (if types then 2 else 1) .blank)
        have herr : (nonlinearErrors p e.K2 e.D types squared s i)[(if types then 1 else 0) + 1 + j]? =
            some (if j ≤ i then (if isUnfixed p .sigma i j then Cell.se (s.values .sigma i j) else .blank) else .blank) := by
          refine Eq.trans ?_ this
          unfold nonlinearErrors
          rw [List.append_assoc (_ ++ _ ++ List.replicate _ _)]
          congr 1
          cases types <;> simp
        rw [herr]
        have hest := estimated_nonlinear h .sigma (by rintro (h' | h') <;> cases h') i j
        constructor
        · intro he
          have hu := hest.1 he
          have := ((C44_estimated h .sigma i j).1 hu).2.2.1 rfl
          rw [if_pos this, if_pos ((isUnfixed_iff p _ _ _).2 hu)]
        · intro he
          by_cases hji : j ≤ i
          · rw [if_pos hji, if_neg fun h' => he (hest.2 ((isUnfixed_iff p _ _ _).1 h'))]
            rfl
          · rw [if_neg hji]
            rfl
  · -- sigma squared
    intro hs
    subst hs
    have hh := hheader
    rw [if_pos rfl] at hh
    refine ⟨(if types then 1 else 0) + 1 + e.K2, ?_, ?_, ?_⟩
    · rw [hh]
      have := get_middle ((if types then ["Types:"] else []) ++ ["Sigma:"] ++ l.sigma) ("Sigma Squared:" :: l.sigma) (if 0 < e.D then "Pi:" :: l.pi else []) 0
        (by simp)
      refine Eq.trans ?_ this
      congr 1
      cases types <;> simp [hl.sigma] <;> omega
    · have := get_middle ((if types then [Cell.text (l.rcTypes[i].capitalize)] else []) ++ [.text l.sigma[i]] ++
        ((List.range (i + 1)).map fun j => Cell.number (v.values .sigma i j)) ++ List.replicate (e.K2 - i - 1) .blank)
        (Cell.text l.sigma[i] :: (List.range e.K2).map fun j => Cell.number (v.sigmaSquared i j))
        (if 0 < e.D then Cell.text l.sigma[i] :: (List.range e.D).map fun j => Cell.number (v.values .pi i j) else []) 0 (by simp)
      refine Eq.trans ?_ this
      unfold nonlinearValues
      rw [if_pos rfl]
      congr 1
      cases types <;> simp <;> omega
    · intro j hj
      rw [hl.sigma] at hj
      refine ⟨?_, ?_, ?_⟩
      · rw [hh]
        have := get_middle ((if types then ["Types:"] else []) ++ ["Sigma:"] ++ l.sigma) ("Sigma Squared:" :: l.sigma) (if 0 < e.D then "Pi:" :: l.pi else [])
          (j + 1) (by simp [hl.sigma]; omega)
        rw [List.getElem?_cons_succ] at this
        refine Eq.trans ?_ this
        congr 1
        cases types <;> simp [hl.sigma] <;> omega
      · have := get_middle ((if types then [Cell.text (l.rcTypes[i].capitalize)] else []) ++ [.text l.sigma[i]] ++
          ((List.range (i + 1)).map fun j => Cell.number (v.values .sigma i j)) ++ List.replicate (e.K2 - i - 1) .blank)
          (Cell.text l.sigma[i] :: (List.range e.K2).map fun j => Cell.number (v.sigmaSquared i j))
          (if 0 < e.D then Cell.text l.sigma[i] :: (List.range e.D).map fun j => Cell.number (v.values .pi i j) else []) (j + 1) (by simp; omega)
        rw [List.getElem?_cons_succ, List.getElem?_map, List.getElem?_range hj] at this
        refine Eq.trans ?_ this
        unfold nonlinearValues
        rw [if_pos rfl]
        congr 1
        cases types <;> simp <;> omega
      · have := get_middle (List.replicate (if types then 2 else 1) .blank ++
          ((List.range (i + 1)).map fun j => if isUnfixed p .sigma i j then Cell.se (s.values .sigma i j) else .blank) ++
          List.replicate (e.K2 - i - 1) .blank)
          (Cell.blank :: (List.range e.K2).map fun j => Cell.se (s.sigmaSquared i j))
          (if 0 < e.D then Cell.blank :: (List.range e.D).map fun j => if isUnfixed p .pi i j then Cell.se (s.values .pi i j) else .blank else [])
          (j + 1) (by simp; omega)
        rw [List.getElem?_cons_succ, List.getElem?_map, List.getElem?_range hj] at this
        refine Eq.trans ?_ this
        unfold nonlinearErrors
        rw [if_pos rfl]
        congr 1
        cases types <;> simp <;> omega
  · -- pi
    intro hD
    have hh := hheader
    rw [if_pos hD] at hh
    refine ⟨(if types then 1 else 0) + 1 + e.K2 + (if squared then e.K2 + 1 else 0), ?_, ?_, ?_⟩
    · rw [hh]
      have := get_middle ((if types then ["Types:"] else []) ++ ["Sigma:"] ++ l.sigma ++ (if squared then "Sigma Squared:" :: l.sigma else [])) ("Pi:" :: l.pi)
        [] 0 (by simp)
      rw [List.append_nil] at this
      refine Eq.trans ?_ this
      congr 1
      cases types <;> cases squared <;> simp [hl.sigma] <;> omega
    · have := get_middle ((if types then [Cell.text (l.rcTypes[i].capitalize)] else []) ++ [.text l.sigma[i]] ++
        ((List.range (i + 1)).map fun j => Cell.number (v.values .sigma i j)) ++ List.replicate (e.K2 - i - 1) .blank ++
        (if squared then Cell.text l.sigma[i] :: (List.range e.K2).map fun j => Cell.number (v.sigmaSquared i j) else []))
        (Cell.text l.sigma[i] :: (List.range e.D).map fun j => Cell.number (v.values .pi i j)) [] 0 (by simp)
      rw [List.append_nil] at this
      refine Eq.trans ?_ this
      unfold nonlinearValues
      rw [if_pos hD]
      congr 1
      cases types <;> cases squared <;> simp <;> omega
    · intro j hj
      rw [hl.pi] at hj
      refine ⟨?_, ?_, ?_⟩
      · rw [hh]
        have := get_middle ((if types then ["Types:"] else []) ++ ["Sigma:"] ++ l.sigma ++ (if squared then "Sigma Squared:" :: l.sigma else [])) ("Pi:" :: l.pi)
          [] (j + 1) (by simp [hl.pi]; omega)
        rw [List.append_nil, List.getElem?_cons_succ] at this
        refine Eq.trans ?_ this
        congr 1
        cases types <;> cases squared <;> simp [hl.sigma] <;> omega
      · have := get_middle ((if types then [Cell.text (l.rcTypes[i].capitalize)] else []) ++ [.text l.sigma[i]] ++
          ((List.range (i + 1)).map fun j => Cell.number (v.values .sigma i j)) ++ List.replicate (e.K2 - i - 1) .blank ++
          (if squared then Cell.text l.sigma[i] :: (List.range e.K2).map fun j => Cell.number (v.sigmaSquared i j) else []))
          (Cell.text l.sigma[i] :: (List.range e.D).map fun j => Cell.number (v.values .pi i j)) [] (j + 1) (by simp; omega)
        rw [List.append_nil, List.getElem?_cons_succ, List.getElem?_map, List.getElem?_range hj] at this
        refine Eq.trans ?_ this
        unfold nonlinearValues
        rw [if_pos hD]
        congr 1
        cases types <;> cases squared <;> simp <;> omega
      · have := get_middle (List.replicate (if types then 2 else 1) .blank ++
          ((List.range (i + 1)).map fun j => if isUnfixed p .sigma i j then Cell.se (s.values .sigma i j) else .blank) ++
          List.replicate (e.K2 - i - 1) .blank ++
          (if squared then Cell.blank :: (List.range e.K2).map fun j => Cell.se (s.sigmaSquared i j) else []))
          (Cell.blank :: (List.range e.D).map fun j => if isUnfixed p .pi i j then Cell.se (s.values .pi i j) else .blank) []
          (j + 1) (by simp; omega)
        rw [List.append_nil, List.getElem?_cons_succ, List.getElem?_map, List.getElem?_range hj] at this
        have herr : (nonlinearErrors p e.K2 e.D types squared s i)[(if types then 1 else 0) + 1 + e.K2 + (if squared then e.K2 + 1 else 0) + 1 + j]? =
            some (if isUnfixed p .pi i j then Cell.se (s.values .pi i j) else .blank) := by
          refine Eq.trans ?_ this
          unfold nonlinearErrors
          rw [if_pos hD]
          congr 1
          cases types <;> cases squared <;> simp <;> omega
        rw [herr]
        have hest := estimated_nonlinear h .pi (by rintro (h' | h') <;> cases h') i j
        constructor
        · intro he
          rw [if_pos ((isUnfixed_iff p _ _ _).2 (hest.1 he))]
        · intro he
          rw [if_neg fun h' => he (hest.2 ((isUnfixed_iff p _ _ _).1 h'))]
          rfl

/-! ### Labels of theta -/

/-- **C104** (theta). There is one label for each estimated parameter, in the order of `theta`, and it names that parameter, if it is not a nesting
parameter, or if there is a nesting parameter for each group. Missing: a single nesting parameter for many groups, see `C104_refuted_rho`. -/
theorem C104_theta_labels_partial {e : ParamInputs} {p : Parameters} (h : buildParameters e = .ok p) (l : ParamLabels) (hl : Spec.Labelled e l) :
    (compressLabels p l).length = p.stored.unfixed.length ∧
    ∀ (k : ℕ) (q : Param), p.stored.unfixed[k]? = some q → (q.block = .rho → (p.mats .rho).rows = e.H) →
      ∃ label, (compressLabels p l)[k]? = some label ∧ Spec.Names l q label := by
  obtain ⟨b0, H⟩ := built_of_ok h
  unfold compressLabels
  rw [compress_eq h (paramLabel l)]
  refine ⟨by rw [List.length_map], ?_⟩
  rintro k ⟨b, i, j⟩ hk hr
  rw [List.getElem?_map, hk, Option.map_some]
  refine ⟨_, rfl, ?_⟩
  have hm := (C44_estimated h b i j).1 (List.mem_of_getElem? hk)
  have hshape := H.shape b
  have hin : ∀ (x : List String) (i : ℕ), i < x.length → x[i]? = some (x.getD i "") := by
    intro x i hi
    rw [List.getD_eq_getElem _ _ hi, List.getElem?_eq_getElem hi]
  cases b with
  | sigma =>
    simp only [ParamInputs.shapes, List.mem_singleton, Prod.mk.injEq] at hshape
    have := Spec.Names.sigma (l := l) i j _ _ (hin l.sigma i (by rw [hl.sigma, ← hshape.1]; exact hm.1))
      (hin l.sigma j (by rw [hl.sigma, ← hshape.2]; exact hm.2.1))
    simpa [paramLabel, toString] using this
  | pi =>
    simp only [ParamInputs.shapes, List.mem_singleton, Prod.mk.injEq] at hshape
    have := Spec.Names.pi (l := l) i j _ _ (hin l.sigma i (by rw [hl.sigma, ← hshape.1]; exact hm.1))
      (hin l.pi j (by rw [hl.pi, ← hshape.2]; exact hm.2.1))
    simpa [paramLabel, toString] using this
  | rho =>
    simp only [ParamInputs.shapes, List.mem_cons, List.not_mem_nil, or_false, Prod.mk.injEq] at hshape
    have hcols : (p.mats .rho).cols = 1 := by rcases hshape with h' | h' <;> exact h'.2
    have hj : j = 0 := by have := hm.2.1; omega
    subst hj
    exact Spec.Names.rho i _ (hin l.rho i (by rw [hl.rho, ← hr rfl]; exact hm.1))
  | phi =>
    simp only [ParamInputs.shapes, List.mem_singleton, Prod.mk.injEq] at hshape
    have h1 : i < l.phi.length := by
      rw [hl.phi]
      have := hm.1
      split_ifs at hshape ⊢ <;> omega
    have h2 : j < l.phi.length := by
      rw [hl.phi]
      have := hm.2.1
      split_ifs at hshape ⊢ <;> omega
    have := Spec.Names.phi (l := l) i j _ _ (hin l.phi i h1) (hin l.phi j h2)
    simpa [paramLabel, toString] using this
  | beta =>
    simp only [ParamInputs.shapes, List.mem_singleton, Prod.mk.injEq] at hshape
    have hj : j = 0 := by have := hm.2.1; omega
    subst hj
    exact Spec.Names.beta i _ (hin l.beta i (by rw [hl.beta, ← hshape.1]; exact hm.1))
  | gamma =>
    simp only [ParamInputs.shapes, List.mem_singleton, Prod.mk.injEq] at hshape
    have hj : j = 0 := by have := hm.2.1; omega
    subst hj
    exact Spec.Names.gamma i _ (hin l.gamma i (by rw [hl.gamma, ← hshape.1]; exact hm.1))

/-! ### Counterexamples -/

/-- Two product characteristics, two cost characteristics, and two nesting groups with the same parameter. The second element of `beta` and the first
one of `gamma` are fixed at zero. The others are concentrated out. -/
noncomputable def tableInputs : ParamInputs where
  K1 := 2
  K2 := 0
  K3 := 2
  D := 0
  H := 2
  hasLags := false
  nodeColumns := 0
  usesPrices := fun _ => false
  values := fun
    | .rho => some ⟨1, 1, fun _ _ => some 1⟩
    | .beta => some ⟨2, 1, fun i _ => if i = 0 then none else some 0⟩
    | .gamma => some ⟨2, 1, fun i _ => if i = 0 then some 0 else none⟩
    | _ => none
  bounds := fun _ => none
  bounded := true
  allowLinearNans := true
  checkAlpha := true

/-- Labels for the counterexample. -/
def tableLabels : ParamLabels := ⟨[], [], ["A", "B"], ["xi", "omega"], ["1", "x"], ["1", "w"], []⟩

theorem tableLabels_ok : Spec.Labelled tableInputs tableLabels := ⟨rfl, rfl, rfl, rfl, rfl, rfl, rfl⟩

theorem tableInputs_ok : ∃ p, buildParameters tableInputs = .ok p := by
  rw [C45_accepted]
  refine ⟨?_, ?_, ?_, ?_, ?_, ?_⟩
  · intro b hb hn
    cases b <;> simp_all [tableInputs, Spec.Has]
  · intro b m hm
    cases b <;> simp only [tableInputs, reduceCtorEq, Option.some.injEq] at hm <;> subst hm <;> simp [Spec.ShapeOk, tableInputs]
  · intro b m i j hm hi hj hn
    cases b <;> simp only [tableInputs, reduceCtorEq, Option.some.injEq] at hm <;> subst hm
    · simp at hn
    · exact ⟨Or.inl rfl, rfl⟩
    · exact ⟨Or.inr rfl, rfl⟩
  · simp [tableInputs]
  · intro _ _ k _ hp
    simp [tableInputs] at hp
  · intro b lb ub hb
    simp [tableInputs] at hb

/-- **C104 refuted**: standard errors of supply-side linear parameters are shown or hidden according to which elements of `beta` are fixed, because
`format_gamma` passes the wrong type of parameters (pyblp/parameters.py:526). In an accepted configuration, a standard error is printed for an element
of `gamma` that is fixed, and none is printed for one that is estimated. -/
theorem C104_refuted_gamma : ∃ e p l, buildParameters e = .ok p ∧ Spec.Labelled e l ∧
    ¬ Spec.Estimated p .gamma 0 0 ∧ Spec.Estimated p .gamma 1 0 ∧
    ∀ v s : ParamValues, ∃ values errors, (formatGamma p l v (some s)).rows = [values, errors] ∧
      errors[0]? = some (.se (s.values .gamma 0 0)) ∧ errors[1]? = some (.text "") := by
  obtain ⟨p, hp⟩ := tableInputs_ok
  obtain ⟨b0, H⟩ := built_of_ok hp
  have hg : (p.mats .gamma).rows = 2 ∧ (p.mats .gamma).cols = 1 := H.given .gamma _ rfl
  have hb : (p.mats .beta).rows = 2 ∧ (p.mats .beta).cols = 1 := H.given .beta _ rfl
  have hcol : ∀ b, Spec.Linear b → ∀ q ∈ p.stored.fixed, q.1.block = b → q.1.col = 0 := by
    intro b hb q hq hqb
    have := (fixed_in_range hp q hq).2
    rw [hqb, shape_linear hp hb] at this
    omega
  have hest : ∀ b, Spec.Linear b → ∀ i < 2, (p.mats b).rows = 2 → (p.mats b).cols = 1 → (Spec.Estimated p b i 0 ↔ Spec.start tableInputs b i 0 ≠ some 0) := by
    intro b hl i hi h1 h2
    unfold Spec.Estimated
    rw [C44_estimated hp, C44_concentrated hp, h1, h2]
    constructor
    · rintro (h | h)
      · exact h.2.2.2.1
      · rw [h.2.2.2]; simp
    · intro hne
      by_cases hn : Spec.start tableInputs b i 0 = none
      · exact Or.inr ⟨hi, by omega, hl, hn⟩
      · refine Or.inl ⟨hi, by omega, fun h => ?_, hne, fun h => hn h.2, ?_⟩
        · rcases hl with h' | h' <;> rw [h'] at h <;> cases h
        · rintro ⟨_, _, h, _⟩
          simp [tableInputs] at h
  have hnf : ∀ i < 2, (isFixedRow p .beta i = true ↔ ¬ Spec.start tableInputs .beta i 0 ≠ some 0) := by
    intro i hi
    rw [isFixedRow_iff p .beta i (hcol _ (Or.inl rfl)), ← hest .beta (Or.inl rfl) i hi hb.1 hb.2,
      ← not_fixed_iff hp .beta i 0 (by rw [hb.1]; exact hi) (by rw [hb.2]; omega) (fun h => by cases h), not_not]
  refine ⟨tableInputs, p, tableLabels, hp, tableLabels_ok, ?_, ?_, ?_⟩
  · rw [hest .gamma (Or.inr rfl) 0 (by omega) hg.1 hg.2]
    simp [Spec.start, tableInputs]
  · rw [hest .gamma (Or.inr rfl) 1 (by omega) hg.1 hg.2]
    simp [Spec.start, tableInputs]
  · intro v s
    refine ⟨_, _, rfl, ?_, ?_⟩
    · rw [List.getElem?_map, hg.1, List.getElem?_range (by omega), Option.map_some, if_neg]
      rw [hnf 0 (by omega)]
      simp [Spec.start, tableInputs]
    · rw [List.getElem?_map, hg.1, List.getElem?_range (by omega), Option.map_some, if_pos]
      · rfl
      · rw [hnf 1 (by omega)]
        simp [Spec.start, tableInputs]

/-- **C104 refuted**: if there is one nesting parameter for two groups, its label in `theta_labels` is the ID of the first group, as if it were specific
to that group, although the table with estimates says that it is for all groups. -/
theorem C104_refuted_rho : ∃ e p l, buildParameters e = .ok p ∧ Spec.Labelled e l ∧ l.rho = ["A", "B"] ∧
    p.stored.unfixed = [⟨.rho, 0, 0⟩] ∧ compressLabels p l = ["A"] ∧
    ∀ v s : ParamValues, (formatRho p l v (some s)).header = ["All Groups"] := by
  obtain ⟨p, hp⟩ := tableInputs_ok
  obtain ⟨b0, H⟩ := built_of_ok hp
  have hr : (p.mats .rho).rows = 1 ∧ (p.mats .rho).cols = 1 := H.given .rho _ rfl
  have hbounds : ∀ b i j, ¬ Spec.FixedByUser tableInputs b i j := by
    rintro b i j ⟨_, _, h, _⟩
    simp [tableInputs] at h
  have hmem : ∀ q, q ∈ p.stored.unfixed ↔ q = ⟨.rho, 0, 0⟩ := by
    rintro ⟨b, i, j⟩
    rw [C44_estimated hp]
    have hshape := H.shape b
    cases b with
    | rho =>
      rw [hr.1, hr.2]
      have := hbounds .rho i j
      simp only [this, not_false_eq_true, and_true]
      simp [Spec.Linear, Spec.start, tableInputs]
    | beta =>
      simp [Spec.Linear, Spec.start, tableInputs]
      tauto
    | gamma =>
      simp [Spec.Linear, Spec.start, tableInputs]
      tauto
    | sigma => simp [ParamInputs.shapes, tableInputs] at hshape; simp [hshape]
    | pi => simp [ParamInputs.shapes, tableInputs] at hshape; simp [hshape]
    | phi => simp [ParamInputs.shapes, tableInputs] at hshape; simp [hshape]
  have hnd : p.stored.unfixed.Nodup := ((C44_partition hp).1.of_append_left).of_append_right
  have hun : p.stored.unfixed = [⟨.rho, 0, 0⟩] := by
    rcases hl : p.stored.unfixed with _ | ⟨a, _ | ⟨b, r⟩⟩
    · have := (hmem ⟨.rho, 0, 0⟩).2 rfl
      rw [hl] at this
      cases this
    · rw [(hmem a).1 (by rw [hl]; simp)]
    · rw [hl] at hnd
      have h1 := (hmem a).1 (by rw [hl]; simp)
      have h2 := (hmem b).1 (by rw [hl]; simp)
      rw [h1, h2] at hnd
      simp at hnd
  refine ⟨tableInputs, p, tableLabels, hp, tableLabels_ok, rfl, hun, ?_, ?_⟩
  · unfold compressLabels
    rw [hun]
    rfl
  · intro v s
    unfold formatRho formatVector
    rw [hr.1]
    rfl

/-! ### Text -/

theorem center_length (w : ℕ) (s : List Char) (h : s.length ≤ w) : (center w s).length = w := by
  unfold center
  simp
  omega

theorem intercalate_piece {α : Type} (sep : List α) : ∀ (l : List (List α)) (c : ℕ) (hc : c < l.length),
    ((sep.intercalate l).drop (((l.take c).map fun x => x.length + sep.length).sum)).take l[c].length = l[c]
  | [], c, hc => absurd hc (Nat.not_lt_zero _)
  | [a], c, hc => by
    have h0 : c = 0 := by simpa using hc
    subst h0
    simp [List.intercalate]
  | a :: b :: l, c, hc => by
    have hcons : sep.intercalate (a :: b :: l) = a ++ sep ++ sep.intercalate (b :: l) := by
      simp [List.intercalate, List.intersperse]
    rw [hcons]
    cases c with
    | zero => simp
    | succ c =>
      rw [List.take_succ_cons, List.map_cons, List.sum_cons, ← List.drop_drop,
        show a.length + sep.length = (a ++ sep).length by simp, List.drop_left]
      exact intercalate_piece sep (b :: l) c (by simpa using hc)

theorem intercalate_length {α : Type} (sep : List α) : ∀ (l : List (List α)),
    (sep.intercalate l).length = (l.map List.length).sum + (l.length - 1) * sep.length
  | [] => by simp [List.intercalate]
  | [a] => by simp [List.intercalate]
  | a :: b :: l => by
    have hcons : sep.intercalate (a :: b :: l) = a ++ sep ++ sep.intercalate (b :: l) := by
      simp [List.intercalate, List.intersperse]
    rw [hcons, List.length_append, List.length_append, intercalate_length sep (b :: l)]
    simp only [List.map_cons, List.sum_cons, List.length_cons, Nat.add_sub_cancel]
    ring

/-- Cells of a line with what follows them. -/
def linePieces (widths : List ℕ) (lines : List ℕ) (row : List (List Char)) : List (List Char) :=
  (widths.zip row).zipIdx.map fun p => center p.1.1 p.1.2 ++ if p.2 ∈ lines then [' ', ' ', '|'] else []

theorem linePieces_get (widths lines : List ℕ) (row : List (List Char)) (c : ℕ) (hc : c < widths.length) (hr : row.length = widths.length) :
    (linePieces widths lines row)[c]? = some (center widths[c] row[c] ++ if c ∈ lines then [' ', ' ', '|'] else []) := by
  unfold linePieces
  rw [List.getElem?_map, List.getElem?_zipIdx,
    (List.getElem?_zip_eq_some (z := (widths[c], row[c]))).2 ⟨List.getElem?_eq_getElem hc, List.getElem?_eq_getElem (by omega)⟩]
  simp

/-- The length of a piece. -/
def pieceLength (widths lines : List ℕ) (c : ℕ) : ℕ := widths.getD c 0 + if c ∈ lines then 3 else 0

theorem linePieces_lengths (widths lines : List ℕ) (row : List (List Char)) (hr : row.length = widths.length)
    (hw : ∀ c (hc : c < widths.length), (row[c]'(by omega)).length ≤ widths[c]) :
    (linePieces widths lines row).map List.length = (List.range widths.length).map (pieceLength widths lines) := by
  apply List.ext_getElem?
  intro c
  rw [List.getElem?_map, List.getElem?_map]
  by_cases hc : c < widths.length
  · rw [linePieces_get widths lines row c hc hr, List.getElem?_range hc, Option.map_some, Option.map_some, List.length_append,
      center_length _ _ (hw c hc)]
    unfold pieceLength
    rw [List.getD_eq_getElem _ _ hc]
    by_cases hl : c ∈ lines <;> simp [hl]
  · rw [List.getElem?_eq_none (by simp [linePieces, hr]; omega), List.getElem?_eq_none (by simp; omega)]
    rfl

/-- Where a column starts. -/
def columnOffset (widths lines : List ℕ) (c : ℕ) : ℕ := ((List.range c).map fun i => pieceLength widths lines i + 2).sum

theorem tableLine_shown (widths lines : List ℕ) (row : List (List Char)) (hr : row.length = widths.length)
    (hw : ∀ c (hc : c < widths.length), (row[c]'(by omega)).length ≤ widths[c]) :
    (tableLine widths lines row).length = ((List.range widths.length).map (pieceLength widths lines)).sum + (widths.length - 1) * 2 ∧
    ∀ c (hc : c < widths.length), Spec.Shown (tableLine widths lines row) (columnOffset widths lines c) widths[c] (row[c]'(by omega)) := by
  have hline : tableLine widths lines row = [' ', ' '].intercalate (linePieces widths lines row) := rfl
  have hplen : (linePieces widths lines row).length = widths.length := by simp [linePieces, hr]
  have hlens := linePieces_lengths widths lines row hr hw
  constructor
  · rw [hline, intercalate_length, hlens, hplen]
    rfl
  · intro c hc
    have hpc := linePieces_get widths lines row c hc hr
    have hcp : c < (linePieces widths lines row).length := by rw [hplen]; exact hc
    have hp := intercalate_piece [' ', ' '] (linePieces widths lines row) c hcp
    have hoff : (((linePieces widths lines row).take c).map fun x => x.length + [' ', ' '].length).sum = columnOffset widths lines c := by
      unfold columnOffset
      congr 1
      rw [List.map_take, show (fun x : List Char => x.length + [' ', ' '].length) = (fun n => n + 2) ∘ List.length from rfl, ← List.map_map, hlens,
        List.map_map, ← List.map_take, List.take_range, min_eq_left hc.le]
      rfl
    have hget : (linePieces widths lines row)[c] = center widths[c] (row[c]'(by omega)) ++ if c ∈ lines then [' ', ' ', '|'] else [] := by
      rw [List.getElem?_eq_getElem hcp] at hpc
      exact Option.some.inj hpc
    rw [hoff, hget] at hp
    have hcl := center_length widths[c] (row[c]'(by omega)) (hw c hc)
    refine ⟨(widths[c] - (row[c]'(by omega)).length) / 2, widths[c] - (row[c]'(by omega)).length - (widths[c] - (row[c]'(by omega)).length) / 2,
      by omega, by omega, by have := hw c hc; omega, ?_⟩
    rw [hline]
    have h1 := congrArg (List.take widths[c]) hp
    have h2 : ∀ (x y : List Char), x.length = widths[c] → List.take widths[c] (x ++ y) = x := by
      intro x y hx
      rw [← hx, List.take_left]
    rw [h2 _ _ hcl, List.take_take, List.length_append, hcl, min_eq_left (Nat.le_add_right _ _)] at h1
    exact h1

theorem columnWidths_ge (header : List (List Char)) (rows : List (List (List Char))) (c : ℕ) (hc : c < header.length) (r : List (List Char))
    (hr : r ∈ header :: rows) : (r.getD c []).length ≤ (columnWidths header rows).getD c 0 := by
  have hw : (columnWidths header rows).getD c 0 = ((header :: rows).map fun r => (r.getD c []).length).foldr max 0 := by
    unfold columnWidths
    rw [List.getD_eq_getElem _ _ (by rw [List.length_map, List.length_range]; exact hc), List.getElem_map, List.getElem_range]
  rw [hw]
  have : ∀ l : List ℕ, ∀ x ∈ l, x ≤ l.foldr max 0 := by
    intro l
    induction l with
    | nil => intro x hx; cases hx
    | cons a l ih =>
      intro x hx
      rw [List.foldr_cons]
      rcases List.mem_cons.1 hx with h | h
      · rw [h]; exact le_max_left _ _
      · exact (ih x h).trans (le_max_right _ _)
  exact this _ _ (List.mem_map.2 ⟨r, hr, rfl⟩)

/-- **C104** (text). Printed lines of a table, that is, its header, a rule, and its rows, have the same length, and there are disjoint columns of characters
such that each cell is centered in the same columns as its header. A row with fewer cells is completed with blanks. -/
theorem C104_lines (header : List (List Char)) (rows : List (List (List Char))) (lines : List ℕ) (hr : ∀ r ∈ rows, r.length ≤ header.length) :
    ∃ (offset width : ℕ → ℕ) (total : ℕ), (∀ c, offset c + width c + 2 ≤ offset (c + 1)) ∧
      (∀ line ∈ tableLines header rows lines, line.length = total) ∧
      (tableLines header rows lines).length = rows.length + 2 ∧
      (∃ line, (tableLines header rows lines)[0]? = some line ∧ ∀ c, ∀ hc : c < header.length, Spec.Shown line (offset c) (width c) header[c]) ∧
      ∀ k, ∀ hk : k < rows.length, ∃ line, (tableLines header rows lines)[k + 2]? = some line ∧
        ∀ c, c < header.length → Spec.Shown line (offset c) (width c) (rows[k].getD c []) := by
  have hwl : (columnWidths header (rows.map (paddedRow header.length))).length = header.length := by simp [columnWidths]
  have hpl : ∀ r ∈ rows, (paddedRow header.length r).length = header.length := by
    intro r h
    have := hr r h
    simp [paddedRow]
    omega
  have hwidth := columnWidths_ge header (rows.map (paddedRow header.length))
  unfold tableLines
  dsimp only
  generalize hw : columnWidths header (rows.map (paddedRow header.length)) = widths at hwl hwidth
  have hheader := tableLine_shown widths lines header hwl.symm fun c hc => by
    have := hwidth c (by omega) header List.mem_cons_self
    rwa [List.getD_eq_getElem _ _ (by omega), List.getD_eq_getElem _ _ hc] at this
  have hrule := tableLine_shown widths lines (widths.map fun w => List.replicate w '-') (by simp) fun c hc => by simp
  have hrow := fun r (h : r ∈ rows) => tableLine_shown widths lines (paddedRow header.length r) (by rw [hpl r h, hwl]) fun c hc => by
    have := hwidth c (by omega) (paddedRow header.length r) (List.mem_cons_of_mem _ (List.mem_map.2 ⟨r, h, rfl⟩))
    rwa [List.getD_eq_getElem _ _ (by rw [hpl r h]; omega), List.getD_eq_getElem _ _ hc] at this
  refine ⟨columnOffset widths lines, fun c => widths.getD c 0,
    ((List.range widths.length).map (pieceLength widths lines)).sum + (widths.length - 1) * 2, ?_, ?_, by simp, ⟨_, rfl, ?_⟩, ?_⟩
  · intro c
    unfold columnOffset
    rw [List.range_succ, List.map_append, List.sum_append]
    simp [pieceLength]
    omega
  · intro line hline
    rcases List.mem_append.1 hline with h | h
    · rcases List.mem_cons.1 h with h | h
      · rw [h]; exact hheader.1
      · rw [List.mem_singleton.1 h]; exact hrule.1
    · obtain ⟨_, h1, h2⟩ := List.mem_map.1 h
      obtain ⟨r, h3, h4⟩ := List.mem_map.1 h1
      rw [← h2, ← h4]
      exact (hrow r h3).1
  · intro c hc
    have := hheader.2 c (by omega)
    dsimp only
    rwa [List.getD_eq_getElem _ _ (by omega)]
  · intro k hk
    refine ⟨tableLine widths lines (paddedRow header.length rows[k]), ?_, ?_⟩
    · simp [hk]
    · intro c hc
      have := (hrow rows[k] (List.getElem_mem hk)).2 c (by omega)
      dsimp only
      rw [List.getD_eq_getElem _ _ (by omega)]
      have hcell : (paddedRow header.length rows[k])[c]'(by rw [hpl _ (List.getElem_mem hk)]; exact hc) = rows[k].getD c [] := by
        unfold paddedRow
        by_cases h : c < rows[k].length
        · rw [List.getElem_append_left h, List.getD_eq_getElem _ _ h]
        · rw [List.getElem_append_right (by omega), List.getElem_replicate, List.getD_eq_default _ _ (by omega)]
      rwa [hcell] at this

/-! ### Hypotheses are met -/

/-- Two random coefficients, correlated, one demographic, lags, one cost characteristic. -/
noncomputable def tableInputs' : ParamInputs where
  K1 := 1
  K2 := 2
  K3 := 1
  D := 1
  H := 2
  hasLags := true
  nodeColumns := 2
  usesPrices := fun _ => false
  values := fun
    | .sigma => some ⟨2, 2, fun _ _ => some 1⟩
    | .pi => some ⟨2, 1, fun i _ => if i = 0 then some 1 else some 0⟩
    | .rho => some ⟨2, 1, fun _ _ => some 1⟩
    | .phi => some ⟨2, 2, fun i j => if i = j then some 1 else some 0⟩
    | _ => none
  bounds := fun _ => none
  bounded := true
  allowLinearNans := true
  checkAlpha := true

/-- All conditions of C104 are met by parameters in which sigma is not diagonal, and in which no linear parameter is fixed. -/
example : ∃ p l, buildParameters tableInputs' = .ok p ∧ Spec.Labelled tableInputs' l ∧ 0 < (p.mats .rho).rows ∧ (p.mats .rho).rows = tableInputs'.H ∧
    tableInputs'.hasLags = true ∧ (∃ i j, j < i ∧ i < tableInputs'.K2 ∧ Spec.start tableInputs' .sigma i j ≠ some 0) ∧
    ∀ i < tableInputs'.K3, (⟨.beta, i, 0⟩ : Param) ∈ p.stored.fixed.map Prod.fst ↔ (⟨.gamma, i, 0⟩ : Param) ∈ p.stored.fixed.map Prod.fst := by
  have hok : ∃ p, buildParameters tableInputs' = .ok p := by
    rw [C45_accepted]
    refine ⟨?_, ?_, ?_, ?_, ?_, ?_⟩
    · intro b hb hn
      cases b <;> simp_all [tableInputs', Spec.Linear]
    · intro b m hm
      cases b <;> simp only [tableInputs', reduceCtorEq, Option.some.injEq] at hm <;> subst hm <;> simp [Spec.ShapeOk, tableInputs']
    · intro b m i j hm hi hj hn
      cases b <;> simp only [tableInputs', reduceCtorEq, Option.some.injEq] at hm <;> subst hm <;> revert hn
      · simp
      · dsimp only; split <;> simp
      · simp
      · dsimp only; split <;> simp
    · refine (Finset.card_filter_le _ _).trans ?_
      simp [tableInputs']
    · intro _ _ k _ hp
      simp [tableInputs'] at hp
    · intro b lb ub hb
      simp [tableInputs'] at hb
  obtain ⟨p, hp⟩ := hok
  obtain ⟨b0, H⟩ := built_of_ok hp
  have hr : (p.mats .rho).rows = 2 ∧ (p.mats .rho).cols = 1 := H.given .rho _ rfl
  have hc : ∀ b, Spec.Linear b → ∀ i, (⟨b, i, 0⟩ : Param) ∉ p.stored.fixed.map Prod.fst := by
    intro b hb i hi
    have hrange := ((C44_partition hp).2 b i 0).1 (List.mem_append_left _ (List.mem_append_left _ hi))
    refine (not_fixed_iff hp b i 0 hrange.1 hrange.2.1 hrange.2.2).2 (Or.inr ((C44_concentrated hp b i 0).2 ⟨hrange.1, hrange.2.1, hb, ?_⟩)) hi
    rcases hb with h' | h' <;> rw [h'] <;> simp [Spec.start, tableInputs']
  refine ⟨p, ⟨["a", "b"], ["d"], ["A", "B"], ["xi", "omega"], ["x"], ["w"], ["linear", "log"]⟩, hp, ⟨rfl, rfl, rfl, rfl, rfl, rfl, rfl⟩, by omega, hr.1, rfl,
    ⟨1, 0, by omega, by simp [tableInputs'], by simp [Spec.start, tableInputs']⟩, fun i _ => ?_⟩
  exact ⟨fun h => absurd h (hc _ (Or.inl rfl) i), fun h => absurd h (hc _ (Or.inr rfl) i)⟩

/-- A table with two columns, one of which is followed by a line, and a short row. -/
example : tableLines [['a', 'b', 'c'], ['d']] [[['x'], ['y', 'z']], [['u']]] [0] =
    ["abc  |  d ".toList, "---  |  --".toList, " x   |  yz".toList, " u   |    ".toList] := by rfl

end Pyblp
