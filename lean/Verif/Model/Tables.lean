import Verif.Model.Parameters

/-!
# Labels and printed tables of parameters (`parameters.py`, `format_table` in `utilities/basics.py`)
-/

set_option linter.unusedSectionVars false

namespace Pyblp

/-- What is in a cell of a table: text, a number (`format_number`, pyblp/utilities/basics.py:324-332) or a standard error (`format_se`,
pyblp/utilities/basics.py:335-342). How digits are printed is not modelled here. -/
inductive Cell where
  | text (s : String)
  | number (x : Fl)
  | se (x : Fl)

/-- An empty string in a table. Used for pyblp/parameters.py:517, 540 and 556-621. -/
def Cell.blank : Cell := .text ""

/-- A table: its header, its rows, and the indices of columns that are followed by a line. These are the arguments of `format_table`,
pyblp/utilities/basics.py:359-371. -/
structure Table where
  header : List String
  rows : List (List Cell)
  lines : List ℕ

/-- Labels of parameters, pyblp/parameters.py:206-215. -/
structure ParamLabels where
  sigma : List String
  pi : List String
  rho : List String
  phi : List String
  beta : List String
  gamma : List String
  rcTypes : List String

/-- Values and optional standard errors of all parameters. Elements of the last one are of sigma times its transpose. Used for
pyblp/parameters.py:464-498. -/
structure ParamValues where
  values : Block → ℕ → ℕ → Fl
  sigmaSquared : ℕ → ℕ → Fl

/-- `i in fixed_indices`, pyblp/parameters.py:539. -/
def isFixedRow (p : Parameters) (kind : Block) (i : ℕ) : Bool := p.stored.fixed.any fun q => decide (q.1.block = kind ∧ q.1.row = i)

/-- `format_vector`, pyblp/parameters.py:528-541. -/
def formatVector (p : Parameters) (kind : Block) (header : List String) (size : ℕ) (vector : ℕ → Fl) (errors : Option (ℕ → Fl)) : Table :=
  let values := (List.range size).map fun i => Cell.number (vector i)
  match errors with
  | none => ⟨header, [values], []⟩
  | some se => ⟨header, [values, (List.range size).map fun i => if isFixedRow p kind i then .blank else .se (se i)], []⟩

/-- `format_rho`, pyblp/parameters.py:500-503. -/
def formatRho (p : Parameters) (l : ParamLabels) (v : ParamValues) (se : Option ParamValues) : Table :=
  let header := if (p.mats .rho).rows > 1 then l.rho else ["All Groups"]
  formatVector p .rho header (p.mats .rho).rows (fun i => v.values .rho i 0) (se.map fun s i => s.values .rho i 0)

/-- `format_beta`, pyblp/parameters.py:520-522. -/
def formatBeta (p : Parameters) (l : ParamLabels) (v : ParamValues) (se : Option ParamValues) : Table :=
  formatVector p .beta l.beta (p.mats .beta).rows (fun i => v.values .beta i 0) (se.map fun s i => s.values .beta i 0)

/-- `format_gamma`, pyblp/parameters.py:524-526. The type of parameters is that of `beta`. -/
def formatGamma (p : Parameters) (l : ParamLabels) (v : ParamValues) (se : Option ParamValues) : Table :=
  formatVector p .beta l.gamma (p.mats .gamma).rows (fun i => v.values .gamma i 0) (se.map fun s i => s.values .gamma i 0)

/-- `i in fixed_indices` for a row of `phi`, pyblp/parameters.py:513-514. -/
def isFixedPhi (p : Parameters) (row i : ℕ) : Bool :=
  (p.stored.fixed.filter fun q => decide (q.1.row = row)).any fun q => decide (q.1.block = .phi ∧ q.1.col = i)

/-- `format_phi`, pyblp/parameters.py:505-518. -/
def formatPhi (p : Parameters) (l : ParamLabels) (v : ParamValues) (se : Option ParamValues) : Table :=
  let m := p.mats .phi
  if m.rows * m.cols = 1 then formatVector p .phi l.phi m.rows (fun i => v.values .phi i 0) (se.map fun s i => s.values .phi i 0)
  else
    ⟨"" :: l.phi, l.phi.zipIdx.flatMap fun r =>
      let values := Cell.text r.1 :: (List.range m.cols).map fun j => Cell.number (v.values .phi r.2 j)
      match se with
      | none => [values]
      | some s => [values, Cell.blank :: (List.range m.cols).map fun j => if isFixedPhi p r.2 j then .blank else .se (s.values .phi r.2 j)],
      []⟩

open Classical in
/-- `diagonal_sigma`, pyblp/parameters.py:235. -/
noncomputable def diagonalSigma (p : Parameters) : Bool :=
  !decide (∃ i < (p.mats .sigma).rows, ∃ j < i, (p.mats .sigma).entry i j ≠ some 0)

/-- `column_index in unfixed_sigma_indices` and `column_index in unfixed_pi_indices`, pyblp/parameters.py:595-597. -/
def isUnfixed (p : Parameters) (kind : Block) (row column : ℕ) : Bool :=
  (p.stored.unfixed.filter fun q => decide (q.row = row)).any fun q => decide (q.block = kind ∧ q.col = column)

/-- A row of values, pyblp/parameters.py:577-588. -/
def nonlinearValues (K2 D : ℕ) (types : Bool) (squared : Bool) (v : ParamValues) (i : ℕ) (type label : String) : List Cell :=
  (if types then [Cell.text (type.capitalize)] else []) ++ [.text label] ++
    ((List.range (i + 1)).map fun j => Cell.number (v.values .sigma i j)) ++ List.replicate (K2 - i - 1) .blank ++
    (if squared then Cell.text label :: (List.range K2).map fun j => Cell.number (v.sigmaSquared i j) else []) ++
    (if 0 < D then Cell.text label :: (List.range D).map fun j => Cell.number (v.values .pi i j) else [])

/-- A row of standard errors, pyblp/parameters.py:595-615. -/
def nonlinearErrors (p : Parameters) (K2 D : ℕ) (types : Bool) (squared : Bool) (s : ParamValues) (i : ℕ) : List Cell :=
  List.replicate (if types then 2 else 1) .blank ++
    ((List.range (i + 1)).map fun j => if isUnfixed p .sigma i j then Cell.se (s.values .sigma i j) else .blank) ++
    List.replicate (K2 - i - 1) .blank ++
    (if squared then Cell.blank :: (List.range K2).map fun j => Cell.se (s.sigmaSquared i j) else []) ++
    (if 0 < D then Cell.blank :: (List.range D).map fun j => if isUnfixed p .pi i j then Cell.se (s.values .pi i j) else .blank else [])

/-- `format_nonlinear_coefficients`, pyblp/parameters.py:543-621, when sigma squared is given. -/
noncomputable def formatNonlinear (p : Parameters) (l : ParamLabels) (v : ParamValues) (se : Option ParamValues) : Table :=
  let K2 := (p.mats .sigma).cols
  let D := (p.mats .pi).cols
  let types := l.rcTypes.any fun d => decide (d ≠ "linear")
  let squared := !diagonalSigma p
  let first := (if types then ["Types:"] else []) ++ ["Sigma:"] ++ l.sigma
  let second := if squared then "Sigma Squared:" :: l.sigma else []
  let third := if l.pi = [] then [] else "Pi:" :: l.pi
  ⟨first ++ second ++ third,
    (l.rcTypes.zip l.sigma).zipIdx.flatMap fun r =>
      nonlinearValues K2 D types squared v r.2 r.1.1 r.1.2 ::
        match se with
        | none => []
        | some s =>
          let errors := nonlinearErrors p K2 D types squared s r.2
          errors :: if r.2 < K2 - 1 then [List.replicate errors.length .blank] else [],
    (if types then [0] else []) ++ (if squared then [first.length - 1] else []) ++
      (if l.pi = [] then [] else [(first ++ second).length - 1])⟩

/-- `format_estimates`, pyblp/parameters.py:464-498. -/
noncomputable def formatEstimates (p : Parameters) (l : ParamLabels) (v s : ParamValues) : List Table :=
  let size := fun b => (p.mats b).rows * (p.mats b).cols
  (if size .sigma > 0 then [formatNonlinear p l v (some s)] else []) ++ (if size .rho > 0 then [formatRho p l v (some s)] else []) ++
    (if size .phi > 0 then [formatPhi p l v (some s)] else []) ++ (if size .beta > 0 then [formatBeta p l v (some s)] else []) ++
    (if size .gamma > 0 then [formatGamma p l v (some s)] else [])

/-- The label of an element, pyblp/parameters.py:649-656. -/
def paramLabel (l : ParamLabels) : Block → ℕ → ℕ → String
  | .sigma, i, j => s!"{l.sigma.getD i ""} x {l.sigma.getD j ""}"
  | .pi, i, j => s!"{l.sigma.getD i ""} x {l.pi.getD j ""}"
  | .rho, i, _ => l.rho.getD i ""
  | .phi, i, j => s!"{l.phi.getD i ""} on {l.phi.getD j ""}"
  | .beta, i, _ => l.beta.getD i ""
  | .gamma, i, _ => l.gamma.getD i ""

/-- `compress_labels`, pyblp/parameters.py:647-657. -/
def compressLabels (p : Parameters) (l : ParamLabels) : List String :=
  Block.all.flatMap fun b => (p.stored.unfixed.filter fun q => decide (q.block = b)).map fun q => paramLabel l b q.row q.col

/-! ### Text -/

/-- `data_rows`, pyblp/utilities/basics.py:387: strings padded with empty ones. -/
def paddedRow (columns : ℕ) (row : List (List Char)) : List (List Char) := row ++ List.replicate (columns - row.length) []

/-- `widths`, pyblp/utilities/basics.py:390-392, for a header with strings and not lists of them, at least one of which is not empty. -/
def columnWidths (header : List (List Char)) (rows : List (List (List Char))) : List ℕ :=
  (List.range header.length).map fun c => ((header :: rows).map fun r => (r.getD c []).length).foldr max 0

/-- `'{:^w}'.format(s)`, pyblp/utilities/basics.py:395. -/
def center (w : ℕ) (s : List Char) : List Char :=
  List.replicate ((w - s.length) / 2) ' ' ++ s ++ List.replicate (w - s.length - (w - s.length) / 2) ' '

/-- `template.format(*row)`, pyblp/utilities/basics.py:395 and 403-407. -/
def tableLine (widths : List ℕ) (lines : List ℕ) (row : List (List Char)) : List Char :=
  [' ', ' '].intercalate ((widths.zip row).zipIdx.map fun p => center p.1.1 p.1.2 ++ if p.2 ∈ lines then [' ', ' ', '|'] else [])

/-- Lines of the header and of data, pyblp/utilities/basics.py:387-407, without title and borders. -/
def tableLines (header : List (List Char)) (rows : List (List (List Char))) (lines : List ℕ) : List (List Char) :=
  let padded := rows.map (paddedRow header.length)
  let widths := columnWidths header padded
  [tableLine widths lines header, tableLine widths lines (widths.map fun w => List.replicate w '-')] ++ padded.map (tableLine widths lines)

end Pyblp
