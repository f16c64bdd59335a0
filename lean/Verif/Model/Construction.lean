import Verif.Model.Groups
import Verif.Model.PyErr
import Mathlib.Data.Prod.Lex
import Mathlib.Algebra.Order.Floor.Ring
import Mathlib.Data.Rat.Floor
import Mathlib.Analysis.SpecialFunctions.Pow.Real

/-!
# Functions that construct data (`pyblp/construction.py`)
-/

namespace Pyblp

variable {ι φ : Type} [LinearOrder ι] [LinearOrder φ] {N K : ℕ}

/-- `build_id_data(T, J, F)`, pyblp/construction.py:15-61, for integer arguments (other types raise `ValueError` too).
The quotient on line 60 is a float division; it is exact arithmetic here. -/
def buildIdData (T J F : ℤ) : Except PyErr (List (ℕ × ℤ)) :=
  if T < 1 ∨ F < 1 then .error .valueError
  else if J < F then .error .valueError
  else
    -- np.repeat(np.arange(T), J)
    let marketIds := (List.range T.toNat).flatMap fun t => List.replicate J.toNat t
    -- np.tile(np.arange(J), T)
    let tiled := (List.replicate T.toNat (List.range J.toNat)).flatten
    let firmIds := tiled.map fun j : ℕ => ⌊((j : ℚ) * (F : ℚ)) / (J : ℚ)⌋
    .ok (List.zip marketIds firmIds)

/-- The accepted values of `kappa_specification`. Used for pyblp/construction.py:161-169 and 64-171. -/
inductive Kappa (φ : Type) where
  | default
  | callable (kappa : φ → φ → ℝ)
  | monopoly
  | single

/-- `ownership[indices_t, :indices_t.size] = values`, pyblp/construction.py:162-169. `none` stands for NaN. -/
def writeBlock (O : Fin N → ℕ → Option ℝ) (indices : List (Fin N)) (values : ℕ → ℕ → ℝ) : Fin N → ℕ → Option ℝ :=
  fun i k => if i ∈ indices ∧ k < indices.length then some (values (indices.idxOf i) k) else O i k

/-- One market's block, pyblp/construction.py:161-169. `tiled_ids_t` has the firm ID of row `r` in all columns. -/
def ownershipBlock (kappa : Kappa φ) (firmIds : Fin N → φ) (indices : List (Fin N)) (r c : ℕ) : ℝ :=
  let byFirm := fun κ : φ → φ → ℝ => match indices[r]?, indices[c]? with
    | some i, some k => κ (firmIds i) (firmIds k)
    | _, _ => 0
  match kappa with
  | .monopoly => 1
  | .single => if r = c then 1 else 0
  | .default => byFirm fun f g => if f = g then 1 else 0
  | .callable κ => byFirm κ

/-- The array: its rows by column number, and its number of columns. Used for pyblp/construction.py:64-171. -/
structure Ownership (N : ℕ) where
  columns : ℕ
  entry : Fin N → ℕ → Option ℝ

/-- `build_ownership`, pyblp/construction.py:64-171, for one-dimensional ID columns (more columns raise `ValueError`).
Empty columns count as missing (`extract_matrix`). Firm IDs are not used for `'monopoly'` and `'single'`. -/
def buildOwnership (marketIds : Fin N → ι) (firmIds : Option (Fin N → φ)) (kappa : Kappa φ) :
    Except PyErr (Ownership N) :=
  if N = 0 then .error .keyError
  else
    let needsFirms := match kappa with
      | .monopoly => false
      | .single => false
      | _ => true
    match firmIds, needsFirms with
    | none, true => .error .keyError
    | firms, _ =>
      let indices := getIndices marketIds
      let maxJ := (indices.map fun p => p.2.length).foldr max 0
      let block := fun idx : List (Fin N) => match firms with
        | some f => ownershipBlock kappa f idx
        | none => ownershipBlock (match kappa with
            | .monopoly => Kappa.monopoly
            | _ => Kappa.single : Kappa Unit) (fun _ => ()) idx
      .ok { columns := maxJ
            entry := indices.foldl (fun O p => writeBlock O p.2 (block p.2)) fun _ _ => none }

/-- `interact_ids(market_ids, firm_ids)`, pyblp/utilities/basics.py:279-284: tuples, which Python orders
lexicographically. -/
def interactIds (marketIds : Fin N → ι) (firmIds : Fin N → φ) (i : Fin N) : Lex (ι × φ) := toLex (marketIds i, firmIds i)

/-- The first block of columns of `build_blp_instruments`, pyblp/construction.py:256; `none` is an index error. `sortP` is
what `argsort` returned for pairs of IDs. -/
def blpOther (marketIds : Fin N → ι) (firmIds : Fin N → φ) (sortP : List (Fin N)) (X : Fin N → Fin K → ℝ) (i : Fin N) :
    Option (Fin K → ℝ) :=
  let paired := Groups.mk' (interactIds marketIds firmIds) sortP
  (paired.expand (paired.sum X) i).map fun s => s - X i

/-- The second block of columns of `build_blp_instruments`, pyblp/construction.py:257. -/
def blpRival (marketIds : Fin N → ι) (firmIds : Fin N → φ) (sortM sortP : List (Fin N)) (X : Fin N → Fin K → ℝ)
    (i : Fin N) : Option (Fin K → ℝ) :=
  let markets := Groups.mk' marketIds sortM
  (markets.expand (markets.sum X) i).bind fun s => (blpOther marketIds firmIds sortP X i).map fun o => s - X i - o

/-- Versions of differentiation instruments. Used for pyblp/construction.py:407-409 and 411-426. -/
inductive DiffVersion where
  | localVersion
  | quadratic
  deriving DecidableEq

/-- Differences of characteristic `k` between rows `i` and `q` of a market, with a filled diagonal,
pyblp/construction.py:407-409. `none` is infinity. Rows of a market are named by their row numbers. -/
noncomputable def diffDistance (v : DiffVersion) (X : Fin N → Fin K → ℝ) (k : Fin K) (i q : Fin N) : Option ℝ :=
  if i = q then (match v with
    | .quadratic => some 0
    | .localVersion => none)
  else some (X i k - X q k)

/-- The first pass of `build_differentiation_instruments`, pyblp/construction.py:388-399. With no pair of products the
code's result is NaN, with which no comparison is true; here it is zero, with the same effect. -/
noncomputable def diffSd (indices : List (ι × List (Fin N))) (X : Fin N → Fin K → ℝ) (k : Fin K) : ℝ :=
  let dist := fun i q => if i = q then 0 else X i k - X q k
  let count : ℝ := (indices.map fun p => (p.2.length * p.2.length : ℝ) - p.2.length).sum
  let sum := (indices.map fun p => (p.2.map fun i => (p.2.map fun q => dist i q).sum).sum).sum
  let squared := (indices.map fun p => (p.2.map fun i => (p.2.map fun q => dist i q ^ 2).sum).sum).sum
  Real.sqrt (squared / count - (sum / count) ^ 2)

/-- `close`, pyblp/construction.py:419. -/
noncomputable def diffClose (sd : Fin K → ℝ) (X : Fin N → Fin K → ℝ) (k : Fin K) (i q : Fin N) : ℝ :=
  match diffDistance .localVersion X k i q with
  | none => 0
  | some d => if |d| < sd k then 1 else 0

/-- `generate_instrument_terms`, pyblp/construction.py:411-426, as a list of functions of pairs of rows. `big` is what
`nan_to_num` puts in place of infinity. -/
noncomputable def diffTerms (v : DiffVersion) (interact : Bool) (big : ℝ) (sd : Fin K → ℝ) (X : Fin N → Fin K → ℝ) :
    List (Fin N → Fin N → ℝ) :=
  (List.finRange K).flatMap fun k1 : Fin K =>
    match v with
    | .quadratic =>
      ((List.finRange K).filter fun k2 : Fin K => decide (k1 ≤ k2 ∧ (k2 : ℕ) < if interact then K else (k1 : ℕ) + 1)).map fun k2 i q =>
        (diffDistance v X k1 i q).getD 0 * (diffDistance v X k2 i q).getD 0
    | .localVersion =>
      if interact then
        (List.finRange K).map fun k2 i q => diffClose sd X k1 i q * (diffDistance v X k2 i q).getD big
      else [diffClose sd X k1]

/-- `build_differentiation_instruments`, pyblp/construction.py:261-447: the row of instruments of each product. -/
noncomputable def diffInstruments (marketIds : Fin N → ι) (firmIds : Fin N → φ) (v : DiffVersion) (interact : Bool)
    (big : ℝ) (X : Fin N → Fin K → ℝ) : Fin N → List ℝ :=
  let indices := getIndices marketIds
  let terms := diffTerms v interact big (diffSd indices X) X
  indices.foldl (fun Z p => fun i =>
    if i ∈ p.2 then
      let own := fun q => if firmIds i = firmIds q then (1 : ℝ) else 0
      (terms.map fun t => (p.2.map fun q => own q * t i q).sum) ++
        (terms.map fun t => (p.2.map fun q => (1 - own q) * t i q).sum)
    else Z i) fun _ => []

end Pyblp
