import Verif.Model.PyErr
import Verif.Tactics
import Init.Data.Nat.ToString

/-!
# Fields of data by name (`data_to_dict`, `extract_matrix`)

Names are lists of characters. `f'{key}{index}'` is `key ++ Nat.toDigits 10 index`.
-/

namespace Pyblp

variable {α : Type}

/-- A field name. Used for pyblp/construction.py:603-607 and 595-607. -/
abbrev Key := List Char

/-- A field of a record array: one-dimensional, two-dimensional (its columns), or with more dimensions.
Used for pyblp/construction.py:595-607 and 550-609. -/
inductive Field (α : Type) where
  | oneD (column : List α)
  | twoD (columns : List (List α))
  | higher

/-- `size == 0` of an array given by its columns. Used for pyblp/construction.py:595-607 and pyblp/utilities/basics.py:234-253. -/
def emptyColumns (columns : List (List α)) : Bool := columns.all List.isEmpty

/-- `f'{key}{index}'`. Used for pyblp/construction.py:603-607 and pyblp/utilities/basics.py:234-253. -/
def indexedKey (key : Key) (index : ℕ) : Key := key ++ Nat.toDigits 10 index

/-- `mapping[key] = value` for a dictionary in insertion order. Used for pyblp/construction.py:603-607 and 595-607. -/
def dictSet (m : List (Key × List α)) (key : Key) (value : List α) : List (Key × List α) :=
  if key ∈ m.map Prod.fst then m.map fun p => if p.1 = key then (key, value) else p else m ++ [(key, value)]

/-- The loop over columns, pyblp/construction.py:603-607. -/
def splitColumns (names : List Key) (key : Key) :
    List (ℕ × List α) → List (Key × List α) → Except PyErr (List (Key × List α))
  | [], m => .ok m
  | (index, column) :: rest, m =>
    if indexedKey key index ∈ names then .error .keyError
    else splitColumns names key rest (dictSet m (indexedKey key index) column)

/-- The loop over fields, pyblp/construction.py:595-607. -/
def dataToDictLoop (ignoreEmpty : Bool) (names : List Key) :
    List (Key × Field α) → List (Key × List α) → Except PyErr (List (Key × List α))
  | [], m => .ok m
  | (key, field) :: rest, m =>
    match field with
    | .higher => .error .valueError
    | .oneD column =>
      if ignoreEmpty && column.isEmpty then dataToDictLoop ignoreEmpty names rest m
      else dataToDictLoop ignoreEmpty names rest (dictSet m key column)
    | .twoD columns =>
      if ignoreEmpty && emptyColumns columns then dataToDictLoop ignoreEmpty names rest m
      else if columns.length = 1 ∨ emptyColumns columns then
        -- `.flatten()`
        dataToDictLoop ignoreEmpty names rest (dictSet m key columns.flatten)
      else
        match splitColumns names key (columns.zipIdx.map Prod.swap) m with
        | .error e => .error e
        | .ok m' => dataToDictLoop ignoreEmpty names rest m'

/-- `data_to_dict`, pyblp/construction.py:550-609, for a record array with the given fields. -/
def dataToDict (ignoreEmpty : Bool) (fields : List (Key × Field α)) : Except PyErr (List (Key × List α)) :=
  dataToDictLoop ignoreEmpty (fields.map Prod.fst) fields []

/-- `structured_array_like[key]` as columns (`np.c_`); `none` is an exception. Used for pyblp/utilities/basics.py:234-253 and 226-253. -/
def fetch (data : List (Key × List (List α))) (key : Key) : Option (List (List α)) := (data.find? fun p => p.1 = key).map Prod.snd

/-- The `while True` loop, pyblp/utilities/basics.py:234-253, with fuel. -/
def stackParts (data : List (Key × List (List α))) (key : Key) : ℕ → ℕ → List (List α) → List (List α)
  | 0, _, parts => parts
  | fuel + 1, index, parts =>
    match fetch data (indexedKey key index) with
    | none => parts
    | some part => stackParts data key fuel (index + 1) (if emptyColumns part then parts else parts ++ part)

/-- `extract_matrix`, pyblp/utilities/basics.py:226-253, as columns. The loop ends because there are finitely many fields
(`extract_fuel`); the warning on line 247 is not modelled. -/
def extractMatrix (data : List (Key × List (List α))) (key : Key) : Option (List (List α)) :=
  match fetch data key with
  | some matrix => if emptyColumns matrix then none else some matrix
  | none =>
    let parts := stackParts data key (data.length + 1) 0 []
    if parts.isEmpty then none else some parts

end Pyblp
