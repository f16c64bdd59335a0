import Verif.Model.Micro

/-!
# Micro moments, their parts, and covariances (`micro.py`, `economies/problem.py`)

Configurations are compared by identity in the code, so parts, datasets and moments are elements of types with decidable equality here.
-/

namespace Pyblp

variable {M P D : Type} [DecidableEq M] [DecidableEq P] [DecidableEq D]

/-- What the code knows about configurations. Used for pyblp/micro.py:350-357 and 424-431 and 340-357. -/
structure MicroConfig (M P D : Type) where
  momentName : M → String
  parts : M → List P
  partName : P → String
  dataset : P → D
  datasetName : D → String
  validDataset : D → Bool

/-- `for m, x in enumerate(l): for y in l[:m]: if bad(x, y): raise ...`. Used for pyblp/micro.py:340-357 and 397-437. -/
def hasClash {α : Type} (bad : α → α → Bool) (l : List α) : Bool :=
  (List.range l.length).any fun m => (l.take m).any fun y => match l[m]? with | some x => bad x y | none => false

/-- The tests of a pair of parts, pyblp/micro.py:350-357 and 424-431, except for identity. -/
def MicroConfig.partClash (c : MicroConfig M P D) (x y : P) : Bool :=
  decide (c.partName x = c.partName y) ||
    (decide (c.dataset x ≠ c.dataset y) && decide (c.datasetName (c.dataset x) = c.datasetName (c.dataset y)))

/-- Validation of the parts of a moment, pyblp/micro.py:340-357, for a sequence of parts. (A single part is stored as a list with one
element, which passes these tests.) -/
def MicroConfig.validateMoment (c : MicroConfig M P D) (m : M) : Except PyErr Unit :=
  if (c.parts m).length < 1 then .error .typeError
  else if hasClash (fun x y => decide (x = y) || c.partClash x y) (c.parts m) then .error .valueError
  else .ok ()

/-- Collecting parts, pyblp/micro.py:410-414. -/
def collectParts (parts : M → List P) (moments : List M) : List P :=
  moments.foldl (fun acc m => (parts m).foldl (fun acc p => if p ∈ acc then acc else acc ++ [p]) acc) []

/-- `Moments.__init__`, pyblp/micro.py:397-437: the list of parts. -/
def MicroConfig.buildMoments (c : MicroConfig M P D) (moments : List M) : Except PyErr (List P) :=
  if hasClash (fun x y => decide (x = y) || decide (c.momentName x = c.momentName y)) moments then .error .valueError
  else
    let l := collectParts c.parts moments
    if l.any fun p => !c.validDataset (c.dataset p) then .error .valueError
    else if hasClash c.partClash l then .error .valueError
    else .ok l

/-- `part_indices`, pyblp/economies/problem.py:1181. -/
def partIndices (parts : M → List P) (microParts : List P) (m : M) : List ℕ := (parts m).map fun p => microParts.idxOf p

/-- The argument of a moment's `compute_value` and `compute_gradient`, pyblp/economies/problem.py:1182 and 1195. -/
noncomputable def partArguments (parts : M → List P) (microParts : List P) (partsValues : List ℝ) (m : M) : List ℝ :=
  (partIndices parts microParts m).map fun k => partsValues.getD k 0

/-- `micro_gradients[m, part_indices] = micro_gradient` on a row of zeros, pyblp/economies/problem.py:1179 and 1209. -/
noncomputable def scatterGradient (indices : List ℕ) (gradient : List ℝ) : ℕ → ℝ :=
  (indices.zip gradient).foldl (fun row a => fun k => if k = a.1 then a.2 else row k) fun _ => 0

/-- A row of `-micro_gradients @ parts_jacobian`, pyblp/economies/problem.py:1234. -/
noncomputable def microJacobian (PM : ℕ) (row : ℕ → ℝ) (partsJacobian : ℕ → ℝ) : ℝ :=
  ((List.range PM).map fun k => -row k * partsJacobian k).sum

/-- `parts_jacobian`, pyblp/economies/problem.py:1229-1231, for a part and a parameter. -/
noncomputable def partsJacobianEntry (numerator denominator numeratorJacobian denominatorJacobian : ℝ) : ℝ :=
  (numeratorJacobian - numerator / denominator * denominatorJacobian) / denominator

/-- Covariances of parts, pyblp/economies/problem.py:1245-1257. -/
noncomputable def partsCovariances {n : ℕ} (numerator : Fin n → Fin n → ℝ) (denominator values : Fin n → ℝ) (dataset : Fin n → D)
    (observations : D → ℕ) (a b : Fin n) : ℝ :=
  let raw := fun p2 p1 : Fin n => numerator p2 p1 / denominator p2
  let scaled := fun p2 p1 : Fin n =>
    if p2 ≤ p1 ∧ dataset p1 = dataset p2 then (raw p2 p1 - values p1 * values p2) / (observations (dataset p1) : ℝ) else raw p2 p1
  if b < a then scaled b a else scaled a b

/-- `micro_gradients @ parts_covariances @ micro_gradients.T`, pyblp/economies/problem.py:1260. -/
noncomputable def microCovariances {n k : ℕ} (gradients : Fin k → Fin n → ℝ) (covariances : Fin n → Fin n → ℝ) (x y : Fin k) : ℝ :=
  ∑ b, (∑ a, gradients x a * covariances a b) * gradients y b

end Pyblp
