import Verif.Model.PyErr
import Verif.Tactics
import Mathlib.Data.EReal.Basic
import Mathlib.Data.List.Range
import Mathlib.Analysis.Real.Sqrt

/-!
# Parameters (`parameters.py`)

Floating point numbers are extended reals or NaN (`none`).
-/

namespace Pyblp

open Classical

/-- A floating point number: `none` is NaN. Used for pyblp/parameters.py:351-369 and 623-633. -/
abbrev Fl := Option EReal

/-- `a < b`, false if either is NaN. Used for pyblp/parameters.py:351-369. -/
def Fl.lt (a b : Fl) : Prop := ∃ x y, a = some x ∧ b = some y ∧ x < y

/-- The kinds of parameters: subclasses of `Parameter`, pyblp/parameters.py:65-139. The two kinds of `rho` parameters are one here
because `isinstance(parameter, RhoParameter)` accepts both. -/
inductive Block where
  | sigma | pi | rho | phi | beta | gamma
  deriving DecidableEq

/-- The order in which `store`, `compress` and `expand` list kinds, pyblp/parameters.py:289-294, 625-632 and 675-682. -/
def Block.all : List Block := [.sigma, .pi, .rho, .phi, .beta, .gamma]

/-- A matrix with its shape. Used for pyblp/parameters.py:180-198 and 316-340. -/
structure FMatrix where
  rows : ℕ
  cols : ℕ
  entry : ℕ → ℕ → Fl

/-- A parameter: its kind and location. Used for pyblp/parameters.py:390-397 and 301-307. -/
structure Param where
  block : Block
  row : ℕ
  col : ℕ
  deriving DecidableEq

/-- Inputs of `Parameters.__init__`, pyblp/parameters.py:180-198: dimensions of the economy, values and bounds. `usesPrices k` is
`'prices' in formulation.names` for column `k` of `X1`, and `nodeColumns` is `economy.agents.nodes.shape[1]`. -/
structure ParamInputs where
  K1 : ℕ
  K2 : ℕ
  K3 : ℕ
  D : ℕ
  H : ℕ
  hasLags : Bool
  nodeColumns : ℕ
  usesPrices : ℕ → Bool
  values : Block → Option FMatrix
  bounds : Block → Option (FMatrix × FMatrix)
  bounded : Bool
  allowLinearNans : Bool
  checkAlpha : Bool

/-- The shapes each matrix can have, pyblp/parameters.py:218-226. -/
def ParamInputs.shapes (e : ParamInputs) : Block → List (ℕ × ℕ)
  | .sigma => [(e.K2, e.K2)]
  | .pi => [(e.K2, e.D)]
  | .rho => [(e.H, 1), (1, 1)]
  | .phi => [(1 + if e.K3 > 0 then 1 else 0, if e.hasLags then 1 + (if e.K3 > 0 then 1 else 0) else 0)]
  | .beta => [(e.K1, 1)]
  | .gamma => [(e.K3, 1)]

/-- Whether a matrix may have NaNs, pyblp/parameters.py:225-226. -/
def ParamInputs.allowNans (e : ParamInputs) : Block → Bool
  | .beta | .gamma => e.allowLinearNans
  | _ => false

/-- `initialize_matrix`, pyblp/parameters.py:316-340. -/
noncomputable def initializeMatrix (values : Option FMatrix) (shapes : List (ℕ × ℕ)) (allowNans : Bool) : Except PyErr FMatrix :=
  let nans : FMatrix := ⟨(shapes.headD (0, 0)).1, (shapes.headD (0, 0)).2, fun _ _ => none⟩
  if allowNans ∧ values = none then .ok nans
  else
    let matrix := values.getD nans
    if decide (values.isSome ∧ matrix.rows * matrix.cols > 0) ≠ shapes.all (fun s => decide (s.1 * s.2 > 0)) then .error .valueError
    else if (matrix.rows, matrix.cols) ∉ shapes then .error .valueError
    else if allowNans = false ∧ ∃ i < matrix.rows, ∃ j < matrix.cols, matrix.entry i j = none then .error .valueError
    else .ok matrix

/-- `self.sigma[np.triu_indices(economy.K2, 1)] = 0`, pyblp/parameters.py:229. -/
noncomputable def fillUpper (m : FMatrix) : FMatrix := { m with entry := fun i j => if i < j then some 0 else m.entry i j }

/-- Collect a result for each kind, or the first error. Used for pyblp/parameters.py:180-313. -/
def forBlocks {α : Type} (f : Block → Except PyErr α) : Except PyErr (Block → α) :=
  match f .sigma, f .pi, f .rho, f .phi, f .beta, f .gamma with
  | .ok a, .ok b, .ok c, .ok d, .ok e, .ok g => .ok fun
    | .sigma => a | .pi => b | .rho => c | .phi => d | .beta => e | .gamma => g
  | .error x, _, _, _, _, _ => .error x
  | _, .error x, _, _, _, _ => .error x
  | _, _, .error x, _, _, _ => .error x
  | _, _, _, .error x, _, _ => .error x
  | _, _, _, _, .error x, _ => .error x
  | _, _, _, _, _, .error x => .error x

/-- Lower and upper bounds. Used for pyblp/parameters.py:351-369 and 371-375. -/
abbrev BoundsMatrix := ℕ → ℕ → EReal × EReal

/-- `initialize_bounds`, first part, pyblp/parameters.py:351-369: user bounds with NaNs replaced by infinities, or infinities. -/
noncomputable def validateBounds (m : FMatrix) (user : Option (FMatrix × FMatrix)) : Except PyErr BoundsMatrix :=
  match user with
  | none => .ok fun _ _ => (⊥, ⊤)
  | some (lb, ub) =>
    if m.rows * m.cols = 0 then .ok fun _ _ => (⊥, ⊤)
    else
      let bounds : BoundsMatrix := fun i j => ((lb.entry i j).getD ⊥, (ub.entry i j).getD ⊤)
      if (lb.rows, lb.cols) ≠ (m.rows, m.cols) then .error .valueError
      else if (ub.rows, ub.cols) ≠ (m.rows, m.cols) then .error .valueError
      else if ∃ i < m.rows, ∃ j < m.cols, Fl.lt (m.entry i j) (some (bounds i j).1) ∨ Fl.lt (some (bounds i j).2) (m.entry i j) then
        .error .valueError
      else .ok bounds

/-- Keeping only bounds that fix parameters, pyblp/parameters.py:371-375. -/
noncomputable def dropBounds (bounded : Bool) (bounds : BoundsMatrix) : BoundsMatrix :=
  if bounded then bounds else fun i j => if (bounds i j).1 ≠ (bounds i j).2 then (⊥, ⊤) else bounds i j

/-- Fixing parameters set to zero, pyblp/parameters.py:377-379. -/
noncomputable def fixZeros (m : FMatrix) (bounds : BoundsMatrix) : BoundsMatrix :=
  fun i j => if m.entry i j = some 0 then (0, 0) else bounds i j

/-- `initialize_bounds`, pyblp/parameters.py:342-380. -/
noncomputable def initializeBounds (m : FMatrix) (user : Option (FMatrix × FMatrix)) (bounded : Bool) : Except PyErr BoundsMatrix :=
  match validateBounds m user with
  | .error e => .error e
  | .ok bounds => .ok (fixZeros m (dropBounds bounded bounds))

/-- The locations `store` goes through, pyblp/parameters.py:289-294: `np.tril_indices_from` or `np.ndindex`. -/
def locations (b : Block) (m : FMatrix) : List (ℕ × ℕ) :=
  (List.range m.rows).flatMap fun i => ((List.range (if b = .sigma then min (i + 1) m.cols else m.cols)).map fun j => (i, j))

/-- Lists filled by `store`. Used for pyblp/parameters.py:390-397 and 286-294. -/
structure Stored where
  fixed : List (Param × EReal)
  unfixed : List Param
  eliminated : List Param

/-- One iteration of `store`, pyblp/parameters.py:390-397, together with `Parameter.__init__`, pyblp/parameters.py:27-30. -/
noncomputable def storeOne (mats : Block → FMatrix) (bounds : Block → BoundsMatrix) (s : Stored) (p : Param) : Stored :=
  let b := bounds p.block p.row p.col
  if (p.block = .beta ∨ p.block = .gamma) ∧ (mats p.block).entry p.row p.col = none then
    { s with eliminated := s.eliminated ++ [p] }
  else if b.1 = b.2 then { s with fixed := s.fixed ++ [(p, b.1)] }
  else { s with unfixed := s.unfixed ++ [p] }

/-- All locations in the order in which they are stored. Used for pyblp/parameters.py:286-294. -/
def allParams (mats : Block → FMatrix) : List Param :=
  Block.all.flatMap fun b => (locations b (mats b)).map fun l => ⟨b, l.1, l.2⟩

/-- The calls of `store`, pyblp/parameters.py:286-294. -/
noncomputable def storeAll (mats : Block → FMatrix) (bounds : Block → BoundsMatrix) : Stored :=
  (allParams mats).foldl (storeOne mats bounds) ⟨[], [], []⟩

/-- Default bounds of one parameter, pyblp/parameters.py:301-307. -/
noncomputable def defaultBounds (e : ParamInputs) (mats : Block → FMatrix) (p : Param) (b : EReal × EReal) : EReal × EReal :=
  let x := ((mats p.block).entry p.row p.col).getD 0
  if p.block = .sigma ∧ (e.bounds .sigma).isNone ∧ p.row = p.col then (min 0 x, b.2)
  else if p.block = .rho ∧ (e.bounds .rho).isNone then (min 0 x, max ((0.99 : ℝ) : EReal) x)
  else b

/-- A `Parameters` object. Used for pyblp/parameters.py:180-313 and 623-633. -/
structure Parameters where
  mats : Block → FMatrix
  bounds : Block → BoundsMatrix
  stored : Stored

/-- Matrices after the upper triangle of `sigma` is filled, pyblp/parameters.py:218-229. -/
noncomputable def withUpper (raw : Block → FMatrix) : Block → FMatrix := fun b => if b = .sigma then fillUpper (raw b) else raw b

/-- `self.nonzero_sigma_index.sum()`, pyblp/parameters.py:238. -/
noncomputable def nonzeroColumns (K2 : ℕ) (sigma : FMatrix) : ℕ :=
  (List.range K2).countP fun j => decide (∃ i < K2, sigma.entry i j ≠ some 0)

/-- Bounds after defaults are set, pyblp/parameters.py:300-307. Each parameter's default bounds are set once, so the loop over
unfixed parameters is written as a condition on membership. -/
noncomputable def withDefaults (e : ParamInputs) (mats : Block → FMatrix) (unfixed : List Param) (bounds : Block → BoundsMatrix) :
    Block → BoundsMatrix := fun b i j =>
  if e.bounded ∧ (⟨b, i, j⟩ : Param) ∈ unfixed then defaultBounds e mats ⟨b, i, j⟩ (bounds b i j) else bounds b i j

/-- `Parameters.__init__`, pyblp/parameters.py:180-313, except for labels and flags. -/
noncomputable def buildParameters (e : ParamInputs) : Except PyErr Parameters :=
  match forBlocks fun b => initializeMatrix (e.values b) (e.shapes b) (e.allowNans b) with
  | .error x => .error x
  | .ok raw =>
    if e.nodeColumns < nonzeroColumns e.K2 (withUpper raw .sigma) then .error .valueError
    else if e.checkAlpha ∧ e.K3 > 0 ∧ ∃ k < e.K1, e.usesPrices k ∧ (withUpper raw .beta).entry k 0 = none then .error .valueError
    else
      match forBlocks fun b => initializeBounds (withUpper raw b) (e.bounds b) e.bounded with
      | .error x => .error x
      | .ok bounds =>
        .ok ⟨withUpper raw, withDefaults e (withUpper raw) (storeAll (withUpper raw) bounds).unfixed bounds,
          storeAll (withUpper raw) bounds⟩

/-- `compress`, pyblp/parameters.py:623-633, of matrices. -/
def compress (p : Parameters) (values : Block → ℕ → ℕ → Fl) : List Fl :=
  Block.all.flatMap fun b => (p.stored.unfixed.filter fun q => decide (q.block = b)).map fun q => values b q.row q.col

/-- `compress_bounds`, pyblp/parameters.py:635-645. -/
def compressBounds (p : Parameters) : List (EReal × EReal) :=
  Block.all.flatMap fun b => (p.stored.unfixed.filter fun q => decide (q.block = b)).map fun q => p.bounds b q.row q.col

/-- `values[parameter.location] = value`. Used for pyblp/parameters.py:659-700. -/
def setParam (values : Block → ℕ → ℕ → Fl) (q : Param) (x : Fl) : Block → ℕ → ℕ → Fl :=
  fun b i j => if (⟨b, i, j⟩ : Param) = q then x else values b i j

/-- `expand`, pyblp/parameters.py:659-700. -/
noncomputable def expand (p : Parameters) (theta : List Fl) (nullify : Bool) : Block → ℕ → ℕ → Fl :=
  let empty : Block → ℕ → ℕ → Fl := fun _ _ _ => none
  let filled := (p.stored.unfixed.zip theta).foldl (fun v q => setParam v q.1 q.2) empty
  if nullify then filled
  else
    let upper : Block → ℕ → ℕ → Fl := fun b i j => if b = .sigma ∧ i < j then some 0 else filled b i j
    p.stored.fixed.foldl (fun v q => setParam v q.1 (some q.2)) upper

/-! ## Standard errors -/

/-- `np.sqrt`: NaN if negative or NaN. Used for pyblp/results/problem_results.py:575-591. -/
noncomputable def sqrtFl (x : Option ℝ) : Fl :=
  match x with
  | none => none
  | some x => if x < 0 then none else some ((x.sqrt : ℝ) : EReal)

/-- `beta_se[eliminated_beta_index] = eliminated_beta_se.flatten()`: entries of the mask are filled in row order,
pyblp/results/problem_results.py:590-591. -/
def fillMask (values : ℕ → Fl) (mask : List ℕ) (entries : List Fl) : ℕ → Fl :=
  (mask.zip entries).foldl (fun v q => fun i => if i = q.1 then q.2 else v i) values

/-- Indices of NaNs in a vector, `np.isnan`, pyblp/parameters.py:253-254. -/
noncomputable def eliminatedRows (m : FMatrix) : List ℕ := (List.range m.rows).filter fun i => decide (m.entry i 0 = none)

/-- Standard errors, pyblp/results/problem_results.py:575-591, given the diagonal of the parameter covariances. -/
noncomputable def standardErrors (p : Parameters) (N : ℕ) (diagonal : List (Option ℝ)) : Block → ℕ → ℕ → Fl :=
  let se := diagonal.map fun x => sqrtFl (x.map (· / (N : ℝ)))
  let P := p.stored.unfixed.length
  let nb := (eliminatedRows (p.mats .beta)).length
  let theta := se.take P
  let betaSe := (se.drop P).take nb
  let gammaSe := se.drop (P + nb)
  let expanded := expand p theta true
  fun
  | .beta, i, j => if j = 0 then fillMask (fun i => expanded .beta i 0) (eliminatedRows (p.mats .beta)) betaSe i else expanded .beta i j
  | .gamma, i, j => if j = 0 then fillMask (fun i => expanded .gamma i 0) (eliminatedRows (p.mats .gamma)) gammaSe i else expanded .gamma i j
  | b, i, j => expanded b i j

end Pyblp
