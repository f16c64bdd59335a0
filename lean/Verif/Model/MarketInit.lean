import Verif.Model.Tangents
import Verif.Model.Parameters
import Verif.Model.Groups
import Verif.Model.Agents
import Verif.Model.Scores

/-!
# What a market is built from (`markets/market.py`, `Market.__init__`), and micro agents with an integration configuration
(`primitives.py`, `MicroAgents.__new__`)
-/

namespace Pyblp

open Classical

noncomputable section

/-! ## Nodes -/

/-- `nonzero_sigma_index`, pyblp/parameters.py:238, of starting values of `sigma`. -/
def nonzeroSigma (p : Parameters) (K2 : ℕ) (l : Fin K2) : Bool := decide (∃ k < K2, (p.mats .sigma).entry k l ≠ some 0)

/-- Columns that are `True` in a mask. Used for pyblp/markets/market.py:108-111. -/
def maskColumns {n : ℕ} (mask : Fin n → Bool) : List (Fin n) := (List.finRange n).filter mask

/-- Columns of nodes are deleted if there are too many, pyblp/primitives.py:412-414 and 508-510. -/
def trimNodes {I : Type} {c : ℕ} (K2 : ℕ) (nodes : I → Fin c → ℝ) : I → Fin (min c K2) → ℝ := fun i l => nodes i (l.castLE (min_le_left _ _))

/-- Integration nodes of a market, with one column for each column of `sigma`, pyblp/markets/market.py:104-111. The assignment to columns of
a mask is as in NumPy: the number of columns has to be the same, or there is one column, which is then used for all. If nothing is filled although
the number of columns differs, `sigma @ nodes.T` (line 190) is a value error. -/
def marketNodes {I : Type} {c K2 : ℕ} (nonzero : Fin K2 → Bool) (nodes : I → Fin c → ℝ) : Except PyErr (I → Fin K2 → ℝ) :=
  if h : c = K2 then .ok fun i l => nodes i (l.cast h.symm)
  else if ∀ l, nonzero l = true then .error .valueError
  else
    let columns := maskColumns nonzero
    let source : I → ℕ → ℝ := fun i n => if h : n < c then nodes i ⟨n, h⟩ else 0
    if min c columns.length = columns.length then .ok fun i l => if nonzero l then source i (columns.idxOf l) else 0
    else if min c columns.length = 1 then .ok fun i l => if nonzero l then source i 0 else 0
    else .error .valueError

/-! ## Random coefficients -/

/-- Demographics: one value for each agent, or one for each agent and product (there are at least as many columns of these as products in a
market). Used for pyblp/markets/market.py:112-114 and 183-240. -/
inductive DemographicsArray (I D : Type) (J extra : ℕ) where
  | plain (y : I → D → ℝ)
  | byProduct (y : I → D → Fin (J + extra) → ℝ)

/-- Random coefficients: an array with two dimensions, or with three. Used for pyblp/markets/market.py:183-240. -/
inductive CoefficientArray (J : ℕ) (K2 I : Type) where
  | two (a : K2 → I → ℝ)
  | three (a : Fin J → K2 → I → ℝ)

variable {I D K2 N : Type} [Fintype D] [Fintype K2] [Fintype N] {J extra : ℕ}

/-- `compute_random_coefficients`, pyblp/markets/market.py:183-210, with the deletion of values for products that are not in the market
(lines 112-114). -/
def coefficientArray (nodes : I → N → ℝ) (y : DemographicsArray I D J extra) (rcType : K2 → RcType) (sigma : K2 → N → ℝ) (pi : K2 → D → ℝ) :
    CoefficientArray J K2 I :=
  let base : K2 → I → ℝ := fun k i => ∑ l, sigma k l * nodes i l
  if 0 < Fintype.card D then
    match y with
    | .plain y => .two fun k i => transformCoefficient (rcType k) (base k i + ∑ d, pi k d * y i d)
    | .byProduct y => .three fun j k i => transformCoefficient (rcType k) (base k i + ∑ d, pi k d * y i d (j.castAdd extra))
  else .two fun k i => transformCoefficient (rcType k) (base k i)

/-- `compute_single_random_coefficient`, pyblp/markets/market.py:212-227: an array with one row, or with one row for each product. -/
def singleCoefficient (nodes : I → N → ℝ) (y : DemographicsArray I D J extra) (rcType : K2 → RcType) (sigma : K2 → N → ℝ) (pi : K2 → D → ℝ)
    (k : K2) : CoefficientArray J Unit I :=
  let base : I → ℝ := fun i => ∑ l, sigma k l * nodes i l
  if 0 < Fintype.card D then
    match y with
    | .plain y => .two fun _ i => transformCoefficient (rcType k) (base i + ∑ d, pi k d * y i d)
    | .byProduct y => .three fun j _ i => transformCoefficient (rcType k) (base i + ∑ d, pi k d * y i d (j.castAdd extra))
  else .two fun _ i => transformCoefficient (rcType k) (base i)

/-- `compute_mu`, pyblp/markets/market.py:229-240: a product of matrices, or a sum over the second dimension. -/
def muArray (X2 : Fin J → K2 → ℝ) (coefficients : CoefficientArray J K2 I) (j : Fin J) (i : I) : ℝ :=
  match coefficients with
  | .two a => ∑ k, X2 j k * a k i
  | .three a => ∑ k, X2 j k * a j k i

/-! ## Nesting parameters -/

variable {ι : Type} [LinearOrder ι]

/-- `np.searchsorted` in a sorted array: how many elements are smaller. Used for pyblp/markets/market.py:157. -/
def searchSorted (sorted : List ι) (x : ι) : ℕ := sorted.countP fun a => decide (a < x)

/-- `self.group_rho`, pyblp/markets/market.py:153-157. `unique` are all groups. An element is `none` if the index is out of range. -/
def groupRhos (unique : List ι) (rho : List ℝ) (g : Groups ι J) : List (Option ℝ) :=
  if rho.length = 1 then g.unique.map fun _ => rho[0]? else g.unique.map fun u => rho[searchSorted unique u]?

/-- `self.rho`, pyblp/markets/market.py:153-158. -/
def productRhos (unique : List ι) (rho : List ℝ) (g : Groups ι J) (j : Fin J) : Option ℝ :=
  if rho.length = 1 then rho[0]? else (g.expand (groupRhos unique rho g) j).join

end

/-! ## Micro agents with an integration configuration -/

variable {Mk R V : Type}

/-- `np.bincount`. Used for pyblp/primitives.py:542. -/
def bincount (l : List ℕ) : List ℕ := if l = [] then [] else (List.range (l.foldr max 0 + 1)).map fun n => l.count n

/-- `np.repeat(x, repeats, axis=0)`: there is one number for each row, or one for all rows. Used for pyblp/primitives.py:543. -/
def npRepeat {α : Type} (x : List α) (repeats : List ℕ) : Except PyErr (List α) :=
  if repeats.length = x.length then .ok (List.zipWith (fun n a => List.replicate n a) repeats x).flatten
  else match repeats with
    | [n] => .ok (x.flatMap fun a => List.replicate n a)
    | _ => .error .valueError

/-- `MicroAgents.__new__` with an integration configuration, pyblp/primitives.py:531-549 and 562-572. Rows of the data are observations; `build` are the
nodes and weights that are built for each. `nonzero` is the number of nonzero columns of `sigma`. Columns are duplicated one by one; they are
written as one column of rows because all are repeated by the same numbers. -/
def microBuild (nonzero : ℕ) (build : ℕ → List (V × ℚ)) (rows : List (MicroRow Unit Mk R)) : Except PyErr (List (MicroRow ℕ Mk (R × V × ℚ))) :=
  if nonzero = 0 then .error .valueError
  else
    let built := buildMany build (List.range rows.length)
    match npRepeat rows (bincount (built.map fun b => b.1)) with
    | .error e => .error e
    | .ok x =>
      if x.length ≠ built.length then .error .valueError
      else .ok (List.zipWith (fun b r => ⟨b.1, r.market, r.choice, r.second, (r.agent, b.2)⟩) built x)

end Pyblp
