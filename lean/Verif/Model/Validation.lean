import Mathlib.Data.Finset.Card
import Mathlib.Data.Finset.Image
import Mathlib.Data.Fintype.Basic
import Verif.Model.Data
import Verif.Model.Groups
import Verif.Model.Parameters

/-!
# Validation of data (`primitives.py`)

Which product data `Products.__new__` accepts, and how `build_demographics` and `Agents.__new__` accept demographics.
-/

namespace Pyblp

/-! ### Product data -/

/-- Fields of product data that have been extracted and found to be one-dimensional, pyblp/primitives.py:172-199, 217-221 and 234-237.
Matrices from formulations and instruments are not included. -/
structure ProductFields (M F C : Type) (N : ℕ) where
  /-- `market_ids`. -/
  marketIds : Fin N → M
  /-- `firm_ids`. -/
  firmIds : Option (Fin N → F)
  /-- `clustering_ids`. -/
  clusteringIds : Option (Fin N → C)
  /-- `lag_indices`. -/
  lagIndices : Option (Fin N → ℤ)
  /-- `shares`. -/
  shares : Option (Fin N → Fl)
  /-- The number of columns of `ownership`. -/
  ownership : Option ℕ
  /-- Whether `X3` is formulated. -/
  supply : Bool

section

variable {M F C : Type} [LinearOrder M] [DecidableEq C] {N : ℕ}

/-- Validation of lags, pyblp/primitives.py:194-214. `not` binds more strongly than `and` in line 200. -/
def checkLags (lags : Fin N → ℤ) : Except PyErr Unit :=
  if (¬ ∀ n, 0 ≤ lags n) ∧ ∀ n, lags n ≤ (N : ℤ) - 1 then .error .valueError
  else if ¬ ∃ n : Fin N, lags n = n.val then .error .valueError
  else if ((Finset.univ.filter fun n : Fin N => ¬ lags n = n.val).image lags).card ≠ (Finset.univ.filter fun n : Fin N => ¬ lags n = n.val).card then
    .error .valueError
  else .ok ()

/-- A number that is finite. Used for pyblp/primitives.py:222-232 and 343-348. -/
def Fl.finite (x : Fl) : Prop := ∃ r : ℝ, x = some (r : EReal)

open Classical in
/-- Validation of shares, pyblp/primitives.py:222-232, given the result of `argsort` for groups. -/
noncomputable def checkShares (marketIds : Fin N → M) (sort : List (Fin N)) (shares : Fin N → Fl) : Except PyErr (Fin N → ℝ) :=
  if ¬ ∀ n, (shares n).finite then .error .valueError
  else
    let values : Fin N → ℝ := fun n => ((shares n).getD 0).toReal
    if (∃ n, values n ≤ 0) ∨ ∃ n, 1 ≤ values n then .error .valueError
    else if ((Groups.mk' marketIds sort).sum values).any fun s => decide (1 ≤ s) then .error .valueError
    else .ok values

/-- The number of products in the market with the most products, pyblp/primitives.py:239. -/
def maxProducts (marketIds : Fin N → M) (sort : List (Fin N)) : ℕ := (Groups.mk' marketIds sort).counts.foldl max 0

/-- Validation of fields, pyblp/primitives.py:173-245: the shares of accepted products. -/
noncomputable def checkProducts (p : ProductFields M F C N) (sort : List (Fin N)) : Except PyErr (Fin N → ℝ) :=
  if p.firmIds.isNone ∧ p.supply = true then .error .keyError
  else if (p.clusteringIds.elim 2 fun ids => (Finset.univ.image ids).card) = 1 then .error .valueError
  else
    match p.lagIndices.elim (.ok ()) checkLags with
    | .error e => .error e
    | .ok () =>
      match p.shares with
      | none => .error .keyError
      | some shares =>
        match checkShares p.marketIds sort shares with
        | .error e => .error e
        | .ok values =>
          if p.firmIds.isSome ∧ (∃ columns, p.ownership = some columns ∧ columns ≠ maxProducts p.marketIds sort) then .error .valueError
          else .ok values

end

/-! ### Demographics -/

/-- An agent formulation, pyblp/configurations/formulation.py:170-242, as far as numeric variables are concerned: names of variables, and
columns as functions of values of variables. -/
structure AgentFormulation (K : Type) where
  /-- `_names`. -/
  names : List Key
  /-- The columns. -/
  columns : K → (Key → Fl) → Fl

section

variable {R K : Type}

/-- How data for a variable are loaded, pyblp/configurations/formulation.py:184-201: under its name, or else, with a fallback index, under its name
with the index. `none` is an exception. -/
def loadVariable (data : Key → Option (R → Fl)) (fallback : Option ℕ) (name : Key) : Option (R → Fl) :=
  match data name with
  | some values => some values
  | none => fallback.elim none fun index => data (indexedKey name index)

open Classical in
/-- `Formulation._build_matrix`, pyblp/configurations/formulation.py:170-242. `none` is a `PatsyError`, because a variable is missing, or
because a value is missing (NaN) and missing values are not ignored, lines 479-480. Patsy looks for missing values of factors, which are missing
where any of their variables is. -/
noncomputable def buildAgentMatrix (f : AgentFormulation K) (data : Key → Option (R → Fl)) (fallback : Option ℕ) (ignoreNa : Bool) :
    Option (R → K → Fl) :=
  if ∃ name ∈ f.names, loadVariable data fallback name = none then none
  else
    let values : Key → R → Fl := fun name r => (loadVariable data fallback name).elim none fun v => v r
    if ignoreNa = false ∧ ∃ name ∈ f.names, ∃ r, values name r = none then none
    else some fun r k => f.columns k fun name => values name r

/-- Demographics: one matrix, or one for each product. Used for pyblp/primitives.py:173-245 and 575-609. -/
inductive Demographics (R K : Type) where
  | standard (matrix : R → K → Fl)
  | byProduct (matrices : List (R → K → Fl))

/-- The loop over products, pyblp/primitives.py:590-604. A `PatsyError` for the first product is that of the standard demographics; for another
product it becomes a `ValueError`. Both are `valueError` here. -/
noncomputable def buildByProduct (f : AgentFormulation K) (data : Key → Option (R → Fl)) : List ℕ → Except PyErr (List (R → K → Fl))
  | [] => .ok []
  | j :: rest =>
    match buildAgentMatrix f data (some j) true with
    | none => .error .valueError
    | some matrix =>
      match buildByProduct f data rest with
      | .error e => .error e
      | .ok matrices => .ok (matrix :: matrices)

/-- `build_demographics`, pyblp/primitives.py:575-609, with an agent formulation. -/
noncomputable def buildDemographics (f : AgentFormulation K) (data : Key → Option (R → Fl)) (maxJ : ℕ) : Except PyErr (Demographics R K) :=
  match buildAgentMatrix f data none false with
  | some matrix => .ok (.standard matrix)
  | none =>
    match buildByProduct f data (List.range maxJ) with
    | .error e => .error e
    | .ok matrices => .ok (.byProduct matrices)

open Classical in
/-- Demographics that `Agents.__new__` accepts, pyblp/primitives.py:343-348. -/
noncomputable def acceptDemographics (f : AgentFormulation K) (data : Key → Option (R → Fl)) (maxJ : ℕ) : Except PyErr (Demographics R K) :=
  match buildDemographics f data maxJ with
  | .error e => .error e
  | .ok (.standard matrix) => if ∀ r k, (matrix r k).finite then .ok (.standard matrix) else .error .valueError
  | .ok (.byProduct matrices) => .ok (.byProduct matrices)

end

end Pyblp
