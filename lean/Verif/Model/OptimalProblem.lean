import Verif.Model.Formulation

/-!
# Instruments of problems (`primitives.py`, `economies/problem.py`, `results/optimal_instrument_results.py`)

Which columns instruments have in a problem and in a problem that is created again with optimal instruments. Matrices are lists of their columns,
and rows are a type `R`. Columns of `X1` and `X3` are expressions of columns of the data, see `Model/Formulation`.
-/

namespace Pyblp
namespace Formula

variable {R : Type}

/-- Names of variables that are endogenous. Used for pyblp/primitives.py:100-101, 115-117 and 124-125 and 130-139. -/
def pricesName : Name := ['p', 'r', 'i', 'c', 'e', 's']

/-- Names of variables that are endogenous. Used for pyblp/primitives.py:100-101, 115-117 and 124-125 and 142-151. -/
def sharesName : Name := ['s', 'h', 'a', 'r', 'e', 's']

/-- Columns of product data, including indicators of categories.
Used for pyblp/configurations/formulation.py:338-340 and pyblp/primitives.py:136-139 and 148-151. -/
abbrev ColumnData (R : Type) := Name → R → ℝ

/-- `ColumnFormulation.evaluate` without an override for all rows, pyblp/configurations/formulation.py:338-340, which is also a column of the
matrix that is built. -/
noncomputable def evaluateColumn (data : ColumnData R) (e : Expr) : R → ℝ := fun r => e.eval fun n => data n r

/-- `data_override` with one variable, pyblp/configurations/formulation.py:338-340. -/
def overrideColumn (data : ColumnData R) (x : Name) (values : R → ℝ) : ColumnData R := fun n => if n = x then values else data n

/-- The loop over formulations that supplements instruments with exogenous characteristics, pyblp/primitives.py:136-139 and 148-151 and
pyblp/economies/problem.py:2134-2136. -/
noncomputable def supplement (data : ColumnData R) (endogenous : Name) (X : List Expr) (Z : List (R → ℝ)) : List (R → ℝ) :=
  X.foldl (fun Z e => if endogenous ∈ e.symbols then Z else Z ++ [evaluateColumn data e]) Z

/-- Absorption of fixed effects, column by column, pyblp/configurations/formulation.py:288-295. It does nothing if there are none. -/
def absorbColumns (residualize : (R → ℝ) → R → ℝ) (Z : List (R → ℝ)) : List (R → ℝ) := Z.map residualize

/-- Formulations and fixed effects of a problem. Used for pyblp/primitives.py:100-101, 115-117 and 124-125 and 130-139. -/
structure Formulations (R : Type) where
  /-- Columns of `X1`. -/
  X1 : List Expr
  /-- Columns of `X3`. It has none if supply is not formulated. -/
  X3 : List Expr
  /-- Absorption of demand-side fixed effects. -/
  absorbDemand : (R → ℝ) → R → ℝ
  /-- Absorption of supply-side fixed effects. -/
  absorbSupply : (R → ℝ) → R → ℝ

/-- Formulations that are accepted, pyblp/primitives.py:100-101, 115-117 and 124-125, for numeric variables. -/
def Formulations.Accepted (f : Formulations R) : Prop := (∀ e ∈ f.X1, sharesName ∉ e.symbols) ∧ ∀ e ∈ f.X3, pricesName ∉ e.symbols

/-- Excluded instruments in product data, pyblp/primitives.py:133 and 145, the columns of which have names in the data. -/
def givenColumns (data : ColumnData R) (names : List Name) : List (R → ℝ) := names.map data

/-- `ZD` of an initialized problem, pyblp/primitives.py:130-139 and pyblp/economies/problem.py:2088-2096. -/
noncomputable def problemZD (f : Formulations R) (data : ColumnData R) (excluded : List Name) (addExogenous : Bool) : List (R → ℝ) :=
  if addExogenous then absorbColumns f.absorbDemand (supplement data pricesName f.X1 (givenColumns data excluded)) else givenColumns data excluded

/-- `ZS` of an initialized problem, pyblp/primitives.py:142-151 and pyblp/economies/problem.py:2099-2106. -/
noncomputable def problemZS (f : Formulations R) (data : ColumnData R) (excluded : List Name) (addExogenous : Bool) : List (R → ℝ) :=
  if f.X3 = [] then [] else
  if addExogenous then absorbColumns f.absorbSupply (supplement data sharesName f.X3 (givenColumns data excluded)) else givenColumns data excluded

/-! ### Problems with optimal instruments -/

/-- A parameter in theta: one in sigma, pi, rho or phi, or an element of beta or gamma.
Used for pyblp/results/optimal_instrument_results.py:355-360. -/
inductive ThetaParameter
  | nonlinear
  | beta (k : ℕ)
  | gamma (k : ℕ)
  deriving DecidableEq

/-- Whether the instrument for a parameter is dropped by default, pyblp/results/optimal_instrument_results.py:355-360. -/
def droppedByDefault (f : Formulations R) : ThetaParameter → Bool
  | .nonlinear => false
  | .beta k => f.X1[k]?.elim false fun e => decide (pricesName ∉ e.symbols) && decide (sharesName ∉ e.symbols)
  | .gamma k => f.X3[k]?.elim false fun e => decide (pricesName ∉ e.symbols) && decide (sharesName ∉ e.symbols)

/-- What is known when a problem is created again with optimal instruments: parameters in theta, the columns of optimal instruments, one for each
of these, expected prices and shares, which linear parameters are concentrated out (NaN in beta and gamma), and columns of shifters.
Used for pyblp/results/optimal_instrument_results.py:347-360 and 362-383. -/
structure OptimalResults (R : Type) where
  unfixed : List ThetaParameter
  demandInstruments : List (R → ℝ)
  supplyInstruments : List (R → ℝ)
  expectedPrices : R → ℝ
  expectedShares : R → ℝ
  eliminatedBeta : ℕ → Bool
  eliminatedGamma : ℕ → Bool
  supplyShifters : List Expr
  demandShifters : List Expr

/-- `dropped_index`, pyblp/results/optimal_instrument_results.py:347-360. Indices to drop that are out of range or negative are not modelled. -/
def droppedIndex (f : Formulations R) (o : OptimalResults R) (dropIndices : Option (List ℕ)) : List Bool :=
  match dropIndices with
  | some indices => (List.range o.unfixed.length).map fun p => decide (p ∈ indices)
  | none => o.unfixed.map (droppedByDefault f)

/-- `instruments[:, ~dropped_index]`, pyblp/results/optimal_instrument_results.py:363 and 387. -/
def keepColumns (Z : List (R → ℝ)) (dropped : List Bool) : List (R → ℝ) := ((Z.zip dropped).filter fun p => !p.2).map Prod.fst

/-- `_compute_true_X1` and `_compute_true_X3` with an index of columns, pyblp/economies/economy.py:379-408. -/
noncomputable def trueColumns (X : List Expr) (index : ℕ → Bool) (data : ColumnData R) : List (R → ℝ) :=
  ((X.zipIdx).filter fun p => index p.2).map fun p => evaluateColumn data p.1

/-- `eliminated_alpha_index` and `eliminated_endogenous_gamma_index`, pyblp/parameters.py:240-256. -/
def eliminatedEndogenous (X : List Expr) (endogenous : Name) (eliminated : ℕ → Bool) (k : ℕ) : Bool :=
  eliminated k && X[k]?.elim false fun e => decide (endogenous ∈ e.symbols)

/-- Excluded demand-side instruments, pyblp/results/optimal_instrument_results.py:362-383. -/
noncomputable def optimalDemand (f : Formulations R) (data : ColumnData R) (o : OptimalResults R) (dropIndices : Option (List ℕ)) : List (R → ℝ) :=
  keepColumns o.demandInstruments (droppedIndex f o dropIndices) ++
    trueColumns f.X1 (eliminatedEndogenous f.X1 pricesName o.eliminatedBeta) (overrideColumn data pricesName o.expectedPrices) ++
    o.supplyShifters.map (evaluateColumn data)

/-- Excluded supply-side instruments, pyblp/results/optimal_instrument_results.py:385-409. -/
noncomputable def optimalSupply (f : Formulations R) (data : ColumnData R) (o : OptimalResults R) (dropIndices : Option (List ℕ)) : List (R → ℝ) :=
  if f.X3 = [] then o.supplyInstruments else
  keepColumns o.supplyInstruments (droppedIndex f o dropIndices) ++
    trueColumns f.X3 (eliminatedEndogenous f.X3 sharesName o.eliminatedGamma) (overrideColumn data sharesName o.expectedShares) ++
    o.demandShifters.map (evaluateColumn data)

/-- `ZD` of a problem that is created again with optimal instruments, pyblp/economies/problem.py:2130-2136 and 2160-2164. -/
noncomputable def updatedZD (f : Formulations R) (data : ColumnData R) (o : OptimalResults R) (dropIndices : Option (List ℕ)) : List (R → ℝ) :=
  absorbColumns f.absorbDemand (supplement data pricesName f.X1 (optimalDemand f data o dropIndices))

/-- `ZS` of a problem that is created again with optimal instruments, pyblp/economies/problem.py:2138-2140 and 2166-2171: all columns of `X3` are
added. -/
noncomputable def updatedZS (f : Formulations R) (data : ColumnData R) (o : OptimalResults R) (dropIndices : Option (List ℕ)) : List (R → ℝ) :=
  absorbColumns f.absorbSupply (optimalSupply f data o dropIndices ++ trueColumns f.X3 (fun _ => true) data)

end Formula
end Pyblp
