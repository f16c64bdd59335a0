import Mathlib.Algebra.BigOperators.Fin
import Mathlib.Data.List.FinRange
import Verif.Model.Construction
import Verif.Model.PyErr

/-!
# Replacing exogenous characteristics and problems from simulations

`Simulation.replace_exogenous` and the default instruments of `SimulationResults.to_problem`.
-/

namespace Pyblp

/-- A `ColumnFormulation`, pyblp/configurations/formulation.py:298-357: how its expression is printed, with which it is compared to names
(lines 322-336), its variables, and its evaluation, which is a function of data. -/
structure ColumnFormulation (ν : Type) where
  /-- `str(expression)`. -/
  text : String
  /-- `names`. -/
  names : List String
  /-- `evaluate`. -/
  evaluate : (String → ν → ℝ) → ν → ℝ

/-- What holds of the expressions of SymPy: values depend on the variables of an expression only, and an expression that is printed as one
of its variables is that variable. Used for pyblp/configurations/formulation.py:298-357. -/
structure ColumnFormulation.Valid {ν : Type} (f : ColumnFormulation ν) : Prop where
  depends : ∀ d d' : String → ν → ℝ, (∀ s ∈ f.names, d s = d' s) → f.evaluate d = f.evaluate d'
  symbol : f.text ∈ f.names → ∀ d, f.evaluate d = d f.text

section

variable {ν : Type} {K1 K2 K3 : ℕ}

/-- Validation of `X1_name` or `X3_name`, pyblp/economies/simulation.py:951-962 and 965-978: the index of the column. Lines 969-970 never
raise, because the search before them has succeeded. -/
noncomputable def validateName {K : ℕ} (columns : Fin K → ColumnFormulation ν) (others : List (ColumnFormulation ν)) (name endogenous : String)
    (coefficients : Fin K → ℝ) : Except PyErr (Fin K) :=
  match (List.finRange K).find? fun i => decide ((columns i).text = name) with
  | none => .error .valueError
  | some index =>
    if 1 < ((List.finRange K).map fun i => if name ∈ (columns i).names then 1 else 0).sum then .error .valueError
    else if others.any fun f => decide (name ∈ f.names) then .error .valueError
    else if name = endogenous then .error .valueError
    else if coefficients index = 0 then .error .valueError
    else .ok index

/-- The matrix product of data and parameters. Used for pyblp/economies/simulation.py:1016-1019 and 1022-1025. -/
noncomputable def linearIndex {K : ℕ} (columns : Fin K → ColumnFormulation ν) (coefficients : Fin K → ℝ) (data : String → ν → ℝ) (n : ν) :
    ℝ := ∑ k, (columns k).evaluate data n * coefficients k

/-- The values of a replaced characteristic, pyblp/economies/simulation.py:1016-1019 and 1022-1025. -/
noncomputable def replacedValues {K : ℕ} (columns : Fin K → ColumnFormulation ν) (coefficients : Fin K → ℝ) (data : String → ν → ℝ)
    (index : Fin K) (target error : ν → ℝ) (n : ν) : ℝ :=
  (columns index).evaluate data n + (target n - error n - linearIndex columns coefficients data n) / coefficients index

/-- `data_override` of `Simulation.replace_exogenous`, pyblp/economies/simulation.py:951-978 and 1013-1025, given the mean utilities and
transformed costs computed in between. `X3_name` that is `None` is found to be no column, and with no supply side any other name fails an
assertion, because there are no costs. -/
noncomputable def replaceExogenous (X1 : Fin K1 → ColumnFormulation ν) (X2 : Fin K2 → ColumnFormulation ν)
    (X3 : Fin K3 → ColumnFormulation ν) (X1Name : String) (X3Name : Option String) (beta : Fin K1 → ℝ) (gamma : Fin K3 → ℝ)
    (data : String → ν → ℝ) (xi omega trueDelta trueTildeCosts : ν → ℝ) : Except PyErr (List (String × (ν → ℝ))) :=
  match validateName X1 (List.ofFn X2 ++ List.ofFn X3) X1Name "prices" beta with
  | .error e => .error e
  | .ok X1Index =>
    let demand := (X1Name, replacedValues X1 beta data X1Index trueDelta xi)
    if K3 = 0 then
      match X3Name with
      | none => .ok [demand]
      | some _ => .error .assertionError
    else
      match X3Name with
      | none => .error .valueError
      | some X3Name =>
        match validateName X3 (List.ofFn X1 ++ List.ofFn X2) X3Name "shares" gamma with
        | .error e => .error e
        | .ok X3Index => .ok [demand, (X3Name, replacedValues X3 gamma data X3Index trueTildeCosts omega)]

/-- `update_matrices(simulation.product_data, ..)`, pyblp/results/simulation_results.py:180-183 and pyblp/utilities/basics.py:213-223: fields
of `data_override`, where a later entry for the same key wins, and otherwise fields of the simulation. -/
def updateData (data : String → ν → ℝ) (overrides : List (String × (ν → ℝ))) : String → ν → ℝ :=
  overrides.foldl (fun d o s => if s = o.1 then o.2 else d s) data

end

section

variable {ι φ : Type} [LinearOrder ι] [LinearOrder φ] {N : ℕ}

/-- Columns of `build_blp_instruments` for the named variables, pyblp/construction.py:255-258: first sums over other products of the firm,
then sums over those of rivals. `ones` is for a constant in the formula. -/
noncomputable def blpColumns (marketIds : Fin N → ι) (firmIds : Fin N → φ) (sortM sortP : List (Fin N)) (ones : Bool) (names : List String)
    (data : String → Fin N → ℝ) : List (Fin N → Option ℝ) :=
  let columns := (if ones then [fun _ => 1] else []) ++ names.map data
  (columns.map fun x i => (blpOther (K := 1) marketIds firmIds sortP (fun n _ => x n) i).map fun r => r 0) ++
    columns.map fun x i => (blpRival (K := 1) marketIds firmIds sortM sortP (fun n _ => x n) i).map fun r => r 0

open Classical in
/-- Dropping of constant columns, pyblp/results/simulation_results.py:405 and 408. -/
noncomputable def dropConstant (columns : List (Fin N → Option ℝ)) : List (Fin N → Option ℝ) :=
  columns.filter fun x => decide (∃ i j, x i ≠ x j)

/-- `_compute_default_instruments`, pyblp/results/simulation_results.py:385-419: demand and supply instruments. The data are always those of
the simulation (lines 404, 407, 414 and 417). `X1Names` are sorted variables of the formulation for `X1` other than prices, `X3Names` those
for `X3` other than shares. -/
noncomputable def defaultInstruments (marketIds : Fin N → ι) (firmIds : Fin N → φ) (sortM sortP : List (Fin N)) (jVariation : Bool)
    (hasSupply : Bool) (X1Names X3Names : List String) (data : String → Fin N → ℝ) :
    List (Fin N → Option ℝ) × List (Fin N → Option ℝ) :=
  let demand := if jVariation = false ∧ X1Names = [] then []
    else dropConstant (blpColumns marketIds firmIds sortM sortP jVariation X1Names data)
  let supply := if (jVariation = false ∧ X3Names = []) ∨ hasSupply = false then []
    else dropConstant (blpColumns marketIds firmIds sortM sortP jVariation X3Names data)
  (demand ++ (X3Names.filter (· ∉ X1Names)).map fun s i => some (data s i),
    supply ++ if hasSupply then (X1Names.filter (· ∉ X3Names)).map fun s i => some (data s i) else [])

/-- Fields of the product data of the problem that `to_problem` gives by default, pyblp/results/simulation_results.py:355-361: those of the
results, with instruments. -/
noncomputable def toProblemData (marketIds : Fin N → ι) (firmIds : Fin N → φ) (sortM sortP : List (Fin N)) (jVariation hasSupply : Bool)
    (X1Names X3Names : List String) (simulationData : String → Fin N → ℝ) (overrides : List (String × (Fin N → ℝ))) :
    (String → Fin N → ℝ) × (List (Fin N → Option ℝ) × List (Fin N → Option ℝ)) :=
  (updateData simulationData overrides,
    defaultInstruments marketIds firmIds sortM sortP jVariation hasSupply X1Names X3Names simulationData)

end

end Pyblp
