import Mathlib.Data.List.Basic
import Verif.Model.OptimalProblem
import Verif.Model.PyErr

/-!
# Formulations that are passed to problems and simulations (`economies/problem.py`, `economies/simulation.py`, `primitives.py`)

Which arguments are accepted, and with which exceptions others are rejected. Objects are what these functions look at.
-/

namespace Pyblp
namespace Formula

/-- Exceptions: those of `PyErr`, `NameError`, and `patsy.PatsyError`. Used for pyblp/primitives.py:95-162 and 272-273. -/
inductive InitErr where
  | py (e : PyErr)
  | nameError
  | patsyError
  deriving DecidableEq, Repr

/-- What is built from a formulation and data: names of variables that underlie the matrix (keys of `X1_data`, for example), and whether all elements of the
matrix are finite. Used for pyblp/primitives.py:103-133. -/
structure Built where
  /-- Keys of underlying data. -/
  names : List Name
  /-- `np.isfinite(X).all()`. -/
  finite : Bool

/-- A `Formulation`: whether there are absorbed terms, and what it builds from product data. `none` is a `PatsyError`.
Used for pyblp/primitives.py:95-129. -/
structure FormulationObject where
  /-- `_absorbed_terms` is not empty. -/
  absorbed : Bool
  /-- `_build_matrix(product_data)`. -/
  build : Option Built

/-- An element of a sequence of formulations: `None`, a formulation, or anything else. Used for pyblp/primitives.py:95-99. -/
inductive Element where
  | none
  | formulation (f : FormulationObject)
  | other

/-- The argument `product_formulations`: a formulation, a sequence, or anything else. Used for pyblp/economies/problem.py:2076-2082. -/
inductive FormulationsArgument where
  | one (f : FormulationObject)
  | sequence (elements : List Element)
  | other

/-- Normalization, pyblp/economies/problem.py:2076-2082 and pyblp/economies/simulation.py:471-476 and 479: lists of at least three elements. -/
def normalizeFormulations : FormulationsArgument → Except InitErr (List Element)
  | .one f => .ok ([.formulation f] ++ List.replicate 2 .none)
  | .sequence l => if l.length ≤ 3 then .ok (l ++ List.replicate (3 - l.length) .none) else .error (.py .typeError)
  | .other => .error (.py .typeError)

/-- Whether an element is a formulation or `None`, pyblp/primitives.py:95. -/
def Element.valid : Element → Bool
  | .other => false
  | _ => true

/-- Whether an element is a formulation with absorbed terms, pyblp/primitives.py:99. -/
def Element.absorbs : Element → Bool
  | .formulation f => f.absorbed
  | _ => false

/-- Whether an element is a formulation, pyblp/primitives.py:113 and 128. -/
def Element.given : Element → Bool
  | .formulation _ => true
  | _ => false

/-- Fields of excluded instruments: `none` if they are not in product data, and whether elements are finite otherwise.
Used for pyblp/primitives.py:131-162. -/
structure InstrumentFields where
  /-- `demand_instruments`. -/
  demand : Option Bool
  /-- `supply_instruments`. -/
  supply : Option Bool
  /-- `covariance_instruments`. -/
  covariance : Option Bool

/-- A matrix is built and checked, pyblp/primitives.py:103-107, 114-118 and 129-133: names that are not allowed are rejected, and so are matrices with elements
that are not finite. -/
def checkMatrix (f : FormulationObject) (forbidden : Name) : Except InitErr (List Name) :=
  match f.build with
  | none => .error .patsyError
  | some X => if forbidden ∈ X.names then .error .nameError else if X.finite = false then .error (.py .valueError) else .ok X.names

/-- A matrix that is optional, pyblp/primitives.py:110-118 and 125-133. -/
def checkOptional (e : Element) (forbidden : Name) : Except InitErr (List Name) :=
  match e with
  | .formulation f => checkMatrix f forbidden
  | _ => .ok []

/-- A field that is optional has to be finite, pyblp/primitives.py:138-140, 149-151 and 160-162. -/
def finiteField (field : Option Bool) : Bool := field.getD true

/-- Names of fields of product data that formulations may not use, pyblp/primitives.py:246-269. -/
def reservedNames : List Name :=
  ["market_ids".toList, "firm_ids".toList, "demand_ids".toList, "supply_ids".toList, "nesting_ids".toList, "product_ids".toList, "clustering_ids".toList,
    "lag_indices".toList, "ownership".toList, sharesName, "ZD".toList, "ZS".toList, "ZC".toList, "X1".toList, "X2".toList, "X3".toList]

/-- The end of `Products.__new__`, pyblp/primitives.py:271-275: names of underlying data other than shares may not be reserved. -/
def checkReserved (names : List Name) : Except InitErr (List Name) :=
  if (names.filter (· ≠ sharesName)).any (· ∈ reservedNames) then .error .nameError else .ok (names.filter (· ≠ sharesName))

/-- `Products.__new__` for three formulations, pyblp/primitives.py:95-162 and 271-275: the names of variables that are kept. IDs, lags, shares and ownership,
lines 163-245, are `Model/Validation`; `fields` is their verdict. Fixed effects are not built. `instruments` is whether instruments are loaded. -/
def newProducts (l : List Element) (instruments : Bool) (Z : InstrumentFields) (fields : Except PyErr Unit) : Except InitErr (List Name) :=
  match l with
  | [e1, e2, e3] =>
    if (e1.valid && e2.valid && e3.valid) = false then .error (.py .typeError)
    else
      match e1 with
      | .formulation f1 =>
        if e2.absorbs = true then .error (.py .valueError)
        else
          match checkMatrix f1 sharesName with
          | .error e => .error e
          | .ok names1 =>
            match checkOptional e2 sharesName with
            | .error e => .error e
            | .ok names2 =>
              if pricesName ∉ names1 ∧ pricesName ∉ names2 then .error .nameError
              else
                match checkOptional e3 pricesName with
                | .error e => .error e
                | .ok names3 =>
                  if instruments = true ∧ finiteField Z.demand = false then .error (.py .valueError)
                  else if instruments = true ∧ e3.given = true ∧ (finiteField Z.supply = false ∨ finiteField Z.covariance = false) then .error (.py .valueError)
                  else
                    match fields with
                    | .error e => .error (.py e)
                    | .ok () => checkReserved (names1 ++ names2 ++ names3)
      | _ => .error (.py .valueError)
  | _ => .error (.py .valueError)

/-- `Problem.__init__` as far as product formulations are concerned, pyblp/economies/problem.py:2076-2087. -/
def problemFormulations (a : FormulationsArgument) (Z : InstrumentFields) (fields : Except PyErr Unit) : Except InitErr (List Name) :=
  match normalizeFormulations a with
  | .error e => .error e
  | .ok l => newProducts l true Z fields

/-- `any(f._absorbed_terms for f in product_formulations if f is not None)`, pyblp/economies/simulation.py:477: elements are looked at in order, and those that
have no such attribute raise an exception. -/
def anyAbsorbed : List Element → Except InitErr Bool
  | [] => .ok false
  | .none :: l => anyAbsorbed l
  | .other :: _ => .error (.py .attributeError)
  | .formulation f :: l => if f.absorbed = true then .ok true else anyAbsorbed l

/-- The argument `agent_formulation`, pyblp/economies/simulation.py:481-486. -/
def checkAgentFormulation : Element → Except InitErr Unit
  | .none => .ok ()
  | .other => .error (.py .typeError)
  | .formulation f => if f.absorbed = true then .error (.py .valueError) else .ok ()

/-- A field of IDs in product data: missing, or a number of columns. Used for pyblp/economies/simulation.py:498-505. -/
abbrev IdField := Option ℕ

/-- Additional validation for simulations, pyblp/economies/simulation.py:498-505. -/
def simulationIds (marketIds firmIds : IdField) : Except InitErr Unit :=
  match marketIds with
  | none => .error (.py .keyError)
  | some m =>
    match firmIds with
    | none => .error (.py .keyError)
    | some f => if m > 1 then .error (.py .valueError) else if f > 1 then .error (.py .valueError) else .ok ()

/-- `Simulation.__init__` as far as formulations are concerned, pyblp/economies/simulation.py:470-505 and 546. Variables are loaded or simulated before products
are created, lines 507-542, which is not modelled here: formulations build matrices from the result. -/
def simulationFormulations (a : FormulationsArgument) (agent : Element) (marketIds firmIds : IdField) (Z : InstrumentFields) (fields : Except PyErr Unit) :
    Except InitErr (List Name) :=
  match a with
  | .other => .error (.py .typeError)
  | .sequence l =>
    if l.length ≤ 3 then
      match anyAbsorbed l with
      | .error e => .error e
      | .ok true => .error (.py .valueError)
      | .ok false => simulationRest (l ++ List.replicate (3 - l.length) .none)
    else .error (.py .typeError)
  | .one f => if f.absorbed = true then .error (.py .valueError) else simulationRest ([.formulation f] ++ List.replicate 2 .none)
where
  simulationRest (l : List Element) : Except InitErr (List Name) :=
    match checkAgentFormulation agent with
    | .error e => .error e
    | .ok () =>
      match simulationIds marketIds firmIds with
      | .error e => .error e
      | .ok () => newProducts l false Z fields

end Formula
end Pyblp
