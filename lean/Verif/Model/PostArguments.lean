import Verif.Model.Parallel
import Verif.Model.PyErr

/-!
# Arguments of post-estimation methods

How `_combine_arrays` restricts arguments to markets and draws, and how arguments are validated (pyblp/results/economy_results.py:64-120 and
1188-1272 and pyblp/results/bootstrapped_results.py:176-330). How market-level arrays are stacked is `combineArrays` in `Model/Parallel`.
-/

namespace Pyblp

variable {ι α : Type} [LinearOrder ι] {N D : ℕ}

/-- `_select_market_ids`, pyblp/results/economy_results.py:64-70. -/
def selectMarketIds (ids : Fin N → ι) : Option ι → Except PyErr (List ι)
  | none => .ok (uniqueIds ids)
  | some t => if t ∈ uniqueIds ids then .ok [t] else .error .valueError

/-- A matrix of numbers or IDs that is an argument: its rows. Used for pyblp/results/economy_results.py:72-120 and 1231-1234. -/
abbrev Argument (α : Type) := List (List α)

/-- `a.shape == (rows, columns)`, as in pyblp/results/economy_results.py:77. -/
def hasShape (a : Argument α) (rows columns : ℕ) : Bool := decide (a.length = rows) && a.all fun r => decide (r.length = columns)

/-- Sizes of markets that are selected, as in pyblp/results/economy_results.py:75-76: `i.size for t, i in indices.items() if t in market_ids`. -/
def selectedSizes (ids : Fin N → ι) (marketIds : List ι) : List ℕ :=
  ((getIndices ids).filter fun p => decide (p.1 ∈ marketIds)).map fun p => p.2.length

/-- Whether the shape of a column vector is accepted, pyblp/results/economy_results.py:81-120 and pyblp/economies/economy.py:299-311. -/
def vectorAccepted (ids : Fin N → ι) (marketIds : List ι) (a : Argument α) : Bool :=
  hasShape a (selectedSizes ids marketIds).sum 1

/-- Whether the shape of stacked matrices is accepted, pyblp/results/economy_results.py:72-79. -/
def matricesAccepted (ids : Fin N → ι) (marketIds : List ι) (a : Argument α) : Bool :=
  hasShape a (selectedSizes ids marketIds).sum ((selectedSizes ids marketIds).foldr max 0)

/-- Whether the shape of stacked ownership matrices is accepted, pyblp/economies/economy.py:313-334: the loop over markets that are selected. -/
def ownershipAccepted (ids : Fin N → ι) (marketIds : List ι) (a : Argument α) : Bool :=
  let shape := marketIds.foldl (fun s t => (s.1 + (indicesOf ids t).length, max s.2 (indicesOf ids t).length)) (0, 0)
  hasShape a shape.1 shape.2

/-- `a[indices]`, for arguments that have these rows. Used for pyblp/results/economy_results.py:1234. -/
def rowsAt (a : Argument α) (indices : List (Fin N)) : Argument α := indices.filterMap fun i : Fin N => a[(i : ℕ)]?

/-- An argument for market `t`, pyblp/results/economy_results.py:1231-1234. -/
def restrictArgument (ids : Fin N → ι) (marketIds : List ι) (t : ι) (a : Argument α) : Argument α :=
  if marketIds.length = 1 then a else rowsAt a (indicesOf ids t)

/-- `_combine_arrays`, pyblp/results/economy_results.py:1218-1272: what is returned if work for markets is finished in any order that the process pool
permits. `work` is the method of markets, which is given the market and its arguments. -/
def CombineArrays (pool : Option ℕ) (ids : Fin N → ι) (work : ι → List (Option (Argument α)) → MarketArray) (marketIds : List ι)
    (args : List (Option (Argument α))) (combined : Combined) : Prop :=
  ∃ items, Generated pool marketIds (fun t => work t (args.map fun a => a.map (restrictArgument ids marketIds t))) items ∧
    combined = combineArrays ids marketIds items

/-- An argument of bootstrapped results: one matrix for all draws, or one for each. Used for pyblp/results/bootstrapped_results.py:223-238. -/
inductive DrawArgument (D : ℕ) (α : Type) where
  | shared (a : Argument α)
  | each (a : Fin D → Argument α)

/-- An argument for draw `d` and market `t`, pyblp/results/bootstrapped_results.py:223-238. -/
def restrictDrawArgument (ids : Fin N → ι) (marketIds : List ι) (d : Fin D) (t : ι) : DrawArgument D α → Argument α
  | .shared a => if marketIds.length = 1 then a else rowsAt a (indicesOf ids t)
  | .each a => if marketIds.length = 1 then a d else rowsAt (a d) (indicesOf ids t)

/-- `array_mapping[(0, t)]`, pyblp/results/bootstrapped_results.py:258-263. -/
def firstDraw (items : List ((Fin D × ι) × MarketArray)) (t : ι) : MarketArray :=
  ((items.find? fun p => decide (p.1.1.val = 0 ∧ p.1.2 = t)).map Prod.snd).getD ⟨0, 0, fun _ _ => none⟩

/-- How draws are stacked, pyblp/results/bootstrapped_results.py:257-276: what is returned for draw `d`. -/
def combineDraws (ids : Fin N → ι) (marketIds : List ι) (items : List ((Fin D × ι) × MarketArray)) (d : Fin D) : Combined :=
  let total := (marketIds.map fun t => (firstDraw items t).rows).sum
  let width := (marketIds.map fun t => (firstDraw items t).cols).foldr max 0
  ⟨total, width, items.foldl (fun c p =>
    if p.1.1 = d then
      if total = marketIds.length then writeSelected c ((List.range marketIds.length).filter fun i => decide (marketIds[i]? = some p.1.2)) p.2
      else if total = N then writeSelected c ((indicesOf ids p.1.2).map fun i : Fin N => (i : ℕ)) p.2
      else p.2.entry
    else c) fun _ _ => none⟩

/-- `_combine_arrays` of bootstrapped results, pyblp/results/bootstrapped_results.py:200-281. -/
def CombineDraws (pool : Option ℕ) (ids : Fin N → ι) (work : Fin D → ι → List (Option (Argument α)) → MarketArray) (marketIds : List ι)
    (args : List (Option (DrawArgument D α))) (combined : Fin D → Combined) : Prop :=
  ∃ items, Generated pool ((List.finRange D) ×ˢ marketIds)
      (fun p => work p.1 p.2 (args.map fun a => a.map (restrictDrawArgument ids marketIds p.1 p.2))) items ∧
    combined = combineDraws ids marketIds items

/-- `a.shape[1]`, for arguments with rows. Used for pyblp/markets/economy_results_market.py:214-223. -/
def columnCount (m : Argument α) : ℕ := m.head?.elim 0 List.length

/-- `matrix[:, :size].diagonal()`, pyblp/markets/economy_results_market.py:215 and 222. -/
def diagonalOf (size : ℕ) (m : Argument (Option ℝ)) : List (Option ℝ) :=
  (List.range (min m.length (min (columnCount m) size))).map fun k => (m[k]?.bind fun r => r[k]?).join

/-- `safely_extract_diagonal`, pyblp/markets/economy_results_market.py:211-216, for a market with `size` products: a column. -/
def extractDiagonal (size : ℕ) (m : Argument (Option ℝ)) : MarketArray :=
  ⟨(diagonalOf size m).length, 1, fun k _ => (diagonalOf size m)[k]?.join⟩

/-- `.mean()`: not a number if an element is not one. Used for pyblp/markets/economy_results_market.py:218-223. -/
noncomputable def meanOf (l : List (Option ℝ)) : Option ℝ :=
  (l.foldr (fun x s => x.bind fun y => s.map fun z => y + z) (some 0)).map fun s => s / l.length

/-- `safely_extract_diagonal_mean`, pyblp/markets/economy_results_market.py:218-223. -/
noncomputable def extractDiagonalMean (size : ℕ) (m : Argument (Option ℝ)) : MarketArray := ⟨1, 1, fun _ _ => meanOf (diagonalOf size m)⟩

/-- What is returned, as an argument of another method. Used for pyblp/results/economy_results.py:72-79. -/
def Combined.toArgument (c : Combined) : Argument (Option ℝ) := (List.range c.rows).map fun i => (List.range c.cols).map fun k => c.entry i k

end Pyblp
