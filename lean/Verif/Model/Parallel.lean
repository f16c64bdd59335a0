import Verif.Model.Groups

/-!
# Market-by-market work: generating results, assembling arrays, and the process pool
-/

namespace Pyblp

variable {ι α β : Type} [LinearOrder ι] {N : ℕ}

/-- The distinct market IDs in order, `unique_market_ids`, pyblp/economies/economy.py:90. -/
def uniqueIds (ids : Fin N → ι) : List ι := (Finset.univ.image ids).sort (· ≤ ·)

/-- The sequences of (key, result) pairs that `generate_items` (pyblp/utilities/basics.py:172-179) can produce: the keys in
order without a pool, and in any order with one (`imap_unordered`). -/
def Generated (pool : Option ℕ) (keys : List ι) (work : ι → β) (items : List (ι × β)) : Prop :=
  match pool with
  | none => items = keys.map fun k => (k, work k)
  | some _ => items.Perm (keys.map fun k => (k, work k))

/-- `indices[t]` of a `get_indices` dictionary. A missing key, which is an error in Python, selects no row.
Used for pyblp/results/economy_results.py:1252-1270. -/
def indicesOf (ids : Fin N → ι) (t : ι) : List (Fin N) := ((getIndices ids).lookup t).getD []

/-- `array[indices] = values`, where `values r` is the row of `values` for the position `r` in `indices`.
Used for pyblp/economies/simulation.py:741-856 and pyblp/results/problem_results.py:1776-1829. -/
def writeRows (array : Fin N → α) (indices : List (Fin N)) (values : ℕ → α) : Fin N → α :=
  fun i => if i ∈ indices then values (indices.idxOf i) else array i

/-- The loop that fills an array from market-level results, pyblp/economies/problem.py:1136-1138 and 1155-1159. -/
def assemble (ids : Fin N → ι) (initial : Fin N → α) (items : List (ι × (ℕ → α))) : Fin N → α :=
  items.foldl (fun array p => writeRows array (indicesOf ids p.1) p.2) initial

/-- `mapping[t] = value` in the order of completion, pyblp/economies/problem.py:1140-1146. -/
def buildMapping (items : List (ι × β)) : ι → Option β :=
  items.foldl (fun mapping p => Function.update mapping p.1 (some p.2)) fun _ => none

/-- `total = zero; for t in unique_market_ids: total += mapping[t]`, pyblp/economies/problem.py:1168-1172, 1217-1225 and
1239-1243, with an arbitrary addition, which may round. `none` is a missing key. -/
def aggregate (add : β → β → β) (zero : β) (uniqueIds : List ι) (mapping : ι → Option β) : Option β :=
  uniqueIds.foldl (fun total t => total.bind fun s => (mapping t).map fun v => add s v) (some zero)

/-- A market's output in `_combine_arrays`: a matrix. `none` is NaN. Used for pyblp/results/economy_results.py:1252-1270. -/
structure MarketArray where
  rows : ℕ
  cols : ℕ
  entry : ℕ → ℕ → Option ℝ

/-- A combined output. Used for pyblp/results/economy_results.py:1252-1270. -/
structure Combined where
  rows : ℕ
  cols : ℕ
  entry : ℕ → ℕ → Option ℝ

/-- `combined[(selected, 0:cols)] = array` for selected row numbers; as many rows are selected as the array has.
Used for pyblp/results/economy_results.py:1252-1270. -/
def writeSelected (combined : ℕ → ℕ → Option ℝ) (selected : List ℕ) (a : MarketArray) : ℕ → ℕ → Option ℝ :=
  fun i k => if i ∈ selected ∧ k < a.cols then a.entry (selected.idxOf i) k else combined i k

/-- `_combine_arrays`, pyblp/results/economy_results.py:1252-1270, for two-dimensional arrays, once `array_mapping` has been
filled in the order of `items`. The assertion on line 1269 that there is only one market is not modelled. -/
def combineArrays (ids : Fin N → ι) (marketIds : List ι) (items : List (ι × MarketArray)) : Combined :=
  let total := (items.map fun p => p.2.rows).sum
  let width := (items.map fun p => p.2.cols).foldr max 0
  if total = marketIds.length then
    ⟨total, width, items.foldl (fun c p => writeSelected c
      ((List.range marketIds.length).filter fun i => decide (marketIds[i]? = some p.1)) p.2) fun _ _ => none⟩
  else if total = N then
    ⟨total, width, items.foldl (fun c p => writeSelected c ((indicesOf ids p.1).map fun i : Fin N => (i : ℕ)) p.2)
      fun _ _ => none⟩
  else
    items.foldl (fun _ p => ⟨p.2.rows, p.2.cols, p.2.entry⟩) ⟨total, width, fun _ _ => none⟩

/-! ## The process pool -/

/-- Programs that use `parallel`. Used for pyblp/utilities/basics.py:90-169. -/
inductive Program where
  /-- market-by-market work, labelled -/
  | work (label : ℕ)
  /-- an exception -/
  | raise
  | seq (first second : Program)
  /-- `try: body except: handler` -/
  | attempt (body handler : Program)
  /-- `with parallel(processes): body`; `starts` says whether starting the pool succeeds -/
  | parallel (processes : ℕ) (starts : Bool) (body : Program)

/-- The module-level variable `pool` (pyblp/utilities/basics.py:45), the number of pools started so far, and what work has been
done with which pool. -/
structure PoolState where
  pool : Option ℕ
  started : ℕ
  log : List (ℕ × Option ℕ)

/-- Run a program; the flag says whether an exception is propagating. `parallel` is pyblp/utilities/basics.py:90-169: an error
for fewer than one process, no pool for one process, and otherwise `with Pool() as pool: yield` inside
`try: ... finally: pool = None`. -/
def Program.run : Program → PoolState → PoolState × Bool
  | .work label, s => ({ s with log := s.log ++ [(label, s.pool)] }, false)
  | .raise, s => (s, true)
  | .seq a b, s =>
    let r := a.run s
    if r.2 then r else b.run r.1
  | .attempt a h, s =>
    let r := a.run s
    if r.2 then h.run r.1 else r
  | .parallel processes starts body, s =>
    if processes < 1 then (s, true)
    else if processes = 1 then body.run s
    else if starts then
      let r := body.run { s with pool := some s.started, started := s.started + 1 }
      ({ r.1 with pool := none }, r.2)
    else ({ s with pool := none }, true)

end Pyblp
