import Mathlib.Data.Set.Basic
import Verif.Model.Probabilities
import Verif.Model.Reporting

/-!
# Choice probabilities in floating point arithmetic

`markets/market.py` (`compute_probabilities`) once more, now with numbers that can overflow, that can be infinite and that can be NaN, and
with the floating point problems that NumPy notices on the way. How NumPy rounds is a parameter. Zeros have no sign.
-/

namespace Pyblp

open Classical

/-- A floating point number. Used for pyblp/markets/market.py:360-456. -/
inductive Flo where
  | nan
  | pinf
  | ninf
  | fin (x : ℝ)

/-- How the machine rounds, and its largest number. Used for pyblp/markets/market.py:360-456. -/
structure FloatFormat where
  round : ℝ → ℝ
  largest : ℝ

/-- A value, and the floating point problems noticed while it was computed. Used for pyblp/utilities/basics.py:679-687. -/
structure Noted (α : Type) where
  val : α
  events : Set FpProblem

/-- A value that was already there. Used for pyblp/utilities/basics.py:679-687. -/
def Noted.pure {α : Type} (x : α) : Noted α := ⟨x, ∅⟩

/-- One computation after another. Used for pyblp/utilities/basics.py:679-687. -/
def Noted.bind {α β : Type} (x : Noted α) (f : α → Noted β) : Noted β := ⟨(f x.val).val, x.events ∪ (f x.val).events⟩

/-- Elementwise computation of an array. Used for pyblp/utilities/basics.py:679-687. -/
def Noted.each {ι α : Type} (f : ι → Noted α) : Noted (ι → α) := ⟨fun k => (f k).val, {p | ∃ k, p ∈ (f k).events}⟩

/-- `with np.errstate(divide='ignore', invalid='ignore')`, pyblp/markets/market.py:448. -/
def Noted.quietly {α : Type} (x : Noted α) : Noted α := ⟨x.val, x.events \ {FpProblem.divide, FpProblem.invalid}⟩

namespace FloatFormat

variable (F : FloatFormat)

/-- The float for an exact result. Used for pyblp/markets/market.py:390-456. -/
noncomputable def finish (x : ℝ) : Noted Flo :=
  if F.largest < F.round x then ⟨.pinf, {.over}⟩
  else if F.round x < -F.largest then ⟨.ninf, {.over}⟩
  else ⟨.fin (F.round x), ∅⟩

/-- `a + b`. Used for pyblp/markets/market.py:397, 443 and 453. -/
noncomputable def add : Flo → Flo → Noted Flo
  | .nan, _ => ⟨.nan, ∅⟩
  | _, .nan => ⟨.nan, ∅⟩
  | .pinf, .ninf => ⟨.nan, {.invalid}⟩
  | .ninf, .pinf => ⟨.nan, {.invalid}⟩
  | .pinf, _ => ⟨.pinf, ∅⟩
  | _, .pinf => ⟨.pinf, ∅⟩
  | .ninf, _ => ⟨.ninf, ∅⟩
  | _, .ninf => ⟨.ninf, ∅⟩
  | .fin x, .fin y => F.finish (x + y)

/-- `-a`. Used for pyblp/markets/market.py:415-419. -/
def neg : Flo → Flo
  | .nan => .nan
  | .pinf => .ninf
  | .ninf => .pinf
  | .fin x => .fin (-x)

/-- `a - b`. Used for pyblp/markets/market.py:399, 407 and 417-419. -/
noncomputable def sub (a b : Flo) : Noted Flo := F.add a (neg b)

/-- An infinite product or quotient: its sign is that of the other number. Used for pyblp/markets/market.py:399-456. -/
noncomputable def infinite (positive : Bool) (x : ℝ) : Flo :=
  if 0 ≤ x then (if positive then .pinf else .ninf) else (if positive then .ninf else .pinf)

/-- `a * b`. Used for pyblp/markets/market.py:417-419, 429, 449, 453 and 454. -/
noncomputable def mul : Flo → Flo → Noted Flo
  | .nan, _ => ⟨.nan, ∅⟩
  | _, .nan => ⟨.nan, ∅⟩
  | .pinf, .pinf => ⟨.pinf, ∅⟩
  | .pinf, .ninf => ⟨.ninf, ∅⟩
  | .ninf, .pinf => ⟨.ninf, ∅⟩
  | .ninf, .ninf => ⟨.pinf, ∅⟩
  | .pinf, .fin x => if x = 0 then ⟨.nan, {.invalid}⟩ else ⟨infinite true x, ∅⟩
  | .fin x, .pinf => if x = 0 then ⟨.nan, {.invalid}⟩ else ⟨infinite true x, ∅⟩
  | .ninf, .fin x => if x = 0 then ⟨.nan, {.invalid}⟩ else ⟨infinite false x, ∅⟩
  | .fin x, .ninf => if x = 0 then ⟨.nan, {.invalid}⟩ else ⟨infinite false x, ∅⟩
  | .fin x, .fin y => F.finish (x * y)

/-- `a / b`. Used for pyblp/markets/market.py:399, 403, 443, 450 and 453. -/
noncomputable def div : Flo → Flo → Noted Flo
  | .nan, _ => ⟨.nan, ∅⟩
  | _, .nan => ⟨.nan, ∅⟩
  | .pinf, .fin x => ⟨infinite true x, ∅⟩
  | .ninf, .fin x => ⟨infinite false x, ∅⟩
  | .fin _, .pinf => ⟨.fin 0, ∅⟩
  | .fin _, .ninf => ⟨.fin 0, ∅⟩
  | .fin x, .fin y =>
    if y = 0 then (if x = 0 then ⟨.nan, {.invalid}⟩ else ⟨infinite true x, {.divide}⟩) else F.finish (x / y)
  | _, _ => ⟨.nan, {.invalid}⟩

/-- `np.exp`. Used for pyblp/markets/market.py:409, 415-419 and 449. -/
noncomputable def exp : Flo → Noted Flo
  | .nan => ⟨.nan, ∅⟩
  | .pinf => ⟨.pinf, ∅⟩
  | .ninf => ⟨.fin 0, ∅⟩
  | .fin x => F.finish (Real.exp x)

/-- `np.log`. Used for pyblp/markets/market.py:449. -/
noncomputable def log : Flo → Noted Flo
  | .nan => ⟨.nan, ∅⟩
  | .pinf => ⟨.pinf, ∅⟩
  | .ninf => ⟨.nan, {.invalid}⟩
  | .fin x => if x = 0 then ⟨.ninf, {.divide}⟩ else if x < 0 then ⟨.nan, {.invalid}⟩ else F.finish (Real.log x)

/-- The larger of two numbers, NaN if one is, as in `np.max` and `np.clip`. Used for pyblp/markets/market.py:406. -/
noncomputable def larger : Flo → Flo → Flo
  | .nan, _ => .nan
  | _, .nan => .nan
  | .pinf, _ => .pinf
  | _, .pinf => .pinf
  | .ninf, y => y
  | x, .ninf => x
  | .fin x, .fin y => .fin (max x y)

/-- Sum of the elements in a list of rows, one after another. Used for pyblp/markets/market.py:443, 447 and 453. -/
noncomputable def sum {ι : Type} (x : ι → Flo) : List ι → Noted Flo
  | [] => .pure (.fin 0)
  | k :: l => (sum x l).bind fun s => F.add s (x k)

/-- `x[~np.isfinite(x)] = 0`, pyblp/markets/market.py:451-452. -/
noncomputable def zeroed : Flo → Flo
  | .fin x => .fin x
  | _ => .fin 0

end FloatFormat

variable {J A G : Type}

/-- pyblp/markets/market.py:397-403. -/
noncomputable def flUtilities (F : FloatFormat) (m : Market J A G) (delta : J → Flo) (mu : J → A → Flo) (i : A) (j : J) : Noted Flo :=
  (F.add (delta j) (mu j i)).bind fun x =>
    match m.nesting with
    | some n => (F.sub (.fin 1) (.fin (n.productRho j))).bind fun d => F.div x d
    | none => if m.epsilonScale ≠ 1 then F.div x (.fin m.epsilonScale) else .pure x

/-- `np.clip(utilities.max(axis=0, keepdims=True), 0, None)` for one agent, pyblp/markets/market.py:406. -/
noncomputable def flReduction (rows : List J) (u : J → Flo) : Flo :=
  FloatFormat.larger (rows.foldr (fun j r => FloatFormat.larger (u j) r) .ninf) (.fin 0)

/-- pyblp/markets/market.py:405-409: with `safe`, utilities are reduced before they are exponentiated. The first value is the reduction, if
there is one. -/
noncomputable def flExponentiated (F : FloatFormat) (safe : Bool) (rows : List J) (u : J → Flo) : Noted (Option Flo × (J → Flo)) :=
  if safe then
    let r := flReduction rows u
    (Noted.each fun j => (F.sub (u j) r).bind F.exp).bind fun e => .pure (some r, e)
  else (Noted.each fun j => F.exp (u j)).bind fun e => .pure (none, e)

/-- pyblp/markets/market.py:425-437. -/
noncomputable def flRestrict [DecidableEq J] (F : FloatFormat) (m : Market J A G) (o : ProbOpts J A) (e : J → Flo) (i : A) : Noted (J → Flo) :=
  Noted.each fun j =>
    (match (o.availability <|> m.availability) with
      | some a => F.mul (e j) (.fin (a i j))
      | none => Noted.pure (e j)).bind fun x =>
        .pure (if o.eliminateProduct = some j ∨ o.eliminateMask j = true then .fin 0 else x)

/-- pyblp/markets/market.py:411-423 without nesting. -/
noncomputable def flPlainScale (F : FloatFormat) (eliminateOutside : Bool) (r : Option Flo) : Noted Flo :=
  (match r with
    | none => Noted.pure (Flo.fin 1)
    | some r => F.exp (FloatFormat.neg r)).bind fun s => .pure (if eliminateOutside then .fin 0 else s)

/-- pyblp/markets/market.py:411-423 with nesting: `scale` for a group. -/
noncomputable def flNestedScale (F : FloatFormat) (n : Nesting J G) (eliminateOutside : Bool) (r : Option Flo) (g : G) : Noted Flo :=
  (match r with
    | none => Noted.pure (Flo.fin 1)
    | some r => (F.sub (.fin 1) (.fin (n.rho.groupRho g))).bind fun d => (F.mul (FloatFormat.neg r) d).bind F.exp).bind fun s =>
      .pure (if eliminateOutside then .fin 0 else s)

/-- pyblp/markets/market.py:412 and 418-419: `scale_weights[a, b]`. -/
noncomputable def flScaleWeight (F : FloatFormat) (n : Nesting J G) (r : Option Flo) (a b : G) : Noted Flo :=
  match r with
  | none => .pure (.fin 1)
  | some r =>
    if n.rho.sizeGtOne then
      (F.sub (.fin (n.rho.groupRho b)) (.fin (n.rho.groupRho a))).bind fun d => (F.mul (FloatFormat.neg r) d).bind F.exp
    else .pure (.fin 1)

/-- pyblp/markets/market.py:440-444. -/
noncomputable def flPlain (F : FloatFormat) (eliminateOutside : Bool) (rows : List J) (r : Option Flo) (e : J → Flo) : Noted (J → Flo) :=
  (flPlainScale F eliminateOutside r).bind fun scale =>
    (F.sum e rows).bind fun total =>
      (F.add scale total).bind fun below => Noted.each fun j => F.div (e j) below

/-- `exp_weighted_inclusives`, pyblp/markets/market.py:449 and 451, from `exp_inclusives`. -/
noncomputable def flWeightedInclusives (F : FloatFormat) (n : Nesting J G) (I : G → Flo) : Noted (G → Flo) :=
  (Noted.each fun g => (F.log (I g)).bind fun l => (F.sub (.fin 1) (.fin (n.rho.groupRho g))).bind fun d =>
    (F.mul l d).bind F.exp).quietly.bind fun w => .pure fun g => FloatFormat.zeroed (w g)

/-- `conditionals`, pyblp/markets/market.py:450 and 452. -/
noncomputable def flConditionals (F : FloatFormat) (n : Nesting J G) (e : J → Flo) (I : G → Flo) : Noted (J → Flo) :=
  (Noted.each fun j => F.div (e j) (I (n.group j))).quietly.bind fun c => .pure fun j => FloatFormat.zeroed (c j)

/-- `marginals`, pyblp/markets/market.py:453. -/
noncomputable def flMarginals (F : FloatFormat) (n : Nesting J G) (eliminateOutside : Bool) (groups : List G) (r : Option Flo)
    (w : G → Flo) : Noted (G → Flo) :=
  Noted.each fun g =>
    (flNestedScale F n eliminateOutside r g).bind fun scale =>
      (Noted.each fun h => (flScaleWeight F n r g h).bind fun s => F.mul s (w h)).bind fun x =>
        (F.sum x groups).bind fun total => (F.add scale total).bind fun below => F.div (w g) below

/-- pyblp/markets/market.py:446-456: probabilities and conditional probabilities. -/
noncomputable def flNested [DecidableEq G] (F : FloatFormat) (n : Nesting J G) (eliminateOutside : Bool) (rows : List J) (groups : List G)
    (r : Option Flo) (e : J → Flo) : Noted ((J → Flo) × (J → Flo)) :=
  (Noted.each fun g => F.sum e (rows.filter fun k => n.group k = g)).bind fun I =>
    (flWeightedInclusives F n I).bind fun w =>
      (flConditionals F n e I).bind fun c =>
        (flMarginals F n eliminateOutside groups r w).bind fun marginal =>
          (Noted.each fun j => F.mul (c j) (marginal (n.group j))).bind fun p => .pure (p, c)

/-- `compute_probabilities` for one agent, pyblp/markets/market.py:360-456 with `linear=True`: probabilities and what NumPy noticed. `rows`
and `groups` are products and nests in their order. -/
noncomputable def flProbabilities [DecidableEq J] [DecidableEq G] (F : FloatFormat) (m : Market J A G) (o : ProbOpts J A) (rows : List J)
    (groups : List G) (delta : J → Flo) (mu : J → A → Flo) (i : A) : Noted (J → Flo) :=
  (Noted.each fun j => flUtilities F m delta mu i j).bind fun u =>
    (flExponentiated F o.safe rows u).bind fun re =>
      (flRestrict F m o re.2 i).bind fun e =>
        match m.nesting with
        | none => flPlain F o.eliminateOutside rows re.1 e
        | some n => (flNested F n o.eliminateOutside rows groups re.1 e).bind fun pc => .pure pc.1

end Pyblp
