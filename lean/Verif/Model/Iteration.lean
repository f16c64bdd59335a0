import Verif.Tactics
import Mathlib.Analysis.Real.Sqrt
import Mathlib.Data.Finset.Lattice.Fold

/-!
# Fixed point iteration (`simple_iterator`, `squarem_iterator`)

Vectors are functions from a finite index type to `Option ℝ`; `none` is a value that is not finite. The contraction is an
arbitrary function of the number of earlier calls and of its input: pyblp's contractions also receive the counters
(pyblp/configurations/iteration.py:269-283), and given the run so far the counter determines everything else.
-/

namespace Pyblp

open Classical

noncomputable section

variable {ι : Type}

/-- A float vector. Used for pyblp/configurations/iteration.py:486-488 and 501-505. -/
abbrev FVec (ι : Type) := ι → Option ℝ

/-- `np.isfinite(x).all()`. Used for pyblp/configurations/iteration.py:486-488 and 297-299. -/
def FVec.Finite (x : FVec ι) : Prop := ∀ i, (x i).isSome

/-- Arithmetic with a non-finite operand gives a non-finite result. Used for pyblp/configurations/iteration.py:420-479. -/
def FVec.sub (x y : FVec ι) : FVec ι := fun i => (x i).bind fun a => (y i).map fun b => a - b

/-- `weights * x`. Used for pyblp/configurations/iteration.py:501-505. -/
def FVec.mul (x y : FVec ι) : FVec ι := fun i => (x i).bind fun a => (y i).map fun b => a * b

/-- The values and weights returned by the contraction. Used for pyblp/configurations/iteration.py:382-396 and 369-400. -/
abbrev Contraction (ι : Type) := ℕ → FVec ι → FVec ι × Option (FVec ι)

/-- `all_finite(x, weights)`, pyblp/configurations/iteration.py:486-488. -/
def allFinite (x : FVec ι) (weights : Option (FVec ι)) : Prop := x.Finite ∧ ∀ w, weights = some w → w.Finite

/-- `weight`, pyblp/configurations/iteration.py:501-505. -/
def weightBy (x : FVec ι) : Option (FVec ι) → FVec ι
  | none => x
  | some w => w.mul x

/-- `a < b` for floats; comparisons with a value that is not finite are taken to be false (simplification: an infinite
tolerance from an overflowing norm is not modelled). Used for pyblp/configurations/iteration.py:491-498. -/
def flt : Option ℝ → Option ℝ → Prop
  | some a, some b => a < b
  | _, _ => False

/-- `termination_check`, pyblp/configurations/iteration.py:491-498. -/
def terminationCheck (norm : FVec ι → Option ℝ) (atol rtol : ℝ) (x residual : FVec ι) (weights : Option (FVec ι)) : Prop :=
  let tol : Option ℝ := if 0 < rtol then (norm (weightBy x weights)).map fun n => atol + rtol * n else some atol
  flt (norm (weightBy residual weights)) tol

/-- The options of the routines. Used for pyblp/configurations/iteration.py:382-396 and 369-400. -/
structure IterOptions (ι : Type) where
  maxEvaluations : ℕ
  atol : ℝ
  rtol : ℝ
  norm : FVec ι → Option ℝ

/-- What a routine returns, with the number of times it called the contraction. Used for pyblp/configurations/iteration.py:382-396 and 369-400. -/
structure IterResult (ι : Type) where
  x : FVec ι
  converged : Bool
  calls : ℕ

/-- One call of the contraction followed by the checks (the same eight lines appear four times in
pyblp/configurations/iteration.py:383-396, 421-432, 434-445 and 467-479). -/
inductive Outcome (ι : Type) where
  /-- `break` -/
  | stop (result : IterResult ι)
  /-- carry on with the new value -/
  | go (x : FVec ι)

/-- Evaluate the contraction at `x` after `evaluations` evaluations; `fallback` is what is returned if the outcome is not
finite. The flag is `not failed and evaluations < max_evaluations` (pyblp/configurations/iteration.py:399 and 482). -/
def evaluate (o : IterOptions ι) (c : Contraction ι) (evaluations : ℕ) (fallback x : FVec ι) : Outcome ι :=
  let y := c evaluations x
  if ¬ allFinite y.1 y.2 then .stop ⟨fallback, false, evaluations + 1⟩
  else if evaluations + 1 ≥ o.maxEvaluations ∨ terminationCheck o.norm o.atol o.rtol y.1 (y.1.sub x) y.2 then
    .stop ⟨y.1, decide (evaluations + 1 < o.maxEvaluations), evaluations + 1⟩
  else .go y.1

theorem evaluate_go {o : IterOptions ι} {c : Contraction ι} {n : ℕ} {fb x y : FVec ι} (h : evaluate o c n fb x = .go y) :
    n + 1 < o.maxEvaluations := by
  unfold evaluate at h
  simp only at h
  split at h
  · simp at h
  · split at h
    · simp at h
    · rename_i h1 h2; push Not at h2; exact h2.1

/-- The loop of `simple_iterator`, pyblp/configurations/iteration.py:382-396. -/
def simpleLoop (o : IterOptions ι) (c : Contraction ι) (evaluations : ℕ) (x : FVec ι) : IterResult ι :=
  match h : evaluate o c evaluations x x with
  | .stop r => r
  | .go y => simpleLoop o c (evaluations + 1) y
termination_by o.maxEvaluations - evaluations
decreasing_by have := evaluate_go h; omega

/-- `simple_iterator`, pyblp/configurations/iteration.py:369-400. -/
def simpleIterator (o : IterOptions ι) (c : Contraction ι) (initial : FVec ι) : IterResult ι := simpleLoop o c 0 initial

/-- The value of a floating point division. Used for pyblp/configurations/iteration.py:448-456. -/
inductive Quotient where
  | fin (a : ℝ)
  | posInf
  | negInf
  | nan

/-- `r.T @ v`. Used for pyblp/configurations/iteration.py:448-456. -/
def fdot [Fintype ι] (r v : FVec ι) : Option ℝ :=
  if r.Finite ∧ v.Finite then some (∑ i, (r i).getD 0 * (v i).getD 0) else none

/-- `a / b`; `neg` says whether a zero denominator is a negative zero, which real arithmetic does not tell.
Used for pyblp/configurations/iteration.py:448-456. -/
def fdiv (neg : Bool) : Option ℝ → Option ℝ → Quotient
  | some a, some b =>
    if b ≠ 0 then .fin (a / b)
    else if a = 0 then .nan
    else if (0 < a) = (neg = false) then .posInf else .negInf
  | _, _ => .nan

/-- `-x`. Used for pyblp/configurations/iteration.py:448-456 and 459. -/
def Quotient.neg : Quotient → Quotient
  | .fin a => .fin (-a)
  | .posInf => .negInf
  | .negInf => .posInf
  | .nan => .nan

/-- `np.sqrt(x)`. Used for pyblp/configurations/iteration.py:448-456. -/
def Quotient.sqrt : Quotient → Quotient
  | .fin a => if 0 ≤ a then .fin (Real.sqrt a) else .nan
  | .posInf => .posInf
  | .negInf => .nan
  | .nan => .nan

/-- The step length before it is bounded, pyblp/configurations/iteration.py:448-456. -/
def rawStep [Fintype ι] (neg : Bool) (scheme : ℕ) (r v : FVec ι) : Quotient :=
  if scheme = 1 then fdiv neg (fdot r v) (fdot v v)
  else if scheme = 2 then fdiv neg (fdot r r) (fdot r v)
  else ((fdiv neg (fdot r r) (fdot v v)).sqrt).neg

/-- `np.maximum(step_min, np.minimum(step_max, x))`; NaN propagates (`none`). Used for pyblp/configurations/iteration.py:459. -/
def clipStep (stepMin stepMax : ℝ) : Quotient → Option ℝ
  | .fin a => some (max stepMin (min stepMax a))
  | .posInf => some (max stepMin stepMax)
  | .negInf => some stepMin
  | .nan => none

/-- `alpha` after pyblp/configurations/iteration.py:459. -/
def boundedStep [Fintype ι] (neg : Bool) (scheme : ℕ) (stepMin stepMax : ℝ) (r v : FVec ι) : Option ℝ :=
  (clipStep stepMin stepMax (rawStep neg scheme r v).neg).map fun s => -s

/-- `step_max` after pyblp/configurations/iteration.py:460-461. -/
def nextStepMax (stepMax factor : ℝ) (alpha : Option ℝ) : ℝ :=
  if alpha.map (fun a => -a) = some stepMax then stepMax * factor else stepMax

/-- `step_min` after pyblp/configurations/iteration.py:462-463. -/
def nextStepMin (stepMin factor : ℝ) (alpha : Option ℝ) : ℝ :=
  if alpha.map (fun a => -a) = some stepMin ∧ stepMin < 0 then stepMin * factor else stepMin

/-- `x0 - 2 * alpha * r + alpha**2 * v`, pyblp/configurations/iteration.py:466. -/
def accelerate (x0 r v : FVec ι) (alpha : Option ℝ) : FVec ι := fun i =>
  (x0 i).bind fun a => (r i).bind fun b => (v i).bind fun d => alpha.map fun s => a - 2 * s * b + s ^ 2 * d

/-- The additional options of SQUAREM. Used for pyblp/configurations/iteration.py:420-479 and 403-483. -/
structure SquaremOptions where
  scheme : ℕ
  stepFactor : ℝ
  /-- the sign of a zero denominator in the given evaluation -/
  negZero : ℕ → Bool

/-- The loop of `squarem_iterator`, pyblp/configurations/iteration.py:420-479. -/
def squaremLoop [Fintype ι] (o : IterOptions ι) (s : SquaremOptions) (c : Contraction ι) (evaluations : ℕ) (stepMin stepMax : ℝ)
    (x0 : FVec ι) : IterResult ι :=
  match _h1 : evaluate o c evaluations x0 x0 with
  | .stop r => r
  | .go x1 =>
    match evaluate o c (evaluations + 1) x1 x1 with
    | .stop r => r
    | .go x2 =>
      let r := x1.sub x0
      let v := (x2.sub x1).sub r
      let alpha := boundedStep (s.negZero evaluations) s.scheme stepMin stepMax r v
      match evaluate o c (evaluations + 2) x2 (accelerate x0 r v alpha) with
      | .stop r => r
      | .go x => squaremLoop o s c (evaluations + 3) (nextStepMin stepMin s.stepFactor alpha)
          (nextStepMax stepMax s.stepFactor alpha) x
termination_by o.maxEvaluations - evaluations
decreasing_by have := evaluate_go _h1; omega

/-- `squarem_iterator`, pyblp/configurations/iteration.py:403-483. -/
def squaremIterator [Fintype ι] (o : IterOptions ι) (s : SquaremOptions) (stepMin stepMax : ℝ) (c : Contraction ι) (initial : FVec ι) :
    IterResult ι := squaremLoop o s c 0 stepMin stepMax initial

/-- `return_iterator`, pyblp/configurations/iteration.py:302-305. -/
def returnIterator (initial : FVec ι) : IterResult ι := ⟨initial, true, 0⟩

/-- `infinity_norm`, pyblp/configurations/iteration.py:297-299. -/
def infinityNorm [Fintype ι] [Nonempty ι] (x : FVec ι) : Option ℝ :=
  if x.Finite then some (Finset.univ.sup' Finset.univ_nonempty fun i => |(x i).getD 0|) else none

end

end Pyblp
