import Mathlib.Algebra.BigOperators.Group.List.Basic
import Mathlib.Data.Int.Basic
import Mathlib.Data.Real.Basic
import Verif.Model.PyErr

/-!
# Sequences for integration (`configurations/integration.py`)

`same_size_sequences`, Halton sequences and Latin Hypercube Sampling.
-/

namespace Pyblp

/-! ## `same_size_sequences` -/

/-- Variables of the loop of `same_size_sequences`. Used for pyblp/configurations/integration.py:338-347 and 337-348. -/
structure SequenceState where
  /-- `sequence`. -/
  sequence : List ℤ
  /-- `forward`. -/
  forward : ℕ

/-- `for backward in reversed(range(forward))`, pyblp/configurations/integration.py:339-342: the value of `forward` after the loop. The
first argument is the number of iterations left. -/
def searchBackward (sequence : List ℤ) : ℕ → ℕ → ℕ
  | 0, forward => forward
  | backward + 1, _ => if sequence.getD backward 0 ≠ 0 then backward else searchBackward sequence backward backward

/-- The body of the loop, pyblp/configurations/integration.py:338-347. -/
def SequenceState.step (size : ℕ) (summation : ℤ) (s : SequenceState) : SequenceState :=
  let forward := if s.forward = size - 1 then searchBackward s.sequence s.forward s.forward else s.forward
  let sequence := s.sequence.set forward (s.sequence.getD forward 0 - 1)
  let forward := forward + 1
  let sequence := sequence.set forward (summation - (sequence.take forward).sum)
  let sequence := if forward < size - 1 then sequence.take (forward + 1) ++ List.replicate (size - (forward + 1)) 0 else sequence
  ⟨sequence, forward⟩

/-- `while sequence[-1] < summation`, pyblp/configurations/integration.py:337-348. The first argument bounds the number of iterations;
`none` means that it was too small. The list has the sequences appended after the first. -/
def sequenceLoop (size : ℕ) (summation : ℤ) : ℕ → SequenceState → Option (List (List ℤ))
  | 0, s => if s.sequence.getLastD 0 < summation then none else some []
  | fuel + 1, s =>
    if s.sequence.getLastD 0 < summation then
      let s' := s.step size summation
      (sequenceLoop size summation fuel s').map (s'.sequence :: ·)
    else some []

/-- `same_size_sequences`, pyblp/configurations/integration.py:327-349, for a positive size. -/
def sameSizeSequences (fuel : ℕ) (size : ℕ) (summation : ℤ) : Option (List (List ℤ)) :=
  let summation := summation - size
  let sequence := (List.replicate size (0 : ℤ)).set 0 summation
  (sequenceLoop size summation fuel ⟨sequence, 0⟩).map fun appended => (sequence :: appended).map fun s => s.map (· + 1)

/-! ## Halton sequences -/

/-- The primes of `get_prime`, pyblp/configurations/integration.py:230-239. -/
def haltonPrimes : List ℕ := [
  2, 3, 5, 7, 11, 13, 17, 19, 23, 29, 31, 37, 41, 43, 47, 53, 59, 61, 67, 71, 73, 79, 83, 89, 97, 101, 103, 107,
  109, 113, 127, 131, 137, 139, 149, 151, 157, 163, 167, 173, 179, 181, 191, 193, 197, 199, 211, 223, 227, 229,
  233, 239, 241, 251, 257, 263, 269, 271, 277, 281, 283, 293, 307, 311, 313, 317, 331, 337, 347, 349, 353, 359,
  367, 373, 379, 383, 389, 397, 401, 409, 419, 421, 431, 433, 439, 443, 449, 457, 461, 463, 467, 479, 487, 491,
  499, 503, 509, 521, 523, 541, 547, 557, 563, 569, 571, 577, 587, 593, 599, 601, 607, 613, 617, 619, 631, 641,
  643, 647, 653, 659, 661, 673, 677, 683, 691, 701, 709, 719, 727, 733, 739, 743, 751, 757, 761, 769, 773, 787,
  797, 809, 811, 821, 823, 827, 829, 839, 853, 857, 859, 863, 877, 881, 883, 887, 907, 911, 919, 929, 937, 941,
  947, 953, 967, 971, 977, 983, 991, 997]

/-- `get_prime`, pyblp/configurations/integration.py:228-243, for dimensions from zero. -/
def getPrime (dimension : ℕ) : Except PyErr ℕ :=
  match haltonPrimes[dimension]? with
  | some p => .ok p
  | none => .error .valueError

/-- `1 - factor < 1`, pyblp/configurations/integration.py:215: the difference of double precision numbers is rounded to one, with ties
to even, for factors up to `2 ** -54`. -/
noncomputable def factorMatters (factor : ℝ) : Bool := decide ((1 : ℝ) / 2 ^ 54 < factor)

/-- The loop over digits for one index, pyblp/configurations/integration.py:213-220. `permutations k` is the permutation drawn in the
`k`-th iteration, the identity without scrambling. The first argument bounds the number of iterations; rounding in sums and products is
not modelled. -/
noncomputable def haltonLoop (base : ℕ) (permutations : ℕ → ℕ → ℕ) : ℕ → ℕ → ℝ → ℕ → ℝ → ℝ
  | 0, _, _, _, value => value
  | fuel + 1, iteration, factor, index, value =>
    if factorMatters factor then
      haltonLoop base permutations fuel (iteration + 1) (factor / base) (index / base)
        (value + factor * (permutations iteration (index % base) : ℕ))
    else value

/-- A value of a Halton sequence, pyblp/configurations/integration.py:209-220. At most 54 iterations are needed, because factors at
least halve. -/
noncomputable def haltonValue (base : ℕ) (permutations : ℕ → ℕ → ℕ) (index : ℕ) : ℝ :=
  haltonLoop base permutations 54 0 (1 / base) index 0

/-- `indices` for one ID, pyblp/configurations/integration.py:214. -/
def haltonIndices (start size : ℕ) : List ℕ := List.range' start size

/-- Starts of the sequences of IDs, pyblp/configurations/integration.py:171-184: pairs of an ID and the indices used for it. Each ID has
as many weights as the size. -/
def haltonMany {ι : Type} (discard size : ℕ) : ℕ → List ι → List (ι × List ℕ)
  | _, [] => []
  | count, i :: ids => (i, haltonIndices (discard + count) size) :: haltonMany discard size (count + size) ids

/-- One dimension of `lhs`, pyblp/configurations/integration.py:252: `uniform` has the draws, which are all the same for modified
sampling, and `permutation` is the random permutation of rows. -/
noncomputable def lhsSamples {size : ℕ} (permutation : Fin size → Fin size) (uniform : Fin size → ℝ) (i : Fin size) : ℝ :=
  (((permutation i : ℕ) : ℝ) + uniform (permutation i)) / size

end Pyblp
