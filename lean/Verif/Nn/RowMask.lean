import Mathlib.Data.Rat.Floor

/-!
# Random span masks

Models `compute_row_mask` (`src/fairseq2/nn/utils/mask.py:69-205`). Random numbers are given as
functions, floats are exact rationals, and an exception is `none`. Lengths are natural numbers (a
negative length is rejected by the same check as one that is too short).
-/

namespace Fs2.Nn

/-- A boolean tensor of two dimensions. -/
structure Mask where
  rows : Nat
  cols : Nat
  data : List (List Bool)
  deriving DecidableEq

/-- Conversion of a float to an integer: rounds towards zero. -/
def trunc (q : ℚ) : ℤ := if 0 ≤ q then ⌊q⌋ else -⌊-q⌋

/-- `num_spans` (mask.py:127-132): the smallest over the rows. -/
def numSpans (lens : List Nat) (span : Nat) (p : ℚ) : ℤ :=
  ((lens.map fun (n : Nat) => trunc (p / span * ((n : ℚ) - 1))).min?).getD 0

/-- The start of span `s` of a row of `len` (mask.py:144-161). -/
def spanStart (len span : Nat) (x : ℚ) : Nat :=
  (trunc ((((len : ℤ) - span + 1 : ℤ) : ℚ) * x)).toNat

/-- `_compute_mask_spans` (mask.py:115-172). The outer `none` is an exception, the inner one Python's
`None`. `rand` are the values of `torch.rand`. -/
def computeSpans (lens : List Nat) (span : Nat) (p : ℚ) (minSpans : ℤ) (rand : Nat → ℚ) :
    Option (Option (List (List Nat))) :=
  if lens = [] then some none
  else if span = 0 then none
  else
    let n := numSpans lens span p
    if minSpans > n then none
    else if n = 0 then some none
    else if n < 0 then none
    else
      some (some (lens.mapIdx fun r len =>
        (List.range n.toNat).flatMap fun s =>
          (List.range span).map fun i => spanStart len span (rand (r * n.toNat + s)) + i))

/-- The number of distinct masked positions of a row. -/
def countMasked (maxLen : Nat) (ix : List Nat) : Nat := ((List.range maxLen).filter (· ∈ ix)).length

/-- `_generate_mask` (mask.py:175-205). `vals` are the values of `torch.rand_like`; `topk vs k` are the
indices `torch.topk` returns. Scattering to an index outside the row raises. -/
def generateMask (indices : List (List Nat)) (maxLen : Nat) (vals : Nat → Nat → ℚ)
    (topk : List ℚ → Nat → List Nat) : Option Mask :=
  if indices.any (fun ix => ix.any fun i => maxLen ≤ i) then none
  else
    let k := ((indices.map (countMasked maxLen)).min?).getD 0
    some {
      rows := indices.length, cols := maxLen
      data := indices.mapIdx fun r ix =>
        let picks := topk ((List.range maxLen).map fun i =>
          (vals r i + 1 / 1000) * (if i ∈ ix then 1 else 0)) k
        (List.range maxLen).map fun i => decide (i ∈ picks) }

/-- `compute_row_mask` (mask.py:69-112). -/
def computeRowMask (rows maxLen span : Nat) (p : ℚ) (rowLens : Option (List Nat)) (minSpans : ℤ)
    (rand : Nat → ℚ) (vals : Nat → Nat → ℚ) (topk : List ℚ → Nat → List Nat) : Option Mask := do
  let lens ← match rowLens with
    | none => if span ≥ maxLen then none else some (List.replicate rows maxLen)
    | some l =>
      if l.length ≠ rows then none
      else if l.any (fun n => span ≥ n) then none
      else some l
  match ← computeSpans lens span p minSpans rand with
  | none => some { rows := 0, cols := 0, data := [] }
  | some indices => generateMask indices maxLen vals topk

end Fs2.Nn
