import Mathlib.Data.Rat.Floor

/-!
# Residual connections that drop sequences

`AdditiveResidualConnect` and `DropPathResidualConnect` (/repo/src/fairseq2/nn/residual.py:42-47, 76-119). Simplified: exact rational
numbers for floating-point ones; a sequence is the list of its elements, whatever its shape is; the numbers of `torch.rand` are
given, one for each sequence, at least 0 and less than 1. `none` is a value that is not a number: what is divided by 0 is infinite
or not a number, and becomes not a number when it is multiplied with the mask, which is then 0.
-/

namespace Fs2.Residual

/-- `AdditiveResidualConnect.forward` (residual.py:46-47) for one sequence. -/
def additive (seq residual : List ℚ) : List (Option ℚ) := List.zipWith (fun s r => some (s + r)) seq residual

/-- A `DropPathResidualConnect` (residual.py:87-96), with its mode. -/
structure DropPath where
  dropP : ℚ
  scaleByKeep : Bool := true
  training : Bool

/-- The mask of a sequence (residual.py:106-109) for the number `u` of `torch.rand`. -/
def mask (d : DropPath) (u : ℚ) : ℤ := ⌊u + (1 - d.dropP)⌋

/-- `seqs / keep_p` (residual.py:111-112). -/
def scaled (d : DropPath) (x : ℚ) : Option ℚ :=
  if d.scaleByKeep then if 1 - d.dropP = 0 then none else some (x / (1 - d.dropP)) else some x

/-- `forward` (residual.py:99-114) for one sequence. -/
def forwardSeq (d : DropPath) (u : ℚ) (seq residual : List ℚ) : List (Option ℚ) :=
  if !d.training || d.dropP = 0 then additive seq residual
  else List.zipWith (fun s r => (scaled d s).map fun x => x * mask d u + r) seq residual

/-- `forward` for a batch. -/
def forward (d : DropPath) (us : List ℚ) (seqs residual : List (List ℚ)) : List (List (Option ℚ)) :=
  List.zipWith (fun u sr => forwardSeq d u sr.1 sr.2) us (List.zip seqs residual)

end Fs2.Residual
