/-!
# Resharding of checkpoints

Models `reshard_tensor` (`src/fairseq2/model_checkpoint/common.py:15-166`). A tensor has two dimensions
here: `rows` and `cols` (a tensor of one dimension is one with a single column, further dimensions are
part of the elements). An exception is `none`.
-/

namespace Fs2.Shard

/-- A tensor of two dimensions. -/
structure Mat (α : Type) where
  cols : Nat
  rows : List (List α)
  deriving DecidableEq

namespace Mat

variable {α : Type}

/-- The rows have the declared number of columns. -/
def Wf (m : Mat α) : Prop := ∀ r ∈ m.rows, r.length = m.cols

/-- `Tensor.size(dim)`. -/
def size (m : Mat α) : Nat → Option Nat
  | 0 => some m.rows.length
  | 1 => some m.cols
  | _ => none

/-- `Tensor.narrow(dim, start, length)`: raises if the slice is not inside the tensor. -/
def narrow (m : Mat α) (dim start len : Nat) : Option (Mat α) :=
  match dim with
  | 0 => if start + len ≤ m.rows.length then some { m with rows := (m.rows.drop start).take len } else none
  | 1 => if start + len ≤ m.cols then
      some { cols := len, rows := m.rows.map fun r => (r.drop start).take len } else none
  | _ => none

/-- Row `i` of several tensors side by side. -/
def rowOf (ms : List (Mat α)) (i : Nat) : List α := (ms.map fun m => (m.rows[i]?).getD []).flatten

/-- `torch.cat(tensors, dim)`: raises for no tensors and for other sizes that differ. -/
def cat (ms : List (Mat α)) (dim : Nat) : Option (Mat α) :=
  match ms, dim with
  | [], _ => none
  | m :: ms, 0 =>
    if ms.all (fun m' => m'.cols = m.cols) then
      some { cols := m.cols, rows := ((m :: ms).map (·.rows)).flatten } else none
  | m :: ms, 1 =>
    if ms.all (fun m' => m'.rows.length = m.rows.length) then
      some { cols := ((m :: ms).map (·.cols)).sum
             rows := (List.range m.rows.length).map (rowOf (m :: ms)) } else none
  | _, _ => none

end Mat

/-- The unsharded data parallel tensor (common.py:102-105, 122-125). -/
def catDp {α : Type} (dpSize : Nat) (splits : List (Mat α)) : Option (Mat α) :=
  if dpSize = 1 then splits[0]? else Mat.cat splits 0

/-- `reshard_tensor` (common.py:92-166). `tpDim` is `shard_dims.get(key)`. Integers are unbounded as in
Python; division by zero raises. -/
def reshard {α : Type} (splits : List (List (Mat α))) (sourceTp sourceDp targetTp targetRank : Nat)
    (tpDim : Option Nat) : Option (Mat α) :=
  if sourceTp = targetTp then do catDp sourceDp (← splits[targetRank]?)
  else
    match tpDim with
    | none => do catDp sourceDp (← splits[0]?)
    | some dim => do
      let tpSplits ← splits.mapM (catDp sourceDp)
      let sourceSize ← (← tpSplits[0]?).size dim
      if targetTp = 0 then none
      else
        let targetSize := sourceSize * sourceTp / targetTp
        let first := targetRank * targetSize
        let last : Int := (targetRank * targetSize : Nat) + targetSize - 1
        if sourceSize = 0 then none
        else
          let firstShard := first / sourceSize
          let lastShard := last / sourceSize
          let sub ← (List.range' firstShard (lastShard + 1 - firstShard).toNat).mapM (tpSplits[·]?)
          let tensor ← Mat.cat sub dim
          tensor.narrow dim (first - firstShard * sourceSize) targetSize

end Fs2.Shard
