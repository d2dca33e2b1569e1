import Verif.Shard.Modules

/-!
# Gradients of sharded projections

The backward passes of `Linear`, `ColumnShardedLinear` and `RowShardedLinear`, put together from the
backward functions of `src/fairseq2/ops/tensor_parallel.py` and the gradients of
`torch.nn.functional.linear`. One input vector; gradients of several add up.
-/

namespace Fs2.Shard

variable {α : Type} [Semiring α]

/-- The gradients of a projection: input, weight and bias. -/
structure Grads (α : Type) where
  x : List α
  weight : Mat α
  bias : List α
  deriving DecidableEq

/-- Gradient of `linear` with respect to its input: the gradient of the output times the weight. -/
def gradX (g : List α) (w : Mat α) : List α :=
  (List.range w.cols).map fun i => dotp g (w.rows.map fun row => (row[i]?).getD 0)

/-- Gradient with respect to the weight: an outer product. -/
def gradW (g x : List α) : Mat α := { cols := x.length, rows := g.map fun a => x.map fun b => a * b }

/-- Backward pass of `Linear` (projection.py:109). -/
def linBackward (l : Lin α) (x g : List α) : Grads α :=
  { x := gradX g l.weight, weight := gradW g x, bias := g }

/-- Backward pass of `ColumnShardedLinear` on all ranks (projection.py:278-290) for the input `x` and the
gradient of the output on each rank. `gather` scatters it (tensor_parallel.py:85-88), the gradient of the
input is reduced (tensor_parallel.py:104-107). -/
def colBackward (gatherOutput : Bool) (shards : List (Lin α)) (x : List α) (gs : List (List α)) :
    Option (List (Grads α)) := do
  let gs ← if gatherOutput then
      (gs.mapIdx fun r g => (r, g)).mapM fun p => scatterLast shards.length p.1 p.2
    else some gs
  let xs := reduceSum (List.zipWith (fun s g => gradX g s.weight) shards gs)
  some (List.zipWith (fun g dx => { x := dx, weight := gradW g x, bias := g }) gs xs)

/-- Backward pass of `RowShardedLinear` on all ranks (projection.py:516-532) for the input parts `xs`.
`reduce` hands the gradient through (tensor_parallel.py:38-40), `scatter` gathers it
(tensor_parallel.py:60-64). -/
def rowBackward (scatterInput : Bool) (shards : List (Lin α)) (xs : List (List α)) (gs : List (List α)) :
    List (Grads α) :=
  let dxs := List.zipWith (fun s g => gradX g s.weight) shards gs
  let dxs := if scatterInput then gatherLast dxs else dxs
  List.zipWith (fun (p : List α × List α) dx => { x := dx, weight := gradW p.2 p.1, bias := p.2 })
    (xs.zip gs) dxs

end Fs2.Shard
