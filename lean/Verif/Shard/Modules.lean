import Verif.Shard.Reshard
import Mathlib.Algebra.BigOperators.Group.List.Basic
import Mathlib.Algebra.Ring.Basic

/-!
# Sharded projections and embeddings

Models `src/fairseq2/nn/projection.py` (`Linear`, `ColumnShardedLinear`, `RowShardedLinear`),
`src/fairseq2/nn/embedding.py` (`StandardEmbedding`, `VocabShardedEmbedding`, `ShardedEmbedding`) and
`src/fairseq2/ops/tensor_parallel.py`.

A module is modelled on all ranks of the tensor parallel gang at once: its parameters and its values are
lists with one entry per rank. Arithmetic is exact, in any semiring. An input is a single vector (or a
single index): the modules treat all positions of a batch alike. Device placement, data types and random
initialization are not modelled. An exception is `none`.
-/

namespace Fs2.Shard

variable {α : Type}

/-! ## Collectives (`tensor_parallel.py`) -/

/-- `gather` of vectors over the last dimension (tensor_parallel.py:67-88, 126-134): every rank gets the
concatenation in order of ranks. -/
def gatherLast (xs : List (List α)) : List (List α) := xs.map fun _ => xs.flatten

/-- `scatter` over the last dimension (tensor_parallel.py:43-64, 110-123). -/
def scatterLast (size rank : Nat) (x : List α) : Option (List α) :=
  if size = 1 then some x
  else if x.length % size ≠ 0 then none
  else
    let n := x.length / size
    if rank * n + n ≤ x.length then some ((x.drop (rank * n)).take n) else none

/-- `all_reduce` with `SUM` of vectors: every rank gets the elementwise sum. -/
def sumAll [Add α] : List (List α) → List α
  | [] => []
  | [x] => x
  | x :: xs => List.zipWith (· + ·) x (sumAll xs)

/-- `reduce` (tensor_parallel.py:20-40). -/
def reduceSum [Add α] (xs : List (List α)) : List (List α) := xs.map fun _ => sumAll xs

/-! ## `Linear` (projection.py:58-124) -/

/-- A weight of `output_dim` rows and `input_dim` columns and a bias. -/
structure Lin (α : Type) where
  weight : Mat α
  bias : Option (List α)
  deriving DecidableEq

/-- The shapes of a `Linear(input_dim, output_dim)`. -/
structure Lin.Shape (l : Lin α) (inputDim outputDim : Nat) : Prop where
  cols : l.weight.cols = inputDim
  rows : l.weight.rows.length = outputDim
  wf : l.weight.Wf
  bias : ∀ b, l.bias = some b → b.length = outputDim

/-- Entry `rank` of `Tensor.split(n, dim)`, for a dimension that is a multiple of `n`. The split into
parts of size zero has a single part. -/
def Mat.chunk (m : Mat α) (dim n rank : Nat) : Option (Mat α) :=
  if n = 0 ∧ rank ≠ 0 then none else m.narrow dim (rank * n) n

section
variable [Semiring α]

/-- The product of a vector with a row of a weight. -/
def dotp (x w : List α) : α := (List.zipWith (· * ·) x w).sum

/-- Adds a bias. -/
def addBias (y : List α) : Option (List α) → List α
  | none => y
  | some b => List.zipWith (· + ·) y b

/-- `torch.nn.functional.linear` for one vector. -/
def linear (x : List α) (w : Mat α) (b : Option (List α)) : Option (List α) :=
  if x.length = w.cols then some (addBias (w.rows.map (dotp x)) b) else none

/-! ## `ColumnShardedLinear` (projection.py:127-361) -/

/-- The parameters of a rank (projection.py:209-218, 259-276). -/
def colShard (size rank : Nat) (l : Lin α) : Option (Lin α) :=
  let outputDim := l.weight.rows.length
  if outputDim % size ≠ 0 then none
  else do
    let n := outputDim / size
    let w ← l.weight.chunk 0 n rank
    some { weight := w, bias := l.bias.map fun b => (b.drop (rank * n)).take n }

/-- `from_linear` on all ranks. -/
def colFromLinear (size : Nat) (l : Lin α) : Option (List (Lin α)) :=
  (List.range size).mapM fun r => colShard size r l

/-- `forward` on all ranks (projection.py:278-290); `xs` has the input of each rank. -/
def colForward (gatherOutput : Bool) (shards : List (Lin α)) (xs : List (List α)) :
    Option (List (List α)) := do
  let ys ← (shards.zip xs).mapM fun p => linear p.2 p.1.weight p.1.bias
  if shards.length ≤ 1 then some ys
  else if gatherOutput then some (gatherLast ys)
  else some ys

/-- `to_linear` (projection.py:292-318), the same on all ranks. -/
def colToLinear (shards : List (Lin α)) : Option (Lin α) := do
  let w ← Mat.cat (shards.map (·.weight)) 0
  match ← shards[0]? with
  | { bias := none, .. } => some { weight := w, bias := none }
  | { bias := some _, .. } => do
    let bs ← shards.mapM (·.bias)
    some { weight := w, bias := some bs.flatten }

/-! ## `RowShardedLinear` (projection.py:364-596) -/

/-- The parameters of a rank (projection.py:451-460, 501-514): the bias is not sharded. -/
def rowShard (size rank : Nat) (l : Lin α) : Option (Lin α) :=
  let inputDim := l.weight.cols
  if inputDim % size ≠ 0 then none
  else do
    let n := inputDim / size
    let w ← l.weight.chunk 1 n rank
    some { weight := w, bias := l.bias }

/-- `from_linear` on all ranks. -/
def rowFromLinear (size : Nat) (l : Lin α) : Option (List (Lin α)) :=
  (List.range size).mapM fun r => rowShard size r l

/-- `forward` on all ranks (projection.py:516-532). -/
def rowForward (scatterInput reduceOutput : Bool) (shards : List (Lin α)) (xs : List (List α)) :
    Option (List (List α)) :=
  if shards.length ≤ 1 then (shards.zip xs).mapM fun p => linear p.2 p.1.weight p.1.bias
  else do
    let xs ← if scatterInput then
        (xs.mapIdx fun r x => (r, x)).mapM fun p => scatterLast shards.length p.1 p.2
      else some xs
    let ys ← (shards.zip xs).mapM fun p => linear p.2 p.1.weight none
    let ys := if reduceOutput then reduceSum ys else ys
    some (List.zipWith (fun s y => addBias y s.bias) shards ys)

/-- `to_linear` (projection.py:534-555). -/
def rowToLinear (shards : List (Lin α)) : Option (Lin α) := do
  let w ← Mat.cat (shards.map (·.weight)) 1
  let s ← shards[0]?
  some { weight := w, bias := s.bias }

end

/-! ## Embeddings (embedding.py) -/

/-- `torch.nn.functional.embedding` for one index: raises for an index outside the table. -/
def embed (i : Int) (w : Mat α) : Option (List α) :=
  if 0 ≤ i then w.rows[i.toNat]? else none

/-- The weight of a rank of `VocabShardedEmbedding` (embedding.py:189-198, 227-233). -/
def vocabShard (size rank : Nat) (w : Mat α) : Option (Mat α) :=
  if w.rows.length % size ≠ 0 then none
  else w.chunk 0 (w.rows.length / size) rank

/-- `VocabShardedEmbedding.from_embedding` on all ranks. -/
def vocabFromEmbedding (size : Nat) (w : Mat α) : Option (List (Mat α)) :=
  (List.range size).mapM fun r => vocabShard size r w

/-- `VocabShardedEmbedding.forward` on one rank of several, before the reduction
(embedding.py:240-266). -/
def vocabLocal [Zero α] (rank : Nat) (w : Mat α) (i : Int) : Option (List α) :=
  let n := w.rows.length
  let outside := decide (i < (rank * n : Nat)) || decide (i ≥ ((rank + 1) * n : Nat))
  let j := if outside then 0 else i - (rank * n : Nat)
  (embed j w).map fun e => if outside then e.map fun _ => 0 else e

/-- `VocabShardedEmbedding.forward` on all ranks (embedding.py:235-271). -/
def vocabForward [Zero α] [Add α] (shards : List (Mat α)) (is : List Int) : Option (List (List α)) :=
  if shards.length ≤ 1 then (shards.zip is).mapM fun p => embed p.2 p.1
  else do
    let ys ← ((shards.zip is).mapIdx fun r p => (r, p)).mapM fun p => vocabLocal p.1 p.2.1 p.2.2
    some (reduceSum ys)

/-- `VocabShardedEmbedding.to_embedding` (embedding.py:273-287). -/
def vocabToEmbedding (shards : List (Mat α)) : Option (Mat α) := Mat.cat shards 0

/-- The weight of a rank of `ShardedEmbedding` (embedding.py:403-412, 441-447). -/
def dimShard (size rank : Nat) (w : Mat α) : Option (Mat α) :=
  if w.cols % size ≠ 0 then none
  else w.chunk 1 (w.cols / size) rank

/-- `ShardedEmbedding.from_embedding` on all ranks. -/
def dimFromEmbedding (size : Nat) (w : Mat α) : Option (List (Mat α)) :=
  (List.range size).mapM fun r => dimShard size r w

/-- `ShardedEmbedding.forward` on all ranks (embedding.py:449-460). -/
def dimForward (shards : List (Mat α)) (is : List Int) : Option (List (List α)) := do
  let ys ← (shards.zip is).mapM fun p => embed p.2 p.1
  if shards.length ≤ 1 then some ys else some (gatherLast ys)

/-- `ShardedEmbedding.to_embedding` (embedding.py:462-476). -/
def dimToEmbedding (shards : List (Mat α)) : Option (Mat α) := Mat.cat shards 1

end Fs2.Shard
