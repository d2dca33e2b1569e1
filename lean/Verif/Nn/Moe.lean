import Mathlib.Algebra.BigOperators.Intervals

/-!
# Mixture of experts

Models `MoE.forward` (src/fairseq2/models/llama4/moe.py:94-157), `GroupedExpertNetwork` and `TPShardedExpertNetwork`
(src/fairseq2/models/transformer/experts.py), the shared expert (`GLUFeedForwardNetwork` without biases) and
`MoESharder.shard` (src/fairseq2/models/llama4/sharder.py:46-87).

Tensors are functions of indices with given sizes; arithmetic is exact, in any commutative semiring. `topk`, the activation and the sigmoid
are functions, with minus infinity as `none`, of which the sigmoid is 0. Tokens of a batch are flattened beforehand. The sizes that the
constructor derives from the configuration are not modelled.
-/

namespace Fs2.Moe

open Finset

variable {F : Type} [CommSemiring F]

/-- A matrix. -/
structure Mat (F : Type) where
  rows : Nat
  cols : Nat
  at_ : Nat → Nat → F

/-- `w.view(n, -1, w.shape[-1])`: its middle size and its entries. -/
def Mat.view (w : Mat F) (n : Nat) : Nat × (Nat → Nat → Nat → F) :=
  (w.rows / n, fun e i j => w.at_ (e * (w.rows / n) + i) j)

/-- `t.reshape(-1, cols)` of a tensor with `n`, `m` and `cols` entries in its dimensions. -/
def reshape2 (n m cols : Nat) (t : Nat → Nat → Nat → F) : Mat F :=
  ⟨n * m, cols, fun k j => t (k / m) (k % m) j⟩

/-- `torch.bmm(x, w)`; `m` is the size of the dimension that is summed over. -/
def bmm (m : Nat) (x w : Nat → Nat → Nat → F) : Nat → Nat → Nat → F :=
  fun e t j => ∑ i ∈ range m, x e t i * w e i j

/-- The weights of grouped experts, with the dimension of the experts folded into the first one (experts.py:24-87). -/
structure Experts (F : Type) where
  num : Nat
  gate : Mat F
  inner : Mat F
  output : Mat F

/-- The shapes that `create_expert_glu_layers` gives them. -/
structure Experts.Shape (ex : Experts F) (modelDim innerDim : Nat) : Prop where
  gateRows : ex.gate.rows = ex.num * modelDim
  gateCols : ex.gate.cols = innerDim
  innerRows : ex.inner.rows = ex.num * modelDim
  innerCols : ex.inner.cols = innerDim
  outRows : ex.output.rows = ex.num * innerDim
  outCols : ex.output.cols = modelDim

/-- `_forward_glu_bmm_with_folded_experts` (experts.py:90-114). -/
def Experts.forward (act : F → F) (ex : Experts F) (x : Nat → Nat → Nat → F) : Nat → Nat → Nat → F :=
  let gate := ex.gate.view ex.num
  let inner := ex.inner.view ex.num
  let output := ex.output.view ex.num
  let h := fun e t j => act (bmm gate.1 x gate.2 e t j)
  let h := fun e t j => h e t j * bmm inner.1 x inner.2 e t j
  bmm output.1 h output.2

/-- `_copy_weight` with `dim=2` (experts.py:325-333). -/
def copyCols (num n rank : Nat) (w : Mat F) : Mat F :=
  let v := w.view num
  reshape2 num v.1 n fun e i j => v.2 e i (rank * n + j)

/-- `_copy_weight` with `dim=1`. -/
def copyRows (num n rank : Nat) (w : Mat F) : Mat F :=
  let v := w.view num
  reshape2 num n w.cols fun e i j => v.2 e (rank * n + i) j

/-- `from_grouped_expert_network` on a rank (experts.py:228-268, 296-303); `none` is the `ValueError`. -/
def Experts.shard (ex : Experts F) (innerDim size rank : Nat) : Option (Experts F) :=
  if innerDim % size ≠ 0 then none
  else
    let n := innerDim / size
    some ⟨ex.num, copyCols ex.num n rank ex.gate, copyCols ex.num n rank ex.inner, copyRows ex.num n rank ex.output⟩

/-- The shared expert: the weights of three projections, each with a row for each of its outputs. -/
structure Shared (F : Type) where
  gate : Mat F
  inner : Mat F
  output : Mat F

/-- `GLUFeedForwardNetwork.forward` for one token. -/
def Shared.forward (act : F → F) (s : Shared F) (x : Nat → F) : Nat → F :=
  let gate := fun j => act (∑ i ∈ range s.gate.cols, x i * s.gate.at_ j i)
  let inner := fun j => gate j * ∑ i ∈ range s.inner.cols, x i * s.inner.at_ j i
  fun d => ∑ j ∈ range s.output.cols, inner j * s.output.at_ d j

/-- Column and row sharding of the shared expert (llama4/sharder.py:58-73), as in `Verif.Shard.Modules`. -/
def Shared.shard (s : Shared F) (size rank : Nat) : Option (Shared F) :=
  if s.gate.rows % size ≠ 0 ∨ s.inner.rows % size ≠ 0 ∨ s.output.cols % size ≠ 0 then none
  else
    let n := s.gate.rows / size
    let m := s.inner.rows / size
    let k := s.output.cols / size
    some ⟨⟨n, s.gate.cols, fun j i => s.gate.at_ (rank * n + j) i⟩, ⟨m, s.inner.cols, fun j i => s.inner.at_ (rank * m + j) i⟩,
      ⟨s.output.rows, k, fun d j => s.output.at_ d (rank * k + j)⟩⟩

/-- A `MoE` layer on one rank. -/
structure Layer (F : Type) where
  topK : Nat
  router : Nat → Nat → F
  experts : Experts F
  shared : Option (Shared F)

/-- `full_like(logits, -inf).scatter_(1, token_indices, scores)` for one token. -/
def scatter (l : List (F × Nat)) : Nat → Option F :=
  l.foldl (fun row x e => if e = x.2 then some x.1 else row e) fun _ => none

/-- `torch.sigmoid`, where minus infinity is `none`. -/
def sigmoidOf (sig : F → F) : Option F → F
  | none => 0
  | some x => sig x

/-- What the shared expert gives, or zeros (moe.py:144-147). -/
def sharedOut (act : F → F) : Option (Shared F) → (Nat → F) → Nat → F
  | none => fun _ _ => 0
  | some s => s.forward act

/-- The operations of torch that the layer gets: the activation, the sigmoid, and `topk`, which for a number and a row of the given width
gives scores and indices. -/
structure Ops (F : Type) where
  act : F → F
  sig : F → F
  topk : Nat → Nat → (Nat → F) → List (F × Nat)

/-- `MoE.forward` up to the reduction over ranks (moe.py:102-150), for `numTokens` tokens of size `dim`. `none` is the `RuntimeError` of
`topk` that asks for more entries than there are. -/
def Layer.forward (ops : Ops F) (l : Layer F) (dim numTokens : Nat) (x : Nat → Nat → F) : Option (Nat → Nat → F) :=
  if l.experts.num < l.topK then none
  else
    let logits := fun t e => ∑ i ∈ range dim, x t i * l.router i e
    let scores := fun t => scatter (ops.topk l.topK l.experts.num (logits t))
    let scoresT := fun e t => scores t e
    let topScores := fun e t => sigmoidOf ops.sig (scoresT e t)
    let total := l.experts.num * numTokens
    let tokenIndices := fun k => k % numTokens
    let routedInput := fun k d => x (tokenIndices k) d * topScores (k / numTokens) (k % numTokens)
    let perExpert := total / l.experts.num
    let routedOutput := l.experts.forward ops.act fun e t d => routedInput (e * perExpert + t) d
    let routedOutput := fun k d => routedOutput (k / perExpert) (k % perExpert) d
    let out := fun t => sharedOut ops.act l.shared (x t)
    some fun t d => out t d + ∑ k ∈ (range total).filter (fun k => tokenIndices k = t), routedOutput k d

/-- Sharding the shared expert, if there is one. -/
def shardShared (size rank : Nat) : Option (Shared F) → Option (Option (Shared F))
  | none => some none
  | some s => (s.shard size rank).map some

/-- `MoESharder.shard` on a rank. -/
def Layer.shard (l : Layer F) (innerDim size rank : Nat) : Option (Layer F) :=
  (shardShared size rank l.shared).bind fun shared =>
    (l.experts.shard innerDim size rank).map fun experts => ⟨l.topK, l.router, experts, shared⟩

/-- `MoE.forward` on all ranks of a tensor parallel gang: the outputs of all of them are added (moe.py:152-157). -/
def forwardAll (ops : Ops F) (ranks : List (Layer F)) (dim numTokens : Nat) (x : Nat → Nat → F) : Option (Nat → Nat → F) :=
  (ranks.mapM fun (l : Layer F) => l.forward ops dim numTokens x).map fun outs t d => (outs.map fun out => out t d).sum

end Fs2.Moe
