import Verif.Nn.Decoder

/-!
# Decoders sharded for tensor parallelism

Models a decoder whose projections and embeddings are spread over the `T` ranks of a tensor parallel gang:
`ColumnShardedLinear` and `RowShardedLinear` (`src/fairseq2/nn/projection.py:118-294, 361-532`),
`VocabShardedEmbedding` and `ShardedEmbedding` (`src/fairseq2/nn/embedding.py:112-271, 325-460`) where
`StandardMultiheadAttention` (`models/transformer/multihead_attention.py:258-355, 503-557`), the feed-forward networks
(`models/transformer/ffn.py:40-330`), the frontend and the final projection use them.

The numbers of a position are a function that is zero from the dimension on. What every rank holds between two modules
is kept for every rank; bag, layouts and encoder output, which no sharded module makes, are kept once. The ranks call
the collectives in the same order, so that a collective is a function of the values of all ranks; if a rank raises, all
do. A reduction is an exact sum. The memory of a new cache is filled differently on every rank.
-/

namespace Fs2.Tp
open Fs2.Nn Fs2.Dec

/-- A projection with its optional bias. -/
structure Lin where
  inDim : Nat
  outDim : Nat
  w : Nat → Nat → ℝ
  b : Option Vec

/-- The bias, zero if there is none. -/
def Lin.bias (l : Lin) : Vec := fun i => if i < l.outDim then (l.b.getD fun _ => 0) i else 0

/-- `linear(x, weight, bias)`. -/
def Lin.apply (l : Lin) (x : Vec) : Vec := fun i =>
  if i < l.outDim then ∑ j ∈ Finset.range l.inDim, x j * l.w i j + l.bias i else 0

/-- The part of a rank of a `ColumnShardedLinear`: rows of the weight and of the bias, `split(sharded_output_dim,
dim=0)[rank]` (nn/projection.py:259-276). An output dimension that is no multiple of the size of the gang is refused
(nn/projection.py:209-212). -/
def Lin.column (l : Lin) (T r : Nat) : Option Lin :=
  if l.outDim % T ≠ 0 then none
  else
    let n := l.outDim / T
    some ⟨l.inDim, n, fun i j => l.w (r * n + i) j, l.b.map fun b i => b (r * n + i)⟩

/-- The part of a rank of a `RowShardedLinear`: columns of the weight, `split(sharded_input_dim, dim=1)[rank]`, without
the bias, which is added after the reduction (nn/projection.py:452-461, 501-532). -/
def Lin.row (l : Lin) (T r : Nat) : Option Lin :=
  if l.inDim % T ≠ 0 then none
  else
    let n := l.inDim / T
    some ⟨n, l.outDim, fun i j => l.w i (r * n + j), none⟩

/-- Something the ranks do one by one; the number is the rank. -/
def onRanks {α β : Type} (f : Nat → α → Option β) (xs : List α) : Option (List β) :=
  xs.zipIdx.mapM fun x => f x.2 x.1

/-- The vector of a rank at a place. -/
def place (p : Batch Vec) (r i : Nat) : Vec := (((p[r]?).getD [])[i]?).getD fun _ => 0

/-- Every rank gets, at every place, something made of the vectors of all ranks. -/
def collective (f : List Vec → Vec) (parts : List (Batch Vec)) : List (Batch Vec) :=
  parts.map fun p => p.mapIdx fun r row => row.mapIdx fun i _ => f (parts.map fun q => place q r i)

/-- `reduce(x, tp_gang)` followed by `x + bias` (nn/projection.py:526-530). -/
def reduceSum (bias : Vec) (parts : List (Batch Vec)) : List (Batch Vec) :=
  collective (fun vs c => (vs.map fun v => v c).sum + bias c) parts

/-- `gather(x, tp_gang, dim=-1)` of parts of `n` numbers. -/
def gatherLast (n : Nat) (parts : List (Batch Vec)) : List (Batch Vec) :=
  collective (fun vs c => ((vs[c / n]?).getD fun _ => 0) (c % n)) parts

/-! ## Attention -/

/-- `StandardMultiheadAttention` with its projections; `nan` is the number that a head without any visible key hands to
the output projection. -/
structure Attn where
  heads : Nat
  kvHeads : Nat
  headDim : Nat
  scale : ℝ
  q : Lin
  k : Lin
  v : Lin
  out : Lin
  qNorm : Vec → Vec
  kNorm : Vec → Vec
  vNorm : Vec → Vec
  nan : ℝ
  pos : Option PosEnc
  bias : BiasKind
  state : StateKind

/-- `unflatten(-1, (-1, head_dim))` and the norm of every head (multihead_attention.py:521-524, 544-553). -/
def splitHeads (headDim : Nat) (norm : Vec → Vec) (y : Vec) : Heads := fun h =>
  norm fun c => if c < headDim then y (h * headDim + c) else 0

/-- `flatten(2, 3)` of the attention (multihead_attention.py:494-497). -/
def joinHeads (headDim : Nat) (nan : ℝ) (a : Nat → Nat → Option ℝ) : Vec := fun j =>
  (a (j / headDim) (j % headDim)).getD nan

/-- Attention on a single device. -/
def Attn.whole (A : Attn) : Mha where
  groups := A.heads / A.kvHeads
  kvHeads := A.kvHeads
  headDim := A.headDim
  scale := A.scale
  q x := splitHeads A.headDim A.qNorm (A.q.apply x)
  k x := splitHeads A.headDim A.kNorm (A.k.apply x)
  v x := splitHeads A.headDim A.vNorm (A.v.apply x)
  pos := A.pos
  bias := A.bias
  state := A.state
  out a := A.out.apply (joinHeads A.headDim A.nan a)

/-- What a rank makes of attention before the reduction. The number of query groups is that of the whole module
(multihead_attention.py:261), and the number of heads follows from the width of the projection; a width that is no
multiple of the head dimension makes `unflatten` raise (multihead_attention.py:521, 544, 546). -/
def Attn.rank (A : Attn) (T r : Nat) : Option Mha :=
  (A.q.column T r).bind fun q =>
    (A.k.column T r).bind fun k =>
      (A.v.column T r).bind fun v =>
        (A.out.row T r).bind fun out =>
          if q.outDim % A.headDim ≠ 0 ∨ k.outDim % A.headDim ≠ 0 ∨ v.outDim % A.headDim ≠ 0 then none
          else some {
            groups := A.heads / A.kvHeads
            kvHeads := k.outDim / A.headDim
            headDim := A.headDim
            scale := A.scale
            q := fun x => splitHeads A.headDim A.qNorm (q.apply x)
            k := fun x => splitHeads A.headDim A.kNorm (k.apply x)
            v := fun x => splitHeads A.headDim A.vNorm (v.apply x)
            pos := A.pos
            bias := A.bias
            state := A.state
            out := fun a => out.apply (joinHeads A.headDim A.nan a) }

/-- Self attention on all ranks. -/
noncomputable def Attn.forwardSelf (A : Attn) (T : Nat) (junk : Nat → Heads) (bag : Option Bag)
    (sts : List (Option Cache)) (l : Layout) (xs : List (Batch Vec)) :
    Option (List (Batch Vec) × List (Option Cache)) :=
  (onRanks (fun r (x : Option Cache × Batch Vec) =>
      (A.rank T r).bind fun m => m.forwardSelf (junk r) bag x.1 l x.2) (sts.zip xs)).map fun ys =>
    (reduceSum A.out.bias (ys.map Prod.fst), ys.map Prod.snd)

/-- Attention to an encoder output on all ranks. -/
noncomputable def Attn.forwardCross (A : Attn) (T : Nat) (bag : Option Bag) (sts : List (Option (Static Heads)))
    (l : Layout) (xs : List (Batch Vec)) (src : Source) :
    Option (List (Batch Vec) × List (Option (Static Heads))) :=
  (onRanks (fun r (x : Option (Static Heads) × Batch Vec) =>
      (A.rank T r).bind fun m => m.forwardCross bag x.1 l x.2 src) (sts.zip xs)).map fun ys =>
    (reduceSum A.out.bias (ys.map Prod.fst), ys.map Prod.snd)

/-! ## Feed-forward networks -/

/-- The inner part of a feed-forward network: `StandardFeedForwardNetwork`, `GLUFeedForwardNetwork` without and with
`activation_sparsity` (`sparse m`, `m` being the value of the inverse cumulative distribution function), and
`DauphinFeedForwardNetwork`, whose inner projection is twice as wide. -/
inductive FfnKind where
  | standard
  | glu (gate : Lin)
  | sparse (gate : Lin) (m : ℝ)
  | dauphin

/-- A feed-forward network. -/
structure Ffn where
  kind : FfnKind
  inner : Lin
  out : Lin
  act : ℝ → ℝ

/-- `torch.mean(x, dim=-1)` of the first `n` numbers. -/
noncomputable def mean (n : Nat) (x : Vec) : ℝ := (∑ i ∈ Finset.range n, x i) / n

/-- `torch.std(x, dim=-1, unbiased=False)`. -/
noncomputable def deviation (n : Nat) (x : Vec) : ℝ :=
  Real.sqrt ((∑ i ∈ Finset.range n, (x i - mean n x) ^ 2) / n)

/-- `_gaussian_topk` (ffn.py:287-311). -/
noncomputable def gaussianTopk (m : ℝ) (n : Nat) (x : Vec) : Vec := fun i =>
  max (x i - (mean n x + deviation n x * m)) 0

/-- The input of the output projection: `gate` and `inner` are the projections, whole or those of a rank
(ffn.py:108-118, 202-214, 313-332). `chunk(2)` cuts in the middle. -/
noncomputable def hiddenOf (kind : FfnKind) (act : ℝ → ℝ) (gate inner : Lin) (x : Vec) : Vec :=
  match kind with
  | .standard => fun i => act (inner.apply x i)
  | .glu _ => fun i => inner.apply x i * act (gate.apply x i)
  | .sparse _ m => fun i => inner.apply x i * act (gaussianTopk m gate.outDim (gate.apply x) i)
  | .dauphin => fun i => act (inner.apply x i) * inner.apply x (inner.outDim / 2 + i)

/-- The gate projection; the networks without one have none and the inner projection stands for it. -/
def Ffn.gate (F : Ffn) : Lin :=
  match F.kind with
  | .glu g | .sparse g _ => g
  | _ => F.inner

/-- A feed-forward network on a single device. -/
noncomputable def Ffn.whole (F : Ffn) (x : Vec) : Vec := F.out.apply (hiddenOf F.kind F.act F.gate F.inner x)

/-- What a rank makes of it before the reduction. -/
noncomputable def Ffn.rank (F : Ffn) (T r : Nat) : Option (Vec → Vec) :=
  (F.gate.column T r).bind fun gate =>
    (F.inner.column T r).bind fun inner =>
      (F.out.row T r).map fun out x => out.apply (hiddenOf F.kind F.act gate inner x)

/-- A feed-forward network on all ranks. -/
noncomputable def Ffn.forward (F : Ffn) (T : Nat) (xs : List (Batch Vec)) : Option (List (Batch Vec)) :=
  (onRanks (fun r (x : Batch Vec) => (F.rank T r).map fun f => x.map (List.map f)) xs).map (reduceSum F.out.bias)

/-! ## Layers -/

/-- A decoder layer; that of a language model has no attention to an encoder. Norms and residual connections are not
sharded. -/
structure Layer where
  selfAttn : Attn
  selfBlock : Block
  cross : Option (Attn × Block)
  ffn : Ffn
  ffnBlock : Block

/-- The layer on a single device. -/
noncomputable def Layer.whole (L : Layer) : Dec.Layer where
  selfAttn := L.selfAttn.whole
  selfBlock := L.selfBlock
  cross := L.cross.map fun x => (x.1.whole, x.2)
  ffn := L.ffn.whole
  ffnBlock := L.ffnBlock

/-- The attention to an encoder on all ranks. -/
noncomputable def Layer.forwardCross (L : Layer) (T : Nat) (bag : Option Bag) (src : Option Source) (l : Layout)
    (sts : List (Option (Static Heads))) (xs : List (Batch Vec)) :
    Option (List (Batch Vec) × List (Option (Static Heads))) :=
  match L.cross with
  | none => some (xs, sts)
  | some (A, b) =>
    src.bind fun src => (A.forwardCross T bag sts l (xs.map b.enter) src).map fun x =>
      (List.zipWith b.leave x.1 xs, x.2)

/-- `forward` of a layer on all ranks; `sts` are the states of the ranks. -/
noncomputable def Layer.forward (L : Layer) (T : Nat) (junk : Nat → Heads) (bag : Option Bag) (src : Option Source)
    (l : Layout) (sts : List LayerState) (xs : List (Batch Vec)) : Option (List (Batch Vec) × List LayerState) :=
  (L.selfAttn.forwardSelf T junk bag (sts.map LayerState.self) l (xs.map L.selfBlock.enter)).bind fun a =>
    let xs := List.zipWith L.selfBlock.leave a.1 xs
    (L.forwardCross T bag src l (sts.map LayerState.cross) xs).bind fun b =>
      (L.ffn.forward T (b.1.map L.ffnBlock.enter)).map fun ys =>
        (List.zipWith L.ffnBlock.leave ys b.1, List.zipWith LayerState.mk a.2 b.2)

/-- The loop over the layers. -/
noncomputable def forwardLayers (T : Nat) (junk : Nat → Heads) (bag : Option Bag) (src : Option Source) (l : Layout) :
    List Layer → List (List LayerState) → List (Batch Vec) → Option (List (Batch Vec) × List (List LayerState))
  | L :: Ls, st :: sts, xs =>
    (L.forward T junk bag src l st xs).bind fun x =>
      (forwardLayers T junk bag src l Ls sts x.1).map fun y => (y.1, x.2 :: y.2)
  | _, _, xs => some (xs, [])

/-! ## Models -/

/-- The embedding table of `num` rows and `dim` columns: spread by rows (`VocabShardedEmbedding`), by columns
(`ShardedEmbedding`), or whole on every rank (`StandardEmbedding`). -/
inductive EmbedKind where
  | vocab
  | dims
  | whole
  deriving DecidableEq

structure Embed where
  kind : EmbedKind
  num : Nat
  dim : Nat
  w : Nat → Nat → ℝ

/-- The embedding on a single device. -/
def Embed.apply (e : Embed) (t : Nat) : Vec := fun i => if i < e.dim then e.w t i else 0

/-- What a rank looks up before the collective (nn/embedding.py:236-271, 450-460): the rank holds the rows from
`rank * n` on, looks up row 0 for the tokens of others and puts zeros in their place. -/
def Embed.rank (e : Embed) (T r : Nat) : Option (Nat → Vec) :=
  match e.kind with
  | .whole => some e.apply
  | .vocab =>
    if e.num % T ≠ 0 then none
    else
      let n := e.num / T
      some fun t =>
        let masked : Bool := decide (t < r * n) || decide (t ≥ (r + 1) * n)
        let row := if masked then 0 else t - r * n
        fun i => if masked then 0 else if i < e.dim then e.w (r * n + row) i else 0
  | .dims =>
    if e.dim % T ≠ 0 then none
    else
      let n := e.dim / T
      some fun t i => if i < n then e.w t (r * n + i) else 0

/-- The embedding on all ranks. -/
def Embed.forward (e : Embed) (T : Nat) (tokens : Batch Nat) : Option (List (Batch Vec)) :=
  (onRanks (fun r (x : Batch Nat) => (e.rank T r).map fun f => x.map (List.map f)) (List.replicate T tokens)).map
    fun parts =>
      match e.kind with
      | .whole => parts
      | .vocab => reduceSum (fun _ => 0) parts
      | .dims => gatherLast (e.dim / T) parts

/-- A `TransformerLM`, or the decoder side of a `TransformerModel`: `scale` is what the frontend does to an embedding,
`norm` the optional norm after the layers, and the final projection is spread by columns with `gather_output=True`. -/
structure Model where
  embed : Embed
  scale : Vec → Vec
  pos : Option PosEnc
  layers : List Layer
  norm : Vec → Vec
  proj : Lin

/-- The model on a single device. -/
noncomputable def Model.whole (m : Model) : Dec.Model where
  embed t := m.scale (m.embed.apply t)
  pos := m.pos
  layers := m.layers.map Layer.whole
  norm := m.norm
  proj := m.proj.apply

/-- The final projection on all ranks (nn/projection.py:279-290). -/
def projectAll (p : Lin) (T : Nat) (xs : List (Batch Vec)) : Option (List (Batch Vec)) :=
  (onRanks (fun r (x : Batch Vec) => (p.column T r).map fun q => x.map (List.map q.apply)) xs).map
    (gatherLast (p.outDim / T))

/-- `forward` of the model on all ranks for a batch with the given layout. -/
noncomputable def Model.forwardAt (m : Model) (T : Nat) (junk : Nat → Heads) (bag : Option Bag) (src : Option Source)
    (sts : List (List LayerState)) (l : Layout) (tokens : Batch Nat) :
    Option (List (Batch Vec) × List (List LayerState)) :=
  (m.embed.forward T tokens).bind fun es =>
    (onRanks (fun _ (x : Batch Vec) => encode PosEnc.apply m.pos bag l (x.map (List.map m.scale))) es).bind fun xs =>
      (forwardLayers T junk bag src l m.layers sts xs).bind fun x =>
        (projectAll m.proj T (x.1.map (List.map (List.map m.norm)))).map fun ys => (ys, x.2)

/-- `forward` of the model on all ranks as the generators call it, with `BatchLayout.of(seqs)`. -/
noncomputable def Model.forward (m : Model) (T : Nat) (junk : Nat → Heads) (bag : Option Bag) (src : Option Source)
    (sts : List (List LayerState)) (tokens : Batch Nat) : Option (List (Batch Vec) × List (List LayerState)) :=
  (Layout.new [(tokens.length : Int), (width tokens : Int)] none false).bind fun l =>
    m.forwardAt T junk bag src sts l tokens

/-- What is kept between the steps of a generation: for every layer the states of the ranks. -/
structure Session where
  bag : Bag
  layers : List (List LayerState)
  source : Option Source

/-- One step of a generator on all ranks. -/
noncomputable def Session.feed (m : Model) (T : Nat) (junk : Nat → Heads) (given : Option Source) (s : Session)
    (tokens : Batch Nat) : Option (List (Batch Vec) × Session) :=
  (m.forward T junk (some s.bag) (s.source.or given) s.layers tokens).bind fun x =>
    (s.bag.increment (width tokens)).map fun bag => (x.1, ⟨bag, x.2, s.source.or given⟩)

/-- Every rank reorders its states. -/
def Session.reorder (s : Session) (order : List Nat) : Option Session :=
  (s.layers.mapM fun (sts : List LayerState) => sts.mapM fun (st : LayerState) => st.reorder order).bind fun layers =>
    (s.source.mapM fun (src : Source) => src.reorder order).map fun source => { s with layers, source }

/-- A generation on all ranks: the logits of the ranks for every call, and what is kept in the end. -/
noncomputable def run (m : Model) (T : Nat) (junk : Nat → Heads) (given : Option Source) :
    Session → List Op → Option (List (List (Batch Vec)) × Session)
  | s, [] => some ([], s)
  | s, .feed tokens :: ops =>
    (s.feed m T junk given tokens).bind fun x => (run m T junk given x.2 ops).map fun y => (x.1 :: y.1, y.2)
  | s, .reorder order :: ops => (s.reorder order).bind fun s => run m T junk given s ops

/-- The session at the start of a generation. -/
def Session.start (m : Model) (T : Nat) (bag : Bag) : Session :=
  ⟨bag, m.layers.map fun _ => List.replicate T {}, none⟩

end Fs2.Tp
