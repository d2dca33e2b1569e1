import Verif.Nn.AttentionBias
import Verif.Nn.AttentionState
import Verif.Nn.Incremental

/-!
# Transformer decoders with and without incremental state

Models, in evaluation mode, how a decoder turns a batch of tokens into logits:
`StandardMultiheadAttention` (`src/fairseq2/models/transformer/multihead_attention.py:397-557`),
`StandardTransformerLMDecoderLayer` and `StandardTransformerDecoderLayer`
(`models/transformer_lm/decoder_layer.py:142-204`, `models/transformer/decoder_layer.py:187-293`), the
decoders (`models/transformer/decoder.py:151-196` and its twin for language models),
`TransformerEmbeddingFrontend` (`models/transformer/frontend.py:104-122`), `TransformerLM.forward` and
`TransformerModel.forward` (`models/transformer_lm/model.py:119-146`, `models/transformer/model.py:137-181`),
and the order of calls of the generators.

Numbers are exact reals. Projections, norms, feed-forward networks and residual connections act on one
position at a time and are arbitrary functions. Dropout and layer drop do nothing in evaluation mode. The
bias cache of one call is left out, since within one call all requests for a bias come with the same
layouts (`C52_cache`). Sharing of keys between layers, attention weight hooks and layer hooks are left out.
The encoder is left out; a source is what it returned. An exception is `none`.
-/

namespace Fs2.Dec
open Fs2.Nn

/-- The numbers of one position. -/
abbrev Vec := Nat → ℝ

/-- The numbers of one position, split into heads. -/
abbrev Heads := Nat → Vec

/-- A batch of rows of equal length. -/
abbrev Batch (β : Type) := List (List β)

/-- A position encoder: its `max_seq_len`, and how a row of its table is applied to a vector. Row 0 is for
padding, row `p + 1` for position `p`. -/
structure PosEnc where
  maxLen : Int
  apply : Int → Vec → Vec

/-- The `state_factory` of self attention: `None`, that is `FullAttentionState`, or a
`LocalAttentionStateFactory`. -/
inductive StateKind where
  | full
  | window (w : Nat)
  deriving DecidableEq

/-- `StandardMultiheadAttention`. `q`, `k` and `v` are the projections with the split into heads and the
optional norms (`_project_q` and `_project_kv` without the position encoder, :503-557); `out` joins the
heads and projects them (:495-499), the attention of a head and component being `none` if it is `nan`. -/
structure Mha where
  groups : Nat
  kvHeads : Nat
  headDim : Nat
  scale : ℝ
  q : Vec → Heads
  k : Vec → Heads
  v : Vec → Heads
  pos : Option PosEnc
  bias : BiasKind
  state : StateKind
  out : (Nat → Nat → Option ℝ) → Vec

/-- Encodes the positions of a batch, if there is an encoder: the rows of the table are chosen as
`Layout.tableRows` says. -/
def encode {β : Type} (f : PosEnc → Int → β → β) (p : Option PosEnc) (bag : Option Bag) (l : Layout)
    (xs : Batch β) : Option (Batch β) :=
  match p with
  | none => some xs
  | some p => (l.tableRows p.maxLen false bag).map fun rows => List.zipWith (List.zipWith (f p)) rows xs

/-- All heads of a position are encoded in the same way. -/
def PosEnc.onHeads (p : PosEnc) (row : Int) (x : Heads) : Heads := fun h => p.apply row (x h)

/-- `_project_q` (multihead_attention.py:503-524). -/
def Mha.projectQ (m : Mha) (bag : Option Bag) (l : Layout) (xs : Batch Vec) : Option (Batch Heads) :=
  encode PosEnc.onHeads m.pos bag l (xs.map (List.map m.q))

/-- The keys of `_project_kv` (multihead_attention.py:526-557). -/
def Mha.projectK (m : Mha) (bag : Option Bag) (l : Layout) (xs : Batch Vec) : Option (Batch Heads) :=
  encode PosEnc.onHeads m.pos bag l (xs.map (List.map m.k))

/-- The values of `_project_kv`. -/
def Mha.projectV (m : Mha) (xs : Batch Vec) : Batch Heads := xs.map (List.map m.v)

/-- A batch of keys or values as a tensor `(N, S, H_kv, K_h)`. -/
def Mha.ten (m : Mha) (len : Nat) (rows : Batch Heads) : Ten Heads := ⟨[m.kvHeads, m.headDim], len, rows⟩

/-- The state of self attention. -/
inductive Cache where
  | full (s : Full Heads)
  | window (s : Local Heads)

/-- `state_factory(k, v, state_bag.max_num_steps, state_bag.capacity_increment)`
(multihead_attention.py:437-441, 748-757, 892-905). -/
def Cache.new (junk : Heads) (kind : StateKind) (k v : Ten Heads) (b : Bag) : Option Cache :=
  match kind with
  | .full => (Full.new junk k v b.maxNumSteps.toNat (b.capacityIncrement.map Int.toNat)).map .full
  | .window w => (Local.new junk k v b.maxNumSteps.toNat w (b.capacityIncrement.map Int.toNat)).map .window

/-- `AttentionState.append`. -/
def Cache.append (junk : Heads) (c : Cache) (k v : Ten Heads) : Option Cache :=
  match c with
  | .full s => (s.append junk k v).map .full
  | .window s => (s.append junk k v).map .window

/-- `AttentionState.get`. -/
def Cache.get : Cache → Ten Heads × Ten Heads
  | .full s => s.get
  | .window s => s.get

/-- `AttentionState.reorder`. -/
def Cache.reorder (c : Cache) (order : List Nat) : Option Cache :=
  match c with
  | .full s => (s.reorder order).map .full
  | .window s => (s.reorder order).map .window

/-- Position `j` of row `r`. -/
def elem (b : Batch Heads) (r j : Nat) : Heads := (((b[r]?).getD [])[j]?).getD fun _ _ => 0

/-- The entry of an optional bias. -/
def biasEntry (bias : Option Materialized) (r h i j : Nat) : Entry :=
  match bias with
  | none => .fin 0
  | some M => M.entry r h i j

/-- The repetition of key and value heads, scaled dot product attention and the output projection
(multihead_attention.py:472-499): query head `h` uses the key and value head `h / num_query_groups`. That the
number of heads of a bias is the number of query heads is not checked. -/
noncomputable def Mha.sdpa (m : Mha) (Q K : Layout) (q k v : Batch Heads) : Option (Batch Vec) :=
  if q.length ≠ k.length then none
  else
    (maybeGet m.bias Q K).map fun bias =>
      q.mapIdx fun r row => row.mapIdx fun i x =>
        m.out fun h c =>
          attend m.scale m.headDim K.width.toNat (x h) (fun j => elem k r j (h / m.groups))
            (fun j => elem v r j (h / m.groups)) (biasEntry bias r h i) c

/-- The first call with a bag makes a state and uses its own keys and values (multihead_attention.py:433-443). -/
noncomputable def Mha.firstStep (m : Mha) (junk : Heads) (b : Bag) (l : Layout) (q k v : Batch Heads) :
    Option (Batch Vec × Option Cache) :=
  (Cache.new junk m.state (m.ten l.width.toNat k) (m.ten l.width.toNat v) b).bind fun c =>
    (m.sdpa l l q k v).map fun y => (y, some c)

/-- Later calls append to the state and use all it holds (multihead_attention.py:444-451). -/
noncomputable def Mha.laterStep (m : Mha) (junk : Heads) (c : Cache) (l : Layout) (q k v : Batch Heads) :
    Option (Batch Vec × Option Cache) :=
  (c.append junk (m.ten l.width.toNat k) (m.ten l.width.toNat v)).bind fun c =>
    (Layout.new [(c.get.1.rows.length : Int), (c.get.1.len : Int)] none false).bind fun K =>
      (m.sdpa l K q c.get.1.rows c.get.2.rows).map fun y => (y, some c)

/-- `StandardMultiheadAttention.forward` with `seqs` as keys and values (multihead_attention.py:411-455,
472-499). -/
noncomputable def Mha.forwardSelf (m : Mha) (junk : Heads) (bag : Option Bag) (st : Option Cache) (l : Layout)
    (xs : Batch Vec) : Option (Batch Vec × Option Cache) :=
  (m.projectQ bag l xs).bind fun q =>
    match bag with
    | none => (m.projectK none l xs).bind fun k => (m.sdpa l l q k (m.projectV xs)).map fun y => (y, st)
    | some b =>
      if l.packed || l.padded then none
      else
        (m.projectK (some b) l xs).bind fun k =>
          match st with
          | none => m.firstStep junk b l q k (m.projectV xs)
          | some c => m.laterStep junk c l q k (m.projectV xs)

/-- The encoder output of a batch with its layout: `_TransformerModelState` (models/transformer/model.py:265-271). -/
structure Source where
  width : Nat
  rows : Batch Vec
  layout : Layout

/-- `_TransformerModelState.reorder` (models/transformer/model.py:273-281). -/
def Source.reorder (s : Source) (order : List Nat) : Option Source :=
  (order.mapM fun i => s.rows[i]?).bind fun rows =>
    (order.mapM fun i => s.layout.seqLens[i]?).bind fun lens =>
      (Layout.new [(rows.length : Int), (s.width : Int)] (some lens) false).map fun layout =>
        { s with rows, layout }

/-- `StandardMultiheadAttention.forward` with an encoder output as keys and values
(multihead_attention.py:411-429, 456-499), without a `state_factory`. -/
noncomputable def Mha.forwardCross (m : Mha) (bag : Option Bag) (st : Option (Static Heads)) (l : Layout)
    (xs : Batch Vec) (src : Source) : Option (Batch Vec × Option (Static Heads)) :=
  (m.projectQ bag l xs).bind fun q =>
    match bag, st with
    | some _, some s => (m.sdpa l src.layout q s.get.1.rows s.get.2.rows).map fun y => (y, some s)
    | none, st =>
      (m.projectK none src.layout src.rows).bind fun k =>
        (m.sdpa l src.layout q k (m.projectV src.rows)).map fun y => (y, st)
    | some _, none =>
      (m.projectK none src.layout src.rows).bind fun k =>
        (m.sdpa l src.layout q k (m.projectV src.rows)).map fun y =>
          (y, some ⟨m.ten src.width k, m.ten src.width (m.projectV src.rows)⟩)

/-- What surrounds a sub-layer: its layer norm, whether the norm comes last (`TransformerNormOrder.POST`),
and the residual connection, a function of the output and of the residual. -/
structure Block where
  norm : Vec → Vec
  post : Bool
  residual : Vec → Vec → Vec

/-- The norm before the sub-layer. -/
def Block.enter (b : Block) (xs : Batch Vec) : Batch Vec := if b.post then xs else xs.map (List.map b.norm)

/-- The residual connection and the norm after the sub-layer. -/
def Block.leave (b : Block) (ys xs : Batch Vec) : Batch Vec :=
  let zs := List.zipWith (List.zipWith b.residual) ys xs
  if b.post then zs.map (List.map b.norm) else zs

/-- A decoder layer; that of a language model has no attention to an encoder. -/
structure Layer where
  selfAttn : Mha
  selfBlock : Block
  cross : Option (Mha × Block)
  ffn : Vec → Vec
  ffnBlock : Block

/-- The states of the attention modules of a layer in the bag. -/
structure LayerState where
  self : Option Cache := none
  cross : Option (Static Heads) := none

/-- `_forward_self_attn` (models/transformer/decoder_layer.py:213-245, models/transformer_lm/decoder_layer.py:157-187). -/
noncomputable def Layer.forwardSelf (L : Layer) (junk : Heads) (bag : Option Bag) (st : Option Cache)
    (l : Layout) (xs : Batch Vec) : Option (Batch Vec × Option Cache) :=
  (L.selfAttn.forwardSelf junk bag st l (L.selfBlock.enter xs)).map fun (ys, st) =>
    (L.selfBlock.leave ys xs, st)

/-- `_forward_encoder_decoder_attn` (models/transformer/decoder_layer.py:247-276). -/
noncomputable def Layer.forwardCross (L : Layer) (bag : Option Bag) (st : Option (Static Heads))
    (l : Layout) (src : Option Source) (xs : Batch Vec) : Option (Batch Vec × Option (Static Heads)) :=
  match L.cross with
  | none => some (xs, st)
  | some (m, b) =>
    src.bind fun src => (m.forwardCross bag st l (b.enter xs) src).map fun (ys, st) => (b.leave ys xs, st)

/-- `_forward_ffn` (models/transformer/decoder_layer.py:278-293, models/transformer_lm/decoder_layer.py:189-204). -/
def Layer.forwardFfn (L : Layer) (xs : Batch Vec) : Batch Vec :=
  L.ffnBlock.leave ((L.ffnBlock.enter xs).map (List.map L.ffn)) xs

/-- The `forward` of the decoder layers. -/
noncomputable def Layer.forward (L : Layer) (junk : Heads) (bag : Option Bag) (src : Option Source)
    (l : Layout) (st : LayerState) (xs : Batch Vec) : Option (Batch Vec × LayerState) :=
  (L.forwardSelf junk bag st.self l xs).bind fun (xs, self) =>
    (L.forwardCross bag st.cross l src xs).map fun (xs, cross) => (L.forwardFfn xs, ⟨self, cross⟩)

/-- The loop over the layers (models/transformer/decoder.py:166-188); the states of the layers stand
beside them. -/
noncomputable def forwardLayers (junk : Heads) (bag : Option Bag) (src : Option Source) (l : Layout) :
    List Layer → List LayerState → Batch Vec → Option (Batch Vec × List LayerState)
  | L :: Ls, st :: sts, xs =>
    (L.forward junk bag src l st xs).bind fun (xs, st) =>
      (forwardLayers junk bag src l Ls sts xs).map fun (xs, sts) => (xs, st :: sts)
  | _, _, xs => some (xs, [])

/-- A `TransformerLM`, or the decoder side of a `TransformerModel`: `embed` includes the scale of the
frontend, `norm` is the optional norm after the layers. -/
structure Model where
  embed : Nat → Vec
  pos : Option PosEnc
  layers : List Layer
  norm : Vec → Vec
  proj : Vec → Vec

/-- The second dimension of a batch of tokens. -/
def width (tokens : Batch Nat) : Nat := ((tokens[0]?).getD []).length

/-- `TransformerLM.forward` and the decoder side of `TransformerModel.forward`, returning the logits and the
states of the layers; the layout is `BatchLayout.of(seqs)`, as the generators make it
(generation/beam_search/generator.py:868-872). -/
noncomputable def Model.forward (m : Model) (junk : Heads) (bag : Option Bag) (src : Option Source)
    (sts : List LayerState) (tokens : Batch Nat) : Option (Batch Vec × List LayerState) :=
  (Layout.new [(tokens.length : Int), (width tokens : Int)] none false).bind fun l =>
    (encode PosEnc.apply m.pos bag l (tokens.map (List.map m.embed))).bind fun xs =>
      (forwardLayers junk bag src l m.layers sts xs).map fun (xs, sts) =>
        (xs.map (List.map fun x => m.proj (m.norm x)), sts)

/-- Everything kept between the steps of a generation: the bag, the states of the attention modules, and the
state of the model, which is absent before the first step and in a language model. -/
structure Session where
  bag : Bag
  layers : List LayerState
  source : Option Source

/-- What a generator does with a model: it feeds a piece of every sequence, or it reorders the state. -/
inductive Op where
  | feed (tokens : Batch Nat)
  | reorder (order : List Nat)

/-- One step of a generator: the model is called, then the step number is incremented
(generation/beam_search/generator.py:536-545, 587-589). `given` is what the encoder makes of the source
sequences, which are passed in every step but only looked at in the first (models/transformer/model.py:150-174). -/
noncomputable def Session.feed (m : Model) (junk : Heads) (given : Option Source) (s : Session)
    (tokens : Batch Nat) : Option (Batch Vec × Session) :=
  (m.forward junk (some s.bag) (s.source.or given) s.layers tokens).bind fun (y, layers) =>
    (s.bag.increment (width tokens)).map fun bag => (y, ⟨bag, layers, s.source.or given⟩)

/-- The states of a layer are reordered, as far as there are any. -/
def LayerState.reorder (st : LayerState) (order : List Nat) : Option LayerState :=
  (st.self.mapM fun (c : Cache) => c.reorder order).bind fun self =>
    (st.cross.mapM fun (s : Static Heads) => s.reorder order).map fun cross => ⟨self, cross⟩

/-- `IncrementalStateBag.reorder` (nn/incremental_state.py:119-126). -/
def Session.reorder (s : Session) (order : List Nat) : Option Session :=
  (s.layers.mapM fun (st : LayerState) => st.reorder order).bind fun layers =>
    (s.source.mapM fun (src : Source) => src.reorder order).map fun source => { s with layers, source }

/-- A generation: the logits returned by the calls of the model, and what is kept in the end. -/
noncomputable def run (m : Model) (junk : Heads) (given : Option Source) :
    Session → List Op → Option (List (Batch Vec) × Session)
  | s, [] => some ([], s)
  | s, .feed tokens :: ops =>
    (s.feed m junk given tokens).bind fun (y, s) => (run m junk given s ops).map fun (ys, s) => (y :: ys, s)
  | s, .reorder order :: ops => (s.reorder order).bind fun s => run m junk given s ops

/-- The session at the start of a generation. -/
def Session.start (m : Model) (bag : Bag) : Session := ⟨bag, m.layers.map fun _ => {}, none⟩

end Fs2.Dec
