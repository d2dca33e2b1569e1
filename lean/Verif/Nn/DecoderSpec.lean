import Verif.Nn.Decoder

/-!
# What a decoder should compute

Every sequence on its own, without batches, padding, layouts, caches and biases: position `i` of a sequence
looks at the positions up to `i` of the same sequence and at the whole source of the sequence.
-/

namespace Fs2.Dec.Spec
open Fs2.Nn

/-- The vector at a position. -/
def at' (xs : List Vec) (i : Nat) : Vec := (xs[i]?).getD fun _ => 0

/-- A vector encoded for position `i`, which is row `i + 1` of the table. -/
def placed {β : Type} (f : PosEnc → Int → β → β) (p : Option PosEnc) (i : Nat) (x : β) : β :=
  match p with
  | none => x
  | some p => f p ((i : Int) + 1) x

/-- What is added to the score of position `i` for an earlier position `j`: a sliding window hides everything
but the last positions, ALiBi adds a multiple of the position. -/
noncomputable def weight (b : BiasKind) (h i j : Nat) : Entry :=
  match b with
  | .causal (some w) => if (j : Int) + w ≤ i then .negInf else .fin 0
  | .alibi H => .fin (j * ((2 : ℝ) ^ (-8 / (H : ℝ))) ^ (h + 1))
  | _ => .fin 0

/-- Self attention at position `i`: over the positions `0, …, i`. -/
noncomputable def selfAt (m : Mha) (xs : List Vec) (i : Nat) : Vec :=
  m.out fun h c =>
    attend m.scale m.headDim (i + 1) (placed PosEnc.apply m.pos i (m.q (at' xs i) h))
      (fun j => placed PosEnc.apply m.pos j (m.k (at' xs j) (h / m.groups)))
      (fun j => m.v (at' xs j) (h / m.groups)) (weight m.bias h i) c

/-- Attention at position `i` to a source: over all of its positions. -/
noncomputable def crossAt (m : Mha) (src xs : List Vec) (i : Nat) : Vec :=
  m.out fun h c =>
    attend m.scale m.headDim src.length (m.q (at' xs i) h) (fun j => m.k (at' src j) (h / m.groups))
      (fun j => m.v (at' src j) (h / m.groups)) (fun _ => .fin 0) c

/-- A sub-layer with its norm and residual connection. -/
def around (b : Block) (f : List Vec → Nat → Vec) (xs : List Vec) : List Vec :=
  xs.mapIdx fun i x =>
    let z := b.residual (f (if b.post then xs else xs.map b.norm) i) x
    if b.post then b.norm z else z

/-- The attention of a layer to the source. -/
noncomputable def crossPart (L : Layer) (src xs : List Vec) : List Vec :=
  match L.cross with
  | none => xs
  | some (m, b) => around b (crossAt m src) xs

/-- A layer. -/
noncomputable def layer (L : Layer) (src xs : List Vec) : List Vec :=
  around L.ffnBlock (fun ys i => L.ffn (at' ys i)) (crossPart L src (around L.selfBlock (selfAt L.selfAttn) xs))

/-- The logits of a sequence of tokens with the given source (empty for a language model). -/
noncomputable def logits (m : Model) (src : List Vec) (tokens : List Nat) : List Vec :=
  (m.layers.foldl (fun xs L => layer L src xs)
    (tokens.mapIdx fun i t => placed PosEnc.apply m.pos i (m.embed t))).map fun x => m.proj (m.norm x)

end Fs2.Dec.Spec

namespace Fs2.Dec
open Fs2.Nn

/-- The kinds of self attention that decode correctly: no window and a full cache, or a window and a windowed
cache of the same length. -/
inductive Matched : BiasKind → StateKind → Prop where
  | causal : Matched (.causal none) .full
  | alibi (H : Nat) (h : 0 < H) : Matched (.alibi H) .full
  | window (w : Nat) (h : 0 < w) : Matched (.causal (some w)) (.window w)

/-- What a self attention module has to fulfil. -/
structure GoodSelf (m : Mha) (total : Nat) : Prop where
  matched : Matched m.bias m.state
  pos : ∀ e, m.pos = some e → (total : Int) ≤ e.maxLen

/-- What an encoder-decoder attention module has to fulfil: no mask and no position encoder. -/
structure GoodCross (m : Mha) : Prop where
  bias : m.bias = .identity
  pos : m.pos = none

/-- The rows of a batch begin with the given sequences. -/
def Begins {β : Type} (rows S : Batch β) : Prop :=
  rows.length = S.length ∧ ∀ (r : Nat) s, S[r]? = some s → ∃ row, rows[r]? = some row ∧ row.take s.length = s

/-- A source holds the given sequences, each padded to its width. -/
structure SourceInv (src : Source) (S : Batch Vec) : Prop where
  begins : Begins src.rows S
  layout : Layout.new [(S.length : Int), (src.width : Int)] (some (S.map fun s => (s.length : Int))) false =
    some src.layout

/-- What a layer has to fulfil. -/
structure GoodLayer (L : Layer) (total : Nat) : Prop where
  self : GoodSelf L.selfAttn total
  cross : ∀ m b, L.cross = some (m, b) → GoodCross m

/-- What a model has to fulfil for sequences of up to `total` tokens. -/
structure GoodModel (m : Model) (total : Nat) : Prop where
  layers : ∀ L ∈ m.layers, GoodLayer L total
  pos : ∀ e, m.pos = some e → (total : Int) ≤ e.maxLen

/-- A sequence: its tokens and its source. -/
structure Row where
  tokens : List Nat
  src : List Vec

/-- The sequences in a new order. -/
def picked (R : List Row) (order : List Nat) : List Row := order.map fun i => (R[i]?).getD ⟨[], []⟩

/-- An order that a cache of encoder outputs follows: it changes the number of rows, or every row gets the
source it had before. -/
def KeepsSource (R : List Row) (order : List Nat) : Prop :=
  order.length = R.length → ∀ (i j : Nat), order[i]? = some j → (R[j]?).map Row.src = (R[i]?).map Row.src

end Fs2.Dec
