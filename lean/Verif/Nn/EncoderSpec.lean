import Verif.Nn.Encoder
import Verif.Nn.DecoderSpec

/-!
# What an encoder should compute

Every sequence on its own, without batches, padding, layouts and biases: every position looks at all positions of
the same sequence, and convolutions see zeros outside of it.
-/

namespace Fs2.Enc.Spec
open Fs2.Nn Fs2.Dec Fs2.Dec.Spec Fs2.Speech

/-- Self attention at position `i`: over all positions of the sequence. -/
noncomputable def lookAt (m : Mha) (xs : List Vec) (i : Nat) : Vec :=
  m.out fun h c =>
    attend m.scale m.headDim xs.length (placed PosEnc.apply m.pos i (m.q (at' xs i) h))
      (fun j => placed PosEnc.apply m.pos j (m.k (at' xs j) (h / m.groups)))
      (fun j => m.v (at' xs j) (h / m.groups)) (fun _ => .fin 0) c

/-- The number of positions before position `i` that the window of the convolution at `i` begins with. -/
def before (c : ConformerConv Vec) : Nat := if c.causal then c.kernel - 1 else (c.kernel - 1) / 2

/-- The convolution at position `i`. -/
def convAt (c : ConformerConv Vec) (xs : List Vec) (i : Nat) : Vec :=
  c.last (c.depthwise ((List.range c.kernel).map fun j =>
    if before c ≤ i + j ∧ i + j - before c < xs.length then c.first (at' xs (i + j - before c)) else fun _ => 0))

/-- A layer. -/
noncomputable def layer (L : EncLayer) (xs : List Vec) : List Vec :=
  match L with
  | .transformer attn attnBlock ffn ffnBlock =>
    around ffnBlock (fun ys i => ffn (at' ys i)) (around attnBlock (lookAt attn) xs)
  | .conformer ffn1Norm ffn1 attnNorm attn convNorm conv ffn2Norm ffn2 norm =>
    let xs := around ⟨ffn1Norm, false, halfResidual⟩ (fun ys i => ffn1 (at' ys i)) xs
    let xs := around ⟨attnNorm, false, plainResidual⟩ (lookAt attn) xs
    let xs := around ⟨convNorm, false, plainResidual⟩ (convAt conv) xs
    (around ⟨ffn2Norm, false, halfResidual⟩ (fun ys i => ffn2 (at' ys i)) xs).map norm

/-- An encoder. -/
noncomputable def encode (E : Encoder) (xs : List Vec) : List Vec :=
  (E.layers.foldl (fun xs L => layer L xs) xs).map E.norm

/-- The encoder of a text model, for a sequence of tokens. -/
noncomputable def encodeText (T : TextEncoder) (tokens : List Nat) : List Vec :=
  encode T.encoder (tokens.mapIdx fun i t => placed PosEnc.apply T.pos i (T.embed t))

end Fs2.Enc.Spec

namespace Fs2.Enc
open Fs2.Nn Fs2.Dec Fs2.Speech

/-- The attention module of a layer. -/
def EncLayer.attn : EncLayer → Mha
  | .transformer m _ _ _ => m
  | .conformer _ _ _ m _ _ _ _ _ => m

/-- What a layer has to fulfil: no mask, and a convolution whose first part, a convolution without bias and a gated
linear unit, maps zero to zero. -/
structure GoodLayer (L : EncLayer) : Prop where
  bias : L.attn.bias = .identity
  conv : ∀ a b c d e f g h k, L = .conformer a b c d e f g h k → 1 ≤ f.kernel ∧ f.first 0 = 0

/-- The position encoders of the attention modules are long enough for a sequence. -/
def Fits (E : Encoder) (n : Nat) : Prop := ∀ L ∈ E.layers, ∀ e, L.attn.pos = some e → (n : Int) ≤ e.maxLen

/-- What a decoder has to fulfil for padded batches of sequences of up to `n` tokens: causal self attention, with or
without a window, no mask and no position encoder in the attention to the encoder, long enough position encoders. -/
structure PadModel (m : Model) (n : Nat) : Prop where
  bias : ∀ L ∈ m.layers, ∃ w, L.selfAttn.bias = .causal w ∧ ∀ k, w = some k → 0 < k
  attnPos : ∀ L ∈ m.layers, ∀ e, L.selfAttn.pos = some e → (n : Int) ≤ e.maxLen
  cross : ∀ L ∈ m.layers, ∀ a b, L.cross = some (a, b) → GoodCross a
  pos : ∀ e, m.pos = some e → (n : Int) ≤ e.maxLen

end Fs2.Enc
