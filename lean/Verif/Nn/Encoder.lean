import Verif.Nn.Decoder
import Verif.Nn.Speech

/-!
# Transformer and conformer encoders, and forward passes over padded batches

Models, in evaluation mode, `StandardTransformerEncoderLayer` (`src/fairseq2/models/transformer/encoder_layer.py`),
`ConformerBlock` (`models/conformer/block.py`), `StandardTransformerEncoder.forward`
(`models/transformer/encoder.py:140-171`), the frontends for text and speech in front of it,
`Wav2Vec2AsrModel.forward` (`models/wav2vec2/asr/model.py`) and `TransformerModel.forward` without state bag, as in
training and evaluation (`models/transformer/model.py:137-195`), for batches with padding.

The simplifications are those of `Verif/Nn/Decoder.lean` and `Verif/Nn/Speech.lean`: exact reals, arbitrary functions
for everything that acts on one position. The attention of a query that sees no key is `nan` in the code and goes
into `Mha.out` as `none`; what a `nan` then does to other positions is not modelled. Layer hooks are left out. An
exception is `none`.
-/

namespace Fs2.Enc
open Fs2.Nn Fs2.Dec Fs2.Speech

/-- `_forward_self_attn` (transformer/encoder_layer.py:153-181, conformer/block.py:150-172). -/
noncomputable def attnPart (m : Mha) (b : Block) (l : Layout) (xs : Batch Vec) : Option (Batch Vec) :=
  (m.forwardSelf (fun _ _ => 0) none none l (b.enter xs)).map fun x => b.leave x.1 xs

/-- `_forward_conv` (conformer/block.py:174-184). -/
def convPart (c : ConformerConv Vec) (b : Block) (l : Layout) (xs : Batch Vec) : Option (Batch Vec) :=
  (c.forward (b.enter xs) l).map fun ys => b.leave ys xs

/-- `_forward_ffn`, `_forward_ffn1` and `_forward_ffn2` (transformer/encoder_layer.py:183-200,
conformer/block.py:138-148, 186-196). -/
def ffnPart (f : Vec → Vec) (b : Block) (xs : Batch Vec) : Batch Vec := b.leave ((b.enter xs).map (List.map f)) xs

/-- `seqs * 0.5 + residual`. -/
noncomputable def halfResidual (y x : Vec) : Vec := fun c => y c * (1 / 2) + x c

/-- `seqs + residual`. -/
noncomputable def plainResidual (y x : Vec) : Vec := fun c => y c + x c

/-- The layers of an encoder: `StandardTransformerEncoderLayer` and `ConformerBlock`. -/
inductive EncLayer where
  | transformer (attn : Mha) (attnBlock : Block) (ffn : Vec → Vec) (ffnBlock : Block)
  | conformer (ffn1Norm ffn1 attnNorm : Vec → Vec) (attn : Mha) (convNorm : Vec → Vec) (conv : ConformerConv Vec)
      (ffn2Norm ffn2 norm : Vec → Vec)

/-- The `forward` of the layers (transformer/encoder_layer.py:141-151, conformer/block.py:120-136). -/
noncomputable def EncLayer.forward (L : EncLayer) (l : Layout) (xs : Batch Vec) : Option (Batch Vec) :=
  match L with
  | .transformer attn attnBlock ffn ffnBlock => (attnPart attn attnBlock l xs).map (ffnPart ffn ffnBlock)
  | .conformer ffn1Norm ffn1 attnNorm attn convNorm conv ffn2Norm ffn2 norm =>
    let xs := ffnPart ffn1 ⟨ffn1Norm, false, halfResidual⟩ xs
    (attnPart attn ⟨attnNorm, false, plainResidual⟩ l xs).bind fun xs =>
      (convPart conv ⟨convNorm, false, plainResidual⟩ l xs).map fun xs =>
        (ffnPart ffn2 ⟨ffn2Norm, false, halfResidual⟩ xs).map (List.map norm)

/-- The loop over the layers (transformer/encoder.py:151-163). -/
noncomputable def forwardAll (l : Layout) : List EncLayer → Batch Vec → Option (Batch Vec)
  | [], xs => some xs
  | L :: Ls, xs => (L.forward l xs).bind (forwardAll l Ls)

/-- `StandardTransformerEncoder`; `norm` is the norm after the layers, if there is one. -/
structure Encoder where
  layers : List EncLayer
  norm : Vec → Vec

/-- `StandardTransformerEncoder.forward` (transformer/encoder.py:140-171). -/
noncomputable def Encoder.forward (E : Encoder) (xs : Batch Vec) (l : Layout) : Option (Batch Vec × Layout) :=
  (forwardAll l E.layers xs).map fun xs => (xs.map (List.map E.norm), l)

/-- A speech recognition model: the frontend, the encoder and the final projection. -/
structure AsrModel where
  frontend : Frontend Vec
  encoder : Encoder
  proj : Vec → Vec

/-- `Wav2Vec2AsrModel.forward` without targets (wav2vec2/asr/model.py:116-139). -/
noncomputable def AsrModel.forward (m : AsrModel) (xs : Batch Vec) (l : Layout) : Option (Batch Vec × Layout) :=
  (m.frontend.forward xs l).bind fun x =>
    (m.encoder.forward x.1 x.2).map fun x => (x.1.map (List.map m.proj), x.2)

/-- The encoder side of a `TransformerModel`: the embedding with its scale, the position encoder, the encoder. -/
structure TextEncoder where
  embed : Nat → Vec
  pos : Option PosEnc
  encoder : Encoder

/-- The frontend and the encoder (transformer/frontend.py:104-122, transformer/model.py:156-164). -/
noncomputable def TextEncoder.forward (T : TextEncoder) (tokens : Batch Nat) (l : Layout) :
    Option (Batch Vec × Layout) :=
  (encode PosEnc.apply T.pos none l (tokens.map (List.map T.embed))).bind fun xs => T.encoder.forward xs l

/-- The decoder side of `TransformerModel.forward`, and `TransformerLM.forward`, for a batch with the given layout and
without state bag (transformer/model.py:176-192, transformer_lm/model.py:119-146). -/
noncomputable def decodeAll (m : Model) (src : Option Source) (tokens : Batch Nat) (l : Layout) : Option (Batch Vec) :=
  (encode PosEnc.apply m.pos none l (tokens.map (List.map m.embed))).bind fun xs =>
    (forwardLayers (fun _ _ => 0) none src l m.layers (m.layers.map fun _ => {}) xs).map fun x =>
      x.1.map (List.map fun x => m.proj (m.norm x))

/-- `TransformerModel.forward` without targets and state bag (transformer/model.py:137-195): the logits. -/
noncomputable def translate (T : TextEncoder) (m : Model) (sources : Batch Nat) (ls : Layout) (targets : Batch Nat)
    (lt : Layout) : Option (Batch Vec) :=
  (T.forward sources ls).bind fun x => decodeAll m (some ⟨x.2.width.toNat, x.1, x.2⟩) targets lt

end Fs2.Enc
