import Verif.Nn.BatchLayout

/-!
# Feature extractors and convolutions of speech models

Models, in evaluation mode, `Wav2Vec2FeatureExtractor` and `Wav2Vec2FbankFeatureExtractor`
(`src/fairseq2/models/wav2vec2/feature_extractor.py`), `Wav2Vec2PositionEncoder` and
`Wav2Vec2StackedPositionEncoder` (`models/wav2vec2/position_encoder.py`), `Wav2Vec2Frontend.forward`
(`models/wav2vec2/frontend.py`), `ConformerConvolution` (`models/conformer/convolution.py`) and
`Conv1dFbankSubsampler` (`models/s2t_transformer/feature_extractor.py`).

The numbers of one position are an element of a type `V` with a zero. A convolution is by contract an
arbitrary function of the window that it sees; norms over channels, activations and projections are arbitrary
functions of one position. Dropout does nothing in evaluation mode, and batch normalization acts on one position.
Lengths are divided exactly, not as floats. An exception is `none`.
-/

namespace Fs2.Speech
open Fs2.Nn

variable {V : Type}

/-- The second dimension of a batch. -/
def width (rows : List (List V)) : Nat := ((rows[0]?).getD []).length

/-- `Conv1d` without padding on one row: the window of output `i` begins at input `i * stride`. A row that is
shorter than the kernel is refused. -/
def conv1d (kernel stride : Nat) (f : List V → V) (xs : List V) : Option (List V) :=
  if kernel = 0 ∨ stride = 0 ∨ xs.length < kernel then none
  else some ((List.range ((xs.length - kernel) / stride + 1)).map fun i => f ((xs.drop (i * stride)).take kernel))

/-- `Wav2Vec2FeatureExtractionLayer` (feature_extractor.py:189-268): the convolution, the optional group norm over
all positions of a row, and layer norm and activation. -/
structure ConvLayer (V : Type) where
  kernel : Nat
  stride : Nat
  conv : List V → V
  groupNorm : Option (List V → List V)
  post : V → V

/-- Its `forward` on one row (feature_extractor.py:242-265). -/
def ConvLayer.forward (L : ConvLayer V) (xs : List V) : Option (List V) :=
  (conv1d L.kernel L.stride L.conv xs).map fun ys =>
    ((match L.groupNorm with
      | none => ys
      | some g => g ys)).map L.post

/-- `Sequential` on one row. -/
def convStack : List (ConvLayer V) → List V → Option (List V)
  | [], xs => some xs
  | L :: Ls, xs => (L.forward xs).bind (convStack Ls)

/-- One length in `_contract_seq_lens` (feature_extractor.py:170-179). -/
def contractLen (layers : List (ConvLayer V)) (n : Int) : Int :=
  layers.foldl (fun n L => (n - L.kernel) / L.stride + 1) n

/-- `Wav2Vec2FeatureExtractor.forward` (feature_extractor.py:126-168) -/
def convExtract (layers : List (ConvLayer V)) (rows : List (List V)) (l : Layout) :
    Option (List (List V) × Layout) :=
  if l.packed then none
  else
    (rows.mapM (convStack layers)).bind fun rows =>
      (Layout.of [(rows.length : Int), (width rows : Int)]
        (if l.padded then some (l.seqLens.map (contractLen layers)) else none) false).map fun l => (rows, l)

/-- `Wav2Vec2FbankFeatureExtractor.forward` (feature_extractor.py:300-353): `stack` puts the channels of `stride`
frames together. The samples are taken from the first dimension of the batch. -/
def fbankExtract (stride every : Nat) (stack : List V → V) (rows : List (List V)) (l : Layout) :
    Option (List (List V) × Layout) :=
  if l.packed || stride = 0 then none
  else
    let frames := width rows - width rows % stride
    let out := rows.map fun xs =>
      (List.range (frames / stride)).map fun i => stack (((xs.take frames).drop (i * stride)).take stride)
    let out := if 1 < every then (out.zipIdx.filter fun x => x.2 % every ≠ 0).map (·.1) else out
    let lens := l.seqLens.map fun n =>
      let n := min n (frames : Int) / stride
      if 1 < every then n / ((every : Int) + 1) else n
    (Layout.of [(out.length : Int), ((frames / stride : Nat) : Int)] (if l.padded then some lens else none) false).map
      fun l => (out, l)

variable [Zero V]

/-- The input of a convolution with zeros on both sides. -/
def ext (xs : List V) (j : Int) : V := if 0 ≤ j then (xs[j.toNat]?).getD 0 else 0

/-- `Conv1d` of stride one with the given numbers of zeros on the left and on the right, on one row. -/
def convZ (kernel left right : Nat) (f : List V → V) (xs : List V) : List V :=
  (List.range (xs.length + left + right + 1 - kernel)).map fun i =>
    f ((List.range kernel).map fun j => ext xs (((i + j : Nat) : Int) - left))

/-- `padding="same"` of torch: the larger half is on the right. -/
def convSame (kernel : Nat) (f : List V → V) (xs : List V) : List V :=
  convZ kernel ((kernel - 1) / 2) (kernel - 1 - (kernel - 1) / 2) f xs

/-- `apply_mask(seqs, seqs_layout.position_indices >= 0)` if there is padding
(position_encoder.py:83-88, convolution.py:118-123). -/
def maskPadding (l : Layout) (rows : List (List V)) : List (List V) :=
  if l.padded then
    List.zipWith (List.zipWith fun (p : Int) x => if 0 ≤ p then x else 0) l.positions rows
  else rows

/-- `Wav2Vec2PositionEncoder.forward` (position_encoder.py:66-105); `act` is the activation, `add` the sum. -/
def convPosEncode (kernel : Nat) (f : List V → V) (act : V → V) (add : V → V → V) (rows : List (List V)) (l : Layout) :
    Option (List (List V)) :=
  if l.packed || kernel = 0 then none
  else some ((maskPadding l rows).map fun xs =>
    let ys := convZ kernel (kernel / 2) (kernel / 2) f xs
    let ys := if kernel % 2 = 0 then ys.dropLast else ys
    List.zipWith add xs (ys.map act))

/-- A `Wav2Vec2PositionEncoderLayer` (position_encoder.py:244-289): `post` is its norm and activation. -/
structure PosLayer (V : Type) where
  conv : List V → V
  post : V → V

/-- `Wav2Vec2StackedPositionEncoder.forward` (position_encoder.py:198-236); all layers have the same kernel size. -/
def stackedPosEncode (kernel : Nat) (layers : List (PosLayer V)) (add : V → V → V) (rows : List (List V)) (l : Layout) :
    Option (List (List V)) :=
  if l.packed || kernel = 0 then none
  else some ((maskPadding l rows).map fun xs =>
    List.zipWith add xs (layers.foldl (fun ys L => (convSame kernel L.conv ys).map L.post) xs))

/-- The feature extractors of `Wav2Vec2Frontend`. -/
inductive Extractor (V : Type) where
  | none
  | conv (layers : List (ConvLayer V))
  | fbank (stride every : Nat) (stack : List V → V)

/-- `SequenceFeatureExtractor.forward`. -/
def Extractor.forward (e : Extractor V) (rows : List (List V)) (l : Layout) : Option (List (List V) × Layout) :=
  match e with
  | .none => some (rows, l)
  | .conv layers => convExtract layers rows l
  | .fbank stride every stack => fbankExtract stride every stack rows l

/-- The position encoders of `Wav2Vec2Frontend`. -/
inductive SpeechPos (V : Type) where
  | none
  | conv (kernel : Nat) (f : List V → V) (act : V → V) (add : V → V → V)
  | stacked (kernel : Nat) (layers : List (PosLayer V)) (add : V → V → V)

/-- `PositionEncoder.forward`. -/
def SpeechPos.forward (p : SpeechPos V) (rows : List (List V)) (l : Layout) : Option (List (List V)) :=
  match p with
  | .none => some rows
  | .conv kernel f act add => convPosEncode kernel f act add rows l
  | .stacked kernel layers add => stackedPosEncode kernel layers add rows l

/-- `Wav2Vec2Frontend`: `pre` is the layer norm after the extractor with the projection, `post` the norm at the
end. -/
structure Frontend (V : Type) where
  extractor : Extractor V
  pre : V → V
  pos : SpeechPos V
  post : V → V

/-- `Wav2Vec2Frontend.forward` (frontend.py:113-210), without mask. -/
def Frontend.forward (F : Frontend V) (rows : List (List V)) (l : Layout) : Option (List (List V) × Layout) :=
  (F.extractor.forward rows l).bind fun (rows, l) =>
    (F.pos.forward (rows.map (List.map F.pre)) l).map fun rows => (rows.map (List.map F.post), l)

/-- `ConformerConvolution`: `first` is the pointwise convolution without bias and the gated linear unit,
`depthwise` the depthwise convolution, `last` everything after it. -/
structure ConformerConv (V : Type) where
  kernel : Nat
  causal : Bool
  first : V → V
  depthwise : List V → V
  last : V → V

/-- `ConformerConvolution.forward` (convolution.py:104-168). -/
def ConformerConv.forward (c : ConformerConv V) (rows : List (List V)) (l : Layout) : Option (List (List V)) :=
  if l.packed || c.kernel = 0 then none
  else some ((maskPadding l rows).map fun xs =>
    let ys := xs.map c.first
    let ys := if c.causal then convZ c.kernel (c.kernel - 1) 0 c.depthwise ys else convSame c.kernel c.depthwise ys
    ys.map c.last)

/-- A convolution of stride 2 with zeros on both sides, as `Conv1dFbankSubsampler` has them, with its gated linear
unit. -/
def subsample (kernel : Nat) (f : List V → V) (xs : List V) : Option (List V) :=
  let n := xs.length + 2 * (kernel / 2)
  if kernel = 0 ∨ n < kernel then none
  else some ((List.range ((n - kernel) / 2 + 1)).map fun i =>
    f ((List.range kernel).map fun j => ext xs (((2 * i + j : Nat) : Int) - ((kernel / 2 : Nat) : Int))))

/-- All convolutions of `Conv1dFbankSubsampler` on one row. -/
def subsampleAll : List (Nat × (List V → V)) → List V → Option (List V)
  | [], xs => some xs
  | L :: Ls, xs => (subsample L.1 L.2 xs).bind (subsampleAll Ls)

/-- `Conv1dFbankSubsampler.forward` (s2t_transformer/feature_extractor.py:84-119). A packed batch has no third
dimension and makes `transpose` raise. -/
def subsampler (layers : List (Nat × (List V → V))) (rows : List (List V)) (l : Layout) :
    Option (List (List V) × Layout) :=
  if l.padded || l.packed then none
  else
    (rows.mapM (subsampleAll layers)).bind fun rows =>
      (Layout.of [(rows.length : Int), (width rows : Int)] none false).map fun l => (rows, l)

end Fs2.Speech
