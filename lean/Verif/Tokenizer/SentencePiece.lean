/-!
# SentencePiece tokenizers

Models `native/src/fairseq2n/data/text/sentencepiece/{sp_processor,sp_model,sp_encoder,sp_decoder}.cc`
and `src/fairseq2/data/tokenizers/vocab_info.py`.

The SentencePiece library itself (finding the pieces of a text, gluing pieces to a text) is a
parameter, `Lib`.  What it does with the list of pieces it is given (`Load`, `PieceToId`,
`IdToPiece`, `pad_id` and so on) is modelled, from the documentation of the library.
-/

namespace Fs2.Tok

/-- The kinds of pieces of a SentencePiece model. -/
inductive Kind where
  | normal | unknown | control | userDefined | byte | unused
deriving DecidableEq, Repr

/-- The library keeps control, unknown and byte pieces in a map of their own
(`reserved_id_map_`). -/
def Kind.reserved : Kind → Bool
  | .unknown | .control | .byte => true
  | _ => false

/-- `ModelProto_SentencePiece`, without the score. -/
structure Piece where
  text : String
  kind : Kind
deriving DecidableEq, Repr

/-- `ModelProto`: the pieces in the order of their indices, and the texts of the four pieces with
a meaning from the trainer specification. -/
structure Proto where
  pieces : List Piece
  unkPiece : String := "<unk>"
  bosPiece : String := "<s>"
  eosPiece : String := "</s>"
  padPiece : String := "<pad>"
deriving DecidableEq, Repr

/-- `SwapElements(i, i - 1)`. -/
def swapBack (l : List α) (i : Nat) : List α :=
  match l[i]?, l[i - 1]? with
  | some a, some b => (l.set i b).set (i - 1) a
  | _, _ => l

/-- The loop `for (int i = size - 1; i > 0; --i) SwapElements(i, i - 1)`
(`sp_processor.cc:105-106`), from a given `i`. -/
def bubble (l : List α) : Nat → List α
  | 0 => l
  | i + 1 => bubble (swapBack l (i + 1)) i

/-- `sp_model_proto_loader::add_piece` (`sp_processor.cc:113-121`). -/
def Proto.addPiece (p : Proto) (t : String) : Proto :=
  { p with pieces := p.pieces ++ [⟨t, .control⟩] }

/-- One round of `add_control_symbols` (`sp_processor.cc:88-109`). -/
def Proto.addSymbol (p : Proto) (s : String) : Proto :=
  if s = "" then p
  else if s = "<pad>" ∨ s = "<pad>@0" then
    let p := ({ p with padPiece := "<pad>" } : Proto).addPiece "<pad>"
    if s = "<pad>@0" then { p with pieces := bubble p.pieces (p.pieces.length - 1) } else p
  else p.addPiece s

/-- `sp_model_proto_loader::add_control_symbols` (`sp_processor.cc:85-111`). -/
def Proto.addSymbols (p : Proto) (symbols : List String) : Proto :=
  symbols.foldl Proto.addSymbol p

/-- When `SentencePieceProcessor::Load` accepts the pieces: no text is empty, the texts in each of
the two maps are distinct and there is one unknown piece. -/
def Proto.loads (p : Proto) : Bool :=
  p.pieces.all (fun q => q.text != "")
    && decide ((p.pieces.filter (·.kind.reserved)).map (·.text)).Nodup
    && decide ((p.pieces.filter (! ·.kind.reserved)).map (·.text)).Nodup
    && (p.pieces.countP (·.kind = .unknown) == 1)

/-- The index of the first piece of a text in one of the two maps. -/
def Proto.lookup (p : Proto) (reserved : Bool) (t : String) : Option Nat :=
  p.pieces.findIdx? (fun q => q.kind.reserved == reserved && q.text == t)

/-- The index of the unknown piece. -/
def Proto.unk (p : Proto) : Nat :=
  (p.pieces.findIdx? (·.kind = .unknown)).getD 0

/-- `PieceToId` of the library: control, unknown and byte pieces first, then the others, else the
unknown piece.  This is `sp_processor::token_to_index` (`sp_processor.cc:194-198`). -/
def Proto.tokenToIndex (p : Proto) (t : String) : Nat :=
  match p.lookup true t with
  | some i => i
  | none => (p.lookup false t).getD p.unk

/-- `unk_id`, `bos_id`, `eos_id` and `pad_id` of the library: the index of the piece if it is of
the right kind, else -1, and `sp_model.cc:49-83`, where -1 becomes `None`. -/
def Proto.special (p : Proto) (k : Kind) (t : String) : Option Nat :=
  match p.pieces[p.tokenToIndex t]? with
  | some q => if q.kind = k then some (p.tokenToIndex t) else none
  | none => none

/-- A conversion of a 64-bit integer to 32 bits. -/
def wrap32 (i : Int) : Int := (i + 2147483648) % 4294967296 - 2147483648

/-- What the calls can end with besides a value. -/
inductive Refusal where
  /-- `ValueError`, `invalid_argument` -/
  | value
  /-- `NotSupportedError` -/
  | notSupported
  /-- `RuntimeError`, also `TokenizerModelError` -/
  | runtime
  /-- `KeyError` -/
  | key
  /-- `UnicodeDecodeError` -/
  | unicode
deriving DecidableEq, Repr

/-- `sp_processor::index_to_token` (`sp_processor.cc:200-208`) of a 32-bit index: a negative index
turns into a large one and is refused as well. -/
def Proto.indexToToken32 (p : Proto) (i : Int) : Except Refusal String :=
  if i < 0 then .error .value
  else match p.pieces[i.toNat]? with
    | some q => .ok q.text
    | none => .error .value

/-- `sp_model::index_to_token` (`sp_model.cc:43-47`): the index is cut to 32 bits first. -/
def Proto.indexToToken (p : Proto) (i : Int) : Except Refusal String :=
  p.indexToToken32 (wrap32 i)

/-- `VocabularyInfo` (`vocab_info.py`). -/
structure VocabInfo where
  size : Nat
  unk : Option Nat
  bos : Option Nat
  eos : Option Nat
  pad : Option Nat
  boh : Option Nat := none
  eoh : Option Nat := none
deriving DecidableEq, Repr

/-- `VocabularyInfo.__post_init__`. -/
def VocabInfo.init (v : VocabInfo) : VocabInfo :=
  if v.pad = v.eos then { v with pad := none } else v

/-- `get_sentencepiece_vocabulary_info` (`sentencepiece.py:285-293`). -/
def Proto.vocabInfo (p : Proto) : VocabInfo :=
  VocabInfo.init {
    size := p.pieces.length
    unk := p.special .unknown p.unkPiece
    bos := p.special .control p.bosPiece
    eos := p.special .control p.eosPiece
    pad := p.special .control p.padPiece }

/-- `load_sentencepiece_model` (`sentencepiece.py:261-282`, `sp_processor.cc:52-60, 138-156`). -/
def loadSp (p : Proto) (symbols : List String) : Except Refusal Proto :=
  let p := p.addSymbols symbols
  if p.loads then .ok p else .error .runtime

/-- One piece of a segmented text: its index and what it covers. -/
structure Seg where
  id : Nat
  token : String
deriving DecidableEq, Repr

/-- The SentencePiece library: `Encode`, `SampleEncode` (with what its random numbers were), and
`Decode`. -/
structure Lib where
  encode : String → List Seg
  sample : Nat → String → List Seg
  decode : List String → String

/-- `sp_encoder_options`, without devices and memory. -/
structure SpEncoder where
  prefixTokens : List String := []
  suffixTokens : List String := []
  reverse : Bool := false
  sampling : Bool := false
deriving DecidableEq, Repr

/-- The pieces of a text (`sp_encoder.cc:97-101, 147-150`). -/
def SpEncoder.pieces (lib : Lib) (e : SpEncoder) (draw : Nat) (text : String) : List Seg :=
  if e.sampling then lib.sample draw text else lib.encode text

/-- `tensor_data[i++] = x` for every `x`; gives the buffer and the next position. -/
def writeUp (buf : List Nat) (i : Nat) : List Nat → List Nat × Nat
  | [] => (buf, i)
  | x :: xs => writeUp (buf.set i x) (i + 1) xs

/-- `tensor_data[i--] = x` for every `x`.  The position is unsigned; it goes below zero only after
the last write, where we leave it at zero. -/
def writeDown (buf : List Nat) (i : Nat) : List Nat → List Nat × Nat
  | [] => (buf, i)
  | x :: xs => writeDown (buf.set i x) (i - 1) xs

/-- `sp_encoder::encode` (`sp_encoder.cc:92-141`). -/
def SpEncoder.call (p : Proto) (lib : Lib) (e : SpEncoder) (draw : Nat) (text : String) :
    List Nat :=
  let pre := e.prefixTokens.map p.tokenToIndex
  let suf := e.suffixTokens.map p.tokenToIndex
  let ids := (e.pieces lib draw text).map (·.id)
  let len := ids.length + pre.length + suf.length
  let buf := List.replicate len 0
  if e.reverse then
    let (buf, i) := writeDown buf (len - 1) pre
    let (buf, i) := writeDown buf i ids
    (writeDown buf i suf).1
  else
    let (buf, i) := writeUp buf 0 pre
    let (buf, i) := writeUp buf i ids
    (writeUp buf i suf).1

/-- `sp_encoder::encode_as_tokens` (`sp_encoder.cc:143-173`). -/
def SpEncoder.asTokens (lib : Lib) (e : SpEncoder) (draw : Nat) (text : String) : List String :=
  let tokens := e.prefixTokens ++ (e.pieces lib draw text).map (·.token) ++ e.suffixTokens
  if e.reverse then tokens.reverse else tokens

/-- `prefix_indices` (`sp_encoder.cc:48-80`): `None` if there are no prefix tokens. -/
def SpEncoder.prefixIndices (p : Proto) (e : SpEncoder) : Option (List Nat) :=
  if e.prefixTokens.isEmpty then none else some (e.prefixTokens.map p.tokenToIndex)

/-- `suffix_indices` (`sp_encoder.cc:48-80`). -/
def SpEncoder.suffixIndices (p : Proto) (e : SpEncoder) : Option (List Nat) :=
  if e.suffixTokens.isEmpty then none else some (e.suffixTokens.map p.tokenToIndex)

/-- `mapM` for results, from left to right, up to the first failure. -/
def mapOk (f : α → Except Refusal β) : List α → Except Refusal (List β)
  | [] => .ok []
  | a :: l =>
    match f a with
    | .error e => .error e
    | .ok b =>
      match mapOk f l with
      | .error e => .error e
      | .ok bs => .ok (b :: bs)

/-- `sp_decoder::do_decode` (`sp_decoder.cc:84-107`) of a tensor of 64-bit integers: every index is
cut to 32 bits. -/
def spDecode (p : Proto) (lib : Lib) (reverse : Bool) (indices : List Int) :
    Except Refusal String :=
  match mapOk (fun j => p.indexToToken32
      (wrap32 (indices.getD (if reverse then indices.length - 1 - j else j) 0)))
      (List.range indices.length) with
  | .ok tokens => .ok (lib.decode tokens)
  | .error e => .error e

/-- `sp_decoder::decode_from_tokens` (`sp_decoder.cc:71-82`). -/
def spDecodeTokens (lib : Lib) (reverse : Bool) (tokens : List String) : String :=
  lib.decode (if reverse then tokens.reverse else tokens)

end Fs2.Tok
