import Verif.Tokenizer.SentencePiece

/-!
# The encoders that tokenizers create, tiktoken and Hugging Face tokenizers

Models `src/fairseq2/data/tokenizers/{sentencepiece,tiktoken,hg}.py` and
`src/fairseq2/models/{nllb,s2t_transformer,llama,qwen,olmo,gemma3n,hg}/tokenizer.py`.
Devices and pinned memory are left out.
-/

namespace Fs2.Tok

/-- The arguments of `create_encoder` that say what to encode. -/
structure Args where
  task : Option String := none
  lang : Option String := none
  mode : Option String := none
deriving DecidableEq, Repr

/-- The tokens put before and after a text. -/
structure Frame where
  before : List String
  after : List String
deriving DecidableEq, Repr

/-- `BasicSentencePieceTokenizer.create_encoder` (`sentencepiece.py:125-177`). -/
def basicFrame (a : Args) : Except Refusal Frame :=
  if a.task ≠ none then .error .value
  else if a.lang ≠ none then .error .value
  else if a.mode = none ∨ a.mode = some "default" then .ok ⟨["<s>"], ["</s>"]⟩
  else if a.mode = some "prompt" then .ok ⟨["<s>"], []⟩
  else if a.mode = some "prompt_response" then .ok ⟨[], ["</s>"]⟩
  else .error .notSupported

/-- `RawSentencePieceTokenizer.create_encoder` (`sentencepiece.py:204-236`), also the character
tokenizer (`char.py`). -/
def rawFrame (a : Args) : Except Refusal Frame :=
  if a.task ≠ none then .error .value
  else if a.lang ≠ none then .error .value
  else if a.mode ≠ none then .error .value
  else .ok ⟨[], []⟩

/-- `f"__{lang}__"`. -/
def langToken (lang : String) : String := "__" ++ lang ++ "__"

/-- `NllbTokenizer.create_encoder` (`nllb/tokenizer.py:50-118`). -/
def nllbFrame (langs : List String) (default : String) (a : Args) : Except Refusal Frame :=
  if a.task ≠ none ∧ a.task ≠ some "translation" then .error .value
  else
    let lang := a.lang.getD default
    if lang ∉ langs then .error .notSupported
    else if a.mode = none ∨ a.mode = some "source" then .ok ⟨[langToken lang], ["</s>"]⟩
    else if a.mode = some "source_mining" then .ok ⟨[langToken lang, "<MINED_DATA>"], ["</s>"]⟩
    else if a.mode = some "source_mmt_bt" then .ok ⟨[langToken lang, "<MMT_BT_DATA>"], ["</s>"]⟩
    else if a.mode = some "source_smt_bt" then .ok ⟨[langToken lang, "<SMT_BT_DATA>"], ["</s>"]⟩
    else if a.mode = some "target" then .ok ⟨["</s>", langToken lang], ["</s>"]⟩
    else .error .value

/-- The control symbols of `load_nllb_tokenizer` (`nllb/tokenizer.py:143-157`). -/
def nllbSymbols (langs : List String) : List String :=
  langs.map langToken ++ ["<MINED_DATA>", "<MMT_BT_DATA>", "<SMT_BT_DATA>"] ++ ["<pad>@0"]

/-- `S2TTransformerTokenizer.create_encoder` (`s2t_transformer/tokenizer.py:67-116`); the languages
are a set. -/
def s2tFrame (task : String) (langs : List String) (default : String) (a : Args) :
    Except Refusal Frame :=
  if a.task ≠ none ∧ a.task ≠ some task then .error .value
  else if a.mode ≠ none ∧ a.mode ≠ some "target" then .error .value
  else
    let lang := a.lang.getD default
    if lang ∉ langs then .error .notSupported
    else if task = "translation" ∧ 1 < langs.length then
      .ok ⟨["</s>", "<lang:" ++ lang ++ ">"], []⟩
    else .ok ⟨["</s>"], []⟩

/-- `create_encoder` of `LLaMATiktokenTokenizer` and `LLaMAHuggingFaceTokenizer`
(`llama/tokenizer.py:47-88, 129-170`). -/
def llamaFrame (eos : String) (a : Args) : Except Refusal Frame :=
  if a.task ≠ none then .error .value
  else if a.lang ≠ none then .error .value
  else if a.mode = none ∨ a.mode = some "default" then .ok ⟨["<|begin_of_text|>"], [eos]⟩
  else if a.mode = some "prompt" then .ok ⟨["<|begin_of_text|>"], []⟩
  else if a.mode = some "prompt_response" then .ok ⟨[], [eos]⟩
  else if a.mode = some "as_is" then .ok ⟨[], []⟩
  else .error .notSupported

/-- `create_encoder` of `QwenTokenizer` (`qwen/tokenizer.py:102-139`) and `OLMOTokenizer`
(`olmo/tokenizer.py:52-93`): no token before the text. -/
def qwenFrame (eos : String) (a : Args) : Except Refusal Frame :=
  if a.task ≠ none then .error .value
  else if a.lang ≠ none then .error .value
  else if a.mode = none ∨ a.mode = some "default" then .ok ⟨[], [eos]⟩
  else if a.mode = some "prompt" then .ok ⟨[], []⟩
  else if a.mode = some "prompt_response" then .ok ⟨[], [eos]⟩
  else if a.mode = some "as_is" then .ok ⟨[], []⟩
  else .error .notSupported

/-- `Gemma3nTokenizer.create_encoder` (`gemma3n/tokenizer.py:58-95`): nothing after the text in any
mode, and there is no `prompt_response`. -/
def gemmaFrame (a : Args) : Except Refusal Frame :=
  if a.task ≠ none then .error .value
  else if a.lang ≠ none then .error .value
  else if a.mode ≠ none ∧ a.mode ≠ some "default" ∧ a.mode ≠ some "prompt"
      ∧ a.mode ≠ some "as_is" then .error .value
  else if a.mode = some "as_is" then .ok ⟨[], []⟩
  else .ok ⟨["<bos>"], []⟩

/-- The encoder of a SentencePiece tokenizer with a frame. -/
def Frame.sp (f : Frame) : SpEncoder := { prefixTokens := f.before, suffixTokens := f.after }

/-! ## tiktoken -/

/-- `tiktoken.Encoding`: the byte-pair tokens, the special tokens, and how the library cuts text
without special tokens. -/
structure Encoding where
  ranks : List (List UInt8 × Nat)
  special : List (String × Nat)
  ordinary : List Char → List Nat

/-- The UTF-8 bytes of a text. -/
def bytesOf (s : String) : List UInt8 := s.toUTF8.data.toList

/-- A dictionary from a list of pairs: a later pair replaces the value of an earlier one. -/
def dictPut (d : List (String × Nat)) (k : String) (v : Nat) : List (String × Nat) :=
  if d.any (·.1 == k) then d.map (fun q => if q.1 = k then (k, v) else q) else d ++ [(k, v)]

/-- `{token: num_tokens + i for i, token in enumerate(special_tokens)}`
(`tiktoken.py:58-63`). -/
def specialMap (n : Nat) (i : Nat) (d : List (String × Nat)) : List String → List (String × Nat)
  | [] => d
  | t :: ts => specialMap n (i + 1) (dictPut d t (n + i)) ts

/-- `Encoding.encode_single_token`: a byte-pair token, else a special token, else `KeyError`. -/
def Encoding.single (E : Encoding) (t : String) : Except Refusal Nat :=
  match E.ranks.lookup (bytesOf t) with
  | some i => .ok i
  | none =>
    match E.special.lookup t with
    | some i => .ok i
    | none => .error .key

/-- `Encoding.n_vocab`: one more than the largest index. -/
def Encoding.nVocab (E : Encoding) : Nat :=
  ((E.ranks.map (·.2) ++ E.special.map (·.2)).foldl max 0) + 1

/-- The special token that starts at a place of a text.  If several do we take the first in the
table; the library takes one of them. -/
def Encoding.startsWith (E : Encoding) (text : List Char) : Option (String × Nat) :=
  E.special.find? (fun q => q.1.toList.isPrefixOf text)

/-- `Encoding.encode(text, allowed_special="all")`: the text is cut at every special token from
left to right; `acc` is the text since the last cut. -/
def Encoding.scan (E : Encoding) (acc : List Char) : List Char → List Nat
  | [] => E.ordinary acc
  | c :: cs =>
    match E.startsWith (c :: cs) with
    | some (s, i) => E.ordinary acc ++ i :: E.scan [] (cs.drop (s.toList.length - 1))
    | none => E.scan (acc ++ [c]) cs
termination_by l => l.length
decreasing_by all_goals simp; try omega

/-- The encoding of a text. -/
def Encoding.encode (E : Encoding) (text : List Char) : List Nat := E.scan [] text

/-- The bytes of a token (`decode_single_token_bytes`): `KeyError` if there is none. -/
def Encoding.bytesAt (E : Encoding) (i : Nat) : Except Refusal (List UInt8) :=
  match E.ranks.find? (·.2 == i) with
  | some q => .ok q.1
  | none =>
    match E.special.find? (·.2 == i) with
    | some q => .ok (bytesOf q.1)
    | none => .error .key

/-- What `bytes.decode` does, with `errors="strict"` (`None` for `UnicodeDecodeError`) and with
`errors="replace"`. -/
structure Utf8 where
  strict : List UInt8 → Option String
  lenient : List UInt8 → String

/-- `TiktokenModel` (`tiktoken.py:91-111`). -/
structure Tiktoken where
  encoding : Encoding
  numBpe : Nat
  vocab : VocabInfo

/-- `maybe_index` (`tiktoken.py:72-76`). -/
def Encoding.maybe (E : Encoding) : Option String → Except Refusal (Option Nat)
  | none => .ok none
  | some t => if t = "" then .ok none else match E.single t with
    | .ok i => .ok (some i)
    | .error e => .error e

/-- `load_tiktoken_model` (`tiktoken.py:26-88`) once the file is read; without an unknown token,
which no caller gives. -/
def loadTiktoken (ranks : List (List UInt8 × Nat)) (ordinary : List Char → List Nat)
    (bos eos pad boh eoh : Option String) (specials : List String) : Except Refusal Tiktoken :=
  let E : Encoding := ⟨ranks, specialMap ranks.length 0 [] specials, ordinary⟩
  match mapOk E.maybe [bos, eos, pad, boh, eoh] with
  | .ok [bos, eos, pad, boh, eoh] =>
    .ok ⟨E, ranks.length, VocabInfo.init ⟨E.nVocab, none, bos, eos, pad, boh, eoh⟩⟩
  | .ok _ => .error .key
  | .error e => .error e

/-- The names of the special tokens of LLaMA (`llama/tokenizer.py:237-249`). -/
def llamaNamed : List String :=
  ["<|begin_of_text|>", "<|end_of_text|>", "<|reserved_special_token_0|>",
   "<|reserved_special_token_1|>", "<|finetune_right_pad_id|>", "<|step_id|>",
   "<|start_header_id|>", "<|end_header_id|>", "<|eom_id|>", "<|eot_id|>", "<|python_tag|>"]

/-- `f"<|reserved_special_token_{i}|>"`. -/
def reservedToken (i : Nat) : String := "<|reserved_special_token_" ++ Nat.repr i ++ "|>"

/-- All special tokens of LLaMA (`llama/tokenizer.py:237-254`). -/
def llamaSpecials : List String :=
  llamaNamed ++ (List.range (256 - llamaNamed.length)).map (fun i => reservedToken (2 + i))

/-- `eos_token` (`llama/tokenizer.py:235`). -/
def llamaEos (useEot : Bool) : String := if useEot then "<|eot_id|>" else "<|end_of_text|>"

/-- `_load_llama_tt_tokenizer` (`llama/tokenizer.py:229-269`). -/
def loadLlama (ranks : List (List UInt8 × Nat)) (ordinary : List Char → List Nat)
    (useEot : Bool) : Except Refusal Tiktoken :=
  loadTiktoken ranks ordinary (some "<|begin_of_text|>") (some (llamaEos useEot))
    (some "<|finetune_right_pad_id|>") (some "<|start_header_id|>") (some "<|end_header_id|>")
    llamaSpecials

/-- `TiktokenEncoder.__init__` (`tiktoken.py:132-167`): the indices of the framing tokens. -/
def Tiktoken.frame (T : Tiktoken) (f : Frame) : Except Refusal (List Nat × List Nat) :=
  match mapOk T.encoding.single f.before with
  | .error e => .error e
  | .ok pre =>
    match mapOk T.encoding.single f.after with
    | .error e => .error e
    | .ok suf => .ok (pre, suf)

/-- `TiktokenEncoder.__call__` (`tiktoken.py:169-181`). -/
def Tiktoken.call (T : Tiktoken) (f : Frame) (text : String) : Except Refusal (List Nat) :=
  match T.frame f with
  | .error e => .error e
  | .ok (pre, suf) =>
    let indices := T.encoding.encode text.toList
    let indices := if pre.isEmpty then indices else pre ++ indices
    .ok (if suf.isEmpty then indices else indices ++ suf)

/-- `TiktokenEncoder.encode_as_tokens` (`tiktoken.py:183-189`). -/
def Tiktoken.asTokens (T : Tiktoken) (u : Utf8) (f : Frame) (text : String) :
    Except Refusal (List String) :=
  match T.call f text with
  | .error e => .error e
  | .ok indices =>
    match mapOk T.encoding.bytesAt indices with
    | .error e => .error e
    | .ok bs => mapOk (fun b => match u.strict b with
        | some s => .ok s
        | none => .error .unicode) bs

/-- `TiktokenDecoder.__call__` (`tiktoken.py:211-223`) of a one-dimensional tensor. -/
def Tiktoken.decode (T : Tiktoken) (u : Utf8) (skip : Bool) (indices : List Nat) :
    Except Refusal String :=
  let indices := if skip then indices.filter (· < T.numBpe) else indices
  match mapOk T.encoding.bytesAt indices with
  | .error e => .error e
  | .ok bs => .ok (u.lenient bs.flatten)

/-! ## Hugging Face tokenizers -/

/-- A Hugging Face tokenizer (`PreTrainedTokenizer`). -/
structure HgLib where
  vocabSize : Nat
  ids : String → Option Nat
  encode : String → List Nat
  decode : Bool → List Nat → String
  unk : Option Nat
  bos : Option Nat
  eos : Option Nat
  pad : Option Nat
  boh : Option Nat
  eoh : Option Nat

/-- One round of the loop of `load_hg_token_model` (`hg.py:72-80`): an override counts if it is
not empty. -/
def HgLib.index (tok : HgLib) (override : Option String) (own : Option Nat) : Option Nat :=
  match override with
  | some t => if t = "" then own else tok.ids t
  | none => own

/-- `load_hg_token_model` (`hg.py:57-84`): the size leaves out added tokens. -/
def HgLib.vocab (tok : HgLib) (unk bos eos pad boh eoh : Option String) : VocabInfo :=
  VocabInfo.init {
    size := tok.vocabSize
    unk := tok.index unk tok.unk
    bos := tok.index bos tok.bos
    eos := tok.index eos tok.eos
    pad := tok.index pad tok.pad
    boh := tok.index boh tok.boh
    eoh := tok.index eoh tok.eoh }

/-- `load_qwen_tokenizer` (`qwen/tokenizer.py:161-182`). -/
def qwenVocab (tok : HgLib) (useImEnd : Bool) : VocabInfo :=
  tok.vocab none none (some (if useImEnd then "<|im_end|>" else "<|endoftext|>"))
    (some "<|endoftext|>") none none

/-- The state of an `HgTokenizer` (`hg/tokenizer.py:77-80`): whether a decoder was created and with
which `skip_special_tokens`. -/
structure HgState where
  decoder : Option Bool := none
deriving DecidableEq, Repr

/-- `HgTokenizer.create_decoder` (`hg/tokenizer.py:105-112`): gives the `skip_special_tokens` of the
decoder. -/
def HgState.createDecoder (s : HgState) (skip : Bool) : Bool × HgState :=
  match s.decoder with
  | some d => (d, s)
  | none => (skip, ⟨some skip⟩)

/-- `HgTokenizer.decode` (`hg/tokenizer.py:120-124`, `hg.py:217-226`). -/
def HgState.decode (tok : HgLib) (s : HgState) (skip : Bool) (indices : List Nat) :
    String × HgState :=
  let (d, s) := s.createDecoder skip
  (tok.decode d indices, s)

/-! ## Translating text -/

/-- The source sequence of `TextTranslator.__call__` (`generation/text.py:219-235`): encoded, then
cut. -/
def sourceSeq (p : Proto) (lib : Lib) (f : Frame) (maxLen : Option Nat) (text : String) :
    List Nat :=
  let seq := f.sp.call p lib 0 text
  match maxLen with
  | some n => seq.take n
  | none => seq

end Fs2.Tok
