import Verif.Datasets.SftReader

/-!
# The data reader of speech recognition

Models `Wav2Vec2AsrDataset.create_reader` (`recipes/wav2vec2/asr/data/dataset.py:224-373`) with `batch_utils.py` and `preprocessing.py` beside it
as a pipeline of the builder's operators. Left out: `prefetch` and the parallel calls, which have their own models (C17, C18); reading
lines (C22); the check that the directory exists; and `DataPipelineReader`, which reads the pipeline (C27 to C29). `StrSplitter` and `int` are one
function of the line, `FileMapper`, `AudioDecoder` and `layer_norm` one function of the path. Recordings have one channel. Samples are integers here. The calls of `map` on the
elements of a batch are one call, for examples that have no other keys than the ones named.
-/

namespace Fs2.AsrData
open Fs2.Native Fs2.Batch

/-- What `AudioDecoder` gives (native/src/fairseq2n/data/audio/audio_decoder.cc:118-124). -/
structure Recording where
  rate : Rat
  format : Int
  wave : List Int

/-- What is on disk. -/
structure Files where
  /-- The lines of the manifest; the first one names the directory of the recordings. -/
  manifest : List Data
  /-- The lines of the file with the transcripts. -/
  transcripts : List Data
  /-- `StrSplitter(names=["audio", "audio_size"])` and `int` (dataset.py:193-197). -/
  parse : Data → Except Err Data
  /-- The recording at a path (preprocessing.py:26-78). -/
  audio : String → Except Err Recording

/-- The tokenizer: `vocab_info.pad_idx` and the encoder. -/
structure Tok where
  padIdx : Option Int
  encode : String → List Int

/-- The arguments of `create_reader` that the pipeline depends on, but for limits of lengths. -/
structure Options where
  maxNumElements : Nat
  numSeqsMultipleOf : Nat
  exampleShuffleWindow : Nat
  batchShuffleWindow : Nat
  dropRemainder : Bool
  seed : Nat
  maxNumBatches : Option Nat

/-- `_read_manifest` (dataset.py:171-197). -/
def tsvPipe (W : Files) : Pipe := .map W.parse (.skip 1 (.list W.manifest))

/-- `_read_wrd_file` (dataset.py:199-203). -/
def wrdPipe (W : Files) : Pipe := .list (W.transcripts.map fun l => .dict [("text", l)])

/-- An example that lacks a field. -/
def fieldErr : Err := ⟨true, "The example has no such field."⟩

/-- `{**a, **b}`. -/
def merge (a b : List (String × Data)) : List (String × Data) :=
  (a.map fun kv => (kv.1, (b.lookup kv.1).getD kv.2)) ++ b.filter fun kv => (a.lookup kv.1).isNone

/-- `flatten_example` (dataset.py:272-274). -/
def flattenExample : Data → Except Err Data
  | .dict fields =>
    match fields.lookup "tsv", fields.lookup "wrd" with
    | some (.dict a), some (.dict b) => .ok (.dict (merge a b))
    | _, _ => .error fieldErr
  | _ => .error fieldErr

/-- `audio_size`, the selector of `bucket_by_length` (batch_utils.py:35-42). A negative size is an error here; the filter before
would drop it unless `min_audio_len` is negative, which is not modelled. -/
def audioSize : Data → Except Err Nat
  | .dict fields =>
    match fields.lookup "audio_size" with
    | some (.int n) => if 0 ≤ n then .ok n.toNat else .error fieldErr
    | _ => .error fieldErr
  | _ => .error fieldErr

/-- `is_right_length` (preprocessing.py:114-116). -/
def rightLength (minLen maxLen : Nat) (d : Data) : Except Err Bool :=
  match audioSize d with
  | .error e => .error e
  | .ok n => .ok (decide (minLen ≤ n ∧ n ≤ maxLen))

/-- Loading, decoding and encoding one example (dataset.py:314-340). -/
def loadExample (W : Files) (tok : Tok) : Data → Except Err Data
  | .dict fields =>
    match fields.lookup "audio", fields.lookup "audio_size", fields.lookup "text" with
    | some (.str path), some size, some (.str text) =>
      match W.audio path with
      | .error e => .error e
      | .ok a => .ok (.dict [
          ("audio", .dict [("path", .str path),
            ("data", .dict [("sample_rate", .num a.rate), ("format", .int a.format), ("waveform", .tensor a.wave)])]),
          ("audio_size", size), ("text", .tensor (tok.encode text))])
    | _, _, _ => .error fieldErr
  | _ => .error fieldErr

/-- The same for the elements of a list. -/
def loadAll (W : Files) (tok : Tok) : List Data → Except Err (List Data)
  | [] => .ok []
  | x :: xs =>
    match loadExample W tok x with
    | .error e => .error e
    | .ok y =>
      match loadAll W tok xs with
      | .error e => .error e
      | .ok ys => .ok (y :: ys)

/-- The same for a batch. -/
def loadBatch (W : Files) (tok : Tok) : Data → Except Err Data
  | .list xs =>
    match loadAll W tok xs with
    | .error e => .error e
    | .ok ys => .ok (.list ys)
  | _ => .error fieldErr

/-- `collate_with_pad_ix(pad_idx=pad_idx, no_padding=False, selector="text")` (dataset.py:351-353, preprocessing.py:89-103). -/
def collater (padIdx : Int) : Collater := ⟨⟨some 0, 1⟩, [([[.key "text".toList]], ⟨some padIdx, 1⟩)]⟩

/-- The exceptions of `create_reader`. -/
inductive ReaderErr where
  /-- `ZeroDivisionError` -/
  | noLength
  /-- raised by `create_bucket_sizes` -/
  | sizes (e : Sizes.Refused)
  /-- `ValueError`: the tokenizer has no padding index -/
  | noPad

/-- `max_num_elements` as it is used (batch_utils.py:24-25). -/
def roundedNum (num maxLen : Nat) : Nat := if num % maxLen ≠ 0 then num / maxLen * maxLen else num

/-- Reading, filtering, shuffling and sharding (dataset.py:261-295). -/
def examplePipe (W : Files) (rank size minLen maxLen : Nat) (o : Options) : Pipe :=
  let p : Pipe := .zip 2 (fun _ => 0) (fun i => if i = 0 then tsvPipe W else wrdPipe W) ["tsv", "wrd"] false false
  let p : Pipe := .map flattenExample p
  let p : Pipe := .filter (rightLength minLen maxLen) p
  let p : Pipe := if o.exampleShuffleWindow ≠ 1 then .shuffle o.exampleShuffleWindow o.seed p else p
  if size > 1 then .shard rank size true p else p

/-- The seed for batches (dataset.py:287-295, 309-311). -/
def batchSeed (rank size : Nat) (o : Options) : Nat :=
  (if o.exampleShuffleWindow ≠ 1 then o.seed + 1 else o.seed) + if size > 1 then rank else 0

/-- `create_reader` (dataset.py:224-357) up to `to_seq2seq_batch`. -/
def createReader (W : Files) (tok : Tok) (rank size minLen maxLen : Nat) (o : Options) : Except ReaderErr Pipe :=
  let p := examplePipe W rank size minLen maxLen o
  if maxLen = 0 then .error .noLength
  else
    match Sizes.create (roundedNum o.maxNumElements maxLen) maxLen minLen o.numSeqsMultipleOf with
    | .error e => .error (.sizes e)
    | .ok sizes =>
      let p : Pipe := .bucketByLength ⟨sizes, audioSize, minLen, true, true, o.dropRemainder⟩ p
      let p : Pipe := if o.batchShuffleWindow ≠ 1 then .shuffle o.batchShuffleWindow (batchSeed rank size o) p else p
      let p : Pipe := .map (loadBatch W tok) p
      match tok.padIdx with
      | none => .error .noPad
      | some pad =>
        let p : Pipe := .map (collater pad).call p
        .ok (match o.maxNumBatches with
          | none => p
          | some n => .take n p)

/-- The tensor and lengths at a place of the collated batch. -/
def seqsAt (l : Path) (d : Data) : Option (Seqs Int × List Nat) :=
  (nodeAt (l ++ [.key "seqs".toList]) d).bind fun s =>
    (nodeAt (l ++ [.key "seq_lens".toList]) d).bind fun n =>
      (Sft.matrix s).bind fun rows => (Sft.lengths n).map fun lens => (Sft.seqsOf rows, lens)

/-- `to_seq2seq_batch` (dataset.py:210-222). -/
def toBatch (d : Data) : Option (S2SBatch Int) :=
  (seqsAt [.key "audio".toList, .key "data".toList, .key "waveform".toList] d).bind fun source =>
    (seqsAt [.key "text".toList] d).bind fun target =>
      S2SBatch.create source.1 (some source.2) target.1 (some target.2) none

end Fs2.AsrData
