import Verif.Datasets.Sft
import Verif.Pipeline.Compose
import Verif.Pipeline.BucketSizes

/-!
# The data reader of supervised fine-tuning

Models `LMSFTDataset._create_path_reader` and `create_reader` (`recipes/lm/sft/dataset.py:131-340`) as a pipeline of the builder's
operators. Left out: the download, the search for files and `chat_mode`; `prefetch`, which has its own model (C17); the calls of the
collater in parallel (C18); and `DataPipelineReader`, which reads the pipeline (C27 to C29). The three calls of `map` up to
`cat_source_and_target` are one here. `to_batch` is `Sft.toBatch`, applied to what the pipeline gives.
-/

namespace Fs2.Sft
open Fs2.Native

/-- The lines of the files, and `json.loads`. -/
structure Files where
  lines : Data → List Data
  loads : Data → Except Err Data

/-- `LMSFTDataSource` (dataset.py:342-346) with the sorted files below its path. -/
structure Origin where
  files : List Data
  weight : Rat

/-- The tokenizer: `vocab_info.pad_idx` and the encoders for source and target text (dataset.py:239-240). -/
structure Tok where
  padIdx : Option Int
  source : String → List Int
  target : String → List Int

/-- `LengthBatching` and `StaticBatching`. -/
inductive Batching where
  | length (maxNumElements : Nat)
  | static (batchSize : Nat)

/-- `DataReadOptions`, as far as used by the pipeline. -/
structure Options where
  batching : Batching
  exampleShuffleWindow : Nat
  batchShuffleWindow : Nat
  dropRemainder : Bool
  maxNumBatches : Option Nat
  seed : Nat

/-- `read_file` (dataset.py:157-158). -/
def filePipe (W : Files) (file : Data) : Pipe := .map W.loads (.list (W.lines file))

/-- `_create_path_reader` (dataset.py:131-167). -/
def pathPipe (W : Files) (files : List Data) (rank size window seed : Nat) : Pipe :=
  let p : Pipe := .yieldFrom (fun _ => none) (fun _ => 0) (filePipe W) (.list files)
  let p := if window ≠ 1 then .shuffle window seed p else p
  .shard rank size true p

/-- An example that lacks a text. -/
def textErr : Err := ⟨true, "The input data does not have an element at the specified path."⟩

/-- The calls of the encoders and `cat_source_and_target` (dataset.py:239-257). -/
def encodeExample (tok : Tok) : Data → Except Err Data
  | .dict fields =>
    match fields.lookup "src", fields.lookup "tgt" with
    | some (.str s), some (.str t) => .ok (catSourceAndTarget ⟨fields.lookup "id", tok.source s, tok.target t⟩)
    | _, _ => .error textErr
  | _ => .error textErr

/-- `len(example["indices"])`. -/
def seqLen (d : Data) : Except Err Nat :=
  match nodeAt [.key "indices".toList] d with
  | some (.tensor t) => .ok t.length
  | _ => .error textErr

/-- `skip` (dataset.py:278-281). -/
def within (minLen maxLen : Nat) (d : Data) : Except Err Bool :=
  match seqLen d with
  | .error e => .error e
  | .ok n => .ok (decide (n ≥ minLen ∧ n ≤ maxLen))

/-- The exceptions of `create_reader`. -/
inductive ReaderErr where
  /-- raised by `create_bucket_sizes` -/
  | sizes (e : Sizes.Refused)
  /-- `RuntimeError`: the tokenizer has no padding index -/
  | noPad

/-- Batching (dataset.py:259-288). -/
def batchPipe (minLen maxLen : Nat) (o : Options) (p : Pipe) : Except ReaderErr Pipe :=
  match o.batching with
  | .length num =>
    match Sizes.create num maxLen minLen 1 with
    | .error e => .error (.sizes e)
    | .ok sizes => .ok (.bucketByLength ⟨sizes, seqLen, minLen, false, true, o.dropRemainder⟩ p)
  | .static n => .ok (.bucket n o.dropRemainder (.filter (within minLen maxLen) p))

/-- `create_reader` (dataset.py:169-339). -/
def createReader (W : Files) (tok : Tok) (sources : List Origin) (rank size minLen maxLen : Nat) (o : Options) : Except ReaderErr Pipe :=
  let seed := o.seed + sources.length + rank
  let p : Pipe := .sample sources.length (fun _ => 0)
    (fun i => pathPipe W (sources.get i).files rank size o.exampleShuffleWindow (o.seed + i)) (sources.map (·.weight)) seed true
  let p : Pipe := .map (encodeExample tok) p
  match batchPipe minLen maxLen o p with
  | .error e => .error e
  | .ok p =>
    let p : Pipe := if o.batchShuffleWindow ≠ 1 then .shuffle o.batchShuffleWindow seed p else p
    match tok.padIdx with
    | none => .error .noPad
    | some pad =>
      let p : Pipe := .map (collater pad).call p
      .ok (match o.maxNumBatches with
        | none => p
        | some n => .take n p)

end Fs2.Sft
