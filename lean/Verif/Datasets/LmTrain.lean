import Verif.Datasets.SftReader

/-!
# The data reader of language model training

Models `LMTrainDataset._create_path_reader` and `create_reader` (`recipes/lm/train/dataset.py:38-120`) as a pipeline of the builder's
operators, and what `LMTrainUnit.process_batch` (`recipes/lm/train/recipe.py`) hands to the model. Left out: the search for files;
`prefetch`, which has its own model (C17); and `DataPipelineReader`, which reads the pipeline (C27 to C29).
-/

namespace Fs2.Lm
open Fs2.Native Fs2.Batch Fs2.Sft

/-- `read_sequence(files)` and `shard` (dataset.py:59-62). -/
def filesPipe (files : List Data) (rank size : Nat) : Pipe :=
  if size > 1 then .shard rank size true (.list files) else .list files

/-- `ValueError` of `_create_path_reader` (dataset.py:54-57). -/
inductive ReaderErr where
  | fewFiles
  deriving DecidableEq

/-- `_create_path_reader` once the files are known (dataset.py:50-67). -/
def pathPipe (W : Files) (files : List Data) (rank size : Nat) : Except ReaderErr Pipe :=
  if files.length < size then .error .fewFiles
  else .ok (.yieldFrom (fun _ => none) (fun _ => 0) (filePipe W) (filesPipe files rank size))

/-- An example without a text: the `KeyError` or `TypeError` of `encode`. -/
def textErr : Err := ⟨true, "The example has no text."⟩

/-- `encode` (dataset.py:96-97); `enc` is the text encoder of the tokenizer. -/
def encode (enc : String → List Int) : Data → Except Err Data
  | .dict fields =>
    match fields.lookup "text" with
    | some (.str t) => .ok (.tensor (enc t))
    | _ => .error textErr
  | _ => .error textErr

/-- The arguments of `pack` (dataset.py:102), with its defaults (`data_pipeline.py`: `pad_value=0`, `drop_remainder=True`). -/
def packCfg (maxSeqLen maxNumTokens : Nat) : PackCfg where
  cap := maxNumTokens + 1
  maxLen := maxSeqLen
  pad := 0
  truncate := true
  drop := true

/-- `DataPipeline.sample(pipelines, weights, seed)` (dataset.py:81-91). -/
def samplePipe (paths : List Pipe) (weights : List Rat) (seed : Nat) : Pipe :=
  .sample paths.length (fun _ => 0) paths.get weights seed true

/-- Tokenizing and packing (dataset.py:93-102). -/
def packed (enc : String → List Int) (maxSeqLen maxNumTokens : Nat) (p : Pipe) : Pipe :=
  .pack (packCfg maxSeqLen maxNumTokens) (.map (encode enc) p)

/-- `create_reader` (dataset.py:69-120) up to `to_batch`. -/
def createReader (W : Files) (enc : String → List Int) (sources : List Origin) (rank size maxSeqLen maxNumTokens seed : Nat) :
    Except ReaderErr Pipe :=
  match sources.mapM fun s => pathPipe W s.files rank size with
  | .error e => .error e
  | .ok paths => .ok (packed enc maxSeqLen maxNumTokens (samplePipe paths (sources.map (·.weight)) seed))

/-- `to_batch` (dataset.py:110-113). -/
def toBatch (d : Data) : Option (SeqBatch Int) :=
  (nodeAt [.key "seqs".toList] d).bind fun s =>
    (nodeAt [.key "seq_lens".toList] d).bind fun n =>
      match s with
      | .tensor seqs => (lengths n).bind fun lens => SeqBatch.create (.packed seqs) (some lens) none
      | _ => none

/-- The input and the targets that `process_batch` hands to the model (recipe.py: `input_batch, target_batch =
batch.as_auto_regressive()`). -/
def modelInput (d : Data) : Option (SeqBatch Int × SeqBatch Int) := (toBatch d).bind SeqBatch.asAutoRegressive

end Fs2.Lm
