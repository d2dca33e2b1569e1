import Verif.Datasets.SftReader
import Verif.Generation.SamplingGenerator

/-!
# The text generation recipe

Models `LMGenerateDataset.create_reader` (`recipes/lm/generate/dataset.py:37-106`) as a pipeline of the builder's operators, and what
`LMGenerateUnit.process_batch` (`recipes/lm/generate/recipe.py:118-235`) writes when `Generator` (`src/fairseq2/generator.py:131-198`)
calls it with one batch after the other. Left out: `prefetch` and the parallel calls, which have their own models (C17, C18);
`DataPipelineReader`, which reads the pipeline (C27 to C29); and metrics. A record stands for its line of the JSON file and its block
of the text file; how they are written out is left out.

The values of the pipelines here have no `None`. `None`, for a missing id, is the value `nothing`, which is of another type than numbers,
texts and tensors. An id that is the JSON value `false` is therefore not told from a missing one.
-/

namespace Fs2.LmGen
open Fs2.Native Fs2.Batch Fs2.Sft

/-- The tokenizer: `vocab_info`, the encoder for prompts and the decoder. -/
structure Tok where
  padIdx : Option Int
  eosIdx : Option Int
  prompt : String → List Int
  decode : List Int → String

/-- `None`. -/
def nothing : Data := .bool false

/-- `id_ is not None` decides whether there is an id. -/
def idOf : Data → Option Data
  | .bool false => none
  | x => some x

/-- The files one after the other (dataset.py:40-50). -/
def readPipe (W : Files) (files : List Data) : Pipe :=
  match files with
  | [f] => filePipe W f
  | fs => .concat fs.length (fun _ => 0) fun i => filePipe W (fs.get i)

/-- An example without `src`: the `KeyError` or `TypeError` of `encode`. -/
def srcErr : Err := ⟨true, "The example has no source."⟩

/-- `encode` (dataset.py:58-65). -/
def encode (tok : Tok) : Data → Except Err Data
  | .dict fields =>
    match fields.lookup "src" with
    | some (.str s) => .ok (.dict [("id", (fields.lookup "id").getD nothing), ("prompt", .str s), ("indices", .tensor (tok.prompt s))])
    | _ => .error srcErr
  | _ => .error srcErr

/-- `Collater(pad_value=pad_value)` (dataset.py:73-77). -/
def collater (tok : Tok) : Collater :=
  ⟨⟨match tok.padIdx with
    | some p => some p
    | none => tok.eosIdx, 1⟩, []⟩

/-- `create_reader` (dataset.py:37-92) up to `to_batch`. -/
def createReader (W : Files) (tok : Tok) (files : List Data) (rank size batchSize : Nat) : Pipe :=
  let p : Pipe := readPipe W files
  let p : Pipe := .shard rank size true p
  let p : Pipe := .map (encode tok) p
  let p : Pipe := .bucket batchSize false p
  .map (collater tok).call p

/-- `to_batch` (dataset.py:85-90). -/
def toBatch (d : Data) : Option (SeqBatch Int) :=
  (nodeAt [.key "indices".toList, .key "seqs".toList] d).bind fun s =>
    (nodeAt [.key "indices".toList, .key "seq_lens".toList] d).bind fun n =>
      (matrix s).bind fun seqs => (lengths n).bind fun lens => SeqBatch.create (seqsOf seqs) (some lens) none

/-- `as_input` (`src/fairseq2/datasets/batch.py:214-217`) of a batch that is not packed. -/
def asInput (b : SeqBatch Int) : Option Gen.Prompts :=
  match b.seqs with
  | .packed _ => none
  | .padded width rows => some ⟨width, rows, b.lens⟩

/-- `Hypothesis` (`src/fairseq2/generation/generator.py`). -/
structure Hypothesis (S : Type) where
  seq : List Int
  score : Option S
  stepScores : Option (List S)

/-- A `SequenceGenerator`: it may have a state, for instance that of a random number generator. `none` if it raises an exception. -/
abbrev SeqGen (σ S : Type) : Type := σ → Gen.Prompts → Option (List (List (Hypothesis S)) × σ)

/-- What is written for a prompt (recipe.py:216-223). -/
structure Record (S : Type) where
  id : Option Data
  prompt : String
  response : String
  tokenIndices : List Int
  score : Option S
  stepScores : Option (List S)

inductive Exc where
  /-- `DataReadError` for a batch without prompts or ids -/
  | badExample
  /-- `ValueError` of the constructor of `SequenceBatch` -/
  | badBatch
  /-- an exception of the generator -/
  | generator
  /-- `InternalError`: no hypothesis -/
  | noHypothesis
  /-- `TypeError` for a prompt that is not a text -/
  | notText

variable {σ S : Type}

/-- The loop over the hypotheses (recipe.py:154-227): what has been written, and an exception if there is one. -/
def writeAll (tok : Tok) : List Data → List Data → List (List (Hypothesis S)) → List (Record S) × Option Exc
  | id :: ids, prompt :: prompts, hypotheses :: rest =>
    match hypotheses with
    | [] => ([], some .noHypothesis)
    | hyp :: _ =>
      match prompt with
      | .str prompt =>
        let record : Record S := {
          id := idOf id
          prompt := prompt
          response := tok.decode hyp.seq
          tokenIndices := hyp.seq
          score := hyp.score
          stepScores := hyp.stepScores }
        let (records, e) := writeAll tok ids prompts rest
        (record :: records, e)
      | _ => ([], some .notText)
  | _, _, _ => ([], none)

/-- `process_batch` (recipe.py:118-235) on what the pipeline gives. `writes` says whether the rank has files, that is, whether it is the
first of its tensor parallel gang (recipe.py:60-74). What is written, and an exception or the state of the generator afterwards. -/
def processBatch (tok : Tok) (g : SeqGen σ S) (writes : Bool) (d : Data) (s : σ) : List (Record S) × Except Exc σ :=
  match toBatch d with
  | none => ([], .error .badBatch)
  | some b =>
    match nodeAt [.key "prompt".toList] d, nodeAt [.key "id".toList] d with
    | some (.list prompts), some (.list ids) =>
      match asInput b with
      | none => ([], .error .badBatch)
      | some input =>
        match g s input with
        | none => ([], .error .generator)
        | some (hypotheses, s) =>
          if writes then
            match writeAll tok ids prompts hypotheses with
            | (records, some e) => (records, .error e)
            | (records, none) => (records, .ok s)
          else ([], .ok s)
    | _, _ => ([], .error .badExample)

/-- `_do_run` and `_run_step` (generator.py:131-194) with the batches that the reader gives. -/
def runTask (tok : Tok) (g : SeqGen σ S) (writes : Bool) : List Data → σ → List (Record S) × Except Exc σ
  | [], s => ([], .ok s)
  | d :: ds, s =>
    match processBatch tok g writes d s with
    | (records, .error e) => (records, .error e)
    | (records, .ok s) =>
      let (more, r) := runTask tok g writes ds s
      (records ++ more, r)

end Fs2.LmGen
