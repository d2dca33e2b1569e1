import Verif.Datasets.Batch
import Verif.Native.Collater
import Verif.Nn.Encoder
import Verif.Nn.CrossEntropy

/-!
# Supervised fine-tuning: from examples to the loss

Models how the recipe `recipes/lm/sft` turns a bucket of tokenized examples into a batch (`dataset.py:238-257`, `296-330`) and
a batch into a loss (`recipe.py:152-174`), with `SequenceBatch.as_input` (`src/fairseq2/datasets/batch.py:214-217`) and
`TransformerLM.forward` with targets (`src/fairseq2/models/transformer_lm/model.py:119-206`) in between.

A boolean tensor is one of zeros and ones. A missing `id` is left out of the dictionary, where the code has `None`; nothing reads
it. The model is in evaluation mode on exact reals, see `Nn/Decoder.lean`. An exception is `none`.
-/

namespace Fs2.Sft
open Fs2.Batch Fs2.Native Fs2.Dec Fs2.Nn

/-- What the data is once the encoders of the tokenizer have been applied to `src` and `tgt` (dataset.py:238-243). -/
structure Example where
  id : Option Data
  src : List Int
  tgt : List Int

/-- `torch.arange(len(indices)) >= len(source_indices)` (dataset.py:253). -/
def targetMask (numSource numAll : Nat) : List Int :=
  (List.range numAll).map fun i => if i ≥ numSource then 1 else 0

/-- `cat_source_and_target` (dataset.py:245-255). -/
def catSourceAndTarget (e : Example) : Data :=
  let indices := e.src ++ e.tgt
  .dict ((match e.id with
    | none => []
    | some x => [("id", x)]) ++
    [("indices", .tensor indices), ("target_mask", .tensor (targetMask e.src.length indices.length))])

/-- The collater (dataset.py:296-308); `padIdx` is the one of the tokenizer. -/
def collater (padIdx : Int) : Collater :=
  ⟨⟨some padIdx, 1⟩, [([[.key "target_mask".toList]], ⟨some 0, 1⟩)]⟩

/-- A tensor with two dimensions. -/
def matrix : Data → Option (List (List Int))
  | .list rows => rows.mapM fun row => match row with
    | .tensor t => some t
    | _ => none
  | _ => none

/-- `seq_lens`. -/
def lengths : Data → Option (List Nat)
  | .list xs => xs.mapM fun x => match x with
    | .int n => if 0 ≤ n then some n.toNat else none
    | _ => none
  | _ => none

/-- A tensor with the shape of its first row. -/
def seqsOf {α : Type} (rows : List (List α)) : Seqs α := .padded ((rows.head?.map List.length).getD 0) rows

/-- `to_batch` (dataset.py:320-328). -/
def toBatch (d : Data) : Option (SeqBatch Int) :=
  (nodeAt [.key "indices".toList, .key "seqs".toList] d).bind fun s =>
    (nodeAt [.key "indices".toList, .key "seq_lens".toList] d).bind fun n =>
      (nodeAt [.key "target_mask".toList, .key "seqs".toList] d).bind fun k =>
        (matrix s).bind fun seqs => (lengths n).bind fun lens => (matrix k).bind fun mask =>
          SeqBatch.create (seqsOf seqs) (some lens) (some (seqsOf (mask.map (List.map (· ≠ 0)))))

/-- The batch made of a bucket of examples (dataset.py:257, 310, 330). `none` if the collater raises an exception. -/
def batchOf (padIdx : Int) (bucket : List Example) : Option (SeqBatch Int) :=
  match (collater padIdx).call (.list (bucket.map catSourceAndTarget)) with
  | .error _ => none
  | .ok d => toBatch d

/-! ## The loss -/

/-- The indices of embeddings; one outside of the table raises an exception. -/
def indexOf (vocab : Nat) (t : Int) : Option Nat := if 0 ≤ t ∧ t < vocab then some t.toNat else none

/-- A row of logits has an entry for each token of the vocabulary. -/
def vocabRow (vocab : Nat) (x : Vec) : List ℝ := (List.range vocab).map x

/-- A tensor as one list of elements. -/
def flat {α : Type} : Seqs α → List α
  | .packed xs => xs
  | .padded _ rows => rows.flatten

/-- `TransformerLM.forward` with targets, without label smoothing and with reduction `sum` (transformer_lm/model.py:119-206). `pad` is
the `pad_idx` of the model. -/
noncomputable def lmLoss (vocab : Nat) (pad : Option Int) (m : Model) (seqs : List (List Int)) (l : Layout) (targets : Seqs Int)
    (mask : Option (Seqs Bool)) : Option ℝ :=
  (seqs.mapM fun (row : List Int) => row.mapM (indexOf vocab)).bind fun tokens =>
    (Enc.decodeAll m none tokens l).bind fun logits =>
      match Loss.crossEntropy vocab (logits.flatten.map (vocabRow vocab)) (some logits.length) (flat targets) pad 0 (mask.map flat) .sum with
      | .ok (.scalar (some x)) => some x
      | _ => none

/-- `LMSFTUnit.process_batch`, and that of `LMLossEvalUnit` (recipe.py:152-174, 188-208): the loss, and the number of targets that the
trainer divides the sum of all losses by. A packed batch does not arise. -/
noncomputable def processBatch (vocab : Nat) (pad : Option Int) (m : Model) (b : SeqBatch Int) : Option (ℝ × Nat) :=
  b.asAutoRegressive.bind fun x =>
    match x.1.seqs with
    | .packed _ => none
    | .padded width rows =>
      (Layout.of [(rows.length : Int), (width : Int)] (some (x.1.lens.map fun (n : Nat) => (n : Int))) false).bind fun l =>
        (lmLoss vocab pad m rows l x.2.seqs x.2.mask).map fun loss => (loss, x.2.numTargets)

end Fs2.Sft
