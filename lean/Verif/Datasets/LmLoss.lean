import Verif.Datasets.LmTrain
import Verif.Datasets.Sft

/-!
# The loss of language model training

Models the loss that `LMTrainUnit.process_batch` (`recipes/lm/train/recipe.py:95-110`) computes from a packed batch, in evaluation mode
(without dropout) and on real numbers.
-/

namespace Fs2.Lm
open Fs2.Nn Fs2.Batch
open Fs2.Dec (Model)
open Fs2.Sft (flat indexOf vocabRow)

/-- `model(seqs, seqs_layout, targets=target_batch.seqs, reduction="mean")` for a packed batch: `as_input` (datasets/batch.py:218-221),
`TransformerLM.forward` and `cross_entropy` without mask. The inner `none` is `nan`. The reader makes no padded batches. -/
noncomputable def trainLoss (vocab : Nat) (pad : Option Int) (m : Model) (d : Data) : Option (Option ℝ) :=
  (modelInput d).bind fun x =>
    match x.1.seqs with
    | .padded _ _ => none
    | .packed row =>
      (Layout.of [(row.length : Int)] (some (x.1.lens.map fun (n : Nat) => (n : Int))) true).bind fun l =>
        (row.mapM (indexOf vocab)).bind fun tokens =>
          (Enc.decodeAll m none [tokens] l).bind fun logits =>
            match Loss.crossEntropy vocab (logits.flatten.map (vocabRow vocab)) none (flat x.2.seqs) pad 0 none .mean with
            | .ok (.scalar r) => some r
            | _ => none

end Fs2.Lm
