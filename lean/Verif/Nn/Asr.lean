import Verif.Nn.Encoder
import Verif.Nn.CrossEntropy
import Verif.Native.Collater
import Verif.Metrics.Aggregate

/-!
# Loss and error rates of speech recognition

Models `Wav2Vec2AsrModel.forward` with targets (`src/fairseq2/models/wav2vec2/asr/model.py:138-168`) in evaluation mode, `pad_seqs`
(`src/fairseq2/nn/utils/padding.py`), `WerCalculator` (`recipes/wav2vec2/asr/wer_calculator.py`), `Wav2Vec2AsrCriterion`
(`recipes/wav2vec2/asr/criterion.py`) and `update_ctc_loss` (`recipes/wav2vec2/asr/metrics.py`).

Tokens are integers, logits are exact reals. Decoders of text, `str.split`, `editdistance.eval` and `argmax` are parameters. Devices and
the opening of files are left out; a file is the list of the lines written to it. An exception is `none`.
-/

namespace Fs2.Asr
open Fs2.Nn Fs2.Dec Fs2.Enc Fs2.Native
open Fs2.Tally (Pair WerState wer)

/-! ## Greedy decoding -/

/-- `Tensor.unique_consecutive`. -/
def uniqueConsecutive {α : Type} [DecidableEq α] : List α → List α
  | [] => []
  | [x] => [x]
  | x :: y :: l => if x = y then uniqueConsecutive (y :: l) else x :: uniqueConsecutive (y :: l)

/-- `hyp_seq[hyp_seq != self._blank_label]` after `unique_consecutive` (wer_calculator.py:147-150). -/
def collapse {α : Type} [DecidableEq α] (blank : α) (path : List α) : List α :=
  (uniqueConsecutive path).filter (· ≠ blank)

/-- `pad_seqs` (padding.py:17-51) with `pad_to_multiple=1`. -/
def padSeqs (pad : Int) (seqs : List (List Int)) : Option (List (List Int) × Layout) :=
  match Collater.call ⟨⟨some pad, 1⟩, []⟩ (.list (seqs.map .tensor)) with
  | .ok (.dict [_, ("seqs", .list rows), ("seq_lens", .list lens)]) =>
    let rows := rows.map tensorOf
    (Layout.of [(rows.length : Int), ((rows.head?.map List.length).getD 0 : Nat)]
      (some (lens.map fun n => match n with | .int n => n | _ => 0)) false).map fun l => (rows, l)
  | _ => none

/-- `WerCalculator`, with the functions that it uses; `record` says whether it has output streams. -/
structure Calculator where
  argmax : Vec → Nat
  decode : List Int → String
  split : String → List String
  pad : Int
  blank : Int
  wordDist : List String → List String → Nat
  unitDist : List Int → List Int → Nat
  record : Bool

/-- `_generate_hypotheses` (wer_calculator.py:140-157). -/
def Calculator.hypotheses (c : Calculator) (logits : List (List Vec)) (l : Layout) : Option (List (List Int) × Layout) :=
  padSeqs c.pad ((logits.zip l.seqLens).map fun x =>
    collapse c.blank ((x.1.take x.2.toNat).map fun v => (c.argmax v : Int)))

/-- The metric and the two files. -/
structure Progress where
  wer : WerState
  refs : List String
  hyps : List String

/-- The pairs that `WerMetric.update` goes through (wer.py:84-92). -/
def Calculator.pairs (c : Calculator) (refs : List String) (refSeqs : List (List Int)) (refLens : List Int) (hyps : List String)
    (hypSeqs : List (List Int)) (hypLens : List Int) : List (Pair String Int) :=
  ((refs.zip (refSeqs.zip refLens)).zip (hyps.zip (hypSeqs.zip hypLens))).map fun x =>
    ⟨c.split x.1.1, c.split x.2.1, x.1.2.1.take x.1.2.2.toNat, x.2.2.1.take x.2.2.2.toNat⟩

/-- `compute_wer` (wer_calculator.py:103-138). -/
def Calculator.compute (c : Calculator) (s : Progress) (refSeqs : List (List Int)) (refLayout : Layout) (logits : List (List Vec))
    (l : Layout) : Option Progress :=
  (c.hypotheses logits l).bind fun h =>
    let refs := refSeqs.map c.decode
    let hyps := h.1.map c.decode
    if refLayout.packed ∨ h.2.packed then none
    else some ⟨(wer c.wordDist c.unitDist).update s.wer (c.pairs refs refSeqs refLayout.seqLens hyps h.1 h.2.seqLens),
      if c.record then s.refs ++ refs else s.refs, if c.record then s.hyps ++ hyps else s.hyps⟩

/-- `process_metric_values` (wer_calculator.py:159-166): the values that it puts in the place of the pair. -/
def processValues (value : Option (Rat × Rat)) : List (String × Rat) :=
  match value with
  | none => []
  | some (uer, wer) => if uer ≥ 1 ∧ wer ≥ 1 then [("uer", uer), ("wer", wer)] else []

/-! ## The loss -/

/-- All sequences of `n` labels. -/
def paths (vocab : Nat) : Nat → List (List Int)
  | 0 => [[]]
  | n + 1 => (List.range vocab).flatMap fun (a : Nat) => (paths vocab n).map ((a : Int) :: ·)

/-- The logarithm of the probability of a path. -/
def pathScore (logProbs : List (List ℝ)) (path : List Int) : ℝ :=
  (List.zipWith (fun row (a : Int) => (row[a.toNat]?).getD 0) logProbs path).sum

/-- `ctc_loss` of torch for one sequence, with `zero_infinity=True`: the negative logarithm of the probability of all paths that
collapse to the target, and 0 if there is none. This is its contract, not its algorithm. -/
noncomputable def ctcOne (vocab : Nat) (blank : Int) (logProbs : List (List ℝ)) (target : List Int) : ℝ :=
  let ps := (paths vocab logProbs.length).filter fun p => collapse blank p = target
  if ps = [] then 0 else - Real.log ((ps.map fun p => Real.exp (pathScore logProbs p)).sum)

/-- `ctc_loss` with `reduction="sum"`. -/
noncomputable def ctcLoss (vocab : Nat) (logProbs : List (List (List ℝ))) (inputLens : List Int) (targets : List (List Int))
    (targetLens : List Int) : ℝ :=
  (((logProbs.zip inputLens).zip (targets.zip targetLens)).map fun x =>
    ctcOne vocab 0 (x.1.1.take x.1.2.toNat) (x.2.1.take x.2.2.toNat)).sum

/-- `Wav2Vec2AsrModel.forward` with targets (asr/model.py:116-168): the loss, the logits and their layout. -/
noncomputable def asrLoss (m : AsrModel) (vocab : Nat) (seqs : List (List Vec)) (l : Layout) (targets : List (List Int)) (tl : Layout) :
    Option (ℝ × List (List Vec) × Layout) :=
  (m.forward seqs l).bind fun x =>
    if tl.packed then none
    else
      let logProbs := x.1.map fun row => row.map fun v => Loss.logSoftmax ((List.range vocab).map v)
      some (ctcLoss vocab logProbs x.2.seqLens targets tl.seqLens, x.1, x.2)

/-- The `Mean` named `ctc_loss`: the weighted sum and the sum of the weights. -/
structure MeanSt where
  sum : ℝ
  weights : ℝ

/-- `update_ctc_loss` (metrics.py:28-34). -/
noncomputable def MeanSt.update (s : MeanSt) (loss : ℝ) (n : Nat) : MeanSt :=
  ⟨s.sum + n * (loss / n / Real.log 2), s.weights + n⟩

/-- `Wav2Vec2AsrCriterion.__call__` (criterion.py:45-68): the loss, the batch size and the new state of the metrics. -/
noncomputable def criterion (m : AsrModel) (vocab : Nat) (c : Option Calculator) (s : Progress) (mean : MeanSt) (seqs : List (List Vec))
    (l : Layout) (targets : List (List Int)) (tl : Layout) : Option ((ℝ × Nat) × Progress × MeanSt) :=
  (asrLoss m vocab seqs l targets tl).bind fun x =>
    (match c with
      | none => some s
      | some c => c.compute s targets tl x.2.1 x.2.2).map fun s =>
      ((x.1, seqs.length), s, mean.update x.1 seqs.length)

end Fs2.Asr
