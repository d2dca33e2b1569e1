/-!
# Metrics and their values over all ranks

Models the metrics of src/fairseq2/metrics/aggregation.py and src/fairseq2/metrics/text, how
`sync_and_compute_metrics` (src/fairseq2/metrics/bag.py:126-146) computes their values over the data parallel ranks,
`update_nll_loss_metric` and `extend_batch_metric_values` (src/fairseq2/metrics/common.py), and what a `Trainer`
(src/fairseq2/trainer.py) does to the metrics of its bag.

Numbers are rationals and computations are exact. The base classes and the synchronization are those of `torcheval`,
which is not part of the repository: `Mean`, `Sum`, `Max` and `Throughput` are modelled after its documentation. Edit
distances and the statistics of BLEU and chrF++ are those of other packages and are any functions here.
-/

namespace Fs2.Tally

/-- A metric of `torcheval`: what it holds, at first and after `update`, `merge_state` with those of other ranks, and
`compute`. -/
structure Metric (U S V : Type) where
  init : S
  update : S → U → S
  merge : S → List S → S
  compute : S → V

variable {U S V : Type}

/-- What a metric holds after updates. -/
def Metric.after (m : Metric U S V) (us : List U) : S := us.foldl m.update m.init

/-- The value of `sync_and_compute_metrics` (bag.py:126-146) on rank 0, where `s` is what rank 0 holds and `rest` what
the others hold; the others get no values. -/
def Metric.synced (m : Metric U S V) (s : S) (rest : List S) : V :=
  if rest.isEmpty then m.compute s else m.compute (m.merge s rest)

/-! ## The metrics -/

/-- `Sum` (aggregation.py:61-77): updated with a number and a weight. -/
def sum : Metric (Rat × Rat) Rat Rat where
  init := 0
  update s u := s + u.1 * u.2
  merge s l := l.foldl (· + ·) s
  compute s := s

/-- `Mean` (aggregation.py:43-58): the weighted sum and the sum of the weights. Without an update it is 0; so
it is with a weighted sum of 0. -/
def mean : Metric (Rat × Rat) (Rat × Rat) Rat where
  init := (0, 0)
  update s u := (s.1 + u.1 * u.2, s.2 + u.2)
  merge s l := l.foldl (fun s t => (s.1 + t.1, s.2 + t.2)) s
  compute s := if s.1 = 0 then 0 else s.1 / s.2

/-- The maximum where `none` is minus infinity. -/
def maxOf : Option Rat → Option Rat → Option Rat
  | none, y => y
  | some x, none => some x
  | some x, some y => some (max x y)

/-- `Max` (aggregation.py:31-40). -/
def maximum : Metric Rat (Option Rat) (Option Rat) where
  init := none
  update s u := maxOf s (some u)
  merge s l := l.foldl maxOf s
  compute s := s

/-- `Throughput` of `torcheval`: updated with a number of items and the time they took. -/
def throughput : Metric (Nat × Rat) (Nat × Rat) Rat where
  init := (0, 0)
  update s u := (s.1 + u.1, s.2 + u.2)
  merge s l := l.foldl (fun s t => (s.1 + t.1, max s.2 t.2)) s
  compute s := if s.2 = 0 then 0 else s.1 / s.2

/-- One reference with its hypothesis, as words and as units without padding (wer.py:84-96). -/
structure Pair (W A : Type) where
  refWords : List W
  hypWords : List W
  refUnits : List A
  hypUnits : List A

/-- What a `WerMetric` holds (wer.py:33-49). -/
structure WerState where
  unitErr : Nat
  unitLen : Nat
  wordErr : Nat
  wordLen : Nat

/-- `WerMetric` (wer.py:24-130); `dW` and `dA` stand for `editdistance.eval`. -/
def wer {W A : Type} (dW : List W → List W → Nat) (dA : List A → List A → Nat) :
    Metric (List (Pair W A)) WerState (Rat × Rat) where
  init := ⟨0, 0, 0, 0⟩
  update s ps := ps.foldl (fun s p =>
    ⟨s.unitErr + dA p.hypUnits p.refUnits, s.unitLen + p.refUnits.length,
      s.wordErr + dW p.hypWords p.refWords, s.wordLen + p.refWords.length⟩) s
  merge s l := l.foldl (fun s t =>
    ⟨s.unitErr + t.unitErr, s.unitLen + t.unitLen, s.wordErr + t.wordErr, s.wordLen + t.wordLen⟩) s
  compute s :=
    if s.unitLen ≠ 0 ∧ s.wordLen ≠ 0 then
      ((s.unitErr : Rat) * 100 / s.unitLen, (s.wordErr : Rat) * 100 / s.wordLen)
    else (-1, -1)

/-- Sums of vectors. -/
def addVec (x y : List Nat) : List Nat := List.zipWith (· + ·) x y

/-- `ChrfMetric` (chrf.py:23-74) and `BleuMetric` (bleu.py:27-104): vectors of `n` counts are added up, and the score
is a function of them. `stats` gives the counts of the sentences of a batch (for BLEU there is one vector for the batch). -/
def counts {B Z : Type} (n : Nat) (stats : B → List (List Nat)) (score : List Nat → Z) : Metric B (List Nat) Z where
  init := List.replicate n 0
  update s b := (stats b).foldl addVec s
  merge s l := l.foldl addVec s
  compute := score

/-- `update_nll_loss_metric` (common.py:27-35): what the `Mean` is updated with. -/
def nllUpdate (loss : Rat) (numTargets : Option Nat) : Rat × Rat :=
  let n : Nat := match numTargets with
    | none => 1
    | some 0 => 1
    | some n => n
  (loss / n, n)

/-! ## Values derived from others -/

/-- The values that `extend_batch_metric_values` (common.py:169-206) looks up. -/
structure Values where
  numExamples : Option Nat
  numElements : Option Nat
  padding : Option Nat

/-- What it adds; `none` if nothing is added under that name. -/
structure Derived where
  batchSize : Option Nat
  elementsPerBatch : Option Nat
  elementsPerSecond : Option Rat
  paddingRatio : Option Rat

/-- `extend_batch_metric_values` (common.py:169-206). -/
def derive (v : Values) (numBatches : Nat) (time : Rat) : Derived where
  batchSize := v.numExamples.map fun n => if numBatches > 0 then n / numBatches else 0
  elementsPerBatch := v.numElements.map fun n => if numBatches > 0 then n / numBatches else 0
  elementsPerSecond := v.numElements.map fun n => if time > 0 then (n : Rat) / time else 0
  paddingRatio := v.numElements.bind fun (n : Nat) =>
    if n > 0 then v.padding.map fun (p : Nat) => (p : Rat) / ((n + p : Nat) : Rat) else none

/-! ## The metrics of a trainer -/

/-- One metric of the bag of a trainer on all data parallel ranks, the number of steps `_num_batches_read`, and what the
last checkpoint with the state of the trainer holds of it. -/
structure Run (S : Type) where
  bag : Nat → S
  numBatches : Nat
  ckpt : Option (Nat → S)

/-- What happens to the metrics: a step, with the updates its batches bring on each rank, after which the gradients may
have overflowed; values are published; a checkpoint is saved; training is stopped at any time and started again. -/
inductive Ev (U : Type) where
  | step (updates : Nat → List U) (overflowed : Bool)
  | publish
  | save
  | restart

/-- When training starts, and nothing has been saved. -/
def Run.fresh (m : Metric U S V) : Run S := ⟨fun _ => m.init, 0, none⟩

/-- `_reset_non_total_metrics` (trainer.py:931-934) as far as the metric called `name` is concerned. -/
def resetNonTotal (m : Metric U S V) (name : String) (bag : Nat → S) : Nat → S :=
  if !name.startsWith "total_" then fun _ => m.init else bag

/-- A step (trainer.py:550-635). `fp16` says whether there is a loss scaler; `none` is the `InvalidOperationError` of
`rollback_updates`. -/
def runStep (m : Metric U S V) (fp16 : Bool) (updates : Nat → List U) (overflowed : Bool) (r : Run S) : Option (Run S) :=
  let original : Option (Nat → S) := if fp16 then some r.bag else none
  let bag : Nat → S := fun k => (updates k).foldl m.update (r.bag k)
  if overflowed then original.map fun o => { r with bag := o }
  else some { r with bag := bag, numBatches := r.numBatches + 1 }

/-- What is published: the value and the number of steps. -/
structure Report (V : Type) where
  value : V
  numBatches : Nat

/-- `_publish_metrics` (trainer.py:860-929) with `n + 1` ranks. -/
def publish (m : Metric U S V) (name : String) (n : Nat) (r : Run S) : Report V × Run S :=
  (⟨m.synced (r.bag 0) ((List.range n).map fun k => r.bag (k + 1)), r.numBatches⟩,
    { r with bag := resetNonTotal m name r.bag, numBatches := 0 })

/-- One event; a restart loads the state of the trainer of the last checkpoint (trainer.py:363-416, 1163-1230), if there is
one. Every rank has its own file. -/
def apply (m : Metric U S V) (name : String) (fp16 : Bool) (n : Nat) (r : Run S) : Ev U → Option (List (Report V) × Run S)
  | .step updates overflowed => (runStep m fp16 updates overflowed r).map fun r => ([], r)
  | .publish => let p := publish m name n r; some ([p.1], p.2)
  | .save => some ([], { r with ckpt := some r.bag })
  | .restart => match r.ckpt with
    | none => some ([], Run.fresh m)
    | some s => some ([], ⟨resetNonTotal m name s, 0, some s⟩)

/-- Any number of events: what was published, and the metrics afterwards. -/
def applyAll (m : Metric U S V) (name : String) (fp16 : Bool) (n : Nat) :
    Run S → List (Ev U) → Option (List (Report V) × Run S)
  | r, [] => some ([], r)
  | r, e :: es =>
    match apply m name fp16 n r e with
    | none => none
    | some (o, r) => match applyAll m name fp16 n r es with
      | none => none
      | some (o', r) => some (o ++ o', r)

end Fs2.Tally
