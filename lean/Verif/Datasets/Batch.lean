/-!
# Batches

Models `SequenceBatch` and `Seq2SeqBatch` (`src/fairseq2/datasets/batch.py`). A tensor of sequences is a
list of elements (packed) or rows of equal width (padded); what follows the sequence dimension is part of
an element. Lengths are natural numbers. An exception is `none`. The `example` and moving to devices are
not modelled.
-/

namespace Fs2.Batch

/-- The tensor of a batch. -/
inductive Seqs (α : Type) where
  | packed (xs : List α)
  | padded (width : Nat) (rows : List (List α))
  deriving DecidableEq

namespace Seqs

variable {α : Type}

/-- The rows of a padded tensor have its width. -/
def Wf : Seqs α → Prop
  | packed _ => True
  | padded width rows => ∀ r ∈ rows, r.length = width

/-- `seqs[:-1]` or `seqs[:, :-1]` (batch.py:163, 177). -/
def init : Seqs α → Seqs α
  | packed xs => packed xs.dropLast
  | padded width rows => padded (width - 1) (rows.map List.dropLast)

/-- `seqs[1:]` or `seqs[:, 1:]` (batch.py:194, 201). -/
def rest : Seqs α → Seqs α
  | packed xs => packed xs.tail
  | padded width rows => padded (width - 1) (rows.map List.tail)

/-- Whether the leading dimensions, one or two, are equal (batch.py:129-149). -/
def sameShape {β : Type} : Seqs α → Seqs β → Bool
  | packed xs, packed ys => xs.length = ys.length
  | padded w rs, padded w' rs' => w = w' && rs.length = rs'.length
  | _, _ => false

end Seqs

/-- `int(target_mask.sum())`. -/
def maskSum : Seqs Bool → Nat
  | .packed xs => xs.count true
  | .padded _ rows => (rows.map (·.count true)).sum

/-- `SequenceBatch`. -/
structure SeqBatch (α : Type) where
  seqs : Seqs α
  lens : List Nat
  mask : Option (Seqs Bool)
  batchSize : Nat
  numExamples : Nat
  numElements : Nat
  numTargets : Nat
  padding : Nat
  deriving DecidableEq

/-- The checks and counts of lengths shared by the constructors (batch.py:49-127): lengths, batch size,
number of examples, number of elements, padding. -/
def measureLens {α : Type} (seqs : Seqs α) (lens : Option (List Nat)) : Option (List Nat × Nat × Nat × Nat × Nat) :=
  if lens = some [] then none
  else
    match seqs with
    | .packed xs =>
      let width := xs.length
      if width = 0 then none
      else
        let lens := lens.getD [width]
        if lens.any (· < 1) then none
        else if lens.sum > width then none
        else some (lens, 1, lens.length, lens.sum, width - lens.sum)
    | .padded width rows =>
      if width = 0 then none
      else
        let lens := lens.getD (List.replicate rows.length width)
        if lens.length ≠ rows.length then none
        else if lens.any (fun n => n < 1 ∨ n > width) then none
        else some (lens, rows.length, rows.length, lens.sum, (lens.map (width - ·)).sum)

/-- `SequenceBatch.__init__` (batch.py:33-158). -/
def SeqBatch.create {α : Type} (seqs : Seqs α) (lens : Option (List Nat)) (mask : Option (Seqs Bool)) :
    Option (SeqBatch α) := do
  let (lens, batchSize, numExamples, numElements, padding) ← measureLens seqs lens
  match mask with
  | none =>
    some { seqs, lens, mask := none, batchSize, numExamples, numElements
           numTargets := numElements, padding }
  | some m =>
    if m.sameShape seqs then
      some { seqs, lens, mask := some m, batchSize, numExamples, numElements
             numTargets := maskSum m, padding }
    else none

/-- The lengths after trimming (batch.py:162-187, 517-542). -/
def trimLens {α : Type} (seqs : Seqs α) (lens : List Nat) : Option (List Nat) :=
  match seqs with
  | .packed _ =>
    match lens.getLast? with
    | none => none
    | some n =>
      if n = 1 then
        if lens.length = 1 then none else some lens.dropLast
      else some (lens.dropLast ++ [n - 1])
  | .padded _ _ => if lens.any (· = 1) then none else some (lens.map (· - 1))

/-- `SequenceBatch.as_auto_regressive` (batch.py:160-212). -/
def SeqBatch.asAutoRegressive {α : Type} (b : SeqBatch α) : Option (SeqBatch α × SeqBatch α) := do
  let lens ← trimLens b.seqs b.lens
  let batch ← SeqBatch.create b.seqs.init (some lens) none
  let target ← SeqBatch.create b.seqs.rest (some lens) (b.mask.map Seqs.rest)
  some (batch, target)

/-- `Seq2SeqBatch`. -/
structure S2SBatch (α : Type) where
  source : Seqs α
  sourceLens : List Nat
  target : Seqs α
  targetLens : List Nat
  mask : Option (Seqs Bool)
  batchSize : Nat
  numExamples : Nat
  numElements : Nat
  numSources : Nat
  numTargets : Nat
  padding : Nat
  deriving DecidableEq

/-- Both tensors packed with as many lengths, or both padded with as many rows (batch.py:350-353,
409-412). -/
def compatible {α : Type} (s t : Seqs α) (sl tl : List Nat) : Bool :=
  match s, t with
  | .packed _, .packed _ => sl.length = tl.length
  | .padded _ r, .padded _ r' => r.length = r'.length
  | _, _ => false

/-- `Seq2SeqBatch.__init__` (batch.py:298-513). The order in which errors are detected is not modelled. -/
def S2SBatch.create {α : Type} (source : Seqs α) (sourceLens : Option (List Nat)) (target : Seqs α)
    (targetLens : Option (List Nat)) (mask : Option (Seqs Bool)) : Option (S2SBatch α) := do
  let (sl, batchSize, numExamples, numSources, sp) ← measureLens source sourceLens
  let (tl, _, _, numTargets, tp) ← measureLens target targetLens
  if compatible source target sl tl then
    let numElements := numSources + numTargets
    match mask with
    | none =>
      some { source, sourceLens := sl, target, targetLens := tl, mask := none, batchSize, numExamples
             numElements, numSources, numTargets := numElements, padding := sp + tp }
    | some m =>
      if m.sameShape target then
        some { source, sourceLens := sl, target, targetLens := tl, mask := some m, batchSize, numExamples
               numElements, numSources, numTargets := maskSum m, padding := sp + tp }
      else none
  else none

/-- `Seq2SeqBatch.as_auto_regressive` (batch.py:515-572). -/
def S2SBatch.asAutoRegressive {α : Type} (b : S2SBatch α) : Option (S2SBatch α × SeqBatch α) := do
  let lens ← trimLens b.target b.targetLens
  let batch ← S2SBatch.create b.source (some b.sourceLens) b.target.init (some lens) none
  let target ← SeqBatch.create b.target.rest (some lens) (b.mask.map Seqs.rest)
  some (batch, target)

end Fs2.Batch
