import Verif.Nn.BatchLayout

/-!
# The incremental state bag and the positions of the position encoders

Models `IncrementalStateBag` (`src/fairseq2/nn/incremental_state.py`) without the module states, and
of the position encoders (`src/fairseq2/nn/position_encoder.py`) which row of its table an encoder uses
for which element of the batch. Row 0 of the table is the padding row (zeros), row `p + 1` belongs to
position `p`. What the tables contain and how the row is combined with the element is not modelled.
-/

namespace Fs2.Nn

/-- `IncrementalStateBag` (incremental_state.py:55-79). -/
structure Bag where
  stepNr : Int
  maxNumSteps : Int
  capacityIncrement : Option Int
  deriving DecidableEq

/-- `IncrementalStateBag.__init__` (incremental_state.py:58-79). -/
def Bag.new (maxNumSteps : Int) (capacityIncrement : Option Int) : Option Bag :=
  match capacityIncrement with
  | some c => if c < 1 then none else some ⟨0, maxNumSteps, some c⟩
  | none => some ⟨0, maxNumSteps, none⟩

/-- `IncrementalStateBag.increment_step_nr` (incremental_state.py:81-97). -/
def Bag.increment (b : Bag) (value : Int) : Option Bag :=
  let stepNr := b.stepNr + value
  if stepNr ≥ b.maxNumSteps then none else some { b with stepNr }

/-- A slice `table[a : a + n]` of a table with `rows` rows, as the list of its row numbers, for
`0 ≤ a` and `0 ≤ n`. -/
def rowSlice (rows a n : Int) : List Int := (arange rows).drop a.toNat |>.take n.toNat

/-- The rows of the table used for the elements of a batch by `SinusoidalPositionEncoder.forward`
(position_encoder.py:137-182), `RotaryEncoder.forward` (:377-436) and `ReferenceRotaryEncoder.forward`
(:544-600), which choose them in the same way. `maxSeqLen` is the encoder's `max_seq_len`. A batch that
is neither packed nor padded uses the same rows for every sequence; the model repeats them (in torch
they are broadcast). -/
def Layout.tableRows (maxSeqLen : Int) (training : Bool) (bag : Option Bag) (l : Layout) :
    Option (List (List Int)) :=
  let incremental := !training && bag.isSome
  let stepNr := (bag.map Bag.stepNr).getD 0
  let startStep := if incremental then stepNr else 0
  if startStep + l.maxSeqLen > maxSeqLen then none
  else if l.packed || l.padded then
    let indices := l.positions.map (List.map (· + 1))
    some (if incremental then indices.map (List.map (stepNr + ·)) else indices)
  else
    let startStep := if incremental then 1 + stepNr else 1
    some (l.positions.map fun _ => rowSlice (maxSeqLen + 1) startStep l.width)

/-- The same of `LearnedPositionEncoder.forward` (position_encoder.py:255-287). -/
def Layout.learnedRows (maxSeqLen : Int) (training : Bool) (bag : Option Bag) (l : Layout) :
    Option (List (List Int)) :=
  let incremental := !training && bag.isSome
  let stepNr := (bag.map Bag.stepNr).getD 0
  let startStep := if incremental then stepNr else 0
  if startStep + l.maxSeqLen > maxSeqLen then none
  else
    let indices := l.positions.map (List.map (· + 1))
    some (if incremental then indices.map (List.map (stepNr + ·)) else indices)

/-- Feeding a batch of `N` full rows piece by piece in evaluation mode, as the generators do
(generation/beam_search/generator.py:530-545, 587-589): the rows used for every piece, and the bag
afterwards. -/
def feed (rows : Option Bag → Layout → Option (List (List Int))) (N : Int) :
    Bag → List Int → Option (List (List (List Int)) × Bag)
  | bag, [] => some ([], bag)
  | bag, n :: pieces => do
    let l ← Layout.new [N, n] none false
    let r ← rows (some bag) l
    let bag ← bag.increment n
    let (rs, bag) ← feed rows N bag pieces
    some (r :: rs, bag)

end Fs2.Nn
