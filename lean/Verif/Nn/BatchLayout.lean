/-!
# Batch layouts

Models `BatchLayout` (`src/fairseq2/nn/batch_layout.py`). A `ValueError` is `none`. The int32 copies
of the lists (`_pt`), the compiler marks and the device are not modelled.
-/

namespace Fs2.Nn

/-- The attributes of `BatchLayout` (batch_layout.py:20-30). `positions` are the rows of
`_position_indices`: one row for a packed batch, one row per sequence otherwise. -/
structure Layout where
  width : Int
  beginIndices : List Int
  seqLens : List Int
  positions : List (List Int)
  minSeqLen : Int
  maxSeqLen : Int
  packed : Bool
  padded : Bool
  deriving DecidableEq

/-- `torch.arange(n)`. -/
def arange (n : Int) : List Int := (List.range n.toNat).map Int.ofNat

/-- `xs[beg:end] -= beg` for `0 ≤ beg`. -/
def subSlice (beg fin : Int) (xs : List Int) : List Int :=
  xs.mapIdx fun i x => if beg ≤ (i : Int) ∧ (i : Int) < fin then x - beg else x

/-- `xs[beg:] = -1` for `0 ≤ beg`. -/
def padFrom (beg : Int) (xs : List Int) : List Int :=
  xs.mapIdx fun i x => if beg ≤ (i : Int) then -1 else x

/-- The variables of the loop over the sequence lengths. -/
structure LoopState where
  beginIndices : List Int
  seqLens : List Int
  positions : List (List Int)
  minSeqLen : Int
  maxSeqLen : Int
  seqBeg : Int := 0
  seqEnd : Int := 0
  padded : Bool := false

/-- One round of the loop over the lengths of a packed batch (batch_layout.py:70-92). -/
def packedStep (width : Int) (s : LoopState) (seqLen : Int) : Option LoopState :=
  if seqLen < 1 then none
  else
    let seqEnd := s.seqBeg + seqLen
    if seqEnd > width then none
    else
      some { s with
        beginIndices := s.beginIndices ++ [seqEnd]
        seqLens := s.seqLens ++ [seqLen]
        positions := s.positions.map (subSlice s.seqBeg seqEnd)
        minSeqLen := min s.minSeqLen seqLen
        maxSeqLen := max s.maxSeqLen seqLen
        seqBeg := seqEnd
        seqEnd := seqEnd }

/-- `BatchLayout.__init__` with `packed=True` (batch_layout.py:42-96). -/
def newPacked (shape : List Int) (seqLens : Option (List Int)) : Option Layout :=
  match shape with
  | [width] =>
    if width < 1 then none
    else do
      let lens := seqLens.getD [width]
      let s ← lens.foldlM (packedStep width)
        { beginIndices := [0], seqLens := [], positions := [arange width], minSeqLen := width,
          maxSeqLen := 0 }
      some { width, beginIndices := s.beginIndices, seqLens := s.seqLens,
             positions := s.positions.map (padFrom s.seqEnd), minSeqLen := s.minSeqLen,
             maxSeqLen := s.maxSeqLen, packed := true, padded := s.seqEnd < width }
  | _ => none

/-- One round of the loop over the lengths of a padded batch (batch_layout.py:132-151); `idx` is the
number of the row. -/
def paddedStep (width : Int) (s : LoopState) (e : Int × Nat) : Option LoopState :=
  let (seqLen, idx) := e
  if seqLen < 1 then none
  else if seqLen > width then none
  else
    some { s with
      seqLens := s.seqLens ++ [seqLen]
      padded := if seqLen < width then true else s.padded
      positions := s.positions.modify idx (padFrom seqLen)
      minSeqLen := min s.minSeqLen seqLen
      maxSeqLen := max s.maxSeqLen seqLen }

/-- `range(0, stop, step)` for a positive `step`. -/
def rangeStep (stop step : Int) : List Int :=
  (List.range ((stop + step - 1) / step).toNat).map fun (k : Nat) => (k : Int) * step

/-- `BatchLayout.__init__` with `packed=False` (batch_layout.py:97-151). -/
def newPadded (shape : List Int) (seqLens : Option (List Int)) : Option Layout :=
  match shape with
  | [batchSize, width] =>
    if width < 1 then none
    else
      let lens := seqLens.getD (List.replicate batchSize.toNat width)
      if (lens.length : Int) ≠ batchSize then none
      else do
        let s ← lens.zipIdx.foldlM (paddedStep width)
          { beginIndices := rangeStep (batchSize * width + 1) width, seqLens := [],
            positions := List.replicate batchSize.toNat (arange width), minSeqLen := width,
            maxSeqLen := 0 }
        some { width, beginIndices := s.beginIndices, seqLens := s.seqLens,
               positions := s.positions, minSeqLen := s.minSeqLen,
               maxSeqLen := s.maxSeqLen, packed := false, padded := s.padded }
  | _ => none

/-- `BatchLayout.__init__` (batch_layout.py:32-163). -/
def Layout.new (shape : List Int) (seqLens : Option (List Int)) (packed : Bool) : Option Layout :=
  if packed then newPacked shape seqLens else newPadded shape seqLens

/-- `BatchLayout.of` (batch_layout.py:166-172) of a tensor with the given shape. -/
def Layout.of (shape : List Int) (seqLens : Option (List Int)) (packed : Bool) : Option Layout :=
  Layout.new (if packed then shape.take 1 else shape.take 2) seqLens packed

end Fs2.Nn
