import Mathlib.Analysis.SpecialFunctions.Pow.Real
import Mathlib.Analysis.SpecialFunctions.Trigonometric.Basic
import Verif.Nn.Incremental

/-!
# The rotary position encoders

Models `RotaryEncoder`, `ReferenceRotaryEncoder` and `DualRotaryEncoder` of
`src/fairseq2/nn/position_encoder.py`, the scaled frequencies of LLaMA 3.1
(`src/fairseq2/models/llama/factory.py`), and the reordering of the rows of the query and key
projections when a LLaMA checkpoint is converted (`src/fairseq2/models/llama/interop.py`). Numbers are
real numbers: rounding, and the cast to float32 and back, are not modelled. Which row of the table
belongs to which element of the batch is `Layout.tableRows` (`Verif.Nn.Incremental`).

An element of a batch is a list of heads, each a list of `encoding_dim` numbers: this is the shape
`([N], S, H, E)` with which the attention layers call the encoder (multihead_attention.py:521-527, 544-555); the
row of the table is broadcast over the heads (position_encoder.py:424-425). A packed batch is a batch
of one row.
-/

namespace Fs2.Nn

/-- A batch: rows of elements, an element is a list of heads. -/
abbrev Heads := List (List ℝ)
abbrev Seqs := List (List Heads)

/-- Applies to every element of the batch the row of the table chosen for it. The shapes of the batch
and of the layout are assumed to agree. -/
def perElement {ρ : Type} (table : Int → ρ) (apply : ρ → List ℝ → List ℝ) (rows : List (List Int))
    (seqs : Seqs) : Seqs :=
  List.zipWith (List.zipWith fun r heads => heads.map (apply (table r))) rows seqs

/-! ## `RotaryEncoder` -/

/-- What a `RotaryEncoder` holds: the dimension, the maximum length and one frequency for each pair of
numbers (position_encoder.py:290-350). -/
structure Rotary where
  encodingDim : Nat
  maxSeqLen : Nat
  freqs : Nat → ℝ

/-- The default frequencies, `1.0 / (theta ** (indices / encoding_dim))` with
`indices = arange(0, encoding_dim, step=2)` (position_encoder.py:365-370). -/
noncomputable def defaultFreqs (theta : ℝ) (encodingDim k : Nat) : ℝ :=
  1 / theta ^ (((2 * k : Nat) : ℝ) / (encodingDim : ℝ))

/-- `RotaryEncoder.__init__` (position_encoder.py:298-350), with the frequencies of `freqs_init_fn` or
the default ones; `none` is the `ValueError` for an odd dimension. -/
noncomputable def Rotary.new (encodingDim maxSeqLen : Nat) (theta : ℝ)
    (freqsInitFn : Option (Nat → ℝ)) : Option Rotary :=
  if encodingDim % 2 ≠ 0 then none
  else some ⟨encodingDim, maxSeqLen, freqsInitFn.getD (defaultFreqs theta encodingDim)⟩

/-- `torch.polar(1, angle)` as real and imaginary part. -/
noncomputable def polar (angle : ℝ) : ℝ × ℝ := (Real.cos angle, Real.sin angle)

/-- Row `r` of the table `freqs` (position_encoder.py:354-375): row 0 is for padding and zero, row
`p + 1` belongs to step `p`. The table has the rows 0 to `max_seq_len`; that no other is asked for is a
theorem. -/
noncomputable def Rotary.row (e : Rotary) (r : Int) : List (ℝ × ℝ) :=
  if r = 0 then List.replicate (e.encodingDim / 2) (0, 0)
  else (List.range (e.encodingDim / 2)).map fun k => polar (((r - 1 : Int) : ℝ) * e.freqs k)

/-- The product of the numbers, taken in pairs as complex numbers, with a row of the table
(position_encoder.py:418-432). -/
def rotate : List (ℝ × ℝ) → List ℝ → List ℝ
  | (c, s) :: row, a :: b :: x => (a * c - b * s) :: (a * s + b * c) :: rotate row x
  | _, _ => []

/-- `RotaryEncoder.forward` (position_encoder.py:377-436). -/
noncomputable def Rotary.forward (e : Rotary) (training : Bool) (bag : Option Bag) (l : Layout)
    (seqs : Seqs) : Option Seqs := do
  let rows ← l.tableRows e.maxSeqLen training bag
  some (perElement e.row rotate rows seqs)

/-! ## `ReferenceRotaryEncoder` -/

/-- What a `ReferenceRotaryEncoder` holds (position_encoder.py:455-510). -/
structure RefRotary where
  encodingDim : Nat
  maxSeqLen : Nat
  theta : ℝ

/-- `ReferenceRotaryEncoder.__init__` (position_encoder.py:461-510). -/
noncomputable def RefRotary.new (encodingDim maxSeqLen : Nat) (theta : ℝ) : Option RefRotary :=
  if encodingDim % 2 ≠ 0 then none else some ⟨encodingDim, maxSeqLen, theta⟩

/-- Row `r` of `cos_freqs` and of `sin_freqs` (position_encoder.py:515-542): zero for padding,
otherwise twice the same half. -/
noncomputable def RefRotary.row (e : RefRotary) (r : Int) : List ℝ × List ℝ :=
  if r = 0 then (List.replicate e.encodingDim 0, List.replicate e.encodingDim 0)
  else
    let table := (List.range (e.encodingDim / 2)).map fun (k : Nat) =>
      ((r - 1 : Int) : ℝ) * e.theta ^ ((-2 : ℝ) * (k : ℝ) / (e.encodingDim : ℝ))
    (table.map Real.cos ++ table.map Real.cos, table.map Real.sin ++ table.map Real.sin)

/-- `ReferenceRotaryEncoder._rotate_half_way` (position_encoder.py:602-606). -/
def rotateHalfWay (encodingDim : Nat) (x : List ℝ) : List ℝ :=
  (x.drop (encodingDim / 2)).map (fun v => -v) ++ x.take (encodingDim / 2)

/-- `fp32_seqs * cos_freqs + fp32_rotated_seqs * sin_freqs` (position_encoder.py:594-598). -/
def refRotate (encodingDim : Nat) (row : List ℝ × List ℝ) (x : List ℝ) : List ℝ :=
  List.zipWith (· + ·) (List.zipWith (· * ·) x row.1)
    (List.zipWith (· * ·) (rotateHalfWay encodingDim x) row.2)

/-- `ReferenceRotaryEncoder.forward` (position_encoder.py:544-600). -/
noncomputable def RefRotary.forward (e : RefRotary) (training : Bool) (bag : Option Bag) (l : Layout)
    (seqs : Seqs) : Option Seqs := do
  let rows ← l.tableRows e.maxSeqLen training bag
  some (perElement e.row (refRotate e.encodingDim) rows seqs)

/-! ## `DualRotaryEncoder` -/

/-- The two encoders of a `DualRotaryEncoder` (position_encoder.py:938-977). -/
structure DualRotary where
  ropeStd : Rotary
  ropeLong : Rotary

/-- `DualRotaryEncoder.__init__` (position_encoder.py:938-977). -/
noncomputable def DualRotary.new (encodingDim maxSeqLen : Nat) (theta dualTheta : ℝ) :
    Option DualRotary :=
  if encodingDim % 4 ≠ 0 then none
  else do
    let halfDim := encodingDim / 2
    let ropeStd ← Rotary.new halfDim maxSeqLen theta none
    let ropeLong ← Rotary.new halfDim maxSeqLen dualTheta none
    some ⟨ropeStd, ropeLong⟩

/-- Applies a function to every head of every element. -/
def mapHeads (f : List ℝ → List ℝ) (seqs : Seqs) : Seqs := seqs.map (List.map (List.map f))

/-- `torch.cat([a, b], dim=-1)`. -/
def catHeads (a b : Seqs) : Seqs :=
  List.zipWith (List.zipWith (List.zipWith (· ++ ·))) a b

/-- `DualRotaryEncoder.forward` (position_encoder.py:987-1004); `half_dim` is taken from each head,
torch takes it from the common last dimension. -/
noncomputable def DualRotary.forward (e : DualRotary) (training : Bool) (bag : Option Bag) (l : Layout)
    (seqs : Seqs) : Option Seqs := do
  let std ← e.ropeStd.forward training bag l (mapHeads (fun x => x.take (x.length / 2)) seqs)
  let long ← e.ropeLong.forward training bag l (mapHeads (fun x => x.drop (x.length / 2)) seqs)
  some (catHeads std long)

/-! ## The scaled frequencies of LLaMA 3.1 -/

/-- `LLaMARoPEScaleConfig` (llama/config.py:104-121). -/
structure RopeScale where
  factor : ℝ
  lowFreqFactor : ℝ
  highFreqFactor : ℝ
  originalContextLength : ℝ

/-- One round of the loop of `init_llama_rope_freqs` (llama/factory.py:313-336). -/
noncomputable def RopeScale.scaled (c : RopeScale) (freq : ℝ) : ℝ :=
  let oldContextLen := c.originalContextLength
  let lFreqWavelen := oldContextLen / c.lowFreqFactor
  let hFreqWavelen := oldContextLen / c.highFreqFactor
  let wavelen := 2 * Real.pi / freq
  if wavelen < hFreqWavelen then freq
  else if wavelen > lFreqWavelen then freq / c.factor
  else
    let smooth := (oldContextLen / wavelen - c.lowFreqFactor) / (c.highFreqFactor - c.lowFreqFactor)
    (1 - smooth) * freq / c.factor + smooth * freq

/-- `init_llama_rope_freqs` (llama/factory.py:292-338) for a device that is not `meta`. -/
noncomputable def llamaFreqs (theta : ℝ) (encodingDim : Nat) (c : RopeScale) (k : Nat) : ℝ :=
  c.scaled (defaultFreqs theta encodingDim k)

/-! ## The rows of the projections of a LLaMA checkpoint -/

/-- `t.view(n, m, …)` of a tensor with `n * m` entries along its first dimension, as `n` lists of
`m`. -/
def view {α : Type} (n m : Nat) (l : List α) : List (List α) :=
  (List.range n).map fun i => (l.drop (i * m)).take m

/-- `t.transpose(0, 1)` of `n` lists of `m` entries. -/
def transpose {α : Type} (m : Nat) (l : List (List α)) : List (List α) :=
  (List.range m).map fun j => l.filterMap fun row => row[j]?

/-- `permute_rotary` of `convert_llama_state_dict` (llama/interop.py:73-81):
`w.view(num_heads, 2, head_dim // 2, model_dim).transpose(1, 2).reshape(-1, model_dim)`. `w` is the
list of the rows of the weight; `none` is the error of `view` if their number is not
`num_heads * 2 * (head_dim // 2)`. -/
def permuteRotary {α : Type} (numHeads headDim : Nat) (w : List α) : Option (List α) :=
  if w.length = numHeads * (2 * (headDim / 2)) then
    some ((view numHeads (2 * (headDim / 2)) w).flatMap fun head =>
      (transpose (headDim / 2) (view 2 (headDim / 2) head)).flatten)
  else none

/-- `permute_rotary` of `_LLaMAHuggingFaceConverter.to_hg_state_dict` (llama/interop.py:184-192):
`w.view(num_heads, head_dim // 2, 2, model_dim).transpose(1, 2).reshape(-1, model_dim)`. -/
def permuteRotaryBack {α : Type} (numHeads headDim : Nat) (w : List α) : Option (List α) :=
  if w.length = numHeads * (headDim / 2 * 2) then
    some ((view numHeads (headDim / 2 * 2) w).flatMap fun head =>
      (transpose 2 (view (headDim / 2) 2 head)).flatten)
  else none

/-- `Linear` without bias: the product of the weight, given by its rows, with an input
(projection.py:108-110). -/
def linear (w : List (List ℝ)) (x : List ℝ) : List ℝ :=
  w.map fun row => (List.zipWith (· * ·) row x).sum

/-- The heads of a projected element, `q.unflatten(-1, (-1, head_dim))`
(multihead_attention.py:521, 544). -/
def headsOf (numHeads headDim : Nat) (q : List ℝ) : Heads := view numHeads headDim q

end Fs2.Nn
