import Mathlib.Analysis.SpecialFunctions.Trigonometric.Basic
import Verif.Nn.AttentionBias
import Verif.Nn.Rotary

/-!
# Attention with relative positions

Models `RelativePositionSDPA` and `RelativePositionalEncoding`
(src/fairseq2/models/transformer/sdpa/relative.py) and `ShawRelativePositionSDPA` (sdpa/shaw.py). What is
computed is given for one row of the batch and one head; numbers are exact reals and `none` is an
exception or `nan`, as in `attend`. Packed batches, which are refused, are left out.
-/

namespace Fs2.Nn

/-! ## The table of encodings -/

/-- Entry `c` of a row of `freqs` before sine and cosine are taken:
`torch.outer(steps, exp(indices * -log(10000) / encoding_dim))` at a step (relative.py:238-247). Two
neighbouring columns have the same index. -/
noncomputable def angle (encodingDim : Nat) (step : ℝ) (c : Nat) : ℝ :=
  step * Real.exp (((2 * (c / 2) : Nat) : ℝ) * -Real.log 10000 / encodingDim)

/-- `reset_non_persistent_buffers` (relative.py:232-259): row `m`, column `c`. The rows before
`max_seq_len` are those of `freqs.flip([0])`, the others those of `-1 * freqs[1:]`. -/
noncomputable def relTable (encodingDim maxSeqLen m c : Nat) : ℝ :=
  let x :=
    if m < maxSeqLen then angle encodingDim ((maxSeqLen - 1 - m : Nat) : ℝ) c
    else -1 * angle encodingDim ((m - maxSeqLen + 1 : Nat) : ℝ) c
  if c % 2 = 0 then Real.sin x else Real.cos x

/-- `RelativePositionalEncoding.forward` (relative.py:261-287): the rows
`freqs[max_seq_len - seq_len : max_seq_len + seq_len - 1]`; `none` is the `ValueError`. -/
noncomputable def relEncoding (encodingDim maxSeqLen seqLen : Nat) : Option (Nat → Nat → ℝ) :=
  if seqLen > maxSeqLen then none
  else some fun m c => relTable encodingDim maxSeqLen (maxSeqLen - seqLen + m) c

/-! ## The shift -/

/-- `_shift_bd` (relative.py:161-181) on `s` rows of `w` entries. -/
def shiftBd {α : Type} (zero : α) (s w : Nat) (bd : List (List α)) : List (List α) :=
  -- `pad(bd, (1, 0))`
  let x := bd.map (zero :: ·)
  -- `x.view(..., w + 1, s)`
  let x := view (w + 1) s x.flatten
  -- `x[:, :, 1:, :]`
  let x := x.drop 1
  -- `x.view_as(bd)`
  let x := view s w x.flatten
  -- `x[..., : bd.size(2)]`
  x.map (·.take s)

/-! ## Transformer-XL attention -/

/-- The parameters of a `RelativePositionSDPA` and one head of it: `rProj` are the rows of the weight of
`r_proj` that belong to the head. -/
structure RelAttn where
  modelDim : Nat
  headDim : Nat
  maxSeqLen : Nat
  uBias : Nat → ℝ
  vBias : Nat → ℝ
  rProj : Nat → Nat → ℝ

/-- `q.size(-1) ** -0.5`. -/
noncomputable def headScale (headDim : Nat) : ℝ := (headDim : ℝ) ^ (-(1 / 2) : ℝ)

/-- `RelativePositionSDPA.forward` (relative.py:84-159): component `c` of the output for query `i` of
`s`, with `t` keys and values. `bd` has `s` columns; adding it to the `s` by `t` weights works if `s = t`
and if it has a single column, which is then used for all keys. With `t = 1` and `s > 1` the shift is
computed on the single column `bd` has. -/
noncomputable def RelAttn.attend (a : RelAttn) (s t : Nat) (q k v : Nat → Nat → ℝ)
    (bias : Nat → Nat → Entry) (i c : Nat) : Option ℝ :=
  (relEncoding a.modelDim a.maxSeqLen t).bind fun enc =>
    let r (m e : Nat) : ℝ := dot a.modelDim (a.rProj e) (enc m)
    let w := 2 * t - 1
    let bd := (List.range s).map fun i => (List.range w).map fun m =>
      dot a.headDim (fun e => q i e + a.vBias e) (r m)
    let bd := shiftBd 0 s w bd
    let columns := min s w
    if columns = t ∨ columns = 1 then
      let term (j : Nat) : ℝ :=
        ((bd[i]?.bind fun row => row[if columns = 1 then 0 else j]?).getD 0) * headScale a.headDim
      Nn.attend (headScale a.headDim) a.headDim t (fun e => q i e + a.uBias e) k v
        (fun j => (Entry.fin (term j)).add (bias i j)) c
    else none

/-! ## Shaw's attention -/

/-- A `ShawRelativePositionSDPA`; the tables are those of `rel_k_embed` and, if there is one, `rel_v_embed`. -/
structure ShawAttn where
  headDim : Nat
  maxLhs : Nat
  maxRhs : Nat
  relK : Nat → Nat → ℝ
  relV : Option (Nat → Nat → ℝ)

/-- `torch.clamp`. -/
def clamp (x lo hi : Int) : Int := min (max x lo) hi

/-- `_get_relative_indices` (shaw.py:180-192), row `i` and column `j`. -/
def ShawAttn.relIndex (a : ShawAttn) (i j : Nat) : Int :=
  clamp ((j : Int) - i) (-a.maxLhs) a.maxRhs + a.maxLhs

/-- Looking up an index in an embedding table, which has `maxLhs + 1 + maxRhs` rows; `none` is the
`IndexError` of torch. -/
def ShawAttn.row (a : ShawAttn) (table : Nat → Nat → ℝ) (x : Int) : Option (Nat → ℝ) :=
  if 0 ≤ x ∧ x < a.maxLhs + 1 + a.maxRhs then some (table x.toNat) else none

/-- `ShawRelativePositionSDPA.forward` (shaw.py:99-176): component `c` of the output for query `i` of
`s`, with `t` keys and values. The rows `[-s:]` of the table are used; more queries than keys are an
error of `einsum` (except with one key, which is left out). -/
noncomputable def ShawAttn.attend (a : ShawAttn) (s t : Nat) (q k v : Nat → Nat → ℝ)
    (bias : Nat → Nat → Entry) (i c : Nat) : Option ℝ :=
  if s ≤ t then
    -- all lookups of the row have to succeed
    ((List.range t).mapM fun j => a.row a.relK (a.relIndex (t - s + i) j)).bind fun keys =>
      let term (j : Nat) : ℝ := dot a.headDim (q i) (keys.getD j fun _ => 0) * headScale a.headDim
      let b (j : Nat) : Entry := (Entry.fin (term j)).add (bias i j)
      let attns := Nn.attend (headScale a.headDim) a.headDim t (q i) k v b c
      match a.relV with
      | none => attns
      | some table =>
        ((List.range t).mapM fun j => a.row table (a.relIndex (t - s + i) j)).bind fun vals =>
          let relAttns := Nn.attend (headScale a.headDim) a.headDim t (q i) k
            (fun j e => (vals.getD j fun _ => 0) e) b c
          attns.bind fun x => relAttns.map fun y => x + y
  else none

end Fs2.Nn
