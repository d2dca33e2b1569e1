/-
Model of the step processors that forbid tokens during sequence generation.

Source: /repo/src/fairseq2/generation/step_processor.py.

A batch of sequences `(N, S)` is the list of its rows, a batch of probabilities `(N, V)` as well; the
entries of the latter are of any type, with `v` for the value that forbids a token (`0`, or minus infinity
for log probabilities). Token indices are integers as in the tensors, so that the padding value `-1` and
the differences are what they are there. The in-place updates of `probs` return the new tensor, an index
outside the vocabulary is an error (`none`).
-/

namespace Fs2.Gen

variable {α : Type}

/-- The position an index stands for in a dimension of size `n`: negative ones count from the end, others
have to be in range (tensor indexing of PyTorch). -/
def position (n : Nat) (i : Int) : Option Nat :=
  if 0 ≤ i then
    if i < n then some i.toNat else none
  else
    if -(n : Int) ≤ i then some (i + n).toNat else none

/-- `probs[r, t] = v`. -/
def put (v : α) (probs : List (List α)) (rt : Nat × Int) : Option (List (List α)) := do
  let row ← probs[rt.1]?
  let k ← position row.length rt.2
  return probs.set rt.1 (row.set k v)

/-- `probs[rs, ts] = v` for the index tensors `rs` and `ts`, given as the list of their pairs. -/
def putAll (v : α) (probs : List (List α)) (pairs : List (Nat × Int)) : Option (List (List α)) :=
  pairs.foldlM (put v) probs

/-- `(seqs - other).any(dim=-1)` negated for one row: no difference is other than zero
(step_processor.py:116-124 without mask, 169-174). -/
def rowMatches (s other : List Int) : Bool :=
  !(List.zipWith (· - ·) s other).any (· ≠ 0)

/-- `BannedSequenceProcessor._banned_seqs` and `_banned_mask` when there are banned sequences
(step_processor.py:45-46): the rows of the `(B, S)` tensors and the size `S`. -/
structure Banned where
  width : Nat
  seqs : List (List Int)
  mask : Option (List (List Bool))

/-- `max_seq_len` and `min_seq_len` after the loop (step_processor.py:56-69); `sys.maxsize` is replaced by
the length of the first sequence, which the loop visits anyway. -/
def maxLen (banned : List (List Int)) : Nat := banned.foldl (fun m s => max s.length m) 0

/-- See `maxLen`. -/
def minLen (banned : List (List Int)) : Nat :=
  banned.foldl (fun m s => min s.length m) (banned.headD []).length

/-- `BannedSequenceProcessor.__init__` (step_processor.py:40-91): `none` is the `ValueError`, `some none`
the processor without banned sequences. Shorter sequences are aligned to the right, their mask is `True`
to the left of them. -/
def bannedInit (banned : List (List Int)) : Option (Option Banned) :=
  if banned.length = 0 then some none
  else if banned.any (fun s => s.length = 0) then none
  else
    let mx := maxLen banned
    if mx ≠ minLen banned then
      some (some {
        width := mx
        seqs := banned.map fun s => List.replicate (mx - s.length) 0 ++ s
        mask := some (banned.map fun s =>
          List.replicate (mx - s.length) true ++ List.replicate s.length false) })
    else
      some (some { width := mx, seqs := banned, mask := none })

/-- `pad(seqs, (len_delta, 0), value=-1)` or `seqs[:, -banned_prefix_len:]` for one row
(step_processor.py:105-110). -/
def fit (pre : Nat) (s : List Int) : List Int :=
  if s.length < pre then List.replicate (pre - s.length) (-1) ++ s
  else if pre < s.length then s.drop (s.length - pre)
  else s

/-- Whether the prefix of a banned row matches, with the mask filled in (step_processor.py:115-124). -/
def prefixMatches (s row : List Int) (mask : Option (List Bool)) : Bool :=
  let diff := List.zipWith (· - ·) s row.dropLast
  let diff := match mask with
    | none => diff
    | some m => List.zipWith (fun (b : Bool) (d : Int) => if b then 0 else d) m.dropLast diff
  !diff.any (· ≠ 0)

/-- The pairs `(batch_indices, banned_seqs[:, -1][banned_indices])` (step_processor.py:126-130). -/
def bannedPairs (b : Banned) (seqs : List (List Int)) : List (Nat × Int) :=
  seqs.zipIdx.flatMap fun (s, r) =>
    b.seqs.zipIdx.filterMap fun (row, k) =>
      if prefixMatches s row (b.mask.map fun m => m.getD k []) then some (r, row.getLastD 0) else none

/-- `BannedSequenceProcessor.__call__` (step_processor.py:93-130). -/
def bannedCall (b : Option Banned) (seqs : List (List Int)) (probs : List (List α)) (v : α) :
    Option (List (List α)) :=
  match b with
  | none => some probs
  | some b =>
    let pre := b.width - 1
    if pre = 0 then
      putAll v probs ((List.range probs.length).flatMap fun r => b.seqs.map fun row => (r, row.headD 0))
    else
      putAll v probs (bannedPairs b (seqs.map (fit pre)))

/-- `NGramRepeatBlockProcessor.__init__` (step_processor.py:137-145); negative sizes, which it lets
through, are not modelled. -/
def ngramInit (n : Nat) : Option Nat := if n = 0 then none else some n

/-- The pairs written for one `i` of the loop (step_processor.py:167-176). -/
def ngramPairs (n : Nat) (seqs : List (List Int)) (i : Nat) : List (Nat × Int) :=
  seqs.zipIdx.filterMap fun (s, r) =>
    if rowMatches ((s.drop i).take (n - 1)) (s.drop (s.length - (n - 1))) then
      some (r, s.getD (i + n - 1) 0)
    else none

/-- `NGramRepeatBlockProcessor.__call__` (step_processor.py:147-176) for `seqs` of the shape `(N, len)`. -/
def ngramCall (n : Nat) (len : Nat) (seqs : List (List Int)) (probs : List (List α)) (v : α) :
    Option (List (List α)) :=
  let seqLen := len + 1
  if seqLen ≤ n then some probs
  else if n = 1 then
    putAll v probs (seqs.zipIdx.flatMap fun (s, r) => s.map fun t => (r, t))
  else
    (List.range (seqLen - n)).foldlM (fun probs i => putAll v probs (ngramPairs n seqs i)) probs

end Fs2.Gen
