/-!
# The key/value caches of incremental decoding

Models `FullAttentionState`, `LocalAttentionState` and `StaticAttentionState`
(`src/fairseq2/models/transformer/multihead_attention.py:645-961`).

A tensor of shape `(N, S, H, K)` is modelled as `N` rows of `S` elements; an element stands for the
`H × K` numbers of one sequence position. `new_empty` fills with an arbitrary element `junk`. An
exception is `none`. Assigning to a slice broadcasts a source of one row or of one position, as torch
does; broadcasting of the head dimensions is treated as an error.
-/

namespace Fs2.Nn

variable {α : Type}

/-- A tensor of shape `(rows, len, *tail)`. -/
structure Ten (α : Type) where
  tail : List Nat
  len : Nat
  rows : List (List α)

/-- Every row of a tensor has `len` elements. -/
def Ten.WF (t : Ten α) : Prop := ∀ r ∈ t.rows, r.length = t.len

/-- `t.new_empty((n, len, *tail))`. -/
def newEmpty (junk : α) (n len : Nat) (tail : List Nat) : Ten α :=
  { tail, len, rows := List.replicate n (List.replicate len junk) }

/-- `row[a:b] = src` for one row of the tensor: the slice is cut at the end of the row; a source of one
element is repeated. -/
def assignRow (row : List α) (a b : Nat) (src : List α) : Option (List α) :=
  let a := min a row.length
  let b := max a (min b row.length)
  if src.length = b - a then some (row.take a ++ src ++ row.drop b)
  else
    match src with
    | [x] => some (row.take a ++ List.replicate (b - a) x ++ row.drop b)
    | _ => none

/-- `dst[:, a:b] = src`. -/
def Ten.assign (dst : Ten α) (a b : Nat) (src : Ten α) : Option (Ten α) :=
  if src.tail ≠ dst.tail then none
  else
    let srcRows :=
      if src.rows.length = dst.rows.length then some src.rows
      else match src.rows with
        | [r] => some (List.replicate dst.rows.length r)
        | _ => none
    do
      let sr ← srcRows
      let rows ← (dst.rows.zip sr).mapM fun (d, s) => assignRow d a b s
      some { dst with rows }

/-- `t[:, :n]`. -/
def Ten.prefix (t : Ten α) (n : Nat) : Ten α :=
  { t with len := min n t.len, rows := t.rows.map (List.take n) }

/-- `t[:, -n:]`; `-0` is `0`, so that `n = 0` selects everything. -/
def Ten.suffix (t : Ten α) (n : Nat) : Ten α :=
  if n = 0 then t
  else { t with len := min n t.len, rows := t.rows.map fun r => r.drop (r.length - n) }

/-- `t.index_select(0, order)`: raises for an index that is out of range. -/
def Ten.indexSelect (t : Ten α) (order : List Nat) : Option (Ten α) := do
  let rows ← order.mapM fun i => t.rows[i]?
  some { t with rows }

/-- `torch.roll(t, shifts=-n, dims=1)`. -/
def Ten.rollLeft (t : Ten α) (n : Nat) : Ten α :=
  { t with rows := t.rows.map fun r => r.drop (n % r.length) ++ r.take (n % r.length) }

/-! ## FullAttentionState -/

/-- `FullAttentionState` (multihead_attention.py:645-669). -/
structure Full (α : Type) where
  seqLen : Nat
  k : Ten α
  v : Ten α
  capacityIncrement : Option Nat

/-- `FullAttentionState._expand_kv` (multihead_attention.py:709-733). -/
def Full.expand (junk : α) (s : Full α) (inputLen : Nat) : Option (Full α) :=
  match s.capacityIncrement with
  | none => some s
  | some inc =>
    let newLen := s.seqLen + inputLen
    if newLen ≤ s.k.len then some s
    else do
      let capacity := ((newLen + inc - 1) / inc) * inc
      let k := newEmpty junk s.k.rows.length capacity s.k.tail
      let v := newEmpty junk s.k.rows.length capacity s.k.tail
      if s.seqLen > 0 then
        let k ← k.assign 0 s.seqLen (s.k.prefix s.seqLen)
        let v ← v.assign 0 s.seqLen (s.v.prefix s.seqLen)
        some { s with k, v }
      else some { s with k, v }

/-- `FullAttentionState.__init__` (multihead_attention.py:670-694). -/
def Full.new (junk : α) (k v : Ten α) (maxSeqLen : Nat) (inc : Option Nat) : Option (Full α) := do
  if inc = some 0 then none
  else
    let cap := if inc.isSome then 0 else maxSeqLen
    let s : Full α := {
      seqLen := 0
      k := newEmpty junk k.rows.length cap k.tail
      v := newEmpty junk k.rows.length cap k.tail
      capacityIncrement := inc }
    let s ← s.expand junk k.len
    let k' ← s.k.assign 0 k.len k
    let v' ← s.v.assign 0 k.len v
    some { s with k := k', v := v', seqLen := k.len }

/-- `FullAttentionState.append` (multihead_attention.py:696-707). -/
def Full.append (junk : α) (s : Full α) (k v : Ten α) : Option (Full α) := do
  let n := k.len
  let s ← s.expand junk n
  let pos := s.seqLen
  let k' ← s.k.assign pos (pos + n) k
  let v' ← s.v.assign pos (pos + n) v
  some { s with k := k', v := v', seqLen := s.seqLen + n }

/-- `FullAttentionState.get` (multihead_attention.py:735-740). -/
def Full.get (s : Full α) : Ten α × Ten α := (s.k.prefix s.seqLen, s.v.prefix s.seqLen)

/-- `FullAttentionState.reorder` (multihead_attention.py:742-745). -/
def Full.reorder (s : Full α) (order : List Nat) : Option (Full α) := do
  let k ← s.k.indexSelect order
  let v ← s.v.indexSelect order
  some { s with k, v }

/-! ## LocalAttentionState -/

/-- `LocalAttentionState` (multihead_attention.py:759-793). -/
structure Local (α : Type) where
  seqLen : Nat
  window : Nat
  k : Ten α
  v : Ten α
  capacityIncrement : Option Nat

/-- `LocalAttentionState._expand_kv` (multihead_attention.py:853-877). -/
def Local.expand (junk : α) (s : Local α) (inputLen : Nat) : Option (Local α) :=
  match s.capacityIncrement with
  | none => some s
  | some inc =>
    let newLen := s.seqLen + inputLen
    if newLen ≤ s.k.len ∨ s.k.len = s.window then some s
    else do
      let capacity := min (((newLen + inc - 1) / inc) * inc) s.window
      let k := newEmpty junk s.k.rows.length capacity s.k.tail
      let v := newEmpty junk s.k.rows.length capacity s.k.tail
      if s.seqLen > 0 then
        let k ← k.assign 0 s.seqLen (s.k.prefix s.seqLen)
        let v ← v.assign 0 s.seqLen (s.v.prefix s.seqLen)
        some { s with k, v }
      else some { s with k, v }

/-- `LocalAttentionState.__init__` (multihead_attention.py:792-826). -/
def Local.new (junk : α) (k v : Ten α) (maxSeqLen window : Nat) (inc : Option Nat) :
    Option (Local α) := do
  if inc = some 0 then none
  else
    let window := min maxSeqLen window
    let cap := if inc.isSome then 0 else window
    let s : Local α := {
      seqLen := 0
      window
      k := newEmpty junk k.rows.length cap k.tail
      v := newEmpty junk k.rows.length cap k.tail
      capacityIncrement := inc }
    let s ← s.expand junk k.len
    let copyLen := min k.len window
    let k' ← s.k.assign 0 copyLen (k.suffix copyLen)
    let v' ← s.v.assign 0 copyLen (v.suffix copyLen)
    some { s with k := k', v := v', seqLen := k.len }

/-- `LocalAttentionState.append` (multihead_attention.py:828-851). -/
def Local.append (junk : α) (s : Local α) (k v : Ten α) : Option (Local α) := do
  let n := k.len
  let s ← s.expand junk n
  let (s, pos, copyLen) :=
    if s.seqLen + n > s.window then
      let copyLen := min n s.window
      if copyLen = s.window then (s, 0, copyLen)
      else ({ s with k := s.k.rollLeft copyLen, v := s.v.rollLeft copyLen },
            s.window - copyLen, copyLen)
    else (s, s.seqLen, n)
  let k' ← s.k.assign pos (pos + copyLen) (k.suffix copyLen)
  let v' ← s.v.assign pos (pos + copyLen) (v.suffix copyLen)
  some { s with k := k', v := v', seqLen := s.seqLen + n }

/-- `LocalAttentionState.get` (multihead_attention.py:879-884). -/
def Local.get (s : Local α) : Ten α × Ten α := (s.k.prefix s.seqLen, s.v.prefix s.seqLen)

/-- `LocalAttentionState.reorder` (multihead_attention.py:886-889). -/
def Local.reorder (s : Local α) (order : List Nat) : Option (Local α) := do
  let k ← s.k.indexSelect order
  let v ← s.v.indexSelect order
  some { s with k, v }

/-! ## StaticAttentionState -/

/-- `StaticAttentionState` (multihead_attention.py:932-942). -/
structure Static (α : Type) where
  k : Ten α
  v : Ten α

/-- `StaticAttentionState.append` (multihead_attention.py:944-948): not supported. -/
def Static.append (_ : Static α) (_ _ : Ten α) : Option (Static α) := none

/-- `StaticAttentionState.get` (multihead_attention.py:950-952). -/
def Static.get (s : Static α) : Ten α × Ten α := (s.k, s.v)

/-- `StaticAttentionState.reorder` (multihead_attention.py:954-958). -/
def Static.reorder (s : Static α) (order : List Nat) : Option (Static α) :=
  if order.length ≠ s.k.rows.length then do
    let k ← s.k.indexSelect order
    let v ← s.v.indexSelect order
    some { k, v }
  else some s

end Fs2.Nn
