import Verif.Nn.AttentionStateLemmas

/-!
# C49, C50, C51: the key/value caches of incremental decoding
-/

namespace Fs2.Props
open Fs2.Nn

variable {α : Type}

/-- Everything a cache was given: one row of keys and one row of values for every sequence of the
batch. -/
structure KvHistory (α : Type) where
  tail : List Nat
  keys : List (List α)
  values : List (List α)

/-- What can be done to a cache. -/
inductive KvOp (α : Type) where
  | append (k v : Ten α)
  | reorder (order : List Nat)

/-- The first keys and values. -/
def KvHistory.first (k v : Ten α) : KvHistory α := ⟨k.tail, k.rows, v.rows⟩

/-- Keys and values have the same batch size, length and head dimensions. -/
def Alike (k v : Ten α) : Prop :=
  k.WF ∧ v.WF ∧ v.tail = k.tail ∧ v.len = k.len ∧ v.rows.length = k.rows.length

/-- An operation fits what is in the cache: appended tensors have its batch size and head dimensions,
and a new order mentions only rows that exist. -/
def KvHistory.Fits (h : KvHistory α) : KvOp α → Prop
  | .append k v => Alike k v ∧ k.tail = h.tail ∧ k.rows.length = h.keys.length
  | .reorder order => ∀ i ∈ order, i < h.keys.length

/-- Appending continues every row; reordering makes row `i` the old row `order[i]`. -/
def KvHistory.after (h : KvHistory α) : KvOp α → KvHistory α
  | .append k v => { h with
      keys := List.zipWith (· ++ ·) h.keys k.rows
      values := List.zipWith (· ++ ·) h.values v.rows }
  | .reorder order => { h with
      keys := order.map fun i => (h.keys[i]?).getD []
      values := order.map fun i => (h.values[i]?).getD [] }

/-- All operations fit, one after the other. -/
def KvHistory.FitsAll : KvHistory α → List (KvOp α) → Prop
  | _, [] => True
  | h, op :: ops => h.Fits op ∧ (h.after op).FitsAll ops

/-- The number of positions an operation adds. -/
def KvOp.size : KvOp α → Nat
  | .append k _ => k.len
  | .reorder _ => 0

/-- The operations on `FullAttentionState`. -/
def fullOp (junk : α) (s : Full α) : KvOp α → Option (Full α)
  | .append k v => s.append junk k v
  | .reorder order => s.reorder order

/-- What a `FullAttentionState` keeps. -/
structure FInv (s : Full α) (maxLen : Nat) (inc : Option Nat) (h : KvHistory α) : Prop where
  hinc : s.capacityIncrement = inc
  vals : h.values.length = h.keys.length
  buf : ∃ cap, Buf s.k h.tail cap s.seqLen h.keys ∧ Buf s.v h.tail cap s.seqLen h.values ∧
    (inc = none → cap = maxLen)

theorem full_expand (junk : α) {s : Full α} {maxLen : Nat} {inc : Option Nat}
    {h : KvHistory α} (hi : FInv s maxLen inc h) (hinc : inc ≠ some 0) (n : Nat)
    (hn : inc = none → s.seqLen + n ≤ maxLen) :
    ∃ s', s.expand junk n = some s' ∧ s'.seqLen = s.seqLen ∧ s'.capacityIncrement = inc ∧
      ∃ cap, s.seqLen + n ≤ cap ∧ Buf s'.k h.tail cap s.seqLen h.keys ∧
        Buf s'.v h.tail cap s.seqLen h.values ∧ (inc = none → cap = maxLen) := by
  obtain ⟨cap, hk, hv, hc⟩ := hi.buf
  cases hinc' : inc with
  | none =>
    have := hc hinc'
    refine ⟨s, ?_, rfl, by rw [hi.hinc, hinc'], cap, ?_, hk, hv, fun _ => this⟩
    · simp [Full.expand, hi.hinc, hinc']
    · rw [this]; exact hn hinc'
  | some c =>
    have hc0 : 0 < c := by
      rcases Nat.eq_zero_or_pos c with h0 | h0
      · subst h0; exact absurd hinc' hinc
      · exact h0
    by_cases hle : s.seqLen + n ≤ s.k.len
    · refine ⟨s, ?_, rfl, by rw [hi.hinc, hinc'], cap, ?_, hk, hv, fun h => (by cases h)⟩
      · simp [Full.expand, hi.hinc, hinc', hle]
      · rw [← hk.len]; exact hle
    · generalize hcap : (s.seqLen + n + c - 1) / c * c = cap'
      have hge : s.seqLen + n ≤ cap' := by rw [← hcap]; exact ceil_mul hc0
      by_cases hpos : s.seqLen > 0
      · obtain ⟨k', ek, bk⟩ := hk.grow junk cap' (by omega)
        obtain ⟨v', ev, bv⟩ := hv.grow junk cap' (by omega)
        rw [hi.vals, ← hk.num, ← hk.tail] at ev
        rw [← hk.num, ← hk.tail] at ek
        refine ⟨{ s with k := k', v := v' }, ?_, rfl, by rw [← hinc', ← hi.hinc], cap', hge, bk, bv,
          fun h => (by cases h)⟩
        simp [Full.expand, hi.hinc, hinc', hle, hcap, hpos, ek, ev]
      · have h0 : s.seqLen = 0 := by omega
        have hkeys : h.keys = List.replicate s.k.rows.length [] := by
          rw [← hk.val, h0, ← List.map_const']; apply List.map_congr_left; intro r _; simp
        have hvals : h.values = List.replicate s.k.rows.length [] := by
          have e : s.v.rows.length = s.k.rows.length := by rw [hv.num, hk.num, hi.vals]
          rw [← e, ← hv.val, h0, ← List.map_const']; apply List.map_congr_left; intro r _; simp
        refine ⟨{ s with k := newEmpty junk s.k.rows.length cap' s.k.tail
                         v := newEmpty junk s.k.rows.length cap' s.k.tail }, ?_, rfl,
          by rw [← hinc', ← hi.hinc], cap', hge, ?_, ?_, fun h => (by cases h)⟩
        · simp [Full.expand, hi.hinc, hinc', hle, hcap, hpos]
        · have := Buf.empty junk s.k.tail cap' s.k.rows.length
          rw [← hkeys, hk.tail] at this
          rw [h0]; simp only; rw [hk.tail]; exact this
        · have := Buf.empty junk s.k.tail cap' s.k.rows.length
          rw [← hvals, hk.tail] at this
          rw [h0]; simp only; rw [hk.tail]; exact this

theorem full_append (junk : α) {s : Full α} {maxLen : Nat} {inc : Option Nat}
    {h : KvHistory α} (hi : FInv s maxLen inc h) (hinc : inc ≠ some 0) {k v : Ten α}
    (hf : h.Fits (.append k v)) (hn : inc = none → s.seqLen + k.len ≤ maxLen) :
    ∃ s', s.append junk k v = some s' ∧ s'.seqLen = s.seqLen + k.len ∧
      FInv s' maxLen inc (h.after (.append k v)) := by
  obtain ⟨⟨hkw, hvw, htail, hlen, hrows⟩, ht, hr⟩ := hf
  obtain ⟨s', e, hsl, hci, cap, hcap, bk, bv, hnone⟩ := full_expand junk hi hinc k.len hn
  obtain ⟨k', ek, bk'⟩ := bk.put (src := k) (n := k.len) ht hr hkw hcap
  obtain ⟨v', ev, bv'⟩ := bv.put (src := v) (n := k.len) (by rw [htail, ht])
    (by rw [hrows, hr, hi.vals]) (by rw [← hlen]; exact hvw) hcap
  refine ⟨{ s' with k := k', v := v', seqLen := s'.seqLen + k.len }, ?_, by simp [hsl], ?_⟩
  · rw [← hsl] at ek ev
    simp only [Full.append, e, Option.bind_eq_bind, Option.bind_some, ek, ev]
  · refine ⟨hci, ?_, cap, ?_, ?_, hnone⟩
    · simp only [KvHistory.after, List.length_zipWith, hi.vals, hrows]
    · simp only [hsl]; exact bk'
    · simp only [hsl]; exact bv'

theorem full_reorder {s : Full α} {maxLen : Nat} {inc : Option Nat}
    {h : KvHistory α} (hi : FInv s maxLen inc h) {order : List Nat}
    (hf : h.Fits (.reorder order)) :
    ∃ s', s.reorder order = some s' ∧ s'.seqLen = s.seqLen ∧
      FInv s' maxLen inc (h.after (.reorder order)) := by
  obtain ⟨cap, bk, bv, hnone⟩ := hi.buf
  obtain ⟨k', ek, bk'⟩ := bk.select hf
  obtain ⟨v', ev, bv'⟩ := bv.select (order := order) (by rw [hi.vals]; exact hf)
  refine ⟨{ s with k := k', v := v' }, ?_, rfl, hi.hinc, by simp [KvHistory.after], cap, bk', bv', hnone⟩
  simp only [Full.reorder, ek, ev, Option.bind_eq_bind, Option.bind_some]

theorem full_new (junk : α) {k v : Ten α} {maxLen : Nat} {inc : Option Nat} (hinc : inc ≠ some 0)
    (hkv : Alike k v) (hmax : inc = none → k.len ≤ maxLen) :
    ∃ s, Full.new junk k v maxLen inc = some s ∧ s.seqLen = k.len ∧ FInv s maxLen inc (.first k v) := by
  obtain ⟨hkw, hvw, htail, hlen, hrows⟩ := hkv
  let s0 : Full α := {
    seqLen := 0
    k := newEmpty junk k.rows.length (if inc.isSome then 0 else maxLen) k.tail
    v := newEmpty junk k.rows.length (if inc.isSome then 0 else maxLen) k.tail
    capacityIncrement := inc }
  have hi : FInv s0 maxLen inc ⟨k.tail, List.replicate k.rows.length [],
      List.replicate k.rows.length []⟩ :=
    ⟨rfl, by simp, _, Buf.empty _ _ _ _, Buf.empty _ _ _ _, fun h => by simp [h]⟩
  obtain ⟨s', e, hsl, hci, cap, hcap, bk, bv, hnone⟩ := full_expand junk hi hinc k.len
    (fun h => by have := hmax h; show 0 + k.len ≤ maxLen; omega)
  have hcap : k.len ≤ cap := by
    have : s0.seqLen + k.len ≤ cap := hcap
    simp only [s0] at this; omega
  obtain ⟨k', ek, bk'⟩ := bk.replace (src := k) (n := k.len) rfl (by simp) hkw hcap
  obtain ⟨v', ev, bv'⟩ := bv.replace (src := v) (n := k.len) htail (by simp [hrows])
    (by rw [← hlen]; exact hvw) hcap
  refine ⟨{ s' with k := k', v := v', seqLen := k.len }, ?_, rfl, hci, by simp [KvHistory.first, hrows],
    cap, bk', bv', hnone⟩
  simp only [Full.new, hinc, if_false]
  show (s0.expand junk k.len).bind _ = _
  rw [e]
  simp only [Option.bind_eq_bind, Option.bind_some, ek, ev]

/-- **Full cache.** A cache made of some first keys and values is given any sequence of further ones
and of new batch orders. Nothing raises, as long as the total length stays within `max_seq_len` when
the capacity is fixed. Then `get` returns exactly everything that was appended, in order, with the rows
where the reorderings have put them. The contents of fresh memory (`junk`) never show. -/
theorem C49_full (junk : α) (k v : Ten α) (maxLen : Nat) (inc : Option Nat) (ops : List (KvOp α))
    (hinc : inc ≠ some 0) (hkv : Alike k v) (hfit : (KvHistory.first k v).FitsAll ops)
    (hmax : inc = none → k.len + (ops.map KvOp.size).sum ≤ maxLen) :
    ∃ s, (Full.new junk k v maxLen inc).bind (fun s => ops.foldlM (fullOp junk) s) = some s ∧
      s.get.1.rows = (ops.foldl KvHistory.after (.first k v)).keys ∧
      s.get.2.rows = (ops.foldl KvHistory.after (.first k v)).values ∧
      s.get.1.len = k.len + (ops.map KvOp.size).sum ∧ s.get.2.len = k.len + (ops.map KvOp.size).sum := by
  obtain ⟨s1, e1, hl1, hi1⟩ := full_new (maxLen := maxLen) junk hinc hkv (fun h => by have := hmax h; omega)
  rw [e1, Option.bind_some]
  clear e1 hkv
  have main : ∀ (ops : List (KvOp α)) (s : Full α) (h : KvHistory α), FInv s maxLen inc h →
      h.FitsAll ops → (inc = none → s.seqLen + (ops.map KvOp.size).sum ≤ maxLen) →
      ∃ s', ops.foldlM (fullOp junk) s = some s' ∧
        FInv s' maxLen inc (ops.foldl KvHistory.after h) ∧
        s'.seqLen = s.seqLen + (ops.map KvOp.size).sum := by
    intro ops
    induction ops with
    | nil => intro s h hi _ _; exact ⟨s, rfl, hi, by simp⟩
    | cons op ops ih =>
      intro s h hi hf hm
      simp only [List.map_cons, List.sum_cons] at hm
      have hstep : ∃ s', fullOp junk s op = some s' ∧ s'.seqLen = s.seqLen + op.size ∧
          FInv s' maxLen inc (h.after op) := by
        cases op with
        | append k v =>
          exact full_append junk hi hinc hf.1 (fun h => by have := hm h; simp only [KvOp.size] at this; omega)
        | reorder o => exact full_reorder hi hf.1
      obtain ⟨s', e, hl, hi'⟩ := hstep
      obtain ⟨s'', e', hi'', hl'⟩ := ih s' _ hi' hf.2 (fun h => by have := hm h; omega)
      refine ⟨s'', ?_, hi'', ?_⟩
      · simp only [List.foldlM_cons, e, Option.bind_eq_bind, Option.bind_some, e']
      · simp only [List.map_cons, List.sum_cons]; omega
  obtain ⟨s2, e2, hi2, hl2⟩ := main ops s1 _ hi1 hfit (by rw [hl1]; exact hmax)
  refine ⟨s2, e2, ?_⟩
  obtain ⟨cap, bk, bv, -⟩ := hi2.buf
  have hmin : min s2.seqLen cap = s2.seqLen := by have := bk.le; omega
  obtain ⟨g1, g2, -⟩ := bk.get hmin
  obtain ⟨g3, g4, -⟩ := bv.get hmin
  rw [hl1] at hl2
  exact ⟨g1, g3, by rw [← hl2]; exact g2, by rw [← hl2]; exact g4⟩

/-- A batch of two sequences: two positions, one more, swapped rows, one more. -/
example : ((Full.new 0 ⟨[1], 2, [[1, 2], [5, 6]]⟩ ⟨[1], 2, [[11, 12], [15, 16]]⟩ 9 (some 2)).bind
    (fun s => [KvOp.append ⟨[1], 1, [[3], [7]]⟩ ⟨[1], 1, [[13], [17]]⟩, .reorder [1, 0],
      .append ⟨[1], 1, [[8], [4]]⟩ ⟨[1], 1, [[18], [14]]⟩].foldlM (fullOp 0) s)).map
        (fun s => s.get.1.rows) = some [[5, 6, 7, 8], [1, 2, 3, 4]] := by decide

/-- With a fixed capacity one position too many is lost without an error: torch broadcasts the one
position to the empty slice behind the end. -/
theorem C49_overrun : ∃ s s' : Full Nat,
    Full.new 0 ⟨[1], 2, [[1, 2]]⟩ ⟨[1], 2, [[1, 2]]⟩ 2 none = some s ∧
    s.append 0 ⟨[1], 1, [[3]]⟩ ⟨[1], 1, [[3]]⟩ = some s' ∧ s'.get.1.rows = [[1, 2]] :=
  ⟨_, _, rfl, rfl, rfl⟩

/-- Values whose head dimensions differ from those of the keys cannot be cached: the buffer for the
values is made with the dimensions of the keys (multihead_attention.py:683). -/
theorem C49_value_dims (junk : α) (k v : Ten α) (maxLen : Nat) (inc : Option Nat)
    (h : v.tail ≠ k.tail) : Full.new junk k v maxLen inc = none := by
  simp only [Full.new]
  split
  · rfl
  · generalize hs : Full.mk (α := α) 0 _ _ inc = s0
    have h0 : s0.v.tail = k.tail ∧ s0.k.tail = k.tail ∧ s0.seqLen = 0 := by rw [← hs]; exact ⟨rfl, rfl, rfl⟩
    cases hx : s0.expand junk k.len with
    | none => rfl
    | some s1 =>
      have h1 : s1.v.tail = k.tail := by
        unfold Full.expand at hx
        split at hx
        · cases hx; exact h0.1
        · simp only at hx
          split at hx
          · cases hx; exact h0.1
          · rw [if_neg (by omega)] at hx
            cases hx
            exact h0.2.1
      simp only [Option.bind_eq_bind, Option.bind_some]
      cases s1.k.assign 0 k.len k with
      | none => rfl
      | some k' =>
        have : s1.v.assign 0 k.len v = none := by
          simp [Ten.assign, h1, h]
        simp [this]

example : (⟨[2, 8], 1, [[0]]⟩ : Ten Nat).tail ≠ (⟨[2, 4], 1, [[0]]⟩ : Ten Nat).tail := by decide

/-! ## C50 -/

/-- The operations on `LocalAttentionState`. -/
def localOp (junk : α) (s : Local α) : KvOp α → Option (Local α)
  | .append k v => s.append junk k v
  | .reorder order => s.reorder order

/-- The sequences of operations for which the windowed cache is right: no appended piece of more than
one position, unless it fits into what is left of the window, or the window is full already, or the piece
fills it alone. `total` is the number of positions before. -/
def WindowSafe (w : Nat) : Nat → List (KvOp α) → Prop
  | _, [] => True
  | total, op :: ops => (total + op.size ≤ w ∨ w ≤ total ∨ w ≤ op.size) ∧
      WindowSafe w (total + op.size) ops

/-- What a `LocalAttentionState` keeps. -/
structure LInv (s : Local α) (w : Nat) (inc : Option Nat) (h : KvHistory α) : Prop where
  hinc : s.capacityIncrement = inc
  win : s.window = w
  vals : h.values.length = h.keys.length
  klen : ∀ r ∈ h.keys, r.length = s.seqLen
  vlen : ∀ r ∈ h.values, r.length = s.seqLen
  buf : ∃ cap, cap ≤ w ∧ (s.seqLen ≤ cap ∨ cap = w) ∧ (inc = none → cap = w) ∧
    Buf s.k h.tail cap (min s.seqLen cap) (h.keys.map (lastN (min s.seqLen cap))) ∧
    Buf s.v h.tail cap (min s.seqLen cap) (h.values.map (lastN (min s.seqLen cap)))

theorem local_expand (junk : α) {s : Local α} {w : Nat} {inc : Option Nat}
    {h : KvHistory α} (hi : LInv s w inc h) (hinc : inc ≠ some 0) (n : Nat) :
    ∃ s', s.expand junk n = some s' ∧ s'.seqLen = s.seqLen ∧ s'.capacityIncrement = inc ∧
      s'.window = w ∧
      ∃ cap, cap ≤ w ∧ (s.seqLen + n ≤ cap ∨ cap = w) ∧ (inc = none → cap = w) ∧
        Buf s'.k h.tail cap (min s.seqLen cap) (h.keys.map (lastN (min s.seqLen cap))) ∧
        Buf s'.v h.tail cap (min s.seqLen cap) (h.values.map (lastN (min s.seqLen cap))) := by
  obtain ⟨cap, hcw, hlc, hnone, hk, hv⟩ := hi.buf
  cases hinc' : inc with
  | none =>
    refine ⟨s, ?_, rfl, by rw [hi.hinc, hinc'], hi.win, cap, hcw, Or.inr (hnone hinc'),
      fun _ => hnone hinc', hk, hv⟩
    simp [Local.expand, hi.hinc, hinc']
  | some c =>
    have hc0 : 0 < c := by
      rcases Nat.eq_zero_or_pos c with h0 | h0
      · subst h0; exact absurd hinc' hinc
      · exact h0
    by_cases hle : s.seqLen + n ≤ s.k.len ∨ s.k.len = s.window
    · refine ⟨s, ?_, rfl, by rw [hi.hinc, hinc'], hi.win, cap, hcw, ?_, fun h => (by cases h), hk, hv⟩
      · simp [Local.expand, hi.hinc, hinc', hle]
      · rw [← hk.len, ← hi.win]; exact hle
    · have hne : cap ≠ w := by
        intro he; apply hle; right; rw [hk.len, hi.win]; exact he
      have hsc : s.seqLen ≤ cap := by
        rcases hlc with h | h
        · exact h
        · exact absurd h hne
      have hmin : min s.seqLen cap = s.seqLen := by omega
      rw [hmin] at hk hv
      generalize hcap : min ((s.seqLen + n + c - 1) / c * c) w = cap'
      have hge := ceil_mul (n := s.seqLen + n) hc0
      have hge' : s.seqLen + n ≤ cap' ∨ cap' = w := by omega
      have hsc' : s.seqLen ≤ cap' := by omega
      have hmin' : min s.seqLen cap' = s.seqLen := by omega
      have hkn : (h.keys.map (lastN s.seqLen)).length = s.k.rows.length := by rw [hk.num]
      have hvn : (h.values.map (lastN s.seqLen)).length = s.k.rows.length := by
        rw [hk.num]; simp [hi.vals]
      by_cases hpos : s.seqLen > 0
      · obtain ⟨k', ek, bk⟩ := hk.grow junk cap' hsc'
        obtain ⟨v', ev, bv⟩ := hv.grow junk cap' hsc'
        rw [hvn, ← hk.tail] at ev
        rw [hkn, ← hk.tail] at ek
        refine ⟨{ s with k := k', v := v' }, ?_, rfl, by rw [← hinc', ← hi.hinc], hi.win, cap',
          by omega, hge', fun h => (by cases h), by rw [hmin']; exact bk, by rw [hmin']; exact bv⟩
        simp [Local.expand, hi.hinc, hinc', hi.win, hcap, hpos, ek, ev]
        rw [hi.win] at hle
        exact fun h => absurd h hle
      · have h0 : s.seqLen = 0 := by omega
        have hkeys : h.keys.map (lastN s.seqLen) = List.replicate s.k.rows.length [] := by
          rw [← hk.val, h0, ← List.map_const']; apply List.map_congr_left; intro r _; simp
        have hvals : h.values.map (lastN s.seqLen) = List.replicate s.k.rows.length [] := by
          have e : s.v.rows.length = s.k.rows.length := by rw [hv.num, hvn]
          rw [← e, ← hv.val, h0, ← List.map_const']; apply List.map_congr_left; intro r _; simp
        refine ⟨{ s with k := newEmpty junk s.k.rows.length cap' s.k.tail
                         v := newEmpty junk s.k.rows.length cap' s.k.tail }, ?_, rfl,
          by rw [← hinc', ← hi.hinc], hi.win, cap', by omega, hge', fun h => (by cases h), ?_, ?_⟩
        · simp [Local.expand, hi.hinc, hinc', hi.win, hcap, hpos]
          rw [hi.win] at hle
          exact fun h => absurd h hle
        · have := Buf.empty junk s.k.tail cap' s.k.rows.length
          rw [hmin', hkeys, ← hk.tail, h0]; exact this
        · have := Buf.empty junk s.k.tail cap' s.k.rows.length
          rw [hmin', hvals, ← hk.tail, h0]; exact this

private theorem suffix_ok {t : Ten α} {n : Nat} (hw : t.WF) (hn : n ≤ t.len) (h0 : n = 0 → t.len = 0) :
    (t.suffix n).tail = t.tail ∧ (t.suffix n).rows = t.rows.map (lastN n) ∧
      ∀ r ∈ (t.suffix n).rows, r.length = n := by
  have hrows : (t.suffix n).rows = t.rows.map (lastN n) := by
    unfold Ten.suffix
    split
    · rename_i h
      conv => lhs; rw [← List.map_id t.rows]
      apply List.map_congr_left
      intro r hr
      have := hw r hr
      rw [h0 h] at this
      simp [lastN, List.length_eq_zero_iff.mp this]
    · rfl
  refine ⟨by unfold Ten.suffix; split <;> rfl, hrows, ?_⟩
  rw [hrows]
  intro r hr
  rw [List.mem_map] at hr
  obtain ⟨r', hr', rfl⟩ := hr
  rw [lastN_length, hw r' hr']
  omega

private theorem lastN_all {n : Nat} {l : List α} (h : l.length ≤ n) : lastN n l = l := by
  have : l.length - n = 0 := by omega
  simp [lastN, this]

private theorem map_lastN_all {n : Nat} {c : List (List α)} (h : ∀ r ∈ c, r.length ≤ n) :
    c.map (lastN n) = c := by
  conv => rhs; rw [← List.map_id c]
  exact List.map_congr_left fun r hr => lastN_all (h r hr)

/-- Appending to one of the two buffers. -/
private theorem local_put {t src : Ten α} {tail : List Nat} {w cap L n : Nat} {H : List (List α)}
    (hcw : cap ≤ w) (hlc : L + n ≤ cap ∨ cap = w) (hsafe : L + n ≤ w ∨ w ≤ L ∨ w ≤ n) (hw : 0 < w)
    (hb : Buf t tail cap (min L cap) (H.map (lastN (min L cap)))) (hH : ∀ r ∈ H, r.length = L)
    (ht : src.tail = tail) (hr : src.rows.length = H.length) (hs : src.WF) (hn : src.len = n) :
    ∃ t', (if L + n > w then
        if min n w = w then t.assign 0 (0 + min n w) (src.suffix (min n w))
        else (t.rollLeft (min n w)).assign (w - min n w) (w - min n w + min n w) (src.suffix (min n w))
      else t.assign L (L + n) (src.suffix n)) = some t' ∧
      Buf t' tail cap (min (L + n) cap)
        ((List.zipWith (· ++ ·) H src.rows).map (lastN (min (L + n) cap))) := by
  have hs' : ∀ r ∈ src.rows, r.length = n := by rw [← hn]; exact hs
  by_cases h1 : L + n > w
  · rw [if_pos h1]
    have hcap : cap = w := by omega
    subst hcap
    have hmin' : min (L + n) cap = cap := by omega
    rw [hmin']
    by_cases h2 : min n cap = cap
    · rw [if_pos h2, h2, Nat.zero_add]
      obtain ⟨s1, s2, s3⟩ := suffix_ok (n := cap) hs (by omega) (by omega)
      obtain ⟨t', e, b⟩ := hb.replace (src := src.suffix cap) (n := cap) (by rw [s1, ht])
        (by rw [s2]; simp [hr]) s3 (by omega)
      refine ⟨t', e, ?_⟩
      rw [s2] at b
      have : src.rows.map (lastN cap) = (List.zipWith (· ++ ·) H src.rows).map (lastN cap) := by
        have e1 : src.rows.map (lastN cap) = List.zipWith (fun _ s => lastN cap s) H src.rows := by
          clear b e s3 s2 s1 hs hs' hb hH
          generalize src.rows = R at *
          induction H generalizing R with
          | nil => cases R <;> simp_all
          | cons a H ih =>
            cases R with
            | nil => simp at hr
            | cons x R =>
              simp only [List.map_cons, List.zipWith_cons_cons]
              rw [ih R (by simpa using hr)]
        rw [e1]
        symm
        apply zipWith_map_congr
        intro x hx y hy
        have hy' := hs' y hy
        simp only [lastN, List.length_append]
        rw [List.drop_append, List.drop_of_length_le (by omega)]
        simp
        congr 1
        omega
      rw [← this]
      exact b
    · rw [if_neg h2]
      have hnw : min n cap = n := by omega
      have hml : min L cap = cap := by omega
      rw [hnw]
      rw [hml] at hb
      obtain ⟨s1, s2, s3⟩ := suffix_ok (n := n) hs (by omega) (by omega)
      obtain ⟨t', e, b⟩ := hb.shift (src := src.suffix n) (n := n) (by rw [s1, ht])
        (by rw [s2]; simp [hr]) s3 (by omega)
      refine ⟨t', e, ?_⟩
      rw [s2, map_lastN_all (c := src.rows) (by intro r hr; rw [hs' r hr]; exact Nat.le_refl _)] at b
      have : (List.zipWith (· ++ ·) H src.rows).map (lastN cap) =
          List.zipWith (fun d s => d.drop n ++ s) (H.map (lastN cap)) src.rows := by
        rw [List.zipWith_map_left]
        apply zipWith_map_congr
        intro x hx y hy
        have hx' := hH x hx
        have hy' := hs' y hy
        simp only [lastN, List.length_append, List.drop_drop]
        rw [List.drop_append_of_le_length (by omega)]
        congr 2
        omega
      rw [this]
      exact b
  · rw [if_neg h1]
    have hc : L + n ≤ cap := by omega
    have hml : min L cap = L := by omega
    have hmn : min (L + n) cap = L + n := by omega
    rw [hml, map_lastN_all (by intro r hr; rw [hH r hr]; exact Nat.le_refl _)] at hb
    rw [hmn]
    obtain ⟨s1, s2, s3⟩ := suffix_ok (n := n) hs (by omega) (by omega)
    obtain ⟨t', e, b⟩ := hb.put (src := src.suffix n) (n := n) (by rw [s1, ht])
      (by rw [s2]; simp [hr]) s3 hc
    refine ⟨t', e, ?_⟩
    rw [s2, map_lastN_all (by intro r hr; rw [hs' r hr]; exact Nat.le_refl _)] at b
    rw [map_lastN_all (by intro r hr; rw [b.lens r hr]; exact Nat.le_refl _)]
    exact b

private theorem zip_len {H R : List (List α)} {L n : Nat} (hH : ∀ r ∈ H, r.length = L)
    (hR : ∀ r ∈ R, r.length = n) : ∀ r ∈ List.zipWith (· ++ ·) H R, r.length = L + n := by
  intro r hr
  rw [← List.map_uncurry_zip_eq_zipWith, List.mem_map] at hr
  obtain ⟨⟨d, s⟩, hm, rfl⟩ := hr
  have hm := List.of_mem_zip hm
  simp [Function.uncurry, hH d hm.1, hR s hm.2]

theorem local_append (junk : α) {s : Local α} {w : Nat} {inc : Option Nat}
    {h : KvHistory α} (hi : LInv s w inc h) (hinc : inc ≠ some 0) (hw : 0 < w) {k v : Ten α}
    (hf : h.Fits (.append k v)) (hsafe : s.seqLen + k.len ≤ w ∨ w ≤ s.seqLen ∨ w ≤ k.len) :
    ∃ s', s.append junk k v = some s' ∧ s'.seqLen = s.seqLen + k.len ∧
      LInv s' w inc (h.after (.append k v)) := by
  obtain ⟨⟨hkw, hvw, htail, hlen, hrows⟩, ht, hr⟩ := hf
  obtain ⟨s', e, hsl, hci, hwin, cap, hcw, hlc, hnone, bk, bv⟩ := local_expand junk hi hinc k.len
  obtain ⟨k', ek, bk'⟩ := local_put hcw hlc hsafe hw bk hi.klen ht hr hkw rfl
  obtain ⟨v', ev, bv'⟩ := local_put hcw hlc hsafe hw bv hi.vlen (by rw [htail, ht])
    (by rw [hrows, hr, hi.vals]) hvw hlen
  refine ⟨{ s' with k := k', v := v', seqLen := s'.seqLen + k.len }, ?_, by simp [hsl], ?_⟩
  · simp only [Local.append, e, Option.bind_eq_bind, Option.bind_some, hsl, hwin]
    by_cases h1 : s.seqLen + k.len > w
    · simp only [h1, if_true] at ek ev ⊢
      by_cases h2 : min k.len w = w
      · simp only [h2, if_true] at ek ev ⊢
        simp only [ek, ev, Option.bind_some, hwin, hsl]
      · simp only [h2, if_false] at ek ev ⊢
        simp only [ek, ev, Option.bind_some]
    · simp only [h1, if_false] at ek ev ⊢
      simp only [ek, ev, Option.bind_some, hwin, hsl]
  · refine ⟨hci, hwin, ?_, ?_, ?_, cap, hcw, ?_, hnone, ?_, ?_⟩
    · simp only [KvHistory.after, List.length_zipWith, hi.vals, hrows]
    · simp only [hsl]; exact zip_len hi.klen hkw
    · simp only [hsl]; exact zip_len hi.vlen (by rw [← hlen]; exact hvw)
    · simp only [hsl]; exact hlc
    · simp only [hsl]; exact bk'
    · simp only [hsl]; exact bv'

private theorem map_order {H : List (List α)} {order : List Nat} {m : Nat} (ho : ∀ i ∈ order, i < H.length) :
    (order.map fun i => ((H.map (lastN m))[i]?).getD []) =
      (order.map fun i => (H[i]?).getD []).map (lastN m) := by
  rw [List.map_map]
  apply List.map_congr_left
  intro i hi
  simp [List.getElem?_eq_getElem (ho i hi)]

private theorem order_len {H : List (List α)} {order : List Nat} {L : Nat}
    (ho : ∀ i ∈ order, i < H.length) (hH : ∀ r ∈ H, r.length = L) :
    ∀ r ∈ order.map (fun i => (H[i]?).getD []), r.length = L := by
  intro r hr
  rw [List.mem_map] at hr
  obtain ⟨i, hi, rfl⟩ := hr
  rw [List.getElem?_eq_getElem (ho i hi)]
  exact hH _ (List.getElem_mem _)

theorem local_reorder {s : Local α} {w : Nat} {inc : Option Nat}
    {h : KvHistory α} (hi : LInv s w inc h) {order : List Nat} (hf : h.Fits (.reorder order)) :
    ∃ s', s.reorder order = some s' ∧ s'.seqLen = s.seqLen ∧
      LInv s' w inc (h.after (.reorder order)) := by
  obtain ⟨cap, hcw, hlc, hnone, bk, bv⟩ := hi.buf
  have hf' : ∀ i ∈ order, i < h.values.length := by rw [hi.vals]; exact hf
  obtain ⟨k', ek, bk'⟩ := bk.select (order := order) (by rw [List.length_map]; exact hf)
  obtain ⟨v', ev, bv'⟩ := bv.select (order := order) (by rw [List.length_map]; exact hf')
  rw [map_order hf] at bk'
  rw [map_order hf'] at bv'
  refine ⟨{ s with k := k', v := v' }, ?_, rfl, hi.hinc, hi.win, by simp [KvHistory.after],
    order_len hf hi.klen, order_len hf' hi.vlen, cap, hcw, hlc, hnone, bk', bv'⟩
  simp only [Local.reorder, ek, ev, Option.bind_eq_bind, Option.bind_some]

theorem local_new (junk : α) {k v : Ten α} {maxLen window w : Nat} {inc : Option Nat} (hinc : inc ≠ some 0)
    (hw : 0 < w) (hkv : Alike k v) (hwd : min maxLen window = w) :
    ∃ s, Local.new junk k v maxLen window inc = some s ∧ s.seqLen = k.len ∧ LInv s w inc (.first k v) := by
  obtain ⟨hkw, hvw, htail, hlen, hrows⟩ := hkv
  let s0 : Local α := {
    seqLen := 0
    window := w
    k := newEmpty junk k.rows.length (if inc.isSome then 0 else w) k.tail
    v := newEmpty junk k.rows.length (if inc.isSome then 0 else w) k.tail
    capacityIncrement := inc }
  have hemp : (List.replicate k.rows.length ([] : List α)).map (lastN 0) =
      List.replicate k.rows.length [] := by simp [lastN]
  have hi : LInv s0 w inc ⟨k.tail, List.replicate k.rows.length [],
      List.replicate k.rows.length []⟩ := by
    refine ⟨rfl, rfl, by simp, ?_, ?_, (if inc.isSome then 0 else w), by split <;> omega,
      Or.inl (Nat.zero_le _), fun h => by simp [h], ?_, ?_⟩
    · intro r hr; rw [List.eq_of_mem_replicate hr]; rfl
    · intro r hr; rw [List.eq_of_mem_replicate hr]; rfl
    · simp only [s0, Nat.zero_min, hemp]; exact Buf.empty _ _ _ _
    · simp only [s0, Nat.zero_min, hemp]; exact Buf.empty _ _ _ _
  obtain ⟨s', e, hsl, hci, hwin, cap, hcw, hlc, hnone, bk, bv⟩ := local_expand junk hi hinc k.len
  have hsl0 : s0.seqLen = 0 := rfl
  rw [hsl0] at hlc hsl
  obtain ⟨a1, a2, a3⟩ := suffix_ok (n := min k.len w) hkw (by omega) (by omega)
  obtain ⟨b1, b2, b3⟩ := suffix_ok (n := min k.len w) hvw (by omega) (by omega)
  obtain ⟨k', ek, bk'⟩ := bk.replace (src := k.suffix (min k.len w)) (n := min k.len w) a1
    (by rw [a2]; simp) a3 (by omega)
  obtain ⟨v', ev, bv'⟩ := bv.replace (src := v.suffix (min k.len w)) (n := min k.len w)
    (by rw [b1, htail]) (by rw [b2]; simp [hrows]) b3 (by omega)
  have hmin : min k.len w = min k.len cap := by omega
  rw [a2] at bk'
  rw [b2] at bv'
  rw [hmin] at bk' bv'
  refine ⟨{ s' with k := k', v := v', seqLen := k.len }, ?_, rfl, hci, hwin,
    by simp [KvHistory.first, hrows], hkw, by rw [← hlen]; exact hvw, cap, hcw, by simpa using hlc,
    hnone, bk', bv'⟩
  simp only [Local.new, hinc, if_false, hwd]
  show (s0.expand junk k.len).bind _ = _
  rw [e]
  simp only [Option.bind_eq_bind, Option.bind_some, ek, ev]

/-- **Windowed cache.** With `w` the smaller of `max_seq_len` and the window length, and appended pieces
that do not straddle the moment the window becomes full (`WindowSafe`; single positions never do, see
`C50_single_positions`), nothing raises and `get` returns exactly the last `w` positions of everything
appended (all of them as long as there are fewer), in order, with the rows where the reorderings have put
them.

Missing for the full property: pieces of two or more positions that straddle that moment, for which the
claim is false (`C50_straddle`). -/
theorem C50_local_partial (junk : α) (k v : Ten α) (maxLen window : Nat) (inc : Option Nat)
    (ops : List (KvOp α)) (hinc : inc ≠ some 0) (hw : 0 < min maxLen window) (hkv : Alike k v)
    (hfit : (KvHistory.first k v).FitsAll ops) (hsafe : WindowSafe (min maxLen window) k.len ops) :
    ∃ s, (Local.new junk k v maxLen window inc).bind (fun s => ops.foldlM (localOp junk) s) = some s ∧
      s.get.1.rows = (ops.foldl KvHistory.after (.first k v)).keys.map
        (fun r => r.drop (r.length - min maxLen window)) ∧
      s.get.2.rows = (ops.foldl KvHistory.after (.first k v)).values.map
        (fun r => r.drop (r.length - min maxLen window)) := by
  generalize hwd : min maxLen window = w at *
  obtain ⟨s1, e1, hl1, hi1⟩ := local_new junk hinc hw hkv hwd
  rw [e1, Option.bind_some]
  rw [← hl1] at hsafe
  clear e1 hkv hwd hl1
  have main : ∀ (ops : List (KvOp α)) (s : Local α) (h : KvHistory α), LInv s w inc h →
      h.FitsAll ops → WindowSafe w s.seqLen ops →
      ∃ s', ops.foldlM (localOp junk) s = some s' ∧ LInv s' w inc (ops.foldl KvHistory.after h) := by
    intro ops
    induction ops with
    | nil => intro s h hi _ _; exact ⟨s, rfl, hi⟩
    | cons op ops ih =>
      intro s h hi hf hm
      have hstep : ∃ s', localOp junk s op = some s' ∧ s'.seqLen = s.seqLen + op.size ∧
          LInv s' w inc (h.after op) := by
        cases op with
        | append k v => exact local_append junk hi hinc hw hf.1 hm.1
        | reorder o => exact local_reorder hi hf.1
      obtain ⟨s', e, hl, hi'⟩ := hstep
      obtain ⟨s'', e', hi''⟩ := ih s' _ hi' hf.2 (by rw [hl]; exact hm.2)
      refine ⟨s'', ?_, hi''⟩
      simp only [List.foldlM_cons, e, Option.bind_eq_bind, Option.bind_some, e']
  obtain ⟨s2, e2, hi2⟩ := main ops s1 _ hi1 hfit hsafe
  refine ⟨s2, e2, ?_⟩
  obtain ⟨cap, hcw, hlc, -, bk, bv⟩ := hi2.buf
  obtain ⟨g1, -, -⟩ := bk.get (n := s2.seqLen) rfl
  obtain ⟨g3, -, -⟩ := bv.get (n := s2.seqLen) rfl
  have fin : ∀ H : List (List α), (∀ r ∈ H, r.length = s2.seqLen) →
      H.map (lastN (min s2.seqLen cap)) = H.map (fun r => r.drop (r.length - w)) := by
    intro H hH
    apply List.map_congr_left
    intro r hr
    simp only [lastN, hH r hr]
    congr 1
    omega
  rw [fin _ hi2.klen] at g1
  rw [fin _ hi2.vlen] at g3
  exact ⟨g1, g3⟩

/-- A prompt longer than the window, then single positions. -/
example : ((Local.new 0 ⟨[1], 4, [[1, 2, 3, 4]]⟩ ⟨[1], 4, [[1, 2, 3, 4]]⟩ 10 3 (some 2)).bind
    (fun s => [KvOp.append ⟨[1], 1, [[5]]⟩ ⟨[1], 1, [[5]]⟩, .append ⟨[1], 1, [[6]]⟩ ⟨[1], 1, [[6]]⟩].foldlM
      (localOp 0) s)).map (fun s => s.get.1.rows) = some [[4, 5, 6]] := by decide

/-- Decoding one position after the other is always safe, whatever the prompt. -/
theorem C50_single_positions (w total : Nat) (ops : List (KvOp α))
    (h : ∀ op ∈ ops, op.size ≤ 1) : WindowSafe w total ops := by
  induction ops generalizing total with
  | nil => trivial
  | cons op ops ih =>
    have := h op (by simp)
    exact ⟨by omega, ih _ fun o ho => h o (by simp [ho])⟩

example : ∀ op ∈ [KvOp.append (⟨[1], 1, [[5]]⟩ : Ten Nat) ⟨[1], 1, [[5]]⟩, .reorder [0]], op.size ≤ 1 := by
  decide

/-- **Straddling pieces.** A window of 4 that holds two positions is given three more. The cache is then
asked for the last four of `1 2 3 4 5`; it returns uninitialised memory instead of `2`: the buffer is
rolled as if it were full. -/
theorem C50_straddle (junk : Nat) : ∃ s s' : Local Nat,
    Local.new junk ⟨[1], 2, [[1, 2]]⟩ ⟨[1], 2, [[1, 2]]⟩ 10 4 none = some s ∧
    s.append junk ⟨[1], 3, [[3, 4, 5]]⟩ ⟨[1], 3, [[3, 4, 5]]⟩ = some s' ∧
    s'.get.1.rows = [[junk, 3, 4, 5]] :=
  ⟨_, _, rfl, rfl, rfl⟩

/-! ## C51 -/

/-- **Reordering the cache of encoder outputs** puts row `order[i]` at `i` if the order has another length
than the batch, and also if it has the same length and all the rows it swaps are equal (as the beams of
one sequence are).

Missing for the full property: orders of the length of the batch that move different rows, which are
ignored (`C51_ignored`). -/
theorem C51_reorder_partial (s : Static α) (order : List Nat) (hv : s.v.rows.length = s.k.rows.length)
    (ho : ∀ i ∈ order, i < s.k.rows.length)
    (hsame : order.length = s.k.rows.length → ∀ (i j : Nat), order[i]? = some j →
      s.k.rows[j]? = s.k.rows[i]? ∧ s.v.rows[j]? = s.v.rows[i]?) :
    ∃ s', s.reorder order = some s' ∧
      s'.get.1.rows = order.map (fun i => (s.k.rows[i]?).getD []) ∧
      s'.get.2.rows = order.map (fun i => (s.v.rows[i]?).getD []) := by
  by_cases h : order.length ≠ s.k.rows.length
  · have h1 := indexSelect_ok ho
    have h2 := indexSelect_ok (t := s.v) (order := order) (by rw [hv]; exact ho)
    refine ⟨{ k := { s.k with rows := order.map fun i => (s.k.rows[i]?).getD [] }
              v := { s.v with rows := order.map fun i => (s.v.rows[i]?).getD [] } }, ?_, rfl, rfl⟩
    simp [Static.reorder, h, h1, h2]
  · have hl : order.length = s.k.rows.length := by omega
    have eq : ∀ (rows : List (List α)), rows.length = order.length →
        (∀ (i j : Nat), order[i]? = some j → rows[j]? = rows[i]?) →
        rows = order.map (fun i => (rows[i]?).getD []) := by
      intro rows hlen hr
      apply List.ext_getElem
      · simp [hlen]
      · intro i h1 h2
        have hi : i < order.length := by omega
        have := hr i order[i] (List.getElem?_eq_getElem hi)
        simp [this, List.getElem?_eq_getElem h1]
    refine ⟨s, by simp [Static.reorder, hl], ?_, ?_⟩
    · exact eq _ hl.symm fun i j e => (hsame hl i j e).1
    · exact eq s.v.rows (by rw [hv, hl]) fun i j e => (hsame hl i j e).2

/-- Two beams for each of two sequences, one sequence finished. -/
example : ((⟨⟨[1], 1, [[1], [1], [2], [2]]⟩, ⟨[1], 1, [[1], [1], [2], [2]]⟩⟩ : Static Nat).reorder
    [2, 3]).map (fun s => s.get.1.rows) = some [[2], [2]] := by decide

/-- **Ignored order.** Asked to continue only the first of two sequences, twice, the cache goes on
returning the encoder output of both. -/
theorem C51_ignored :
    (⟨⟨[1], 1, [[1], [2]]⟩, ⟨[1], 1, [[1], [2]]⟩⟩ : Static Nat).reorder [0, 0] =
      some ⟨⟨[1], 1, [[1], [2]]⟩, ⟨[1], 1, [[1], [2]]⟩⟩ := rfl

end Fs2.Props
