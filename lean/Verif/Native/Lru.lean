/-!
# The LRU cache of file descriptors

Model of `native/src/fairseq2n/data/detail/lru_cache.h` (lines 18-112).  The two fields are kept apart as in the code: `entries_`
is a linked list whose nodes are named by numbers (what an iterator is in C++), `map_` takes a key to the name of a node.
-/

namespace Fs2.Native

variable {K V : Type} [DecidableEq K]

/-- A node of `entries_`. -/
structure Node (K V : Type) where
  id : Nat
  key : K
  val : V

/-- `lru_cache` (lru_cache.h:53-55); `fresh` is the name of the next node to be allocated. -/
structure Lru (K V : Type) where
  capacity : Nat
  map : List (K × Nat)
  entries : List (Node K V)
  fresh : Nat

/-- lru_cache.h:23-26. -/
def Lru.new (capacity : Nat) : Lru K V := ⟨capacity, [], [], 0⟩

/-- `map_.find(key)`. -/
def Lru.find (c : Lru K V) (k : K) : Option Nat := (c.map.find? fun e => e.1 = k).map (·.2)

/-- `entries_.splice(entries_.begin(), entries_, node)` (lru_cache.h:71, 106). -/
def splice (id : Nat) (es : List (Node K V)) : List (Node K V) :=
  es.filter (·.id = id) ++ es.filter (·.id ≠ id)

/-- `lru_cache::add` (lru_cache.h:58-95). -/
def Lru.add (c : Lru K V) (k : K) (v : V) : Lru K V :=
  if c.capacity = 0 then c
  else match c.find k with
    | some id =>
      { c with entries := (splice id c.entries).map fun e => if e.id = id then { e with val := v } else e }
    | none =>
      -- lru_cache.h:79-87
      let c' := if c.map.length = c.capacity then
          match c.entries.getLast? with
          | some e => { c with map := c.map.filter (·.1 ≠ e.key), entries := c.entries.dropLast }
          | none => c
        else c
      -- lru_cache.h:91-94
      { c' with entries := ⟨c.fresh, k, v⟩ :: c'.entries, map := (k, c.fresh) :: c'.map, fresh := c.fresh + 1 }

/-- `lru_cache::maybe_get` (lru_cache.h:97-112). -/
def Lru.get (c : Lru K V) (k : K) : Option V × Lru K V :=
  match c.find k with
  | some id =>
    (((splice id c.entries).head?).map (·.val), { c with entries := splice id c.entries })
  | none => (none, c)

/-- lru_cache.h:46-50. -/
def Lru.size (c : Lru K V) : Nat := c.map.length

/-! ## Histories -/

inductive LruOp (K V : Type) where
  | add (k : K) (v : V)
  | get (k : K)
  | clear

/-- One operation and what it returned (`none` for `add` and `clear`). -/
def Lru.step (c : Lru K V) : LruOp K V → Option V × Lru K V
  | .add k v => (none, c.add k v)
  | .get k => c.get k
  -- lru_cache.h:38-44
  | .clear => (none, { c with map := [], entries := [] })

/-- What was done and what came back, the last operation first. -/
abbrev LruHist (K V : Type) := List (LruOp K V × Option V)

/-- `c` after the history `h`, starting from an empty cache. -/
inductive Lru.Ran (cap : Nat) : LruHist K V → Lru K V → Prop where
  | new : Ran cap [] (.new cap)
  | step {h c} (op : LruOp K V) : Ran cap h c → Ran cap ((op, (c.step op).1) :: h) (c.step op).2

/-! ## Specification -/

/-- The keys that have been used since the last `clear`, the most recent use first: added, or looked up and found. -/
def usedKeys : LruHist K V → List K
  | [] => []
  | (.add k _, _) :: h => k :: usedKeys h
  | (.get k, some _) :: h => k :: usedKeys h
  | (.get _, none) :: h => usedKeys h
  | (.clear, _) :: _ => []

/-- Each key once, the most recently used first. -/
def recent (h : LruHist K V) : List K := (usedKeys h).eraseDups

/-- The value most recently added for a key. -/
def lastAdded (k : K) : LruHist K V → Option V
  | [] => none
  | (.add k' v, _) :: h => if k' = k then some v else lastAdded k h
  | (.get _, _) :: h => lastAdded k h
  | (.clear, _) :: _ => none

/-! ## Proof -/

theorem eraseDups_cons_filter (k : K) (l : List K) : (k :: l).eraseDups = k :: (l.eraseDups).filter (· ≠ k) := by
  rw [List.eraseDups_cons]
  congr 1
  generalize hn : l.length = n
  induction n using Nat.strongRecOn generalizing l with
  | _ n ih =>
    cases l with
    | nil => rfl
    | cons a l =>
      simp only [List.length_cons] at hn
      have hl : (l.filter fun b => !b == a).length < n :=
        Nat.lt_of_le_of_lt (List.length_filter_le _ _) (by omega)
      have hl' : (l.filter fun b => !b == k).length < n :=
        Nat.lt_of_le_of_lt (List.length_filter_le _ _) (by omega)
      by_cases h : a = k
      · subst h
        rw [List.filter_cons_of_neg (by simp), List.eraseDups_cons, List.filter_cons_of_neg (by simp)]
        refine (List.filter_eq_self.mpr fun b hb => ?_).symm
        have : b ∈ l.filter (fun b => !b == a) := List.mem_eraseDups.mp hb
        simpa using (List.mem_filter.mp this).2
      · rw [List.filter_cons_of_pos (by simpa using h), List.eraseDups_cons, List.eraseDups_cons,
          List.filter_cons_of_pos (by simpa using h)]
        congr 1
        rw [← ih _ hl _ rfl]
        congr 1
        simp only [List.filter_filter]
        congr 1
        funext b
        exact Bool.and_comm _ _

theorem nodup_eraseDups (l : List K) : l.eraseDups.Nodup := by
  induction l with
  | nil => exact List.nodup_nil
  | cons a l ih =>
    rw [eraseDups_cons_filter]
    refine List.nodup_cons.mpr ⟨by simp, ih.filter _⟩

theorem take_filter_of_mem {k : K} {l : List K} (hl : l.Nodup) {n : Nat} (hk : k ∈ l.take (n + 1)) :
    (l.take (n + 1)).filter (· ≠ k) = (l.filter (· ≠ k)).take n := by
  induction l generalizing n with
  | nil => simp
  | cons a l ih =>
    have ha := List.nodup_cons.mp hl
    rw [List.take_succ_cons] at hk ⊢
    by_cases h : a = k
    · subst h
      have h1 : l.filter (· ≠ a) = l := List.filter_eq_self.mpr fun b hb => by
        simp only [ne_eq, decide_not, Bool.not_eq_eq_eq_not, Bool.not_true, decide_eq_false_iff_not]
        rintro rfl; exact ha.1 hb
      have h2 : (l.take n).filter (· ≠ a) = l.take n := List.filter_eq_self.mpr fun b hb => by
        simp only [ne_eq, decide_not, Bool.not_eq_eq_eq_not, Bool.not_true, decide_eq_false_iff_not]
        rintro rfl; exact ha.1 (List.mem_of_mem_take hb)
      rw [List.filter_cons_of_neg (by simp), List.filter_cons_of_neg (by simp), h1, h2]
    · rw [List.filter_cons_of_pos (by simpa using h), List.filter_cons_of_pos (by simpa using h)]
      cases n with
      | zero =>
        simp only [List.take_zero, List.mem_singleton] at hk
        exact absurd hk.symm h
      | succ n =>
        rw [List.take_succ_cons]
        congr 1
        refine ih ha.2 ?_
        rcases List.mem_cons.mp hk with e | e
        · exact absurd e.symm h
        · exact e

theorem take_filter_of_not_mem {k : K} {l : List K} {n : Nat} (hk : k ∉ l.take n) {m : Nat} (hm : m ≤ n) :
    (l.filter (· ≠ k)).take m = l.take m := by
  induction l generalizing n m with
  | nil => simp
  | cons a l ih =>
    cases m with
    | zero => simp
    | succ m =>
      cases n with
      | zero => omega
      | succ n =>
        rw [List.take_succ_cons] at hk
        simp only [List.mem_cons, not_or] at hk
        rw [List.filter_cons_of_pos (by simpa using fun e => hk.1 e.symm), List.take_succ_cons, List.take_succ_cons,
          ih hk.2 (by omega)]

/-- What ties the fields to the history. -/
structure LruInv (cap : Nat) (h : LruHist K V) (c : Lru K V) : Prop where
  limit : c.capacity = cap
  keys : c.entries.map (·.key) = (recent h).take cap
  map : c.map.Perm (c.entries.map fun e => (e.key, e.id))
  ids : (c.entries.map (·.id)).Nodup
  old : ∀ e ∈ c.entries, e.id < c.fresh
  vals : ∀ e ∈ c.entries, lastAdded e.key h = some e.val

theorem LruInv.nodup {cap : Nat} {h : LruHist K V} {c : Lru K V} (i : LruInv cap h c) : (c.entries.map (·.key)).Nodup := by
  rw [i.keys]
  exact (nodup_eraseDups _).sublist (List.take_sublist _ _)

theorem LruInv.find_some {cap : Nat} {h : LruHist K V} {c : Lru K V} (i : LruInv cap h c) {k : K} {id : Nat}
    (hf : c.find k = some id) : ∃ e ∈ c.entries, e.key = k ∧ e.id = id := by
  unfold Lru.find at hf
  cases hx : c.map.find? (fun e => decide (e.1 = k)) with
  | none => rw [hx] at hf; cases hf
  | some p =>
    rw [hx] at hf
    have h1 := List.mem_of_find?_eq_some hx
    have h2 := List.find?_some hx
    rw [i.map.mem_iff] at h1
    obtain ⟨e, he, rfl⟩ := List.mem_map.mp h1
    cases hf
    exact ⟨e, he, by simpa using h2, rfl⟩

theorem LruInv.find_none {cap : Nat} {h : LruHist K V} {c : Lru K V} (i : LruInv cap h c) {k : K} (hf : c.find k = none) :
    k ∉ c.entries.map (·.key) := by
  unfold Lru.find at hf
  cases hx : c.map.find? (fun e => decide (e.1 = k)) with
  | some p => rw [hx] at hf; cases hf
  | none =>
    intro hk
    obtain ⟨e, he, rfl⟩ := List.mem_map.mp hk
    have := List.find?_eq_none.mp hx (e.key, e.id) (i.map.mem_iff.mpr (List.mem_map.mpr ⟨e, he, rfl⟩))
    simp at this

omit [DecidableEq K] in
/-- The node that is spliced comes first, the others keep their order. -/
theorem splice_eq {es : List (Node K V)} (hi : (es.map (·.id)).Nodup) {e : Node K V} (he : e ∈ es) :
    splice e.id es = e :: es.filter (·.id ≠ e.id) := by
  unfold splice
  suffices h : es.filter (·.id = e.id) = [e] by rw [h]; rfl
  induction es with
  | nil => cases he
  | cons a es ih =>
    simp only [List.map_cons, List.nodup_cons] at hi
    rcases List.mem_cons.mp he with rfl | he
    · rw [List.filter_cons_of_pos (by simp)]
      congr 1
      refine List.filter_eq_nil_iff.mpr fun b hb => ?_
      simp only [decide_eq_true_eq]
      intro h
      exact hi.1 (List.mem_map.mpr ⟨b, hb, h⟩)
    · rw [List.filter_cons_of_neg, ih hi.2 he]
      simp only [decide_eq_true_eq]
      intro h
      exact hi.1 (List.mem_map.mpr ⟨e, he, h.symm⟩)

theorem inj_of_nodup {α β : Type} {f : α → β} {l : List α} (h : (l.map f).Nodup) {a b : α} (ha : a ∈ l) (hb : b ∈ l)
    (e : f a = f b) : a = b := by
  induction l with
  | nil => cases ha
  | cons c l ih =>
    simp only [List.map_cons, List.nodup_cons] at h
    cases ha with
    | head =>
      cases hb with
      | head => rfl
      | tail _ hb => exact absurd (List.mem_map.mpr ⟨b, hb, e.symm⟩) h.1
    | tail _ ha =>
      cases hb with
      | head => exact absurd (List.mem_map.mpr ⟨a, ha, e⟩) h.1
      | tail _ hb => exact ih h.2 ha hb

theorem filter_ids {es : List (Node K V)} (hi : (es.map (·.id)).Nodup) (hk : (es.map (·.key)).Nodup) {e : Node K V}
    (he : e ∈ es) : (es.filter (·.id ≠ e.id)).map (·.key) = (es.map (·.key)).filter (· ≠ e.key) := by
  rw [List.filter_map]
  congr 1
  refine List.filter_congr fun a ha => ?_
  have : a.id = e.id ↔ a.key = e.key :=
    ⟨fun h => by rw [inj_of_nodup hi ha he h], fun h => by rw [inj_of_nodup hk ha he h]⟩
  simp [this]

omit [DecidableEq K] in
theorem splice_perm (id : Nat) (es : List (Node K V)) : (splice id es).Perm es := by
  have := List.filter_append_perm (fun e : Node K V => decide (e.id = id)) es
  simpa [splice] using this

theorem recent_use {k : K} {h : LruHist K V} : ((k :: usedKeys h).eraseDups) = k :: (recent h).filter (· ≠ k) :=
  eraseDups_cons_filter k (usedKeys h)

/-- Using a key that is held. -/
theorem LruInv.move {cap : Nat} {h : LruHist K V} {c : Lru K V} (i : LruInv cap h c) {k : K} {id : Nat} (hf : c.find k = some id) :
    ∃ e ∈ c.entries, e.key = k ∧ e.id = id ∧ splice id c.entries = e :: c.entries.filter (·.id ≠ e.id) ∧
      (splice id c.entries).map (·.key) = (k :: (recent h).filter (· ≠ k)).take cap := by
  obtain ⟨e, he, rfl, rfl⟩ := i.find_some hf
  refine ⟨e, he, rfl, rfl, splice_eq i.ids he, ?_⟩
  rw [splice_eq i.ids he, List.map_cons, filter_ids i.ids i.nodup he]
  have hm : e.key ∈ c.entries.map (·.key) := List.mem_map.mpr ⟨e, he, rfl⟩
  cases cap with
  | zero => rw [i.keys] at hm; simp at hm
  | succ n =>
    rw [List.take_succ_cons, i.keys]
    rw [i.keys] at hm
    congr 1
    exact take_filter_of_mem (nodup_eraseDups _) hm

theorem LruInv.get_some {cap : Nat} {h : LruHist K V} {c : Lru K V} (i : LruInv cap h c) {k : K} {id : Nat} (hf : c.find k = some id)
    {v : V} : LruInv cap ((.get k, some v) :: h) { c with entries := splice id c.entries } := by
  obtain ⟨e, he, -, -, h1, h2⟩ := i.move hf
  have hp := splice_perm id c.entries
  refine ⟨i.limit, ?_, ?_, ?_, ?_, ?_⟩
  · rw [h2]
    show _ = ((k :: usedKeys h).eraseDups).take cap
    rw [recent_use]
  · exact i.map.trans (hp.map _).symm
  · exact (hp.map (·.id)).nodup_iff.mpr i.ids
  · intro e he
    exact i.old e (hp.mem_iff.mp he)
  · intro e he
    exact i.vals e (hp.mem_iff.mp he)

theorem LruInv.add_some {cap : Nat} {h : LruHist K V} {c : Lru K V} (i : LruInv cap h c) {k : K} {id : Nat} (hf : c.find k = some id)
    {v : V} {o : Option V} : LruInv cap ((.add k v, o) :: h)
      { c with entries := (splice id c.entries).map fun e => if e.id = id then { e with val := v } else e } := by
  obtain ⟨e, he, rfl, rfl, h1, h2⟩ := i.move hf
  have hp := splice_perm e.id c.entries
  have hk : ∀ x : Node K V, (if x.id = e.id then { x with val := v } else x).key = x.key := fun x => by split <;> rfl
  have hid : ∀ x : Node K V, (if x.id = e.id then { x with val := v } else x).id = x.id := fun x => by split <;> rfl
  refine ⟨i.limit, ?_, ?_, ?_, ?_, ?_⟩
  · rw [List.map_map]
    have : ((fun x : Node K V => x.key) ∘ fun x => if x.id = e.id then { x with val := v } else x) = (·.key) := funext hk
    rw [this, h2]
    show _ = ((e.key :: usedKeys h).eraseDups).take cap
    rw [recent_use]
  · rw [List.map_map]
    have : ((fun x : Node K V => (x.key, x.id)) ∘ fun x => if x.id = e.id then { x with val := v } else x) =
        fun x => (x.key, x.id) := funext fun x => by simp only [Function.comp_apply, hk, hid]
    rw [this]
    exact i.map.trans (hp.map _).symm
  · rw [List.map_map]
    have : ((fun x : Node K V => x.id) ∘ fun x => if x.id = e.id then { x with val := v } else x) = (·.id) := funext hid
    rw [this]
    exact (hp.map (·.id)).nodup_iff.mpr i.ids
  · intro x hx
    obtain ⟨y, hy, rfl⟩ := List.mem_map.mp hx
    rw [hid]
    exact i.old y (hp.mem_iff.mp hy)
  · intro x hx
    obtain ⟨y, hy, rfl⟩ := List.mem_map.mp hx
    have hy' := hp.mem_iff.mp hy
    rw [hk]
    by_cases hye : y.id = e.id
    · have := inj_of_nodup i.ids hy' he hye
      subst this
      simp [lastAdded]
    · have : y.key ≠ e.key := fun hh => hye (by rw [inj_of_nodup i.nodup hy' he hh])
      rw [if_neg hye]
      simp only [lastAdded, if_neg (Ne.symm this)]
      exact i.vals y hy'

theorem LruInv.add_none {cap : Nat} {h : LruHist K V} {c : Lru K V} (i : LruInv cap h c) {k : K} (hc : cap ≠ 0)
    (hf : c.find k = none) {v : V} {o : Option V} : LruInv cap ((.add k v, o) :: h) (c.add k v) := by
  have hn := i.find_none hf
  have hlen : c.map.length = c.entries.length := by rw [i.map.length_eq, List.length_map]
  obtain ⟨n, rfl⟩ : ∃ n, cap = n + 1 := ⟨cap - 1, by omega⟩
  have hkeys : ((k :: usedKeys h).eraseDups).take (n + 1) = k :: (recent h).take n := by
    rw [recent_use, List.take_succ_cons]
    rw [i.keys] at hn
    rw [take_filter_of_not_mem hn (by omega)]
  have hvals : ∀ e ∈ c.entries, lastAdded e.key ((.add k v, o) :: h) = some e.val := by
    intro e he
    have : k ≠ e.key := fun hk => hn (List.mem_map.mpr ⟨e, he, hk.symm⟩)
    simp only [lastAdded, if_neg this]
    exact i.vals e he
  -- the parts that do not depend on whether an entry is evicted
  have build : ∀ (m : List (K × Nat)) (es : List (Node K V)), (∀ e ∈ es, e ∈ c.entries) → es.map (·.key) = (recent h).take n →
      m.Perm (es.map fun e => (e.key, e.id)) → (es.map (·.id)).Nodup →
      LruInv (n + 1) ((.add k v, o) :: h) ⟨c.capacity, (k, c.fresh) :: m, ⟨c.fresh, k, v⟩ :: es, c.fresh + 1⟩ := by
    intro m es hsub hk hm hid
    refine ⟨i.limit, ?_, ?_, ?_, ?_, ?_⟩
    · show _ = ((k :: usedKeys h).eraseDups).take (n + 1)
      rw [hkeys, List.map_cons, hk]
    · exact hm.cons _
    · simp only [List.map_cons, List.nodup_cons]
      refine ⟨fun hx => ?_, hid⟩
      obtain ⟨e, he, hh⟩ := List.mem_map.mp hx
      have := i.old e (hsub e he)
      omega
    · intro e he
      rcases List.mem_cons.mp he with rfl | he
      · exact Nat.lt_succ_self _
      · exact Nat.lt_succ_of_lt (i.old e (hsub e he))
    · intro e he
      rcases List.mem_cons.mp he with rfl | he
      · simp [lastAdded]
      · exact hvals e (hsub e he)
  unfold Lru.add
  rw [if_neg (by rw [i.limit]; omega), hf]
  simp only
  by_cases hfull : c.map.length = c.capacity
  · rw [if_pos hfull]
    rw [hlen, i.limit] at hfull
    obtain ⟨es, e, he⟩ : ∃ es e, c.entries = es ++ [e] := by
      rcases List.eq_nil_or_concat c.entries with h0 | ⟨es, e, h0⟩
      · rw [h0] at hfull; simp at hfull
      · exact ⟨es, e, by simpa using h0⟩
    have hids := i.ids
    have hnd := i.nodup
    have hk := i.keys
    have hm := i.map
    rw [he] at hids hnd hk hm hfull
    rw [he, List.getLast?_concat, List.dropLast_concat]
    refine build _ es (fun x hx => by rw [he]; exact List.mem_append_left _ hx) ?_ ?_ ?_
    · have := congrArg (List.take n) hk
      rw [List.take_take, Nat.min_eq_left (by omega)] at this
      rw [← this, List.map_append, List.take_append_of_le_length, List.take_of_length_le]
      · simp at hfull ⊢; omega
      · simp at hfull ⊢; omega
    · have h2 := hm.filter (fun x => decide (x.1 ≠ e.key))
      rw [List.map_append, List.filter_append] at h2
      have h3 : (es.map fun e => (e.key, e.id)).filter (fun x => decide (x.1 ≠ e.key)) = es.map fun e => (e.key, e.id) := by
        refine List.filter_eq_self.mpr fun x hx => ?_
        obtain ⟨y, hy, rfl⟩ := List.mem_map.mp hx
        rw [List.map_append, List.nodup_append] at hnd
        simpa using hnd.2.2 y.key (List.mem_map.mpr ⟨y, hy, rfl⟩) e.key (by simp)
      rw [h3] at h2
      simpa using h2
    · rw [List.map_append] at hids
      exact (List.nodup_append.mp hids).1
  · rw [if_neg hfull]
    refine build _ c.entries (fun _ h => h) ?_ i.map i.ids
    have hk := i.keys
    have hl := congrArg List.length hk
    rw [List.length_map, List.length_take] at hl
    rw [hlen, i.limit] at hfull
    rw [hk, List.take_of_length_le (by omega), List.take_of_length_le (by omega)]

theorem Lru.Ran.inv {cap : Nat} {h : LruHist K V} {c : Lru K V} (hr : Lru.Ran cap h c) : LruInv cap h c := by
  induction hr with
  | new => exact ⟨rfl, by simp [Lru.new, recent, usedKeys], .nil, List.nodup_nil, by simp [Lru.new], by simp [Lru.new]⟩
  | @step h c op hr i =>
    cases op with
    | clear =>
      exact ⟨i.limit, by simp [Lru.step, recent, usedKeys], .nil, List.nodup_nil, by simp [Lru.step], by simp [Lru.step]⟩
    | get k =>
      simp only [Lru.step]
      unfold Lru.get
      cases hf : c.find k with
      | none =>
        exact ⟨i.limit, i.keys, i.map, i.ids, i.old, i.vals⟩
      | some id =>
        obtain ⟨e, he, -, -, h1, h2⟩ := i.move hf
        have : ((splice id c.entries).head?).map (·.val) = some e.val := by rw [h1]; rfl
        simp only [this]
        exact i.get_some hf
    | add k v =>
      simp only [Lru.step]
      by_cases hc : cap = 0
      · subst hc
        have : c.add k v = c := by unfold Lru.add; rw [if_pos i.limit]
        rw [this]
        have hk := i.keys
        rw [List.take_zero, List.map_eq_nil_iff] at hk
        exact ⟨i.limit, by rw [hk]; simp, i.map, i.ids, i.old, by simp [hk]⟩
      · cases hf : c.find k with
        | none => exact i.add_none hc hf
        | some id =>
          have : c.add k v = { c with entries := (splice id c.entries).map fun e => if e.id = id then { e with val := v } else e } := by
            unfold Lru.add
            rw [if_neg (by rw [i.limit]; exact hc), hf]
          rw [this]
          exact i.add_some hf

end Fs2.Native
