import Verif.Nn.AttentionState

/-! Helper lemmas about the key/value caches. -/

namespace Fs2.Nn

variable {α : Type}

/-- The last `n` elements. -/
def lastN (n : Nat) (l : List α) : List α := l.drop (l.length - n)

theorem lastN_length (n : Nat) (l : List α) : (lastN n l).length = min n l.length := by
  simp [lastN]; omega

theorem mapM_some_of {β γ : Type} {f : β → Option γ} {g : β → γ} {l : List β}
    (h : ∀ x ∈ l, f x = some (g x)) : l.mapM f = some (l.map g) := by
  induction l with
  | nil => rfl
  | cons a l ih =>
    simp only [List.mapM_cons, h a (by simp), ih (fun x hx => h x (by simp [hx]))]
    rfl

theorem assignRow_ok {row src : List α} {a b : Nat} (hab : a ≤ b) (hb : b ≤ row.length)
    (hs : src.length = b - a) : assignRow row a b src = some (row.take a ++ src ++ row.drop b) := by
  have h1 : min a row.length = a := by omega
  have h2 : max a (min b row.length) = b := by omega
  simp only [assignRow, h1, h2, hs, if_true]

/-- The value of a row after an assignment. -/
def putRow (a b : Nat) (d s : List α) : List α := d.take a ++ s ++ d.drop b

theorem assign_ok {dst src : Ten α} {a b cap : Nat} (ht : src.tail = dst.tail)
    (hr : src.rows.length = dst.rows.length) (hd : ∀ r ∈ dst.rows, r.length = cap) (hab : a ≤ b)
    (hb : b ≤ cap) (hs : ∀ r ∈ src.rows, r.length = b - a) :
    dst.assign a b src = some { dst with rows := List.zipWith (putRow a b) dst.rows src.rows } := by
  have h1 : ¬ src.tail ≠ dst.tail := by simp [ht]
  simp only [Ten.assign, h1, if_false, hr, if_true]
  rw [Option.bind_eq_bind, Option.bind_some]
  have h2 : (dst.rows.zip src.rows).mapM (fun (d, s) => assignRow d a b s) =
      some ((dst.rows.zip src.rows).map (fun (d, s) => putRow a b d s)) := by
    apply mapM_some_of
    rintro ⟨d, s⟩ hm
    have hm := List.of_mem_zip hm
    exact assignRow_ok hab (by rw [hd d hm.1]; exact hb) (hs s hm.2)
  rw [h2]
  simp only [Option.bind_some]
  congr 2
  rw [List.map_zip_eq_zipWith]
  rfl

theorem zipWith_putRow_length {rows src : List (List α)} {a b cap : Nat}
    (hd : ∀ r ∈ rows, r.length = cap) (hab : a ≤ b) (hb : b ≤ cap)
    (hs : ∀ r ∈ src, r.length = b - a) :
    ∀ r ∈ List.zipWith (putRow a b) rows src, r.length = cap := by
  intro r hr
  rw [← List.map_uncurry_zip_eq_zipWith, List.mem_map] at hr
  obtain ⟨⟨d, s⟩, hm, rfl⟩ := hr
  have hm := List.of_mem_zip hm
  simp only [Function.uncurry, putRow, List.length_append, List.length_take, List.length_drop,
    hd d hm.1, hs s hm.2]
  omega

/-- Both lists have the same rows, position by position. -/
theorem zipWith_map_congr {β γ δ ε : Type} {f : β → γ → δ} {g : δ → ε} {f' : β → γ → ε}
    {xs : List β} {ys : List γ} (h : ∀ x ∈ xs, ∀ y ∈ ys, g (f x y) = f' x y) :
    (List.zipWith f xs ys).map g = List.zipWith f' xs ys := by
  induction xs generalizing ys with
  | nil => simp
  | cons x xs ih =>
    cases ys with
    | nil => simp
    | cons y ys =>
      simp only [List.zipWith_cons_cons, List.map_cons]
      rw [h x (by simp) y (by simp), ih (fun x hx y hy => h x (by simp [hx]) y (by simp [hy]))]

theorem newEmpty_rows (junk : α) (n len : Nat) (tail : List Nat) :
    ∀ r ∈ (newEmpty junk n len tail).rows, r.length = len := by
  intro r hr
  rw [List.eq_of_mem_replicate hr]
  simp

theorem indexSelect_ok {t : Ten α} {order : List Nat} (h : ∀ i ∈ order, i < t.rows.length) :
    t.indexSelect order =
      some { t with rows := order.map fun i => (t.rows[i]?).getD [] } := by
  have h1 : order.mapM (fun i => t.rows[i]?) =
      some (order.map fun i => (t.rows[i]?).getD []) := by
    apply mapM_some_of
    intro i hi
    rw [List.getElem?_eq_getElem (h i hi)]
    rfl
  simp only [Ten.indexSelect, h1, Option.bind_eq_bind, Option.bind_some]

theorem ceil_mul {n inc : Nat} (h : 0 < inc) : n ≤ (n + inc - 1) / inc * inc := by
  have h1 := Nat.div_add_mod (n + inc - 1) inc
  have h2 := Nat.mod_lt (n + inc - 1) h
  rw [Nat.mul_comm] at h1
  omega

/-- A buffer of capacity `cap` whose rows begin with the `m` elements of the rows `c`. -/
structure Buf (t : Ten α) (tail : List Nat) (cap m : Nat) (c : List (List α)) : Prop where
  tail : t.tail = tail
  len : t.len = cap
  rows : ∀ r ∈ t.rows, r.length = cap
  le : m ≤ cap
  val : t.rows.map (List.take m) = c

theorem Buf.num {t : Ten α} {tail : List Nat} {cap m : Nat} {c : List (List α)}
    (h : Buf t tail cap m c) : t.rows.length = c.length := by
  rw [← h.val]; simp

theorem Buf.lens {t : Ten α} {tail : List Nat} {cap m : Nat} {c : List (List α)}
    (h : Buf t tail cap m c) : ∀ r ∈ c, r.length = m := by
  intro r hr
  rw [← h.val, List.mem_map] at hr
  obtain ⟨d, hd, rfl⟩ := hr
  have := h.le
  simp [h.rows d hd]
  omega

theorem Buf.empty (junk : α) (tail : List Nat) (cap n : Nat) :
    Buf (newEmpty junk n cap tail) tail cap 0 (List.replicate n []) :=
  { tail := rfl, len := rfl, rows := newEmpty_rows junk n cap tail, le := Nat.zero_le _
    val := by simp [newEmpty] }

/-- Writing after the first `m` elements. -/
theorem Buf.put {t src : Ten α} {tail : List Nat} {cap m n : Nat} {c : List (List α)}
    (h : Buf t tail cap m c) (ht : src.tail = tail) (hr : src.rows.length = c.length)
    (hs : ∀ r ∈ src.rows, r.length = n) (hn : m + n ≤ cap) :
    ∃ t', t.assign m (m + n) src = some t' ∧
      Buf t' tail cap (m + n) (List.zipWith (· ++ ·) c src.rows) := by
  have hs' : ∀ r ∈ src.rows, r.length = m + n - m := by
    intro r hr; rw [hs r hr]; omega
  refine ⟨_, assign_ok (by rw [ht, h.tail]) (by rw [hr, h.num]) h.rows (by omega) hn hs', ?_⟩
  refine ⟨h.tail, h.len, zipWith_putRow_length h.rows (by omega) hn hs', hn, ?_⟩
  rw [← h.val, List.zipWith_map_left]
  apply zipWith_map_congr
  intro d hd s hs1
  have h1 := h.rows d hd
  have h2 := hs s hs1
  have h3 : (d.take m).length = m := by simp [h1]; omega
  unfold putRow
  rw [List.take_append_of_le_length (by simp [h1, h2]; omega), List.take_of_length_le]
  simp [h1, h2]
  omega

/-- Writing at the beginning. -/
theorem Buf.replace {t src : Ten α} {tail : List Nat} {cap m n : Nat} {c : List (List α)}
    (h : Buf t tail cap m c) (ht : src.tail = tail) (hr : src.rows.length = c.length)
    (hs : ∀ r ∈ src.rows, r.length = n) (hn : n ≤ cap) :
    ∃ t', t.assign 0 n src = some t' ∧ Buf t' tail cap n src.rows := by
  have h0 : Buf t tail cap 0 (List.replicate t.rows.length []) :=
    { tail := h.tail, len := h.len, rows := h.rows, le := Nat.zero_le _, val := by
        rw [← List.map_const']; apply List.map_congr_left; intro r _; simp }
  obtain ⟨t', e, hb⟩ := h0.put ht (by rw [hr, ← h.num]; simp) hs (by omega)
  refine ⟨t', by simpa using e, ?_⟩
  have he : List.zipWith (· ++ ·) (List.replicate t.rows.length []) src.rows = src.rows := by
    have hl : t.rows.length = src.rows.length := by rw [hr, h.num]
    rw [hl]
    clear hs hr ht hb e hl
    induction src.rows with
    | nil => rfl
    | cons a l ih => simp [List.replicate_succ, ih]
  rw [he] at hb
  simpa using hb

/-- Moving a full buffer by `n` and writing at the end. -/
theorem Buf.shift {t src : Ten α} {tail : List Nat} {w n : Nat} {c : List (List α)}
    (h : Buf t tail w w c) (ht : src.tail = tail) (hr : src.rows.length = c.length)
    (hs : ∀ r ∈ src.rows, r.length = n) (hn : n < w) :
    ∃ t', (t.rollLeft n).assign (w - n) (w - n + n) src = some t' ∧
      Buf t' tail w w (List.zipWith (fun d s => d.drop n ++ s) c src.rows) := by
  have hval : t.rows = c := by
    rw [← h.val]
    conv => lhs; rw [← List.map_id t.rows]
    apply List.map_congr_left
    intro r hr
    rw [List.take_of_length_le (Nat.le_of_eq (h.rows r hr))]
    rfl
  have hb : Buf (t.rollLeft n) tail w (w - n) (c.map (List.drop n)) := by
    refine ⟨h.tail, h.len, ?_, by omega, ?_⟩
    · intro r hr
      simp only [Ten.rollLeft, List.mem_map] at hr
      obtain ⟨d, hd, rfl⟩ := hr
      have := h.rows d hd
      have hm := Nat.mod_eq_of_lt hn
      simp [this, hm]
      omega
    · simp only [Ten.rollLeft, List.map_map, hval]
      apply List.map_congr_left
      intro d hd
      rw [← hval] at hd
      have hl := h.rows d hd
      simp only [Function.comp, hl]
      rw [Nat.mod_eq_of_lt hn, List.take_append_of_le_length (by simp [hl]), List.take_of_length_le]
      simp [hl]
  obtain ⟨t', e, hb'⟩ := hb.put (n := n) ht (by simpa using hr) hs (by omega)
  refine ⟨t', e, ?_⟩
  rw [List.zipWith_map_left, show w - n + n = w by omega] at hb'
  exact hb'

/-- Moving a buffer into a larger one. -/
theorem Buf.grow (junk : α) {t : Ten α} {tail : List Nat} {cap m : Nat} {c : List (List α)}
    (h : Buf t tail cap m c) (cap' : Nat) (hc : m ≤ cap') :
    ∃ t', (newEmpty junk c.length cap' tail).assign 0 m (t.prefix m) = some t' ∧
      Buf t' tail cap' m c := by
  have h0 := Buf.empty junk tail cap' c.length
  obtain ⟨t', e, hb⟩ := h0.replace (src := t.prefix m) (n := m) h.tail
    (by simp [Ten.prefix, h.num]) (by simp only [Ten.prefix, h.val]; exact h.lens) hc
  refine ⟨t', e, ?_⟩
  simp only [Ten.prefix, h.val] at hb
  exact hb

theorem Buf.select {t : Ten α} {tail : List Nat} {cap m : Nat} {c : List (List α)}
    (h : Buf t tail cap m c) {order : List Nat} (ho : ∀ i ∈ order, i < c.length) :
    ∃ t', t.indexSelect order = some t' ∧
      Buf t' tail cap m (order.map fun i => (c[i]?).getD []) := by
  have ho' : ∀ i ∈ order, i < t.rows.length := by
    intro i hi; rw [h.num]; exact ho i hi
  refine ⟨_, indexSelect_ok ho', h.tail, h.len, ?_, h.le, ?_⟩
  · intro r hr
    simp only [List.mem_map] at hr
    obtain ⟨i, hi, rfl⟩ := hr
    rw [List.getElem?_eq_getElem (ho' i hi)]
    exact h.rows _ (List.getElem_mem _)
  · simp only [List.map_map]
    apply List.map_congr_left
    intro i hi
    simp only [Function.comp]
    rw [← h.val, List.getElem?_map, List.getElem?_eq_getElem (ho' i hi)]
    rfl

/-- What `get` returns. -/
theorem Buf.get {t : Ten α} {tail : List Nat} {cap m n : Nat} {c : List (List α)}
    (h : Buf t tail cap m c) (hn : min n cap = m) :
    (t.prefix n).rows = c ∧ (t.prefix n).len = m ∧ (t.prefix n).tail = tail := by
  refine ⟨?_, by simp [Ten.prefix, h.len, hn], h.tail⟩
  rw [← h.val]
  simp only [Ten.prefix]
  apply List.map_congr_left
  intro r hr
  have hl := h.rows r hr
  rw [← hn, ← hl, Nat.min_comm, ← List.take_take]
  rw [List.take_of_length_le (i := r.length) (by simp; omega)]

end Fs2.Nn
