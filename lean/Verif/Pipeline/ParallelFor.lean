import Verif.Pipeline.Basic

/-!
# The parallel loop of the deterministic map

`fill_buffer` (map_data_source.cc:185-196) applies the function to every entry of the
buffer with `parallel_for` (detail/parallel.h:18-32), which cuts the index range into
pieces and hands each to `apply_function`, on several threads or on one.  A step is one
iteration of one piece; the pieces take steps in any order.  How TBB cuts the range is not
modelled: any cut into consecutive ranges is allowed.  An entry is `some` from
map_data_source.cc:178 until it has been returned; here it is its value.  The function does
not throw.
-/

namespace Fs2.ParallelFor

/-- A piece: the next index and the end of its range. -/
abbrev Piece := Nat × Nat

structure St where
  buf : List Data
  pieces : List Piece

/-- One iteration of some piece (map_data_source.cc:187-188). -/
inductive Step (f : Data → Data) : St → St → Prop where
  | one {buf l r i e x} : i < e → buf[i]? = some x →
      Step f ⟨buf, l ++ (i, e) :: r⟩ ⟨buf.set i (f x), l ++ (i + 1, e) :: r⟩

inductive Run (f : Data → Data) : St → St → Prop where
  | nil (s) : Run f s s
  | step {s s' s''} : Step f s s' → Run f s' s'' → Run f s s''

/-- The pieces cut the range from `a` to `b` into consecutive ranges. -/
inductive Cuts : Nat → Nat → List Piece → Prop where
  | nil (a) : Cuts a a []
  | cons {a b c ps} : a ≤ b → Cuts b c ps → Cuts a c ((a, b) :: ps)

/-- Every piece is at its end. -/
def Done (s : St) : Prop := ∀ p ∈ s.pieces, p.2 ≤ p.1

/-- Index `i` has not been processed yet. -/
def Todo (ps : List Piece) (i : Nat) : Prop := ∃ p ∈ ps, p.1 ≤ i ∧ i < p.2

/-- The ranges still to do are disjoint. -/
def Apart (ps : List Piece) : Prop :=
  ps.Pairwise fun p q => ∀ i, ¬ (p.1 ≤ i ∧ i < p.2 ∧ q.1 ≤ i ∧ i < q.2)

theorem Cuts.le {a b : Nat} {ps : List Piece} (h : Cuts a b ps) : a ≤ b := by
  induction h with
  | nil => exact Nat.le_refl _
  | cons h _ ih => omega

theorem Cuts.mem {a b : Nat} {ps : List Piece} (h : Cuts a b ps) {p : Piece} (hp : p ∈ ps) :
    a ≤ p.1 ∧ p.2 ≤ b := by
  induction h with
  | nil => simp at hp
  | cons h h' ih =>
    have := h'.le
    rcases List.mem_cons.1 hp with rfl | hp
    · exact ⟨Nat.le_refl _, this⟩
    · have := ih hp
      omega

theorem Cuts.todo {a b : Nat} {ps : List Piece} (h : Cuts a b ps) (i : Nat) :
    Todo ps i ↔ a ≤ i ∧ i < b := by
  induction h with
  | nil => simp [Todo]
  | @cons a b c ps h h' ih =>
    have hle := h'.le
    simp only [Todo, List.mem_cons, exists_eq_or_imp] at ih ⊢
    rw [ih]
    omega

theorem Cuts.apart {a b : Nat} {ps : List Piece} (h : Cuts a b ps) : Apart ps := by
  induction h with
  | nil => exact .nil
  | @cons a b c ps h h' ih =>
    refine List.pairwise_cons.2 ⟨fun q hq i => ?_, ih⟩
    have := h'.mem hq
    simp only
    omega

structure Inv (f : Data → Data) (xs : List Data) (s : St) : Prop where
  len : s.buf.length = xs.length
  apart : Apart s.pieces
  entry : ∀ i x, xs[i]? = some x → (Todo s.pieces i ∧ s.buf[i]? = some x) ∨
    (¬ Todo s.pieces i ∧ s.buf[i]? = some (f x))

theorem Inv.step {f : Data → Data} {xs : List Data} {s s' : St} (h : Inv f xs s)
    (hs : Step f s s') : Inv f xs s' := by
  obtain ⟨h1, h2, h3⟩ := h
  cases hs
  next buf l r i e x hlt hx =>
  simp only at h1 h2 h3
  have htodo : ∀ j, Todo (l ++ (i + 1, e) :: r) j ↔ Todo (l ++ (i, e) :: r) j ∧ j ≠ i := by
    have hap := List.pairwise_append.1 h2
    have hr := List.pairwise_cons.1 hap.2.1
    intro j
    simp only [Todo, List.mem_append, List.mem_cons]
    constructor
    · rintro ⟨p, hp | rfl | hp, h⟩
      · refine ⟨⟨p, .inl hp, h⟩, ?_⟩
        rintro rfl
        exact hap.2.2 p hp (j, e) (by simp) j ⟨h.1, h.2, Nat.le_refl _, hlt⟩
      · exact ⟨⟨(i, e), .inr (.inl rfl), by simp only at h ⊢; omega⟩, by simp only at h; omega⟩
      · refine ⟨⟨p, .inr (.inr hp), h⟩, ?_⟩
        rintro rfl
        exact hr.1 p hp j ⟨Nat.le_refl _, hlt, h.1, h.2⟩
    · rintro ⟨⟨p, hp | rfl | hp, h⟩, hne⟩
      · exact ⟨p, .inl hp, h⟩
      · exact ⟨(i + 1, e), .inr (.inl rfl), by simp only at h ⊢; omega⟩
      · exact ⟨p, .inr (.inr hp), h⟩
  refine ⟨by simpa using h1, ?_, ?_⟩
  · have hap := List.pairwise_append.1 h2
    have hr := List.pairwise_cons.1 hap.2.1
    refine List.pairwise_append.2 ⟨hap.1, List.pairwise_cons.2 ⟨fun q hq j h => ?_, hr.2⟩, ?_⟩
    · exact hr.1 q hq j (by simp only at h ⊢; omega)
    · intro p hp q hq j h
      rcases List.mem_cons.1 hq with rfl | hq
      · exact hap.2.2 p hp (i, e) (by simp) j (by simp only at h ⊢; omega)
      · exact hap.2.2 p hp q (by simp [hq]) j h
  · intro j y hy
    rw [htodo]
    by_cases hji : j = i
    · subst hji
      right
      refine ⟨by simp, ?_⟩
      have hT : Todo (l ++ (j, e) :: r) j := ⟨(j, e), by simp, Nat.le_refl _, hlt⟩
      rcases h3 j y hy with ⟨-, h⟩ | ⟨h, -⟩
      · rw [h] at hx
        cases hx
        have : j < buf.length := by
          rw [List.getElem?_eq_some_iff] at h
          exact h.1
        simp [this]
      · exact absurd hT h
    · have : (buf.set i (f x))[j]? = buf[j]? := by
        rw [List.getElem?_set_ne (fun h => hji h.symm)]
      rw [this]
      rcases h3 j y hy with ⟨h, h'⟩ | ⟨h, h'⟩
      · exact .inl ⟨⟨h, hji⟩, h'⟩
      · exact .inr ⟨fun hh => h hh.1, h'⟩

theorem Inv.run {f : Data → Data} {xs : List Data} {s s' : St} (h : Inv f xs s)
    (hr : Run f s s') : Inv f xs s' := by
  induction hr with
  | nil => exact h
  | step hs _ ih => exact ih (h.step hs)

theorem inv_start {f : Data → Data} {xs : List Data} {ps : List Piece} (h : Cuts 0 xs.length ps) :
    Inv f xs ⟨xs, ps⟩ := by
  refine ⟨rfl, h.apart, fun i x hx => .inl ⟨(h.todo i).2 ?_, hx⟩⟩
  rw [List.getElem?_eq_some_iff] at hx
  exact ⟨Nat.zero_le _, hx.1⟩

theorem Inv.done {f : Data → Data} {xs : List Data} {s : St} (h : Inv f xs s) (hd : Done s) :
    s.buf = xs.map f := by
  have hT : ∀ i, ¬ Todo s.pieces i := by
    rintro i ⟨p, hp, h1, h2⟩
    have := hd p hp
    omega
  apply List.ext_getElem?
  intro i
  rw [List.getElem?_map]
  cases hx : xs[i]? with
  | none =>
    rw [Option.map_none, List.getElem?_eq_none_iff, h.len]
    exact List.getElem?_eq_none_iff.1 hx
  | some x =>
    rcases h.entry i x hx with ⟨h, -⟩ | ⟨-, h⟩
    · exact absurd h (hT i)
    · exact h

/-- How many iterations are left. -/
def left (s : St) : Nat := (s.pieces.map fun p => p.2 - p.1).sum

theorem left_step {f : Data → Data} {s s' : St} (h : Step f s s') : left s' < left s := by
  cases h
  simp [left]
  omega

end Fs2.ParallelFor
