/-!
# `read_iterator`

Models `iterator_data_source`
(native/python/src/fairseq2n/bindings/data/iterator_data_source.cc and .h), the
source behind `fairseq2.data.read_iterator`.

The Python iterator is a state `σ` with `adv`, what `PyIter_Next` does to it
(`none` is `StopIteration`); pickling and unpickling it copies the state. Errors
raised by the iterator and by pickle are left out, and so is the GIL.
-/

namespace Fs2.IterSrc

variable {σ α : Type}

/-- A Python iterator and the `reset_fn` given to `read_iterator`. -/
structure PyIter (σ α : Type) where
  adv : σ → Option α × σ
  resetFn : σ → σ

/-- `py::iterator` of pybind11: the object and the value looked ahead (`none` is
a null pointer: nothing read yet, or the end). -/
structure Cursor (σ α : Type) where
  obj : σ
  value : Option α

/-- `py::iterator::advance`. -/
def advance (p : PyIter σ α) (c : Cursor σ α) : Cursor σ α :=
  let r := p.adv c.obj
  ⟨r.2, r.1⟩

/-- `py::iterator::operator*`: reads a value if there is none. -/
def deref (p : PyIter σ α) (c : Cursor σ α) : Cursor σ α :=
  match c.value with
  | none => advance p c
  | some _ => c

/-- The fields of `iterator_data_source`. -/
structure Src (σ α : Type) where
  it : Cursor σ α
  toReturn : Option α
  reset : Bool
  reloaded : Bool

/-- A new source over an iterator. -/
def Src.new (obj : σ) : Src σ α := ⟨⟨obj, none⟩, none, false, false⟩

/-- The end of `next` (cc:36-39): compare with the sentinel, which looks ahead,
then post-increment, which returns the value and looks ahead again. -/
def take (p : PyIter σ α) (s : Src σ α) : Option α × Src σ α :=
  let it := deref p s.it
  match it.value with
  | none => (none, { s with it := it })
  | some v => (some v, { s with it := advance p it })

/-- `next` (cc:13-40). -/
def next (p : PyIter σ α) (s : Src σ α) : Option α × Src σ α :=
  if s.reset then
    take p { s with reloaded := false, reset := false,
                    it := advance p ⟨p.resetFn s.it.obj, none⟩ }
  else if s.reloaded then
    (s.toReturn, if s.toReturn.isSome then { s with reloaded := false } else s)
  else take p s

/-- `reset` (cc:42-46). -/
def doReset (s : Src σ α) : Src σ α := { s with reset := true }

/-- What is recorded on the tape. -/
structure Saved (σ α : Type) where
  obj : σ
  toReturn : Option α
  reset : Bool

/-- `record_position` (cc:48-65): looks ahead, which changes the source. -/
def record (p : PyIter σ α) (s : Src σ α) : Saved σ α × Src σ α :=
  let it := deref p s.it
  (⟨it.obj, it.value, s.reset⟩, { s with it := it })

/-- `reload_position` (cc:67-81). -/
def reload (d : Saved σ α) : Src σ α := ⟨⟨d.obj, none⟩, d.toReturn, d.reset, true⟩

/-- The results of `k` calls of `next`. -/
def results (p : PyIter σ α) : Nat → Src σ α → List (Option α)
  | 0, _ => []
  | k + 1, s => (next p s).1 :: results p k (next p s).2

/-- The results of `k` calls of the iterator itself. -/
def iterResults (p : PyIter σ α) : Nat → σ → List (Option α)
  | 0, _ => []
  | k + 1, o => (p.adv o).1 :: iterResults p k (p.adv o).2

/-- The end of the iterator is final. -/
def Final (p : PyIter σ α) : Prop :=
  ∀ o, (p.adv o).1 = none → (p.adv (p.adv o).2).1 = none

/-! ## Facts -/

theorem iterResults_end {p : PyIter σ α} (hp : Final p) (k : Nat) :
    ∀ o, (p.adv o).1 = none → iterResults p k o = List.replicate k none := by
  induction k with
  | zero => intro o _; rfl
  | succ k ih =>
    intro o h
    rw [iterResults, h, ih _ (hp o h), List.replicate_succ]

/-- What a cursor still delivers. -/
def cursorResults (p : PyIter σ α) : Nat → Cursor σ α → List (Option α)
  | 0, _ => []
  | k + 1, c =>
    match c.value with
    | some v => some v :: iterResults p k c.obj
    | none => iterResults p (k + 1) c.obj

theorem cursor_none (p : PyIter σ α) (k : Nat) (o : σ) :
    cursorResults p k ⟨o, none⟩ = iterResults p k o := by
  cases k <;> rfl

theorem cursor_deref {p : PyIter σ α} (hp : Final p) (k : Nat) (c : Cursor σ α) :
    cursorResults p k (deref p c) = cursorResults p k c := by
  obtain ⟨o, v⟩ := c
  cases v with
  | some v => rfl
  | none =>
    rw [cursor_none]
    unfold deref advance
    cases k with
    | zero => rfl
    | succ k =>
      simp only [cursorResults]
      cases h : (p.adv o).1 with
      | some v => simp only [iterResults, h]
      | none =>
        simp only
        rw [iterResults_end hp _ o h, iterResults_end hp _ _ (hp o h)]

theorem cursor_advance {p : PyIter σ α} (hp : Final p) (k : Nat) (o : σ) (v : Option α) :
    cursorResults p k (advance p ⟨o, v⟩) = iterResults p k o := by
  have := cursor_deref hp k ⟨o, none⟩
  rw [cursor_none] at this
  exact this

theorem deref_end {p : PyIter σ α} (hp : Final p) (c : Cursor σ α)
    (h : (deref p c).value = none) : (p.adv (deref p c).obj).1 = none := by
  obtain ⟨o, v⟩ := c
  cases v with
  | some v => cases h
  | none => exact hp o h

theorem take_reloaded (p : PyIter σ α) (s : Src σ α) :
    (take p s).2.reloaded = s.reloaded := by
  unfold take
  simp only
  split <;> rfl

theorem results_plain {p : PyIter σ α} (hp : Final p) (k : Nat) :
    ∀ s : Src σ α, s.reset = false → s.reloaded = false →
      results p k s = cursorResults p k s.it := by
  induction k with
  | zero => intro s _ _; rfl
  | succ k ih =>
    intro s h1 h2
    have hn : next p s = take p s := by
      unfold next
      rw [h1, h2]
      rfl
    rw [results, hn, ← cursor_deref hp (k + 1) s.it]
    unfold take
    simp only [cursorResults]
    cases h : (deref p s.it).value with
    | some v =>
      simp only
      rw [ih ⟨advance p (deref p s.it), s.toReturn, s.reset, s.reloaded⟩ h1 h2]
      simp only
      congr 1
      exact cursor_advance hp k (deref p s.it).obj (deref p s.it).value
    | none =>
      simp only
      rw [ih ⟨deref p s.it, s.toReturn, s.reset, s.reloaded⟩ h1 h2]
      simp only
      have hd : deref p s.it = ⟨(deref p s.it).obj, none⟩ := by
        rw [← h]
      rw [hd, cursor_none]
      -- the iterator has ended
      have hend := deref_end hp s.it h
      rw [iterResults_end hp _ _ hend, iterResults_end hp _ _ hend, List.replicate_succ]

/-- What a source still delivers, in terms of the iterator. -/
def expected (p : PyIter σ α) (k : Nat) (s : Src σ α) : List (Option α) :=
  if s.reset then iterResults p k (p.resetFn s.it.obj)
  else if s.reloaded then
    match k, s.toReturn with
    | 0, _ => []
    | k + 1, some x => some x :: cursorResults p k s.it
    | k + 1, none => List.replicate (k + 1) none
  else cursorResults p k s.it

theorem results_expected {p : PyIter σ α} (hp : Final p) (k : Nat) (s : Src σ α) :
    results p k s = expected p k s := by
  unfold expected
  cases h1 : s.reset with
  | true =>
    simp only [if_true]
    cases k with
    | zero => rfl
    | succ k =>
      let s' : Src σ α := { s with reloaded := false, reset := false,
                                   it := advance p ⟨p.resetFn s.it.obj, none⟩ }
      have hn : next p s = next p s' := by
        unfold next
        rw [h1]
        rfl
      have : results p (k + 1) s = results p (k + 1) s' := by
        rw [results, results, hn]
      rw [this, results_plain hp _ s' rfl rfl]
      exact cursor_advance hp (k + 1) _ none
  | false =>
    simp only [Bool.false_eq_true, if_false]
    cases h2 : s.reloaded with
    | false =>
      simp only [Bool.false_eq_true, if_false]
      exact results_plain hp k s h1 h2
    | true =>
      simp only [if_true]
      have hn : next p s = (s.toReturn, if s.toReturn.isSome then { s with reloaded := false } else s) := by
        unfold next
        rw [h1, h2]
        rfl
      cases ht : s.toReturn with
      | some x =>
        cases k with
        | zero => rfl
        | succ k =>
          rw [results, hn, ht]
          simp only [Option.isSome_some, if_true]
          rw [results_plain hp k ⟨s.it, some x, s.reset, false⟩ h1 rfl]
      | none =>
        have : ∀ k, results p k s = List.replicate k none := by
          intro k
          induction k with
          | zero => rfl
          | succ k ih =>
            rw [results, hn, ht]
            simp only [Option.isSome_none, Bool.false_eq_true, if_false]
            rw [ih, List.replicate_succ]
        rw [this]
        cases k <;> rfl

end Fs2.IterSrc
