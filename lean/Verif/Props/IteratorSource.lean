import Verif.Pipeline.IteratorSource

/-!
# C77: a pipeline over a Python iterator resumes where it was saved
-/

namespace Fs2.Props
open Fs2.IterSrc

variable {σ α : Type}

/-- The operations a source is subjected to. -/
inductive SrcOp where
  | next
  | reset
  | save

/-- Applies operations, keeping the results of `next`. -/
def runSrc (p : PyIter σ α) : List SrcOp → Src σ α → List (Option α) × Src σ α
  | [], s => ([], s)
  | .next :: ops, s =>
    let r := next p s
    let q := runSrc p ops r.2
    (r.1 :: q.1, q.2)
  | .reset :: ops, s => runSrc p ops (doReset s)
  | .save :: ops, s => runSrc p ops (record p s).2

/-- `reset_fn` starts over, wherever the iterator is. -/
def Restarts (p : PyIter σ α) : Prop := ∀ o, p.resetFn (p.adv o).2 = p.resetFn o

/-- The source delivers what the iterator delivers. -/
theorem C77_reads (p : PyIter σ α) (hp : Final p) (o : σ) (k : Nat) :
    results p k (.new o) = iterResults p k o := by
  rw [results_expected hp, ← cursor_none]
  rfl

private theorem record_expected (p : PyIter σ α) (hp : Final p) (hr : Restarts p) (s : Src σ α)
    (k : Nat) : expected p k (record p s).2 = expected p k s := by
  unfold expected record
  simp only
  cases s.reset with
  | true =>
    simp only [if_true]
    congr 1
    obtain ⟨o, v⟩ := s.it
    cases v with
    | some v => rfl
    | none => exact hr o
  | false =>
    simp only [Bool.false_eq_true, if_false]
    cases s.reloaded with
    | false =>
      simp only [Bool.false_eq_true, if_false]
      exact cursor_deref hp k s.it
    | true =>
      simp only [if_true]
      cases k with
      | zero => rfl
      | succ k =>
        cases s.toReturn with
        | none => rfl
        | some x => simp only [cursor_deref hp]

/-- Saving does not change what the source delivers afterwards. -/
theorem C77_save_harmless (p : PyIter σ α) (hp : Final p) (hr : Restarts p) (s : Src σ α)
    (k : Nat) : results p k (record p s).2 = results p k s := by
  rw [results_expected hp, results_expected hp, record_expected p hp hr]

/-- A reset source starts over with what `reset_fn` returns. -/
theorem C77_reset (p : PyIter σ α) (hp : Final p) (s : Src σ α) (k : Nat) :
    results p k (doReset s) = iterResults p k (p.resetFn s.it.obj) := by
  rw [results_expected hp]
  rfl

/-- A source loaded from what another one saved delivers what that one would
have delivered, provided the other one was not itself loaded and not used or
reset since. -/
theorem C77_resume_partial (p : PyIter σ α) (hp : Final p) (hr : Restarts p) (s : Src σ α)
    (h : s.reset = true ∨ s.reloaded = false) (k : Nat) :
    results p k (reload (record p s).1) = results p k s := by
  rw [results_expected hp, results_expected hp]
  unfold expected record reload
  simp only
  cases hs : s.reset with
  | true =>
    simp only [if_true]
    congr 1
    obtain ⟨o, v⟩ := s.it
    cases v with
    | some v => rfl
    | none => exact hr o
  | false =>
    have h2 : s.reloaded = false := by
      rcases h with h | h
      · rw [hs] at h; cases h
      · exact h
    simp only [h2, Bool.false_eq_true, if_false, if_true]
    rw [← cursor_deref hp k s.it]
    cases k with
    | zero => rfl
    | succ k =>
      cases hv : (deref p s.it).value with
      | some x =>
        simp only
        rw [cursor_none]
        simp only [cursorResults, hv]
      | none =>
        simp only [cursorResults, hv]
        have hend := deref_end hp s.it hv
        rw [iterResults_end hp _ _ hend]

/-- The states in which saving is exact include every state of a source that was
created rather than loaded, and every state of a loaded source after the first
example it delivered. -/
theorem C77_resume_reachable (p : PyIter σ α) (ops : List SrcOp) (s : Src σ α)
    (h : s.reset = true ∨ s.reloaded = false) :
    (runSrc p ops s).2.reset = true ∨ (runSrc p ops s).2.reloaded = false := by
  induction ops generalizing s with
  | nil => exact h
  | cons op ops ih =>
    cases op with
    | next =>
      refine ih _ (.inr ?_)
      unfold next
      cases hs : s.reset with
      | true =>
        simp only [if_true]
        exact take_reloaded p _
      | false =>
        have h2 : s.reloaded = false := by
          rcases h with h | h
          · rw [hs] at h; cases h
          · exact h
        simp only [h2, Bool.false_eq_true, if_false]
        exact (take_reloaded p s).trans h2
    | reset => exact ih _ (.inl rfl)
    | save => exact ih _ h

/-- For a source that was created rather than loaded: after any calls of `next`,
`reset` and `record_position`, a source loaded from what it saves delivers what
it would have delivered. -/
theorem C77_resume_new (p : PyIter σ α) (hp : Final p) (hr : Restarts p) (o : σ)
    (ops : List SrcOp) (k : Nat) :
    let s := (runSrc p ops (.new o)).2
    results p k (reload (record p s).1) = results p k s :=
  C77_resume_partial p hp hr _ (C77_resume_reachable p ops _ (.inr rfl)) k

/-- A loaded source that has delivered an example saves exactly again. -/
theorem C77_resume_loaded (p : PyIter σ α) (hp : Final p) (hr : Restarts p) (d : Saved σ α)
    (x : α) (hx : (next p (reload d)).1 = some x) (ops : List SrcOp) (k : Nat) :
    let s := (runSrc p ops (next p (reload d)).2).2
    results p k (reload (record p s).1) = results p k s := by
  refine C77_resume_partial p hp hr _ (C77_resume_reachable p ops _ ?_) k
  unfold next reload at hx ⊢
  simp only at hx ⊢
  cases hd : d.reset with
  | true =>
    simp only [if_true]
    right
    exact take_reloaded p _
  | false =>
    rw [hd] at hx
    simp only [Bool.false_eq_true, if_false, if_true] at hx ⊢
    right
    rw [hx]
    rfl

/-- An iterator over the numbers below 3 that `reset_fn` puts back to 0. -/
private def upTo3 : PyIter Nat Nat where
  adv n := if n < 3 then (some n, n + 1) else (none, n)
  resetFn _ := 0

private theorem upTo3_final : Final upTo3 := by
  intro n h
  unfold upTo3 at h ⊢
  simp only at h ⊢
  split at h
  · cases h
  · rename_i hn
    simp [hn]

example : Final upTo3 ∧ Restarts upTo3 ∧
    results upTo3 3 (reload (record upTo3 (next upTo3 (.new 0)).2).1) = [some 1, some 2, none] :=
  ⟨upTo3_final, fun _ => rfl, by decide⟩

/-- Saving a source right after it was loaded loses an example: the value that
was looked ahead when the first save was made is pending in `to_return_`, and
`record_position` looks past it. -/
theorem C77_resume_negation :
    ¬ ∀ (p : PyIter Nat Nat), Final p → Restarts p → ∀ (s : Src Nat Nat) (k : Nat),
      results p k (reload (record p s).1) = results p k s := by
  intro h
  have := h upTo3 upTo3_final (fun _ => rfl) (reload (record upTo3 (.new 0)).1) 3
  exact absurd this (by decide)

/-- The same, as a user sees it: a pipeline over 0, 1, 2 that is saved before
the first example, loaded, saved and loaded again delivers 1, 2. -/
theorem C77_double_load :
    results upTo3 3 (reload (record upTo3 (reload (record upTo3 (.new 0)).1)).1) =
      [some 1, some 2, none] := by decide

end Fs2.Props
