/-!
# Batching the rows of one Parquet table

Models src/fairseq2/data/parquet/table_bucketing/primitives.py.

Lengths and `max_tokens` are natural numbers here; the code also accepts a
numeric column of the table as the lengths and would then take negative or
fractional ones.
-/

namespace Fs2.Parquet

/-- `sorted_length_col[i]`; the loops only read indices below the size. -/
def lenAtIdx (a : List Nat) (i : Nat) : Nat := a.getD i 0

/-- The inner `while end < size` (primitives.py:58-63), entered with
`current_max_len = cur`. Returns the final `end` and whether the loop was left
by `break`, that is whether `argsort_ind[begin:end]` was appended. -/
def innerLoop (a : List Nat) (maxTokens start cur stop : Nat) : Nat × Bool :=
  if stop < a.length then
    let cur := max cur (lenAtIdx a stop)
    if cur * (stop + 1 - start) > maxTokens then (stop, true)
    else innerLoop a maxTokens start cur (stop + 1)
  else (stop, false)
termination_by a.length - stop

/-- `argsort_ind[begin:end]`. -/
def slice (inds : List Nat) (start stop : Nat) : List Nat :=
  (inds.drop start).take (stop - start)

/-- The outer `while end < size … else` (primitives.py:55-66). `current_max_len`
is read at the old `begin`, before `begin = end`. `none`: the loop does not
end. -/
def outerLoop (a inds : List Nat) (maxTokens start stop : Nat)
    (splits : List (List Nat)) : Option (List (List Nat)) :=
  if stop < a.length then do
    let cur := lenAtIdx a start
    let start := stop
    let r := innerLoop a maxTokens start cur stop
    outerLoop a inds maxTokens start r.1
      (if r.2 then splits ++ [slice inds start r.1] else splits)
  else
    some (if start < a.length then splits ++ [inds.drop start] else splits)
partial_fixpoint

/-- `compute_length_splits` (primitives.py:14-72). `argsort` is
`np.argsort(length_col)`, an input constrained by its contract; it is used only
if `orderByLength`. `np.array_split(big, len(big))` is one array per element. -/
def lengthSplits (argsort : List Nat) (lens : List Nat) (maxTokens : Nat)
    (orderByLength dropLong : Bool) : Option (List (List Nat)) := do
  let inds := if orderByLength then argsort else List.range lens.length
  let small := inds.filter fun i => lenAtIdx lens i ≤ maxTokens
  let big := inds.filter fun i => ¬ lenAtIdx lens i ≤ maxTokens
  let splits ← outerLoop (small.map (lenAtIdx lens)) small maxTokens 0 0 []
  return if !dropLong && !big.isEmpty then splits ++ big.map (fun i => [i]) else splits

/-- `order_tt.to_batches(batch_size)`: consecutive runs of `batch_size` indices,
the last one possibly shorter (pyarrow's contract for one chunk). -/
def toBatches {α : Type} (n : Nat) (inds : List α) : List (List α) :=
  if _h : inds = [] ∨ n = 0 then []
  else inds.take n :: toBatches n (inds.drop n)
termination_by inds.length
decreasing_by
  have : inds ≠ [] := fun e => _h (Or.inl e)
  have : 0 < inds.length := List.length_pos_iff.2 this
  simp only [List.length_drop]
  omega

/-- What `build_batching_loop_over_one_table` is configured with. -/
structure BatchingCfg where
  orderByLength : Bool := false
  batchSize : Option Nat := none
  maxTokens : Option Nat := none
  dropLong : Bool := true
  shuffle : Bool := false

/-- `build_batching_loop_over_one_table` (primitives.py:112-190): the row
indices of each batch, in order. `argsort` is numpy's result on the lengths and
`perm` is `random_state.permutation(len(batches))`. The early exit for the
unshuffled, unordered `batch_size` slices the table, which gives the same rows
as taking consecutive indices. `.error` is the `ValueError`; `none` would be a
loop that does not end. -/
def tableBatches (cfg : BatchingCfg) (argsort : List Nat) (perm : Nat → List Nat)
    (lens : List Nat) : Except Unit (Option (List (List Nat))) :=
  let pick (bs : List (List Nat)) : List (List Nat) :=
    if cfg.shuffle then (perm bs.length).map fun i => bs.getD i [] else bs
  match cfg.batchSize, cfg.maxTokens with
  | none, none => .error ()
  | some n, _ =>
    .ok (some (pick (toBatches n (if cfg.orderByLength then argsort else List.range lens.length))))
  | none, some m =>
    .ok ((lengthSplits argsort lens m cfg.orderByLength cfg.dropLong).map pick)

/-! ## Auxiliary facts -/

theorem innerLoop_ge (a : List Nat) (M start cur stop : Nat) :
    stop ≤ (innerLoop a M start cur stop).1 := by
  fun_induction innerLoop a M start cur stop with
  | case1 => exact Nat.le_refl _
  | case2 => omega
  | case3 => exact Nat.le_refl _

theorem innerLoop_le (a : List Nat) (M start cur stop : Nat) (h : stop ≤ a.length) :
    (innerLoop a M start cur stop).1 ≤ a.length := by
  fun_induction innerLoop a M start cur stop with
  | case1 => exact h
  | case2 _ _ _ hl _ ih => exact ih (by omega)
  | case3 => exact h

/-- Everything between `start` and the final end fits. -/
theorem innerLoop_fits (a : List Nat) (M start cur stop : Nat) (hs : start ≤ stop)
    (hfit : ∀ i, start ≤ i → i < stop → lenAtIdx a i ≤ cur)
    (hcur : start = stop ∨ cur * (stop - start) ≤ M) :
    let e := (innerLoop a M start cur stop).1
    e = start ∨ ∃ c, (∀ i, start ≤ i → i < e → lenAtIdx a i ≤ c) ∧ c * (e - start) ≤ M := by
  fun_induction innerLoop a M start cur stop with
  | case1 cur stop _ _ _ =>
    rcases hcur with h | h
    · exact .inl h.symm
    · exact .inr ⟨_, hfit, h⟩
  | case2 cur stop _ cur' hle ih =>
    refine ih (by omega) ?_ (.inr ?_)
    · intro i h1 h2
      by_cases hi : i < stop
      · exact Nat.le_trans (hfit i h1 hi) (Nat.le_max_left _ _)
      · have : i = stop := by omega
        subst this
        exact Nat.le_max_right _ _
    · exact Nat.not_lt.1 hle
  | case3 cur stop _ =>
    rcases hcur with h | h
    · exact .inl h.symm
    · exact .inr ⟨_, hfit, h⟩

/-- The loop takes at least one element if it was entered with a bound that
does not exceed the limit. -/
theorem innerLoop_progress (a : List Nat) (M start cur : Nat) (hs : start < a.length)
    (ha : lenAtIdx a start ≤ M) (hc : cur ≤ M) :
    start < (innerLoop a M start cur start).1 := by
  rw [innerLoop]
  rw [if_pos hs]
  have h1 : ¬ max cur (lenAtIdx a start) * (start + 1 - start) > M := by
    rw [show start + 1 - start = 1 by omega, Nat.mul_one]
    omega
  simp only [h1, if_false]
  exact innerLoop_ge ..

/-- If the loop was left by `break`, the next element would not have fitted. -/
theorem innerLoop_full (a : List Nat) (M start cur stop : Nat) (hs : start ≤ stop) :
    let r := innerLoop a M start cur stop
    (r.2 = true → r.1 < a.length ∧ ∃ c, (c = cur ∨ ∃ i, start ≤ i ∧ i ≤ r.1 ∧ c = lenAtIdx a i) ∧
      c * (r.1 + 1 - start) > M) ∧
    (r.2 = false → a.length ≤ r.1) := by
  fun_induction innerLoop a M start cur stop with
  | case1 cur stop hl cur' hgt =>
    refine ⟨fun _ => ⟨hl, cur', ?_, hgt⟩, (nofun)⟩
    by_cases h : lenAtIdx a stop ≤ cur
    · left
      exact Nat.max_eq_left h
    · right
      exact ⟨stop, hs, Nat.le_refl _, Nat.max_eq_right (by omega)⟩
  | case2 cur stop hl cur' hle ih =>
    have ih := ih (by omega)
    refine ⟨fun h => ?_, ih.2⟩
    obtain ⟨h1, c, hc, h2⟩ := ih.1 h
    refine ⟨h1, c, ?_, h2⟩
    rcases hc with hc | ⟨i, hi1, hi2, hi3⟩
    · by_cases h : lenAtIdx a stop ≤ cur
      · left
        rw [hc]
        exact Nat.max_eq_left h
      · right
        have := innerLoop_ge a M start cur' (stop + 1)
        exact ⟨stop, hs, by omega, by rw [hc]; exact Nat.max_eq_right (by omega)⟩
    · exact .inr ⟨i, hi1, hi2, hi3⟩
  | case3 cur stop hl => exact ⟨(nofun), fun _ => by omega⟩

/-- The lengths from `b` to `e` fit together into one padded batch. -/
def Fits (a : List Nat) (M b e : Nat) : Prop :=
  ∃ c, (∀ i, b ≤ i → i < e → lenAtIdx a i ≤ c) ∧ c * (e - b) ≤ M

def Rising (a : List Nat) : Prop := ∀ i j, i ≤ j → j < a.length → lenAtIdx a i ≤ lenAtIdx a j

/-- `out` cuts the indices from position `b` on into batches. -/
inductive Cuts (a inds : List Nat) (M : Nat) : Nat → List (List Nat) → Prop where
  | last (b : Nat) : b < a.length → Fits a M b a.length → Cuts a inds M b [inds.drop b]
  | more (b e : Nat) (rest : List (List Nat)) : b < e → e < a.length → Fits a M b e →
      (Rising a → lenAtIdx a e * (e + 1 - b) > M) → Cuts a inds M e rest →
      Cuts a inds M b (slice inds b e :: rest)

theorem outerLoop_spec (a inds : List Nat) (M : Nat)
    (hall : ∀ i, i < a.length → lenAtIdx a i ≤ M) (n : Nat) :
    ∀ (start stop : Nat) (splits : List (List Nat)),
      a.length - stop ≤ n → start ≤ stop → stop < a.length →
      ∃ out, outerLoop a inds M start stop splits = some (splits ++ out) ∧
        Cuts a inds M stop out := by
  induction n with
  | zero => intro start stop splits h1 _ h2; omega
  | succ n ih =>
    intro start stop splits hn hle hlt
    have hprog := innerLoop_progress a M stop (lenAtIdx a start) hlt (hall _ hlt)
      (hall _ (by omega))
    have hend := innerLoop_le a M stop (lenAtIdx a start) stop (by omega)
    have hfits := innerLoop_fits a M stop (lenAtIdx a start) stop (Nat.le_refl _)
      (fun i h1 h2 => by omega) (.inl rfl)
    have hfull := innerLoop_full a M stop (lenAtIdx a start) stop (Nat.le_refl _)
    rw [outerLoop, if_pos hlt]
    simp only
    generalize hr : innerLoop a M stop (lenAtIdx a start) stop = r at hprog hend hfits hfull
    obtain ⟨e, cut⟩ := r
    simp only at hprog hend hfits hfull ⊢
    have hf : Fits a M stop e := by
      rcases hfits with h | h
      · omega
      · exact h
    clear hfits
    cases cut with
    | true =>
      obtain ⟨h1, c, hc, hgt⟩ := hfull.1 rfl
      obtain ⟨out, ho, hcuts⟩ := ih stop e (splits ++ [slice inds stop e]) (by omega) (by omega) h1
      refine ⟨slice inds stop e :: out, ?_, .more _ _ _ hprog h1 hf ?_ hcuts⟩
      · rw [if_pos rfl, ho]
        simp
      · intro hrise
        have : c ≤ lenAtIdx a e := by
          rcases hc with h | ⟨i, _, h2, h3⟩
          · rw [h]
            exact hrise _ _ (by omega) h1
          · rw [h3]
            exact hrise _ _ h2 h1
        exact Nat.lt_of_lt_of_le hgt (Nat.mul_le_mul_right _ this)
    | false =>
      have he : e = a.length := by
        have := hfull.2 rfl
        omega
      subst he
      refine ⟨[inds.drop stop], ?_, .last _ hlt hf⟩
      rw [outerLoop, if_neg (by omega), if_pos hlt]
      simp

theorem outerLoop_none (a inds : List Nat) (M : Nat) (h : a.length = 0) :
    outerLoop a inds M 0 0 [] = some [] := by
  rw [outerLoop, if_neg (by omega), if_neg (by omega)]

theorem Cuts.flatten {a inds : List Nat} {M b : Nat} {out : List (List Nat)}
    (h : Cuts a inds M b out) : out.flatten = inds.drop b := by
  induction h with
  | last => simp
  | more b e rest hbe _ _ _ _ ih =>
    rw [List.flatten_cons, ih, slice]
    have : inds.drop e = (inds.drop b).drop (e - b) := by
      rw [List.drop_drop]
      congr 1
      omega
    rw [this, List.take_append_drop]

theorem toBatches_flatten {α : Type} (n : Nat) (hn : 0 < n) (inds : List α) :
    (toBatches n inds).flatten = inds := by
  fun_induction toBatches n inds with
  | case1 inds h =>
    rcases h with h | h
    · simp [h]
    · omega
  | case2 inds h ih => rw [List.flatten_cons, ih, List.take_append_drop]

end Fs2.Parquet
