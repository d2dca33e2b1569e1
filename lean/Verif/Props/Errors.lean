import Verif.Pipeline.Errors
import Verif.Pipeline.Builder
import Verif.Props.Resume
import Verif.Props.Packing
import Mathlib.Algebra.Order.Field.Rat
import Mathlib.Algebra.Order.Field.Basic
import Mathlib.Tactic.Linarith
import Mathlib.Tactic.Positivity

/-!
# C19: recoverable exceptions; C20: the builder's checks

`S.Trace s rs` (Verif/Pipeline/Spec.lean) says that the calls of `next()` from `s` on
give the results `rs` (examples or exceptions) and then end of data; `forgive k rs` is
`rs` with the first `k` exceptions left out.
-/

namespace Fs2.Props
open Source

/-! ## C19 -/

/-- What the user of a pipeline with `max_num_warnings = max` gets: the results of the
source with the first `max` exceptions left out. -/
theorem C19_forgives (S : Source) (lazy : Bool) (max : Nat) (rs : List Res)
    (h : S.Trace S.init rs) (hr : ∀ r ∈ rs, ¬ r.fatal) :
    (pipeline lazy max S).Trace (pipeline lazy max S).init (forgive max rs) := by
  obtain ⟨i', hc, he⟩ := h
  have := pipe_trace (lazy := lazy) (max := max) hc he hr (w := 0) (Nat.zero_le _)
  cases lazy with
  | false => exact this
  | true => exact Trace.of_next_eq (S := pipeline true max S) (t := ⟨some S.init, 0, false⟩) rfl this

/-- All examples of the source are among them and exactly the exceptions beyond the
limit are raised. -/
theorem C19_forgives_what (max : Nat) (rs : List Res) :
    yielded (forgive max rs) = yielded rs ∧ raised (forgive max rs) = (raised rs).drop max :=
  ⟨forgive_yielded max rs, forgive_raised max rs⟩

/-- If the source raises no more exceptions than allowed, the user sees the stream
without the failing examples and no exception at all. -/
theorem C19_within_limit (S : Source) (lazy : Bool) (max : Nat) (rs : List Res)
    (h : S.Trace S.init rs) (hr : ∀ r ∈ rs, ¬ r.fatal) (he : ∀ r ∈ rs, r ≠ .eod)
    (hm : (raised rs).length ≤ max) :
    (pipeline lazy max S).Yields (pipeline lazy max S).init (yielded rs) := by
  have h1 := C19_forgives S lazy max rs h hr
  have h2 := forgive_raised max rs
  rw [List.drop_eq_nil_of_le hm] at h2
  have h3 : ∀ (k : Nat) (rs : List Res), (∀ r ∈ rs, r ≠ .eod) → ∀ r ∈ forgive k rs, r ≠ .eod := by
    intro k rs
    induction rs generalizing k with
    | nil => intro _ r hr; cases k <;> simp [forgive] at hr
    | cons q rs ih =>
      intro hq r hr
      have hq' : ∀ r ∈ rs, r ≠ .eod := fun r h => hq r (List.mem_cons_of_mem _ h)
      cases k with
      | zero => rw [forgive_zero] at hr; exact hq r hr
      | succ k =>
        cases q with
        | err e => exact ih k hq' r hr
        | eod => exact absurd rfl (hq _ List.mem_cons_self)
        | yield x =>
          rcases List.mem_cons.1 hr with rfl | hr
          · simp
          · exact ih (k + 1) hq' r hr
  rw [raised_nil h2 (h3 max rs he), forgive_yielded] at h1
  exact Trace.yields h1

/-- The results of `map(f)` over examples, with exceptions in the places of the
examples on which `f` fails. -/
def mapped (f : Data → Except Err Data) (xs : List Data) : List Res :=
  xs.map fun x => match f x with
    | .ok y => .yield y
    | .error e => .err e

theorem map_trace {S : Source} {f : Data → Except Err Data} {s : S.σ} {xs : List Data}
    (h : S.Yields s xs) : (map f S).Trace s (mapped f xs) := by
  obtain ⟨s', he, hd⟩ := h
  induction he with
  | nil s =>
    refine .nil (Ended.coind (S := map f S) S.Ended hd fun t ht => ?_)
    obtain ⟨t', h1, h2⟩ := ht.next
    exact ⟨t', by simp [map, mapNext, h1], h2⟩
  | @cons s s₁ s₂ x xs hn _ ih =>
    refine Trace.cons (S := map f S) (s' := s₁) ?_ (ih hd)
    cases hf : f x <;> simp [map, mapNext, hn, hf]

theorem mapped_yielded (f : Data → Except Err Data) (xs : List Data) :
    yielded (mapped f xs) = xs.filterMap fun x => (f x).toOption := by
  induction xs with
  | nil => rfl
  | cons x xs ih =>
    have hm : mapped f (x :: xs) = (match f x with | .ok y => Res.yield y | .error e => .err e) ::
      mapped f xs := rfl
    rw [hm]
    cases hf : f x <;> simp [yielded, ih, hf, Except.toOption]

theorem mapped_raised (f : Data → Except Err Data) (xs : List Data) :
    (raised (mapped f xs)).length = xs.countP fun x => !(f x).isOk := by
  induction xs with
  | nil => rfl
  | cons x xs ih =>
    have hm : mapped f (x :: xs) = (match f x with | .ok y => Res.yield y | .error e => .err e) ::
      mapped f xs := rfl
    rw [hm]
    cases hf : f x <;> simp [raised, ih, hf, Except.isOk, Except.toBool]

/-- `map(f).and_return(max_num_warnings=max)` where `f` raises recoverable exceptions
on at most `max` of the examples: `f` of the others, in order.  Missing for the full
statement: operators above the failing one that read several examples per call lose more
than the failing example (`C19_bucket_loses`, `C19_skip_starts_over`, `C19_shard_shifts`). -/
theorem C19_map_partial (S : Source) (lazy : Bool) (max : Nat) (f : Data → Except Err Data)
    (xs : List Data) (h : S.Yields S.init xs)
    (hf : ∀ x ∈ xs, ∀ e, f x = .error e → e.recoverable = true)
    (hm : xs.countP (fun x => !(f x).isOk) ≤ max) :
    (pipeline lazy max (map f S)).Yields (pipeline lazy max (map f S)).init
      (xs.filterMap fun x => (f x).toOption) := by
  rw [← mapped_yielded]
  refine C19_within_limit (map f S) lazy max (mapped f xs) (map_trace h) ?_ ?_ ?_
  · intro r hr
    obtain ⟨x, hx, rfl⟩ := List.mem_map.1 hr
    split
    · simp [Res.fatal]
    · rename_i e he; simp [Res.fatal, hf x hx e he]
  · intro r hr
    obtain ⟨x, hx, rfl⟩ := List.mem_map.1 hr
    split <;> simp
  · rw [mapped_raised]; exact hm

/-- A function that fails on one value. -/
def failsOn (k : Int) (x : Data) : Except Err Data :=
  match x with
  | .int i => if i = k then .error ⟨true, "bad example"⟩ else .ok x
  | _ => .ok x

example : (pipeline true 1 (map (failsOn 2) (listSource (ints 3)))).Yields
    (pipeline true 1 (map (failsOn 2) (listSource (ints 3)))).init [.int 1, .int 3] :=
  C19_map_partial _ true 1 (failsOn 2) _ (C05_read_sequence (ints 3)) (by
    intro x hx e he
    simp only [ints, List.mem_map] at hx
    obtain ⟨k, _, rfl⟩ := hx
    simp only [failsOn] at he
    split at he
    · cases he; rfl
    · cases he) (by
    decide)

/-- The same for sources that do not end, and up to any moment: after any calls of the
source of which the last raised no exception, the pipeline has given the same results
with the first `max` exceptions left out and reads on from the same position. -/
theorem C19_forgives_so_far (S : Source) (max : Nat) (rs : List Res) (i : S.σ) (last : Res)
    (h : S.Calls S.init (rs ++ [last]) i) (hr : ∀ r ∈ rs ++ [last], ¬ r.fatal)
    (hl : ∀ e, last ≠ .err e) :
    ∃ s', (pipeline false max S).Calls (pipeline false max S).init (forgive max (rs ++ [last])) s' ∧
      s'.src = some i ∧ s'.broken = false := by
  obtain ⟨w, _, hc⟩ := pipe_calls (lazy := false) (max := max) h hr (w := 0) (Nat.zero_le _)
    (.inr ⟨last, by simp, hl⟩)
  exact ⟨_, hc, rfl, rfl⟩

/-- A life of a pipeline: calls of `next()` with their results, resets and loaded
states, in any order. -/
inductive Life (S : Source) (max : Nat) : List Res → PipeSt S.σ → Prop where
  | built (lazy : Bool) : Life S max [] (pipeline lazy max S).init
  | next {rs s r s'} : Life S max rs s → pipeNext S max s = some (r, s') →
      Life S max (rs ++ [r]) s'
  | reset {rs s} (b : Bool) : Life S max rs s → Life S max rs (pipeReset S b s)
  | load {rs s s'} (t : Tape) : Life S max rs s → loadStateDict S s t = .ok s' → Life S max rs s'

/-- The number of exceptions the source has raised. -/
def raisedBySource {S : Source} (s : PipeSt (counting S).σ) : Nat :=
  match s.src with
  | none => 0
  | some i => count i

theorem raised_append (rs qs : List Res) : raised (rs ++ qs) = raised rs ++ raised qs := by
  induction rs with
  | nil => rfl
  | cons r rs ih => cases r <;> simp [raised, ih]

theorem counting_reload {S : Source} {st : Bool} {i j : (counting S).σ} {t t' : Tape}
    (h : (counting S).reload st i t = .ok (j, t')) : count j = count i := by
  simp only [counting] at h
  split at h
  · cases h
  · cases h; rfl

theorem life_count {S : Source} {max : Nat} {rs : List Res} {s : PipeSt (counting S).σ}
    (h : Life (counting S) max rs s) :
    raisedBySource s ≤ s.warnings + (raised rs).length ∧ s.warnings ≤ max := by
  induction h with
  | built lazy => cases lazy <;> exact ⟨Nat.zero_le _, Nat.zero_le _⟩
  | @next rs s r s' _ hn ih =>
    simp only [pipeNext] at hn
    rw [raised_append, List.length_append]
    split at hn
    · cases hn; omega
    · obtain ⟨j, h1, h2, h3⟩ := counting_loop _ _ _ _ _ hn
      have h4 : raisedBySource s' = count j := by simp [raisedBySource, h1]
      have h5 : raisedBySource s = count (s.src.getD (counting S).init) := by
        simp only [raisedBySource]
        split
        · rename_i h; rw [h]; rfl
        · rename_i h; rw [h]; rfl
      omega
  | @reset rs s b _ ih =>
    have h1 : raisedBySource (pipeReset (counting S) b s) = raisedBySource s := by
      obtain ⟨src, w, br⟩ := s
      cases br <;> cases src <;> rfl
    have h2 : (pipeReset (counting S) b s).warnings = s.warnings := by
      obtain ⟨src, w, br⟩ := s
      cases br <;> cases src <;> rfl
    omega
  | @load rs s s' t _ hl ih =>
    suffices raisedBySource s' = raisedBySource s ∧ s'.warnings = s.warnings by omega
    simp only [loadStateDict] at hl
    split at hl
    · cases hl
    split at hl
    · cases hl
    · split at hl
      · cases hl
        obtain ⟨src, w, br⟩ := s
        cases br <;> cases src <;> exact ⟨rfl, rfl⟩
      · cases hl
    · split at hl
      · cases hl
      split at hl
      · cases hl
      · rename_i h1
        have h2 := counting_reload h1
        split at hl
        · cases hl
          refine ⟨?_, rfl⟩
          simp only [raisedBySource]
          rw [h2]
          split
          · rename_i h; simp only [h, Option.getD_none]; rfl
          · rename_i h; simp only [h, Option.getD_some]
        · cases hl

/-- Over its whole life, whatever is called, a pipeline swallows at most
`max_num_warnings` exceptions: the source has raised at most that many more than the
user has seen. -/
theorem C19_lifetime (S : Source) (max : Nat) (rs : List Res) (s : PipeSt (counting S).σ)
    (h : Life (counting S) max rs s) : raisedBySource s ≤ max + (raised rs).length := by
  have := life_count h
  omega

/-- A source that fails at every call. -/
def alwaysFails : Source := map (fun _ => .error ⟨true, "bad example"⟩) (constantSource (.int 0) none)

/-- With `max_num_warnings = 2` the third exception reaches the user, and after a reset
every one does. -/
example : ∃ s, Life (counting alwaysFails) 2 [.err ⟨true, "bad example"⟩, .err ⟨true, "bad example"⟩] s ∧
    raisedBySource s = 4 :=
  ⟨_, .next (.reset false (.next (.built true) rfl)) rfl, rfl⟩

/-- An exception that is not recoverable reaches the user, after the results before it
with the first `max` exceptions left out, and breaks the pipeline. -/
theorem C19_fatal (S : Source) (max : Nat) (rs : List Res) (e : Err) (i i' : S.σ)
    (h : S.Calls S.init rs i) (hr : ∀ r ∈ rs, ¬ r.fatal) (hn : S.next i = some (.err e, i'))
    (he : e.recoverable = false) :
    ∃ s', (pipeline false max S).Calls (pipeline false max S).init
      (forgive max rs ++ [.err e]) s' ∧ s'.broken = true := by
  suffices ∀ w ≤ max, ∃ s', (pipeline false max S).Calls ⟨some S.init, w, false⟩
      (forgive (max - w) rs ++ [.err e]) s' ∧ s'.broken = true from this 0 (Nat.zero_le _)
  generalize S.init = i₀ at h
  induction h with
  | nil i =>
    intro w hw
    refine ⟨⟨some i', w, true⟩, ?_, rfl⟩
    have : forgive (max - w) [] = [] := by cases max - w <;> rfl
    rw [this]
    exact .cons (pipe_fatal hn he) (.nil _)
  | @cons i i₁ i₂ r rs hn₁ hc ih =>
    intro w hw
    have ih := ih (fun q hq => hr q (List.mem_cons_of_mem _ hq)) hn
    by_cases hx : ∃ e, r = .err e
    · obtain ⟨e', rfl⟩ := hx
      have hrec : e'.recoverable = true := by
        have := hr _ List.mem_cons_self
        simpa [Res.fatal] using this
      by_cases hlt : w < max
      · obtain ⟨k, hk⟩ : ∃ k, max - w = k + 1 := ⟨max - w - 1, by omega⟩
        obtain ⟨s', h1, h2⟩ := ih (w + 1) (by omega)
        rw [show max - (w + 1) = k by omega] at h1
        obtain ⟨s'', h3, h4⟩ := Calls.ex_of_next_eq (P := pipeline false max S)
          (s := ⟨some i, w, false⟩) (t := ⟨some i₁, w + 1, false⟩) (pipe_skip hn₁ hrec hlt) h1
        rw [hk]
        exact ⟨s'', h3, by rw [h4 (by simp)]; exact h2⟩
      · obtain ⟨s', h1, h2⟩ := ih w hw
        rw [show max - w = 0 by omega, forgive_zero] at h1 ⊢
        exact ⟨s', .cons (pipe_raise hn₁ hrec (by omega)) h1, h2⟩
    · have hre : ∀ e, r ≠ .err e := fun e h => hx ⟨e, h⟩
      have hf : forgive (max - w) (r :: rs) = r :: forgive (max - w) rs := by
        cases max - w with
        | zero => rw [forgive_zero, forgive_zero]
        | succ k =>
          cases r with
          | err e => exact absurd rfl (hre e)
          | yield x => rfl
          | eod => rfl
      obtain ⟨s', h1, h2⟩ := ih w hw
      rw [hf]
      exact ⟨s', .cons (pipe_ok hn₁ hre) h1, h2⟩

/-- A broken pipeline refuses `next()`, `state_dict()` and `load_state_dict()`, and stays
broken whatever is called.  Missing for the full statement: `reset()`
(`C19_reset_is_silent`). -/
theorem C19_broken_refuses_partial (S : Source) (max : Nat) (s : PipeSt S.σ) (h : s.broken = true) :
    pipeNext S max s = some (.err brokenErr, s) ∧
    (∀ strict, stateDict S strict s = .error brokenErr) ∧
    (∀ t, loadStateDict S s t = .error brokenErr s) ∧
    ∀ b, (pipeReset S b s).broken = true := by
  refine ⟨by simp [pipeNext, h], fun _ => by simp [stateDict, pipeRecord, h],
    fun _ => by simp [loadStateDict, h], fun b => ?_⟩
  obtain ⟨src, w, br⟩ := s
  cases h; rfl

/-- A pipeline that breaks at its second example. -/
def breaksAtTwo : Source :=
  map (fun x => match x with | .int 2 => .error ⟨false, "fatal"⟩ | x => .ok x) (listSource (ints 3))

example : ∃ s', (pipeline false 5 breaksAtTwo).Calls (pipeline false 5 breaksAtTwo).init
    [.yield (.int 1), .err ⟨false, "fatal"⟩] s' ∧ s'.broken = true :=
  C19_fatal breaksAtTwo 5 [.yield (.int 1)] _ _ _ (.cons rfl (.nil _)) (by simp [Res.fatal]) rfl rfl

/-! ### Where the code falls short of C19 -/

/-- **Disagreement.** `reset()` on a broken pipeline is not refused: it returns without
an exception (`data_pipeline::reset`, data_pipeline.cc:86-87) and does nothing. -/
theorem C19_reset_is_silent (S : Source) (b : Bool) (s : PipeSt S.σ) (h : s.broken = true) :
    pipeReset S b s = s := by
  obtain ⟨src, w, br⟩ := s
  cases h; rfl

/-- **Disagreement.** An exception below `bucket` costs more than the failing example:
those already read for the bucket are lost.  Without the failing example the stream is
1, 3; the buckets returned are [3] and nothing else. -/
theorem C19_bucket_loses :
    (pipeline true 1 (bucket 2 false (map (failsOn 2) (listSource (ints 3))))).run [.next, .next]
      (pipeline true 1 (bucket 2 false (map (failsOn 2) (listSource (ints 3))))).init
    = [some (.yield (.list [.int 3])), some .eod] := by
  with_unfolding_all rfl

/-- **Disagreement.** An exception while `skip` is skipping makes it start over: of 1, 3,
4, 5 the first three are skipped by `skip(2)`. -/
theorem C19_skip_starts_over :
    (pipeline true 1 (skip 2 (map (failsOn 2) (listSource (ints 5))))).run [.next, .next]
      (pipeline true 1 (skip 2 (map (failsOn 2) (listSource (ints 5))))).init
    = [some (.yield (.int 5)), some .eod] := by
  with_unfolding_all rfl

/-- **Disagreement.** An exception below `shard` shifts the shards: of the stream 1, 3, 4
shard 0 of 2 should be 1, 4. -/
theorem C19_shard_shifts :
    (pipeline true 1 (shard 0 2 true (map (failsOn 2) (listSource (ints 4))))).run [.next, .next]
      (pipeline true 1 (shard 0 2 true (map (failsOn 2) (listSource (ints 4))))).init
    = [some (.yield (.int 3)), some .eod] := by
  with_unfolding_all rfl

/-! ## C20 -/

/-- Arguments for which the operator has a meaning. -/
def Meaningful : BuilderCall → Prop
  | .bucket size => 0 < size
  | .bucketByLength sizes => sizes ≠ [] ∧ ∀ z ∈ sizes, 0 < z.1
  | .dynamicBucket th min max =>
    0 < th ∧ ∀ m, max = some m → 0 < m ∧ ∀ k, min = some k → k ≤ m
  | .map n => 0 < n
  | .shard idx n => idx < n
  | .concat broken => ∀ b ∈ broken, b = false
  | .sample broken ws => (∀ b ∈ broken, b = false) ∧
    ∀ l, ws = some l → l.length = broken.length ∧ ∀ w ∈ l, 0 < w
  | .zip broken names flatten => (∀ b ∈ broken, b = false) ∧
    (names ≠ [] → names.length = broken.length ∧ flatten = false)
  | .pack cap maxLen => 0 < cap ∧ 0 < maxLen
  | .unchecked => True

/-- The calls whose checks are complete. -/
def FullyChecked : BuilderCall → Prop
  | .bucketByLength _ => False
  | .pack _ _ => False
  | _ => True

theorem areClose_zero (w : Rat) : areClose w 0 = true ↔ w = 0 := by
  constructor
  · intro h
    by_contra hne
    have hb : (w == 0) = false := by simpa using hne
    simp only [areClose, hb, Bool.false_or, decide_eq_true_eq, neg_zero, max_self] at h
    rcases lt_or_gt_of_ne hne with hlt | hgt
    · rw [if_pos hlt.le, max_eq_right (by linarith : w ≤ -w), max_eq_left (by linarith)] at h
      linarith
    · rw [if_neg (by linarith), max_eq_left (by linarith : -w ≤ w), max_eq_left (by linarith)] at h
      linarith
  · rintro rfl; simp [areClose]

theorem checkWeights_iff (ws : List Rat) : (checkWeights ws).isOk = true ↔ ∀ w ∈ ws, 0 < w := by
  induction ws with
  | nil => simp [checkWeights, Except.isOk, Except.toBool]
  | cons w ws ih =>
    rw [checkWeights]
    by_cases h : w < 0 ∨ areClose w 0 = true
    · rw [if_pos h]
      rw [areClose_zero] at h
      simp only [badArg, Except.isOk, Except.toBool, List.mem_cons, forall_eq_or_imp, false_iff,
        Bool.false_eq_true]
      rintro ⟨h1, _⟩
      rcases h with h | h <;> linarith
    · rw [if_neg h, ih]
      rw [areClose_zero] at h
      have h1 : 0 < w := by
        rcases lt_trichotomy w 0 with h' | h' | h'
        · exact absurd (.inl h') h
        · exact absurd (.inr h') h
        · exact h'
      simp [h1]

theorem any_id (bs : List Bool) : bs.any id = true ↔ ¬ ∀ b ∈ bs, b = false := by
  rw [List.any_eq_true]
  constructor
  · rintro ⟨b, hb, h⟩ hall
    rw [hall b hb] at h; cases h
  · intro h
    by_contra hne
    refine h fun b hb => ?_
    cases hb' : b with
    | false => rfl
    | true => exact absurd ⟨b, hb, by simp [hb']⟩ hne

/-- The builder accepts exactly the meaningful arguments, for every operator except
`bucket_by_length` and `pack`.  Missing: those two (see `C20_pack_*`,
`C20_bucket_size_zero`) and NaN, which has no counterpart among exact numbers. -/
theorem C20_accepts_partial (c : BuilderCall) (hc : FullyChecked c) :
    (check c).isOk = true ↔ Meaningful c := by
  cases c with
  | bucketByLength sizes => cases hc
  | pack a b => cases hc
  | unchecked => simp [check, Meaningful, Except.isOk, Except.toBool]
  | bucket size =>
    simp only [check, Meaningful]
    split <;> simp [badArg, Except.isOk, Except.toBool] <;> omega
  | map n =>
    simp only [check, Meaningful]
    split <;> simp [badArg, Except.isOk, Except.toBool] <;> omega
  | shard idx n =>
    simp only [check, Meaningful]
    split
    · simp [badArg, Except.isOk, Except.toBool]; omega
    · split <;> simp [badArg, Except.isOk, Except.toBool] <;> omega
  | dynamicBucket th min max =>
    simp only [check, Meaningful]
    split
    · rename_i h
      simp only [badArg, Except.isOk, Except.toBool, false_iff, Bool.false_eq_true]
      rintro ⟨h1, _⟩; linarith
    · rename_i h
      have h0 : 0 < th := by
        rcases lt_trichotomy th 0 with h' | h' | h'
        · exact absurd h'.le h
        · exact absurd (by rw [h']) h
        · exact h'
      cases max with
      | none => simp [Except.isOk, Except.toBool, h0]
      | some m =>
        split
        · rename_i h1
          cases h1
          simp [badArg, Except.isOk, Except.toBool]
        · rename_i h1
          have hm : 0 < m := by
            rcases Nat.eq_zero_or_pos m with h | h
            · exact absurd (by rw [h]) h1
            · exact h
          cases min with
          | none => simp [Except.isOk, Except.toBool, h0, hm]
          | some k =>
            simp only
            split <;> simp [badArg, Except.isOk, Except.toBool, h0, hm] <;> omega
  | concat broken =>
    simp only [check, Meaningful]
    split
    · rename_i h
      rw [any_id] at h
      simp only [badArg, Except.isOk, Except.toBool, false_iff, Bool.false_eq_true]
      exact h
    · rename_i h
      rw [any_id] at h
      simp only [Except.isOk, Except.toBool, true_iff]
      exact Classical.not_not.1 h
  | sample broken ws =>
    simp only [check, Meaningful]
    split
    · rename_i h
      rw [any_id] at h
      simp only [badArg, Except.isOk, Except.toBool, false_iff, Bool.false_eq_true]
      exact fun h' => h h'.1
    · rename_i h
      rw [any_id, Classical.not_not] at h
      cases ws with
      | none =>
        simp only [weightsOr, List.length_replicate, ne_eq, not_true_eq_false, if_false,
          checkWeights_iff]
        refine ⟨fun _ => ⟨h, by simp⟩, fun _ w hw => ?_⟩
        obtain ⟨hn, rfl⟩ := List.mem_replicate.1 hw
        have : (0 : Rat) < broken.length := by exact_mod_cast Nat.pos_of_ne_zero hn
        positivity
      | some l =>
        by_cases hl : (weightsOr broken.length (some l)).length ≠ broken.length
        · rw [if_pos hl]
          simp only [badArg, Except.isOk, Except.toBool, false_iff, Bool.false_eq_true]
          rintro ⟨_, h'⟩
          exact hl (h' l rfl).1
        · rw [if_neg hl, checkWeights_iff]
          simp only [weightsOr] at hl ⊢
          constructor
          · intro hw
            refine ⟨h, fun l' hl' => ?_⟩
            cases hl'
            exact ⟨Classical.not_not.1 hl, hw⟩
          · rintro ⟨_, h'⟩; exact (h' l rfl).2
  | zip broken names flatten =>
    simp only [check, Meaningful]
    by_cases hb : ∀ b ∈ broken, b = false
    · have hb' : ¬ broken.any id = true := by rw [any_id, Classical.not_not]; exact hb
      by_cases hn : names = []
      · refine ⟨fun _ => ⟨hb, fun h => absurd hn h⟩, fun _ => ?_⟩
        rw [if_neg fun h => h.1 hn, if_neg fun h => h.1 hn, if_neg hb']; rfl
      · cases flatten with
        | true => simp [hn, badArg, Except.isOk, Except.toBool]
        | false =>
          by_cases hl : broken.length = names.length
          · refine ⟨fun _ => ⟨hb, fun _ => ⟨hl.symm, rfl⟩⟩, fun _ => ?_⟩
            rw [if_neg (by simp), if_neg fun h => h.2 hl, if_neg hb']; rfl
          · have hl' : ¬ names.length = broken.length := fun h => hl h.symm
            simp [hn, hl, hl', badArg, Except.isOk, Except.toBool]
    · have hb' : broken.any id = true := by rw [any_id]; exact hb
      have : ¬ ((∀ b ∈ broken, b = false) ∧
          (names ≠ [] → names.length = broken.length ∧ flatten = false)) := fun h => hb h.1
      simp only [this, iff_false, hb', if_true]
      split
      · simp [badArg, Except.isOk, Except.toBool]
      · split <;> simp [badArg, Except.isOk, Except.toBool]

/-- What is accepted without checks, or with too few, is at least what is meaningful. -/
theorem C20_never_refuses_meaningful (c : BuilderCall) (h : Meaningful c) :
    (check c).isOk = true := by
  cases c with
  | bucketByLength sizes =>
    have : sizes.isEmpty = false := by
      cases sizes with
      | nil => exact absurd rfl h.1
      | cons a b => rfl
    simp [check, this, Except.isOk, Except.toBool]
  | pack a b => rfl
  | unchecked => rfl
  | bucket n => exact (C20_accepts_partial (.bucket n) trivial).2 h
  | dynamicBucket a b c => exact (C20_accepts_partial (.dynamicBucket a b c) trivial).2 h
  | map n => exact (C20_accepts_partial (.map n) trivial).2 h
  | shard a b => exact (C20_accepts_partial (.shard a b) trivial).2 h
  | concat a => exact (C20_accepts_partial (.concat a) trivial).2 h
  | sample a b => exact (C20_accepts_partial (.sample a b) trivial).2 h
  | zip a b c => exact (C20_accepts_partial (.zip a b c) trivial).2 h

example : Meaningful (.sample [false, false] (some [1/3, 2])) ∧
    Meaningful (.dynamicBucket 10 (some 2) (some 2)) ∧ Meaningful (.shard 3 4) :=
  ⟨⟨by simp, by rintro l h; cases h; simp⟩, by constructor <;> simp, by simp [Meaningful]⟩

/-- Accepted weights can be normalised: their sum is positive. -/
theorem C20_no_division_by_zero (ws : List Rat) (n : Nat) (hn : 0 < n)
    (h : (check (.sample (List.replicate n false) (some ws))).isOk = true) :
    0 < ws.sum := by
  obtain ⟨_, h⟩ := (C20_accepts_partial (.sample (List.replicate n false) (some ws)) trivial).1 h
  obtain ⟨hl, hp⟩ := h ws rfl
  rw [List.length_replicate] at hl
  cases ws with
  | nil => simp at hl; omega
  | cons w ws =>
    have h1 := hp w List.mem_cons_self
    have h2 : ∀ l : List Rat, (∀ x ∈ l, 0 < x) → 0 ≤ l.sum := by
      intro l
      induction l with
      | nil => simp
      | cons a l ih =>
        intro h
        have := h a List.mem_cons_self
        have := ih fun x hx => h x (List.mem_cons_of_mem _ hx)
        simp only [List.sum_cons]; linarith
    have := h2 ws fun x hx => hp x (List.mem_cons_of_mem _ hx)
    simp only [List.sum_cons]; linarith

/-- An accepted shard leaves room for the examples behind it: `num_shards - shard_idx - 1`
(shard_data_source.cc:36) does not wrap around. -/
theorem C20_shard_no_wrap (idx n : Nat) (h : (check (.shard idx n)).isOk = true) :
    (0 : Int) ≤ (n : Int) - idx - 1 := by
  have : idx < n := (C20_accepts_partial (.shard idx n) trivial).1 h
  omega

theorem packLoop_stuck {σ : Type} {next : σ → Option (Res × σ)} {c : PackCfg} (hc : c.maxLen = 0)
    (ht : c.truncate = true) {p : Pack} {s : PackSt σ} {r : Res × PackSt σ}
    (h : packLoop next c p s = some r) :
    p.toks.length < c.cap → ∀ t, s.rem = some t → t ≠ [] → False := by
  refine packLoop.partial_correctness next c
    (fun p s _ => p.toks.length < c.cap → ∀ t, s.rem = some t → t ≠ [] → False) ?_ p s r h
  intro loop ih p s r h hp t hs hne
  have hstep : packStep c p t = .more ⟨true, p.toks ++ t.take 0, p.lens ++ [0]⟩ (some (t.drop 0)) := by
    have h0 : 0 < t.length := List.length_pos_iff.2 hne
    simp only [packStep, hc, ht, Nat.min_zero, if_neg hne, Nat.add_zero]
    rw [if_pos h0, if_pos trivial]
    have : decide (p.toks.length = c.cap) = false := by
      rw [decide_eq_false_iff_not]; omega
    simp [this]
  rw [hs] at h
  simp only [hstep] at h
  exact ih _ _ _ h (by simpa using hp) (t.drop 0) rfl (by simpa using hne)

/-- **Disagreement.** `pack` with `max_seq_len=0` is accepted, and with truncation the
first call never returns: it keeps cutting nothing off the first sequence. -/
theorem C20_pack_no_length :
    (check (.pack 4 0)).isOk = true ∧ ¬ Meaningful (.pack 4 0) ∧
    (pack ⟨4, 0, 0, true, false⟩ (listSource [.tensor [5, 6]])).next
      (pack ⟨4, 0, 0, true, false⟩ (listSource [.tensor [5, 6]])).init = none := by
  refine ⟨rfl, by simp [Meaningful], ?_⟩
  cases h : (pack ⟨4, 0, 0, true, false⟩ (listSource [.tensor [5, 6]])).next
      (pack ⟨4, 0, 0, true, false⟩ (listSource [.tensor [5, 6]])).init with
  | none => rfl
  | some r =>
    simp only [pack] at h
    rw [packLoop] at h
    simp only [listSource, List.getElem?_cons_zero, packStep] at h
    exact (packLoop_stuck rfl rfl h (by simp) _ rfl (by simp)).elim

/-- **Disagreement.** `pack` with `num_elements=1` is accepted too and, with truncation, never
ends; the second token is never returned. -/
theorem C20_pack_capacity_one :
    (check (.pack 1 4)).isOk = true ∧
    (pack ⟨1, 4, 0, true, false⟩ (listSource [.tensor [5, 6]])).Streams
      (pack ⟨1, 4, 0, true, false⟩ (listSource [.tensor [5, 6]])).init
      (fun _ => .dict [("seqs", .tensor [5]), ("seq_lens", .list [.int 1])]) :=
  ⟨rfl, C15_capacity_one⟩

/-- **Disagreement.** `bucket_by_length` accepts buckets for zero examples. -/
theorem C20_bucket_size_zero :
    (check (.bucketByLength [(0, 2)])).isOk = true ∧ ¬ Meaningful (.bucketByLength [(0, 2)]) :=
  ⟨rfl, by simp [Meaningful]⟩

end Fs2.Props
