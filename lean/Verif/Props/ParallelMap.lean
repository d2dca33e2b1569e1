import Verif.Pipeline.ParallelFor
import Verif.Pipeline.AsyncMapLive
import Verif.Props.Packing
import Verif.Props.Errors

/-!
# map with several calls at a time: C18

`ParallelFor.Run f s s'` is any interleaving of the pieces of one parallel loop;
`AsyncMap.Exec f n S s as s'` is any interleaving of the caller and the tasks of
`map(f, num_parallel_calls=n, deterministic=False)` over `S`, where the calls that returned
answered `as`.  `C18_deterministic` is in `Verif/Props/Packing.lean`.
-/

namespace Fs2.Props
open Fs2 Source

/-! ## The parallel loop -/

/-- However the buffer `xs` is cut into ranges and however the threads interleave, the
parallel loop of the deterministic map has at most one iteration per entry, can always go on
until every range is at its end, and then leaves `f(x)` in place of every `x`. -/
theorem C18_schedule (f : Data → Data) (xs : List Data) (ps : List ParallelFor.Piece)
    (s : ParallelFor.St) (hc : ParallelFor.Cuts 0 xs.length ps)
    (hr : ParallelFor.Run f ⟨xs, ps⟩ s) :
    (ParallelFor.Done s → s.buf = xs.map f) ∧
    (¬ ParallelFor.Done s → ∃ s', ParallelFor.Step f s s') ∧
    ∀ s', ParallelFor.Step f s s' → ParallelFor.left s' < ParallelFor.left s := by
  have hI := (ParallelFor.inv_start (f := f) hc).run hr
  refine ⟨hI.done, fun hd => ?_, fun _ h => ParallelFor.left_step h⟩
  simp only [ParallelFor.Done, Classical.not_forall, Nat.not_le] at hd
  obtain ⟨⟨i, e⟩, hp, hlt⟩ := hd
  have hle : ∀ p ∈ s.pieces, p.2 ≤ xs.length := by
    have : ∀ s₀ s₁, ParallelFor.Run f s₀ s₁ → (∀ p ∈ s₀.pieces, p.2 ≤ xs.length) →
        ∀ p ∈ s₁.pieces, p.2 ≤ xs.length := by
      intro s₀ s₁ h
      induction h with
      | nil => exact id
      | step hs _ ih =>
        intro h0
        apply ih
        cases hs
        next i e _ _ _ _ =>
        intro p hp
        simp only [List.mem_append, List.mem_cons] at hp h0
        rcases hp with hp | rfl | hp
        · exact h0 _ (.inl hp)
        · exact h0 (i, e) (.inr (.inl rfl))
        · exact h0 _ (.inr (.inr hp))
    exact this _ _ hr fun p hp => (hc.mem hp).2
  obtain ⟨l, r, hlr⟩ := List.append_of_mem hp
  have hlen : i < s.buf.length := by
    rw [hI.len]
    exact Nat.lt_of_lt_of_le hlt (hle _ hp)
  obtain ⟨buf, ps'⟩ := s
  simp only at hlr hlen
  subst hlr
  exact ⟨_, .one hlt (List.getElem?_eq_getElem hlen)⟩

/-- Five entries in three ranges, the last one first. -/
example : ParallelFor.Cuts 0 (ints 5).length [(0, 2), (2, 4), (4, 5)] :=
  .cons (by decide) (.cons (by decide) (.cons (by decide) (.nil 5)))

example (f : Data → Data) : ParallelFor.Run f ⟨ints 5, [(0, 2), (2, 4), (4, 5)]⟩
    ⟨[.int 1, .int 2, .int 3, .int 4, f (.int 5)], [(0, 2), (2, 4), (5, 5)]⟩ :=
  .step (.one (l := [(0, 2), (2, 4)]) (r := []) (x := .int 5) (by decide) rfl) (.nil _)

/-! ## Results come in any order -/

open AsyncMap

/-- With `deterministic=False` and a function that does not throw, in every execution the
results of `next()` are examples followed by ends of data; no exception is raised; the
examples are part of some rearrangement of `f(x)` for the upstream `x`; and once the end of
data has been returned they are all of it.  (That calls return is not part of this:
see `C18_deadlock`.) -/
theorem C18_any_order_partial (S : Source) (f : Data → Except Err Data) (g : Data → Data) (n : Nat)
    (xs : List Data) (hf : ∀ x, f x = .ok (g x)) (h : S.Yields S.init xs)
    (as : List AsyncMap.Answer) (s : AsyncMap.St S.σ)
    (hx : AsyncMap.Exec f n S (AsyncMap.init S) as s) :
    ∃ (ys : List Data) (k : Nat) (rest : List Data), AsyncMap.results as = ys.map .yield ++ List.replicate k .eod ∧
      (ys ++ rest).Perm (xs.map g) ∧ (0 < k → ys.Perm (xs.map g)) := by
  obtain ⟨ys, k, rest, h1, h2, h3⟩ := AsyncMap.exec_results hf (AsyncMap.inv_init h) hx
  refine ⟨ys, k, rest, h1, by simpa using h2, fun hk => ?_⟩
  rw [h3 hk] at h2
  simpa using h2

/-! ## When calls return -/

/-- If tasks finish at once (nothing happens between a task storing its result and the
task decrementing the counter and notifying), then inside a call something other than
a wake-up without notification can always happen; and, in every execution, only boundedly
many steps happen before the call returns.  So each call returns.  Missing: executions in which tasks do not finish at once,
where it is false (`C18_deadlock`). -/
theorem C18_returns_partial (S : Source) (f : Data → Except Err Data) (n : Nat) (hn : 0 < n)
    (hS : ∀ i, ∃ r, S.next i = some r) (s : AsyncMap.St S.σ) (h : AsyncMap.Prompt f n S s) :
    (s.pc ≠ .idle → ∃ l s', AsyncMap.Step f n S s l s' ∧ AsyncMap.Prompt f n S s' ∧
      l ≠ .spurious ∧ l ≠ .call) ∧
    ∀ k s', AsyncMap.Quietly f n S s k s' → k ≤ 6 * s.tasks.length + 8 * n + 10 := by
  refine ⟨fun hp => ?_, fun k s' hq => Nat.le_trans (AsyncMap.quietly_bound hq) (AsyncMap.weight_le s)⟩
  obtain ⟨l, s', h1, h2, h3, h4⟩ :=
    AsyncMap.not_stuck (f := f) (n := n) (AsyncMap.live hn h) hp (hS s.inner)
  exact ⟨l, s', h1, .step h h1 h2, h3, h4⟩

/-- A state in which three tasks run and the caller waits. -/
example : ∃ s : AsyncMap.St (listSource (ints 3)).σ,
    AsyncMap.Prompt .ok 3 (listSource (ints 3)) s ∧ s.pc = .held ∧ s.tasks.length = 3 := by
  have nc : ∀ (s : AsyncMap.St (listSource (ints 3)).σ),
      s.tasks.all (fun t => match t with | .run _ => true | _ => false) = true →
      ¬ AsyncMap.Closing s := by
    rintro s h ⟨t, ht, rfl | rfl⟩ <;> simpa using List.all_eq_true.1 h _ ht
  have h0 := AsyncMap.Prompt.init (f := .ok) (n := 3) (S := listSource (ints 3))
  have h1 := h0.step (.callNext rfl) (.inr (nc _ rfl))
  have h2 := h1.step (.read rfl (by decide) rfl) (.inr (nc _ rfl))
  have h3 := h2.step (.read rfl (by decide) rfl) (.inr (nc _ rfl))
  have h4 := h3.step (.read rfl (by decide) rfl) (.inr (nc _ rfl))
  have h5 := h4.step (.full rfl (by decide)) (.inr (nc _ rfl))
  have h6 := h5.step (.open₁ rfl rfl) (.inr (nc _ rfl))
  have h7 := h6.step (.block rfl rfl rfl) (.inr (nc _ rfl))
  exact ⟨_, h7, rfl, rfl⟩

/-! ## Calls that never return -/

theorem _root_.Fs2.AsyncMap.Exec.tau {f : Data → Except Err Data} {n : Nat} {S : Source}
    {s s' s'' : AsyncMap.St S.σ} {l : AsyncMap.Lab} {as : List AsyncMap.Answer}
    (hs : AsyncMap.Step f n S s l s') (hl : l.shown = []) (h : AsyncMap.Exec f n S s' as s'') :
    AsyncMap.Exec f n S s as s'' := by
  have := AsyncMap.Exec.step hs h
  rwa [hl] at this

theorem _root_.Fs2.AsyncMap.Exec.ret {f : Data → Except Err Data} {n : Nat} {S : Source}
    {s s' s'' : AsyncMap.St S.σ} {a : AsyncMap.Answer} {as : List AsyncMap.Answer}
    (hs : AsyncMap.Step f n S s (.ret a) s') (h : AsyncMap.Exec f n S s' as s'') :
    AsyncMap.Exec f n S s (a :: as) s'' := .step hs h

/-- **Disagreement.** With `deterministic=False` the pipeline may not terminate.  Over one
example with `num_parallel_calls=2` there is an execution in which the first `next()`
returns it and the second waits for ever: whatever happens afterwards, no call returns.
(The caller takes the result before the task decrements the counter, so the second
call still sees a task in flight and waits for a result that has already been taken.) -/
theorem C18_deadlock :
    ∃ s, AsyncMap.Exec .ok 2 (listSource (ints 1)) (AsyncMap.init _)
        [.res (.yield (.int 1))] s ∧
      s.pc ≠ .idle ∧
      ∀ as s', AsyncMap.Exec .ok 2 (listSource (ints 1)) s as s' → as = [] := by
  refine ⟨⟨(1 : Nat), [], [], 0, true, none, .wait⟩, ?_, by simp, fun as s' hx =>
    AsyncMap.Hopeless.exec ⟨.inl rfl, rfl, rfl, rfl⟩ hx⟩
  refine .tau (.callNext rfl) rfl ?_
  refine .tau (.read rfl (by decide) rfl) rfl ?_
  refine .tau (.readEod rfl (by decide) rfl) rfl ?_
  refine .tau (.shut₁ rfl rfl) rfl ?_
  refine .tau (.open₂ rfl (by decide)) rfl ?_
  refine .tau (.push (l := []) (r := []) (x := .int 1) (y := .int 1) rfl rfl rfl) rfl ?_
  refine .ret (.take rfl rfl rfl) ?_
  refine .tau (.callNext rfl) rfl ?_
  refine .tau (.readEod rfl (by decide) rfl) rfl ?_
  refine .tau (.shut₁ rfl rfl) rfl ?_
  refine .tau (.open₂ rfl (by decide)) rfl ?_
  refine .tau (.count (l := []) (r := []) rfl) rfl ?_
  refine .tau (.notify (l := []) (r := []) rfl) rfl ?_
  exact .nil _

/-- **Disagreement.** `state_dict()` may not return either: there is an execution in which
it is blocked, no task is left, and nothing but a wake-up without a notification can
happen.  (The task decrements the counter and notifies, neither under the mutex, after the
caller has found a task in flight and before it starts waiting.) -/
theorem C18_save_hangs :
    ∃ s, AsyncMap.Exec .ok 2 (listSource (ints 1)) (AsyncMap.init _)
        [.res (.yield (.int 1))] s ∧
      s.pc = .saveAsleep ∧ s.inflight = 0 ∧
      ∀ l s', AsyncMap.Step .ok 2 (listSource (ints 1)) s l s' → l = .spurious := by
  refine ⟨⟨(1 : Nat), [], [], 0, true, none, .saveAsleep⟩, ?_, rfl, rfl, ?_⟩
  · refine .tau (.callNext rfl) rfl ?_
    refine .tau (.read rfl (by decide) rfl) rfl ?_
    refine .tau (.readEod rfl (by decide) rfl) rfl ?_
    refine .tau (.shut₁ rfl rfl) rfl ?_
    refine .tau (.open₂ rfl (by decide)) rfl ?_
    refine .tau (.push (l := []) (r := []) (x := .int 1) (y := .int 1) rfl rfl rfl) rfl ?_
    refine .ret (.take rfl rfl rfl) ?_
    refine .tau (.callSave rfl) rfl ?_
    refine .tau (.saveBlock rfl (by decide) rfl) rfl ?_
    refine .tau (.count (l := []) (r := []) rfl) rfl ?_
    refine .tau (.notify (l := []) (r := []) rfl) rfl ?_
    refine .tau (.saveSleep rfl) rfl ?_
    exact .nil _
  · intro l s' hs
    cases hs <;> simp_all

/-! ## Exceptions -/

/-- **Disagreement with C19.** Once the function has raised an exception in a task of the
non-deterministic map, no call ever returns an example again, whatever the number of errors
the pipeline tolerates: the stored exception is never cleared. -/
theorem C18_exception_sticks (S : Source) (f : Data → Except Err Data) (n : Nat)
    (s s' : AsyncMap.St S.σ) (as : List AsyncMap.Answer) (e : Err) (he : s.exc = some e)
    (hx : AsyncMap.Exec f n S s as s') (y : Data) :
    AsyncMap.Answer.res (.yield y) ∉ as := by
  induction hx generalizing e with
  | nil => simp
  | step hs _ ih =>
    cases hs
    case throw => simpa [Lab.shown] using ih _ rfl
    all_goals
      simp_all [Lab.shown]

/-- **Disagreement.** With the default `deterministic=True`, if the upstream raises a
recoverable exception while the buffer is being filled, the next call returns an example to
which the function has not been applied. -/
theorem C18_raw_example :
    ∃ s s', (mapPar (fun x => .list [x]) 2 (map (failsOn 2) (listSource (ints 3)))).Calls
        (mapPar (fun x => .list [x]) 2 (map (failsOn 2) (listSource (ints 3)))).init
        [.err ⟨true, "bad example"⟩] s ∧
      (mapPar (fun x => .list [x]) 2 (map (failsOn 2) (listSource (ints 3)))).next s =
        some (.yield (.int 1), s') :=
  ⟨_, _, .cons (by with_unfolding_all rfl) (.nil _), by with_unfolding_all rfl⟩

end Fs2.Props
