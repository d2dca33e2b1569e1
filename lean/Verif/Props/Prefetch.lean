import Verif.Pipeline.PrefetchLive
import Verif.Props.Errors
import Verif.Props.Resume

/-!
# prefetch: C17

`Prefetch.Exec n S s evs s'` (`Verif/Pipeline/Prefetch.lean`) is any interleaving of the
caller and the background thread of `prefetch(n)` over the upstream `S`; `evs` are the
calls that returned and their answers.
-/

namespace Fs2.Props
open Fs2 Source Prefetch

/-! ## The stream -/

/-- What `k` calls of `next()` return for the stream `xs`. -/
def firstResults (xs : List Data) (k : Nat) : List Res :=
  (List.range k).map fun i => match xs[i]? with
    | some x => .yield x
    | none => .eod

theorem _root_.Fs2.Source.Calls.append {S : Source} {s s' s'' : S.σ} {rs rs' : List Res}
    (h : S.Calls s rs s') (h' : S.Calls s' rs' s'') : S.Calls s (rs ++ rs') s'' := by
  induction h with
  | nil => exact h'
  | cons hn _ ih => exact .cons hn (ih h')

theorem calls_firstResults {S : Source} {s s' : S.σ} {xs : List Data} {rs : List Res}
    (hy : S.Yields s xs) (hc : S.Calls s rs s') : rs = firstResults xs rs.length := by
  induction hc generalizing xs with
  | nil => rfl
  | @cons s s₁ s₂ r rs hn _ ih =>
    cases xs with
    | nil =>
      obtain ⟨s', h1, h2⟩ := hy.nil_inv.next
      rw [hn] at h1
      cases h1
      have := ih ⟨_, .nil _, h2⟩
      simp [firstResults, List.range_succ_eq_map] at this ⊢
      simpa [Function.comp_def] using this
    | cons x xs =>
      obtain ⟨s', h1, h2⟩ := hy.cons_inv
      rw [hn] at h1
      cases h1
      have := ih h2
      simp [firstResults, List.range_succ_eq_map] at this ⊢
      simpa [Function.comp_def] using this

/-- However the background thread and the caller are scheduled, and however often
`state_dict()` is called in between, the calls of `next()` return the examples of the
upstream in order, then end of data. -/
theorem C17_in_order (n : Nat) (S : Source) {xs : List Data} (hy : S.Yields S.init xs)
    {evs : List Event} {s : St S.σ} (hx : Exec n S (Prefetch.init S) evs s)
    (hev : ∀ ev ∈ evs, ev.1 = .next ∨ ev.1 = .save) :
    results evs = firstResults xs (results evs).length := by
  have hL : Laws S fun s => ∃ ys, S.Yields s ys := by
    refine ⟨?_, ⟨xs, hy⟩, ?_, ?_⟩
    · rintro s r s' ⟨ys, hy⟩ hn _
      cases ys with
      | nil =>
        obtain ⟨t, h1, h2⟩ := hy.nil_inv.next
        rw [hn] at h1
        cases h1
        exact ⟨[], _, .nil _, h2⟩
      | cons y ys =>
        obtain ⟨t, h1, h2⟩ := hy.cons_inv
        rw [hn] at h1
        cases h1
        exact ⟨ys, h2⟩
    · rintro s s' ⟨ys, hy⟩ hn
      cases ys with
      | nil =>
        obtain ⟨t, h1, h2⟩ := hy.nil_inv.next
        rw [hn] at h1
        cases h1
        exact h2
      | cons y ys =>
        obtain ⟨t, h1, h2⟩ := hy.cons_inv
        rw [hn] at h1
        cases h1
    · rintro s r s' ⟨ys, hy⟩ hn e rfl
      cases ys with
      | nil =>
        obtain ⟨t, h1, h2⟩ := hy.nil_inv.next
        rw [hn] at h1
        cases h1
      | cons y ys =>
        obtain ⟨t, h1, h2⟩ := hy.cons_inv
        rw [hn] at h1
        cases h1
  obtain ⟨a, h, -⟩ := follows_reads hL hx ctl_init (rel_init hL) hev
  exact calls_firstResults hy h

theorem streams_next {S : Source} {s : S.σ} {f : Nat → Data} (h : S.Streams s f) :
    ∃ s', S.next s = some (.yield (f 0), s') ∧ S.Streams s' fun i => f (i + 1) := by
  obtain ⟨s', h1⟩ := h 1
  simp only [List.range_one, List.map_cons, List.map_nil] at h1
  obtain ⟨s₁, hn, -⟩ := h1.cons_inv
  refine ⟨s₁, hn, fun k => ?_⟩
  obtain ⟨s₂, h2⟩ := h (k + 1)
  simp only [List.range_succ_eq_map, List.map_cons, List.map_map] at h2
  obtain ⟨s₃, hn', h3⟩ := h2.cons_inv
  rw [hn] at hn'
  cases hn'
  exact ⟨s₂, h3⟩

theorem calls_streams {S : Source} {s s' : S.σ} {f : Nat → Data} {rs : List Res}
    (hy : S.Streams s f) (hc : S.Calls s rs s') :
    rs = (List.range rs.length).map fun i => .yield (f i) := by
  induction hc generalizing f with
  | nil => rfl
  | cons hn _ ih =>
    obtain ⟨t, h1, h2⟩ := streams_next hy
    rw [hn] at h1
    cases h1
    have := ih h2
    simp [List.range_succ_eq_map]
    simpa [Function.comp_def] using this

/-- The same for an upstream that does not end. -/
theorem C17_in_order_endless (n : Nat) (S : Source) {f : Nat → Data} (hy : S.Streams S.init f)
    {evs : List Event} {s : St S.σ} (hx : Exec n S (Prefetch.init S) evs s)
    (hev : ∀ ev ∈ evs, ev.1 = .next ∨ ev.1 = .save) :
    results evs = (List.range (results evs).length).map fun i => .yield (f i) := by
  have hL : Laws S fun s => ∃ g, S.Streams s g := by
    refine ⟨?_, ⟨f, hy⟩, ?_, ?_⟩
    · rintro s r s' ⟨g, hg⟩ hn _
      obtain ⟨t, h1, h2⟩ := streams_next hg
      rw [hn] at h1
      cases h1
      exact ⟨_, h2⟩
    · rintro s s' ⟨g, hg⟩ hn
      obtain ⟨t, h1, h2⟩ := streams_next hg
      rw [hn] at h1
      cases h1
    · rintro s r s' ⟨g, hg⟩ hn e rfl
      obtain ⟨t, h1, h2⟩ := streams_next hg
      rw [hn] at h1
      cases h1
  obtain ⟨a, h, -⟩ := follows_reads hL hx ctl_init (rel_init hL) hev
  exact calls_streams hy h

/-! ## Saving, loading and resetting -/

variable {R : Rng} {p : Pipe}

theorem pipe_laws (hp : p.Accepted R) (hq : p.Quiet) (he : p.EndsForGood) :
    Laws (p.denote R) (p.Inv R) :=
  have L := Pipe.laws R p hp
  ⟨L.inv.next, L.init, L.eod he, L.silent hq⟩

/-- For every composition of operators that raises no exception: whatever the schedule,
a caller of `prefetch(n)` who calls `next()`, `reset()` (random number generators
included), `state_dict()` and `load_state_dict()` of any state saved before gets the
answers the upstream itself would give, where loading goes back to the moment of
saving.  Missing: upstreams that raise exceptions, and `reset(reset_rng=False)`;
for both the claim is false (below). -/
theorem C17_transparent_partial (n : Nat) (hp : p.Accepted R) (hq : p.Quiet) (he : p.EndsForGood)
    (hl : p.LoadsFresh R) (hk : p.NoPack) (ht : p.Tidy)
    {evs : List Event} {s : St (p.denote R).σ} (hx : Exec n (p.denote R) (Prefetch.init _) evs s)
    (hreset : ∀ ans, (Request.reset false, ans) ∉ evs)
    (hload : ∀ tp ans pre post, evs = pre ++ (.load tp, ans) :: post → (.save, .saved tp) ∈ pre) :
    Follows (p.denote R) [] (p.denote R).init evs := by
  have L := Pipe.laws R p hp
  have hL := pipe_laws hp hq he
  refine follows hL (fun s t hs ht => L.resumes hs ht (L.anywhere hl hk hs ht)) hx ctl_init
    (rel_init hL) (by simp) ?_ (fun tp ans pre post h => .inr (hload tp ans pre post h))
  intro b ans hm s hs
  cases b with
  | false => exact absurd hm (hreset ans)
  | true => exact ⟨L.inv.reset true hs, L.rewinds hs (L.tidy ht hs)⟩

/-- A shuffled list meets the conditions of `C17_transparent_partial`; executions with
`state_dict()` and with `reset()` are below. -/
example : Pipe.Accepted lcg (.bucket 2 false (.shuffle 3 7 (.list (ints 9)))) ∧
    Pipe.Quiet (.bucket 2 false (.shuffle 3 7 (.list (ints 9)))) ∧
    Pipe.EndsForGood (.bucket 2 false (.shuffle 3 7 (.list (ints 9)))) ∧
    Pipe.LoadsFresh lcg (.bucket 2 false (.shuffle 3 7 (.list (ints 9)))) ∧
    Pipe.NoPack (.bucket 2 false (.shuffle 3 7 (.list (ints 9)))) ∧
    Pipe.Tidy (.bucket 2 false (.shuffle 3 7 (.list (ints 9)))) := by
  simp [Pipe.Accepted, Pipe.Quiet, Pipe.EndsForGood, Pipe.LoadsFresh, Pipe.NoPack, Pipe.Tidy]

/-- A state saved by one `prefetch(n)` at any moment and loaded into another one, built
the same way and used in any way: loading works, and the calls of `next()` on the two
objects together return the upstream's results with nothing lost or repeated. -/
theorem C17_state_dict_partial (n : Nat) (hp : p.Accepted R) (hq : p.Quiet) (he : p.EndsForGood)
    (hl : p.LoadsFresh R) (hk : p.NoPack)
    {evs₁ evs₂ evs₃ : List Event} {s₁ s₂ : St (p.denote R).σ} {tp : Tape} {ans : Answer}
    (h₁ : Exec n (p.denote R) (Prefetch.init _) (evs₁ ++ [(.save, .saved tp)]) s₁)
    (h₂ : Exec n (p.denote R) (Prefetch.init _) (evs₂ ++ (.load tp, ans) :: evs₃) s₂)
    (hev₁ : ∀ ev ∈ evs₁, ev.1 = .next ∨ ev.1 = .save)
    (hev₂ : ∀ ev ∈ evs₂, ev.1 = .next ∨ ev.1 = .save)
    (hev₃ : ∀ ev ∈ evs₃, ev.1 = .next ∨ ev.1 = .save) :
    ans = .done ∧ ∃ a, (p.denote R).Calls (p.denote R).init (results evs₁ ++ results evs₃) a := by
  have L := Pipe.laws R p hp
  have hL := pipe_laws hp hq he
  have hres : ∀ s t, p.Inv R s → p.Inv R t → Resumes (p.denote R) (p.Inv R) s t :=
    fun s t hs ht => L.resumes hs ht (L.anywhere hl hk hs ht)
  obtain ⟨m₁, h1, h1'⟩ := exec_split h₁
  obtain ⟨a, c1, ct1, r1⟩ := follows_reads hL h1 ctl_init (rel_init hL) hev₁
  obtain ⟨t, t', ct, rt, st, -⟩ := exec_cons hL h1' ct1 r1
  have hg : Good n (p.denote R) (p.Inv R) tp a := by
    rcases rt.answer hL ct st (by simp) (by simp) with
      ⟨_, _, h, _⟩ | ⟨_, h, _⟩ | ⟨_, _, h⟩ | ⟨_, h, _⟩
    · cases h
    · cases h
    · obtain ⟨tp', h, hg⟩ := h hres
      cases h
      exact hg
    · cases h
  obtain ⟨m₂, h2, h2'⟩ := exec_split h₂
  obtain ⟨b, -, ct2, r2⟩ := follows_reads hL h2 ctl_init (rel_init hL) hev₂
  obtain ⟨u, u', cu, ru, su, hx⟩ := exec_cons hL h2' ct2 r2
  rcases ru.answer hL cu su (by simp) (fun tp' h => by cases h; exact ⟨a, hg⟩) with
    ⟨_, _, h, _⟩ | ⟨_, h, _⟩ | ⟨h, _⟩ | ⟨tp', h, h', hr⟩
  · cases h
  · cases h
  · cases h
  · cases h
    obtain ⟨a', c3, -⟩ := follows_reads hL hx (cu.step su) (hr a hg) hev₃
    exact ⟨h', a', c1.append c3⟩

/-! ## Bounded, and no deadlock -/

/-- At any moment at most `2 (n + 1)` examples have been taken from the upstream and not
yet been returned.  Loaded states are assumed to come from a `prefetch(n)`. -/
theorem C17_bounded (n : Nat) (S : Source) {evs : List Event} {s : St S.σ}
    (hx : Exec n S (Prefetch.init S) evs s)
    (hl : ∀ tp ans, (Request.load tp, ans) ∈ evs →
      ∃ evs' s', Exec n S (Prefetch.init S) evs' s' ∧ (.save, .saved tp) ∈ evs' ∧
        ∀ tp' ans', (Request.load tp', ans') ∉ evs') :
    held s ≤ 2 * (n + 1) := by
  refine (room_exec hx ctl_init room_init fun tp ans h => ?_).held (ctl_exec hx ctl_init)
  obtain ⟨evs', s', h1, h2, h3⟩ := hl tp ans h
  exact saved_fits h1 ctl_init room_init (fun tp' ans' h => absurd h (h3 tp' ans')) h2

/-- Every call returns, under every schedule: from any moment on, at most `16 n + 60`
steps are possible before a call returns (or a new call begins, or a condition variable
wakes up without being notified); and while a call is in progress and the upstream's
calls return, some such step is possible. -/
theorem C17_calls_return (n : Nat) (S : Source) {evs : List Event} {s : St S.σ}
    (hx : Exec n S (Prefetch.init S) evs s)
    (hl : ∀ tp ans, (Request.load tp, ans) ∈ evs →
      ∃ evs' s', Exec n S (Prefetch.init S) evs' s' ∧ (.save, .saved tp) ∈ evs' ∧
        ∀ tp' ans', (Request.load tp', ans') ∉ evs') :
    (∀ k s', Quietly n S s k s' → k ≤ 16 * n + 60) ∧
    (s.pc ≠ .idle → (∃ r, S.next s.inner = some r) →
      ∃ l s', Step n S s l s' ∧ (l = .tau ∨ ∃ q a, l = .ret q a)) := by
  have hc := ctl_exec hx ctl_init
  refine ⟨fun k s' h => ?_, fun h1 h2 => not_stuck hc (fun _ => h2) h1⟩
  have hr := room_exec hx ctl_init room_init fun tp ans h => by
    obtain ⟨evs', s', h1, h2, h3⟩ := hl tp ans h
    exact saved_fits h1 ctl_init room_init (fun tp' ans' h => absurd h (h3 tp' ans')) h2
  have h1 := (quietly_inv h hc hr).2.2
  have h2 := weight_le (n := n) s
  omega

/-! ## When the upstream raises an exception -/

/-- The answers to calls of `next()` alone, for `n > 0` and any upstream whose end of data
is final: they are the upstream's, up to an exception `e` of the upstream; the call that
reports `e` may come earlier, dropping examples read before `e`, and every call after it
raises `e` again.  Missing from C17: that no example is dropped, which is false (below). -/
theorem C17_exception_partial (n : Nat) (hn : n ≠ 0) (S : Source) (I : S.σ → Prop)
    (hI : Invar S I) (h0 : I S.init) (hE : EodFinal S I)
    {evs : List Event} {s : St S.σ} (hx : Exec n S (Prefetch.init S) evs s)
    (hev : ∀ ev ∈ evs, ev.1 = .next) :
    (∃ a, S.Calls S.init (results evs) a) ∨
    ∃ rs a dropped b e c k, S.Calls S.init rs a ∧ S.Emits a dropped b ∧
      S.next b = some (.err e, c) ∧ results evs = rs ++ List.replicate (k + 1) (.err e) := by
  have key : ∀ {s s' : St S.σ} {evs : List Event} {a : S.σ}, Exec n S s evs s' → Ctl n s →
      Rel n S I s a → (∀ ev ∈ evs, ev.1 = .next) →
      (∃ a', S.Calls a (results evs) a') ∨
      ∃ rs a' dropped b e c k, S.Calls a rs a' ∧ S.Emits a' dropped b ∧
        S.next b = some (.err e, c) ∧ results evs = rs ++ List.replicate (k + 1) (.err e) := by
    intro s s' evs a hx
    have hK : Keeps S I := hI.next
    induction hx generalizing a with
    | nil => exact fun _ _ _ => .inl ⟨a, .nil a⟩
    | @step s l s' evs s'' hs he ih =>
      intro hc hr hev
      cases l with
      | tau => exact ih (hc.step hs) (hr.silent hK hE hc hs rfl) hev
      | spurious => exact ih (hc.step hs) (hr.silent hK hE hc hs rfl) hev
      | call q => exact ih (hc.step hs) (hr.silent hK hE hc hs rfl) hev
      | ret q ans =>
        have hq : q = .next := hev (q, ans) (by simp [Lab.shown])
        subst hq
        have hev' : ∀ ev ∈ evs, ev.1 = .next := fun ev h => hev ev (by simp [Lab.shown, h])
        rcases hr.next_any hn hK hc hs with ⟨r, a', rfl, hnx, -, hr'⟩ |
          ⟨lost, m, e, m', rfl, h1, h2, hf⟩
        · rcases ih (hc.step hs) hr' hev' with ⟨a'', h⟩ | ⟨rs, a'', d, b, e, c, k, h1, h2, h3, h4⟩
          · exact .inl ⟨a'', .cons hnx h⟩
          · exact .inr ⟨r :: rs, a'', d, b, e, c, k, .cons hnx h1, h2, h3, by
              simp only [Lab.shown, List.cons_append, List.nil_append, results, h4]⟩
        · refine .inr ⟨[], a, lost, m, e, m', evs.length, .nil a, h1, h2, ?_⟩
          have h3 := faulted_exec hn (hc.step hs) hf he
          have h4 : results evs = List.replicate evs.length (.err e) := by
            clear ih he hev hr hs
            induction evs with
            | nil => rfl
            | cons ev evs ih =>
              obtain ⟨q, ans⟩ := ev
              have hq : q = .next := hev' (q, ans) List.mem_cons_self
              subst hq
              have ha := h3 _ List.mem_cons_self
              simp only [Request.isNext, if_true] at ha
              subst ha
              simp only [results, List.length_cons, List.replicate_succ]
              rw [ih (fun ev h => hev' ev (List.mem_cons_of_mem _ h))
                (fun ev h => h3 ev (List.mem_cons_of_mem _ h))]
          simp only [Lab.shown, List.cons_append, List.nil_append, results, h4,
            List.replicate_succ]
  exact key hx ctl_init
    ⟨fun h => absurd h hn, h0, S.init, .nil _, Like.refl _, h0⟩ hev

/-! ## Schedules of concrete pipelines -/

theorem _root_.Fs2.Prefetch.Exec.tau {n : Nat} {S : Source} {s s' s'' : St S.σ} {evs : List Event}
    (h : Step n S s .tau s') (h' : Exec n S s' evs s'') : Exec n S s evs s'' := .step h h'

theorem _root_.Fs2.Prefetch.Exec.call {n : Nat} {S : Source} {s s' s'' : St S.σ} {evs : List Event}
    {q : Request} (h : Step n S s (.call q) s') (h' : Exec n S s' evs s'') : Exec n S s evs s'' :=
  .step h h'

theorem _root_.Fs2.Prefetch.Exec.ret {n : Nat} {S : Source} {s s' s'' : St S.σ} {evs : List Event}
    {q : Request} {a : Answer} (h : Step n S s (.ret q a) s') (h' : Exec n S s' evs s'') :
    Exec n S s ((q, a) :: evs) s'' := .step h h'

/-- `prefetch(2)` over 1, 2, 3: the thread reads one example, the caller takes it while the
thread reads two more, `state_dict()` is called, and the caller takes the rest. -/
example : ∃ s tp, Exec 2 (listSource (ints 3)) (Prefetch.init _)
    [(.next, .res (.yield (.int 1))), (.save, .saved tp), (.next, .res (.yield (.int 2)))] s :=
  ⟨_, _,
    .call (.callNext (by decide) rfl rfl) <| .tau (.sleep rfl rfl rfl) <|
    .tau (.read rfl rfl rfl) <| .tau (.push rfl (.inr (by decide))) <| .tau (.notify rfl) <|
    .tau (.swap rfl (by with_unfolding_all decide) (.inr (List.cons_ne_nil _ _))) <|
    .ret (.retNext rfl) <|
    .tau (.read rfl rfl rfl) <| .call (.callStop rfl rfl (by simp)) <|
    .tau (.push rfl (.inl rfl)) <| .tau (.stopNotify rfl) <| .tau (.notify rfl) <|
    .tau (.exit rfl (by with_unfolding_all decide)) <| .tau (.join rfl rfl) <|
    .ret (.save rfl (by with_unfolding_all decide) rfl) <| .call (.callNext (by decide) rfl rfl) <|
    .tau (.swap rfl (by with_unfolding_all decide) (.inr (List.cons_ne_nil _ _))) <|
    .ret (.retNext rfl) <| .nil _⟩

/-- 1, then an exception. -/
def oneThenError : Source := map (failsOn 2) (listSource (ints 2))

/-- Its state with `k` examples read. -/
def oneThenErrorAt (k : Nat) : oneThenError.σ := k

theorem oneThenError_1 : oneThenError.next oneThenError.init =
    some (.yield (.int 1), oneThenErrorAt 1) := by with_unfolding_all rfl

theorem oneThenError_2 : oneThenError.next (oneThenErrorAt 1) =
    some (.err ⟨true, "bad example"⟩, oneThenErrorAt 2) := by with_unfolding_all rfl

/-- **Disagreement.** If the upstream raises an exception, examples read before it may
never be returned: `prefetch(2)` over 1 and then an exception can give the exception first
(the thread has read both before the caller looks), although under another schedule it
gives 1 first. -/
theorem C17_exception_drops :
    (∃ s, Exec 2 oneThenError (Prefetch.init _)
      [(.next, .res (.err ⟨true, "bad example"⟩))] s) ∧
    ∃ s, Exec 2 oneThenError (Prefetch.init _)
      [(.next, .res (.yield (.int 1))), (.next, .res (.err ⟨true, "bad example"⟩))] s :=
  ⟨⟨_,
    .call (.callNext (by decide) rfl rfl) <|
    .tau (.read rfl rfl oneThenError_1) <| .tau (.push rfl (.inr (by decide))) <| .tau (.notify rfl) <|
    .tau (.read rfl rfl oneThenError_2) <|
    .tau (.push rfl (.inr (by with_unfolding_all decide))) <| .tau (.notify rfl) <|
    .ret (.rethrow rfl rfl rfl) <| .nil _⟩,
   ⟨_,
    .call (.callNext (by decide) rfl rfl) <|
    .tau (.read rfl rfl oneThenError_1) <| .tau (.push rfl (.inr (by decide))) <| .tau (.notify rfl) <|
    .tau (.swap rfl (by with_unfolding_all decide) (.inr (List.cons_ne_nil _ _))) <|
    .ret (.retNext rfl) <|
    .tau (.read rfl rfl oneThenError_2) <|
    .tau (.push rfl (.inr (by with_unfolding_all decide))) <| .tau (.notify rfl) <|
    .call (.callNext (by decide) rfl rfl) <|
    .ret (.rethrow rfl rfl rfl) <| .nil _⟩⟩

/-- Four examples shuffled in windows of two. -/
def shuffled : Source := shuffle lcg 2 0 (listSource (ints 4))

/-- Its state with buffer `b`, positions `p` and `q`, generator state `g` and `k` examples
read. -/
def shuffledAt (b : List Int) (p q : Nat) (f : Bool) (g k : Nat) : shuffled.σ :=
  (⟨b.map .int, p, q, f, 0, g, k⟩ : ShuffleSt lcg Nat)

theorem shuffled_1 : shuffled.next shuffled.init =
    some (.yield (.int 2), shuffledAt [3, 1] 1 2 false 3 3) := by with_unfolding_all rfl

theorem shuffled_2 : shuffled.next (shuffledAt [3, 1] 1 2 false 3 3) =
    some (.yield (.int 1), shuffledAt [3, 4] 0 2 false 3 4) := by with_unfolding_all rfl

theorem shuffled_3 : shuffled.next (shuffledAt [3, 4] 0 2 false 3 4) =
    some (.yield (.int 3), shuffledAt [3, 4] 1 0 false 18 4) := by with_unfolding_all rfl

theorem shuffled_4 : shuffled.next (shuffled.reset false (shuffledAt [3, 4] 0 2 false 3 4)) =
    some (.yield (.int 1), shuffledAt [3, 2] 1 2 false 18 3) := by with_unfolding_all rfl

theorem shuffled_5 : shuffled.next (shuffled.reset false (shuffledAt [3, 4] 1 0 false 18 4)) =
    some (.yield (.int 2), shuffledAt [3, 1] 1 2 false 93 3) := by with_unfolding_all rfl

/-- **Disagreement.** After `reset(reset_rng=False)` over an upstream that shuffles, the
order of the next epoch depends on how far the background thread had read: the same
calls give 2 after the reset if the thread had read three examples, and 1 if it had
read two. -/
theorem C17_reset_depends_on_schedule :
    (∃ s, Exec 2 shuffled (Prefetch.init _)
      [(.next, .res (.yield (.int 2))), (.reset false, .done), (.next, .res (.yield (.int 1)))] s) ∧
    ∃ s, Exec 2 shuffled (Prefetch.init _)
      [(.next, .res (.yield (.int 2))), (.reset false, .done), (.next, .res (.yield (.int 2)))] s :=
  ⟨⟨_,
    .call (.callNext (by decide) rfl rfl) <|
    .tau (.read rfl rfl shuffled_1) <| .tau (.push rfl (.inr (by decide))) <| .tau (.notify rfl) <|
    .tau (.swap rfl (by with_unfolding_all decide) (.inr (List.cons_ne_nil _ _))) <|
    .ret (.retNext rfl) <|
    .tau (.read rfl rfl shuffled_2) <| .call (.callStop rfl rfl (by simp)) <|
    .tau (.push rfl (.inl rfl)) <| .tau (.stopNotify rfl) <| .tau (.notify rfl) <|
    .tau (.exit rfl (by with_unfolding_all decide)) <| .tau (.join rfl rfl) <|
    .ret (.reset rfl (by with_unfolding_all decide)) <| .call (.callNext (by decide) rfl rfl) <|
    .tau (.read rfl rfl shuffled_4) <|
    .tau (.push rfl (.inr (by with_unfolding_all decide))) <| .tau (.notify rfl) <|
    .tau (.swap rfl (by with_unfolding_all decide) (.inr (List.cons_ne_nil _ _))) <|
    .ret (.retNext rfl) <| .nil _⟩,
   ⟨_,
    .call (.callNext (by decide) rfl rfl) <|
    .tau (.read rfl rfl shuffled_1) <| .tau (.push rfl (.inr (by decide))) <| .tau (.notify rfl) <|
    .tau (.swap rfl (by with_unfolding_all decide) (.inr (List.cons_ne_nil _ _))) <|
    .ret (.retNext rfl) <|
    .tau (.read rfl rfl shuffled_2) <|
    .tau (.push rfl (.inr (by with_unfolding_all decide))) <| .tau (.notify rfl) <|
    .tau (.read rfl rfl shuffled_3) <| .call (.callStop rfl rfl (by simp)) <|
    .tau (.push rfl (.inl rfl)) <| .tau (.stopNotify rfl) <| .tau (.notify rfl) <|
    .tau (.exit rfl (by with_unfolding_all decide)) <| .tau (.join rfl rfl) <|
    .ret (.reset rfl (by with_unfolding_all decide)) <| .call (.callNext (by decide) rfl rfl) <|
    .tau (.read rfl rfl shuffled_5) <|
    .tau (.push rfl (.inr (by with_unfolding_all decide))) <| .tau (.notify rfl) <|
    .tau (.swap rfl (by with_unfolding_all decide) (.inr (List.cons_ne_nil _ _))) <|
    .ret (.retNext rfl) <| .nil _⟩⟩

end Fs2.Props
