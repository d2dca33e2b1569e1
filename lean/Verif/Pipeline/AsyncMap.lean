import Verif.Pipeline.Laws

/-!
# The non-deterministic parallel map

Model of `map_data_source` with `deterministic=False` and `num_parallel_calls = n > 1`
(native/src/fairseq2n/data/map_data_source.cc:41-88, 104-127, 216-267) as a transition
system: the caller of `next()` and `state_dict()`, and one task per example on a thread
pool.  One step is one critical section, one access to an atomic variable, one call of the
upstream or one notification; caller and tasks take steps in any order.

Simplifications: memory is sequentially consistent; applying the function and
storing its result is one step; the pool runs every task at once (a task that waits for a
worker is a task that does not take a step); `reset` and `load_state_dict` are left
out.
-/

namespace Fs2.AsyncMap

/-- Where a task is (`AsyncMapTask::operator()`, map_data_source.cc:228-246). -/
inductive Stage where
  /-- Has not stored its result. -/
  | run (x : Data)
  /-- Has stored its result or exception (cc:236, 240). -/
  | pushed
  /-- Has decremented `tasks_in_flight_` (cc:243). -/
  | counted

/-- Where the caller is. -/
inductive PC where
  | idle
  /-- In the loop of `fill_buffer_async` (cc:251). -/
  | fill (i : Nat)
  /-- cc:266: about to read `finished_`, `tasks_in_flight_`, the queue. -/
  | cond₁ | cond₂ | cond₃
  /-- Holds or is about to take the mutex and evaluate the condition (cc:72-74). -/
  | wait
  /-- The condition is false, the mutex is still held. -/
  | held
  /-- Blocked, the mutex is free. -/
  | asleep
  /-- The same for `wait_until_done` (cc:218-221). -/
  | saveWait | saveHeld | saveAsleep

/-- The fields of `map_data_source` (map_data_source.h:75-91). -/
structure St (σ : Type) where
  inner : σ
  queue : List Data
  tasks : List Stage
  inflight : Nat
  finished : Bool
  exc : Option Err
  pc : PC

def init (S : Source) : St S.σ := ⟨S.init, [], [], 0, false, none, .idle⟩

/-- `read_output_condition_.notify_one()` (cc:244). -/
def wake : PC → PC
  | .asleep => .wait
  | .saveAsleep => .saveWait
  | p => p

/-- The caller holds `async_output_mutex_` while blocking. -/
def PC.locked : PC → Bool
  | .held | .saveHeld => true
  | _ => false

inductive Answer where
  | res (r : Res)
  | saved (tp : Tape)
  | failed (e : Err)

inductive Lab where
  | tau
  | spurious
  | call
  /-- A task decrements the counter or notifies. -/
  | closing
  | ret (a : Answer)

variable {σ : Type}

/-- One step of `map(f, num_parallel_calls=n, deterministic=False)` over `S`. -/
inductive Step (f : Data → Except Err Data) (n : Nat) (S : Source) :
    St S.σ → Lab → St S.σ → Prop where
  /-- cc:70, 251 -/
  | callNext {s} : s.pc = .idle → Step f n S s .call { s with pc := .fill s.inflight }
  /-- cc:251-263 -/
  | read {s i x j} : s.pc = .fill i → i < n → S.next s.inner = some (.yield x, j) →
      Step f n S s .tau { s with inner := j, inflight := s.inflight + 1,
                                 tasks := s.tasks ++ [.run x], pc := .fill (i + 1) }
  /-- cc:253-256 -/
  | readEod {s i j} : s.pc = .fill i → i < n → S.next s.inner = some (.eod, j) →
      Step f n S s .tau { s with inner := j, finished := true, pc := .cond₁ }
  /-- cc:252, the upstream throws -/
  | readErr {s i e j} : s.pc = .fill i → i < n → S.next s.inner = some (.err e, j) →
      Step f n S s (.ret (.res (.err e))) { s with inner := j, pc := .idle }
  | full {s i} : s.pc = .fill i → n ≤ i → Step f n S s .tau { s with pc := .cond₁ }
  /-- cc:266, from left to right -/
  | open₁ {s} : s.pc = .cond₁ → s.finished = false → Step f n S s .tau { s with pc := .wait }
  | shut₁ {s} : s.pc = .cond₁ → s.finished = true → Step f n S s .tau { s with pc := .cond₂ }
  | open₂ {s} : s.pc = .cond₂ → s.inflight ≠ 0 → Step f n S s .tau { s with pc := .wait }
  | shut₂ {s} : s.pc = .cond₂ → s.inflight = 0 → Step f n S s .tau { s with pc := .cond₃ }
  | open₃ {s} : s.pc = .cond₃ → s.queue ≠ [] → Step f n S s .tau { s with pc := .wait }
  /-- cc:87 -/
  | shut₃ {s} : s.pc = .cond₃ → s.queue = [] → Step f n S s (.ret (.res .eod)) { s with pc := .idle }
  /-- cc:72-74 -/
  | block {s} : s.pc = .wait → s.queue = [] → s.exc = none → Step f n S s .tau { s with pc := .held }
  | sleep {s} : s.pc = .held → Step f n S s .tau { s with pc := .asleep }
  | wakeSpurious {s} : s.pc = .asleep → Step f n S s .spurious { s with pc := .wait }
  /-- cc:76-77 -/
  | rethrow {s e} : s.pc = .wait → s.exc = some e →
      Step f n S s (.ret (.res (.err e))) { s with pc := .idle }
  /-- cc:79-82 -/
  | take {s x q} : s.pc = .wait → s.exc = none → s.queue = x :: q →
      Step f n S s (.ret (.res (.yield x))) { s with queue := q, pc := .idle }
  /-- cc:232-237 -/
  | push {s l r x y} : s.tasks = l ++ .run x :: r → s.pc.locked = false → f x = .ok y →
      Step f n S s .tau { s with tasks := l ++ .pushed :: r, queue := s.queue ++ [y] }
  /-- cc:238-241 -/
  | throw {s l r x e} : s.tasks = l ++ .run x :: r → s.pc.locked = false → f x = .error e →
      Step f n S s .tau { s with tasks := l ++ .pushed :: r, exc := some e }
  /-- cc:243, no mutex -/
  | count {s l r} : s.tasks = l ++ .pushed :: r →
      Step f n S s .closing { s with tasks := l ++ .counted :: r, inflight := s.inflight - 1 }
  /-- cc:244, no mutex -/
  | notify {s l r} : s.tasks = l ++ .counted :: r →
      Step f n S s .closing { s with tasks := l ++ r, pc := wake s.pc }
  /-- cc:112-113 -/
  | callSave {s} : s.pc = .idle → Step f n S s .call { s with pc := .saveWait }
  /-- cc:218-221 -/
  | saveBlock {s} : s.pc = .saveWait → s.inflight ≠ 0 → s.exc = none →
      Step f n S s .tau { s with pc := .saveHeld }
  | saveSleep {s} : s.pc = .saveHeld → Step f n S s .tau { s with pc := .saveAsleep }
  | saveSpurious {s} : s.pc = .saveAsleep → Step f n S s .spurious { s with pc := .saveWait }
  | saveThrow {s e} : s.pc = .saveWait → s.exc = some e →
      Step f n S s (.ret (.failed e)) { s with pc := .idle }
  /-- cc:115-126 -/
  | save {s t} : s.pc = .saveWait → s.inflight = 0 → s.exc = none →
      S.record true s.inner = .ok t →
      Step f n S s (.ret (.saved (recordVec (fun x => recordOpt (fun d => [d]) (some x)) s.queue ++ t)))
        { s with pc := .idle }
  | saveErr {s e} : s.pc = .saveWait → s.inflight = 0 → s.exc = none →
      S.record true s.inner = .error e →
      Step f n S s (.ret (.failed e)) { s with pc := .idle }

def Lab.shown : Lab → List Answer
  | .ret a => [a]
  | _ => []

/-- Some interleaving leads from `s` to `s'`; the calls that return answer `as`. -/
inductive Exec (f : Data → Except Err Data) (n : Nat) (S : Source) :
    St S.σ → List Answer → St S.σ → Prop where
  | nil (s) : Exec f n S s [] s
  | step {s l s' as s''} : Step f n S s l s' → Exec f n S s' as s'' →
      Exec f n S s (l.shown ++ as) s''

/-- Results of `next()`. -/
def results : List Answer → List Res
  | [] => []
  | .res r :: as => r :: results as
  | _ :: as => results as

/-! ## Invariants -/

/-- The examples whose results are still to come. -/
def pending : List Stage → List Data
  | [] => []
  | .run x :: ts => x :: pending ts
  | _ :: ts => pending ts

/-- Tasks that count as in flight. -/
def flying : List Stage → Nat
  | [] => 0
  | .counted :: ts => flying ts
  | _ :: ts => flying ts + 1

theorem pending_append (l r : List Stage) : pending (l ++ r) = pending l ++ pending r := by
  induction l with
  | nil => rfl
  | cons t l ih => cases t <;> simp [pending, ih]

theorem flying_append (l r : List Stage) : flying (l ++ r) = flying l + flying r := by
  induction l with
  | nil => simp [flying]
  | cons t l ih => cases t <;> simp [flying, ih] <;> omega

theorem pending_le (l : List Stage) : (pending l).length ≤ flying l := by
  induction l with
  | nil => simp [pending]
  | cons t l ih => cases t <;> simp [pending, flying] <;> omega

/-- `out` has been returned so far; `xs` is the upstream. -/
structure Inv (g : Data → Data) (S : Source) (xs out : List Data) (s : St S.σ) : Prop where
  exc : s.exc = none
  count : s.inflight = flying s.tasks
  stream : ∃ got rest, xs = got ++ rest ∧ S.Yields s.inner rest ∧
    (out ++ s.queue ++ (pending s.tasks).map g).Perm (got.map g) ∧ (s.finished = true → rest = [])
  cond : s.pc = .cond₂ ∨ s.pc = .cond₃ → s.finished = true
  none : s.pc = .cond₃ → s.inflight = 0

theorem inv_init {g : Data → Data} {S : Source} {xs : List Data} (h : S.Yields S.init xs) :
    Inv g S xs [] (init S) :=
  ⟨rfl, rfl, ⟨[], xs, rfl, h, by simp [init, pending], by simp [init]⟩, by simp [init], by simp [init]⟩

/-- What a returning call adds to the output. -/
def output : Lab → List Data
  | .ret (.res (.yield x)) => [x]
  | _ => []

theorem wake_cond (p : PC) : (wake p = .cond₂ ↔ p = .cond₂) ∧ (wake p = .cond₃ ↔ p = .cond₃) := by
  cases p <;> simp [wake]

theorem Inv.step {f : Data → Except Err Data} {g : Data → Data} {n : Nat} {S : Source}
    {xs out : List Data} {s s' : St S.σ} {l : Lab} (hf : ∀ x, f x = .ok (g x))
    (h : Inv g S xs out s) (hs : Step f n S s l s') :
    Inv g S xs (out ++ output l) s' ∧ (∀ e, l ≠ .ret (.res (.err e))) ∧
    (l = .ret (.res .eod) → out.Perm (xs.map g) ∧ s'.finished = true) := by
  obtain ⟨h1, h2, ⟨got, rest, h3, h4, h5, h6⟩, h7, h8⟩ := h
  have hY : ∀ {r j}, S.next s.inner = some (r, j) →
      (∃ x rest', r = .yield x ∧ rest = x :: rest' ∧ S.Yields j rest') ∨
      (r = .eod ∧ rest = [] ∧ S.Yields j []) := by
    intro r j hn
    cases rest with
    | nil =>
      obtain ⟨t, e1, e2⟩ := h4.nil_inv.next
      rw [hn] at e1
      cases e1
      exact .inr ⟨rfl, rfl, _, .nil _, e2⟩
    | cons x rest =>
      obtain ⟨t, e1, e2⟩ := h4.cons_inv
      rw [hn] at e1
      cases e1
      exact .inl ⟨_, _, rfl, rfl, e2⟩
  have hkeep : ∃ got rest, xs = got ++ rest ∧ S.Yields s.inner rest ∧
    (out ++ [] ++ s.queue ++ (pending s.tasks).map g).Perm (got.map g) ∧
    (s.finished = true → rest = []) := ⟨got, rest, h3, h4, by simpa using h5, h6⟩
  cases hs
  case callNext hp => exact ⟨⟨h1, h2, hkeep, by simp, by simp⟩, by simp, by simp⟩
  case read i x j hp hi hn =>
    rcases hY hn with ⟨x', rest', e, rfl, hy⟩ | ⟨e, -⟩
    · cases e
      refine ⟨⟨h1, ?_, ⟨got ++ [x], rest', by simpa using h3, hy, ?_, ?_⟩, by simp, by simp⟩,
        by simp, by simp⟩
      · simp [flying_append, flying, h2]
      · simp only [output, pending_append, pending, List.map_append, List.map_cons, List.map_nil,
          List.append_nil]
        rw [← List.append_assoc]
        exact h5.append_right _
      · intro hfin
        exact absurd (h6 hfin) (by simp)
    · cases e
  case readEod i j hp hi hn =>
    rcases hY hn with ⟨x', rest', e, _⟩ | ⟨-, rfl, hy⟩
    · cases e
    · exact ⟨⟨h1, h2, ⟨got, [], h3, hy, by simpa [output] using h5, fun _ => rfl⟩, by simp, by simp⟩,
        by simp, by simp⟩
  case readErr i e j hp hi hn =>
    rcases hY hn with ⟨x', rest', e, _⟩ | ⟨e, -⟩
    · cases e
    · cases e
  case full => exact ⟨⟨h1, h2, hkeep, by simp, by simp⟩, by simp, by simp⟩
  case open₁ => exact ⟨⟨h1, h2, hkeep, by simp, by simp⟩, by simp, by simp⟩
  case shut₁ hp hfin => exact ⟨⟨h1, h2, hkeep, fun _ => hfin, by simp⟩, by simp, by simp⟩
  case open₂ => exact ⟨⟨h1, h2, hkeep, by simp, by simp⟩, by simp, by simp⟩
  case shut₂ hp h0 => exact ⟨⟨h1, h2, hkeep, fun _ => h7 (.inl hp), fun _ => h0⟩, by simp, by simp⟩
  case open₃ => exact ⟨⟨h1, h2, hkeep, by simp, by simp⟩, by simp, by simp⟩
  case shut₃ hp hq =>
    have hfin := h7 (.inr hp)
    refine ⟨⟨h1, h2, hkeep, by simp, by simp⟩, by simp, fun _ => ⟨?_, hfin⟩⟩
    have h0 := h8 hp
    have hpend : pending s.tasks = [] := by
      have := pending_le s.tasks
      rw [← h2, h0] at this
      exact List.eq_nil_of_length_eq_zero (by omega)
    rw [hq, hpend] at h5
    rw [h6 hfin] at h3
    simp at h3
    subst h3
    simpa using h5
  case block => exact ⟨⟨h1, h2, hkeep, by simp, by simp⟩, by simp, by simp⟩
  case sleep => exact ⟨⟨h1, h2, hkeep, by simp, by simp⟩, by simp, by simp⟩
  case wakeSpurious => exact ⟨⟨h1, h2, hkeep, by simp, by simp⟩, by simp, by simp⟩
  case rethrow e hp he => simp [h1] at he
  case take x q hp _ hq =>
    refine ⟨⟨h1, h2, ⟨got, rest, h3, h4, ?_, h6⟩, by simp, by simp⟩, by simp, by simp⟩
    rw [hq] at h5
    simpa [output] using h5
  case push l r x y ht hl hy =>
    rw [hf x] at hy
    cases hy
    refine ⟨⟨h1, ?_, ⟨got, rest, h3, h4, ?_, h6⟩, h7, h8⟩, by simp, by simp⟩
    · rw [h2, ht]
      simp [flying_append, flying]
    · refine .trans ?_ h5
      rw [ht]
      simp only [output, pending_append, pending, List.map_append, List.map_cons, List.append_nil,
        List.append_assoc, List.cons_append, List.nil_append]
      refine List.Perm.append_left _ (List.Perm.append_left _ ?_)
      exact (List.perm_middle (l₁ := (pending l).map g)).symm
  case throw l r x e ht hl hy => simp [hf x] at hy
  case count l r ht =>
    refine ⟨⟨h1, ?_, ⟨got, rest, h3, h4, ?_, h6⟩, h7, fun hp => ?_⟩, by simp, by simp⟩
    · simp only [h2, ht, flying_append, flying]
      omega
    · rw [ht] at h5
      simpa [output, pending_append, pending] using h5
    · have := h8 hp
      simp [this]
  case notify l r ht =>
    refine ⟨⟨h1, ?_, ⟨got, rest, h3, h4, ?_, h6⟩, ?_, ?_⟩, by simp, by simp⟩
    · simp [h2, ht, flying_append, flying]
    · rw [ht] at h5
      simpa [output, pending_append, pending] using h5
    · rw [(wake_cond _).1, (wake_cond _).2]
      exact h7
    · rw [(wake_cond _).2]
      exact h8
  case callSave => exact ⟨⟨h1, h2, hkeep, by simp, by simp⟩, by simp, by simp⟩
  case saveBlock => exact ⟨⟨h1, h2, hkeep, by simp, by simp⟩, by simp, by simp⟩
  case saveSleep => exact ⟨⟨h1, h2, hkeep, by simp, by simp⟩, by simp, by simp⟩
  case saveSpurious => exact ⟨⟨h1, h2, hkeep, by simp, by simp⟩, by simp, by simp⟩
  case saveThrow e hp he => simp [h1] at he
  case save => exact ⟨⟨h1, h2, hkeep, by simp, by simp⟩, by simp, by simp⟩
  case saveErr => exact ⟨⟨h1, h2, hkeep, by simp, by simp⟩, by simp, by simp⟩

end Fs2.AsyncMap
