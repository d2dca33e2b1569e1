import Verif.Pipeline.Laws

/-!
# prefetch: a background thread and its consumer

Model of `native/src/fairseq2n/data/prefetch_data_source.{h,cc}` as a transition
system.  One step is one critical section, one call of the upstream, one
notification or one join; the background thread and the caller take steps in any
order.

Simplifications:

* Memory is sequentially consistent.  `state_` is read without the mutex at
  prefetch_data_source.cc:128 and 141; each such read is one step.
* A call of the upstream by the background thread is one step: the caller touches
  the upstream only after joining the thread (cc:62-73, 78-92, 97-116).
* `state_dict` and `load_state_dict` are `save` and `load`, in strict mode.
* Failing to start a thread is left out.
-/

namespace Fs2.Prefetch

/-- `prefetch_state` (prefetch_data_source.h:23). -/
inductive Phase where
  | notRunning | running | eod | faulted
  deriving DecidableEq

/-- Where the background thread is (prefetch_data_source.cc:139-172). -/
inductive Loc where
  /-- `prefetch_thread_` is not joinable: there is no thread. -/
  | none
  /-- At the head of the loop (cc:141). -/
  | top
  /-- Has called the upstream with result `r`, holds or is about to take the mutex
  and evaluate the condition (cc:142-157). -/
  | hand (r : Res)
  /-- Blocked in `fill_queue_condition_.wait` (cc:152). -/
  | asleep (r : Res)
  /-- Released the mutex, about to call `read_queue_condition_.notify_one()`
  (cc:170). -/
  | notify
  /-- Returned from `prefetch()`, not yet joined. -/
  | exited

/-- The calls a user can make. -/
inductive Request where
  | next
  | reset (resetRng : Bool)
  | save
  | load (tp : Tape)

inductive Answer where
  | res (r : Res)
  | done
  | saved (tp : Tape)
  | failed (e : Err)

/-- Where the caller is. -/
inductive PC where
  /-- Not in a call. -/
  | idle
  /-- In `next()`, holds or is about to take the mutex and evaluate the condition
  (cc:33-38). -/
  | check
  /-- Blocked in `read_queue_condition_.wait` (cc:35). -/
  | asleep
  /-- Has swapped the queues, about to call `fill_queue_condition_.notify_one()`
  (cc:46). -/
  | wake
  /-- In `stop_prefetch_thread`, has set `should_stop_prefetch_` (cc:183). -/
  | stopNotify (q : Request)
  /-- In `prefetch_thread_.join()` (cc:188). -/
  | joining (q : Request)
  /-- After `stop_prefetch_thread()` in `reset`, `record_position` or
  `reload_position`. -/
  | finish (q : Request)

/-- The fields of `prefetch_data_source` (prefetch_data_source.h:63-75). -/
structure St (σ : Type) where
  inner : σ
  st : Phase
  th : Loc
  stop : Bool
  fill : List Data
  next : List Data
  exc : Option Err
  pc : PC

def init (S : Source) : St S.σ := ⟨S.init, .notRunning, .none, false, [], [], none, .idle⟩

variable {σ : Type}

/-- `ensure_prefetch_thread_running` (prefetch_data_source.cc:125-137). -/
def ensure (s : St σ) : St σ :=
  match s.st, s.th with
  | .eod, _ => s
  | .faulted, _ => s
  | _, .none => { s with st := .running, th := .top }
  | _, _ => s

/-- `fill_queue_condition_.notify_one()`. -/
def notifyFill : Loc → Loc
  | .asleep r => .hand r
  | l => l

/-- `read_queue_condition_.notify_one()`. -/
def notifyRead : PC → PC
  | .asleep => .check
  | p => p

/-- The exception stored at prefetch_data_source.cc:146. -/
def errOf : Res → Option Err
  | .err e => some e
  | _ => none

/-- prefetch_data_source.cc:157-166. -/
def deliver (r : Res) (s : St σ) : St σ :=
  match s.exc with
  | some _ => { s with st := .faulted }
  | none => match r with
    | .yield x => { s with fill := s.fill ++ [x], st := if s.stop then .notRunning else s.st }
    | _ => { s with st := .eod }

/-- prefetch_data_source.cc:49-56. -/
def front : List Data → Res
  | [] => .eod
  | x :: _ => .yield x

/-- What a step shows. -/
inductive Lab where
  | tau
  /-- A condition variable wakes up although nobody notified it. -/
  | spurious
  | call (q : Request)
  | ret (q : Request) (a : Answer)

def Request.isNext : Request → Bool
  | .next => true
  | _ => false

/-- One step of the caller or of the background thread of `prefetch(n)` over `S`. -/
inductive Step (n : Nat) (S : Source) : St S.σ → Lab → St S.σ → Prop where
  /-- prefetch_data_source.cc:22-23 -/
  | direct {s r i} : n = 0 → s.pc = .idle → S.next s.inner = some (r, i) →
      Step n S s (.ret .next (.res r)) { s with inner := i }
  /-- cc:52-56 without entering the `if` of cc:29 -/
  | pop {s x xs} : n ≠ 0 → s.pc = .idle → s.next = x :: xs →
      Step n S s (.ret .next (.res (.yield x))) { s with next := xs }
  /-- cc:29-30 -/
  | callNext {s} : n ≠ 0 → s.pc = .idle → s.next = [] →
      Step n S s (.call .next) { ensure s with pc := .check }
  /-- cc:35-38, the condition is false -/
  | sleep {s} : s.pc = .check → s.st = .running → s.fill = [] →
      Step n S s .tau { s with pc := .asleep }
  | wakeSpurious {s} : s.pc = .asleep → Step n S s .spurious { s with pc := .check }
  /-- cc:40-41 -/
  | rethrow {s e} : s.pc = .check → s.st = .faulted → s.exc = some e →
      Step n S s (.ret .next (.res (.err e))) { s with pc := .idle }
  /-- cc:35-43, the condition is true -/
  | swap {s} : s.pc = .check → s.st ≠ .faulted → (s.st ≠ .running ∨ s.fill ≠ []) →
      Step n S s .tau { s with pc := .wake, next := s.fill, fill := s.next }
  /-- cc:46-56 -/
  | retNext {s} : s.pc = .wake →
      Step n S s (.ret .next (.res (front s.next)))
        { s with pc := .idle, th := notifyFill s.th, next := s.next.tail }
  /-- cc:141-147 -/
  | read {s r i} : s.th = .top → s.st = .running → S.next s.inner = some (r, i) →
      Step n S s .tau { s with inner := i, th := .hand r, exc := (errOf r).or s.exc }
  /-- cc:141, the loop ends -/
  | exit {s} : s.th = .top → s.st ≠ .running → Step n S s .tau { s with th := .exited }
  /-- cc:152-155, the condition is false -/
  | block {s r} : s.th = .hand r → s.stop = false → n ≤ s.fill.length →
      Step n S s .tau { s with th := .asleep r }
  | unblockSpurious {s r} : s.th = .asleep r → Step n S s .spurious { s with th := .hand r }
  /-- cc:152-167, the condition is true -/
  | push {s r} : s.th = .hand r → (s.stop = true ∨ s.fill.length < n) →
      Step n S s .tau { deliver r s with th := .notify }
  /-- cc:170 -/
  | notify {s} : s.th = .notify →
      Step n S s .tau { s with th := .top, pc := notifyRead s.pc }
  /-- cc:176-177 -/
  | callOther {s q} : q.isNext = false → s.pc = .idle → s.th = .none →
      Step n S s (.call q) { s with pc := .finish q }
  /-- cc:179-183 -/
  | callStop {s q} : q.isNext = false → s.pc = .idle → s.th ≠ .none →
      Step n S s (.call q) { s with stop := true, pc := .stopNotify q }
  /-- cc:186 -/
  | stopNotify {s q} : s.pc = .stopNotify q →
      Step n S s .tau { s with th := notifyFill s.th, pc := .joining q }
  /-- cc:188-190 -/
  | join {s q} : s.pc = .joining q → s.th = .exited →
      Step n S s .tau { s with th := .none, stop := false, pc := .finish q }
  /-- cc:64-65, 80-81, 99-100 -/
  | fault {s q e} : s.pc = .finish q → s.st = .faulted → s.exc = some e →
      Step n S s (.ret q (.failed e)) { s with pc := .idle }
  /-- cc:67-73 -/
  | reset {s b} : s.pc = .finish (.reset b) → s.st ≠ .faulted →
      Step n S s (.ret (.reset b) .done)
        { s with pc := .idle, st := .notRunning, fill := [], next := [],
                 inner := S.reset b s.inner }
  /-- cc:83-92 -/
  | save {s t} : s.pc = .finish .save → s.st ≠ .faulted → S.record true s.inner = .ok t →
      Step n S s (.ret .save (.saved (.list s.fill :: .list s.next :: t)))
        { s with pc := .idle }
  | saveErr {s e} : s.pc = .finish .save → s.st ≠ .faulted → S.record true s.inner = .error e →
      Step n S s (.ret .save (.failed e)) { s with pc := .idle }
  /-- cc:102-116 -/
  | load {s f nx t i rest} : s.pc = .finish (.load (.list f :: .list nx :: t)) →
      s.st ≠ .faulted → S.reload true s.inner t = .ok (i, rest) →
      Step n S s (.ret (.load (.list f :: .list nx :: t)) .done)
        { s with pc := .idle, st := .notRunning, fill := f, next := nx, inner := i }
  /-- The upstream refuses its part of the tape.  What the upstream keeps of it is
  left out. -/
  | loadErr {s f nx t e} : s.pc = .finish (.load (.list f :: .list nx :: t)) →
      s.st ≠ .faulted → S.reload true s.inner t = .error e →
      Step n S s (.ret (.load (.list f :: .list nx :: t)) (.failed e))
        { s with pc := .idle, st := .notRunning, fill := f, next := nx }
  /-- `tape::read<data_list>` fails at cc:105 or 106. -/
  | loadCorrupt {s tp} : s.pc = .finish (.load tp) → s.st ≠ .faulted →
      (∀ f nx t, tp ≠ .list f :: .list nx :: t) →
      Step n S s (.ret (.load tp) (.failed corrupt)) { s with pc := .idle, st := .notRunning }

/-! ## What a user sees -/

abbrev Event := Request × Answer

def Lab.shown : Lab → List Event
  | .ret q a => [(q, a)]
  | _ => []

/-- `Exec n S s evs s'`: some interleaving of caller and background thread leads
from `s` to `s'`, and the calls that return on the way are `evs`. -/
inductive Exec (n : Nat) (S : Source) : St S.σ → List Event → St S.σ → Prop where
  | nil (s) : Exec n S s [] s
  | step {s l s' evs s''} : Step n S s l s' → Exec n S s' evs s'' →
      Exec n S s (l.shown ++ evs) s''

/-- `Follows S saved s evs`: the answers `evs` are those of the source `S` itself,
called directly in state `s`, where loading a tape goes back to the moment it was
saved.  `saved` lists the tapes that exist and those moments. -/
inductive Follows (S : Source) : List (Tape × S.σ) → S.σ → List Event → Prop where
  | nil {sv s} : Follows S sv s []
  | next {sv s r s' evs} : S.next s = some (r, s') → Follows S sv s' evs →
      Follows S sv s ((.next, .res r) :: evs)
  | reset {sv s b evs} : Follows S sv (S.reset b s) evs →
      Follows S sv s ((.reset b, .done) :: evs)
  | save {sv s tp evs} : Follows S ((tp, s) :: sv) s evs →
      Follows S sv s ((.save, .saved tp) :: evs)
  | load {sv s tp s' evs} : (tp, s') ∈ sv → Follows S sv s' evs →
      Follows S sv s ((.load tp, .done) :: evs)

end Fs2.Prefetch
