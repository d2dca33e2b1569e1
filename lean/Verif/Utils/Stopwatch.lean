/-!
# Stopwatches

`Stopwatch` (/repo/src/fairseq2/utils/stopwatch.py:20-92). Simplified: `perf_counter` reads a whole number of ticks, so that
durations are added without rounding; waiting for a device only makes the time of a reading later, and a wrong type of device is
left out.
-/

namespace Fs2.Watch

/-- The state of a stopwatch (stopwatch.py:30-34). -/
structure Watch where
  running : Bool
  accumulated : Nat
  startTime : Nat
deriving DecidableEq, Repr

/-- A new stopwatch (stopwatch.py:30-34). -/
def new : Watch := ⟨false, 0, 0⟩

/-- Methods that change a stopwatch; a `with` statement is `start` and `stop` (stopwatch.py:82-88). -/
inductive Op
  | start
  | stop
  | reset
deriving DecidableEq, Repr

/-- `start` (stopwatch.py:44-50) at the time `now`; `none` is `InvalidOperationError`. -/
def start (now : Nat) (w : Watch) : Option Watch :=
  if w.running then none else some { w with startTime := now, running := true }

/-- `stop` (stopwatch.py:52-60). -/
def stop (now : Nat) (w : Watch) : Watch :=
  if !w.running then w
  else { w with accumulated := w.accumulated + (now - w.startTime), running := false }

/-- `reset` (stopwatch.py:62-68). -/
def reset (now : Nat) (w : Watch) : Watch :=
  let w := { w with accumulated := 0 }
  if w.running then { w with startTime := now } else w

/-- `get_elapsed_time` (stopwatch.py:70-76). -/
def elapsed (now : Nat) (w : Watch) : Nat :=
  if !w.running then w.accumulated else w.accumulated + (now - w.startTime)

/-- One call at a time. A call that raises leaves the stopwatch as it is. -/
def apply (w : Watch) (c : Nat × Op) : Watch :=
  match c.2 with
  | .start => (start c.1 w).getD w
  | .stop => stop c.1 w
  | .reset => reset c.1 w

/-- A sequence of calls on a new stopwatch. -/
def run (calls : List (Nat × Op)) : Watch := calls.foldl apply new

end Fs2.Watch
