/-!
# Garbage collection during training

`StandardGarbageCollector` and `NOOP_GARBAGE_COLLECTOR` (/repo/src/fairseq2/utils/gc.py:18-75), the factory that chooses between
them (/repo/src/fairseq2/recipe/internal/trainer.py:269-277), and the calls by the trainer (/repo/src/fairseq2/trainer.py:350-351
and 515-527).

CPython's `gc` is modelled by its documentation: objects are allocated in generation 0; `gc.collect(g)` frees the unreachable
objects in the generations up to `g` and moves the others there to the next older generation, of which 2 is the last. Simplified:
objects are only those in reference cycles (others are freed by their counts); there are no finalizers that bring objects back; the
collections that CPython starts by itself while `gc` is enabled are left out.
-/

namespace Fs2.Gc

/-- An object that only the collector can free: its generation, and whether the program still reaches it. -/
structure Obj where
  id : Nat
  gen : Nat
  live : Bool
deriving DecidableEq, Repr

/-- `auto` is `gc.isenabled()`, `count` is `_step` (gc.py:54), `stepNr` is the step number of the trainer, and `log` has the step
numbers at which "Running garbage collection." is logged (gc.py:71). -/
structure St where
  auto : Bool
  heap : List Obj
  count : Nat
  stepNr : Nat
  log : List Nat
deriving DecidableEq, Repr

/-- `gc.collect(generation=g)`. -/
def collect (g : Nat) (s : St) : St :=
  { s with heap := (s.heap.filter fun o => decide (g < o.gen) || o.live).map fun o =>
      if o.gen ≤ g then { o with gen := min (g + 1) 2 } else o }

/-- `_GarbageCollectorFactory.create` (recipe/internal/trainer.py:273-277) with the check of `StandardGarbageCollector`
(gc.py:49-52). The outer `none` is the `ValueError`, the inner one is the collector that does nothing. -/
def create : Option Int → Option (Option Nat)
  | none => some none
  | some n => if n < 1 then none else some (some n.toNat)

/-- `enable` (gc.py:36-37 and 58-65). -/
def enable (c : Option Nat) (value : Bool) (s : St) : St :=
  match c with
  | none => s
  | some _ => if value then collect 2 { s with auto := false } else { s with auto := true }

/-- `step` (gc.py:40-41 and 67-75). -/
def step (c : Option Nat) (s : St) : St :=
  match c with
  | none => s
  | some n =>
    if s.count + 1 = n then { collect 1 s with count := 0, log := s.log ++ [s.stepNr] }
    else { s with count := s.count + 1 }

/-- What happens while the trainer runs: an object is allocated, an object becomes unreachable, a step ends. -/
inductive Ev
  | alloc (id : Nat)
  | drop (id : Nat)
  | step
deriving DecidableEq, Repr

/-- One event; a step increments the step number first (trainer.py:515-527). -/
def exec1 (c : Option Nat) (s : St) : Ev → St
  | .alloc i => { s with heap := s.heap ++ [⟨i, 0, true⟩] }
  | .drop i => { s with heap := s.heap.map fun o => if o.id = i then { o with live := false } else o }
  | .step => step c { s with stepNr := s.stepNr + 1 }

/-- The events of a run, in order. -/
def exec (c : Option Nat) (evs : List Ev) (s : St) : St := evs.foldl (exec1 c) s

/-- `with self._garbage_collector: self._do_run()` (trainer.py:350-351, gc.py:25-31); leaving the block, also by an exception, calls
`enable(False)`. -/
def run (c : Option Nat) (evs : List Ev) (s : St) : St := enable c false (exec c evs (enable c true s))

end Fs2.Gc
