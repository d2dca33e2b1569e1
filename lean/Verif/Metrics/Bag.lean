/-
Model of the bag of metrics.

Source: /repo/src/fairseq2/metrics/bag.py.

Metrics are objects with an identity: a heap of metric values indexed by references. The bag holds names with
references; so does the copy made by `begin_updates`. A client may hold references too (those of metrics it
created, and those returned by `get`) and may change metrics through them at any time, in a transaction or
not. `torcheval` metrics are abstract: a value with a kind, `reset`, `state_dict` and `load_state_dict`; moves
to another device do not change values and are not modelled, neither is `isinstance` in `get`, nor the
synchronization between processes.
-/

namespace Fs2.Metric

/-- What the bag uses of a metric: its initial value, its state, loading a state (the value afterwards,
possibly changed in part, and whether there was no exception), and whether `deepcopy` works. -/
structure Lib (M S : Type) where
  reset : M → M
  save : M → S
  load : M → S → M × Bool
  copyable : M → Bool

inductive Err where
  | duplicate
  | notFound
  | notCopyable
  | invalidOperation
  | stateDict
  | unknownReference
deriving DecidableEq

/-- The objects in memory, the bag (bag.py:29-32), and the references the client holds. -/
structure World (M : Type) where
  heap : List M
  metrics : List (String × Nat)
  original : Option (List (String × Nat))
  known : List Nat

/-- Nothing exists yet but an empty bag. -/
def World.init {M : Type} : World M := ⟨[], [], none, []⟩

/-- What a client does. `get` hands out a reference; `mutate` stands for any call of a metric that changes it
(`update`, `reset`, `load_state_dict`, …); a state dict maps names to states, or to something that is not a
`dict` (`none`). -/
inductive Op (M S : Type) where
  | create (m : M)
  | add (name : String) (ref : Nat)
  | get (name : String)
  | mutate (ref : Nat) (f : M → M)
  | beginUpdates
  | commitUpdates
  | rollbackUpdates
  | resetMetrics
  | loadStateDict (sd : List (String × Option S))

variable {M S : Type}

/-- Looks up a name in a dictionary. -/
def find {β : Type} (name : String) : List (String × β) → Option β
  | [] => none
  | (n, x) :: l => if n = name then some x else find name l

/-- `deepcopy` of the dictionary: every object is copied once (`memo`), so shared metrics stay shared. -/
def copyRefs : List (String × Nat) → List (Nat × Nat) → List M → List (String × Nat) × List M
  | [], _, heap => ([], heap)
  | (name, r) :: l, memo, heap =>
    match memo.lookup r with
    | some r' =>
      let c := copyRefs l memo heap
      ((name, r') :: c.1, c.2)
    | none =>
      match heap[r]? with
      | none => copyRefs l memo heap
      | some m =>
        let c := copyRefs l ((r, heap.length) :: memo) (heap ++ [m])
        ((name, heap.length) :: c.1, c.2)

/-- `begin_updates` (bag.py:52-65). -/
def beginUpdates (lib : Lib M S) (w : World M) : World M × Except Err Unit :=
  match w.original with
  | some _ => (w, .error .invalidOperation)
  | none =>
    if w.metrics.all fun x => (w.heap[x.2]?).all lib.copyable then
      let c := copyRefs w.metrics [] w.heap
      ({ w with heap := c.2, original := some c.1 }, .ok ())
    else (w, .error .notCopyable)

/-- `commit_updates` (bag.py:67-72). -/
def commitUpdates (w : World M) : World M × Except Err Unit :=
  match w.original with
  | none => (w, .error .invalidOperation)
  | some _ => ({ w with original := none }, .ok ())

/-- `rollback_updates` (bag.py:74-79). -/
def rollbackUpdates (w : World M) : World M × Except Err Unit :=
  match w.original with
  | none => (w, .error .invalidOperation)
  | some o => ({ w with metrics := o, original := none }, .ok ())

/-- `reset_metrics` (bag.py:81-84). -/
def resetMetrics (lib : Lib M S) (w : World M) : World M :=
  { w with heap := w.metrics.foldl (fun heap x => heap.modify x.2 lib.reset) w.heap }

/-- `state_dict` (bag.py:91-93). -/
def stateDict (lib : Lib M S) (w : World M) : List (String × Option S) :=
  w.metrics.filterMap fun x => (w.heap[x.2]?).map fun m => (x.1, some (lib.save m))

/-- The loop of `load_state_dict` (bag.py:99-119): what it leaves in memory, and whether it raises. -/
def loadLoop (lib : Lib M S) (sd : List (String × Option S)) :
    List (String × Nat) → List M → List M × Except Err Unit
  | [], heap => (heap, .ok ())
  | (name, r) :: l, heap =>
    match find name sd with
    | none => (heap, .error .stateDict)
    | some none => (heap, .error .stateDict)
    | some (some s) =>
      match heap[r]? with
      | none => (heap, .error .stateDict)
      | some m =>
        let c := lib.load m s
        if c.2 then loadLoop lib sd l (heap.set r c.1) else (heap.set r c.1, .error .stateDict)

/-- `load_state_dict` (bag.py:95-121): keys that are left over raise at the end. -/
def loadStateDict (lib : Lib M S) (sd : List (String × Option S)) (w : World M) :
    World M × Except Err Unit :=
  let c := loadLoop lib sd w.metrics w.heap
  let w := { w with heap := c.1 }
  match c.2 with
  | .error e => (w, .error e)
  | .ok () =>
    if sd.all fun x => (w.metrics.map (·.1)).contains x.1 then (w, .ok ()) else (w, .error .stateDict)

/-- One operation of the client: the world afterwards, and whether it raises. A client can only use
references that it holds. -/
def apply (lib : Lib M S) (op : Op M S) (w : World M) : World M × Except Err Unit :=
  match op with
  | .create m => ({ w with heap := w.heap ++ [m], known := w.heap.length :: w.known }, .ok ())
  | .add name r => -- bag.py:34-38
    if r ∉ w.known then (w, .error .unknownReference)
    else if (find name w.metrics).isSome then (w, .error .duplicate)
    else ({ w with metrics := w.metrics ++ [(name, r)] }, .ok ())
  | .get name => -- bag.py:40-50
    match find name w.metrics with
    | none => (w, .error .notFound)
    | some r => ({ w with known := r :: w.known }, .ok ())
  | .mutate r f =>
    if r ∉ w.known then (w, .error .unknownReference)
    else ({ w with heap := w.heap.modify r f }, .ok ())
  | .beginUpdates => beginUpdates lib w
  | .commitUpdates => commitUpdates w
  | .rollbackUpdates => rollbackUpdates w
  | .resetMetrics => (resetMetrics lib w, .ok ())
  | .loadStateDict sd => loadStateDict lib sd w

/-- A sequence of operations; the client goes on after exceptions. -/
def exec (lib : Lib M S) (ops : List (Op M S)) (w : World M) : World M :=
  ops.foldl (fun w op => (apply lib op w).1) w

end Fs2.Metric
