import Verif.Pipeline.Spec

/-!
# The data reader

Model of `DataPipelineReader` (src/fairseq2/datasets/data_reader.py:73-200) on all ranks of the data
parallel gang at once.

A call of `__next__` reads from the rank's own pipeline and then takes part in one collective operation.
Calls on the ranks are matched by the collective, so the model makes one call on every rank at a time: each
rank does what comes before the collective (`arrive`); if all ranks arrive the collective gives every rank the same
number and each does what comes after; if some do not (their pipeline raised, or never returned, or
they are past the end already) the others wait.  Simplification: an exception is only its error value.
-/

namespace Fs2.Reader

/-- `SyncMode` (data_reader.py:24-35). -/
inductive Mode where
  | untilFirst | untilLast
deriving DecidableEq

/-- The parameters of the constructor (data_reader.py:77-103). -/
structure Cfg where
  accumulate : Nat := 1
  dropRemainder : Bool := false
  sync : Bool := true
  mode : Mode := .untilFirst

/-- `_pipeline` and `_eod` of one rank. -/
structure RS (S : Source) where
  pipe : S.σ
  eod : Bool

/-- The loop over `num_accumulate` (data_reader.py:114-124). -/
def readAcc (S : Source) : Nat → S.σ → Option (Except Err (List Data) × S.σ)
  | 0, s => some (.ok [], s)
  | k + 1, s =>
    match S.next s with
    | none => none
    | some (.eod, s') => some (.ok [], s')
    | some (.err e, s') => some (.error e, s')
    | some (.yield x, s') =>
      match readAcc S k s' with
      | none => none
      | some (.error e, s'') => some (.error e, s'')
      | some (.ok xs, s'') => some (.ok (x :: xs), s'')

/-- What a rank comes to the collective with. -/
inductive Arrival (S : Source) where
  /-- `StopIteration` was raised right away (data_reader.py:111-112). -/
  | past
  /-- The pipeline never returned. -/
  | never
  /-- `DataReadError` was raised. -/
  | failed (e : Err) (s : S.σ)
  /-- The batches read and the state of the pipeline. -/
  | came (xs : List Data) (s : S.σ)

/-- The first half of `__next__` (data_reader.py:111-131). -/
def arrive {S : Source} (c : Cfg) (x : RS S) : Arrival S :=
  if x.eod then .past
  else match readAcc S c.accumulate x.pipe with
    | none => .never
    | some (.error e, s) => .failed e s
    | some (.ok xs, s) =>
      .came (if c.dropRemainder && xs.length != c.accumulate then [] else xs) s

/-- `local_num_batches`, of a rank that came. -/
def Arrival.count {S : Source} : Arrival S → Option Nat
  | .came xs _ => some xs.length
  | _ => none

/-- What a call gives. -/
inductive Reply where
  | batches (xs : List Data)
  /-- `StopIteration` -/
  | stop
  /-- `DataReadError` -/
  | fails (e : Err)
  /-- The call waits for ever for the other ranks, … -/
  | waits
  /-- … or for its own pipeline. -/
  | never

/-- The smallest of the numbers (`_min_num_batches`, data_reader.py:173-194). -/
def least {n : Nat} (f : Fin n → Nat) : Nat := (List.ofFn f).min?.getD 0

/-- Their sum (`_sum_num_batches`, data_reader.py:197-200). -/
def total {n : Nat} (f : Fin n → Nat) : Nat := (List.ofFn f).sum

/-- The second half of `__next__` (data_reader.py:133-149) on one rank; `num` is what the collective gave, or
`none` if it does not end. -/
def leave {S : Source} (c : Cfg) (num : Option Nat) (x : RS S) : Arrival S → Reply × RS S
  | .past => (.stop, x)
  | .never => (.never, x)
  | .failed e s => (.fails e, ⟨s, x.eod⟩)
  | .came xs s =>
    match num with
    | none => (.waits, ⟨s, x.eod⟩)
    | some n =>
      if n = 0 then (.stop, ⟨s, true⟩)
      else (.batches (if c.mode = .untilFirst then xs.take n else xs), ⟨s, false⟩)

/-- The collective (data_reader.py:133-142) as rank `r` sees it. -/
def collective (c : Cfg) {n : Nat} {S : Fin n → Source} (a : ∀ r, Arrival (S r)) (r : Fin n) : Option Nat :=
  if c.sync && n > 1 then
    if ∀ r, (a r).count.isSome then
      some (match c.mode with
        | .untilFirst => least fun r => (a r).count.getD 0
        | .untilLast => total fun r => (a r).count.getD 0)
    else none
  else (a r).count

/-- One call of `__next__` on every rank. -/
def nextAll (c : Cfg) {n : Nat} {S : Fin n → Source} (x : ∀ r, RS (S r)) : ∀ r, Reply × RS (S r) := fun r =>
  leave c (collective c (fun r => arrive c (x r)) r) (x r) (arrive c (x r))

/-- `reset` (data_reader.py:151-155) on every rank. -/
def resetAll {n : Nat} {S : Fin n → Source} (x : ∀ r, RS (S r)) : ∀ r, RS (S r) := fun r =>
  ⟨(S r).reset false (x r).pipe, false⟩

/-- A new reader (data_reader.py:95-103). -/
def start {n : Nat} {S : Fin n → Source} (s : ∀ r, (S r).σ) : ∀ r, RS (S r) := fun r => ⟨s r, false⟩

/-- The readers after `i` calls, and what call `i` (counted from 0) gives. -/
def after (c : Cfg) {n : Nat} {S : Fin n → Source} (x : ∀ r, RS (S r)) : Nat → ∀ r, RS (S r)
  | 0 => x
  | i + 1 => fun r => (nextAll c (after c x i) r).2

def reply (c : Cfg) {n : Nat} {S : Fin n → Source} (x : ∀ r, RS (S r)) (i : Nat) (r : Fin n) : Reply :=
  (nextAll c (after c x i) r).1

/-- What a user may do with the readers, on all ranks. -/
inductive ROp where
  | next | reset

/-- What the calls of `__next__` give. -/
def runAll (c : Cfg) {n : Nat} {S : Fin n → Source} : List ROp → (∀ r, RS (S r)) → List (Fin n → Reply)
  | [], _ => []
  | .next :: ops, x => (fun r => (nextAll c x r).1) :: runAll c ops (fun r => (nextAll c x r).2)
  | .reset :: ops, x => runAll c ops (resetAll x)

/-- `state_dict` (data_reader.py:157-159) saves the state of the pipeline and nothing else; `load_state_dict`
(data_reader.py:161-165) loads it into the pipeline, which is then in a state `t`, and clears `_eod`. -/
def loaded {S : Source} (t : S.σ) : RS S := ⟨t, false⟩

end Fs2.Reader
