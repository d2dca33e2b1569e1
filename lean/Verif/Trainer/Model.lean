/-!
# The trainer

Model of `Trainer` (src/fairseq2/trainer.py:88-1230), the state machine of `_do_run`, as seen by
one rank; all ranks make the same moves.  What the trainer drives is abstract: a data reader with
any states, a training step that is any function of the training state and the batches, a
validator and an early stopper that may answer anything, saves that may take any time, and stop
requests that may come at any time.

Simplifications: the training state stands for the model, the optimizer, the learning rate
scheduler, the loss scaler and the random number generators together, and validation does not change it;
metric values, progress bars, profiling, garbage collection, Hugging Face exports and hooks are left out;
retention is in `Verif.Checkpoint.Retention`; the flag that `request_stop` sets is read at the start of
`_run_post_step` and `_repeat_step` only, so a request is taken to arrive between two moves.
-/

namespace Fs2.Train

/-- What one training step did (trainer.py:539-638): the parameters were updated, or the
gradients overflowed, or they did with the loss scale at its minimum, which raises. -/
inductive Outcome where
  | updated | overflowed | exploded
deriving DecidableEq

/-- What the trainer drives. -/
structure Env where
  /-- States of the data reader, … -/
  D : Type
  /-- … what it returns (the batches of one step), … -/
  B : Type
  /-- … and states of what is trained. -/
  T : Type
  /-- `next(data_reader)`; `none` is `StopIteration`. -/
  next : D → Option (B × D)
  reset : D → D
  train : T → B → T × Outcome

/-- `after_n_steps`, `every_n_steps`, `after_n_data_epochs`, `every_n_data_epochs`.  Negative values of
the first and third act like 0; the constructor refuses values of the others that are not positive
(for publishing it refuses 0 only, trainer.py:270-278; negative values are left out). -/
structure Period where
  afterSteps : Nat := 0
  everySteps : Option Nat := none
  afterEpochs : Nat := 0
  everyEpochs : Option Nat := none

/-- The parameters of the constructor (trainer.py:91-154) that matter here. -/
structure Cfg where
  maxSteps : Option Nat := none
  maxEpochs : Option Nat := none
  validateAtStart : Bool := false
  /-- Whether there is a validator (`NOOP_VALIDATOR` otherwise), an early stopper. -/
  validator : Bool := false
  earlyStopper : Bool := false
  validate : Period := {}
  checkpoint : Period := {}
  publish : Period := {}
  /-- `save_model_only` is `True` or `"all"`. -/
  modelOnly : Bool := false

/-- `_TrainerState` (trainer.py:1144-1156); `NOT_STARTED` is left before the first move. -/
inductive St where
  | preValidation | dataLoad | step | postStep | endOfDataEpoch | endOfTraining | endOfData
  | gradOverflow | earlyStop | stopRequested | stopped
deriving DecidableEq, Repr

variable {E : Env}

/-- What a checkpoint holds (trainer.py:1163-1181 and `save_checkpoint`): numbers of the step and
the epoch, the state of the reader and of what is trained.  `applied` is not in the code; it
counts the updates that the training state has had. -/
structure Snap (E : Env) where
  step : Nat
  epoch : Nat
  reader : E.D
  model : E.T
  applied : Nat

/-- What can be seen from outside. -/
inductive Out (E : Env) where
  /-- The parameters were updated in step `n` with batches `b`. -/
  | update (n : Nat) (b : E.B)
  /-- A pass over the data ended. -/
  | endOfEpoch
  /-- A save of step `n` was started, … -/
  | save (n : Nat) (full : Bool) (s : Snap E)
  /-- … and committed. -/
  | commit (n : Nat)
  | validated (n : Nat)
  /-- `save_score` -/
  | scored (n : Nat)
  | published (n : Nat)

inductive Err where
  /-- `InternalError` -/
  | internal
  /-- `MinimumLossScaleReachedError` -/
  | exploded
deriving DecidableEq

/-- The fields of the trainer (trainer.py:324-337). -/
structure S (E : Env) where
  st : St
  step : Nat
  epoch : Nat
  batch : Option E.B
  reader : E.D
  model : E.T
  applied : Nat
  stopReq : Bool
  /-- The step of the save in progress (`is_saving`). -/
  pending : Option Nat

/-- What the world decides during one move. -/
structure World where
  /-- `request_stop()` was called before the move. -/
  stop : Bool
  /-- The save in progress is found done by all ranks (manager.py:248-257). -/
  done : Bool
  /-- The validator returns a score; the early stopper wants to stop. -/
  score : Bool
  early : Bool

/-- `should_do_at_step` (trainer.py:1058-1064). -/
def dueAtStep (p : Period) (step : Nat) : Bool :=
  match p.everySteps with
  | none => false
  | some k => step > p.afterSteps && step % k == 0

/-- `_should_do` (trainer.py:1048-1101). -/
def shouldDo (p : Period) (st : St) (step epoch : Nat) : Except Err Bool :=
  match st with
  | .preValidation => .ok false
  | .postStep => .ok (dueAtStep p step)
  | .endOfTraining => .ok true
  | .endOfData => .ok (!dueAtStep p step)
  | .endOfDataEpoch =>
    match p.everyEpochs with
    | none => .ok false
    | some k =>
      if epoch > p.afterEpochs && epoch % k == 0 then .ok (!dueAtStep p step) else .ok false
  | .stopRequested => .ok true
  | .earlyStop => .ok (!dueAtStep p step)
  | _ => .error .internal

/-- `_should_validate` (trainer.py:949-958). -/
def shouldValidate (c : Cfg) (s : S E) : Except Err Bool :=
  if c.validator then shouldDo c.validate s.st s.step s.epoch else .ok false

def S.snap (s : S E) : Snap E := ⟨s.step, s.epoch, s.reader, s.model, s.applied⟩

/-- `_maybe_complete_checkpoint_save_operation` (trainer.py:1001-1008). -/
def complete (s : S E) : S E × List (Out E) :=
  match s.pending with
  | none => (s, [])
  | some n => ({ s with pending := none }, [.commit n])

/-- `_save_checkpoint` (trainer.py:749-797). -/
def saveNow (c : Cfg) (blocking : Bool) (s : S E) : S E × List (Out E) :=
  let (s, o) := complete s
  let o := o ++ [.save s.step (!c.modelOnly) s.snap]
  if blocking then (s, o ++ [.commit s.step]) else ({ s with pending := some s.step }, o)

/-- `_maybe_save_checkpoint` (trainer.py:736-739). -/
def maybeSave (c : Cfg) (blocking : Bool) (s : S E) : Except Err (S E × List (Out E)) := do
  if ← shouldDo c.checkpoint s.st s.step s.epoch then .ok (saveNow c blocking s) else .ok (s, [])

/-- `_maybe_publish_metrics` (trainer.py:847-858). -/
def maybePublish (c : Cfg) (s : S E) : Except Err (List (Out E)) := do
  if ← shouldDo c.publish s.st s.step s.epoch then .ok [.published s.step] else .ok []

/-- `_validate` (trainer.py:960-986): whether there is a score, and what is seen. -/
def validate (c : Cfg) (w : World) (s : S E) : Except Err (Bool × List (Out E)) := do
  if !c.validator then .error .internal
  else if !w.score then .ok (false, [.validated s.step])
  else
    let saves ← shouldDo c.checkpoint s.st s.step s.epoch
    .ok (true, if saves then [.validated s.step, .scored s.step] else [.validated s.step])

/-- `_run_post_step` (trainer.py:681-702). -/
def runPostStep (c : Cfg) (w : World) (s : S E) : Except Err (S E × List (Out E)) :=
  let go : Except Err (S E × List (Out E)) := do
    let (s, o₁) ← maybeSave c false s
    let o₂ ← maybePublish c s
    if ← shouldValidate c s then
      let (score, o₃) ← validate c w s
      let stop := score && c.earlyStopper && w.early
      .ok ({ s with st := if stop then .earlyStop else .dataLoad }, o₁ ++ o₂ ++ o₃)
    else .ok ({ s with st := .dataLoad }, o₁ ++ o₂)
  match c.maxSteps with
  | some n => if s.step ≥ n then .ok ({ s with st := .endOfTraining }, []) else go
  | none => if s.stopReq then .ok ({ s with st := .stopRequested }, []) else go

/-- `_stop` (trainer.py:704-719). -/
def stop (c : Cfg) (w : World) (s : S E) : Except Err (S E × List (Out E)) := do
  let o₁ ← maybePublish c s
  if ← shouldValidate c s then
    let (s, o₂) ← maybeSave c false s
    let (_, o₃) ← validate c w s
    let (s, o₄) := complete s
    .ok ({ s with st := .stopped }, o₁ ++ o₂ ++ o₃ ++ o₄)
  else
    let (s, o₂) ← maybeSave c true s
    .ok ({ s with st := .stopped }, o₁ ++ o₂)

/-- `_read_next_batches` (trainer.py:474-491). -/
def readNext (s : S E) : S E × List (Out E) :=
  match E.next s.reader with
  | some (b, d) => ({ s with batch := some b, reader := d, st := .step }, [])
  | none =>
    ({ s with batch := none, reader := E.reset s.reader,
              st := if s.step = 0 then .stopped else .endOfDataEpoch }, [.endOfEpoch])

/-- `_run_step` and `_do_run_step` (trainer.py:508-638). -/
def runStep (w : World) (s : S E) : Except Err (S E × List (Out E)) :=
  let (s, o) := if w.done then complete s else (s, [])
  match s.batch with
  | none => .error .internal
  | some b =>
    let s := { s with step := s.step + 1, batch := none }
    match E.train s.model b with
    | (_, .exploded) => .error .exploded
    | (t, .overflowed) => .ok ({ s with model := t, st := .gradOverflow }, o)
    | (t, .updated) =>
      .ok ({ s with model := t, applied := s.applied + 1, st := .postStep }, o ++ [.update s.step b])

/-- One turn of the loop of `_do_run` (trainer.py:430-466). -/
def turn (c : Cfg) (w : World) (s : S E) : Except Err (S E × List (Out E)) :=
  match s.st with
  -- `_pre_validate` (trainer.py:468-472); the condition there is always true
  | .preValidation => do
    let (_, o) ← validate c w s
    .ok ({ s with st := .dataLoad }, o)
  | .dataLoad => .ok (readNext s)
  -- `_handle_end_of_data_epoch` (trainer.py:493-506)
  | .endOfDataEpoch =>
    let go : Except Err (S E × List (Out E)) := do
      let (s, o) ← runPostStep c w s
      .ok ({ s with epoch := s.epoch + 1 }, o)
    match c.maxEpochs with
    | some e => if s.epoch ≥ e then .ok ({ s with st := .endOfData }, []) else go
    | none => go
  | .step => runStep w s
  | .postStep => runPostStep c w s
  -- `_repeat_step` (trainer.py:669-679)
  | .gradOverflow =>
    .ok (if s.stopReq then { s with st := .stopRequested }
      else { s with step := s.step - 1, st := .dataLoad }, [])
  | .endOfTraining | .endOfData | .stopRequested => stop c w s
  -- `_early_stop` (trainer.py:721-734)
  | .earlyStop => do
    let s := { s with stopReq := true }
    let (s, o) := if ← shouldDo c.checkpoint s.st s.step s.epoch then saveNow c true s else complete s
    .ok ({ s with st := .stopped }, o)
  | .stopped => .ok (s, [])

/-- The stop request that arrives before a move (`request_stop`, trainer.py:1103-1105). -/
def S.ask (w : World) (s : S E) : S E := { s with stopReq := s.stopReq || w.stop }

/-- A move. -/
def move (c : Cfg) (w : World) (s : S E) : Except Err (S E × List (Out E)) := turn c w (s.ask w)

/-- The state after `_maybe_restore_state` (trainer.py:363-416) without a checkpoint … -/
def fresh (c : Cfg) (d : E.D) (t : E.T) : S E :=
  ⟨if c.validateAtStart then .preValidation else .dataLoad, 0, 1, none, d, t, 0, false, none⟩

/-- … and with one. -/
def restored (c : Cfg) (k : Snap E) : S E :=
  let st : St :=
    if c.maxSteps.any (k.step ≥ ·) then .stopped
    else if c.maxEpochs.any (k.epoch ≥ ·) then .stopped
    else .dataLoad
  ⟨st, k.step, k.epoch, none, k.reader, k.model, k.applied, false, none⟩

/-- Any number of moves before the trainer stops, with what is seen; during each of them the
world does what `P` allows. -/
inductive Run (c : Cfg) (P : World → Prop) : S E → List (Out E) → S E → Prop where
  | nil (s) : Run c P s [] s
  | snoc {s o s' o' s''} (w : World) : Run c P s o s' → P w → s'.st ≠ .stopped →
      move c w s' = .ok (s'', o') → Run c P s (o ++ o') s''

/-- `k` moves with the worlds `ws 0`, `ws 1`, …; nothing happens once the trainer has stopped. -/
def runFor (c : Cfg) : Nat → (Nat → World) → S E → Except Err (S E × List (Out E))
  | 0, _, s => .ok (s, [])
  | k + 1, ws, s =>
    if s.st = .stopped then .ok (s, [])
    else match move c (ws 0) s with
      | .error e => .error e
      | .ok (s', o) => match runFor c k (fun i => ws (i + 1)) s' with
        | .error e => .error e
        | .ok (s'', o') => .ok (s'', o ++ o')

end Fs2.Train
