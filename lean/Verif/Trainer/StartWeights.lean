import Verif.Shard.FsdpWrap

/-!
# The weights with which a run begins

From the model that `_StandardTrainModelBootstrapper` (/repo/src/fairseq2/recipe/internal/train_model.py:91-319) creates or loads,
through the wrapper for data parallelism (/repo/src/fairseq2/recipe/internal/data_parallel.py:35-207,
/repo/src/fairseq2/nn/ddp.py:30-90), to what the trainer restores (/repo/src/fairseq2/trainer.py:363-402).

Simplified: the parameters of a model are one value in each process; buffers are left out, and so are tensor parallelism, errors
of the file system and of gangs. Of a checkpoint only its step and whether it has the state of the trainer are kept. The value that
a process makes by initialization is told apart by its rank, although the seeds may be the same.
-/

namespace Fs2.Start

open Fs2.Fsdp (WrapExc Held initializerOf)

/-- The parameters in a process: of the model that rank 0 loads or makes when the run begins, made in the process itself, from a
checkpoint, or left as they are in memory. -/
inductive Val
  | initial
  | fresh (rank : Nat)
  | saved (step : Nat)
  | undefined
deriving DecidableEq, Repr

/-- A checkpoint in the directory of the run: its step, and if it has the state of the trainer. -/
structure Ckpt where
  step : Nat
  full : Bool
deriving DecidableEq, Repr

/-- `get_step_numbers` (/repo/src/fairseq2/checkpoint/manager.py:716-741) before it is sorted. -/
def stepNumbers (excludeModelOnly : Bool) (dir : List Ckpt) : List Nat :=
  (dir.filter fun c => if excludeModelOnly then c.full else true).map Ckpt.step

/-- `has_checkpoint` (manager.py:710-713). -/
def hasCheckpoint (excludeModelOnly : Bool) (dir : List Ckpt) : Bool := (stepNumbers excludeModelOnly dir).length > 0

/-- `maybe_get_last_step_number(exclude_model_only=True)` (manager.py:744-751): the largest number. -/
def lastFull (dir : List Ckpt) : Option Nat := (stepNumbers true dir).max?

/-- Where the model of a run comes from: `model.name` or `model.path`, or `model.family` alone. -/
inductive Origin
  | loaded
  | created
deriving DecidableEq, Repr

/-- `create_new_model` (/repo/src/fairseq2/models/family.py:404-443) with `init_rank0_only`; `none` is the meta device. -/
def createNew (supportsMeta onMeta : Bool) (rank0 : Val) (rank : Nat) : Option Val :=
  if rank = 0 then if onMeta then none else some rank0
  else if supportsMeta then none else some (.fresh rank)

/-- `_do_load_model` (family.py:553-605) with `load_rank0_only`. -/
def loadModel (supportsMeta : Bool) (rank : Nat) : Option Val :=
  if rank = 0 then some .initial
  else if supportsMeta then none else some (.fresh rank)

/-- `bootstrap` (train_model.py:91-319) in the process `rank`. -/
def bootstrap (o : Origin) (supportsMeta : Bool) (dir : List Ckpt) (rank : Nat) : Option Val :=
  if hasCheckpoint true dir then createNew supportsMeta supportsMeta (.fresh 0) rank
  else
    match o with
    | .loaded => loadModel supportsMeta rank
    | .created => createNew supportsMeta false .initial rank

/-- How the model is wrapped. -/
inductive Mode
  | ddp
  | fsdp
deriving DecidableEq, Repr

/-- The gangs: `dp` has `rdp * sdp` processes. -/
structure Gangs where
  rdp : Nat
  sdp : Nat
deriving DecidableEq, Repr

/-- `to_device` of a model in its only process (nn/utils/module.py:98-134): parameters on the meta device are initialized. -/
def toDevice (v : Option Val) (rank : Nat) : Val := v.getD (.fresh rank)

/-- `to_ddp` (ddp.py:47-90): rank 0 materializes its model, and DDP gives it to all. -/
def toDdp (g : Gangs) (vals : Nat → Option Val) : Except WrapExc Val :=
  if g.sdp > 1 then .error .notSupported
  else .ok (toDevice (vals 0) 0)

/-- What the process holds. -/
def heldOf (v : Option Val) : Held := if v.isSome then .real else .onMeta

/-- `to_fsdp` for the parameters (unified.py:66-90, which drops `skip_init`): `initializerOf` decides, then rank 0 broadcasts if
told so (fsdp1.py:145, fsdp2.py:145-150). An initializer that skips leaves what is in memory. -/
def toFsdpVal (g : Gangs) (broadcast : Bool) (vals : Nat → Option Val) (rank : Nat) : Except WrapExc Val :=
  if g.sdp = 1 then .error .notSupported
  else
    match initializerOf ⟨g.sdp, g.rdp, rank, heldOf (vals rank), true, broadcast, false⟩ with
    | .error e => .error e
    | .ok init =>
      if broadcast then .ok ((vals 0).getD .undefined)
      else
        match init with
        | none => .ok ((vals rank).getD .undefined)
        | some true => .ok .undefined
        | some false => .ok (.fresh rank)

/-- `data_parallelism` after the fallback (data_parallel.py:53-59). -/
def effectiveMode (mode : Mode) (g : Gangs) : Mode :=
  if mode = .fsdp ∧ g.rdp > 1 ∧ g.sdp = 1 then .ddp else mode

/-- `_DelegatingDPModelWrapper.wrap` (data_parallel.py:47-65) and the wrappers (68-207) in the process `rank`. The one for FSDP
asks for checkpoints of any kind (154, 170). -/
def wrap (mode : Mode) (g : Gangs) (dir : List Ckpt) (vals : Nat → Option Val) (rank : Nat) : Except WrapExc Val :=
  if g.rdp * g.sdp = 1 then .ok (toDevice (vals rank) rank)
  else
    match effectiveMode mode g with
    | .ddp => toDdp g vals
    | .fsdp => toFsdpVal g (!hasCheckpoint false dir) vals rank

/-- `_maybe_restore_state` (trainer.py:363-388): the parameters of the last checkpoint that is not only a model. -/
def restore (dir : List Ckpt) (val : Val) : Val :=
  match lastFull dir with
  | none => val
  | some step => .saved step

/-- The parameters that the process `rank` of a run has when training begins. -/
def begin (o : Origin) (supportsMeta : Bool) (mode : Mode) (g : Gangs) (dir : List Ckpt) (rank : Nat) : Except WrapExc Val :=
  match wrap mode g dir (bootstrap o supportsMeta dir) rank with
  | .error e => .error e
  | .ok val => .ok (restore dir val)

end Fs2.Start
