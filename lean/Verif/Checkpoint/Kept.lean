import Verif.Checkpoint.Retention
import Verif.Trainer.Model

/-!
# Which checkpoints are on disk in the course of training

Model of how the trainer applies the retention policy: `_on_checkpoint_saved`, `_save_score` and `_delete_stale_checkpoints`
(`src/fairseq2/trainer.py:799-812, 990-994, 1031-1046`) together with `_begin_checkpoint`, `save_score`, `delete_checkpoint` and
`get_step_numbers` of the checkpoint manager (`src/fairseq2/checkpoint/manager.py:286-298, 527-555, 655-707, 716-741`), as far as the
steps that are listed and the files with scores are concerned. What the checkpoints hold, and crashes while one is written or removed, are
the subject of `Verif.Checkpoint.Model`; here the deletion of a checkpoint and of its score is a single step, and a crash may come between two of them.
`save_model_only="all_but_last"` is left out: it empties older checkpoints but does not remove them from the listing.
-/

namespace Fs2.Keep
open Fs2.Ckpt

/-- `keep_last_n_checkpoints`, `keep_best_n_checkpoints`, `keep_checkpoint_every_n_steps`. The constructor of the trainer refuses values
that are not positive (trainer.py:231-258). -/
structure Policy where
  last : Option Int := none
  best : Option Int := none
  every : Option Int := none

/-- What is on disk: the steps that `get_step_numbers` lists, in order, and the files with scores. -/
structure Disk where
  steps : List Nat
  score : Nat → Option Rat

def Disk.empty : Disk := ⟨[], fun _ => none⟩

/-- `delete_checkpoint` (manager.py:655-707). -/
def Disk.delete (d : Disk) (n : Nat) : Disk :=
  ⟨d.steps.filter (· != n), fun m => if m = n then none else d.score m⟩

/-- The directory of a step is renamed (manager.py:486-508), so that the sorted listing (lines 716-741) has it. -/
def Disk.add (d : Disk) (n : Nat) : Disk :=
  ⟨d.steps.filter (· < n) ++ n :: d.steps.filter (n < ·), d.score⟩

/-- The file that `save_score` writes (manager.py:527-555). -/
def Disk.rate (d : Disk) (n : Nat) (x : Rat) : Disk :=
  ⟨d.steps, fun m => if m = n then some x else d.score m⟩

/-- `_delete_stale_checkpoints` (trainer.py:1031-1046). With `cut = some k` the process dies when `k` checkpoints have been deleted;
`none` is `ValueError`. -/
def deleteStale (p : Policy) (cut : Option Nat) (d : Disk) : Option Disk :=
  (stale d.steps d.score p.last p.best p.every).map fun l =>
    (match cut with
      | none => l
      | some k => l.take k).foldl Disk.delete d

/-- What the trainer has the checkpoint manager do: begin a save, commit it, save a score. -/
inductive Kind where
  | begin | commit | scored
deriving DecidableEq

structure Ev where
  kind : Kind
  step : Nat
  /-- the score, if one is saved -/
  score : Rat := 0
  /-- whether the process dies while stale checkpoints are deleted -/
  cut : Option Nat := none

/-- * `_begin_checkpoint` first deletes the checkpoint (manager.py:286-287),
* `_on_checkpoint_saved` (trainer.py:799-812) and
* `_save_score` (trainer.py:990-994). -/
def act (p : Policy) (d : Disk) (e : Ev) : Option Disk :=
  match e.kind with
  | .begin => some (d.delete e.step)
  | .commit => deleteStale p e.cut (d.add e.step)
  | .scored => if p.best.isSome then deleteStale p e.cut (d.rate e.step e.score) else some (d.rate e.step e.score)

/-- All of them, one after the other. -/
def actAll (p : Policy) (d : Disk) : List Ev → Option Disk
  | [] => some d
  | e :: es => (act p d e).bind fun d => actAll p d es

/-- What the checkpoint manager sees of the trainer. -/
def seen {E : Train.Env} : Train.Out E → Option (Kind × Nat)
  | .save n _ _ => some (.begin, n)
  | .commit n => some (.commit, n)
  | .scored n => some (.scored, n)
  | _ => none

/-- `evs` is what the checkpoint manager has to do when the trainer shows `o`; the scores, and where the process dies, may be anything. -/
def Does {E : Train.Env} (o : List (Train.Out E)) (evs : List Ev) : Prop :=
  evs.map (fun e => (e.kind, e.step)) = o.filterMap seen

end Fs2.Keep
