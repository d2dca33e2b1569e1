import Mathlib.Algebra.BigOperators.Group.Finset.Basic
import Mathlib.Algebra.BigOperators.Ring.Finset
import Mathlib.Algebra.Order.Field.Rat
import Mathlib.Algebra.Order.Field.Basic
import Mathlib.Tactic.FieldSimp
import Mathlib.Tactic.Ring

/-!
# The gradients of one training step in all processes

Models `Trainer._do_run_step` (src/fairseq2/trainer.py:537-638) and
src/fairseq2/nn/utils/grad.py in all processes of a data parallel gang at once.

Exact rationals instead of floats. Torch's part, by contract: the backward pass
adds the gradient of the loss; DDP averages the gradient buffer over the
processes at the end of a backward pass outside `no_sync`, FSDP averages what
has been collected since the last such pass and adds it (a shard of a parameter
is written as the whole parameter); `clip_grad_norm_` scales by
`min(1, max_norm / (norm + 1e-6))`; the norm is some function of the gradient;
the optimizer is a function of its state, the parameters and the gradients.

Left out: parameters without a gradient (their gradient is 0), metrics,
overflows of the loss scaler (`Optim/LossScaler`), autocast, collectives inside
the forward pass, the learning rate scheduler (part of the optimizer's state).
-/

namespace Fs2.Grad

/-- A value per parameter. -/
abbrev Vec := Nat → ℚ

/-- The unit: for the parameters and a batch, the gradient of the loss that
`process_batch` returns, and the number of targets it returns. -/
structure Work (β : Type) where
  grad : Vec → β → Vec
  targets : β → Option Nat

/-- How the model is wrapped. -/
inductive Dp where
  | ddp
  | fsdp
  deriving DecidableEq

/-- The settings of the trainer. -/
structure Cfg where
  world : Nat
  dp : Dp := .ddp
  noSync : Bool := false
  maxNorm : Option ℚ := none
  norm : Vec → ℚ
  gradCheck : Bool := false

/-- `grad` of the parameters in each process, and for FSDP what was collected
inside `no_sync`. -/
structure Acc where
  kept : Nat → Vec
  collected : Nat → Vec

/-- Before the first backward pass (`zero_grad(set_to_none=True)`). -/
def Acc.zero : Acc := ⟨fun _ _ => 0, fun _ _ => 0⟩

/-- The mean over the processes. -/
def mean (w : Nat) (x : Nat → Vec) : Vec := fun i => (∑ r ∈ Finset.range w, x r i) / w

/-- One backward pass in all processes; `g r` is the gradient in process `r`,
`sync` is false inside `no_sync`. -/
def backward (dp : Dp) (w : Nat) (sync : Bool) (g : Nat → Vec) (a : Acc) : Acc :=
  match dp with
  | .ddp =>
    let x : Nat → Vec := fun r i => a.kept r i + g r i
    if sync then ⟨fun _ => mean w x, a.collected⟩ else ⟨x, a.collected⟩
  | .fsdp =>
    let x : Nat → Vec := fun r i => a.collected r i + g r i
    if sync then ⟨fun r i => a.kept r i + mean w x i, fun _ _ => 0⟩ else ⟨a.kept, x⟩

variable {β : Type}

/-- The gradient of one batch (trainer.py:571-588): the loss is divided by the
number of batches if the unit gives no number of targets, and multiplied with
the loss scale. -/
def batchGrad (u : Work β) (params : Vec) (scale : ℚ) (numBatches : Nat) (b : β) : Vec := fun i =>
  scale * (match u.targets b with
    | none => u.grad params b i / numBatches
    | some _ => u.grad params b i)

/-- `num_targets` at the end of the loop (579-582). -/
def numTargets (u : Work β) (bs : List β) : Nat := (bs.map fun b => (u.targets b).getD 0).sum

/-- `_maybe_no_sync` (640-645) with `left` batches to go, this one included. -/
def synced (c : Cfg) (left : Nat) : Bool := !(c.noSync && decide (1 < left))

/-- The gradient of the next batch; there is always one. -/
def headGrad (u : Work β) (params : Vec) (scale : ℚ) (numBatches : Nat) : List β → Vec
  | b :: _ => batchGrad u params scale numBatches b
  | [] => fun _ => 0

/-- The loop over the batches (562-593); `left` counts down. All processes have
the same number of batches, see the data reader. -/
def loop (c : Cfg) (u : Work β) (params : Nat → Vec) (scale : ℚ) (numBatches : Nat) :
    Nat → (Nat → List β) → Acc → Acc
  | 0, _, a => a
  | left + 1, bs, a =>
    let g : Nat → Vec := fun r => headGrad u (params r) scale numBatches (bs r)
    loop c u params scale numBatches left (fun r => (bs r).tail)
      (backward c.dp c.world (synced c (left + 1)) g a)

/-- The collective operations of a step. -/
inductive Coll where
  | reduceGrads
  | sumTargets
  | gatherNorms
  deriving DecidableEq

/-- The collective operations one process takes part in during a step, in
order. -/
def calls (c : Cfg) (u : Work β) (bs : List β) : List Coll :=
  (List.range bs.length).flatMap (fun i => if synced c (bs.length - i) then [.reduceGrads] else []) ++
    (if 0 < numTargets u bs then [.sumTargets] else []) ++
    (if c.gradCheck && c.world != 1 then [.gatherNorms] else [])

/-- `normalize_grads` (grad.py:25-38). -/
def normalize (w total : Nat) (g : Nat → Vec) : Nat → Vec := fun r i => g r i * ((w : ℚ) / total)

/-- `clip_grad_norm` (grad.py:83-129). -/
def clip (maxNorm : Option ℚ) (norm : Vec → ℚ) (g : Vec) : Vec :=
  match maxNorm with
  | none => g
  | some m => fun i => g i * min 1 (m / (norm g + 1 / 1000000))

/-- A gradient norm, a float. -/
inductive Norm where
  | fin (x : ℚ)
  | inf
  | nan
  deriving DecidableEq

def Norm.isFinite : Norm → Bool
  | .fin _ => true
  | _ => false

def Norm.val : Norm → ℚ
  | .fin x => x
  | _ => 0

/-- `check_grad_norms` (grad.py:132-160); true if it returns, false if it raises
`InconsistentGradNormError`. `all_finite` is a single value, so that
`all_finite.logical_not().all()` is its negation. A largest element is below a
bound iff all elements are; `norms[0] + 1e-6` is positive. -/
def checkNorms (norms : List Norm) : Bool :=
  if norms.length = 1 then true
  else
    let allFinite := norms.all Norm.isFinite
    if allFinite then
      let n0 := (norms.headD .nan).val
      norms.all fun n => decide (|n.val - n0| / (n0 + 1 / 1000000) < 1 / 1000000)
    else if !allFinite then true
    else false

/-- What may go wrong. `mismatch`: the processes call different collective
operations, which hangs or mixes up their data. -/
inductive Err where
  | mismatch
  | inconsistentNorms
  deriving DecidableEq

/-- The gradients that the optimizer sees in each process (trainer.py:537-615). -/
def stepGrads (c : Cfg) (u : Work β) (scale : ℚ) (params : Nat → Vec) (bs : Nat → List β) :
    Except Err (Nat → Vec) :=
  if (List.range c.world).all (fun r => decide (calls c u (bs r) = calls c u (bs 0))) then
    let g := (loop c u params scale (bs 0).length (bs 0).length bs .zero).kept
    let total := ∑ r ∈ Finset.range c.world, numTargets u (bs r)
    let g := if 0 < numTargets u (bs 0) then normalize c.world total g else g
    let g : Nat → Vec := fun r i => g r i * (1 / scale)
    let norms := (List.range c.world).map fun r => Norm.fin (c.norm (g r))
    if c.gradCheck && !checkNorms norms then .error .inconsistentNorms
    else .ok fun r => clip c.maxNorm c.norm (g r)
  else .error .mismatch

/-- The parameters and the state of the optimizer in each process. -/
structure St (O : Type) where
  params : Nat → Vec
  opt : Nat → O

/-- A sequence of steps; each has a loss scale and the batches of each process. -/
def train {O : Type} (c : Cfg) (u : Work β) (optStep : O → Vec → Vec → Vec × O) :
    List (ℚ × (Nat → List β)) → St O → Except Err (St O)
  | [], s => .ok s
  | (scale, bs) :: rest, s =>
    match stepGrads c u scale s.params bs with
    | .error e => .error e
    | .ok g =>
      train c u optStep rest
        ⟨fun r => (optStep (s.opt r) (s.params r) (g r)).1,
         fun r => (optStep (s.opt r) (s.params r) (g r)).2⟩

end Fs2.Grad
