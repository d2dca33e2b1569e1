import Verif.Optim.LrSchedulers
import Verif.Optim.Groups

/-!
# Schedulers as recipes make them

Models the factories of learning rate schedulers that depend on the number of steps of a run
(src/fairseq2/recipe/internal/lr_schedulers.py:61-145, 178-264), and how the trainer uses a scheduler: a step of the optimizer
uses the rates that were computed last, then the scheduler's step computes the next ones
(src/fairseq2/trainer.py:611-628). A run ends after `regime.num_steps` steps.

As in `Optim/LrSchedulers` rates are real numbers and counts are natural numbers. A cycle length `num_steps -
num_warmup_steps` below 0 is 0 here; it would be used only after `num_warmup_steps` steps, when the run has ended. Steps with an
overflow of gradients, which do not count, are left out. Warnings are left out.
-/

namespace Fs2.Lr

open Fs2.Groups (rates)

inductive FactoryExc where
  /-- `ValidationError` -/
  | validation
  /-- `InternalError` -/
  | internal
  /-- `ValueError` of a scheduler. -/
  | value
  deriving DecidableEq

/-- `CosineAnnealingLRConfig` (src/fairseq2/recipe/config.py:953-990). -/
structure CosineConfig where
  cycleLen : Option ℕ
  numWarmup : ℕ
  cycleMul : ℝ
  lrMul : ℝ
  start : ℝ ⊕ List ℝ
  finalLr : Option (ℝ ⊕ List ℝ)
  finalScale : Option (ℝ ⊕ List ℝ)

/-- lr_schedulers.py:67-76 -/
def cycleLenOf (cfg : CosineConfig) (numSteps : Option ℕ) : Option ℕ :=
  match cfg.cycleLen with
  | some len => some len
  | none => numSteps.map fun n => n - cfg.numWarmup

/-- The final rates (lr_schedulers.py:103-131). -/
noncomputable def finalOf (cfg : CosineConfig) (base : List ℝ) : Except FactoryExc (List ℝ) :=
  match cfg.finalLr with
  | some final =>
    match cfg.finalScale with
    | some _ => .error .internal
    | none =>
      match rates final base.length with
      | none => .error .validation
      | some final => .ok final
  | none =>
    match cfg.finalScale with
    | none => .error .internal
    | some scale =>
      match rates scale base.length with
      | none => .error .validation
      | some scales => .ok (List.zipWith (fun lr scale => lr * scale) base scales)

/-- `_CosineAnnealingLRFactory.create` (lr_schedulers.py:66-145); `base` are the rates of the optimizer's groups. -/
noncomputable def cosineFactory (cfg : CosineConfig) (numSteps : Option ℕ) (base : List ℝ) : Except FactoryExc Cosine :=
  match cycleLenOf cfg numSteps with
  | none => .error .validation
  | some len =>
    match rates cfg.start base.length with
    | none => .error .validation
    | some start =>
      match finalOf cfg base with
      | .error e => .error e
      | .ok final =>
        match Cosine.new base.length len cfg.numWarmup cfg.cycleMul cfg.lrMul (.seq start) (.seq final) with
        | none => .error .value
        | some m => .ok m

/-- `PolynomialDecayLRConfig` (config.py:1051-1070). -/
structure PolyConfig where
  numWarmup : ℕ
  power : ℝ
  start : ℝ ⊕ List ℝ
  final : ℝ ⊕ List ℝ

/-- `_PolynomialDecayLRFactory.create` (lr_schedulers.py:183-222). -/
noncomputable def polyFactory (cfg : PolyConfig) (numSteps : Option ℕ) (base : List ℝ) : Except FactoryExc Poly :=
  match numSteps with
  | none => .error .validation
  | some n =>
    if cfg.numWarmup ≥ n then .error .validation
    else
      match rates cfg.start base.length with
      | none => .error .validation
      | some start =>
        match rates cfg.final base.length with
        | none => .error .validation
        | some final =>
          match Poly.new base.length n cfg.numWarmup cfg.power (.seq start) (.seq final) with
          | none => .error .value
          | some m => .ok m

/-- A run of `n` steps with a scheduler: the rates that the steps of the optimizer use; `none` is an exception. PyTorch's
constructor computes the first rates. -/
noncomputable def runRates (lrs : ℕ → Option (List ℝ)) : ℕ → Option (List (List ℝ))
  | 0 => (lrs 0).map fun _ => []
  | n + 1 =>
    match runRates lrs n with
    | none => none
    | some used =>
      match lrs n with
      | none => none
      | some now => (lrs (n + 1)).map fun _ => used ++ [now]

end Fs2.Lr
