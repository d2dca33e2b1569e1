/-!
# The fp16 loss scaler

Models `StandardFloat16LossScaler` (`src/fairseq2/optim/fp16_loss_scaler.py:129-279`) and the part of
`torch.amp.GradScaler` it drives.

Simplifications: scales are exact rationals (in torch a float32 that stops growing before it becomes
infinite); whether the gradients contain an inf or NaN is an input of every step (torch computes it when
it unscales the gradients, `ShardedGradScaler` combines it over all ranks); the closure argument, the
backward pass and the unscaling itself are not modelled.
-/

namespace Fs2.Scaler

/-- The state of torch's `GradScaler`: what its `state_dict()` holds. -/
structure Grad where
  scale : Rat
  growthFactor : Rat
  backoffFactor : Rat
  growthInterval : Nat
  growthTracker : Nat
  deriving DecidableEq

/-- `GradScaler.update()` of torch without argument (`_amp_update_scale_`): with an inf found, the
scale is multiplied by the backoff factor and the tracker restarts; otherwise the tracker advances, and
when it reaches the interval the scale is multiplied by the growth factor and the tracker restarts. -/
def Grad.update (g : Grad) (foundInf : Bool) : Grad :=
  if foundInf then { g with scale := g.scale * g.backoffFactor, growthTracker := 0 }
  else if g.growthTracker + 1 = g.growthInterval then
    { g with scale := g.scale * g.growthFactor, growthTracker := 0 }
  else { g with growthTracker := g.growthTracker + 1 }

/-- `GradScaler.update(new_scale)` of torch: only replaces the scale. -/
def Grad.setScale (g : Grad) (s : Rat) : Grad := { g with scale := s }

/-- `StandardFloat16LossScaler` (fp16_loss_scaler.py:181-184). -/
structure State where
  grad : Grad
  scaleWindow : Nat
  minScale : Rat
  deriving DecidableEq

/-- `Float16LossScaleResult` (fp16_loss_scaler.py:282-295). -/
structure Result where
  oldScale : Rat
  newScale : Rat
  scaled : Bool := false
  overflowed : Bool := false
  exploded : Bool := false
  deriving DecidableEq

/-- `StandardFloat16LossScaler.__init__` (fp16_loss_scaler.py:131-184). torch asserts that the growth
factor is above one and the backoff factor below one. -/
def new (initScale factor : Rat) (window : Nat) (minScale : Rat) : Option State :=
  if factor = 0 then none
  else if factor ≤ 1 ∨ 1 / factor ≥ 1 then none
  else
    some { grad := { scale := initScale, growthFactor := factor, backoffFactor := 1 / factor,
                     growthInterval := window, growthTracker := 0 },
           scaleWindow := window, minScale }

/-- Absolute value. -/
def abs (x : Rat) : Rat := if x < 0 then -x else x

/-- `math.isclose(a, b, rel_tol=…, abs_tol=…)`. -/
def isClose (a b relTol absTol : Rat) : Bool :=
  let d := abs (a - b)
  d ≤ relTol * abs a || d ≤ relTol * abs b || d ≤ absTol

/-- `_update_scale` (fp16_loss_scaler.py:211-231). -/
def updateScale (s : State) (foundInf : Bool) : State × Result :=
  let oldScale := s.grad.scale
  let grad := s.grad.update foundInf
  let newScale := grad.scale
  if isClose newScale oldScale (13 / 10000000) (1 / 100000) then
    ({ s with grad }, { oldScale, newScale })
  else if newScale > oldScale then
    ({ s with grad }, { oldScale, newScale, scaled := true })
  else if s.minScale > newScale then
    ({ s with grad := grad.setScale s.minScale },
     { oldScale, newScale := s.minScale, overflowed := true, exploded := true })
  else ({ s with grad }, { oldScale, newScale, overflowed := true })

/-- `run_optimizer_step` (fp16_loss_scaler.py:196-209): `GradScaler.step` calls `optimizer.step()`
exactly when no inf was found. The first component tells whether it did. -/
def runStep (s : State) (foundInf : Bool) : Bool × State × Result :=
  let stepped := !foundInf
  let (s', r) := updateScale s foundInf
  (stepped, s', r)

/-- `state_dict` (fp16_loss_scaler.py:253-254). -/
def stateDict (s : State) : List (String × Option Grad) := [("grad_scaler", some s.grad)]

/-- `load_state_dict` (fp16_loss_scaler.py:257-279). A value that is no gradient scaler state is
`none`; `false` reports a `StateDictError`. The state has been replaced already when superfluous keys
are found. -/
def loadStateDict (s : State) (d : List (String × Option Grad)) : State × Bool :=
  match d.lookup "grad_scaler" with
  | none => (s, false)
  | some none => (s, false)
  | some (some g) =>
    ({ s with grad := g }, (d.filter (fun e => e.1 != "grad_scaler")).isEmpty)

end Fs2.Scaler
