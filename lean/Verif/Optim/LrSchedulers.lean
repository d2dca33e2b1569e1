import Mathlib.Analysis.SpecialFunctions.Pow.Real
import Mathlib.Analysis.SpecialFunctions.Log.Base
import Mathlib.Analysis.SpecialFunctions.Trigonometric.Basic

/-!
# The learning rate schedulers

Models `src/fairseq2/optim/lr_schedulers/*.py`.

Simplifications, all stated here:

* learning rates are exact reals instead of floats (or 0-dim tensors);
* step numbers and step counts (`last_epoch`, `num_warmup_steps`, `cycle_len`, `num_steps`) are
  natural numbers: negative counts are not modelled;
* an exception (`ValueError`, `ZeroDivisionError`, `TypeError`) is `none`;
* `torch.optim.lr_scheduler._LRScheduler` itself is not modelled: it calls `_compute_lrs()` with
  `last_epoch` equal to the number of `step()` calls made so far, and `base_lrs` are the rates the
  parameter groups had at construction.
-/

namespace Fs2.Lr

/-- The value of an argument that may be given once for all parameter groups or once per group
(the `value` argument of `get_per_param_group`, lr_scheduler.py:48-50). -/
inductive PerGroup where
  /-- a Python `float` or a `Tensor` -/
  | scalar (x : ℝ)
  /-- a Python `int` -/
  | int (k : ℤ)
  /-- a sequence -/
  | seq (xs : List ℝ)

/-- `get_per_param_group` (lr_scheduler.py:48-61). `isinstance(value, (float, Tensor))` is false of
an `int`, for which `len(value)` then raises a `TypeError`. -/
def perGroup (numGroups : ℕ) : PerGroup → Option (List ℝ)
  | .scalar x => some (List.replicate numGroups x)
  | .int _ => none
  | .seq xs => if xs.length ≠ numGroups then none else some xs

/-- The list `[s + (b - s) * c for b, s in zip(base_lrs, self.start_lrs)]` that every scheduler with
a warm-up returns (cosine_annealing.py:101-103, myle.py:74-76, polynomial_decay.py:96-98,
tri_stage.py:100-102). -/
noncomputable def warmup (base start : List ℝ) (t w : ℕ) : List ℝ :=
  List.zipWith (fun b s => s + (b - s) * ((t : ℝ) / w)) base start

/-- `PassthroughLR._compute_lrs` (lr_scheduler.py:44-45). -/
def passthrough (base : List ℝ) : List ℝ := base

/-! ## MyleLR -/

/-- The attributes of `MyleLR` (myle.py:62-66). -/
structure Myle where
  numWarmup : ℕ
  startLrs : List ℝ

/-- `MyleLR.__init__` (myle.py:44-66). -/
def Myle.new (numGroups numWarmup : ℕ) (start : PerGroup) : Option Myle :=
  if numWarmup = 0 then none
  else (perGroup numGroups start).map fun s => { numWarmup, startLrs := s }

/-- `MyleLR._compute_lrs` (myle.py:69-82). -/
noncomputable def Myle.lrs (m : Myle) (base : List ℝ) (t : ℕ) : List ℝ :=
  if t < m.numWarmup then warmup base m.startLrs t m.numWarmup
  else
    let c := ((m.numWarmup : ℝ) / t) ^ (0.5 : ℝ)
    base.map (fun b => b * c)

/-! ## NoamLR -/

/-- `NoamLR._compute_lrs` (noam.py:58-72); `w` is `self.num_warmup_steps` (noam.py:53). -/
noncomputable def noam (w : ℕ) (base : List ℝ) (t : ℕ) : List ℝ :=
  let c : ℝ :=
    if t < w then (t : ℝ) * (w : ℝ) ^ (-1.5 : ℝ)
    else if t = 0 then 1
    else (t : ℝ) ^ (-0.5 : ℝ)
  base.map (fun b => b * c)

/-! ## PolynomialDecayLR -/

/-- The attributes of `PolynomialDecayLR` (polynomial_decay.py:78-82). -/
structure Poly where
  numSteps : ℕ
  numWarmup : ℕ
  power : ℝ
  startLrs : List ℝ
  finalLrs : List ℝ

/-- `PolynomialDecayLR.__init__` (polynomial_decay.py:47-84). -/
def Poly.new (numGroups numSteps numWarmup : ℕ) (power : ℝ) (start final : PerGroup) :
    Option Poly :=
  if numWarmup ≥ numSteps then none
  else do
    let s ← perGroup numGroups start
    let f ← perGroup numGroups final
    some { numSteps, numWarmup, power, startLrs := s, finalLrs := f }

/-- `PolynomialDecayLR._compute_lrs` (polynomial_decay.py:87-106). -/
noncomputable def Poly.lrs (m : Poly) (base : List ℝ) (t : ℕ) : List ℝ :=
  if t ≥ m.numSteps then m.finalLrs
  else if t < m.numWarmup then warmup base m.startLrs t m.numWarmup
  else
    let r := m.numSteps - t
    let T := m.numSteps - m.numWarmup
    let c := ((r : ℝ) / T) ^ m.power
    List.zipWith (fun b f => f + (b - f) * c) base m.finalLrs

/-! ## TriStageLR -/

/-- The attributes of `TriStageLR` (tri_stage.py:75-80). `start_lrs` and `final_lrs` are computed on
the first call from the scales (tri_stage.py:88-94) and do not change afterwards; the model computes
them every time. -/
structure TriStage where
  stage0 : ℕ
  stage1 : ℕ
  stage2 : ℕ
  startScales : List ℝ
  finalScales : List ℝ

/-- `TriStageLR.__init__` (tri_stage.py:43-82). `math.isclose(ratio_sum, 1.0)` allows a relative
error of 1e-9; `int(r * num_steps)` truncates toward zero (the ratios are not negative). -/
noncomputable def TriStage.new (numGroups numSteps : ℕ) (r0 r1 r2 : ℝ) (start final : PerGroup) :
    Option TriStage :=
  open Classical in
  if ¬ (|r0 + r1 + r2 - 1| ≤ 1e-9 * max |r0 + r1 + r2| 1) then none
  else do
    let s ← perGroup numGroups start
    let f ← perGroup numGroups final
    some { stage0 := ⌊r0 * numSteps⌋₊, stage1 := ⌊r1 * numSteps⌋₊, stage2 := ⌊r2 * numSteps⌋₊,
           startScales := s, finalScales := f }

/-- `TriStageLR._compute_lrs` (tri_stage.py:85-117). `math.log(f)` raises a `ValueError` unless
`f > 0`. -/
noncomputable def TriStage.lrs (m : TriStage) (base : List ℝ) (t : ℕ) : Option (List ℝ) :=
  open Classical in
  let startLrs := List.zipWith (fun s b => s * b) m.startScales base
  let finalLrs := List.zipWith (fun s b => s * b) m.finalScales base
  if t < m.stage0 then some (warmup base startLrs t m.stage0)
  else
    let t := t - m.stage0
    if t < m.stage1 then some base
    else
      let t := t - m.stage1
      if t < m.stage2 then
        let c := (t : ℝ) / m.stage2
        if ∀ f ∈ (base.zip m.finalScales).map Prod.snd, 0 < f then
          some (List.zipWith (fun b f => b * Real.exp (Real.log f * c)) base m.finalScales)
        else none
      else some finalLrs

/-! ## CosineAnnealingLR -/

/-- The attributes of `CosineAnnealingLR` (cosine_annealing.py:86-91). -/
structure Cosine where
  cycleLen : ℕ
  cycleMul : ℝ
  numWarmup : ℕ
  lrMul : ℝ
  startLrs : List ℝ
  finalLrs : List ℝ

/-- `CosineAnnealingLR.__init__` (cosine_annealing.py:58-93). -/
def Cosine.new (numGroups cycleLen numWarmup : ℕ) (cycleMul lrMul : ℝ) (start final : PerGroup) :
    Option Cosine := do
  let s ← perGroup numGroups start
  let f ← perGroup numGroups final
  some { cycleLen, cycleMul, numWarmup, lrMul, startLrs := s, finalLrs := f }

/-- The number, the length and the start of the cycle that the `s`-th step after the warm-up falls
into (cosine_annealing.py:105-133). `none`: division by zero, or a logarithm of a number that is
not positive, or to such a base. -/
noncomputable def Cosine.cycle (m : Cosine) (s : ℕ) : Option (ℕ × ℕ × ℕ) :=
  open Classical in
  if m.cycleLen = 0 then none
  else if m.cycleMul = 1 then
    let nr := s / m.cycleLen
    some (nr, m.cycleLen, nr * m.cycleLen)
  else
    let mul := m.cycleMul
    let x := 1 - (s : ℝ) / m.cycleLen * (1 - mul)
    if x ≤ 0 ∨ mul ≤ 0 then none
    else
      let nr := ⌊Real.logb mul x⌋₊
      let len := ⌊mul ^ nr * m.cycleLen⌋₊
      let offset := ⌊(1 - mul ^ nr) / (1 - mul) * m.cycleLen⌋₊
      some (nr, len, offset)

/-- `cycle_lr` (cosine_annealing.py:141-145). -/
noncomputable def cycleLr (lrMul c minLr maxLr : ℝ) : ℝ :=
  let minLr := minLr * lrMul
  let maxLr := maxLr * lrMul
  minLr + 0.5 * (maxLr - minLr) * (1 + c)

/-- `CosineAnnealingLR._compute_lrs` (cosine_annealing.py:96-147). `cycle_pos` may be any integer
(cosine_annealing.py:115, 133). -/
noncomputable def Cosine.lrs (m : Cosine) (base : List ℝ) (t : ℕ) : Option (List ℝ) :=
  if t < m.numWarmup then some (warmup base m.startLrs t m.numWarmup)
  else do
    let s := t - m.numWarmup
    let (nr, len, offset) ← m.cycle s
    if len = 0 then none
    else
      let pos : ℤ := s - offset
      let lrMul := m.lrMul ^ nr
      let c := Real.cos (Real.pi * pos / len)
      some (List.zipWith (cycleLr lrMul c) m.finalLrs base)

end Fs2.Lr
