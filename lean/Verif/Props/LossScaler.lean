import Verif.Optim.LossScaler
import Mathlib.Algebra.Order.Field.Rat
import Mathlib.Algebra.Order.Field.Basic
import Mathlib.Tactic.Linarith
import Mathlib.Tactic.NormNum
import Mathlib.Tactic.Positivity
import Mathlib.Tactic.FieldSimp
import Mathlib.Tactic.Ring

/-!
# C43: dynamic loss scaling
-/

namespace Fs2.Props
open Fs2.Scaler

/-- One optimizer step as seen from outside: whether the gradients had an inf or NaN, whether the
optimizer made its step, and what was reported. -/
structure ScaleEvent where
  foundInf : Bool
  stepped : Bool
  result : Result

/-- `ScaleRun s es s'`: from the scaler `s` the steps `es`, the newest first, lead to `s'`. -/
inductive ScaleRun (s : State) : List ScaleEvent → State → Prop where
  | nil : ScaleRun s [] s
  | step {es s' inf} : ScaleRun s es s' →
      ScaleRun s (⟨inf, (runStep s' inf).1, (runStep s' inf).2.2⟩ :: es) (runStep s' inf).2.1

/-- The part of the configurations for which the reports are reliable: the scale starts at or above
its minimum, and one backoff from the minimum is a change that `math.isclose` notices. The defaults
(factor 2, minimum 0.0001) belong to it. -/
structure Noticeable (init factor minScale : Rat) : Prop where
  start : minScale ≤ init
  absolute : 1 / 100000 < minScale * (1 - 1 / factor)
  relative : 13 / 10000000 < 1 - 1 / factor

example : Noticeable 65536 2 (1 / 10000) := ⟨by norm_num, by norm_num, by norm_num⟩

/-- What the run keeps: the configuration, the lower bound and the tracker. -/
private structure Inv (factor : Rat) (window : Nat) (minScale : Rat) (es : List ScaleEvent)
    (s : State) : Prop where
  growth : s.grad.growthFactor = factor
  backoff : s.grad.backoffFactor = 1 / factor
  interval : s.grad.growthInterval = window
  minS : s.minScale = minScale
  low : minScale ≤ s.grad.scale
  below : 0 < window → s.grad.growthTracker < window
  len : s.grad.growthTracker ≤ es.length
  clean : ∀ e ∈ es.take s.grad.growthTracker, e.foundInf = false ∧ e.result.scaled = false
  stop : ∀ e, es[s.grad.growthTracker]? = some e → e.foundInf = true ∨ e.result.scaled = true

private theorem abs_nonneg' {x : Rat} (h : 0 ≤ x) : Scaler.abs x = x := by
  simp [Scaler.abs, not_lt.mpr h]

private theorem abs_neg' {x : Rat} (h : x < 0) : Scaler.abs x = -x := by
  simp [Scaler.abs, h]

/-- A backoff is noticed. -/
private theorem far_down {f m o : Rat} (hf : 1 < f) (ho : m ≤ o)
    (ha : 1 / 100000 < m * (1 - 1 / f)) (hr : 13 / 10000000 < 1 - 1 / f) :
    isClose (o * (1 / f)) o (13 / 10000000) (1 / 100000) = false ∧ o * (1 / f) < o := by
  have h1 : 0 < 1 / f := by positivity
  have hm : 0 < m := by
    by_contra h
    have : m * (1 - 1 / f) ≤ 0 := mul_nonpos_of_nonpos_of_nonneg (not_lt.mp h) (by linarith)
    linarith
  have ho' : 0 < o := lt_of_lt_of_le hm ho
  have hoc : m * (1 - 1 / f) ≤ o * (1 - 1 / f) :=
    mul_le_mul_of_nonneg_right ho (by linarith)
  have hd : o * (1 / f) - o = -(o * (1 - 1 / f)) := by ring
  have hlt : o * (1 / f) < o := by linarith
  refine ⟨?_, hlt⟩
  have hpos : 0 < o * (1 / f) := by positivity
  simp only [isClose, hd]
  rw [abs_neg' (by linarith), abs_nonneg' hpos.le, abs_nonneg' ho'.le]
  have h2 : 13 / 10000000 * o < o * (1 - 1 / f) := by
    rw [mul_comm]; exact mul_lt_mul_of_pos_left hr ho'
  have h3 : 13 / 10000000 * (o * (1 / f)) ≤ 13 / 10000000 * o := by linarith
  simp only [neg_neg, Bool.or_eq_false_iff, decide_eq_false_iff_not, not_le]
  exact ⟨⟨by linarith, h2⟩, by linarith⟩

/-- A growth is noticed. -/
private theorem far_up {f m o : Rat} (hf : 1 < f) (ho : m ≤ o)
    (ha : 1 / 100000 < m * (1 - 1 / f)) (hr : 13 / 10000000 < 1 - 1 / f) :
    isClose (o * f) o (13 / 10000000) (1 / 100000) = false ∧ o < o * f := by
  have h1 : 0 < 1 / f := by positivity
  have hm : 0 < m := by
    by_contra h
    have : m * (1 - 1 / f) ≤ 0 := mul_nonpos_of_nonpos_of_nonneg (not_lt.mp h) (by linarith)
    linarith
  have ho' : 0 < o := lt_of_lt_of_le hm ho
  have hf0 : 0 < f := by linarith
  have hle : f * (1 - 1 / f) = f - 1 := by field_simp
  have hoc : m * (1 - 1 / f) ≤ o * (1 - 1 / f) :=
    mul_le_mul_of_nonneg_right ho (by linarith)
  have hd : o * f - o = (o * f) * (1 - 1 / f) := by field_simp
  have hlt : o < o * f := by nlinarith
  refine ⟨?_, hlt⟩
  have hpos : 0 < o * f := by positivity
  have h4 : 0 < o * f - o := by linarith
  simp only [isClose]
  rw [abs_nonneg' h4.le, abs_nonneg' hpos.le, abs_nonneg' ho'.le]
  have h2 : 13 / 10000000 * (o * f) < o * f - o := by
    rw [hd, mul_comm]; exact mul_lt_mul_of_pos_left hr hpos
  have h5 : 1 / 100000 < o * f - o := by
    rw [hd]
    have : o * (1 - 1 / f) ≤ (o * f) * (1 - 1 / f) :=
      mul_le_mul_of_nonneg_right hlt.le (by linarith)
    linarith
  simp only [Bool.or_eq_false_iff, decide_eq_false_iff_not, not_le]
  exact ⟨⟨h2, by linarith⟩, h5⟩

private theorem close_self (o : Rat) : isClose o o (13 / 10000000) (1 / 100000) = true := by
  simp [isClose, Scaler.abs]

private theorem step_inf {f m : Rat} {w : Nat} {es : List ScaleEvent} {s : State}
    (h : Inv f w m es s) (hf : 1 < f) (ha : 1 / 100000 < m * (1 - 1 / f))
    (hr : 13 / 10000000 < 1 - 1 / f) :
    updateScale s true =
      if s.grad.scale * (1 / f) < m then
        ({ s with grad := { s.grad with scale := m, growthTracker := 0 } },
         ⟨s.grad.scale, m, false, true, true⟩)
      else
        ({ s with grad := { s.grad with scale := s.grad.scale * (1 / f), growthTracker := 0 } },
         ⟨s.grad.scale, s.grad.scale * (1 / f), false, true, false⟩) := by
  obtain ⟨h1, h2⟩ := far_down hf h.low ha hr
  simp only [updateScale, Grad.update, if_true, h.backoff, h1, Bool.false_eq_true, if_false,
    gt_iff_lt, not_lt.mpr h2.le, h.minS, Grad.setScale]

private theorem step_clean {f m : Rat} {w : Nat} {es : List ScaleEvent} {s : State}
    (h : Inv f w m es s) (hf : 1 < f) (ha : 1 / 100000 < m * (1 - 1 / f))
    (hr : 13 / 10000000 < 1 - 1 / f) :
    updateScale s false =
      if s.grad.growthTracker + 1 = w then
        ({ s with grad := { s.grad with scale := s.grad.scale * f, growthTracker := 0 } },
         ⟨s.grad.scale, s.grad.scale * f, true, false, false⟩)
      else
        ({ s with grad := { s.grad with growthTracker := s.grad.growthTracker + 1 } },
         ⟨s.grad.scale, s.grad.scale, false, false, false⟩) := by
  obtain ⟨h1, h2⟩ := far_up hf h.low ha hr
  by_cases hw : s.grad.growthTracker + 1 = w
  · simp only [updateScale, Grad.update, Bool.false_eq_true, if_false, h.interval, hw, if_true,
      h.growth, h1, gt_iff_lt, h2]
  · simp only [updateScale, Grad.update, Bool.false_eq_true, if_false, h.interval, hw,
      close_self, if_true]

private theorem inv_run {init f m : Rat} {w : Nat} {s s' : State} {es : List ScaleEvent}
    (hnew : new init f w m = some s) (hn : Noticeable init f m) (hrun : ScaleRun s es s') :
    1 < f ∧ Inv f w m es s' := by
  simp only [new] at hnew
  split at hnew
  · cases hnew
  split at hnew
  · cases hnew
  next hf =>
  have hf : 1 < f := by
    by_contra h
    exact hf (Or.inl (not_lt.mp h))
  refine ⟨hf, ?_⟩
  cases hnew
  induction hrun with
  | nil => exact ⟨rfl, rfl, rfl, rfl, hn.start, fun h => h, Nat.le_refl _, by simp, by simp⟩
  | @step es s' inf _ ih =>
    cases inf with
    | true =>
      simp only [runStep]
      rw [step_inf ih hf hn.absolute hn.relative]
      split
      · exact ⟨ih.growth, ih.backoff, ih.interval, ih.minS, le_refl _, fun h => h, by simp, by simp,
          by simp⟩
      next hlow =>
        exact ⟨ih.growth, ih.backoff, ih.interval, ih.minS, not_lt.mp hlow, fun h => h, by simp,
          by simp, by simp⟩
    | false =>
      simp only [runStep]
      rw [step_clean ih hf hn.absolute hn.relative]
      split
      · refine ⟨ih.growth, ih.backoff, ih.interval, ih.minS, ?_, fun h => h, by simp, by simp,
          by simp⟩
        have := (far_up hf ih.low hn.absolute hn.relative).2
        have := ih.low
        simp only
        linarith
      next hw =>
        refine ⟨ih.growth, ih.backoff, ih.interval, ih.minS, ih.low, ?_, ?_, ?_, ?_⟩
        · intro h
          have := ih.below h
          simp only
          omega
        · have := ih.len
          simp only [List.length_cons]
          omega
        · intro e he
          simp only [List.take_succ_cons, List.mem_cons] at he
          rcases he with rfl | he
          · exact ⟨rfl, rfl⟩
          · exact ih.clean e he
        · intro e he
          simp only [List.getElem?_cons_succ] at he
          exact ih.stop e he

/-- **Overflows.** In every sequence of steps with clean and non finite gradients, a step reports an
overflow exactly when the gradients were not finite, which is exactly when the optimizer made no step;
the scale is then divided by the factor but kept at or above the minimum, and `exploded` is reported
exactly when the minimum had to be enforced. -/
theorem C43_overflow_partial {init f m : Rat} {w : Nat} {s s' : State} {es : List ScaleEvent}
    (hnew : new init f w m = some s) (hn : Noticeable init f m) (hrun : ScaleRun s es s') :
    m ≤ s'.grad.scale ∧
    ∀ e ∈ es, (e.result.overflowed = true ↔ e.foundInf = true) ∧
      (e.stepped = true ↔ e.foundInf = false) ∧
      (e.foundInf = true → e.result.newScale = max (e.result.oldScale / f) m) ∧
      (e.result.exploded = true ↔ e.foundInf = true ∧ e.result.oldScale / f < m) ∧
      m ≤ e.result.oldScale ∧ m ≤ e.result.newScale := by
  refine ⟨(inv_run hnew hn hrun).2.low, ?_⟩
  induction hrun with
  | nil => intro e he; cases he
  | @step es s' inf hrun ih =>
    intro e he
    rcases List.mem_cons.mp he with rfl | he
    · obtain ⟨hf, h⟩ := inv_run hnew hn hrun
      have hdiv : s'.grad.scale / f = s'.grad.scale * (1 / f) := by ring
      cases inf with
      | true =>
        simp only [runStep]
        rw [step_inf h hf hn.absolute hn.relative]
        split
        next hl =>
          simp only [hdiv, max_eq_right hl.le, hl, h.low]
          simp
        next hl =>
          have := not_lt.mp hl
          simp only [hdiv, max_eq_left this, this, hl, h.low]
          simp
      | false =>
        simp only [runStep]
        rw [step_clean h hf hn.absolute hn.relative]
        have h2 := (far_up hf h.low hn.absolute hn.relative).2
        have h3 := h.low
        split
        · simp [h3]
          linarith
        · simp [h3]
    · exact ih e he

/-- **Growth.** A step reports that the scale grew exactly when it and the `window - 1` steps before it
had finite gradients and none of those earlier steps made the scale grow (`es` holds the earlier steps,
the newest first); the scale is then multiplied by the factor. Any other step with finite gradients
leaves the scale as it is. -/
theorem C43_growth_partial {init f m : Rat} {w : Nat} {s s' : State} {es : List ScaleEvent}
    {e : ScaleEvent} (hnew : new init f w m = some s) (hn : Noticeable init f m)
    (hrun : ScaleRun s (e :: es) s') :
    (e.result.scaled = true ↔
      0 < w ∧ e.foundInf = false ∧ w - 1 ≤ es.length ∧
      ∀ p ∈ es.take (w - 1), p.foundInf = false ∧ p.result.scaled = false) ∧
    (e.result.scaled = true → e.result.newScale = e.result.oldScale * f) ∧
    (e.result.scaled = false → e.foundInf = false → e.result.newScale = e.result.oldScale) := by
  cases hrun with
  | @step _ s' inf hrun =>
    obtain ⟨hf, h⟩ := inv_run hnew hn hrun
    cases inf with
    | true =>
      simp only [runStep]
      rw [step_inf h hf hn.absolute hn.relative]
      split <;> simp
    | false =>
      simp only [runStep]
      rw [step_clean h hf hn.absolute hn.relative]
      have hlen := h.len
      have hclean := h.clean
      have hstop := h.stop
      have hbelow := h.below
      split
      next hw =>
        have hw' : w - 1 = s'.grad.growthTracker := by omega
        refine ⟨⟨fun _ => ⟨by omega, trivial, by omega, ?_⟩, fun _ => rfl⟩, fun _ => rfl, fun h => (by cases h)⟩
        rw [hw']
        exact hclean
      next hw =>
        refine ⟨⟨fun h => (by cases h), ?_⟩, fun h => (by cases h), fun _ _ => rfl⟩
        rintro ⟨h0, -, hl, hall⟩
        exfalso
        have hlt : s'.grad.growthTracker < w - 1 := by
          have := hbelow h0
          omega
        have hget : es[s'.grad.growthTracker]? = some es[s'.grad.growthTracker] :=
          List.getElem?_eq_getElem (by omega)
        have hmem : es[s'.grad.growthTracker] ∈ es.take (w - 1) := by
          rw [List.mem_take_iff_getElem]
          exact ⟨s'.grad.growthTracker, by omega, rfl⟩
        have h1 := hall _ hmem
        rcases hstop _ hget with h2 | h2
        · rw [h1.1] at h2; cases h2
        · rw [h1.2] at h2; cases h2

/-- A run of the default configuration (with a window of two) that grows after two clean steps. -/
example : ∃ s, new 65536 2 2 (1 / 10000) = some s ∧
    ((runStep (runStep s false).2.1 false).2.2 = ⟨65536, 131072, true, false, false⟩) := by
  refine ⟨⟨⟨65536, 2, 1 / 2, 2, 0⟩, 2, 1 / 10000⟩, ?_, ?_⟩
  · norm_num [new]
  · norm_num [runStep, updateScale, Grad.update, isClose, Scaler.abs]

/-- The absolute tolerance of the comparison hides overflows of small scales: from a scale of 0.00002
an overflow with factor 2 is not reported, and the scale ends up below the minimum without
`exploded`. -/
theorem C43_unnoticed :
    ∃ s, new (2 / 100000) 2 2000 (15 / 1000000) = some s ∧
      (runStep s true).1 = false ∧ (runStep s true).2.2.overflowed = false ∧
      (runStep s true).2.2.exploded = false ∧
      (runStep s true).2.1.grad.scale < (runStep s true).2.1.minScale := by
  refine ⟨⟨⟨2 / 100000, 2, 1 / 2, 2000, 0⟩, 2000, 15 / 1000000⟩, ?_, ?_⟩
  · norm_num [new]
  · norm_num [runStep, updateScale, Grad.update, isClose, Scaler.abs]

/-- So does the relative tolerance for factors very close to one. -/
theorem C43_unnoticed_factor :
    ∃ s, new 65536 (1000001 / 1000000) 2000 (1 / 10000) = some s ∧
      (runStep s true).1 = false ∧ (runStep s true).2.2.overflowed = false := by
  refine ⟨⟨⟨65536, 1000001 / 1000000, 1000000 / 1000001, 2000, 0⟩, 2000, 1 / 10000⟩, ?_, ?_⟩
  · norm_num [new]
  · norm_num [runStep, updateScale, Grad.update, isClose, Scaler.abs]

/-- **Resume.** A scaler that loads the state of another one reports from then on the same results for
the same gradients, whatever it was constructed with, provided the minimum is the same. -/
theorem C43_resume (s t : State) (hmin : s.minScale = t.minScale) :
    ∃ t', loadStateDict t (stateDict s) = (t', true) ∧
      ∀ infs : List Bool,
        (infs.foldl (fun (a : State × List (Bool × Result)) i =>
          ((runStep a.1 i).2.1, a.2 ++ [((runStep a.1 i).1, (runStep a.1 i).2.2)])) (s, [])).2 =
        (infs.foldl (fun (a : State × List (Bool × Result)) i =>
          ((runStep a.1 i).2.1, a.2 ++ [((runStep a.1 i).1, (runStep a.1 i).2.2)])) (t', [])).2 := by
  refine ⟨{ t with grad := s.grad }, by simp [loadStateDict, stateDict], ?_⟩
  suffices h : ∀ (infs : List Bool) (a b : State) (l : List (Bool × Result)), a.grad = b.grad →
      a.minScale = b.minScale →
      (infs.foldl (fun (a : State × List (Bool × Result)) i =>
        ((runStep a.1 i).2.1, a.2 ++ [((runStep a.1 i).1, (runStep a.1 i).2.2)])) (a, l)).2 =
      (infs.foldl (fun (a : State × List (Bool × Result)) i =>
        ((runStep a.1 i).2.1, a.2 ++ [((runStep a.1 i).1, (runStep a.1 i).2.2)])) (b, l)).2 by
    intro infs
    exact h infs _ _ [] rfl hmin
  intro infs
  induction infs with
  | nil => intros; rfl
  | cons i infs ih =>
    intro a b l h1 h2
    simp only [List.foldl_cons]
    have hres : (runStep a i).2.2 = (runStep b i).2.2 := by
      simp only [runStep, updateScale, h1, h2]
      split <;> [rfl; split <;> [rfl; split <;> rfl]]
    have hst : (runStep a i).1 = (runStep b i).1 := rfl
    rw [hres, hst]
    apply ih
    · simp only [runStep, updateScale, h1, h2]
      split <;> [rfl; split <;> [rfl; split <;> rfl]]
    · simp only [runStep, updateScale, h1, h2]
      split <;> [rfl; split <;> [rfl; split <;> rfl]]

/-- A dictionary without the key, with a value that is no scaler state, or with further keys is
refused. -/
theorem C43_load_errors (s : State) (d : List (String × Option Grad))
    (h : d.lookup "grad_scaler" = none ∨ d.lookup "grad_scaler" = some none ∨
      ∃ e ∈ d, e.1 ≠ "grad_scaler") : (loadStateDict s d).2 = false := by
  simp only [loadStateDict]
  rcases h with h | h | ⟨e, he, hk⟩
  · rw [h]
  · rw [h]
  · split
    · rfl
    · rfl
    · simp only [List.isEmpty_eq_false_iff, ne_eq, List.filter_eq_nil_iff]
      intro hall
      have := hall e he
      simp [hk] at this

example : (loadStateDict ⟨⟨1, 2, 1 / 2, 3, 0⟩, 3, 0⟩ [("other", none)]).2 = false := rfl

end Fs2.Props
