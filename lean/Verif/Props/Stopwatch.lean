import Verif.Utils.Stopwatch

/-!
# C126: what stopwatches measure

The elapsed time is the time during which the stopwatch ran since it was last reset. The specification counts ticks: the tick `u`
(from the time `u` to `u + 1`) counts if the last call of `start` or `stop` up to the time `u` was `start`, and if there is no call
of `reset` after the time `u`.
-/

namespace Fs2.Props

open Fs2.Watch

/-- The last call of `start` or `stop` is `start`. -/
def LastIsStart (calls : List (Nat × Op)) : Bool :=
  ((calls.filter fun c => c.2 ≠ .reset).getLast?.map Prod.snd) == some .start

/-- The tick `u` is measured. -/
def Measured (calls : List (Nat × Op)) (u : Nat) : Bool :=
  LastIsStart (calls.filter fun c => c.1 ≤ u) && calls.all fun c => c.2 ≠ .reset || c.1 ≤ u

/-- The number of ticks before `now` that are measured. -/
def measuredTicks (calls : List (Nat × Op)) (now : Nat) : Nat := ((List.range now).filter (Measured calls)).length

/-- The clock does not run backwards: the times of the calls ascend, and none is after `now`. -/
def Timely (calls : List (Nat × Op)) (now : Nat) : Prop :=
  calls.Pairwise (fun a b => a.1 ≤ b.1) ∧ ∀ c ∈ calls, c.1 ≤ now

theorem lastIsStart_snoc (calls : List (Nat × Op)) (c : Nat × Op) :
    LastIsStart (calls ++ [c]) =
      match c.2 with
      | .start => true
      | .stop => false
      | .reset => LastIsStart calls := by
  obtain ⟨t, op⟩ := c
  cases op <;> simp [LastIsStart, List.filter_append]

theorem run_snoc (calls : List (Nat × Op)) (c : Nat × Op) : run (calls ++ [c]) = apply (run calls) c := by
  simp [run]

theorem timely_snoc {calls : List (Nat × Op)} {c : Nat × Op} {now : Nat} (h : Timely (calls ++ [c]) now) :
    Timely calls c.1 ∧ c.1 ≤ now := by
  obtain ⟨h1, h2⟩ := h
  rw [List.pairwise_append] at h1
  exact ⟨⟨h1.1, fun a ha => h1.2.2 a ha c (by simp)⟩, h2 c (by simp)⟩

/-- After the last call, a tick is measured exactly if the stopwatch was left running. -/
theorem measured_after {calls : List (Nat × Op)} {t u : Nat} (h : ∀ c ∈ calls, c.1 ≤ t) (hu : t ≤ u) :
    Measured calls u = LastIsStart calls := by
  have h1 : calls.filter (fun c => decide (c.1 ≤ u)) = calls := by
    rw [List.filter_eq_self]
    intro c hc
    simpa using Nat.le_trans (h c hc) hu
  have h2 : (calls.all fun c => c.2 ≠ .reset || c.1 ≤ u) = true := by
    rw [List.all_eq_true]
    intro c hc
    have := Nat.le_trans (h c hc) hu
    simp [this]
  unfold Measured
  rw [h1, h2, Bool.and_true]

theorem measuredTicks_add {calls : List (Nat × Op)} {t : Nat} (h : ∀ c ∈ calls, c.1 ≤ t) (k : Nat) :
    measuredTicks calls (t + k) = measuredTicks calls t + if LastIsStart calls then k else 0 := by
  induction k with
  | zero => simp
  | succ k ih =>
    unfold measuredTicks at ih ⊢
    rw [← Nat.add_assoc, List.range_succ, List.filter_append, List.length_append, ih]
    have := measured_after h (Nat.le_add_right t k)
    cases hl : LastIsStart calls <;> simp [this, hl, Nat.add_assoc]

/-- Up to the last call, nothing has changed, unless it resets. -/
theorem measuredTicks_snoc (calls : List (Nat × Op)) (c : Nat × Op) :
    measuredTicks (calls ++ [c]) c.1 = if c.2 = .reset then 0 else measuredTicks calls c.1 := by
  unfold measuredTicks
  by_cases hr : c.2 = .reset
  · rw [if_pos hr, List.length_eq_zero_iff, List.filter_eq_nil_iff]
    intro u hu
    have : ¬ c.1 ≤ u := by simpa using hu
    simp [Measured, hr, this]
  · rw [if_neg hr]
    congr 1
    apply List.filter_congr
    intro u hu
    have : ¬ c.1 ≤ u := by simpa using hu
    simp [Measured, hr, this, List.filter_append]

/-- What the state of a stopwatch means. -/
theorem run_spec (calls : List (Nat × Op)) (t : Nat) (ht : Timely calls t) :
    (run calls).running = LastIsStart calls ∧ ((run calls).running = true → (run calls).startTime ≤ t) ∧
      elapsed t (run calls) = measuredTicks calls t := by
  generalize hn : calls.length = n
  induction n generalizing calls t with
  | zero =>
    have : calls = [] := List.length_eq_zero_iff.1 hn
    subst this
    refine ⟨rfl, (by intro h; cases h), ?_⟩
    have : measuredTicks [] t = 0 := by
      have h0 := measuredTicks_add (calls := []) (t := 0) (by simp) t
      rw [Nat.zero_add] at h0
      rw [h0]; rfl
    rw [this]; rfl
  | succ n ih =>
    have hne : calls ≠ [] := by intro h; rw [h] at hn; cases hn
    obtain ⟨init, c, rfl⟩ : ∃ init c, calls = init ++ [c] :=
      ⟨calls.dropLast, calls.getLast hne, (List.dropLast_concat_getLast hne).symm⟩
    obtain ⟨h1, h2⟩ := timely_snoc ht
    obtain ⟨i1, i2, i3⟩ := ih init c.1 h1 (by simpa using hn)
    have hall : ∀ a ∈ init ++ [c], a.1 ≤ c.1 := by
      intro a ha
      rcases List.mem_append.1 ha with ha | ha
      · exact h1.2 a ha
      · simp at ha; rw [ha]; exact Nat.le_refl _
    obtain ⟨k, rfl⟩ := Nat.exists_eq_add_of_le h2
    rw [measuredTicks_add hall k, measuredTicks_snoc, lastIsStart_snoc, run_snoc, ← i3, ← i1]
    generalize run init = w at i1 i2 i3
    obtain ⟨now, op⟩ := c
    obtain ⟨running, acc, st⟩ := w
    clear i1 i3 ih
    cases op <;> cases running <;> simp [apply, start, stop, reset, elapsed] at i2 ⊢ <;> omega

/-- **C126.** After any calls, the elapsed time is the number of ticks at which the stopwatch ran since it was last reset. -/
theorem C126_elapsed (calls : List (Nat × Op)) (now : Nat) (h : Timely calls now) :
    elapsed now (run calls) = measuredTicks calls now := (run_spec calls now h).2.2

example : elapsed 30 (run [(1, .start), (4, .stop), (10, .start), (12, .reset), (13, .start), (20, .stop), (25, .start)]) = 13 ∧
    measuredTicks [(1, .start), (4, .stop), (10, .start), (12, .reset), (13, .start), (20, .stop), (25, .start)] 30 = 13 := by
  decide +kernel

example : Timely [(1, .start), (4, .stop), (10, .start), (12, .reset), (13, .start), (20, .stop), (25, .start)] 30 := by
  simp [Timely]

/-- **C126.** `start` raises exactly if the last call of `start` or `stop` was `start`, so that a `with` statement inside another one
with the same stopwatch raises. -/
theorem C126_start_refused (calls : List (Nat × Op)) (now : Nat) (h : Timely calls now) :
    start now (run calls) = none ↔ LastIsStart calls = true := by
  rw [← (run_spec calls now h).1]
  unfold start
  cases (run calls).running <;> simp

example : start 9 (run [(1, .start), (3, .reset)]) = none :=
  (C126_start_refused _ 9 (by simp [Timely])).2 rfl

/-- **C126.** The elapsed time never falls from one reading to a later one, if the stopwatch is not reset between them. -/
theorem C126_monotone (calls more : List (Nat × Op)) (t now : Nat) (h : Timely calls t) (hle : ∀ c ∈ more, t ≤ c.1)
    (hm : Timely (calls ++ more) now) (ht : t ≤ now) (hr : ∀ c ∈ more, c.2 ≠ .reset) :
    elapsed t (run calls) ≤ elapsed now (run (calls ++ more)) := by
  rw [C126_elapsed _ _ h, C126_elapsed _ _ hm]
  obtain ⟨k, rfl⟩ := Nat.exists_eq_add_of_le ht
  unfold measuredTicks
  rw [List.range_add, List.filter_append, List.length_append]
  refine Nat.le_trans (Nat.le_of_eq ?_) (Nat.le_add_right _ _)
  congr 1
  apply List.filter_congr
  intro u hu
  have hu : u < t := by simpa using hu
  have h1 : more.filter (fun c => decide (c.1 ≤ u)) = [] := by
    rw [List.filter_eq_nil_iff]
    intro c hc
    have := hle c hc
    simp; omega
  have h2 : (more.all fun c => c.2 ≠ .reset || c.1 ≤ u) = true := by
    rw [List.all_eq_true]
    intro c hc
    simp [hr c hc]
  unfold Measured
  rw [List.filter_append, h1, List.append_nil, List.all_append, h2, Bool.and_true]

example : elapsed 5 (run [(1, .start)]) ≤ elapsed 9 (run ([(1, .start)] ++ [(6, .stop), (8, .start)])) :=
  C126_monotone [(1, .start)] [(6, .stop), (8, .start)] 5 9 (by simp [Timely]) (by simp) (by simp [Timely]) (by decide) (by simp)

end Fs2.Props
