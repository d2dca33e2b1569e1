import Verif.Pipeline.Prefetch

/-!
# prefetch: invariants

Helper lemmas for `Verif/Props/Prefetch.lean`.
-/

namespace Fs2.Prefetch

open Source

variable {n : Nat} {S : Source}

/-- The control state is consistent. -/
structure Ctl (n : Nat) (s : St S.σ) : Prop where
  stop_pc : s.stop = true → (∃ q, s.pc = .stopNotify q) ∨ ∃ q, s.pc = .joining q
  pc_stop₁ : ∀ q, s.pc = .stopNotify q → s.stop = true ∧ s.th ≠ .none
  pc_stop₂ : ∀ q, s.pc = .joining q → s.stop = true ∧ s.th ≠ .none
  not_running : s.st = .notRunning → s.th = .none ∨ s.stop = true
  no_thread : s.th = .none → s.st ≠ .running
  exited : s.th = .exited → s.st ≠ .running
  hand : ∀ r, s.th = .hand r → s.st = .running ∧ s.exc = errOf r
  asleep : ∀ r, s.th = .asleep r → s.st = .running ∧ s.exc = errOf r
  exc : s.exc = none → s.st ≠ .faulted
  no_exc : s.exc ≠ none → s.st = .faulted ∨ (∃ r, s.th = .hand r) ∨ ∃ r, s.th = .asleep r
  finish : ∀ q, s.pc = .finish q → s.th = .none
  check : s.pc = .check → n ≠ 0 ∧ s.next = [] ∧ (s.th ≠ .none ∨ s.st = .eod ∨ s.st = .faulted)
  pasleep : s.pc = .asleep → n ≠ 0 ∧ s.next = [] ∧ (s.th ≠ .none ∨ s.st = .eod ∨ s.st = .faulted)
  wake : s.pc = .wake → n ≠ 0 ∧ (s.next = [] → s.fill = [] ∧ s.st = .eod)
  next_q : ∀ q, s.pc = .stopNotify q ∨ s.pc = .joining q ∨ s.pc = .finish q → q.isNext = false
  zero : n = 0 → s.th = .none
  /-- A sleeping caller has something to wait for, or is about to be notified. -/
  read_wait : s.pc = .asleep → (s.st = .running ∧ s.fill = []) ∨ s.th = .notify
  /-- A sleeping thread has something to wait for, or is about to be notified. -/
  fill_wait : ∀ r, s.th = .asleep r → (s.stop = false ∧ n ≤ s.fill.length) ∨ s.pc = .wake ∨
    ∃ q, s.pc = .stopNotify q

theorem ctl_init : Ctl n (init S) := by
  constructor <;> simp [init]

theorem errOf_none {r : Res} : errOf r = none ↔ ∀ e, r ≠ .err e := by
  cases r <;> simp [errOf]

set_option maxHeartbeats 1000000 in
theorem Ctl.step {s s' : St S.σ} {l : Lab} (h : Ctl n s) (hs : Step n S s l s') : Ctl n s' := by
  obtain ⟨i, st, th, stop, fill, nx, exc, pc⟩ := s
  obtain ⟨h1, h2, h3, h4, h5, h6, h7, h8, h9, h10, h11, h12, h13, h14, h15, h16, h17, h18⟩ := h
  cases hs
  case push r hth hp =>
    cases exc with
    | some e => constructor <;> simp only [deliver] at * <;> first | assumption | grind
    | none =>
      cases r with
      | yield x => constructor <;> simp only [deliver] at * <;> first | assumption | grind
      | eod => constructor <;> simp only [deliver] at * <;> first | assumption | grind
      | err e => constructor <;> simp only [deliver] at * <;> first | assumption | grind [errOf]
  case callNext hn hpc hnx =>
    cases st <;> cases th <;> constructor <;> simp only [ensure] at * <;> first | assumption | grind
  case retNext hpc =>
    cases th <;> constructor <;> simp only [notifyFill] at * <;> first | assumption | grind
  case stopNotify hpc =>
    cases th <;> constructor <;> simp only [notifyFill] at * <;> first | assumption | grind
  case notify hth =>
    cases pc <;> constructor <;> simp only [notifyRead] at * <;> first | assumption | grind
  case read r i hth hst hn =>
    cases r <;> constructor <;> simp only [errOf, Option.or] at * <;> first | assumption | grind
  case swap hpc hst hp =>
    have : stop = false := by
      cases stop with
      | false => rfl
      | true => exact absurd (h1 rfl) (by simp only at hpc; simp [hpc])
    cases st <;> constructor <;> simp only at * <;> first | assumption | grind
  all_goals (constructor <;> simp only at * <;> first | assumption | grind)

end Fs2.Prefetch
