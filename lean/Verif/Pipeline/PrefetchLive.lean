import Verif.Pipeline.PrefetchLaws

/-!
# prefetch: how much it holds, and that calls return

Helper lemmas for `Verif/Props/Prefetch.lean`.
-/

namespace Fs2.Prefetch

open Source

variable {n : Nat} {S : Source} {I : S.σ → Prop}

/-! ## How much is held -/

/-- Examples held outside the upstream: in the two queues and in the hands of the
background thread. -/
def held (s : St S.σ) : Nat :=
  s.next.length + s.fill.length + match s.th with
    | .hand (.yield _) | .asleep (.yield _) => 1
    | _ => 0

structure Room (n : Nat) (s : St S.σ) : Prop where
  fill : s.fill.length ≤ n + 1
  next : s.next.length ≤ n + 1
  working : s.st = .running → s.pc ≠ .check → s.pc ≠ .asleep → s.fill.length ≤ n

/-- A tape with queues no longer than a save can record. -/
def Fits (n : Nat) (tp : Tape) : Prop :=
  ∀ f nx t, tp = .list f :: .list nx :: t → f.length ≤ n + 1 ∧ nx.length ≤ n + 1

def Lab.fits (n : Nat) : Lab → Prop
  | .ret (.load tp) _ => Fits n tp
  | _ => True

theorem room_init : Room n (init S) := by constructor <;> simp [init]

theorem Room.step {s s' : St S.σ} {l : Lab} (hc : Ctl n s) (h : Room n s) (hs : Step n S s l s')
    (hl : l.fits n) : Room n s' := by
  obtain ⟨i, st, th, stop, fill, nx, exc, pc⟩ := s
  obtain ⟨h1, h2, h3⟩ := h
  simp only at h1 h2 h3
  cases hs
  case push r hth hp =>
    simp only at hth hp
    subst hth
    have hst := (hc.hand r rfl).1
    have hsp := hc.stop_pc
    simp only at hst hsp
    subst hst
    have hle : fill.length ≤ n := by
      rcases hp with hp | hp
      · subst hp
        have := hsp rfl
        exact h3 rfl (by rintro rfl; simp at this) (by rintro rfl; simp at this)
      · omega
    cases exc with
    | some e => constructor <;> simp only [deliver] <;> intros <;> first | omega | contradiction
    | none =>
      cases r with
      | yield x =>
        constructor
        · simp [deliver]; exact hle
        · exact h2
        · intro hst h4 h5
          simp only [deliver] at hst ⊢
          rcases hp with hp | hp
          · subst hp
            simp at hst
          · simp; omega
      | eod => constructor <;> simp only [deliver] <;> intros <;> first | omega | contradiction
      | err e => constructor <;> simp only [deliver] <;> intros <;> first | omega | contradiction
  case callNext hn hpc hnx =>
    cases st <;> cases th <;> constructor <;> simp only [ensure] <;>
      first | assumption | (intro _ hh; exact absurd rfl hh)
  case retNext hpc =>
    simp only at hpc
    subst hpc
    refine ⟨h1, ?_, fun h _ _ => h3 h (by simp) (by simp)⟩
    cases nx <;> simp at h2 ⊢
    omega
  case notify hth =>
    refine ⟨h1, h2, fun h => ?_⟩
    cases pc <;> simp only [notifyRead] <;> intro h4 h5 <;> first | contradiction | exact h3 h (by simp) (by simp)
  case reset => exact ⟨by simp, by simp, by simp⟩
  case load f nx' t u rest hpc hst hr =>
    have := hl f nx' t rfl
    exact ⟨this.1, this.2, by simp⟩
  case loadErr f nx' t e hpc hst hr =>
    have := hl f nx' t rfl
    exact ⟨this.1, this.2, by simp⟩
  case loadCorrupt => exact ⟨h1, h2, by simp⟩
  case swap hpc hst hp =>
    have hnx := (hc.check hpc).2.1
    simp only at hnx
    subst hnx
    exact ⟨by simp, h1, by simp⟩
  case pop x xs hn hpc hnx =>
    simp only at hpc hnx
    subst hnx hpc
    refine ⟨h1, by simp at h2; simp; omega, fun h _ _ => h3 h (by simp) (by simp)⟩
  all_goals
    simp only at *
    subst_vars
    constructor <;> simp_all

theorem Room.held {s : St S.σ} (hc : Ctl n s) (h : Room n s) : held s ≤ 2 * (n + 1) := by
  obtain ⟨i, st, th, stop, fill, nx, exc, pc⟩ := s
  obtain ⟨h1, h2, h3⟩ := h
  simp only at h1 h2 h3
  have key : st = .running → nx.length + fill.length ≤ 2 * n + 1 := by
    intro hst
    by_cases hp : pc = .check
    · have := (hc.check hp).2.1
      simp only at this
      subst this
      simp
      omega
    · by_cases hp' : pc = .asleep
      · have := (hc.pasleep hp').2.1
        simp only at this
        subst this
        simp
        omega
      · have := h3 hst hp hp'
        omega
  cases th with
  | hand r =>
    have := key (hc.hand r rfl).1
    cases r <;> simp only [Prefetch.held] <;> omega
  | asleep r =>
    have := key (hc.asleep r rfl).1
    cases r <;> simp only [Prefetch.held] <;> omega
  | _ => simp only [Prefetch.held]; omega

/-! ## Calls return -/

def Loc.weight : Loc → Nat
  | .none => 0 | .exited => 1 | .asleep _ => 4 | .hand _ => 5 | .top => 7 | .notify => 10

def PC.weight (n : Nat) : PC → Nat
  | .idle => 0 | .finish _ => 1 | .joining _ => 2 | .stopNotify _ => 4 | .wake => 3
  | .asleep => 8 * n + 12 | .check => 8 * n + 13

/-- Decreases with every step inside a call. -/
def weight (n : Nat) (s : St S.σ) : Nat :=
  (if s.st = .running then 6 else 0) + 8 * (n + 1 - s.fill.length) + s.th.weight + s.pc.weight n

theorem weight_step {s s' : St S.σ} (hc : Ctl n s) (h : Room n s) (hs : Step n S s .tau s') :
    weight n s' < weight n s := by
  obtain ⟨i, st, th, stop, fill, nx, exc, pc⟩ := s
  obtain ⟨h1, h2, h3⟩ := h
  simp only at h1 h2 h3
  generalize hl : Lab.tau = l at hs
  cases hs <;> cases hl
  case push r hth hp =>
    simp only at hth hp
    subst hth
    have hst := (hc.hand r rfl).1
    have hsp := hc.stop_pc
    simp only at hst hsp
    subst hst
    have hle : fill.length ≤ n := by
      rcases hp with hp | hp
      · subst hp
        have := hsp rfl
        exact h3 rfl (by rintro rfl; simp at this) (by rintro rfl; simp at this)
      · omega
    cases exc with
    | some e => simp [deliver, weight, Loc.weight]; omega
    | none =>
      cases r with
      | yield x => cases stop <;> simp [deliver, weight, Loc.weight] <;> omega
      | eod => simp [deliver, weight, Loc.weight]; omega
      | err e => simp [deliver, weight, Loc.weight]; omega
  case notify hth =>
    simp only at hth
    subst hth
    cases pc <;> simp [weight, notifyRead, Loc.weight, PC.weight]
    omega
  case stopNotify q hpc =>
    simp only at hpc
    subst hpc
    cases th <;> simp [weight, notifyFill, Loc.weight, PC.weight]
  case swap hpc hst hp =>
    simp only at hpc
    subst hpc
    simp only [weight, PC.weight]
    omega
  all_goals
    simp only at *
    subst_vars
    simp_all [weight, Loc.weight, PC.weight]

/-- Inside a call some step is possible. -/
theorem not_stuck {s : St S.σ} (hc : Ctl n s) (hnext : s.th = .top → ∃ r, S.next s.inner = some r)
    (hpc : s.pc ≠ .idle) : ∃ l s', Step n S s l s' ∧ (l = .tau ∨ ∃ q a, l = .ret q a) := by
  have htop : s.th = .top → ∃ l s', Step n S s l s' ∧ (l = .tau ∨ ∃ q a, l = .ret q a) := by
    intro hth
    by_cases hst : s.st = .running
    · obtain ⟨⟨r, i⟩, hn⟩ := hnext hth
      exact ⟨_, _, .read hth hst hn, .inl rfl⟩
    · exact ⟨_, _, .exit hth hst, .inl rfl⟩
  have hexc : s.st = .faulted → ∃ e, s.exc = some e := by
    intro hst
    cases he : s.exc with
    | none => exact absurd hst (hc.exc he)
    | some e => exact ⟨e, rfl⟩
  cases hp : s.pc with
  | idle => exact absurd hp hpc
  | check =>
    by_cases hf : s.st = .faulted
    · obtain ⟨e, he⟩ := hexc hf
      exact ⟨_, _, .rethrow hp hf he, .inr ⟨_, _, rfl⟩⟩
    · by_cases hw : s.st = .running ∧ s.fill = []
      · exact ⟨_, _, .sleep hp hw.1 hw.2, .inl rfl⟩
      · refine ⟨_, _, .swap hp hf ?_, .inl rfl⟩
        by_cases h : s.st = .running
        · exact .inr fun h' => hw ⟨h, h'⟩
        · exact .inl h
  | asleep =>
    rcases hc.read_wait hp with ⟨hst, hfill⟩ | hth
    · cases hth : s.th with
      | none => exact absurd hst (hc.no_thread hth)
      | top => exact htop hth
      | hand r =>
        have := (hc.pasleep hp).1
        exact ⟨_, _, .push hth (.inr (by rw [hfill]; simp; omega)), .inl rfl⟩
      | asleep r =>
        have := (hc.pasleep hp).1
        rcases hc.fill_wait r hth with ⟨-, h⟩ | h | ⟨q, h⟩
        · rw [hfill] at h
          simp at h
          omega
        · simp [hp] at h
        · simp [hp] at h
      | notify => exact ⟨_, _, .notify hth, .inl rfl⟩
      | exited => exact absurd hst (hc.exited hth)
    · exact ⟨_, _, .notify hth, .inl rfl⟩
  | wake => exact ⟨_, _, .retNext hp, .inr ⟨_, _, rfl⟩⟩
  | stopNotify q => exact ⟨_, _, .stopNotify hp, .inl rfl⟩
  | joining q =>
    obtain ⟨hstop, hne⟩ := hc.pc_stop₂ q hp
    cases hth : s.th with
    | none => exact absurd hth hne
    | top => exact htop hth
    | hand r => exact ⟨_, _, .push hth (.inl hstop), .inl rfl⟩
    | asleep r =>
      rcases hc.fill_wait r hth with ⟨h, -⟩ | h | ⟨q, h⟩
      · simp [hstop] at h
      · simp [hp] at h
      · simp [hp] at h
    | notify => exact ⟨_, _, .notify hth, .inl rfl⟩
    | exited => exact ⟨_, _, .join hp hth, .inl rfl⟩
  | finish q =>
    by_cases hf : s.st = .faulted
    · obtain ⟨e, he⟩ := hexc hf
      exact ⟨_, _, .fault hp hf he, .inr ⟨_, _, rfl⟩⟩
    · cases q with
      | next => simpa [Request.isNext] using hc.next_q _ (.inr (.inr hp))
      | reset b => exact ⟨_, _, .reset hp hf, .inr ⟨_, _, rfl⟩⟩
      | save =>
        cases hr : S.record true s.inner with
        | ok t => exact ⟨_, _, .save hp hf hr, .inr ⟨_, _, rfl⟩⟩
        | error e => exact ⟨_, _, .saveErr hp hf hr, .inr ⟨_, _, rfl⟩⟩
      | load tp =>
        by_cases hx : ∃ f nx t, tp = .list f :: .list nx :: t
        · obtain ⟨f, nx, t, rfl⟩ := hx
          cases hr : S.reload true s.inner t with
          | ok p => exact ⟨_, _, .load hp hf hr, .inr ⟨_, _, rfl⟩⟩
          | error e => exact ⟨_, _, .loadErr hp hf hr, .inr ⟨_, _, rfl⟩⟩
        · exact ⟨_, _, .loadCorrupt hp hf (fun f nx t h => hx ⟨f, nx, t, h⟩), .inr ⟨_, _, rfl⟩⟩

/-- `k` steps in a row in which no call begins or returns and nobody wakes up
without being notified. -/
inductive Quietly (n : Nat) (S : Source) : St S.σ → Nat → St S.σ → Prop where
  | nil (s) : Quietly n S s 0 s
  | step {s s' s'' k} : Step n S s .tau s' → Quietly n S s' k s'' → Quietly n S s (k + 1) s''

theorem quietly_inv {s s' : St S.σ} {k : Nat} (h : Quietly n S s k s') (hc : Ctl n s)
    (hr : Room n s) : Ctl n s' ∧ Room n s' ∧ k + weight n s' ≤ weight n s := by
  induction h with
  | nil => exact ⟨hc, hr, by omega⟩
  | step hs _ ih =>
    obtain ⟨h1, h2, h3⟩ := ih (hc.step hs) (hr.step hc hs trivial)
    have := weight_step hc hr hs
    exact ⟨h1, h2, by omega⟩

theorem weight_le (s : St S.σ) : weight n s ≤ 16 * n + 60 := by
  obtain ⟨i, st, th, stop, fill, nx, exc, pc⟩ := s
  have h1 : th.weight ≤ 10 := by cases th <;> simp [Loc.weight]
  have h2 : pc.weight n ≤ 8 * n + 13 := by cases pc <;> simp [PC.weight] <;> omega
  simp only [weight]
  split <;> omega

theorem room_exec {s s' : St S.σ} {evs : List Event} (h : Exec n S s evs s') (hc : Ctl n s)
    (hr : Room n s) (hl : ∀ tp ans, (Request.load tp, ans) ∈ evs → Fits n tp) : Room n s' := by
  induction h with
  | nil => exact hr
  | @step s l s' evs s'' hs _ ih =>
    refine ih (hc.step hs) (hr.step hc hs ?_) fun tp ans h => hl tp ans (by simp [h])
    cases l with
    | ret q a =>
      cases q with
      | load tp => exact hl tp a (by simp [Lab.shown])
      | _ => trivial
    | _ => trivial

/-- What a save records fits. -/
theorem saved_fits {s s' : St S.σ} {evs : List Event} (h : Exec n S s evs s') (hc : Ctl n s)
    (hr : Room n s) (hl : ∀ tp ans, (Request.load tp, ans) ∈ evs → Fits n tp) {tp : Tape}
    (hm : (Request.save, Answer.saved tp) ∈ evs) : Fits n tp := by
  induction h with
  | nil => simp at hm
  | @step s l s' evs s'' hs _ ih =>
    rcases List.mem_append.1 hm with hm | hm
    · cases l with
      | ret q a =>
        simp only [Lab.shown, List.mem_singleton] at hm
        cases hm
        generalize hl : Lab.ret .save (.saved tp) = l at hs
        cases hs <;> cases hl
        intro f nx t h
        cases h
        exact ⟨hr.fill, hr.next⟩
      | _ => simp [Lab.shown] at hm
    · refine ih (hc.step hs) (hr.step hc hs ?_) (fun tp ans h => hl tp ans (by simp [h])) hm
      cases l with
      | ret q a =>
        cases q with
        | load tp => exact hl tp a (by simp [Lab.shown])
        | _ => trivial
      | _ => trivial

/-- While the thread is about to call the upstream, the upstream is in a known
state. -/
theorem Rel.at_top {s : St S.σ} {a : S.σ} (h : Rel n S I s a) (hth : s.th = .top)
    (hst : s.st = .running) : I s.inner := by
  obtain ⟨i, st, th, stop, fill, nx, exc, pc⟩ := s
  obtain ⟨-, -, m, -, ht⟩ := h
  simp only at hth hst
  subst hth hst
  exact ht.2

end Fs2.Prefetch
