import Verif.Trainer.Saves

/-!
# Requests to stop
-/

namespace Fs2.Train

variable {E : Env} {c : Cfg} {P : World → Prop}

/-! ## Without a limit on steps -/

/-- Moves left once a stop has been requested. -/
def toStop : St → Nat
  | .preValidation => 5
  | .dataLoad => 4
  | .step => 3
  | .postStep | .gradOverflow | .endOfDataEpoch => 2
  | .stopped => 0
  | _ => 1

/-- What the last checkpoint holds. -/
def Kept (o : List (Out E)) (s : S E) : Prop :=
  s.step ∈ commits o ∧ ∃ k ∈ snaps o, k.step = s.step ∧ k.reader = s.reader ∧ k.model = s.model

theorem Kept.left {o o' : List (Out E)} {s : S E} (h : Kept o' s) : Kept (o ++ o') s := by
  obtain ⟨h1, k, h2, h3⟩ := h
  exact ⟨by rw [commits_append]; exact List.mem_append_right _ h1,
    k, by rw [snaps_append]; exact List.mem_append_right _ h2, h3⟩

theorem Moved.stopping {w : World} {s s' : S E} {o : List (Out E)} (h : Moved c w s o s') (hn : c.maxSteps = none)
    (hq : s.stopReq = true) :
    s'.stopReq = true ∧ toStop s'.st < toStop s.st ∧
    (updates o).length + (if 3 ≤ toStop s'.st then 1 else 0) ≤ (if 3 ≤ toStop s.st then 1 else 0) ∧
    (c.maxEpochs = none → s.st ≠ .endOfData → s.st ≠ .earlyStop →
      s'.st ≠ .endOfData ∧ s'.st ≠ .earlyStop ∧ (s'.st = .stopped → Kept o s' ∨ s'.step = 0)) := by
  cases h with
  | epochGo _ _ h | postGo _ h => have := h.2 hn; rw [hq] at this; cases this
  | epochMax _ _ h | postMax _ h => rw [hn] at h; cases h
  | again _ h => rw [hq] at h; cases h
  | lastEpoch h1 h2 => simp [h1, toStop, hq, h2]
  | stopValid h1 h2 =>
    rcases h1 with h1 | h1 | h1
    · refine ⟨hq, by simp [h1, toStop], by simp [h1, toStop], fun _ _ _ => ⟨by simp, by simp, fun _ => ?_⟩⟩
      simp [Kept, due, h1, shouldDo, pend, S.snap]
    · refine ⟨hq, by simp [h1, toStop], by simp [h1, toStop], fun _ h => absurd h1 h⟩
    · refine ⟨hq, by simp [h1, toStop], by simp [h1, toStop], fun _ _ _ => ⟨by simp, by simp, fun _ => ?_⟩⟩
      simp [Kept, due, h1, shouldDo, pend, S.snap]
  | stopPlain h1 h2 =>
    have hu : updates (if due c.checkpoint s then [(Out.commit s.step : Out E)] else []) = [] := by
      split <;> rfl
    rcases h1 with h1 | h1 | h1
    · refine ⟨hq, by simp [h1, toStop], by simp [h1, toStop, hu], fun _ _ _ => ⟨by simp, by simp, fun _ => ?_⟩⟩
      simp [Kept, due, h1, shouldDo, S.snap]
    · refine ⟨hq, by simp [h1, toStop], by simp [h1, toStop, hu], fun _ h => absurd h1 h⟩
    · refine ⟨hq, by simp [h1, toStop], by simp [h1, toStop, hu], fun _ _ _ => ⟨by simp, by simp, fun _ => ?_⟩⟩
      simp [Kept, due, h1, shouldDo, S.snap]
  | earlySave h1 | earlyPlain h1 => simp [h1, toStop]
  | pre h1 | read h1 | epoch h1 | epochStop h1 | over h1 | update h1 | postStop h1 | repeatStop h1 =>
    simp [h1, toStop, hq]
  | empty h1 h2 h3 => simp [h1, toStop, hq, h3]

theorem stops_within (hn : c.maxSteps = none) (hf : ∀ t b, (E.train t b).2 ≠ .exploded) (k : Nat)
    (ws : Nat → World) (s : S E) (hk : toStop s.st ≤ k) (hq : s.stopReq = true ∨ (ws 0).stop = true)
    (hr : Ready c s) :
    ∃ s' o, runFor c k ws s = .ok (s', o) ∧ s'.st = .stopped ∧
      (updates o).length ≤ (if 3 ≤ toStop s.st then 1 else 0) ∧
      (c.maxEpochs = none → s.st ≠ .endOfData → s.st ≠ .earlyStop → s.st ≠ .stopped → Kept o s' ∨ s'.step = 0) := by
  induction k generalizing ws s with
  | zero =>
    have : s.st = .stopped := by
      cases h : s.st <;> simp [h, toStop] at hk ⊢
    exact ⟨s, [], rfl, this, by simp, fun _ _ _ h => absurd this h⟩
  | succ k ih =>
    by_cases hst : s.st = .stopped
    · exact ⟨s, [], by simp [runFor, hst], hst, by simp, fun _ _ _ h => absurd hst h⟩
    · have hr' : Ready c (s.ask (ws 0)) := ⟨hr.batch, hr.valid⟩
      have hq' : (s.ask (ws 0)).stopReq = true := by
        rcases hq with h | h <;> simp [S.ask, h]
      obtain ⟨o, s₁, hm⟩ := can_move (w := ws 0) hr' hst hf
      obtain ⟨m1, m2, m3, m4⟩ := hm.stopping hn hq'
      have m2 : toStop s₁.st < toStop s.st := m2
      obtain ⟨s', o', h1, h2, h3, h4⟩ := ih (fun i => ws (i + 1)) s₁ (by omega) (.inl m1) hm.ready
      refine ⟨s', o ++ o', runFor_cons hst rfl hm h1, h2, ?_, ?_⟩
      · rw [updates_append, List.length_append]
        have m3 : (updates o).length + (if 3 ≤ toStop s₁.st then 1 else 0) ≤ (if 3 ≤ toStop s.st then 1 else 0) := m3
        omega
      · intro he hne hne' _
        obtain ⟨n1, n2, n3⟩ := m4 he hne hne'
        by_cases h0 : s₁.st = .stopped
        · have : runFor c k (fun i => ws (i + 1)) s₁ = .ok (s₁, []) := by
            cases k with
            | zero => rfl
            | succ => simp [runFor, h0]
          rw [this] at h1
          cases h1
          simpa using n3 h0
        · rcases h4 he n1 n2 h0 with h | h
          · exact .inl h.left
          · exact .inr h

/-! ## With one -/

/-- Equal but for requests to stop. -/
def But (s s' : S E) : Prop := { s with stopReq := false } = { s' with stopReq := false }

theorem Moved.unheard {w w' : World} {s s' : S E} {o : List (Out E)} {n : Nat} (h : Moved c w s o s')
    (hn : c.maxSteps = some n) (hs : s.st ≠ .gradOverflow) (q : Bool)
    (hw : w'.done = w.done ∧ w'.score = w.score ∧ w'.early = w.early) :
    ∃ s'', Moved c w' { s with stopReq := q } o s'' ∧ But s' s'' := by
  have hw1 : w' = { w with stop := w'.stop } := by
    obtain ⟨h1, h2, h3⟩ := hw
    cases w'
    cases w
    simp_all
  rw [hw1]
  generalize w'.stop = x
  have hg : GoesOn c s → GoesOn c { s with stopReq := q } := by
    intro h
    exact ⟨h.1, fun h' => by rw [hn] at h'; cases h'⟩
  cases h with
  | pre h1 h2 => exact ⟨_, .pre h1 h2, rfl⟩
  | read h1 h2 => exact ⟨_, .read h1 h2, rfl⟩
  | empty h1 h2 h3 => exact ⟨_, .empty h1 h2 h3, rfl⟩
  | epoch h1 h2 h3 => exact ⟨_, .epoch h1 h2 h3, rfl⟩
  | lastEpoch h1 h2 h3 => exact ⟨_, .lastEpoch h1 h2 h3, rfl⟩
  | epochMax h1 h2 h3 h4 => exact ⟨_, .epochMax h1 h2 h3 h4, rfl⟩
  | epochStop _ _ h3 | postStop _ h3 => rw [hn] at h3; cases h3
  | epochGo h1 h2 h3 => exact ⟨_, .epochGo h1 h2 (hg h3), rfl⟩
  | over h1 h2 h3 => exact ⟨_, .over h1 h2 h3, rfl⟩
  | update h1 h2 h3 => exact ⟨_, .update h1 h2 h3, rfl⟩
  | postMax h1 h2 h3 => exact ⟨_, .postMax h1 h2 h3, rfl⟩
  | postGo h1 h3 => exact ⟨_, .postGo h1 (hg h3), rfl⟩
  | repeatStop h1 | again h1 => exact absurd h1 hs
  | stopValid h1 h2 => exact ⟨_, .stopValid h1 h2, rfl⟩
  | stopPlain h1 h2 => exact ⟨_, .stopPlain h1 h2, rfl⟩
  | earlySave h1 h2 => exact ⟨_, .earlySave h1 h2, rfl⟩
  | earlyPlain h1 h2 => exact ⟨_, .earlyPlain h1 h2, rfl⟩

/-- With a limit on steps and no overflow a request changes nothing. -/
theorem unheard {n : Nat} (hn : c.maxSteps = some n) (hE : ∀ t b, (E.train t b).2 ≠ .overflowed)
    (k : Nat) (ws ws' : Nat → World)
    (hw : ∀ i, (ws' i).done = (ws i).done ∧ (ws' i).score = (ws i).score ∧ (ws' i).early = (ws i).early)
    (s₁ s₂ s' : S E) (o : List (Out E)) (hs : s₁.st ≠ .gradOverflow) (hb : But s₁ s₂)
    (h : runFor c k ws s₁ = .ok (s', o)) :
    ∃ s'', runFor c k ws' s₂ = .ok (s'', o) ∧ But s' s'' := by
  induction k generalizing ws ws' s₁ s₂ o with
  | zero => cases h; exact ⟨s₂, rfl, hb⟩
  | succ k ih =>
    have e2 : s₂ = { s₁ with stopReq := s₂.stopReq } := by
      cases s₁; cases s₂
      simp [But] at hb ⊢
      simp [hb]
    have hst2 : s₂.st = s₁.st := by rw [e2]
    simp only [runFor] at h
    by_cases hst : s₁.st = .stopped
    · rw [if_pos hst] at h
      cases h
      exact ⟨s₂, by simp [runFor, hst2, hst], hb⟩
    · rw [if_neg hst] at h
      cases hm : move c (ws 0) s₁ with
      | error e => rw [hm] at h; cases h
      | ok x =>
        rcases x with ⟨s₃, o₁⟩
        rw [hm] at h
        simp only at h
        cases hk : runFor c k (fun i => ws (i + 1)) s₃ with
        | error e => rw [hk] at h; cases h
        | ok y =>
          rcases y with ⟨s₄, o₂⟩
          rw [hk] at h
          cases h
          have hM := move_cases hst hm
          obtain ⟨s₅, h5, hb5⟩ := hM.unheard (w' := ws' 0) hn hs (s₂.ask (ws' 0)).stopReq (hw 0)
          have e3 : ({ s₁.ask (ws 0) with stopReq := (s₂.ask (ws' 0)).stopReq } : S E) = s₂.ask (ws' 0) := by
            rw [e2]; rfl
          rw [e3] at h5
          obtain ⟨s₆, h6, hb6⟩ := ih (fun i => ws (i + 1)) (fun i => ws' (i + 1)) (fun i => hw (i + 1)) s₃ s₅ o₂
            (hM.smooth hE hs) hb5 hk
          exact ⟨s₆, runFor_cons (by rw [hst2]; exact hst) rfl h5 h6, hb6⟩

end Fs2.Train
