import Verif.Trainer.Laws

/-!
# The moves of the trainer, case by case
-/

namespace Fs2.Train

variable {E : Env} {c : Cfg} {P : World → Prop}

/-- `_run_post_step` may go on. -/
def GoesOn (c : Cfg) (s : S E) : Prop :=
  (∀ n, c.maxSteps = some n → s.step < n) ∧ (c.maxSteps = none → s.stopReq = false)

/-- Training goes on after a step or an epoch. -/
def goOn (c : Cfg) (w : World) (s : S E) : S E :=
  { s with st := if wantsStop c w s then .earlyStop else .dataLoad, pending := pend c s }

def goOut (c : Cfg) (w : World) (s : S E) : List (Out E) :=
  saveOut c s ++ pubOut c s ++ if dueVal c s then valOut c w s else []

/-- Polling for the save in progress. -/
def polled (w : World) (s : S E) : Option Nat := if w.done then none else s.pending
def pollOut (w : World) (s : S E) : List (Out E) := if w.done then commitOut s else []

/-- The commit of the save of step `m`. -/
def commitOf : Option Nat → List (Out E)
  | none => []
  | some n => [.commit n]

@[simp] theorem updates_commitOf (m : Option Nat) : updates (commitOf m : List (Out E)) = [] := by cases m <;> rfl
@[simp] theorem snaps_commitOf (m : Option Nat) : snaps (commitOf m : List (Out E)) = [] := by cases m <;> rfl
@[simp] theorem saves_commitOf (m : Option Nat) : saves (commitOf m : List (Out E)) = [] := by cases m <;> rfl
@[simp] theorem commits_commitOf (m : Option Nat) : commits (commitOf m : List (Out E)) = m.toList := by
  cases m <;> rfl
@[simp] theorem valids_commitOf (m : Option Nat) : valids (commitOf m : List (Out E)) = [] := by cases m <;> rfl
@[simp] theorem publs_commitOf (m : Option Nat) : publs (commitOf m : List (Out E)) = [] := by cases m <;> rfl
@[simp] theorem epochs_commitOf (m : Option Nat) : epochs (commitOf m : List (Out E)) = 0 := by cases m <;> rfl

/-- The possible moves; `s` has the stop request already. -/
inductive Moved (c : Cfg) (w : World) (s : S E) : List (Out E) → S E → Prop where
  | pre : s.st = .preValidation → c.validator = true →
      Moved c w s (valOut c w s) { s with st := .dataLoad }
  | read {b : E.B} {d : E.D} : s.st = .dataLoad → E.next s.reader = some (b, d) →
      Moved c w s [] { s with batch := some b, reader := d, st := .step }
  | empty : s.st = .dataLoad → E.next s.reader = none → s.step = 0 →
      Moved c w s [.endOfEpoch] { s with batch := none, reader := E.reset s.reader, st := .stopped }
  | epoch : s.st = .dataLoad → E.next s.reader = none → s.step ≠ 0 →
      Moved c w s [.endOfEpoch] { s with batch := none, reader := E.reset s.reader, st := .endOfDataEpoch }
  | lastEpoch {e : Nat} : s.st = .endOfDataEpoch → c.maxEpochs = some e → e ≤ s.epoch →
      Moved c w s [] { s with st := .endOfData }
  | epochMax {n : Nat} : s.st = .endOfDataEpoch → (∀ e, c.maxEpochs = some e → s.epoch < e) →
      c.maxSteps = some n → n ≤ s.step →
      Moved c w s [] { s with st := .endOfTraining, epoch := s.epoch + 1 }
  | epochStop : s.st = .endOfDataEpoch → (∀ e, c.maxEpochs = some e → s.epoch < e) →
      c.maxSteps = none → s.stopReq = true →
      Moved c w s [] { s with st := .stopRequested, epoch := s.epoch + 1 }
  | epochGo : s.st = .endOfDataEpoch → (∀ e, c.maxEpochs = some e → s.epoch < e) → GoesOn c s →
      Moved c w s (goOut c w s) { goOn c w s with epoch := s.epoch + 1 }
  | over {b : E.B} {t : E.T} : s.st = .step → s.batch = some b → E.train s.model b = (t, .overflowed) →
      Moved c w s (pollOut w s)
        { s with step := s.step + 1, batch := none, model := t, st := .gradOverflow, pending := polled w s }
  | update {b : E.B} {t : E.T} : s.st = .step → s.batch = some b → E.train s.model b = (t, .updated) →
      Moved c w s (pollOut w s ++ [.update (s.step + 1) b])
        { s with step := s.step + 1, batch := none, model := t, applied := s.applied + 1, st := .postStep,
                 pending := polled w s }
  | postMax {n : Nat} : s.st = .postStep → c.maxSteps = some n → n ≤ s.step →
      Moved c w s [] { s with st := .endOfTraining }
  | postStop : s.st = .postStep → c.maxSteps = none → s.stopReq = true →
      Moved c w s [] { s with st := .stopRequested }
  | postGo : s.st = .postStep → GoesOn c s → Moved c w s (goOut c w s) (goOn c w s)
  | repeatStop : s.st = .gradOverflow → s.stopReq = true → Moved c w s [] { s with st := .stopRequested }
  | again : s.st = .gradOverflow → s.stopReq = false →
      Moved c w s [] { s with step := s.step - 1, st := .dataLoad }
  | stopValid : s.st = .endOfTraining ∨ s.st = .endOfData ∨ s.st = .stopRequested → dueVal c s = true →
      Moved c w s
        (pubOut c s ++ saveOut c s ++ valOut c w s ++ commitOf (pend c s))
        { s with st := .stopped, pending := none }
  | stopPlain : s.st = .endOfTraining ∨ s.st = .endOfData ∨ s.st = .stopRequested → dueVal c s = false →
      Moved c w s (pubOut c s ++ (saveOut c s ++ if due c.checkpoint s then [.commit s.step] else []))
        { s with st := .stopped, pending := if due c.checkpoint s then none else s.pending }
  | earlySave : s.st = .earlyStop → due c.checkpoint s = true →
      Moved c w s (saveOut c s ++ [.commit s.step]) { s with st := .stopped, stopReq := true, pending := none }
  | earlyPlain : s.st = .earlyStop → due c.checkpoint s = false →
      Moved c w s (commitOut s) { s with st := .stopped, stopReq := true, pending := none }

theorem goesOn_or (c : Cfg) (s : S E) :
    GoesOn c s ∨ (∃ n, c.maxSteps = some n ∧ n ≤ s.step) ∨ (c.maxSteps = none ∧ s.stopReq = true) := by
  cases hc : c.maxSteps with
  | none =>
    cases hq : s.stopReq with
    | false => exact .inl ⟨by simp [hc], fun _ => hq⟩
    | true => exact .inr (.inr ⟨rfl, rfl⟩)
  | some n =>
    by_cases h : n ≤ s.step
    · exact .inr (.inl ⟨n, rfl, h⟩)
    · refine .inl ⟨?_, by simp [hc]⟩
      rintro n' h'
      rw [hc] at h'
      cases h'
      omega

theorem move_cases {w : World} {s s' : S E} {o : List (Out E)} (hst : s.st ≠ .stopped)
    (h : move c w s = .ok (s', o)) : Moved c w (s.ask w) o s' := by
  unfold move at h
  have hst' : (s.ask w).st ≠ .stopped := hst
  generalize s.ask w = s₁ at h hst' ⊢
  unfold turn at h
  cases hc : s₁.st <;> simp only [hc] at h
  case preValidation =>
    have ha : Active s₁.st := by simp [Active, hc]
    by_cases hv : c.validator = true
    · simp only [validate_eq ha hv, bind, Except.bind] at h
      cases h
      exact .pre hc hv
    · simp [validate, hv, bind, Except.bind] at h
  case dataLoad =>
    unfold readNext at h
    cases hn : E.next s₁.reader with
    | some x =>
      rcases x with ⟨b, d⟩
      simp only [hn] at h
      cases h
      exact .read hc hn
    | none =>
      simp only [hn] at h
      by_cases h0 : s₁.step = 0
      · simp only [h0, if_true] at h
        cases h
        have := Moved.empty (c := c) (w := w) hc hn h0
        rwa [h0] at this
      · simp only [h0, if_false] at h
        cases h
        exact .epoch hc hn h0
  case step =>
    unfold runStep at h
    have hp : (if w.done = true then complete s₁ else (s₁, [])) =
        ({ s₁ with pending := polled w s₁ }, pollOut w s₁) := by
      cases hw : w.done <;> simp [polled, pollOut, hw, complete_eq]
    simp only [hp] at h
    cases hb : s₁.batch with
    | none => simp [hb] at h
    | some b =>
      simp only [hb] at h
      rcases ht : E.train s₁.model b with ⟨t, r⟩
      simp only [ht] at h
      cases r with
      | exploded => simp at h
      | overflowed => cases h; exact .over hc hb ht
      | updated => cases h; exact .update hc hb ht
  case postStep =>
    have ha : Active s₁.st := by simp [Active, hc]
    rcases goesOn_or c s₁ with hg | ⟨n, h1, h2⟩ | ⟨h1, h2⟩
    · rw [runPostStep_go ha hg.1 hg.2] at h
      cases h
      exact .postGo hc hg
    · rw [runPostStep_max h1 h2] at h
      cases h
      exact .postMax hc h1 h2
    · rw [runPostStep_stop h1 h2] at h
      cases h
      exact .postStop hc h1 h2
  case endOfDataEpoch =>
    have ha : Active s₁.st := by simp [Active, hc]
    by_cases he : ∃ e, c.maxEpochs = some e ∧ e ≤ s₁.epoch
    · obtain ⟨e, h1, h2⟩ := he
      simp only [h1] at h
      rw [if_pos h2] at h
      cases h
      exact .lastEpoch hc h1 h2
    · have hlt : ∀ e, c.maxEpochs = some e → s₁.epoch < e := by
        intro e h1
        refine Classical.byContradiction fun h2 => he ⟨e, h1, by omega⟩
      have h : (do
          let (s, o) ← runPostStep c w s₁
          .ok ({ s with epoch := s.epoch + 1 }, o) : Except Err (S E × List (Out E))) = .ok (s', o) := by
        cases hm : c.maxEpochs with
        | none => simpa only [hm] using h
        | some e =>
          simp only [hm] at h
          rwa [if_neg (by have := hlt e hm; omega)] at h
      rcases goesOn_or c s₁ with hg | ⟨n, h1, h2⟩ | ⟨h1, h2⟩
      · rw [runPostStep_go ha hg.1 hg.2] at h
        cases h
        exact .epochGo hc hlt hg
      · rw [runPostStep_max h1 h2] at h
        cases h
        exact .epochMax hc hlt h1 h2
      · rw [runPostStep_stop h1 h2] at h
        cases h
        exact .epochStop hc hlt h1 h2
  case gradOverflow =>
    cases hq : s₁.stopReq with
    | true =>
      simp only [hq, if_true] at h
      cases h
      have := Moved.repeatStop (c := c) (w := w) hc hq
      rwa [hq] at this
    | false =>
      simp only [hq] at h
      cases h
      have := Moved.again (c := c) (w := w) hc hq
      rwa [hq] at this
  case earlyStop =>
    have ha : Active s₁.st := by simp [Active, hc]
    have := shouldDo_ok (p := c.checkpoint) ha
    rw [hc] at this
    simp only [this, bind, Except.bind] at h
    cases hd : due c.checkpoint s₁ with
    | true =>
      simp only [hd, if_true, saveNow, complete_eq] at h
      cases h
      have h2 := Moved.earlySave (w := w) hc hd
      simpa [saveOut, hd, S.snap, commitOut] using h2
    | false =>
      simp only [hd, complete_eq] at h
      cases h
      exact .earlyPlain hc hd
  case stopped => exact absurd hc hst'
  all_goals
    have ha : Active s₁.st := by simp [Active, hc]
    cases hd : dueVal c s₁ with
    | true =>
      rw [stop_valid ha hd] at h
      cases h
      exact .stopValid (by simp [hc]) hd
    | false =>
      rw [stop_plain ha hd] at h
      cases h
      exact .stopPlain (by simp [hc]) hd

/-- Every case is a move. -/
theorem Moved.move {w : World} {s s' : S E} {o : List (Out E)} (h : Moved c w (s.ask w) o s') :
    Train.move c w s = .ok (s', o) := by
  unfold Train.move
  generalize s.ask w = s₁ at h
  unfold turn
  cases h with
  | pre hc hv =>
    have ha : Active s₁.st := by simp [Active, hc]
    simp only [hc, validate_eq ha hv, bind, Except.bind]
  | read hc hn => simp only [hc, readNext, hn]
  | empty hc hn h0 => simp only [hc, readNext, hn, h0, if_true]
  | epoch hc hn h0 => simp only [hc, readNext, hn, h0, if_false]
  | lastEpoch hc h1 h2 => simp only [hc, h1]; rw [if_pos h2]
  | epochMax hc hlt h1 h2 =>
    simp only [hc, runPostStep_max h1 h2, bind, Except.bind]
    cases hm : c.maxEpochs with
    | none => rfl
    | some e => simp only; rw [if_neg (by have := hlt e hm; omega)]
  | epochStop hc hlt h1 h2 =>
    simp only [hc, runPostStep_stop h1 h2, bind, Except.bind]
    cases hm : c.maxEpochs with
    | none => rfl
    | some e => simp only; rw [if_neg (by have := hlt e hm; omega)]
  | epochGo hc hlt hg =>
    have ha : Active s₁.st := by simp [Active, hc]
    simp only [hc, runPostStep_go ha hg.1 hg.2, bind, Except.bind]
    cases hm : c.maxEpochs with
    | none => rfl
    | some e => simp only; rw [if_neg (by have := hlt e hm; omega)]; rfl
  | @over b t hc hb ht =>
    have hp : (if w.done = true then complete s₁ else (s₁, [])) =
        ({ s₁ with pending := polled w s₁ }, pollOut w s₁) := by
      cases hw : w.done <;> simp [polled, pollOut, hw, complete_eq]
    simp only [hc, runStep, hp, hb, ht]
  | @update b t hc hb ht =>
    have hp : (if w.done = true then complete s₁ else (s₁, [])) =
        ({ s₁ with pending := polled w s₁ }, pollOut w s₁) := by
      cases hw : w.done <;> simp [polled, pollOut, hw, complete_eq]
    simp only [hc, runStep, hp, hb, ht]
  | postMax hc h1 h2 => simp only [hc, runPostStep_max h1 h2]
  | postStop hc h1 h2 => simp only [hc, runPostStep_stop h1 h2]
  | postGo hc hg =>
    have ha : Active s₁.st := by simp [Active, hc]
    simp only [hc, runPostStep_go ha hg.1 hg.2]
    rfl
  | repeatStop hc hq => simp only [hc, hq, if_true]
  | again hc hq => simp [hc, hq]
  | stopValid hc hd =>
    have ha : Active s₁.st := by rcases hc with h | h | h <;> simp [Active, h]
    rcases hc with h | h | h <;> simp only [h, stop_valid ha hd] <;> rfl
  | stopPlain hc hd =>
    have ha : Active s₁.st := by rcases hc with h | h | h <;> simp [Active, h]
    rcases hc with h | h | h <;> simp only [h, stop_plain ha hd]
  | earlySave hc hd =>
    have ha : Active s₁.st := by simp [Active, hc]
    have := shouldDo_ok (p := c.checkpoint) ha
    rw [hc] at this
    simp only [hc, this, bind, Except.bind, hd, if_true, saveNow, complete_eq]
    simp [saveOut, hd, S.snap, commitOut]
  | earlyPlain hc hd =>
    have ha : Active s₁.st := by simp [Active, hc]
    have := shouldDo_ok (p := c.checkpoint) ha
    rw [hc] at this
    simp only [hc, this, bind, Except.bind, hd, complete_eq]
    rfl

/-- Induction over a run. -/
theorem Run.induct {s : S E} {I : List (Out E) → S E → Prop} (h0 : I [] s)
    (h1 : ∀ w s₁ o s' o', P w → s₁.st ≠ .stopped → I o s₁ → Moved c w (s₁.ask w) o' s' → I (o ++ o') s')
    {o : List (Out E)} {s' : S E} (h : Run c P s o s') : I o s' := by
  induction h with
  | nil => exact h0
  | snoc w _ hp hst hm ih => exact h1 w _ _ _ _ hp hst ih (move_cases hst hm)

end Fs2.Train
