import Verif.Trainer.Stops

/-!
# Resuming from a checkpoint
-/

namespace Fs2.Train

variable {E : Env} {c : Cfg} {P : World → Prop}

/-- What is seen, commits left out. -/
def Out.lasting : Out E → Bool
  | .commit _ => false
  | _ => true

def lasting (o : List (Out E)) : List (Out E) := o.filter Out.lasting

@[simp] theorem lasting_append (a b : List (Out E)) : lasting (a ++ b) = lasting a ++ lasting b := by
  simp [lasting]
@[simp] theorem lasting_nil : lasting ([] : List (Out E)) = [] := rfl
@[simp] theorem lasting_commit (n : Nat) : lasting [(Out.commit n : Out E)] = [] := rfl
@[simp] theorem lasting_commitOf (m : Option Nat) : lasting (commitOf m : List (Out E)) = [] := by cases m <;> rfl
@[simp] theorem lasting_commitOut (s : S E) : lasting (commitOut s) = [] := by
  unfold commitOut; cases s.pending <;> rfl
@[simp] theorem lasting_pollOut (w : World) (s : S E) : lasting (pollOut w s) = [] := by
  unfold pollOut; split <;> simp

/-- Equal but for the save in progress. -/
def Like (s s' : S E) : Prop := s' = { s with pending := s'.pending }

theorem Moved.like {w w' : World} {s s' : S E} {o : List (Out E)} (h : Moved c w s o s') (p : Option Nat)
    (hw : w'.score = w.score ∧ w'.early = w.early) :
    ∃ o' s'', Moved c w' { s with pending := p } o' s'' ∧ Like s' s'' ∧ lasting o' = lasting o := by
  obtain ⟨w1, w2⟩ := hw
  have hv : valOut c w' { s with pending := p } = valOut c w s := by
    simp only [valOut, w1]; rfl
  have hsv : lasting (saveOut c { s with pending := p }) = lasting (saveOut c s) := by
    simp only [saveOut]
    rw [show due c.checkpoint { s with pending := p } = due c.checkpoint s from rfl]
    split
    · simp only [lasting_append, lasting_commitOut]; rfl
    · rfl
  have hgo : lasting (goOut c w' { s with pending := p }) = lasting (goOut c w s) := by
    simp only [goOut, lasting_append, hsv, hv]; rfl
  have hws : wantsStop c w' { s with pending := p } = wantsStop c w s := by
    simp only [wantsStop, w1, w2]; rfl
  cases h with
  | pre h1 h2 => exact ⟨_, _, .pre h1 h2, rfl, by rw [hv]⟩
  | read h1 h2 => exact ⟨_, _, .read h1 h2, rfl, rfl⟩
  | empty h1 h2 h3 => exact ⟨_, _, .empty h1 h2 h3, rfl, rfl⟩
  | epoch h1 h2 h3 => exact ⟨_, _, .epoch h1 h2 h3, rfl, rfl⟩
  | lastEpoch h1 h2 h3 => exact ⟨_, _, .lastEpoch h1 h2 h3, rfl, rfl⟩
  | epochMax h1 h2 h3 h4 => exact ⟨_, _, .epochMax h1 h2 h3 h4, rfl, rfl⟩
  | epochStop h1 h2 h3 h4 => exact ⟨_, _, .epochStop h1 h2 h3 h4, rfl, rfl⟩
  | epochGo h1 h2 h3 =>
    refine ⟨_, _, .epochGo h1 h2 h3, ?_, hgo⟩
    simp only [Like, goOn, hws]
  | over h1 h2 h3 => exact ⟨_, _, .over h1 h2 h3, rfl, by simp⟩
  | update h1 h2 h3 => exact ⟨_, _, .update h1 h2 h3, rfl, by simp⟩
  | postMax h1 h2 h3 => exact ⟨_, _, .postMax h1 h2 h3, rfl, rfl⟩
  | postStop h1 h2 h3 => exact ⟨_, _, .postStop h1 h2 h3, rfl, rfl⟩
  | postGo h1 h3 =>
    refine ⟨_, _, .postGo h1 h3, ?_, hgo⟩
    simp only [Like, goOn, hws]
  | repeatStop h1 h2 => exact ⟨_, _, .repeatStop h1 h2, rfl, rfl⟩
  | again h1 h2 => exact ⟨_, _, .again h1 h2, rfl, rfl⟩
  | stopValid h1 h2 =>
    refine ⟨_, _, .stopValid h1 h2, rfl, ?_⟩
    simp only [lasting_append, lasting_commitOf, hsv, hv]
    rfl
  | stopPlain h1 h2 =>
    refine ⟨_, _, .stopPlain h1 h2, rfl, ?_⟩
    simp only [lasting_append, hsv]
    rfl
  | earlySave h1 h2 =>
    refine ⟨_, _, .earlySave h1 h2, rfl, ?_⟩
    simp only [lasting_append, hsv]
  | earlyPlain h1 h2 => exact ⟨_, _, .earlyPlain h1 h2, rfl, by simp⟩

/-- Runs do not depend on the save in progress, nor on how long saves take. -/
theorem runFor_like (k : Nat) (ws ws' : Nat → World)
    (hw : ∀ i, (ws' i).stop = (ws i).stop ∧ (ws' i).score = (ws i).score ∧ (ws' i).early = (ws i).early)
    (s₁ s₂ s' : S E) (o : List (Out E)) (hl : Like s₁ s₂) (h : runFor c k ws s₁ = .ok (s', o)) :
    ∃ s'' o', runFor c k ws' s₂ = .ok (s'', o') ∧ Like s' s'' ∧ lasting o' = lasting o := by
  induction k generalizing ws ws' s₁ s₂ o with
  | zero => cases h; exact ⟨s₂, [], rfl, hl, rfl⟩
  | succ k ih =>
    have hst2 : s₂.st = s₁.st := by rw [hl]
    simp only [runFor] at h
    by_cases hst : s₁.st = .stopped
    · rw [if_pos hst] at h
      cases h
      exact ⟨s₂, [], by simp [runFor, hst2, hst], hl, rfl⟩
    · rw [if_neg hst] at h
      cases hm : move c (ws 0) s₁ with
      | error e => rw [hm] at h; cases h
      | ok x =>
        rcases x with ⟨s₃, o₁⟩
        rw [hm] at h
        simp only at h
        cases hk : runFor c k (fun i => ws (i + 1)) s₃ with
        | error e => rw [hk] at h; cases h
        | ok y =>
          rcases y with ⟨s₄, o₂⟩
          rw [hk] at h
          cases h
          have hM := move_cases hst hm
          obtain ⟨o₅, s₅, h5, hb5, ho5⟩ := hM.like (w' := ws' 0) s₂.pending ⟨(hw 0).2.1, (hw 0).2.2⟩
          have e3 : ({ s₁.ask (ws 0) with pending := s₂.pending } : S E) = s₂.ask (ws' 0) := by
            rw [hl]; simp only [S.ask, (hw 0).1]
          rw [e3] at h5
          obtain ⟨s₆, o₆, h6, hb6, ho6⟩ := ih (fun i => ws (i + 1)) (fun i => ws' (i + 1)) (fun i => hw (i + 1)) s₃ s₅ o₂
            hb5 hk
          exact ⟨s₆, o₅ ++ o₆, runFor_cons (by rw [hst2]; exact hst) rfl h5 h6, hb6, by simp [ho5, ho6]⟩

/-- No batch is waiting but at `step`. -/
def Empty (s : S E) : Prop := s.st ≠ .step → s.batch = none

theorem Moved.empties {w : World} {s s' : S E} {o : List (Out E)} (h : Moved c w s o s') (he : Empty s) : Empty s' := by
  unfold Empty at *
  cases h with
  | epochGo h1 | postGo h1 =>
    simp only [goOn, h1] at *
    intro _
    exact he (by simp)
  | stopValid h1 | stopPlain h1 => rcases h1 with h1 | h1 | h1 <;> simp_all
  | _ => simp_all

theorem Run.empties {s s' : S E} {o : List (Out E)} (h : Run c P s o s') (hp : Empty s) : Empty s' :=
  Run.induct (I := fun _ s' => Empty s') hp (fun _ _ _ _ _ _ _ ih hm => hm.empties (s := S.ask _ _) ih) h

end Fs2.Train
