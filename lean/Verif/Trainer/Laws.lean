import Verif.Trainer.Spec

/-!
# What the moves of the trainer do
-/

namespace Fs2.Train

variable {E : Env} {c : Cfg} {P : World → Prop}

@[simp] theorem updates_append (a b : List (Out E)) : updates (a ++ b) = updates a ++ updates b := by
  simp [updates]
@[simp] theorem snaps_append (a b : List (Out E)) : snaps (a ++ b) = snaps a ++ snaps b := by
  simp [snaps]
@[simp] theorem saves_append (a b : List (Out E)) : saves (a ++ b) = saves a ++ saves b := by
  simp [saves]
@[simp] theorem commits_append (a b : List (Out E)) : commits (a ++ b) = commits a ++ commits b := by
  simp [commits]
@[simp] theorem valids_append (a b : List (Out E)) : valids (a ++ b) = valids a ++ valids b := by
  simp [valids]
@[simp] theorem publs_append (a b : List (Out E)) : publs (a ++ b) = publs a ++ publs b := by
  simp [publs]
@[simp] theorem epochs_append (a b : List (Out E)) : epochs (a ++ b) = epochs a + epochs b := by
  simp [epochs]

/-! ## The pieces of a move -/

/-- Whether an action is due. -/
def due (p : Period) (s : S E) : Bool :=
  match shouldDo p s.st s.step s.epoch with
  | .ok b => b
  | .error _ => false

/-- States in which `_should_do` does not raise. -/
def Active (st : St) : Prop :=
  st = .postStep ∨ st = .endOfDataEpoch ∨ st = .endOfTraining ∨ st = .endOfData ∨ st = .stopRequested ∨
    st = .earlyStop ∨ st = .preValidation

theorem shouldDo_ok {p : Period} {s : S E} (h : Active s.st) :
    shouldDo p s.st s.step s.epoch = .ok (due p s) := by
  have : ∃ b, shouldDo p s.st s.step s.epoch = .ok b := by
    rcases h with h | h | h | h | h | h | h <;> rw [h] <;> simp only [shouldDo]
    case inr.inl => split <;> (try split) <;> exact ⟨_, rfl⟩
    all_goals exact ⟨_, rfl⟩
  obtain ⟨b, hb⟩ := this
  simp only [due, hb]

/-- What completing a pending save shows. -/
def commitOut (s : S E) : List (Out E) :=
  match s.pending with
  | none => []
  | some n => [.commit n]

theorem complete_eq (s : S E) : complete s = ({ s with pending := none }, commitOut s) := by
  rcases s with ⟨_, _, _, _, _, _, _, _, _ | p⟩ <;> rfl

/-- What starting a save shows. -/
def saveOut (c : Cfg) (s : S E) : List (Out E) :=
  if due c.checkpoint s then commitOut s ++ [.save s.step (!c.modelOnly) s.snap] else []

def pubOut (c : Cfg) (s : S E) : List (Out E) := if due c.publish s then [.published s.step] else []

def valOut (c : Cfg) (w : World) (s : S E) : List (Out E) :=
  if w.score && due c.checkpoint s then [.validated s.step, .scored s.step] else [.validated s.step]

/-- Whether validation runs. -/
def dueVal (c : Cfg) (s : S E) : Bool := c.validator && due c.validate s

/-- Whether it ends in an early stop. -/
def wantsStop (c : Cfg) (w : World) (s : S E) : Bool := dueVal c s && w.score && c.earlyStopper && w.early

def pend (c : Cfg) (s : S E) : Option Nat := if due c.checkpoint s then some s.step else s.pending

theorem maybeSave_async {s : S E} (h : Active s.st) :
    maybeSave c false s = .ok ({ s with pending := pend c s }, saveOut c s) := by
  simp only [maybeSave, shouldDo_ok h, bind, Except.bind, pend, saveOut]
  cases due c.checkpoint s
  · rfl
  · simp [saveNow, complete_eq, S.snap]

theorem maybeSave_sync {s : S E} (h : Active s.st) :
    maybeSave c true s = .ok ({ s with pending := if due c.checkpoint s then none else s.pending },
      saveOut c s ++ if due c.checkpoint s then [.commit s.step] else []) := by
  simp only [maybeSave, shouldDo_ok h, bind, Except.bind, saveOut]
  cases due c.checkpoint s
  · rfl
  · simp [saveNow, complete_eq, S.snap]

theorem maybePublish_eq {s : S E} (h : Active s.st) : maybePublish c s = .ok (pubOut c s) := by
  simp only [maybePublish, shouldDo_ok h, bind, Except.bind, pubOut]
  cases due c.publish s <;> rfl

theorem shouldValidate_eq {s : S E} (h : Active s.st) : shouldValidate c s = .ok (dueVal c s) := by
  simp only [shouldValidate, shouldDo_ok h, dueVal]
  cases c.validator <;> rfl

theorem validate_eq {w : World} {s : S E} (h : Active s.st) (hv : c.validator = true) :
    validate c w s = .ok (w.score, valOut c w s) := by
  simp only [validate, shouldDo_ok h, bind, Except.bind, valOut, hv]
  cases w.score <;> simp

/-- The end of `_run_post_step` when training goes on. -/
theorem runPostStep_go {w : World} {s : S E} (h : Active s.st)
    (hm : ∀ n, c.maxSteps = some n → s.step < n) (hq : c.maxSteps = none → s.stopReq = false) :
    runPostStep c w s = .ok
      ({ s with st := if wantsStop c w s then .earlyStop else .dataLoad, pending := pend c s },
       saveOut c s ++ pubOut c s ++ if dueVal c s then valOut c w s else []) := by
  have hgo : (do
      let (s, o₁) ← maybeSave c false s
      let o₂ ← maybePublish c s
      if ← shouldValidate c s then
        let (score, o₃) ← validate c w s
        let stop := score && c.earlyStopper && w.early
        .ok ({ s with st := if stop then .earlyStop else .dataLoad }, o₁ ++ o₂ ++ o₃)
      else .ok ({ s with st := .dataLoad }, o₁ ++ o₂) : Except Err (S E × List (Out E))) = .ok
      ({ s with st := if wantsStop c w s then .earlyStop else .dataLoad, pending := pend c s },
       saveOut c s ++ pubOut c s ++ if dueVal c s then valOut c w s else []) := by
    have h' : Active ({ s with pending := pend c s } : S E).st := h
    simp only [maybeSave_async h, maybePublish_eq h', shouldValidate_eq h', bind, Except.bind]
    have e1 : dueVal c ({ s with pending := pend c s } : S E) = dueVal c s := rfl
    have e2 : valOut c w ({ s with pending := pend c s } : S E) = valOut c w s := rfl
    have e3 : pubOut c ({ s with pending := pend c s } : S E) = pubOut c s := rfl
    simp only [wantsStop, e1, e3]
    by_cases hd : dueVal c s = true
    · have hv : c.validator = true := by
        simp only [dueVal, Bool.and_eq_true] at hd; exact hd.1
      simp only [hd, if_true, validate_eq h' hv, e2, Bool.true_and, Bool.and_assoc]
    · simp only [Bool.not_eq_true] at hd
      simp [hd]
  unfold runPostStep
  cases hc : c.maxSteps with
  | none =>
    simp only
    rw [if_neg (by rw [hq hc]; simp)]
    exact hgo
  | some n =>
    simp only
    rw [if_neg (by have := hm n hc; omega)]
    exact hgo

theorem runPostStep_max {w : World} {s : S E} {n : Nat} (hn : c.maxSteps = some n) (h : n ≤ s.step) :
    runPostStep c w s = .ok ({ s with st := .endOfTraining }, []) := by
  unfold runPostStep
  simp only [hn]
  rw [if_pos h]

theorem runPostStep_stop {w : World} {s : S E} (hn : c.maxSteps = none) (h : s.stopReq = true) :
    runPostStep c w s = .ok ({ s with st := .stopRequested }, []) := by
  unfold runPostStep
  simp only [hn]
  rw [if_pos h]

/-- `_stop` with validation … -/
theorem stop_valid {w : World} {s : S E} (h : Active s.st) (hd : dueVal c s = true) :
    stop c w s = .ok ({ s with st := .stopped, pending := none },
      pubOut c s ++ saveOut c s ++ valOut c w s ++ match pend c s with | none => [] | some n => [.commit n]) := by
  have h' : Active ({ s with pending := pend c s } : S E).st := h
  have hv : c.validator = true := by
    simp only [dueVal, Bool.and_eq_true] at hd; exact hd.1
  have e2 : valOut c w ({ s with pending := pend c s } : S E) = valOut c w s := rfl
  simp only [stop, maybePublish_eq h, shouldValidate_eq h, maybeSave_async h, validate_eq h' hv, bind, Except.bind, hd,
    if_true, complete_eq, e2]
  rfl

/-- … and without. -/
theorem stop_plain {w : World} {s : S E} (h : Active s.st) (hd : dueVal c s = false) :
    stop c w s = .ok ({ s with st := .stopped, pending := if due c.checkpoint s then none else s.pending },
      pubOut c s ++ (saveOut c s ++ if due c.checkpoint s then [.commit s.step] else [])) := by
  simp only [stop, maybePublish_eq h, shouldValidate_eq h, maybeSave_sync h, bind, Except.bind, hd]
  simp

/-! ## Projections of the pieces -/

@[simp] theorem updates_commitOut (s : S E) : updates (commitOut s) = [] := by
  unfold commitOut; cases s.pending <;> rfl
@[simp] theorem snaps_commitOut (s : S E) : snaps (commitOut s) = [] := by
  unfold commitOut; cases s.pending <;> rfl
@[simp] theorem saves_commitOut (s : S E) : saves (commitOut s) = [] := by
  unfold commitOut; cases s.pending <;> rfl
@[simp] theorem valids_commitOut (s : S E) : valids (commitOut s) = [] := by
  unfold commitOut; cases s.pending <;> rfl
@[simp] theorem publs_commitOut (s : S E) : publs (commitOut s) = [] := by
  unfold commitOut; cases s.pending <;> rfl
@[simp] theorem epochs_commitOut (s : S E) : epochs (commitOut s) = 0 := by
  unfold commitOut; cases s.pending <;> rfl
@[simp] theorem commits_commitOut (s : S E) : commits (commitOut s) = s.pending.toList := by
  unfold commitOut; cases s.pending <;> rfl

@[simp] theorem updates_saveOut (s : S E) : updates (saveOut c s) = [] := by
  unfold saveOut
  split
  · rw [updates_append, updates_commitOut]; rfl
  · rfl
@[simp] theorem snaps_saveOut (s : S E) : snaps (saveOut c s) = if due c.checkpoint s then [s.snap] else [] := by
  unfold saveOut
  split
  · rw [snaps_append, snaps_commitOut]; rfl
  · rfl
@[simp] theorem saves_saveOut (s : S E) : saves (saveOut c s) = if due c.checkpoint s then [s.step] else [] := by
  unfold saveOut
  split
  · rw [saves_append, saves_commitOut]; rfl
  · rfl
@[simp] theorem valids_saveOut (s : S E) : valids (saveOut c s) = [] := by
  unfold saveOut
  split
  · rw [valids_append, valids_commitOut]; rfl
  · rfl
@[simp] theorem publs_saveOut (s : S E) : publs (saveOut c s) = [] := by
  unfold saveOut
  split
  · rw [publs_append, publs_commitOut]; rfl
  · rfl
@[simp] theorem epochs_saveOut (s : S E) : epochs (saveOut c s) = 0 := by
  unfold saveOut
  split
  · rw [epochs_append, epochs_commitOut]; rfl
  · rfl
@[simp] theorem commits_saveOut (s : S E) :
    commits (saveOut c s) = if due c.checkpoint s then s.pending.toList else [] := by
  unfold saveOut
  split
  · rw [commits_append, commits_commitOut]; simp [commits, Out.commit?]
  · rfl

@[simp] theorem updates_pubOut (s : S E) : updates (pubOut c s) = [] := by unfold pubOut; split <;> rfl
@[simp] theorem snaps_pubOut (s : S E) : snaps (pubOut c s) = [] := by unfold pubOut; split <;> rfl
@[simp] theorem saves_pubOut (s : S E) : saves (pubOut c s) = [] := by unfold pubOut; split <;> rfl
@[simp] theorem commits_pubOut (s : S E) : commits (pubOut c s) = [] := by unfold pubOut; split <;> rfl
@[simp] theorem valids_pubOut (s : S E) : valids (pubOut c s) = [] := by unfold pubOut; split <;> rfl
@[simp] theorem epochs_pubOut (s : S E) : epochs (pubOut c s) = 0 := by unfold pubOut; split <;> rfl
@[simp] theorem publs_pubOut (s : S E) : publs (pubOut c s) = if due c.publish s then [s.step] else [] := by
  unfold pubOut; split <;> rfl

@[simp] theorem updates_valOut (w : World) (s : S E) : updates (valOut c w s) = [] := by unfold valOut; split <;> rfl
@[simp] theorem snaps_valOut (w : World) (s : S E) : snaps (valOut c w s) = [] := by unfold valOut; split <;> rfl
@[simp] theorem saves_valOut (w : World) (s : S E) : saves (valOut c w s) = [] := by unfold valOut; split <;> rfl
@[simp] theorem commits_valOut (w : World) (s : S E) : commits (valOut c w s) = [] := by unfold valOut; split <;> rfl
@[simp] theorem valids_valOut (w : World) (s : S E) : valids (valOut c w s) = [s.step] := by unfold valOut; split <;> rfl
@[simp] theorem epochs_valOut (w : World) (s : S E) : epochs (valOut c w s) = 0 := by unfold valOut; split <;> rfl
@[simp] theorem publs_valOut (w : World) (s : S E) : publs (valOut c w s) = [] := by unfold valOut; split <;> rfl

@[simp] theorem updates_nil : updates ([] : List (Out E)) = [] := rfl
@[simp] theorem snaps_nil : snaps ([] : List (Out E)) = [] := rfl
@[simp] theorem saves_nil : saves ([] : List (Out E)) = [] := rfl
@[simp] theorem commits_nil : commits ([] : List (Out E)) = [] := rfl
@[simp] theorem valids_nil : valids ([] : List (Out E)) = [] := rfl
@[simp] theorem publs_nil : publs ([] : List (Out E)) = [] := rfl
@[simp] theorem epochs_nil : epochs ([] : List (Out E)) = 0 := rfl

end Fs2.Train
