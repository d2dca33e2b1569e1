import Verif.Trainer.Periods

/-!
# The trainer: C36 to C41

`Run c P s o s'` is any number of turns of the trainer's loop from `s` to `s'`, with anything that
the world may do as long as `P` holds of it; `runFor c k ws s` are the first `k` turns when
the world does `ws 0`, `ws 1`, ….  `fresh c d t` is a trainer that begins with data reader `d` and model `t`,
`restored c k` is one that resumes from checkpoint `k`.
-/

namespace Fs2.Props

open Fs2.Train

/-! ## Data and models for examples -/

/-- A reader of `n` batches a pass, and a model that overflows as often as it says. -/
def shaky (n : Nat) : Env where
  D := Nat
  B := Nat
  T := Nat
  next d := match d with
    | 0 => none
    | d + 1 => some (d, d)
  reset _ := n
  train t _ := match t with
    | 0 => (0, .updated)
    | t + 1 => (t, .overflowed)

def shakySettles (n : Nat) : Settles (shaky n) where
  fuel t := t
  less t b t' h := by
    cases t with
    | zero => cases h
    | succ t => cases h; exact Nat.lt_succ_self _
  fine t b := by
    show ((shaky n).train t b).2 ≠ _
    cases t <;> simp [shaky]

def shakyEnds (n : Nat) : Ends (shaky n) where
  left d := d
  less d b d' h := by
    cases d with
    | zero => cases h
    | succ d => cases h; exact Nat.lt_succ_self _

/-- The same without overflows. -/
def steady (n : Nat) : Env where
  D := Nat
  B := Nat
  T := Nat
  next d := match d with
    | 0 => none
    | d + 1 => some (d, d)
  reset _ := n
  train t _ := (t + 1, .updated)

/-- Nobody asks for a stop and saves are fast; somebody asks for a stop. -/
def calm : World := ⟨false, true, false, false⟩
def asks : World := ⟨true, true, false, false⟩
/-- Nobody asks for a stop and saves take long. -/
def slow : World := ⟨false, false, false, false⟩

theorem calm_quiet : Quiet calm := ⟨rfl, rfl⟩

/-! ## C36: the number of steps -/

/-- Whatever happens, updates are numbered 1, 2, 3, … without gaps or repetitions, and never beyond
the limit. -/
theorem C36_numbered {E : Env} {c : Cfg} {d : E.D} {t : E.T} {s : S E} {o : List (Out E)}
    (hpos : ∀ n, c.maxSteps = some n → 0 < n) (h : Run c (fun _ => True) (fresh c d t) o s) :
    (updates o).map (·.1) = List.range' 1 (updates o).length ∧
    ∀ n, c.maxSteps = some n → (updates o).length ≤ n := by
  obtain ⟨h1, h2, h3, -⟩ := h.counted (fresh_counted c d t) (fresh_below hpos d t)
  have h3 : (updates o).map (·.1) = List.range' 1 s.applied := by simpa [fresh] using h3
  have hl : (updates o).length = s.applied := by simpa using congrArg List.length h3
  refine ⟨by rw [h3, hl], fun n hn => ?_⟩
  have := h2 n hn
  rw [hl]
  split at this <;> omega

/-- After a resume they go on from the checkpoint's number. -/
theorem C36_numbered_resumed {E : Env} {c : Cfg} {k : Snap E} {s : S E} {o : List (Out E)}
    (hk : k.step = k.applied) (hle : ∀ n, c.maxSteps = some n → k.step ≤ n)
    (h : Run c (fun _ => True) (restored c k) o s) :
    (updates o).map (·.1) = List.range' (k.step + 1) (updates o).length ∧
    ∀ n, c.maxSteps = some n → k.step + (updates o).length ≤ n := by
  obtain ⟨h1, h2, h3, h4⟩ := h.counted (restored_counted c hk.symm) (restored_below hk.symm hle)
  have e : (restored c k).applied = k.step := hk.symm
  rw [e] at h3 h4
  have hl : (updates o).length = s.applied - k.step := by simpa using congrArg List.length h3
  refine ⟨by rw [h3, hl], fun n hn => ?_⟩
  have := h2 n hn
  rw [hl]
  split at this <;> omega

/-- With `max_num_steps = n` and data that does not run dry, `run` returns and has made updates
1, …, n, however many steps overflowed.  Missing for the full claim: the first pass over the data may end
without any update, because all its steps overflowed; then training ends with none (see
`C36_first_pass_overflows`). -/
theorem C36_steps_partial {E : Env} {c : Cfg} {n : Nat} (d : E.D) (t : E.T) (hs : Settles E)
    (hreset : ∀ d, E.next (E.reset d) ≠ none) (hn : c.maxSteps = some n) (hpos : 0 < n) (he : c.maxEpochs = none)
    (hv : c.validateAtStart = true → c.validator = true) (ws : Nat → World) (hw : ∀ i, Quiet (ws i)) :
    ∃ k s o, runFor c k ws (fresh c d t) = .ok (s, o) ∧ s.st = .stopped ∧
      ((updates o).map (·.1) = List.range' 1 n ∨ updates o = []) := by
  have hpos' : ∀ m, c.maxSteps = some m → 0 < m := by intro m hm; rw [hn] at hm; cases hm; exact hpos
  obtain ⟨k, s, o, hk, hst⟩ := ends_steps hs hreset hn he ws hw (fresh c d t)
    ⟨fresh_plain d t, fresh_counted c d t, fresh_below hpos' d t, by unfold fresh; cases c.validateAtStart <;> simp⟩
    (fresh_ready hv d t)
  refine ⟨k, s, o, hk, hst, ?_⟩
  have hr := runFor_run (P := Quiet) hw hk
  obtain ⟨h1, h2, h3, -⟩ := hr.counted (fresh_counted c d t) (fresh_below hpos' d t)
  have h3 : (updates o).map (·.1) = List.range' 1 s.applied := by simpa [fresh] using h3
  obtain ⟨-, h5⟩ := hr.reached (fun _ h => h) hn he (fresh_plain d t) (fresh_reached n d t)
  have h6 := h2 n hn
  simp only [Counted, hst] at h1 h6
  rw [h3]
  rcases h5.2 hst with h | h
  · by_cases ha : s.applied = n
    · exact .inl (by rw [ha])
    · exfalso
      -- the last step was an update
      have hx := Run.labels (J := fun s => s.st ≠ .stopped → s.stopReq = false) hr (fresh_exact d t)
        (by intro; rfl) (fun w s o s' hw hst hJ hm => hm.unasked hw.1 hJ hst)
      have := hx.1
      simp only [Exact, hst] at this
      omega
  · have : s.applied = 0 := by omega
    rw [this] at h3
    exact .inr (by simpa using h3)

theorem steady_next (n : Nat) (d : Nat) : (steady (n + 1)).next ((steady (n + 1)).reset d) ≠ none := by
  simp [steady]

theorem shaky_next (n : Nat) (d : Nat) : (shaky (n + 1)).next ((shaky (n + 1)).reset d) ≠ none := by
  simp [shaky]

/-- Five steps over passes of three batches, the first two of which overflow. -/
example : ∃ k s o, runFor (E := shaky 3) { maxSteps := some 5 } k (fun _ => calm) (fresh { maxSteps := some 5 } (3 : Nat) (2 : Nat)) =
      .ok (s, o) ∧ s.st = .stopped ∧ (updates o).map (·.1) = [1, 2, 3, 4, 5] :=
  ⟨40, _, _, rfl, rfl, rfl⟩

example : ∃ k s o, runFor (E := shaky 3) { maxSteps := some 5 } k (fun _ => calm) (fresh { maxSteps := some 5 } (3 : Nat) (2 : Nat)) =
      .ok (s, o) ∧ s.st = .stopped ∧ ((updates o).map (·.1) = List.range' 1 5 ∨ updates o = []) :=
  C36_steps_partial _ _ (shakySettles 3) (shaky_next 2) rfl (by omega) rfl (by simp) _ (fun _ => calm_quiet)

/-- Without overflows and with a batch to begin with there are exactly `n`. -/
theorem C36_steps_smooth {E : Env} {c : Cfg} {n : Nat} (d : E.D) (t : E.T)
    (hup : ∀ t b, (E.train t b).2 = .updated) (hd : E.next d ≠ none)
    (hreset : ∀ d, E.next (E.reset d) ≠ none) (hn : c.maxSteps = some n) (hpos : 0 < n) (he : c.maxEpochs = none)
    (hv : c.validateAtStart = true → c.validator = true) (ws : Nat → World) (hw : ∀ i, Quiet (ws i)) :
    ∃ k s o, runFor c k ws (fresh c d t) = .ok (s, o) ∧ s.st = .stopped ∧
      (updates o).map (·.1) = List.range' 1 n := by
  have hs : Settles E :=
    { fuel := fun _ => 0
      less := fun t b t' h => (by have := hup t b; rw [h] at this; cases this)
      fine := fun t b h => (by rw [hup] at h; cases h) }
  obtain ⟨k, s, o, hk, hst, h⟩ := C36_steps_partial d t hs hreset hn hpos he hv ws hw
  refine ⟨k, s, o, hk, hst, ?_⟩
  rcases h with h | h
  · exact h
  exfalso
  have hr := runFor_run (P := Quiet) hw hk
  -- until the first update the reader is where it began
  have := Run.induct (I := fun o s => updates o ≠ [] ∨ ((s.st = .preValidation ∨ s.st = .dataLoad) ∧ s.reader = d) ∨
    s.st = .step) (.inr (.inl ⟨by unfold fresh; cases c.validateAtStart <;> simp, rfl⟩)) ?_ hr
  · rcases this with h' | ⟨h' | h', -⟩ | h'
    · exact h' h
    · rw [hst] at h'; cases h'
    · rw [hst] at h'; cases h'
    · rw [hst] at h'; cases h'
  · intro w s₁ o s' o' hw hst ih hm
    rcases ih with ih | ih
    · exact .inl (by simp [ih])
    · cases hm with
      | update => exact .inl (by simp)
      | @over b t _ _ h3 => have := hup (s₁.ask w).model b; rw [h3] at this; cases this
      | pre h1 =>
        have h1 : s₁.st = .preValidation := h1
        rcases ih with ⟨-, ih⟩ | ih
        · exact .inr (.inl ⟨.inr rfl, ih⟩)
        · rw [h1] at ih; cases ih
      | read h1 => exact .inr (.inr rfl)
      | empty h1 h2 | epoch h1 h2 =>
        have h1 : s₁.st = .dataLoad := h1
        rcases ih with ⟨-, ih⟩ | ih
        · have : E.next s₁.reader = none := h2
          rw [ih] at this
          exact absurd this hd
        · rw [h1] at ih; cases ih
      | stopValid h1 | stopPlain h1 =>
        rcases h1 with h1 | h1 | h1 <;>
        · have h1 : s₁.st = _ := h1
          rw [h1] at ih; simp at ih
      | lastEpoch h1 | epochMax h1 | epochStop h1 | epochGo h1 | postMax h1 | postStop h1 | postGo h1 | repeatStop h1
      | again h1 | earlySave h1 | earlyPlain h1 =>
        have h1 : s₁.st = _ := h1
        rw [h1] at ih; simp at ih

example : ∃ k s o, runFor (E := steady 3) { maxSteps := some 5, validateAtStart := true, validator := true } k
      (fun _ => calm) (fresh { maxSteps := some 5, validateAtStart := true, validator := true } (3 : Nat) (0 : Nat)) = .ok (s, o) ∧
      s.st = .stopped ∧ (updates o).map (·.1) = List.range' 1 5 :=
  C36_steps_smooth _ _ (fun _ _ => rfl) (by simp [steady]) (steady_next 2) rfl (by omega) rfl (fun _ => rfl) _
    (fun _ => calm_quiet)

/-- The full claim fails: with two batches a pass and a model whose first two steps overflow (as it is
normal for fp16 training with a large initial loss scale) training ends at once and makes no update. -/
theorem C36_first_pass_overflows :
    ∃ k s o, runFor (E := shaky 2) { maxSteps := some 5 } k (fun _ => calm)
      (fresh { maxSteps := some 5 } (2 : Nat) (2 : Nat)) = .ok (s, o) ∧ s.st = .stopped ∧ updates o = [] :=
  ⟨20, _, _, rfl, rfl, rfl⟩

/-- With `max_num_data_epochs = e` and passes that end, `run` returns after `e` passes, or after one
without any update. -/
theorem C36_epochs {E : Env} {c : Cfg} {e : Nat} (d : E.D) (t : E.T) (hs : Ends E)
    (hf : ∀ t b, (E.train t b).2 ≠ .exploded) (hn : c.maxSteps = none) (he : c.maxEpochs = some e) (hpos : 0 < e)
    (hv : c.validateAtStart = true → c.validator = true) (ws : Nat → World) (hw : ∀ i, Quiet (ws i)) :
    ∃ k s o, runFor c k ws (fresh c d t) = .ok (s, o) ∧ s.st = .stopped ∧
      (epochs o = e ∨ (epochs o = 1 ∧ updates o = [])) := by
  have hpl : PlainE (fresh c d t) := by unfold PlainE fresh; cases c.validateAtStart <;> simp
  have hpos' : ∀ m, c.maxSteps = some m → 0 < m := by intro m hm; rw [hn] at hm; cases hm
  obtain ⟨k, s, o, hk, hst⟩ := ends_epochs hs hf hn he ws hw (fresh c d t) hpl
    (by unfold InEpoch fresh; cases c.validateAtStart <;> simp <;> omega) (fresh_ready hv d t)
  refine ⟨k, s, o, hk, hst, ?_⟩
  have hr := runFor_run (P := Quiet) hw hk
  obtain ⟨-, h1, h2, -⟩ := hr.epochRun (fun _ h => h) hn he hpl (fresh_below hpos' d t) (fresh_counted c d t)
    (by unfold Passed fresh; cases c.validateAtStart <;> simp <;> omega)
  obtain ⟨-, -, h3, -⟩ := hr.counted (fresh_counted c d t) (fresh_below hpos' d t)
  have h3 : (updates o).map (·.1) = List.range' 1 s.applied := by simpa [fresh] using h3
  have h4 := h2.2
  simp only [hst, Counted] at h4 h1
  rcases h4 with ⟨h4, h5⟩ | ⟨h4, h5⟩
  · exact .inl (by omega)
  · have : s.applied = 0 := by omega
    rw [this] at h3
    exact .inr ⟨h4, by simpa using h3⟩

example : ∃ k s o, runFor (E := shaky 3) { maxEpochs := some 4 } k (fun _ => calm)
      (fresh { maxEpochs := some 4 } (3 : Nat) (2 : Nat)) = .ok (s, o) ∧ s.st = .stopped ∧
      (epochs o = 4 ∨ (epochs o = 1 ∧ updates o = [])) :=
  C36_epochs _ _ (shakyEnds 3) (shakySettles 3).fine rfl rfl (by omega) (by simp) _ (fun _ => calm_quiet)

example : ∃ k s o, runFor (E := shaky 3) { maxEpochs := some 4 } k (fun _ => calm)
      (fresh { maxEpochs := some 4 } (3 : Nat) (2 : Nat)) = .ok (s, o) ∧ s.st = .stopped ∧ epochs o = 4 ∧
      (updates o).length = 10 :=
  ⟨60, _, _, rfl, rfl, rfl, rfl⟩

/-- With validation at the start but no validator `run` raises `InternalError`. -/
theorem C36_no_validator {E : Env} (c : Cfg) (d : E.D) (t : E.T) (w : World) (h1 : c.validateAtStart = true)
    (h2 : c.validator = false) : move c w (fresh c d t) = .error .internal := by
  simp [move, turn, S.ask, fresh, h1, validate, h2, bind, Except.bind]

/-! ## C37: requests to stop -/

/-- Without a limit on steps, wherever the request arrives the trainer stops within five turns, makes at
most one more update, and (unless it was about to end anyway, or has made no step) the checkpoint of the step that
it reached is committed and holds its model and reader.  Missing for the full claim: with a limit on
steps the request is not heard (`C37_step_limit`); with a limit on epochs the request may meet the end of the
data, where no save is made if one was due at the last step (`C40_end_of_data`). -/
theorem C37_stops_partial {E : Env} {c : Cfg} (hn : c.maxSteps = none) (hf : ∀ t b, (E.train t b).2 ≠ .exploded)
    (ws : Nat → World) (s : S E) (hq : (ws 0).stop = true) (hb : s.st = .step → s.batch ≠ none)
    (hv : s.st = .preValidation → c.validator = true) :
    ∃ s' o, runFor c 5 ws s = .ok (s', o) ∧ s'.st = .stopped ∧ (updates o).length ≤ 1 ∧
      (c.maxEpochs = none → s.st ≠ .earlyStop → s.st ≠ .endOfData → s.st ≠ .stopped → s'.step ≠ 0 →
        s'.step ∈ commits o ∧ ∃ k ∈ snaps o, k.step = s'.step ∧ k.reader = s'.reader ∧ k.model = s'.model) := by
  obtain ⟨s', o, h1, h2, h3, h4⟩ := stops_within hn hf 5 ws s (by cases s.st <;> simp [toStop]) (.inr hq) ⟨hb, hv⟩
  refine ⟨s', o, h1, h2, ?_, ?_⟩
  · split at h3 <;> omega
  · intro a1 a2 a3 a4 a5
    rcases h4 a1 a3 a2 a4 with h | h
    · exact h
    · exact absurd h a5

/-- A request that arrives when step 4 is about to be run: steps 1 to 3 are behind, step 4 is finished and
committed. -/
example : ∃ s o s' o', runFor (E := steady 2) {} 12 (fun _ => calm) (fresh {} (2 : Nat) (0 : Nat)) = .ok (s, o) ∧
    s.st = .step ∧ s.step = 3 ∧ runFor {} 5 (fun _ => asks) s = .ok (s', o') ∧ s'.st = .stopped ∧
    updates o' = [(4, (0 : Nat))] ∧ commits o' = [4] :=
  ⟨_, _, _, _, rfl, rfl, rfl, rfl, rfl, rfl, rfl⟩

/-- With a limit on steps, and as long as no step overflows, requests have no effect at all: whatever the trainer
does without them (`ws`), it does with them (`ws'`). -/
theorem C37_step_limit {E : Env} {c : Cfg} {n : Nat} (hn : c.maxSteps = some n)
    (hE : ∀ t b, (E.train t b).2 ≠ .overflowed) (ws ws' : Nat → World)
    (hw : ∀ i, (ws' i).done = (ws i).done ∧ (ws' i).score = (ws i).score ∧ (ws' i).early = (ws i).early)
    (d : E.D) (t : E.T) (k : Nat) (s : S E) (o : List (Out E)) (h : runFor c k ws (fresh c d t) = .ok (s, o)) :
    ∃ s', runFor c k ws' (fresh c d t) = .ok (s', o) ∧ s'.st = s.st ∧ s'.step = s.step := by
  obtain ⟨s', h1, h2⟩ := unheard hn hE k ws ws' hw (fresh c d t) (fresh c d t) s o
    (by unfold fresh; cases c.validateAtStart <;> simp) rfl h
  have a : ({ s with stopReq := false } : S E).st = ({ s' with stopReq := false } : S E).st := by rw [h2]
  have b : ({ s with stopReq := false } : S E).step = ({ s' with stopReq := false } : S E).step := by rw [h2]
  exact ⟨s', h1, a.symm, b.symm⟩

/-- The full claim fails: a stop is requested before the first step and again and again, and all hundred
steps are run. -/
theorem C37_not_heard : ∃ k s o, runFor (E := steady 3) { maxSteps := some 100 } k (fun _ => asks)
    (fresh { maxSteps := some 100 } (3 : Nat) (0 : Nat)) = .ok (s, o) ∧ s.st = .stopped ∧
    (updates o).map (·.1) = List.range' 1 100 := by
  obtain ⟨k, s, o, h1, h2, h3⟩ := C36_steps_smooth (E := steady 3) (c := { maxSteps := some 100 }) (n := 100) (3 : Nat)
    (0 : Nat) (fun _ _ => rfl) (by simp [steady]) (steady_next 2) rfl (by omega) rfl (by simp) (fun _ => calm)
    (fun _ => calm_quiet)
  obtain ⟨s', h4, h5, -⟩ := C37_step_limit rfl (by intro t b; simp [steady]) (fun _ => calm) (fun _ => asks)
    (fun _ => ⟨rfl, rfl, rfl⟩) _ _ k s o h1
  exact ⟨k, s', o, h4, by rw [h5, h2], h3⟩

/-! ## C38: resuming -/

/-- A checkpoint saved after a step, in an epoch that is not the last one: when the interrupted run resumes from it,
it does what the uninterrupted run does from there on: the same updates with the same batches, checkpoints,
validations and publications, for any number of turns, and gets to the same states.  How long saves take may differ,
and with it when saves are committed.  Missing for the full claim: checkpoints saved in the last epoch
(`C38_last_epoch`) and at the end of an epoch (`C38_extra_epoch`). -/
theorem C38_resume_partial {E : Env} {c : Cfg} {P : World → Prop} {d : E.D} {t : E.T} {s s₁ : S E}
    {o o₁ : List (Out E)} {w : World} (h : Run c P (fresh c d t) o s) (hst : s.st = .postStep)
    (hw : w.stop = false) (hq : s.stopReq = false) (hm : move c w s = .ok (s₁, o₁)) (hs₁ : s₁.st = .dataLoad)
    (hdue : dueAtStep c.checkpoint s.step = true) (he : ∀ e, c.maxEpochs = some e → s.epoch < e) :
    ∃ k, snaps o₁ = [k] ∧
      ∀ (n : Nat) (ws ws' : Nat → World) (s₂ : S E) (o₂ : List (Out E)),
      (∀ i, (ws' i).stop = (ws i).stop ∧ (ws' i).score = (ws i).score ∧ (ws' i).early = (ws i).early) →
      runFor c n ws s₁ = .ok (s₂, o₂) →
      ∃ s₃ o₃, runFor c n ws' (restored c k) = .ok (s₃, o₃) ∧ lasting o₃ = lasting o₂ ∧
        s₃ = { s₂ with pending := s₃.pending } := by
  have hem := h.empties (by intro; unfold fresh; cases c.validateAtStart <;> rfl)
  have hbt : s.batch = none := hem (by rw [hst]; simp)
  have hM := move_cases (by rw [hst]; simp) hm
  have hask : s.ask w = s := by
    cases s
    simp only at hq
    simp [S.ask, hw, hq]
  rw [hask] at hM
  cases hM with
  | postGo h1 h2 =>
    refine ⟨s.snap, by simp [due, h1, shouldDo, hdue], ?_⟩
    intro n ws ws' s₂ o₂ hww hr
    have hl : Like (goOn c w s) (restored c s.snap) := by
      have hr1 : (restored c s.snap).st = .dataLoad := by
        have a1 : c.maxSteps.any (s.step ≥ ·) = false := by
          cases hc : c.maxSteps with
          | none => rfl
          | some n => simpa using h2.1 n hc
        have a2 : c.maxEpochs.any (s.epoch ≥ ·) = false := by
          cases hc : c.maxEpochs with
          | none => rfl
          | some n => simpa using he n hc
        simp [restored, S.snap, a1, a2]
      have hst' : (goOn c w s).st = .dataLoad := hs₁
      unfold Like
      have e1 : goOn c w s = ⟨.dataLoad, s.step, s.epoch, none, s.reader, s.model, s.applied, false, pend c s⟩ := by
        rw [← hst', ← hbt, ← hq]; rfl
      have e2 : restored c s.snap =
          ⟨(restored c s.snap).st, s.step, s.epoch, none, s.reader, s.model, s.applied, false, none⟩ := rfl
      rw [e1, e2, hr1]
    obtain ⟨s₃, o₃, h3, h4, h5⟩ := runFor_like n ws ws' hww _ _ _ _ hl hr
    exact ⟨s₃, o₃, h3, h5, h4⟩
  | postMax h1 => simp at hs₁
  | postStop h1 => simp at hs₁
  | empty h1 | pre h1 | read h1 | epoch h1 | lastEpoch h1 | epochMax h1 | epochStop h1 | epochGo h1 | over h1
  | update h1 | repeatStop h1 | again h1 | earlySave h1 | earlyPlain h1 => rw [hst] at h1; cases h1
  | stopValid h1 | stopPlain h1 => rw [hst] at h1; simp at h1

/-- Saving after every step: the trainer after step 1, about to save it. -/
example : ∃ s o s₁ o₁, runFor (E := steady 3) { checkpoint := { everySteps := some 1 } } 2 (fun _ => calm)
      (fresh { checkpoint := { everySteps := some 1 } } (3 : Nat) (0 : Nat)) = .ok (s, o) ∧ s.st = .postStep ∧
    s.stopReq = false ∧ move { checkpoint := { everySteps := some 1 } } calm s = .ok (s₁, o₁) ∧ s₁.st = .dataLoad ∧
    dueAtStep { everySteps := some 1 } s.step = true :=
  ⟨_, _, _, _, rfl, rfl, rfl, rfl, rfl, rfl⟩

/-- With a limit on epochs a run that resumes from any checkpoint of the last epoch does nothing. -/
theorem C38_last_epoch {E : Env} {c : Cfg} {k : Snap E} {e : Nat} (he : c.maxEpochs = some e) (hk : e ≤ k.epoch) :
    (restored c k).st = .stopped := by
  simp [restored, he, hk]

/-- For example: one epoch of 10 batches, interrupted after the first; the uninterrupted run makes 10 updates, the
interrupted one makes 1. -/
theorem C38_stops_early :
    let c : Cfg := { maxEpochs := some 1, checkpoint := { everySteps := some 1 } }
    (∃ k s o, runFor (E := steady 10) c k (fun _ => calm) (fresh c (10 : Nat) (0 : Nat)) = .ok (s, o) ∧
      s.st = .stopped ∧ (updates o).length = 10) ∧
    ∃ s o k, runFor (E := steady 10) c 4 (fun _ => calm) (fresh c (10 : Nat) (0 : Nat)) = .ok (s, o) ∧
      snaps o = [k] ∧ (updates o).length = 1 ∧ (restored c k).st = .stopped :=
  ⟨⟨40, _, _, rfl, rfl, rfl⟩, _, _, _, rfl, rfl, rfl, rfl⟩

/-- A checkpoint saved at the end of an epoch holds the number of the epoch that ended with a reader that begins the
next one: two epochs of three batches, interrupted at the checkpoint after the first one, make nine updates instead
of six. -/
theorem C38_extra_epoch :
    let c : Cfg := { maxEpochs := some 2, checkpoint := { everyEpochs := some 1 } }
    (∃ k s o, runFor (E := steady 3) c k (fun _ => calm) (fresh c (3 : Nat) (0 : Nat)) = .ok (s, o) ∧
      s.st = .stopped ∧ (updates o).length = 6) ∧
    ∃ s o k n s' o', runFor (E := steady 3) c 12 (fun _ => calm) (fresh c (3 : Nat) (0 : Nat)) = .ok (s, o) ∧
      snaps o = [k] ∧ (updates o).length = 3 ∧ runFor c n (fun _ => calm) (restored c k) = .ok (s', o') ∧
      s'.st = .stopped ∧ (updates o').length = 6 :=
  ⟨⟨40, _, _, rfl, rfl, rfl⟩, _, _, _, 40, _, _, rfl, rfl, rfl, rfl, rfl, rfl⟩

/-! ## C39: labels of checkpoints -/

/-- Sessions one after the other: the first begins afresh, each later one resumes from any checkpoint saved so far,
perhaps with other settings. -/
inductive Sessions {E : Env} (P : World → Prop) (d : E.D) (t : E.T) : List (Out E) → Prop where
  | first {c : Cfg} {o : List (Out E)} {s : S E} : Run c P (fresh c d t) o s → Sessions P d t o
  | again {c : Cfg} {o o' : List (Out E)} {k : Snap E} {s : S E} : Sessions P d t o → k ∈ snaps o →
      Run c P (restored c k) o' s → Sessions P d t (o ++ o')

/-- As long as nobody requests a stop (the early stopper may), every checkpoint is labelled with the number of
updates that its model has had.  Missing for the full claim: `C39_mislabelled`. -/
theorem C39_labels_partial {E : Env} {d : E.D} {t : E.T} {o : List (Out E)}
    (h : Sessions (fun w => w.stop = false) d t o) : ∀ k ∈ snaps o, k.step = k.applied := by
  induction h with
  | first hr =>
    exact (Run.labels (J := fun s => s.st ≠ .stopped → s.stopReq = false) hr (fresh_exact d t) (by intro; rfl)
      (fun w s o s' hw hst hJ hm => hm.unasked hw hJ hst)).2.2
  | again _ hk hr ih =>
    have := (Run.labels (J := fun s => s.st ≠ .stopped → s.stopReq = false) hr (restored_exact (ih _ hk))
      (by intro; rfl) (fun w s o s' hw hst hJ hm => hm.unasked hw hJ hst)).2.2
    intro k hk
    rw [snaps_append, List.mem_append] at hk
    rcases hk with hk | hk
    · exact ih k hk
    · exact this k hk

/-- The same whatever is requested, as long as no step overflows. -/
theorem C39_labels_smooth_partial {E : Env} {d : E.D} {t : E.T} {o : List (Out E)}
    (hE : ∀ t b, (E.train t b).2 ≠ .overflowed) (h : Sessions (fun _ => True) d t o) :
    ∀ k ∈ snaps o, k.step = k.applied := by
  have key : ∀ {c : Cfg} {s : S E} {o : List (Out E)} {s' : S E}, Run c (fun _ => True) s o s' → Exact s →
      s.st ≠ .gradOverflow → ∀ k ∈ snaps o, k.step = k.applied := by
    intro c s o s' hr he hs
    exact (Run.labels (J := fun s => s.st ≠ .gradOverflow) hr he hs
      (fun w s o s' _ hst hJ hm => ⟨hm.smooth hE hJ, fun h => hJ h.1⟩)).2.2
  induction h with
  | first hr => exact key hr (fresh_exact d t) (by unfold fresh; split <;> simp)
  | again _ hk hr ih =>
    have := key hr (restored_exact (ih _ hk)) (by rcases restored_st (E := E) _ _ with h | ⟨h, -⟩ <;> rw [h] <;> simp)
    intro k hk
    rw [snaps_append, List.mem_append] at hk
    rcases hk with hk | hk
    · exact ih k hk
    · exact this k hk

/-- Three steps with an overflow before the first: the checkpoints are labelled 1, 2, 3. -/
example : ∃ o, Sessions (E := shaky 3) (fun w => w.stop = false) (3 : Nat) (1 : Nat) o ∧
    (snaps o).map (fun k => (k.step, k.applied)) = [(1, 1), (2, 2), (3, 3)] :=
  ⟨_, .first (c := { maxSteps := some 3, checkpoint := { everySteps := some 1 } })
    (runFor_run (k := 30) (ws := fun _ => calm) (fun _ => rfl) rfl), rfl⟩

/-- The full claim fails: two updates, then an overflow during which a stop is requested: the checkpoint saved is
labelled 3, but its model has had 2 updates. -/
theorem C39_mislabelled : ∃ (E : Env) (d : E.D) (t : E.T) (o : List (Out E)),
    Sessions (fun _ => True) d t o ∧ ∃ k ∈ snaps o, k.step = 3 ∧ k.applied = 2 ∧ 3 ∈ commits o ∧
      (updates o).map (·.1) = [1, 2] := by
  refine ⟨⟨Nat, Nat, Nat, fun d => some (d, d + 1), id, fun t _ => (t + 1, if t = 2 then .overflowed else .updated)⟩,
    (0 : Nat), (0 : Nat), _, .first (c := {})
      (runFor_run (k := 20) (ws := fun i => if i = 8 then asks else calm) (fun _ => trivial) rfl),
    _, List.mem_cons_self, rfl, rfl, ?_, rfl⟩
  exact List.mem_cons_self

/-! ## C40: commits -/

/-- Saves are committed in the order in which they are started, and at most the last one is not.  When `run`
returns, it has been, unless epochs are limited, periodic saving is on and the run ended on a step at which a save
was due (and validation was not, or was due at that step as well).  Missing for the full claim: that case, see
`C40_end_of_data`. -/
theorem C40_committed_partial {E : Env} {c : Cfg} {P : World → Prop} {d : E.D} {t : E.T} {o : List (Out E)} {s : S E}
    (h : Run c P (fresh c d t) o s) :
    (∃ l, saves o = commits o ++ l ∧ l.length ≤ 1) ∧
    (s.st = .stopped → commits o = saves o ∨
      (c.maxEpochs ≠ none ∧ dueAtStep c.checkpoint s.step = true ∧
        (c.validator = true → dueAtStep c.validate s.step = true))) := by
  have h1 := h.saved
  have h2 := h.pended (fresh_pended d t)
  have h1 : saves o = commits o ++ s.pending.toList := by simpa [fresh] using h1
  refine ⟨⟨_, h1, by cases s.pending <;> simp⟩, fun hst => ?_⟩
  rcases h2.2.2.2 hst with h3 | h3
  · exact .inl (by simp [h1, h3])
  · exact .inr h3

/-- In particular without a limit on epochs, or without saving by steps. -/
theorem C40_committed_plain_partial {E : Env} {c : Cfg} {P : World → Prop} {d : E.D} {t : E.T} {o : List (Out E)} {s : S E}
    (h : Run c P (fresh c d t) o s) (hst : s.st = .stopped)
    (hc : c.maxEpochs = none ∨ c.checkpoint.everySteps = none) : commits o = saves o := by
  rcases (C40_committed_partial h).2 hst with h1 | ⟨h1, h2, -⟩
  · exact h1
  · rcases hc with hc | hc
    · exact absurd hc h1
    · simp [dueAtStep, hc] at h2

/-- After a resume. -/
theorem C40_committed_resumed_partial {E : Env} {c : Cfg} {P : World → Prop} {k : Snap E} {o : List (Out E)} {s : S E}
    (h : Run c P (restored c k) o s) (hst : s.st = .stopped)
    (hc : c.maxEpochs = none ∨ c.checkpoint.everySteps = none) : commits o = saves o := by
  have h1 := h.saved
  have h2 := h.pended (restored_pended k)
  have h1 : saves o = commits o ++ s.pending.toList := by simpa [restored] using h1
  rcases h2.2.2.2 hst with h3 | ⟨h3, h4, -⟩
  · simp [h1, h3]
  · rcases hc with hc | hc
    · exact absurd hc h3
    · simp [dueAtStep, hc] at h4

/-- Saves that are slow: five steps, all saves committed. -/
example : ∃ s o, Run (E := steady 3) { maxSteps := some 5, checkpoint := { everySteps := some 1 } } (fun _ => True)
      (fresh { maxSteps := some 5, checkpoint := { everySteps := some 1 } } (3 : Nat) (0 : Nat)) o s ∧
    s.st = .stopped ∧ saves o = [1, 2, 3, 4, 5] ∧ commits o = [1, 2, 3, 4, 5] :=
  ⟨_, _, runFor_run (k := 30) (ws := fun _ => slow) (fun _ => trivial) rfl, rfl, rfl, rfl⟩

/-- The full claim fails: one epoch, a save after every step, and a last save that takes longer than the rest of the
run: it is never committed. -/
theorem C40_end_of_data : ∃ s o, Run (E := steady 3) { maxEpochs := some 1, checkpoint := { everySteps := some 1 } }
      (fun _ => True) (fresh { maxEpochs := some 1, checkpoint := { everySteps := some 1 } } (3 : Nat) (0 : Nat)) o s ∧
    s.st = .stopped ∧ saves o = [1, 2, 3] ∧ commits o = [1, 2] :=
  ⟨_, _, runFor_run (k := 30) (ws := fun _ => slow) (fun _ => trivial) rfl, rfl, rfl, rfl⟩

/-! ## C41: periods -/

/-- The number of steps at the end. -/
theorem ends_at {E : Env} {c : Cfg} {n : Nat} {d : E.D} {t : E.T} {o : List (Out E)} {s : S E}
    (hn : c.maxSteps = some n) (hpos : 0 < n) (hm : c.maxEpochs = none)
    (h : Run c Quiet { fresh c d t with st := .dataLoad } o s) (hst : s.st = .stopped) (h0 : updates o ≠ []) :
    s.step = n := by
  have hb : Below c ({ fresh c d t with st := .dataLoad } : S E) := by
    intro m hm
    rw [hn] at hm
    cases hm
    exact hpos
  obtain ⟨h1, h2, h3, -⟩ := h.counted rfl hb
  have h3 : (updates o).map (·.1) = List.range' 1 s.applied := by simpa [fresh] using h3
  have hpl : Plain ({ fresh c d t with st := .dataLoad } : S E) := by simp [Plain, fresh]
  obtain ⟨-, h5⟩ := h.reached (fun _ h => h) hn hm hpl (by simp [Reached])
  have h6 := h2 n hn
  have hx := (Run.labels (J := fun s => s.st ≠ .stopped → s.stopReq = false) h rfl
    (by intro; rfl) (fun w s o s' hw hst hJ hm => hm.unasked hw.1 hJ hst)).1
  simp only [hst, Exact] at h6 hx
  have : s.applied ≠ 0 := by
    intro h
    rw [h] at h3
    exact h0 (by simpa using h3)
  rcases h5.2 hst with h | h <;> omega

/-- The steps with an action, for any action. -/
theorem fires_at {E : Env} {c : Cfg} {n a q : Nat} {d : E.D} {t : E.T} {o : List (Out E)} {s : S E}
    {p : Period} {f : List (Out E) → List Nat} (hf : Fires c p f)
    (hn : c.maxSteps = some n) (hpos : 0 < n) (hm : c.maxEpochs = none)
    (hp : p = { afterSteps := a, everySteps := some q })
    (h : Run c Quiet { fresh c d t with st := .dataLoad } o s) (hst : s.st = .stopped) (h0 : updates o ≠ []) :
    f o = (List.range' 1 (n - 1)).filter (fun i => a < i ∧ i % q = 0) ++ [n] := by
  have hb : Below c ({ fresh c d t with st := .dataLoad } : S E) := by
    intro m hm
    rw [hn] at hm
    cases hm
    exact hpos
  have hpl : Plain ({ fresh c d t with st := .dataLoad } : S E) := by simp [Plain, fresh]
  have h1 := h.done hf (fun _ h => h) hn hm (by rw [hp]) hpl hb rfl rfl (by simp)
  have h2 := ends_at hn hpos hm h hst h0
  simp only [Done, hst, h2] at h1
  rcases h1 with ⟨h1, -⟩ | ⟨-, h1⟩
  · omega
  · rw [h1, dues]
    congr 1
    refine List.filter_congr fun i _ => ?_
    rcases Nat.decEq (i % q) 0 with h | h <;> simp [dueAtStep, hp, h]

/-- Training with a limit of `n` steps: checkpoints are saved at the steps below `n` that come after
`save_after_n_steps` and are multiples of `save_every_n_steps`, in order, each once, and at `n`; at no others.
(`{ fresh c d t with st := .dataLoad }` is the trainer after validation at the start, if there is any.) -/
theorem C41_saves {E : Env} {c : Cfg} {n a q : Nat} {d : E.D} {t : E.T} {o : List (Out E)} {s : S E}
    (hn : c.maxSteps = some n) (hpos : 0 < n) (hm : c.maxEpochs = none)
    (hc : c.checkpoint = { afterSteps := a, everySteps := some q })
    (h : Run c Quiet { fresh c d t with st := .dataLoad } o s) (hst : s.st = .stopped) (h0 : updates o ≠ []) :
    saves o = (List.range' 1 (n - 1)).filter (fun i => a < i ∧ i % q = 0) ++ [n] :=
  fires_at fires_saves hn hpos hm hc h hst h0

/-- Likewise metrics are published … -/
theorem C41_publishes {E : Env} {c : Cfg} {n a q : Nat} {d : E.D} {t : E.T} {o : List (Out E)} {s : S E}
    (hn : c.maxSteps = some n) (hpos : 0 < n) (hm : c.maxEpochs = none)
    (hc : c.publish = { afterSteps := a, everySteps := some q })
    (h : Run c Quiet { fresh c d t with st := .dataLoad } o s) (hst : s.st = .stopped) (h0 : updates o ≠ []) :
    publs o = (List.range' 1 (n - 1)).filter (fun i => a < i ∧ i % q = 0) ++ [n] :=
  fires_at fires_publs hn hpos hm hc h hst h0

/-- … and, if there is a validator, validation runs. -/
theorem C41_validates {E : Env} {c : Cfg} {n a q : Nat} {d : E.D} {t : E.T} {o : List (Out E)} {s : S E}
    (hn : c.maxSteps = some n) (hpos : 0 < n) (hm : c.maxEpochs = none) (hv : c.validator = true)
    (hc : c.validate = { afterSteps := a, everySteps := some q })
    (h : Run c Quiet { fresh c d t with st := .dataLoad } o s) (hst : s.st = .stopped) (h0 : updates o ≠ []) :
    valids o = (List.range' 1 (n - 1)).filter (fun i => a < i ∧ i % q = 0) ++ [n] :=
  fires_at (fires_valids hv) hn hpos hm hc h hst h0

/-- Validation at the start runs once, before anything else. -/
theorem C41_validates_at_start {E : Env} (c : Cfg) (d : E.D) (t : E.T) (w : World) (hw : w.stop = false)
    (hv : c.validator = true) (h : c.validateAtStart = true) :
    move c w (fresh c d t) = .ok ({ fresh c d t with st := .dataLoad }, [.validated 0]) := by
  cases hs : w.score <;>
    simp [move, turn, S.ask, fresh, h, validate, hv, hw, hs, bind, Except.bind, shouldDo]

/-- Eight steps, every third one after the third, with overflows on the way. -/
example : ∃ s o, Run (E := shaky 3) { maxSteps := some 8, checkpoint := { afterSteps := 3, everySteps := some 3 } } Quiet
      { fresh { maxSteps := some 8, checkpoint := { afterSteps := 3, everySteps := some 3 } } (3 : Nat) (2 : Nat) with
        st := .dataLoad } o s ∧
    s.st = .stopped ∧ updates o ≠ [] ∧ saves o = [6, 8] :=
  ⟨_, _, runFor_run (k := 50) (ws := fun _ => calm) (fun _ => calm_quiet) rfl, rfl, List.cons_ne_nil _ _, rfl⟩

/-- Training with a limit of `e` epochs and saving by epochs: checkpoints are saved at the ends of the epochs below `e`
that come after `save_after_n_data_epochs` and are multiples of `save_every_n_data_epochs`, and of epoch `e`. -/
theorem C41_saves_epochs {E : Env} {c : Cfg} {e a q : Nat} {d : E.D} {t : E.T} {o : List (Out E)} {s : S E}
    (hn : c.maxSteps = none) (hm : c.maxEpochs = some e) (hpos : 0 < e)
    (hc : c.checkpoint = { afterEpochs := a, everyEpochs := some q })
    (h : Run c Quiet (fresh c d t) o s) (hst : s.st = .stopped) (h0 : updates o ≠ []) :
    (snaps o).map (·.epoch) = (List.range' 1 (e - 1)).filter (fun i => a < i ∧ i % q = 0) ++ [e] := by
  have hpl : PlainE (fresh c d t) := by unfold PlainE fresh; cases c.validateAtStart <;> simp
  have hpos' : ∀ m, c.maxSteps = some m → 0 < m := by intro m hm; rw [hn] at hm; cases hm
  obtain ⟨-, h1, h2, h3⟩ := h.epochRun (fun _ h => h) hn hm hpl (fresh_below hpos' d t) (fresh_counted c d t)
    (by unfold Passed fresh; cases c.validateAtStart <;> simp <;> omega)
  have h3 := h3 (by rw [hc]) (by unfold DoneE fresh; cases c.validateAtStart <;> simp [epochDues])
  obtain ⟨-, -, h4, -⟩ := h.counted (fresh_counted c d t) (fresh_below hpos' d t)
  have h4 : (updates o).map (·.1) = List.range' 1 s.applied := by simpa [fresh] using h4
  have h5 := h2.2
  have h6 := h3.2
  simp only [hst, Counted] at h5 h1 h6
  have : s.applied ≠ 0 := by
    intro h
    rw [h] at h4
    exact h0 (by simpa using h4)
  have he : s.epoch = e := by omega
  rcases h6 with ⟨h6, -⟩ | h6
  · omega
  · rw [h6, he, epochDues]
    congr 1
    refine List.filter_congr fun i _ => ?_
    rcases Nat.decEq (i % q) 0 with h | h <;> simp [epochDue, hc, h]

example : ∃ s o, Run (E := steady 2) { maxEpochs := some 5, checkpoint := { everyEpochs := some 2 } } Quiet
      (fresh { maxEpochs := some 5, checkpoint := { everyEpochs := some 2 } } (2 : Nat) (0 : Nat)) o s ∧
    s.st = .stopped ∧ updates o ≠ [] ∧ (snaps o).map (·.epoch) = [2, 4, 5] ∧ saves o = [4, 8, 10] :=
  ⟨_, _, runFor_run (k := 60) (ws := fun _ => calm) (fun _ => calm_quiet) rfl, rfl, List.cons_ne_nil _ _, rfl, rfl⟩

/-- Each action is taken once a step, and in order, however far training has come.  Missing for the full claim (C70): stop
requests and saving by epochs, see `C70_saved_twice`. -/
theorem C70_saved_once_partial {E : Env} {c : Cfg} {n : Nat} {d : E.D} {t : E.T} {o : List (Out E)} {s : S E}
    (hn : c.maxSteps = some n) (hpos : 0 < n) (hm : c.maxEpochs = none) (he : c.checkpoint.everyEpochs = none)
    (h : Run c Quiet { fresh c d t with st := .dataLoad } o s) : (saves o).Pairwise (· < ·) := by
  have hb : Below c ({ fresh c d t with st := .dataLoad } : S E) := by
    intro m hm
    rw [hn] at hm
    cases hm
    exact hpos
  have hpl : Plain ({ fresh c d t with st := .dataLoad } : S E) := by simp [Plain, fresh]
  have h1 := h.done fires_saves (fun _ h => h) hn hm he hpl hb rfl rfl (by simp)
  have hp : ∀ m, (dues c.checkpoint m).Pairwise (· < ·) := fun m =>
    (List.pairwise_lt_range' (s := 1) (n := m) (step := 1)).filter _
  unfold Done at h1
  split at h1
  · rw [h1.2]; exact hp _
  · rw [h1.2]; exact hp _
  · rw [h1.2]; exact hp _
  · rcases h1 with ⟨-, h1⟩ | ⟨h0, h1⟩
    · rw [h1]; exact List.Pairwise.nil
    · rw [h1, List.pairwise_append]
      refine ⟨hp _, by simp, ?_⟩
      intro a ha b hb
      simp only [dues, List.mem_filter, List.mem_range'_1, List.mem_singleton] at ha hb
      omega
  · rw [h1]; exact hp _

/-- A run of one batch an epoch that saves after every step: a stop is requested when step 1 has been saved, the
epoch ends, and step 1 is saved again.  (Saving a step again first deletes its checkpoint, see
`C31_saving_again_loses`.) -/
theorem C70_saved_twice : ∃ s o, Run (E := steady 1) { checkpoint := { everySteps := some 1 } } (fun _ => True)
      (fresh { checkpoint := { everySteps := some 1 } } (1 : Nat) (0 : Nat)) o s ∧ s.st = .stopped ∧ saves o = [1, 1] ∧
      commits o = [1, 1] :=
  ⟨_, _, runFor_run (k := 10) (ws := fun i => if i = 3 then asks else calm) (fun _ => trivial) rfl, rfl, rfl, rfl⟩

/-- The decision itself, for all settings, steps and epochs: after a step an action with a period in steps is due
exactly at its steps; at the end of an epoch one with a period in epochs is due exactly at its epochs, unless the step
has just been due; at the end of training, or when a stop is requested, it always is. -/
theorem C41_decision (p : Period) (step epoch : Nat) :
    (shouldDo p .postStep step epoch = .ok true ↔ ∃ q, p.everySteps = some q ∧ p.afterSteps < step ∧ q ∣ step) ∧
    (shouldDo p .endOfDataEpoch step epoch = .ok true ↔
      (∃ q, p.everyEpochs = some q ∧ p.afterEpochs < epoch ∧ q ∣ epoch) ∧
        ¬∃ q, p.everySteps = some q ∧ p.afterSteps < step ∧ q ∣ step) ∧
    shouldDo p .endOfTraining step epoch = .ok true ∧ shouldDo p .stopRequested step epoch = .ok true := by
  have hd : dueAtStep p step = true ↔ ∃ q, p.everySteps = some q ∧ p.afterSteps < step ∧ q ∣ step := by
    unfold dueAtStep
    cases p.everySteps with
    | none => simp
    | some q => simp [Nat.dvd_iff_mod_eq_zero]
  refine ⟨?_, ?_, rfl, rfl⟩
  · simp only [shouldDo, Except.ok.injEq]
    exact hd
  · rw [← hd]
    simp only [shouldDo]
    cases p.everyEpochs with
    | none => simp
    | some q =>
      simp only [Option.some.injEq, exists_eq_left', Nat.dvd_iff_mod_eq_zero]
      by_cases h : p.afterEpochs < epoch ∧ epoch % q = 0
      · simp [h]
      · rw [if_neg (by simpa using h)]
        simp [h]

/-- Multiples of the period after its start. -/
def Hits (after : Nat) (every : Option Nat) (i : Nat) : Prop := ∃ q, every = some q ∧ after < i ∧ q ∣ i

theorem due_post {E : Env} {p : Period} {s : S E} (h : s.st = .postStep) :
    due p s = true ↔ Hits p.afterSteps p.everySteps s.step := by
  have := (C41_decision p s.step s.epoch).1
  rw [← Hits] at this
  rw [← this]
  simp [due, h, shouldDo]

theorem due_epoch {E : Env} {p : Period} {s : S E} (h : s.st = .endOfDataEpoch) :
    due p s = true ↔ Hits p.afterEpochs p.everyEpochs s.epoch ∧ ¬Hits p.afterSteps p.everySteps s.step := by
  have := (C41_decision p s.step s.epoch).2.1
  rw [← Hits, ← Hits] at this
  rw [← this]
  simp only [due, h]
  cases shouldDo p .endOfDataEpoch s.step s.epoch <;> simp

/-- In any run with any settings: whenever training goes on after a step (`s'` is not the state before the end), that
step is saved, published and validated exactly if it is one of the steps of the period. -/
theorem C41_after_step {E : Env} {c : Cfg} {w : World} {s s' : S E} {o : List (Out E)} (hst : s.st = .postStep)
    (hm : move c w s = .ok (s', o)) (hs' : s'.st = .dataLoad ∨ s'.st = .earlyStop) :
    (saves o = [s.step] ∧ Hits c.checkpoint.afterSteps c.checkpoint.everySteps s.step ∨
      saves o = [] ∧ ¬Hits c.checkpoint.afterSteps c.checkpoint.everySteps s.step) ∧
    (publs o = [s.step] ∧ Hits c.publish.afterSteps c.publish.everySteps s.step ∨
      publs o = [] ∧ ¬Hits c.publish.afterSteps c.publish.everySteps s.step) ∧
    (c.validator = true → (valids o = [s.step] ∧ Hits c.validate.afterSteps c.validate.everySteps s.step ∨
      valids o = [] ∧ ¬Hits c.validate.afterSteps c.validate.everySteps s.step)) := by
  have hM := move_cases (by rw [hst]; simp) hm
  have hst' : (s.ask w).st = .postStep := hst
  cases hM with
  | postGo h1 =>
    rw [saves_goOut, publs_goOut, valids_goOut, ← due_post (p := c.checkpoint) hst, ← due_post (p := c.publish) hst,
      ← due_post (p := c.validate) hst]
    show _ ∧ _ ∧ _
    simp only [show ∀ p, due p (s.ask w) = due p s from fun _ => rfl, dueVal, show (s.ask w).step = s.step from rfl]
    refine ⟨?_, ?_, fun hv => ?_⟩
    · cases due c.checkpoint s <;> simp
    · cases due c.publish s <;> simp
    · rw [hv]; cases due c.validate s <;> simp
  | postMax | postStop => simp at hs'
  | pre h1 | read h1 | empty h1 | epoch h1 | lastEpoch h1 | epochMax h1 | epochStop h1 | epochGo h1 | over h1 | update h1
  | repeatStop h1 | again h1 | earlySave h1 | earlyPlain h1 => rw [hst'] at h1; cases h1
  | stopValid h1 | stopPlain h1 => rw [hst'] at h1; simp at h1

/-- Whenever training goes on after an epoch, the same holds of the epochs of the period, unless the last step was one
of the steps of the period (then the action has been taken already). -/
theorem C41_after_epoch {E : Env} {c : Cfg} {w : World} {s s' : S E} {o : List (Out E)} (hst : s.st = .endOfDataEpoch)
    (hm : move c w s = .ok (s', o)) (hs' : s'.st = .dataLoad ∨ s'.st = .earlyStop) :
    (saves o = [s.step] ↔ Hits c.checkpoint.afterEpochs c.checkpoint.everyEpochs s.epoch ∧
      ¬Hits c.checkpoint.afterSteps c.checkpoint.everySteps s.step) ∧
    (publs o = [s.step] ↔ Hits c.publish.afterEpochs c.publish.everyEpochs s.epoch ∧
      ¬Hits c.publish.afterSteps c.publish.everySteps s.step) ∧
    (c.validator = true → (valids o = [s.step] ↔ Hits c.validate.afterEpochs c.validate.everyEpochs s.epoch ∧
      ¬Hits c.validate.afterSteps c.validate.everySteps s.step)) ∧
    (saves o).length ≤ 1 ∧ (publs o).length ≤ 1 ∧ (valids o).length ≤ 1 := by
  have hM := move_cases (by rw [hst]; simp) hm
  have hst' : (s.ask w).st = .endOfDataEpoch := hst
  cases hM with
  | epochGo h1 =>
    rw [saves_goOut, publs_goOut, valids_goOut, ← due_epoch (p := c.checkpoint) hst, ← due_epoch (p := c.publish) hst,
      ← due_epoch (p := c.validate) hst]
    show _ ∧ _ ∧ _
    simp only [show ∀ p, due p (s.ask w) = due p s from fun _ => rfl, dueVal, show (s.ask w).step = s.step from rfl]
    refine ⟨?_, ?_, fun hv => ?_, ?_, ?_, ?_⟩
    · cases due c.checkpoint s <;> simp
    · cases due c.publish s <;> simp
    · rw [hv]; cases due c.validate s <;> simp
    all_goals split <;> simp
  | epochMax | epochStop | lastEpoch => simp at hs'
  | pre h1 | read h1 | empty h1 | epoch h1 | over h1 | update h1 | postMax h1 | postGo h1 | postStop h1
  | repeatStop h1 | again h1 | earlySave h1 | earlyPlain h1 => rw [hst'] at h1; cases h1
  | stopValid h1 | stopPlain h1 => rw [hst'] at h1; simp at h1

/-- Saving every two steps and every epoch of three batches: saves of steps 2, 3, 4 and 6; the second epoch ends at step
6, which was saved already. -/
example : ∃ s o, Run (E := steady 3) { checkpoint := { everySteps := some 2, everyEpochs := some 1 } } Quiet
      (fresh { checkpoint := { everySteps := some 2, everyEpochs := some 1 } } (3 : Nat) (0 : Nat)) o s ∧
    s.st = .dataLoad ∧ saves o = [2, 3, 4, 6] ∧ epochs o = 2 :=
  ⟨_, _, runFor_run (k := 22) (ws := fun _ => calm) (fun _ => calm_quiet) rfl, rfl, rfl, rfl⟩

end Fs2.Props
