import Verif.Trainer.Steps

/-!
# Training ends
-/

namespace Fs2.Train

variable {E : Env} {c : Cfg} {P : World → Prop}

/-- A move is possible. -/
structure Ready (c : Cfg) (s : S E) : Prop where
  batch : s.st = .step → s.batch ≠ none
  valid : s.st = .preValidation → c.validator = true

theorem can_move {w : World} {s : S E} (hr : Ready c s) (hst : s.st ≠ .stopped)
    (hf : ∀ t b, (E.train t b).2 ≠ .exploded) : ∃ o s', Moved c w s o s' := by
  have post : s.st = .postStep → ∃ o s', Moved c w s o s' := by
    intro hc
    rcases goesOn_or c s with hg | ⟨n, h1, h2⟩ | ⟨h1, h2⟩
    · exact ⟨_, _, .postGo hc hg⟩
    · exact ⟨_, _, .postMax hc h1 h2⟩
    · exact ⟨_, _, .postStop hc h1 h2⟩
  have stop : s.st = .endOfTraining ∨ s.st = .endOfData ∨ s.st = .stopRequested → ∃ o s', Moved c w s o s' := by
    intro hc
    cases hd : dueVal c s
    · exact ⟨_, _, .stopPlain hc hd⟩
    · exact ⟨_, _, .stopValid hc hd⟩
  cases hc : s.st with
  | preValidation => exact ⟨_, _, .pre hc (hr.valid hc)⟩
  | dataLoad =>
    cases hn : E.next s.reader with
    | some x => exact ⟨_, _, .read hc hn⟩
    | none =>
      by_cases h0 : s.step = 0
      · exact ⟨_, _, .empty hc hn h0⟩
      · exact ⟨_, _, .epoch hc hn h0⟩
  | step =>
    cases hb : s.batch with
    | none => exact absurd hb (hr.batch hc)
    | some b =>
      rcases ht : E.train s.model b with ⟨t, r⟩
      cases r with
      | updated => exact ⟨_, _, .update hc hb ht⟩
      | overflowed => exact ⟨_, _, .over hc hb ht⟩
      | exploded => exact absurd (by rw [ht]) (hf s.model b)
  | postStep => exact post hc
  | endOfDataEpoch =>
    by_cases he : ∃ e, c.maxEpochs = some e ∧ e ≤ s.epoch
    · obtain ⟨e, h1, h2⟩ := he
      exact ⟨_, _, .lastEpoch hc h1 h2⟩
    · have hlt : ∀ e, c.maxEpochs = some e → s.epoch < e := by
        intro e h1
        refine Classical.byContradiction fun h2 => he ⟨e, h1, by omega⟩
      rcases goesOn_or c s with hg | ⟨n, h1, h2⟩ | ⟨h1, h2⟩
      · exact ⟨_, _, .epochGo hc hlt hg⟩
      · exact ⟨_, _, .epochMax hc hlt h1 h2⟩
      · exact ⟨_, _, .epochStop hc hlt h1 h2⟩
  | endOfTraining => exact stop (by simp [hc])
  | endOfData => exact stop (by simp [hc])
  | gradOverflow =>
    cases hq : s.stopReq
    · exact ⟨_, _, .again hc hq⟩
    · exact ⟨_, _, .repeatStop hc hq⟩
  | earlyStop =>
    cases hd : due c.checkpoint s
    · exact ⟨_, _, .earlyPlain hc hd⟩
    · exact ⟨_, _, .earlySave hc hd⟩
  | stopRequested => exact stop (by simp [hc])
  | stopped => exact absurd hc hst

theorem Moved.ready {w : World} {s s' : S E} {o : List (Out E)} (h : Moved c w s o s') : Ready c s' := by
  cases h with
  | epochGo | postGo => constructor <;> simp only [goOn] <;> split <;> simp
  | _ => constructor <;> simp

/-- Runs and lists of worlds. -/
theorem Run.cons {w : World} {s s' s'' : S E} {o o' : List (Out E)} (hw : P w) (hst : s.st ≠ .stopped)
    (hm : move c w s = .ok (s', o)) (h : Run c P s' o' s'') : Run c P s (o ++ o') s'' := by
  induction h with
  | nil => simpa using Run.snoc w (.nil s) hw hst hm
  | snoc w' _ hw' hst' hm' ih =>
    rw [← List.append_assoc]
    exact ih.snoc w' hw' hst' hm'

theorem runFor_run {k : Nat} {ws : Nat → World} {s s' : S E} {o : List (Out E)} (hw : ∀ i, P (ws i))
    (h : runFor c k ws s = .ok (s', o)) : Run c P s o s' := by
  induction k generalizing ws s o with
  | zero => cases h; exact .nil _
  | succ k ih =>
    simp only [runFor] at h
    split at h
    · cases h; exact .nil _
    · next hst =>
      split at h
      · cases h
      · next s₁ o₁ hm =>
        split at h
        · cases h
        · next s₂ o₂ hk =>
          cases h
          exact .cons (hw 0) hst hm (ih (fun i => hw (i + 1)) hk)

theorem runFor_cons {w : World} {ws : Nat → World} {k : Nat} {s s₁ s' : S E} {o o' : List (Out E)}
    (hst : s.st ≠ .stopped) (h0 : ws 0 = w) (hm : Moved c w (s.ask w) o s₁)
    (h : runFor c k (fun i => ws (i + 1)) s₁ = .ok (s', o')) :
    runFor c (k + 1) ws s = .ok (s', o ++ o') := by
  simp only [runFor]
  rw [if_neg hst, h0, hm.move]
  simp only [h]

/-- A lexicographic measure ends every run. -/
theorem run_ends {I : S E → Prop} (a b d : S E → Nat) (hf : ∀ t b, (E.train t b).2 ≠ .exploded)
    (hI : ∀ w s o s', Quiet w → s.st ≠ .stopped → I s → Moved c w (s.ask w) o s' →
      I s' ∧ (a s' < a s ∨ (a s' = a s ∧ (b s' < b s ∨ (b s' = b s ∧ d s' < d s)))))
    (ws : Nat → World) (hw : ∀ i, Quiet (ws i)) (s : S E) (hs : I s) (hr : Ready c s) :
    ∃ k s' o, runFor c k ws s = .ok (s', o) ∧ s'.st = .stopped := by
  by_cases hst : s.st = .stopped
  · exact ⟨0, s, [], rfl, hst⟩
  · have hr' : Ready c (s.ask (ws 0)) := ⟨hr.batch, hr.valid⟩
    obtain ⟨o, s₁, hm⟩ := can_move (w := ws 0) hr' hst hf
    obtain ⟨h1, h2⟩ := hI _ _ _ _ (hw 0) hst hs hm
    obtain ⟨k, s', o', hk, he⟩ := run_ends a b d hf hI (fun i => ws (i + 1)) (fun i => hw (i + 1)) s₁ h1 hm.ready
    exact ⟨k + 1, s', o ++ o', runFor_cons hst rfl hm hk, he⟩
termination_by (a s, b s, d s)
decreasing_by
  rcases h2 with h | ⟨h, h' | ⟨h', h''⟩⟩
  · exact Prod.Lex.left _ _ h
  · rw [h]; exact Prod.Lex.right _ (Prod.Lex.left _ _ h')
  · rw [h, h']; exact Prod.Lex.right _ (Prod.Lex.right _ h'')

/-! ## With a limit on steps -/

def stageN (s : S E) : Nat :=
  match s.st with
  | .preValidation => 9
  | .postStep => 8
  | .gradOverflow => 7
  | .dataLoad => if (E.next s.reader).isNone then 4 else 2
  | .endOfDataEpoch => 3
  | .step => 1
  | .stopped => 0
  | _ => 1

structure GoodN (c : Cfg) (n : Nat) (s : S E) : Prop where
  plain : Plain s
  counted : Counted s
  below : Below c s
  next : s.st = .endOfDataEpoch → E.next s.reader ≠ none

theorem ends_steps {n : Nat} (hs : Settles E) (hreset : ∀ d, E.next (E.reset d) ≠ none)
    (hn : c.maxSteps = some n) (he : c.maxEpochs = none) (ws : Nat → World) (hw : ∀ i, Quiet (ws i)) (s : S E)
    (hg : GoodN c n s) (hr : Ready c s) :
    ∃ k s' o, runFor c k ws s = .ok (s', o) ∧ s'.st = .stopped := by
  refine run_ends (I := GoodN c n) (fun s => n - s.applied) (fun s => hs.fuel s.model) stageN hs.fine ?_ ws hw s hg hr
  intro w s o s' hw hst hI hm
  have hp := hm.plain hw he hst hI.plain
  obtain ⟨hc, hb, -⟩ := hm.counted (s := s.ask w) hI.counted hI.below
  have hq : (s.ask w).stopReq = false := by simp [S.ask, hI.plain.2.2.2 hst, hw.1]
  have hb0 : ∀ m, c.maxSteps = some m → _ := (show Below c (s.ask w) from hI.below)
  replace hb0 := hb0 n hn
  have hnx : (s.ask w).st = .endOfDataEpoch → E.next (s.ask w).reader ≠ none := hI.next
  obtain ⟨p1, p2, p3, -⟩ := hI.plain
  rw [show s.st = (s.ask w).st from rfl] at p1 p2 p3
  show GoodN c n s' ∧ (n - s'.applied < n - (s.ask w).applied ∨ (n - s'.applied = n - (s.ask w).applied ∧
    (hs.fuel s'.model < hs.fuel (s.ask w).model ∨ (hs.fuel s'.model = hs.fuel (s.ask w).model ∧
      stageN s' < stageN (s.ask w)))))
  clear hI hst
  generalize s.ask w = s₁ at *
  refine ⟨⟨hp, hc, hb, ?_⟩, ?_⟩
  · cases hm with
    | epoch => intro _; exact hreset _
    | epochGo | postGo => simp only [goOn, wantsStop_quiet hw]; simp
    | _ => simp
  · clear hp hc hb
    cases hm with
    | pre h1 | again h1 =>
      simp [stageN, h1]
      split <;> omega
    | postMax h1 | epochMax h1 | empty h1 h2 => simp_all [stageN]
    | lastEpoch _ h2 => rw [he] at h2; cases h2
    | epochStop _ _ _ h2 | postStop _ _ h2 | repeatStop _ h2 => rw [hq] at h2; cases h2
    | read h1 h2 => simp [stageN, h1, h2]
    | epoch h1 h2 h3 => simp [stageN, h1, h2]
    | epochGo h1 =>
      have := hnx h1
      simp [stageN, h1, goOn, wantsStop_quiet hw, this]
    | postGo h1 =>
      simp [stageN, h1, goOn, wantsStop_quiet hw]
      split <;> omega
    | @over b t h1 h2 h3 =>
      have := hs.less _ _ _ h3
      exact .inr ⟨rfl, .inl this⟩
    | update h1 =>
      rw [h1] at hb0
      simp only at hb0
      left
      simp only
      omega
    | stopValid h1 | stopPlain h1 =>
      rcases h1 with h1 | h1 | h1 <;> simp [stageN, h1]
    | earlySave h1 | earlyPlain h1 => simp [stageN, h1]

theorem fresh_ready (hv : c.validateAtStart = true → c.validator = true) (d : E.D) (t : E.T) :
    Ready c (fresh c d t) := by
  constructor <;> unfold fresh <;> cases h : c.validateAtStart <;> simp
  exact hv h

theorem fresh_plain (d : E.D) (t : E.T) : Plain (fresh c d t) := by
  unfold Plain fresh
  cases c.validateAtStart <;> simp

theorem fresh_reached (n : Nat) (d : E.D) (t : E.T) : Reached n (fresh c d t) := by
  unfold Reached fresh
  cases c.validateAtStart <;> simp

/-! ## With a limit on epochs -/

/-- Passes over the data, and the number of the epoch. -/
def Passed (e : Nat) (o : List (Out E)) (s : S E) : Prop :=
  (s.epoch = 1 ∨ 0 < s.applied) ∧
  match s.st with
  | .endOfDataEpoch => epochs o = s.epoch ∧ s.epoch ≤ e ∧ 0 < s.applied
  | .endOfData => epochs o = s.epoch ∧ s.epoch = e
  | .stopped => (epochs o = s.epoch ∧ s.epoch = e) ∨ (epochs o = 1 ∧ s.step = 0)
  | _ => epochs o + 1 = s.epoch ∧ s.epoch ≤ e

/-- The states of a run that nobody stops, with a limit on epochs only. -/
def PlainE (s : S E) : Prop :=
  s.st ≠ .stopRequested ∧ s.st ≠ .earlyStop ∧ s.st ≠ .endOfTraining ∧ (s.st ≠ .stopped → s.stopReq = false)

theorem Moved.plainE {w : World} {s s' : S E} {o : List (Out E)} (h : Moved c w (s.ask w) o s') (hw : Quiet w)
    (he : c.maxSteps = none) (hst : s.st ≠ .stopped) (hp : PlainE s) : PlainE s' := by
  have hq : (s.ask w).stopReq = false := by simp [S.ask, hp.2.2.2 hst, hw.1]
  obtain ⟨p1, p2, p3, p4⟩ := hp
  have p1' : (s.ask w).st ≠ .stopRequested := p1
  have p2' : (s.ask w).st ≠ .earlyStop := p2
  have p3' : (s.ask w).st ≠ .endOfTraining := p3
  cases h <;> simp_all [PlainE, goOn, wantsStop_quiet]

@[simp] theorem epochs_epoch : epochs [(Out.endOfEpoch : Out E)] = 1 := rfl
@[simp] theorem epochs_update (n : Nat) (b : E.B) : epochs [Out.update n b] = 0 := rfl
@[simp] theorem epochs_commit (n : Nat) : epochs [(Out.commit n : Out E)] = 0 := rfl
@[simp] theorem epochs_pollOut (w : World) (s : S E) : epochs (pollOut w s) = 0 := by
  unfold pollOut; split <;> simp
@[simp] theorem epochs_goOut (w : World) (s : S E) : epochs (goOut c w s) = 0 := by
  unfold goOut; split <;> simp

theorem Moved.passed {w : World} {s s' : S E} {o o' : List (Out E)} {e : Nat} (h : Moved c w s o' s') (hw : Quiet w)
    (he : c.maxEpochs = some e) (hp : s.st ≠ .stopRequested ∧ s.st ≠ .earlyStop ∧ s.st ≠ .endOfTraining)
    (hn : c.maxSteps = none) (hq : s.stopReq = false) (hc : Counted s) (hi : Passed e o s) :
    Passed e (o ++ o') s' := by
  obtain ⟨p1, p2, p3⟩ := hp
  obtain ⟨i1, i2⟩ := hi
  cases h with
  | pre h1 | read h1 | epoch h1 | lastEpoch h1 | over h1 | update h1 | again h1 =>
    simp only [Passed, h1, Counted] at i1 i2 hc ⊢
    simp
    grind
  | empty h1 =>
    simp only [Passed, h1, Counted] at i1 i2 hc ⊢
    simp
    grind
  | epochGo h1 | postGo h1 =>
    simp only [Passed, h1, Counted, goOn, wantsStop_quiet hw] at i1 i2 hc ⊢
    simp
    grind
  | epochMax _ _ h2 | postMax _ h2 => rw [hn] at h2; cases h2
  | epochStop _ _ _ h2 | postStop _ _ h2 | repeatStop _ h2 => rw [hq] at h2; cases h2
  | stopValid h1 =>
    rcases h1 with h1 | h1 | h1
    · exact absurd h1 p3
    · simp only [Passed, h1, Counted, epochs_append] at i1 i2 hc ⊢
      simp
      grind
    · exact absurd h1 p1
  | stopPlain h1 =>
    have hu : epochs (if due c.checkpoint s then [(Out.commit s.step : Out E)] else []) = 0 := by
      split <;> rfl
    rcases h1 with h1 | h1 | h1
    · exact absurd h1 p3
    · simp only [Passed, h1, Counted, epochs_append, hu] at i1 i2 hc ⊢
      simp
      grind
    · exact absurd h1 p1
  | earlySave h1 | earlyPlain h1 => exact absurd h1 p2

def stageE (s : S E) : Nat :=
  match s.st with
  | .preValidation => 9
  | .step => 6
  | .postStep => 5
  | .gradOverflow => 5
  | .dataLoad => 4
  | .endOfDataEpoch => 3
  | .stopped => 0
  | _ => 1

def epochsLeft (e : Nat) (s : S E) : Nat :=
  match s.st with
  | .endOfDataEpoch | .endOfData | .stopped => 2 * (e - s.epoch)
  | _ => 2 * (e - s.epoch) + 1

/-- Epochs are numbered up to the limit. -/
def InEpoch (e : Nat) (s : S E) : Prop := s.epoch ≤ e ∧ (s.st = .endOfData → s.epoch = e)

theorem ends_epochs {e : Nat} (hs : Ends E) (hf : ∀ t b, (E.train t b).2 ≠ .exploded)
    (hn : c.maxSteps = none) (he : c.maxEpochs = some e) (ws : Nat → World) (hw : ∀ i, Quiet (ws i)) (s : S E)
    (hp : PlainE s) (hi : InEpoch e s) (hr : Ready c s) :
    ∃ k s' o, runFor c k ws s = .ok (s', o) ∧ s'.st = .stopped := by
  refine run_ends (I := fun s => PlainE s ∧ InEpoch e s) (epochsLeft e) (fun s => hs.left s.reader) stageE hf
    ?_ ws hw s ⟨hp, hi⟩ hr
  intro w s o s' hw hst hI hm
  obtain ⟨hI, hi1, hi2⟩ := hI
  have hp := hm.plainE hw hn hst hI
  have hq : (s.ask w).stopReq = false := by simp [S.ask, hI.2.2.2 hst, hw.1]
  obtain ⟨p1, p2, p3, -⟩ := hI
  have e1 : (s.ask w).st = s.st := rfl
  have e2 : (s.ask w).epoch = s.epoch := rfl
  have e4 : (s.ask w).reader = s.reader := rfl
  rw [show s.st = (s.ask w).st from rfl] at p1 p2 p3 hi2
  rw [show s.epoch = (s.ask w).epoch from rfl] at hi1 hi2
  show (PlainE s' ∧ InEpoch e s') ∧ (epochsLeft e s' < epochsLeft e (s.ask w) ∨ (epochsLeft e s' = epochsLeft e (s.ask w) ∧
    (hs.left s'.reader < hs.left (s.ask w).reader ∨ (hs.left s'.reader = hs.left (s.ask w).reader ∧
      stageE s' < stageE (s.ask w)))))
  clear e1 e2 e4
  generalize s.ask w = s₁ at *
  refine ⟨⟨hp, ?_⟩, ?_⟩
  · cases hm with
    | epochGo h1 h2 | postGo h1 h2 =>
      simp only [InEpoch, goOn, wantsStop_quiet hw]
      simp
      grind
    | epochMax _ _ h2 | postMax _ h2 => rw [hn] at h2; cases h2
    | epochStop _ _ _ h2 | postStop _ _ h2 | repeatStop _ h2 => rw [hq] at h2; cases h2
    | _ => simp only [InEpoch] <;> grind
  · cases hm with
    | pre h1 | again h1 | over h1 | update h1 | empty h1 =>
      simp [stageE, epochsLeft, h1] <;> omega
    | read h1 h2 =>
      have := hs.less _ _ _ h2
      simp [epochsLeft, h1, this]
    | epoch h1 h2 h3 =>
      simp [epochsLeft, h1]
    | lastEpoch h1 =>
      simp [stageE, epochsLeft, h1]
    | epochGo h1 h2 =>
      have := h2 e he
      simp [epochsLeft, h1, goOn, wantsStop_quiet hw]
      omega
    | postGo h1 =>
      simp [stageE, epochsLeft, h1, goOn, wantsStop_quiet hw]
    | epochMax _ _ h2 | postMax _ h2 => rw [hn] at h2; cases h2
    | epochStop _ _ _ h2 | postStop _ _ h2 | repeatStop _ h2 => rw [hq] at h2; cases h2
    | stopValid h1 | stopPlain h1 =>
      rcases h1 with h1 | h1 | h1
      · exact absurd h1 p3
      · simp [stageE, epochsLeft, h1]
      · exact absurd h1 p1
    | earlySave h1 | earlyPlain h1 => exact absurd h1 p2

end Fs2.Train
