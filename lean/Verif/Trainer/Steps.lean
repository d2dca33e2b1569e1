import Verif.Trainer.Moved

/-!
# Numbers of steps and epochs
-/

namespace Fs2.Train

variable {E : Env} {c : Cfg} {P : World → Prop}

/-! ## Updates are numbered consecutively -/

/-- The step number is the number of updates applied, one more while an overflow is being handled. -/
def Counted (s : S E) : Prop :=
  match s.st with
  | .gradOverflow => s.step = s.applied + 1
  | .stopRequested | .stopped => s.applied ≤ s.step ∧ s.step ≤ s.applied + 1
  | _ => s.step = s.applied

/-- Numbers below the limit while training. -/
def Below (c : Cfg) (s : S E) : Prop :=
  ∀ n, c.maxSteps = some n →
    match s.st with
    | .preValidation | .dataLoad | .step | .endOfDataEpoch => s.applied < n
    | .gradOverflow => s.applied < n
    | _ => s.applied ≤ n

@[simp] theorem updates_update (n : Nat) (b : E.B) : updates [Out.update n b] = [(n, b)] := rfl
@[simp] theorem updates_epoch : updates [(Out.endOfEpoch : Out E)] = [] := rfl
@[simp] theorem updates_commit (n : Nat) : updates [(Out.commit n : Out E)] = [] := rfl
@[simp] theorem updates_pollOut (w : World) (s : S E) : updates (pollOut w s) = [] := by
  unfold pollOut; split <;> simp
@[simp] theorem updates_goOut (w : World) (s : S E) : updates (goOut c w s) = [] := by
  unfold goOut; split <;> simp

theorem Moved.counted {w : World} {s s' : S E} {o : List (Out E)} (h : Moved c w s o s')
    (hc : Counted s) (hb : Below c s) :
    Counted s' ∧ Below c s' ∧
    (updates o).map (·.1) = List.range' (s.applied + 1) (s'.applied - s.applied) ∧ s.applied ≤ s'.applied := by
  cases h with
  | pre h1 | read h1 | empty h1 | epoch h1 | lastEpoch h1 | epochMax h1 | epochStop h1 | postMax h1 | postStop h1
  | repeatStop h1 | again h1 =>
    simp only [Counted, Below, h1] at hc hb ⊢
    simp
    grind
  | epochGo h1 h2 h3 | postGo h1 h3 =>
    have h3 := h3.1
    simp only [Counted, Below, h1, goOn] at hc hb ⊢
    by_cases hw : wantsStop c w s <;> simp [hw] <;> grind
  | over h1 =>
    simp only [Counted, Below, h1] at hc hb ⊢
    simp
    grind
  | update h1 =>
    simp only [Counted, Below, h1] at hc hb ⊢
    simp
    grind
  | stopValid h1 =>
    rcases h1 with h1 | h1 | h1 <;> simp only [Counted, Below, h1, updates_append] at hc hb ⊢ <;> simp <;> grind
  | stopPlain h1 =>
    have hu : updates (if due c.checkpoint s then [(Out.commit s.step : Out E)] else []) = [] := by
      split <;> rfl
    rcases h1 with h1 | h1 | h1 <;> simp only [Counted, Below, h1, updates_append, hu] at hc hb ⊢ <;> simp <;> grind
  | earlySave h1 | earlyPlain h1 =>
    simp only [Counted, Below, h1] at hc hb ⊢
    simp
    grind

theorem Run.counted {s s' : S E} {o : List (Out E)} (h : Run c P s o s') (hc : Counted s) (hb : Below c s) :
    Counted s' ∧ Below c s' ∧
    (updates o).map (·.1) = List.range' (s.applied + 1) (s'.applied - s.applied) ∧ s.applied ≤ s'.applied := by
  refine Run.induct (I := fun o s' => Counted s' ∧ Below c s' ∧
    (updates o).map (·.1) = List.range' (s.applied + 1) (s'.applied - s.applied) ∧ s.applied ≤ s'.applied)
    ⟨hc, hb, by simp, Nat.le_refl _⟩ ?_ h
  intro w s₁ o s' o' _ _ ih hm
  obtain ⟨i1, i2, i3, i4⟩ := ih
  obtain ⟨j1, j2, j3, j4⟩ := hm.counted (s := s₁.ask w) i1 i2
  have j4 : s₁.applied ≤ s'.applied := j4
  refine ⟨j1, j2, ?_, by omega⟩
  rw [updates_append, List.map_append, i3, j3]
  have : (s₁.ask w).applied = s.applied + (s₁.applied - s.applied) := by
    show s₁.applied = _
    omega
  rw [this, show s.applied + (s₁.applied - s.applied) + 1 = s.applied + 1 + (s₁.applied - s.applied) from by omega,
    List.range'_append_1]
  congr 1
  omega

theorem fresh_counted (c : Cfg) (d : E.D) (t : E.T) : Counted (fresh c d t) := by
  unfold fresh Counted
  cases c.validateAtStart <;> simp

theorem fresh_below {c : Cfg} (hpos : ∀ n, c.maxSteps = some n → 0 < n) (d : E.D) (t : E.T) :
    Below c (fresh c d t) := by
  intro n hn
  have := hpos n hn
  unfold fresh
  cases c.validateAtStart <;> simpa

theorem restored_st (c : Cfg) (k : Snap E) : (restored c k).st = .stopped ∨
    ((restored c k).st = .dataLoad ∧ (∀ n, c.maxSteps = some n → k.step < n) ∧
      ∀ e, c.maxEpochs = some e → k.epoch < e) := by
  unfold restored
  simp only
  by_cases h1 : c.maxSteps.any (k.step ≥ ·) = true
  · simp [h1]
  · by_cases h2 : c.maxEpochs.any (k.epoch ≥ ·) = true
    · simp [h2]
    · refine .inr ⟨by simp [h1, h2], ?_, ?_⟩
      · intro n hn; simpa [hn] using h1
      · intro n hn; simpa [hn] using h2

theorem restored_counted (c : Cfg) {k : Snap E} (h : k.applied = k.step) : Counted (restored c k) := by
  have h1 : (restored c k).applied = k.applied := rfl
  have h2 : (restored c k).step = k.step := rfl
  rcases restored_st c k with hs | ⟨hs, -⟩ <;> simp only [Counted, hs, h1, h2] <;> omega

theorem restored_below {c : Cfg} {k : Snap E} (h : k.applied = k.step)
    (hk : ∀ n, c.maxSteps = some n → k.step ≤ n) : Below c (restored c k) := by
  intro n hn
  have h1 : (restored c k).applied = k.applied := rfl
  have := hk n hn
  rcases restored_st c k with hs | ⟨hs, hlt, -⟩ <;> simp only [hs, h1]
  · omega
  · have := hlt n hn
    omega

/-! ## With a limit on steps -/

/-- The states of a run that nobody stops, with a limit on steps only. -/
def Plain (s : S E) : Prop :=
  s.st ≠ .stopRequested ∧ s.st ≠ .earlyStop ∧ s.st ≠ .endOfData ∧ (s.st ≠ .stopped → s.stopReq = false)

theorem wantsStop_quiet {w : World} {s : S E} (h : Quiet w) : wantsStop c w s = false := by
  simp [wantsStop, h.2]

theorem Moved.plain {w : World} {s s' : S E} {o : List (Out E)} (h : Moved c w (s.ask w) o s') (hw : Quiet w)
    (he : c.maxEpochs = none) (hst : s.st ≠ .stopped) (hp : Plain s) : Plain s' := by
  have hq : (s.ask w).stopReq = false := by simp [S.ask, hp.2.2.2 hst, hw.1]
  obtain ⟨p1, p2, p3, p4⟩ := hp
  have p1' : (s.ask w).st ≠ .stopRequested := p1
  have p2' : (s.ask w).st ≠ .earlyStop := p2
  have p3' : (s.ask w).st ≠ .endOfData := p3
  cases h <;> simp_all [Plain, goOn, wantsStop_quiet]

/-- At the end all steps were done, unless the first pass over the data ended without an update. -/
def Reached (n : Nat) (s : S E) : Prop :=
  (s.st = .endOfTraining → n ≤ s.step) ∧ (s.st = .stopped → n ≤ s.step ∨ s.step = 0)

theorem Moved.reached {w : World} {s s' : S E} {o : List (Out E)} {n : Nat} (h : Moved c w s o s')
    (hn : c.maxSteps = some n) (hp : s.st ≠ .stopRequested ∧ s.st ≠ .earlyStop ∧ s.st ≠ .endOfData)
    (hr : Reached n s) : Reached n s' := by
  obtain ⟨p1, p2, p3⟩ := hp
  cases h with
  | stopValid h1 | stopPlain h1 =>
    rcases h1 with h1 | h1 | h1
    · refine ⟨by simp, fun _ => .inl (hr.1 h1)⟩
    · exact absurd h1 p3
    · exact absurd h1 p1
  | epochGo | postGo =>
    simp only [Reached, goOn]
    split <;> simp
  | _ => simp_all [Reached]

theorem Run.reached {s s' : S E} {o : List (Out E)} {n : Nat} (h : Run c P s o s') (hP : ∀ w, P w → Quiet w)
    (hn : c.maxSteps = some n) (he : c.maxEpochs = none) (hp : Plain s) (hr : Reached n s) :
    Plain s' ∧ Reached n s' := by
  refine Run.induct (I := fun _ s' => Plain s' ∧ Reached n s') ⟨hp, hr⟩ ?_ h
  intro w s₁ o s' o' hw hst ih hm
  exact ⟨hm.plain (hP w hw) he hst ih.1, hm.reached hn ⟨ih.1.1, ih.1.2.1, ih.1.2.2.1⟩ ih.2⟩

end Fs2.Train
