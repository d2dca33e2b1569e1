import Verif.Trainer.Again

/-!
# Periodic actions
-/

namespace Fs2.Train

variable {E : Env} {c : Cfg} {P : World → Prop}

/-- `f` picks the action with period `p` from what is seen. -/
structure Fires (c : Cfg) (p : Period) (f : List (Out E) → List Nat) : Prop where
  app : ∀ a b, f (a ++ b) = f a ++ f b
  nil : f [] = []
  epoch : f [.endOfEpoch] = []
  update : ∀ n b, f [.update n b] = []
  poll : ∀ w s, f (pollOut w s) = []
  go : ∀ w s, f (goOut c w s) = if due p s then [s.step] else []
  valid : ∀ w s, dueVal c s = true →
    f (pubOut c s ++ saveOut c s ++ valOut c w s ++ commitOf (pend c s)) = if due p s then [s.step] else []
  plain : ∀ s, dueVal c s = false →
    f (pubOut c s ++ (saveOut c s ++ if due c.checkpoint s then [.commit s.step] else [])) =
      if due p s then [s.step] else []

theorem fires_saves : Fires (E := E) c c.checkpoint saves where
  app := saves_append
  nil := rfl
  epoch := rfl
  update _ _ := rfl
  poll := saves_pollOut
  go := saves_goOut
  valid _ _ _ := by simp
  plain s _ := by
    simp only [saves_append, saves_pubOut, saves_saveOut]
    split <;> simp

theorem fires_publs : Fires (E := E) c c.publish publs where
  app := publs_append
  nil := rfl
  epoch := rfl
  update _ _ := rfl
  poll := publs_pollOut
  go := publs_goOut
  valid _ _ _ := by simp
  plain s _ := by
    simp only [publs_append, publs_pubOut, publs_saveOut]
    split <;> split <;> simp

theorem fires_valids (hv : c.validator = true) : Fires (E := E) c c.validate valids where
  app := valids_append
  nil := rfl
  epoch := rfl
  update _ _ := rfl
  poll := valids_pollOut
  go w s := by simp [dueVal, hv]
  valid _ s h := by simp [dueVal, hv] at h; simp [h]
  plain s h := by
    simp [dueVal, hv] at h
    simp only [valids_append, valids_pubOut, valids_saveOut, h]
    split <;> simp

/-- Steps up to `m` at which an action is due. -/
def dues (p : Period) (m : Nat) : List Nat := (List.range' 1 m).filter (dueAtStep p)

theorem dues_succ (p : Period) (m : Nat) :
    dues p (m + 1) = dues p m ++ if dueAtStep p (m + 1) then [m + 1] else [] := by
  unfold dues
  rw [List.range'_concat, List.filter_append, Nat.one_mul, Nat.add_comm 1 m]
  congr 1
  simp [List.filter_cons]

/-- What has been done so far. -/
def Done (p : Period) (l : List Nat) (s : S E) : Prop :=
  match s.st with
  | .postStep | .gradOverflow | .endOfTraining => 0 < s.step ∧ l = dues p (s.step - 1)
  | .stopped => (s.step = 0 ∧ l = []) ∨ (0 < s.step ∧ l = dues p (s.step - 1) ++ [s.step])
  | _ => l = dues p s.step

theorem Moved.done {w : World} {s s' : S E} {o : List (Out E)} {p : Period} {f : List (Out E) → List Nat} {l : List Nat}
    {n : Nat} (hf : Fires c p f) (h : Moved c w s o s') (hn : c.maxSteps = some n) (he : p.everyEpochs = none)
    (hw : Quiet w) (hp : s.st ≠ .stopRequested ∧ s.st ≠ .earlyStop ∧ s.st ≠ .endOfData) (hq : s.stopReq = false)
    (hpre : s.st ≠ .preValidation)
    (hm : c.maxEpochs = none) (hb : Below c s) (hc : Counted s) (hd : Done p l s) : Done p (l ++ f o) s' := by
  obtain ⟨p1, p2, p3⟩ := hp
  cases h with
  | pre h1 => exact absurd h1 hpre
  | read h1 =>
    simp only [Done, h1, hf.nil, List.append_nil] at hd ⊢
    exact hd
  | empty h1 h2 h3 =>
    simp only [Done, h1, hf.epoch, List.append_nil] at hd ⊢
    exact .inl ⟨h3, by rw [hd, h3]; rfl⟩
  | epoch h1 =>
    simp only [Done, h1, hf.epoch, List.append_nil] at hd ⊢
    exact hd
  | lastEpoch _ h2 => rw [hm] at h2; cases h2
  | epochMax h1 h2 h3 h4 =>
    have := hb n hn
    rw [hn] at h3
    cases h3
    simp only [h1, Counted] at this hc
    omega
  | epochStop _ _ _ h2 | postStop _ _ h2 | repeatStop _ h2 => rw [hq] at h2; cases h2
  | epochGo h1 h2 h3 =>
    rw [hf.go]
    simp only [Done, h1, goOn, wantsStop_quiet hw] at hd ⊢
    simp [due, h1, shouldDo, he, hd]
  | over h1 =>
    simp only [Done, h1, hf.poll, List.append_nil] at hd ⊢
    exact ⟨by omega, hd⟩
  | update h1 =>
    simp only [Done, h1, hf.app, hf.poll, hf.update, List.append_nil] at hd ⊢
    exact ⟨by omega, hd⟩
  | postMax h1 =>
    simp only [Done, h1, hf.nil, List.append_nil] at hd ⊢
    exact hd
  | postGo h1 h3 =>
    rw [hf.go]
    simp only [Done, h1, goOn, wantsStop_quiet hw] at hd ⊢
    simp only [due, h1, shouldDo]
    obtain ⟨hd1, hd2⟩ := hd
    have := dues_succ p (s.step - 1)
    rw [show s.step - 1 + 1 = s.step from by omega] at this
    simp only [Bool.false_eq_true, if_false]
    rw [this, hd2]
  | again h1 =>
    simp only [Done, h1, hf.nil, List.append_nil] at hd ⊢
    exact hd.2
  | stopValid h1 h2 =>
    rcases h1 with h1 | h1 | h1
    · rw [hf.valid _ _ h2]
      simp only [Done, h1] at hd ⊢
      refine .inr ⟨hd.1, ?_⟩
      simp [due, h1, shouldDo, hd.2]
    · exact absurd h1 p3
    · exact absurd h1 p1
  | stopPlain h1 h2 =>
    rcases h1 with h1 | h1 | h1
    · rw [hf.plain _ h2]
      simp only [Done, h1] at hd ⊢
      refine .inr ⟨hd.1, ?_⟩
      simp [due, h1, shouldDo, hd.2]
    · exact absurd h1 p3
    · exact absurd h1 p1
  | earlySave h1 | earlyPlain h1 => exact absurd h1 p2

/-- Everything that is needed, together. -/
theorem Run.done {s s' : S E} {o : List (Out E)} {p : Period} {f : List (Out E) → List Nat} {n : Nat}
    (hf : Fires c p f) (h : Run c P s o s') (hP : ∀ w, P w → Quiet w) (hn : c.maxSteps = some n)
    (hm : c.maxEpochs = none) (he : p.everyEpochs = none) (hp : Plain s) (hb : Below c s) (hc : Counted s)
    (hd : Done p [] s) (hpre : s.st ≠ .preValidation) : Done p (f o) s' := by
  have := Run.induct (I := fun o s' => Plain s' ∧ Below c s' ∧ Counted s' ∧ s'.st ≠ .preValidation ∧ Done p (f o) s')
    ⟨hp, hb, hc, hpre, by rw [hf.nil]; exact hd⟩ ?_ h
  · exact this.2.2.2.2
  · intro w s₁ o s' o' hw hst ih hM
    obtain ⟨i1, i2, i3, i4, i5⟩ := ih
    obtain ⟨j1, j2, -⟩ := hM.counted (s := s₁.ask w) i3 i2
    have hq : (s₁.ask w).stopReq = false := by simp [S.ask, i1.2.2.2 hst, (hP w hw).1]
    refine ⟨hM.plain (hP w hw) hm hst i1, j2, j1, ?_, ?_⟩
    · cases hM with
      | epochGo | postGo => simp only [goOn]; split <;> simp
      | _ => simp
    · rw [hf.app]
      exact hM.done hf hn he (hP w hw) ⟨i1.1, i1.2.1, i1.2.2.1⟩ hq i4 hm i2 i3 i5

/-! ## Epochs -/

/-- Epochs up to `m` at which an action is due. -/
def epochDue (p : Period) (e : Nat) : Bool :=
  match p.everyEpochs with
  | none => false
  | some k => e > p.afterEpochs && e % k == 0

def epochDues (p : Period) (m : Nat) : List Nat := (List.range' 1 m).filter (epochDue p)

theorem epochDues_succ (p : Period) (m : Nat) :
    epochDues p (m + 1) = epochDues p m ++ if epochDue p (m + 1) then [m + 1] else [] := by
  unfold epochDues
  rw [List.range'_concat, List.filter_append, Nat.one_mul, Nat.add_comm 1 m]
  congr 1
  simp [List.filter_cons]

def DoneE (p : Period) (l : List Nat) (s : S E) : Prop :=
  0 < s.epoch ∧
  match s.st with
  | .stopped => (s.step = 0 ∧ l = epochDues p (s.epoch - 1)) ∨ l = epochDues p (s.epoch - 1) ++ [s.epoch]
  | _ => l = epochDues p (s.epoch - 1)

theorem Moved.doneE {w : World} {s s' : S E} {o : List (Out E)} {l : List Nat}
    (h : Moved c w s o s') (hn : c.maxSteps = none) (he : c.checkpoint.everySteps = none)
    (hw : Quiet w) (hp : s.st ≠ .stopRequested ∧ s.st ≠ .earlyStop ∧ s.st ≠ .endOfTraining) (hq : s.stopReq = false)
    (hd : DoneE c.checkpoint l s) : DoneE c.checkpoint (l ++ (snaps o).map (·.epoch)) s' := by
  obtain ⟨p1, p2, p3⟩ := hp
  obtain ⟨d0, hd⟩ := hd
  cases h with
  | pre h1 | read h1 | epoch h1 | lastEpoch h1 | over h1 | update h1 | again h1 =>
    simp only [h1] at hd
    exact ⟨d0, by simpa using hd⟩
  | empty h1 h2 h3 =>
    simp only [h1] at hd
    exact ⟨d0, .inl ⟨h3, by simpa using hd⟩⟩
  | epochMax _ _ h2 | postMax _ h2 => rw [hn] at h2; cases h2
  | epochStop _ _ _ h2 | postStop _ _ h2 | repeatStop _ h2 => rw [hq] at h2; cases h2
  | epochGo h1 =>
    simp only [h1] at hd
    refine ⟨by simp, ?_⟩
    simp only [goOn, wantsStop_quiet hw, snaps_goOut]
    have := epochDues_succ c.checkpoint (s.epoch - 1)
    rw [show s.epoch - 1 + 1 = s.epoch from by omega] at this
    simp only [Bool.false_eq_true, if_false, Nat.add_sub_cancel]
    rw [this, hd]
    congr 1
    have : due c.checkpoint s = epochDue c.checkpoint s.epoch := by
      simp only [due, h1, shouldDo, epochDue]
      cases c.checkpoint.everyEpochs with
      | none => rfl
      | some k =>
        simp only [dueAtStep, he]
        cases (decide (s.epoch > c.checkpoint.afterEpochs) && s.epoch % k == 0) <;> rfl
    rw [this]
    split <;> simp [S.snap]
  | postGo h1 =>
    simp only [h1] at hd
    refine ⟨d0, ?_⟩
    simp only [goOn, wantsStop_quiet hw, snaps_goOut]
    simp [due, h1, shouldDo, dueAtStep, he, hd]
  | stopValid h1 h2 =>
    rcases h1 with h1 | h1 | h1
    · exact absurd h1 p3
    · simp only [h1] at hd
      refine ⟨d0, .inr ?_⟩
      simp [due, h1, shouldDo, dueAtStep, he, S.snap, hd]
    · exact absurd h1 p1
  | stopPlain h1 h2 =>
    rcases h1 with h1 | h1 | h1
    · exact absurd h1 p3
    · simp only [h1] at hd
      refine ⟨d0, .inr ?_⟩
      simp [due, h1, shouldDo, dueAtStep, he, S.snap, hd]
    · exact absurd h1 p1
  | earlySave h1 | earlyPlain h1 => exact absurd h1 p2

/-- A run limited to `e` epochs. -/
theorem Run.epochRun {s s' : S E} {o : List (Out E)} {e : Nat} (h : Run c P s o s') (hP : ∀ w, P w → Quiet w)
    (hn : c.maxSteps = none) (hm : c.maxEpochs = some e) (hp : PlainE s) (hb : Below c s) (hc : Counted s)
    (hpa : Passed e [] s) :
    PlainE s' ∧ Counted s' ∧ Passed e o s' ∧
    (c.checkpoint.everySteps = none → DoneE c.checkpoint [] s → DoneE c.checkpoint ((snaps o).map (·.epoch)) s') := by
  have := Run.induct (I := fun o s' => PlainE s' ∧ Below c s' ∧ Counted s' ∧ Passed e o s' ∧
    (c.checkpoint.everySteps = none → DoneE c.checkpoint [] s → DoneE c.checkpoint ((snaps o).map (·.epoch)) s'))
    ⟨hp, hb, hc, hpa, fun _ h => h⟩ ?_ h
  · exact ⟨this.1, this.2.2.1, this.2.2.2⟩
  · intro w s₁ o s' o' hw hst ih hM
    obtain ⟨i1, i2, i3, i4, i5⟩ := ih
    obtain ⟨j1, j2, -⟩ := hM.counted (s := s₁.ask w) i3 i2
    have hq : (s₁.ask w).stopReq = false := by simp [S.ask, i1.2.2.2 hst, (hP w hw).1]
    refine ⟨hM.plainE (hP w hw) hn hst i1, j2, j1,
      hM.passed (hP w hw) hm ⟨i1.1, i1.2.1, i1.2.2.1⟩ hn hq i3 i4, fun a b => ?_⟩
    rw [snaps_append, List.map_append]
    exact hM.doneE hn a (hP w hw) ⟨i1.1, i1.2.1, i1.2.2.1⟩ hq (i5 a b)

end Fs2.Train
