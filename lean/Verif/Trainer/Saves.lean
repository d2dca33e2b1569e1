import Verif.Trainer.Live

/-!
# What is saved and committed
-/

namespace Fs2.Train

variable {E : Env} {c : Cfg} {P : World → Prop}

@[simp] theorem snaps_epoch : snaps [(Out.endOfEpoch : Out E)] = [] := rfl
@[simp] theorem snaps_update (n : Nat) (b : E.B) : snaps [Out.update n b] = [] := rfl
@[simp] theorem snaps_commit (n : Nat) : snaps [(Out.commit n : Out E)] = [] := rfl
@[simp] theorem snaps_pollOut (w : World) (s : S E) : snaps (pollOut w s) = [] := by
  unfold pollOut; split <;> simp
@[simp] theorem snaps_goOut (w : World) (s : S E) :
    snaps (goOut c w s) = if due c.checkpoint s then [s.snap] else [] := by
  unfold goOut; split <;> simp

@[simp] theorem saves_epoch : saves [(Out.endOfEpoch : Out E)] = [] := rfl
@[simp] theorem saves_update (n : Nat) (b : E.B) : saves [Out.update n b] = [] := rfl
@[simp] theorem saves_commit (n : Nat) : saves [(Out.commit n : Out E)] = [] := rfl
@[simp] theorem saves_pollOut (w : World) (s : S E) : saves (pollOut w s) = [] := by
  unfold pollOut; split <;> simp
@[simp] theorem saves_goOut (w : World) (s : S E) :
    saves (goOut c w s) = if due c.checkpoint s then [s.step] else [] := by
  unfold goOut; split <;> simp

@[simp] theorem commits_epoch : commits [(Out.endOfEpoch : Out E)] = [] := rfl
@[simp] theorem commits_update (n : Nat) (b : E.B) : commits [Out.update n b] = [] := rfl
@[simp] theorem commits_commit (n : Nat) : commits [(Out.commit n : Out E)] = [n] := rfl
@[simp] theorem commits_pollOut (w : World) (s : S E) :
    commits (pollOut w s) = if w.done then s.pending.toList else [] := by
  unfold pollOut; split <;> simp
@[simp] theorem commits_goOut (w : World) (s : S E) :
    commits (goOut c w s) = if due c.checkpoint s then s.pending.toList else [] := by
  unfold goOut; split <;> simp

@[simp] theorem publs_epoch : publs [(Out.endOfEpoch : Out E)] = [] := rfl
@[simp] theorem publs_update (n : Nat) (b : E.B) : publs [Out.update n b] = [] := rfl
@[simp] theorem publs_commit (n : Nat) : publs [(Out.commit n : Out E)] = [] := rfl
@[simp] theorem publs_pollOut (w : World) (s : S E) : publs (pollOut w s) = [] := by
  unfold pollOut; split <;> simp
@[simp] theorem publs_goOut (w : World) (s : S E) :
    publs (goOut c w s) = if due c.publish s then [s.step] else [] := by
  unfold goOut; split <;> simp

@[simp] theorem valids_epoch : valids [(Out.endOfEpoch : Out E)] = [] := rfl
@[simp] theorem valids_update (n : Nat) (b : E.B) : valids [Out.update n b] = [] := rfl
@[simp] theorem valids_commit (n : Nat) : valids [(Out.commit n : Out E)] = [] := rfl
@[simp] theorem valids_pollOut (w : World) (s : S E) : valids (pollOut w s) = [] := by
  unfold pollOut; split <;> simp
@[simp] theorem valids_goOut (w : World) (s : S E) :
    valids (goOut c w s) = if dueVal c s then [s.step] else [] := by
  unfold goOut; split <;> simp

/-! ## Labels of checkpoints -/

theorem Moved.snapped {w : World} {s s' : S E} {o : List (Out E)} (h : Moved c w s o s') :
    snaps o = [] ∨ (snaps o = [s.snap] ∧ Active s.st) := by
  cases h with
  | epochGo h1 | postGo h1 =>
    rw [snaps_goOut]
    split
    · exact .inr ⟨rfl, by simp [Active, h1]⟩
    · exact .inl rfl
  | stopValid h1 =>
    rw [snaps_append, snaps_append, snaps_append, snaps_commitOf, snaps_valOut, snaps_pubOut, snaps_saveOut]
    split
    · exact .inr ⟨rfl, by rcases h1 with h | h | h <;> simp [Active, h]⟩
    · exact .inl rfl
  | stopPlain h1 =>
    rw [snaps_append, snaps_append, snaps_pubOut, snaps_saveOut]
    split
    · exact .inr ⟨rfl, by rcases h1 with h | h | h <;> simp [Active, h]⟩
    · exact .inl rfl
  | earlySave h1 h2 => exact .inr ⟨by simp [h2], by simp [Active, h1]⟩
  | _ => exact .inl (by simp)

/-- The step number is right, also after a stop. -/
def Exact (s : S E) : Prop :=
  match s.st with
  | .gradOverflow => s.step = s.applied + 1
  | _ => s.step = s.applied

theorem Moved.exact {w : World} {s s' : S E} {o : List (Out E)} (h : Moved c w s o s')
    (hne : ¬(s.st = .gradOverflow ∧ s.stopReq = true)) (he : Exact s) : Exact s' := by
  cases h with
  | epochGo h1 | postGo h1 =>
    simp only [Exact, h1, goOn] at he ⊢
    by_cases hw : wantsStop c w s <;> simp [hw, he]
  | stopValid h1 | stopPlain h1 =>
    rcases h1 with h1 | h1 | h1 <;> simp only [Exact, h1] at he ⊢ <;> exact he
  | repeatStop h1 h2 => exact absurd ⟨h1, h2⟩ hne
  | pre h1 | read h1 | empty h1 | epoch h1 | lastEpoch h1 | epochMax h1 | epochStop h1 | postMax h1 | postStop h1
  | again h1 | over h1 | update h1 | earlySave h1 | earlyPlain h1 =>
    simp only [Exact, h1] at he ⊢
    omega

theorem Exact.label {s : S E} (h : Exact s) (ha : Active s.st) : s.snap.step = s.snap.applied := by
  show s.step = s.applied
  unfold Exact at h
  rcases ha with h1 | h1 | h1 | h1 | h1 | h1 | h1 <;> simpa [h1] using h

/-- Labels along a run in which no stop request meets an overflow. -/
theorem Run.labels {s s' : S E} {o : List (Out E)} {J : S E → Prop} (h : Run c P s o s') (he : Exact s) (hJ : J s)
    (hstep : ∀ w s o s', P w → s.st ≠ .stopped → J s → Moved c w (s.ask w) o s' →
      J s' ∧ ¬((s.ask w).st = .gradOverflow ∧ (s.ask w).stopReq = true)) :
    Exact s' ∧ J s' ∧ ∀ k ∈ snaps o, k.step = k.applied := by
  refine Run.induct (I := fun o s' => Exact s' ∧ J s' ∧ ∀ k ∈ snaps o, k.step = k.applied)
    ⟨he, hJ, by simp⟩ ?_ h
  intro w s₁ o s' o' hw hst ih hm
  obtain ⟨i1, i2, i3⟩ := ih
  obtain ⟨j1, j2⟩ := hstep w s₁ o' s' hw hst i2 hm
  refine ⟨hm.exact j2 i1, j1, ?_⟩
  intro k hk
  rw [snaps_append, List.mem_append] at hk
  rcases hk with hk | hk
  · exact i3 k hk
  · rcases hm.snapped with h | ⟨h, ha⟩
    · rw [h] at hk; cases hk
    · rw [h] at hk
      cases List.mem_singleton.mp hk
      exact Exact.label (s := s₁.ask w) i1 ha

theorem fresh_exact (d : E.D) (t : E.T) : Exact (fresh c d t) := by
  unfold fresh Exact
  cases c.validateAtStart <;> simp

theorem restored_exact {k : Snap E} (h : k.step = k.applied) : Exact (restored c k) := by
  have h1 : (restored c k).applied = k.applied := rfl
  have h2 : (restored c k).step = k.step := rfl
  rcases restored_st c k with hs | ⟨hs, -⟩ <;> simp only [Exact, hs, h1, h2] <;> omega

/-- No request to stop. -/
theorem Moved.unasked {w : World} {s s' : S E} {o : List (Out E)} (h : Moved c w (s.ask w) o s')
    (hw : w.stop = false) (hq : s.st ≠ .stopped → s.stopReq = false) (hst : s.st ≠ .stopped) :
    (s'.st ≠ .stopped → s'.stopReq = false) ∧ ¬((s.ask w).st = .gradOverflow ∧ (s.ask w).stopReq = true) := by
  have hq : (s.ask w).stopReq = false := by simp [S.ask, hq hst, hw]
  refine ⟨?_, by simp [hq]⟩
  cases h <;> simp_all [goOn]

/-- No overflow. -/
theorem Moved.smooth {w : World} {s s' : S E} {o : List (Out E)} (h : Moved c w s o s')
    (hE : ∀ t b, (E.train t b).2 ≠ .overflowed) (_ : s.st ≠ .gradOverflow) : s'.st ≠ .gradOverflow := by
  cases h with
  | @over b t _ _ h3 => exact absurd (by rw [h3]) (hE s.model b)
  | epochGo | postGo => simp only [goOn]; split <;> simp
  | _ => simp

/-! ## Commits -/

theorem Moved.saved {w : World} {s s' : S E} {o : List (Out E)} (h : Moved c w s o s') :
    s.pending.toList ++ saves o = commits o ++ s'.pending.toList := by
  cases h with
  | epochGo | postGo => simp [goOn, pend]; split <;> simp
  | over | update => simp [polled]; split <;> simp
  | stopValid =>
    simp [pend]
    split <;> simp
  | stopPlain =>
    simp only [commits_append, saves_append]
    simp
    split <;> simp
  | earlySave _ h2 => simp [h2]
  | _ => simp

theorem Run.saved {s s' : S E} {o : List (Out E)} (h : Run c P s o s') :
    s.pending.toList ++ saves o = commits o ++ s'.pending.toList := by
  refine Run.induct (I := fun o s' => s.pending.toList ++ saves o = commits o ++ s'.pending.toList) (by simp) ?_ h
  intro w s₁ o s' o' _ _ ih hm
  have := hm.saved
  rw [saves_append, commits_append, ← List.append_assoc, ih, List.append_assoc, List.append_assoc]
  exact congrArg _ this

/-- A save in progress at the end. -/
def Pended (c : Cfg) (s : S E) : Prop :=
  (s.st = .postStep ∨ s.st = .gradOverflow ∨ s.st = .endOfDataEpoch → 0 < s.step) ∧
  (s.pending ≠ none → (s.st = .gradOverflow → 2 ≤ s.step) ∧ 0 < s.step) ∧
  (s.st = .endOfData → c.maxEpochs ≠ none) ∧
  (s.st = .stopped → s.pending = none ∨
    (c.maxEpochs ≠ none ∧ dueAtStep c.checkpoint s.step = true ∧ (c.validator = true → dueAtStep c.validate s.step = true)))

theorem Moved.pended {w : World} {s s' : S E} {o : List (Out E)} (h : Moved c w s o s') (hp : Pended c s) :
    Pended c s' := by
  obtain ⟨p1, p2, p3, p4⟩ := hp
  cases h with
  | epochGo h1 | postGo h1 =>
    simp only [Pended, goOn, pend]
    split <;> split <;> simp_all
  | over h1 | update h1 =>
    simp only [Pended, polled]
    split <;> simp_all <;> grind
  | stopValid h1 h2 => simp [Pended]
  | stopPlain h1 h2 =>
    rcases h1 with h1 | h1 | h1
    · simp [Pended, due, h1, shouldDo]
    · simp only [dueVal, due, h1, shouldDo, Bool.and_eq_false_iff, Bool.not_eq_false'] at h2
      simp only [Pended, due, h1, shouldDo]
      refine ⟨by simp, ?_, by simp, ?_⟩
      · grind
      · intro _
        cases hd : dueAtStep c.checkpoint s.step with
        | false => simp
        | true =>
          refine .inr ⟨p3 h1, rfl, fun hv => ?_⟩
          rcases h2 with h2 | h2
          · rw [hv] at h2; cases h2
          · exact h2
    · simp [Pended, due, h1, shouldDo]
  | earlySave | earlyPlain => simp [Pended]
  | again h1 =>
    simp only [Pended, h1] at *
    simp
    intro h
    have := p2 h
    simp at this
    omega
  | pre h1 | read h1 | empty h1 | epoch h1 | lastEpoch h1 | epochMax h1 | epochStop h1 | postMax h1 | postStop h1
  | repeatStop h1 => simp only [Pended, h1] at *; simp; grind

theorem Run.pended {s s' : S E} {o : List (Out E)} (h : Run c P s o s') (hp : Pended c s) : Pended c s' :=
  Run.induct (I := fun _ s' => Pended c s') hp (fun _ _ _ _ _ _ _ ih hm => hm.pended (s := S.ask _ _) ih) h

theorem fresh_pended (d : E.D) (t : E.T) : Pended c (fresh c d t) := by
  unfold Pended fresh
  cases c.validateAtStart <;> simp

theorem restored_pended (k : Snap E) : Pended c (restored c k) := by
  have h1 : (restored c k).pending = none := rfl
  rcases restored_st c k with hs | ⟨hs, -⟩ <;> simp [Pended, hs, h1]

end Fs2.Train
