import Verif.Checkpoint.KeptSpec
import Verif.Trainer.Periods

/-!
# What the checkpoint manager has to do in the course of training: lemmas
-/

namespace Fs2.Keep
open Fs2.Train

variable {E : Env} {c : Cfg} {P : World → Prop}

/-! ## Saves, scores and commits alternate -/

/-- Follows the save in progress; `none` if something comes out of order. -/
def prot : Option Nat → List (Out E) → Option (Option Nat)
  | p, [] => some p
  | p, .save n _ _ :: o => if p = none then prot (some n) o else none
  | p, .commit n :: o => if p = some n then prot none o else none
  | p, .scored n :: o => if p = some n then prot p o else none
  | p, .update _ _ :: o | p, .endOfEpoch :: o | p, .validated _ :: o | p, .published _ :: o => prot p o

theorem prot_append (p : Option Nat) (a b : List (Out E)) : prot p (a ++ b) = (prot p a).bind fun q => prot q b := by
  induction a generalizing p with
  | nil => rfl
  | cons x a ih =>
    cases x <;> simp only [List.cons_append, prot, ih]
    all_goals split <;> rfl

theorem prot_commitOut (s : S E) : prot s.pending (commitOut s) = some none := by
  unfold commitOut
  cases s.pending <;> simp [prot]

theorem prot_commitOf (p : Option Nat) : prot p (commitOf p : List (Out E)) = some none := by
  cases p <;> simp [commitOf, prot]

theorem prot_pubOut (p : Option Nat) (s : S E) : prot p (pubOut c s) = some p := by
  unfold pubOut
  split <;> simp [prot]

theorem prot_saveOut (s : S E) : prot s.pending (saveOut c s) = some (pend c s) := by
  unfold saveOut pend
  split
  · simp [prot_append, prot_commitOut, prot]
  · simp [prot]

theorem prot_valOut (w : World) (s : S E) : prot (pend c s) (valOut c w s) = some (pend c s) := by
  unfold valOut pend
  cases due c.checkpoint s <;> cases w.score <;> simp [prot]

theorem prot_goOut (w : World) (s : S E) : prot s.pending (goOut c w s) = some (pend c s) := by
  unfold goOut
  rw [prot_append, prot_append, prot_saveOut]
  simp only [Option.bind_some, prot_pubOut]
  split
  · exact prot_valOut w s
  · rfl

theorem prot_pollOut (w : World) (s : S E) : prot s.pending (pollOut w s) = some (polled w s) := by
  unfold pollOut polled
  split
  · exact prot_commitOut s
  · rfl

theorem Moved.prot {w : World} {s s' : S E} {o : List (Out E)} (h : Moved c w s o s') :
    Keep.prot s.pending o = some s'.pending := by
  cases h with
  | pre h1 =>
    have : due c.checkpoint s = false := by simp [due, h1, shouldDo]
    simp [valOut, this, Keep.prot]
  | epochGo | postGo => exact prot_goOut w s
  | over => exact prot_pollOut w s
  | update => rw [prot_append, prot_pollOut]; rfl
  | stopValid =>
    rw [prot_append, prot_append, prot_append, prot_pubOut]
    simp only [Option.bind_some, prot_saveOut, prot_valOut, prot_commitOf]
  | stopPlain =>
    rw [prot_append, prot_pubOut]
    simp only [Option.bind_some, prot_append, prot_saveOut, pend]
    cases due c.checkpoint s <;> simp [Keep.prot]
  | earlySave _ h2 =>
    rw [prot_append, prot_saveOut]
    simp [pend, h2, Keep.prot]
  | earlyPlain => exact prot_commitOut s
  | _ => rfl

theorem Run.prot {s s' : S E} {o : List (Out E)} (h : Run c P s o s') : Keep.prot s.pending o = some s'.pending := by
  refine Run.induct (I := fun o s' => Keep.prot s.pending o = some s'.pending) rfl ?_ h
  intro w s₁ o s' o' _ _ ih hm
  rw [prot_append, ih]
  exact Moved.prot (s := s₁.ask w) hm

/-! ## Steps are saved in ascending order -/

/-- The last step that was not left unfinished. -/
def cur (st : St) (n : Nat) : Nat :=
  match st with
  | .postStep | .gradOverflow | .endOfTraining => n - 1
  | _ => n

/-- What has been saved so far, given the state. -/
def Hi (c : Cfg) (l : List Nat) (s : S E) : Prop :=
  l.Pairwise (· < ·) ∧ s.st ≠ .stopRequested ∧
  (s.st = .postStep ∨ s.st = .gradOverflow ∨ s.st = .endOfTraining → 0 < s.step) ∧
  (s.st ≠ .stopped → ∀ m ∈ l, m ≤ cur s.st s.step ∧ (m = cur s.st s.step → dueAtStep c.checkpoint m = true))

theorem pairwise_snoc {l : List Nat} {n : Nat} (h : l.Pairwise (· < ·)) (hn : ∀ m ∈ l, m < n) :
    (l ++ [n]).Pairwise (· < ·) := by
  rw [List.pairwise_append]
  exact ⟨h, by simp, fun a ha b hb => by rw [List.mem_singleton.1 hb]; exact hn a ha⟩

/-- The save at the end of the data or of training. -/
theorem Hi.last {s : S E} {l : List Nat} (hi : Hi c l s)
    (h1 : s.st = .endOfTraining ∨ s.st = .endOfData ∨ s.st = .stopRequested) :
    (l ++ if due c.checkpoint s = true then [s.step] else []).Pairwise (· < ·) := by
  obtain ⟨i1, i2, i0, i3⟩ := hi
  split
  · next hd =>
    refine pairwise_snoc i1 fun m hm => ?_
    rcases h1 with h1 | h1 | h1
    · have h0 := i0 (.inr (.inr h1))
      simp only [h1, cur, ne_eq, reduceCtorEq, not_false_eq_true, forall_const] at i3
      have := (i3 m hm).1
      omega
    · have hd : dueAtStep c.checkpoint s.step = false := by simpa [due, h1, shouldDo] using hd
      simp only [h1, cur, ne_eq, reduceCtorEq, not_false_eq_true, forall_const] at i3
      have := i3 m hm
      rcases Nat.lt_or_ge m s.step with h | h
      · exact h
      · have e : m = s.step := by omega
        have := this.2 e
        rw [e, hd] at this
        cases this
    · exact absurd h1 i2
  · simpa using i1

theorem Moved.hi {w : World} {s s' : S E} {o : List (Out E)} {l : List Nat} (h : Moved c w s o s')
    (he : c.checkpoint.everyEpochs = none) (hq : s.stopReq = false) (hb : Below c s) (hc : Counted s) (hi : Hi c l s) :
    Hi c (l ++ saves o) s' := by
  obtain ⟨i1, i2, i0, i3⟩ := hi
  have e0 : saves ([] : List (Out E)) = [] := rfl
  cases h with
  | pre h1 | read h1 | epoch h1 | lastEpoch h1 =>
    simp only [h1, cur, ne_eq, reduceCtorEq, not_false_eq_true, forall_const] at i3
    simp only [saves_epoch, saves_valOut, e0, List.append_nil]
    exact ⟨i1, by simp, by simp, fun _ => i3⟩
  | empty h1 => exact ⟨by simpa using i1, by simp, by simp, by simp⟩
  | epochMax h1 h2 h3 h4 =>
    have := hb _ h3
    simp only [h1, Counted] at this hc
    omega
  | epochStop _ _ _ h2 | postStop _ _ h2 | repeatStop _ h2 => rw [hq] at h2; cases h2
  | epochGo h1 =>
    simp only [h1, cur, ne_eq, reduceCtorEq, not_false_eq_true, forall_const] at i3
    have hd : due c.checkpoint s = false := by simp [due, h1, shouldDo, he]
    rw [saves_goOut, hd]
    simp only [Bool.false_eq_true, if_false, List.append_nil, goOn]
    cases wantsStop c w s <;> exact ⟨i1, by simp, by simp, fun _ => i3⟩
  | over h1 | update h1 =>
    simp only [h1, cur, ne_eq, reduceCtorEq, not_false_eq_true, forall_const] at i3
    simp only [saves_append, saves_pollOut, saves_update, List.append_nil]
    exact ⟨i1, by simp, by simp, fun _ => i3⟩
  | postMax h1 =>
    simp only [h1, cur, ne_eq, reduceCtorEq, not_false_eq_true, forall_const] at i3
    simp only [e0, List.append_nil]
    exact ⟨i1, by simp, fun _ => i0 (.inl h1), fun _ => i3⟩
  | postGo h1 =>
    have h0 := i0 (.inl h1)
    simp only [h1, cur, ne_eq, reduceCtorEq, not_false_eq_true, forall_const] at i3
    have hd : due c.checkpoint s = dueAtStep c.checkpoint s.step := by simp [due, h1, shouldDo]
    rw [saves_goOut, hd]
    have hlt : ∀ m ∈ l, m < s.step := fun m hm => by have := (i3 m hm).1; omega
    have hx : ∀ m ∈ l ++ (if dueAtStep c.checkpoint s.step = true then [s.step] else []),
        m ≤ s.step ∧ (m = s.step → dueAtStep c.checkpoint m = true) := by
      intro m hm
      rw [List.mem_append] at hm
      rcases hm with hm | hm
      · have := hlt m hm
        exact ⟨by omega, fun h => by omega⟩
      · split at hm
        · next hd' => rw [List.mem_singleton.1 hm]; exact ⟨Nat.le_refl _, fun _ => hd'⟩
        · cases hm
    have hp : (l ++ (if dueAtStep c.checkpoint s.step = true then [s.step] else [])).Pairwise (· < ·) := by
      split
      · exact pairwise_snoc i1 hlt
      · simpa using i1
    simp only [goOn]
    cases wantsStop c w s <;> exact ⟨hp, by simp, by simp, fun _ => hx⟩
  | again h1 =>
    simp only [h1, cur, ne_eq, reduceCtorEq, not_false_eq_true, forall_const] at i3
    simp only [e0, List.append_nil]
    exact ⟨i1, by simp, by simp, fun _ => i3⟩
  | stopValid h1 =>
    refine ⟨?_, by simp, by simp, by simp⟩
    simp only [saves_append, saves_pubOut, saves_saveOut, saves_valOut, saves_commitOf, List.append_nil, List.nil_append]
    exact Hi.last ⟨i1, i2, i0, i3⟩ h1
  | stopPlain h1 =>
    refine ⟨?_, by simp, by simp, by simp⟩
    have : saves (if due c.checkpoint s = true then [Out.commit s.step] else [] : List (Out E)) = [] := by
      split <;> rfl
    simp only [saves_append, saves_pubOut, saves_saveOut, this, List.append_nil, List.nil_append]
    exact Hi.last ⟨i1, i2, i0, i3⟩ h1
  | earlySave h1 h2 =>
    refine ⟨?_, by simp, by simp, by simp⟩
    have hd : dueAtStep c.checkpoint s.step = false := by simpa [due, h1, shouldDo] using h2
    simp only [h1, cur, ne_eq, reduceCtorEq, not_false_eq_true, forall_const] at i3
    simp only [saves_append, saves_saveOut, h2, saves_commit, List.append_nil, if_true]
    refine pairwise_snoc i1 fun m hm => ?_
    have := i3 m hm
    rcases Nat.lt_or_ge m s.step with h | h
    · exact h
    · have e : m = s.step := by omega
      have := this.2 e
      rw [e, hd] at this
      cases this
  | earlyPlain h1 =>
    refine ⟨?_, by simp, by simp, by simp⟩
    have : saves (commitOut s) = [] := by unfold commitOut; split <;> rfl
    rw [this, List.append_nil]
    exact i1

theorem Run.hi {s s' : S E} {o : List (Out E)} {l : List Nat} (h : Run c P s o s') (hP : ∀ w, P w → w.stop = false)
    (he : c.checkpoint.everyEpochs = none) (hq : s.st ≠ .stopped → s.stopReq = false) (hb : Below c s) (hc : Counted s)
    (hi : Hi c l s) : Hi c (l ++ saves o) s' := by
  have := Run.induct (I := fun o s' => (s'.st ≠ .stopped → s'.stopReq = false) ∧ Below c s' ∧ Counted s' ∧ Hi c (l ++ saves o) s')
    ⟨hq, hb, hc, by rw [show saves ([] : List (Out E)) = [] from rfl, List.append_nil]; exact hi⟩ ?_ h
  · exact this.2.2.2
  · intro w s₁ o s' o' hw hst ih hM
    obtain ⟨i1, i2, i3, i4⟩ := ih
    obtain ⟨j1, j2, -⟩ := hM.counted (s := s₁.ask w) i3 i2
    have hq : (s₁.ask w).stopReq = false := by simp [S.ask, i1 hst, hP w hw]
    refine ⟨(Moved.unasked hM (hP w hw) i1 hst).1, j2, j1, ?_⟩
    rw [saves_append, ← List.append_assoc]
    exact Moved.hi hM he hq i2 i3 i4

/-- A step that is saved: a step of the period, or the last of training. -/
def Labelled (c : Cfg) (m : Nat) : Prop :=
  dueAtStep c.checkpoint m = true ∨ ∃ n, c.maxSteps = some n ∧ n ≤ m

theorem Moved.labelled {w : World} {s s' : S E} {o : List (Out E)} (h : Moved c w s o s')
    (he : c.checkpoint.everyEpochs = none) (hp : s.st ≠ .stopRequested ∧ s.st ≠ .earlyStop ∧ s.st ≠ .endOfData)
    (ht : s.st = .endOfTraining → ∃ n, c.maxSteps = some n ∧ n ≤ s.step) :
    (∀ m ∈ saves o, Labelled c m) ∧ (s'.st = .endOfTraining → ∃ n, c.maxSteps = some n ∧ n ≤ s'.step) := by
  obtain ⟨p1, p2, p3⟩ := hp
  have last : (s.st = .endOfTraining ∨ s.st = .endOfData ∨ s.st = .stopRequested) →
      ∀ m ∈ (if due c.checkpoint s = true then [s.step] else []), Labelled c m := by
    intro h1 m hm
    rcases h1 with h1 | h1 | h1
    · split at hm
      · rw [List.mem_singleton.1 hm]; exact .inr (ht h1)
      · cases hm
    · exact absurd h1 p3
    · exact absurd h1 p1
  cases h with
  | epochMax _ _ h3 h4 | postMax _ h3 h4 => exact ⟨by simp [saves], fun _ => ⟨_, h3, h4⟩⟩
  | epochGo h1 =>
    have hd : due c.checkpoint s = false := by simp [due, h1, shouldDo, he]
    refine ⟨by rw [saves_goOut, hd]; simp, ?_⟩
    simp only [goOn]
    split <;> simp
  | postGo h1 =>
    have hd : due c.checkpoint s = dueAtStep c.checkpoint s.step := by simp [due, h1, shouldDo]
    refine ⟨?_, by simp only [goOn]; split <;> simp⟩
    rw [saves_goOut, hd]
    intro m hm
    split at hm
    · next hd' => rw [List.mem_singleton.1 hm]; exact .inl hd'
    · cases hm
  | stopValid h1 =>
    refine ⟨?_, by simp⟩
    simp only [saves_append, saves_pubOut, saves_saveOut, saves_valOut, saves_commitOf, List.append_nil, List.nil_append]
    exact last h1
  | stopPlain h1 =>
    refine ⟨?_, by simp⟩
    have : saves (if due c.checkpoint s = true then [Out.commit s.step] else [] : List (Out E)) = [] := by
      split <;> rfl
    simp only [saves_append, saves_pubOut, saves_saveOut, this, List.append_nil, List.nil_append]
    exact last h1
  | earlySave h1 | earlyPlain h1 => exact absurd h1 p2
  | pre => exact ⟨by rw [saves_valOut]; simp, by simp⟩
  | over => exact ⟨by rw [saves_pollOut]; simp, by simp⟩
  | update => exact ⟨by rw [saves_append, saves_pollOut, saves_update]; simp, by simp⟩
  | empty | epoch => exact ⟨by rw [saves_epoch]; simp, by simp⟩
  | _ => exact ⟨by simp [saves], by simp⟩

theorem Run.labelled {s s' : S E} {o : List (Out E)} (h : Run c Quiet s o s') (he : c.checkpoint.everyEpochs = none)
    (hm : c.maxEpochs = none) (hp : Plain s) (ht : s.st ≠ .endOfTraining) : ∀ m ∈ saves o, Labelled c m := by
  have := Run.induct (I := fun o s' => Plain s' ∧ (s'.st = .endOfTraining → ∃ n, c.maxSteps = some n ∧ n ≤ s'.step) ∧
    ∀ m ∈ saves o, Labelled c m) ⟨hp, fun h => absurd h ht, by simp [saves]⟩ ?_ h
  · exact this.2.2
  · intro w s₁ o s' o' hw hst ih hM
    obtain ⟨i1, i2, i3⟩ := ih
    obtain ⟨j1, j2⟩ := Moved.labelled hM he ⟨i1.1, i1.2.1, i1.2.2.1⟩ i2
    refine ⟨hM.plain hw hm hst i1, j2, fun m hm => ?_⟩
    rw [saves_append, List.mem_append] at hm
    exact hm.elim (i3 m) (j1 m)

/-- Nothing happens once the trainer has stopped. -/
theorem Run.stopped {s s' : S E} {o : List (Out E)} (h : Run c P s o s') (hs : s.st = .stopped) : o = [] ∧ s' = s := by
  induction h with
  | nil => exact ⟨rfl, rfl⟩
  | snoc w _ _ hst _ ih =>
    obtain ⟨-, rfl⟩ := ih
    exact absurd hs hst

/-! ## What is to be done -/

/-- `Orderly` after `l` has been committed. -/
def OrderlyFrom (l : List Nat) (evs : List Ev) : Prop :=
  ∀ (a : List Ev) (e : Ev) (b : List Ev), evs = a ++ e :: b → ∀ m ∈ l ++ committed a, m < e.step

theorem committed_cons (e : Ev) (evs : List Ev) :
    committed (e :: evs) = (if e.kind = .commit then [e.step] else []) ++ committed evs := by
  unfold committed
  split
  · next h => rw [List.filterMap_cons_some (b := e.step) (by simp [h])]; rfl
  · next h => rw [List.filterMap_cons_none (by simp [h])]; rfl

theorem OrderlyFrom.cons {l : List Nat} {e : Ev} {evs : List Ev} (h0 : ∀ m ∈ l, m < e.step)
    (h : OrderlyFrom (l ++ committed [e]) evs) : OrderlyFrom l (e :: evs) := by
  intro a x b hab m hm
  cases a with
  | nil =>
    simp only [List.nil_append, List.cons.injEq] at hab
    obtain ⟨rfl, rfl⟩ := hab
    exact h0 m (by simpa [committed] using hm)
  | cons y a =>
    simp only [List.cons_append, List.cons.injEq] at hab
    obtain ⟨rfl, rfl⟩ := hab
    refine h a x b rfl m ?_
    have e1 : committed (e :: a) = committed [e] ++ committed a := by
      rw [show e :: a = [e] ++ a from rfl]
      simp only [committed, List.filterMap_append]
    rw [e1, ← List.append_assoc] at hm
    exact hm

theorem OrderlyFrom.append {l : List Nat} {a b : List Ev} (h1 : OrderlyFrom l a) (h2 : OrderlyFrom (l ++ committed a) b) :
    OrderlyFrom l (a ++ b) := by
  induction a generalizing l with
  | nil => simpa [committed] using h2
  | cons e a ih =>
    have e1 : committed (e :: a) = committed [e] ++ committed a := by
      rw [show e :: a = [e] ++ a from rfl]
      simp only [committed, List.filterMap_append]
    refine OrderlyFrom.cons (fun m hm => h1 [] e a rfl m (by simpa [committed] using hm)) (ih ?_ ?_)
    · intro a' x b' hab m hm
      refine h1 (e :: a') x b' (by rw [hab]; rfl) m ?_
      rw [show committed (e :: a') = committed [e] ++ committed a' from by
        rw [show e :: a' = [e] ++ a' from rfl]; simp only [committed, List.filterMap_append], ← List.append_assoc]
      exact hm
    · rw [e1, ← List.append_assoc] at h2
      exact h2

theorem committed_does {o : List (Out E)} {evs : List Ev} (h : Does o evs) : committed evs = commits o := by
  unfold Does at h
  induction o generalizing evs with
  | nil => simp at h; subst h; rfl
  | cons x o ih =>
    cases x
    case save n f k =>
      replace h : evs.map (fun e => (e.kind, e.step)) = (Kind.begin, n) :: o.filterMap seen := h
      obtain ⟨e, evs', rfl, h1, h2⟩ := List.map_eq_cons_iff.1 h
      have := ih h2
      simp only [Prod.mk.injEq] at h1
      rw [committed_cons, this, if_neg (by rw [h1.1]; simp)]
      rfl
    case commit n =>
      replace h : evs.map (fun e => (e.kind, e.step)) = (Kind.commit, n) :: o.filterMap seen := h
      obtain ⟨e, evs', rfl, h1, h2⟩ := List.map_eq_cons_iff.1 h
      have := ih h2
      simp only [Prod.mk.injEq] at h1
      rw [committed_cons, this, if_pos h1.1, h1.2]
      rfl
    case scored n =>
      replace h : evs.map (fun e => (e.kind, e.step)) = (Kind.scored, n) :: o.filterMap seen := h
      obtain ⟨e, evs', rfl, h1, h2⟩ := List.map_eq_cons_iff.1 h
      have := ih h2
      simp only [Prod.mk.injEq] at h1
      rw [committed_cons, this, if_neg (by rw [h1.1]; simp)]
      rfl
    all_goals
      exact ih h

theorem orderly_prot {o : List (Out E)} {evs : List Ev} {p q : Option Nat} {l : List Nat} (h : Does o evs)
    (hp : prot p o = some q) (hl : (l ++ p.toList ++ saves o).Pairwise (· < ·)) : OrderlyFrom l evs := by
  unfold Does at h
  induction o generalizing evs p l with
  | nil =>
    simp at h
    subst h
    intro a e b hab
    simp at hab
  | cons x o ih =>
    cases x
    case save n f k =>
      replace h : evs.map (fun e => (e.kind, e.step)) = (Kind.begin, n) :: o.filterMap seen := h
      obtain ⟨e, evs', rfl, h1, h2⟩ := List.map_eq_cons_iff.1 h
      simp only [Prod.mk.injEq] at h1
      simp only [prot] at hp
      split at hp
      · next hn =>
        subst hn
        replace hl : (l ++ n :: saves o).Pairwise (· < ·) := by rw [Option.toList_none, List.append_nil] at hl; exact hl
        refine OrderlyFrom.cons (fun m hm => ?_) ?_
        · rw [h1.2]
          exact (List.pairwise_append.1 hl).2.2 m hm n (by simp)
        · rw [show committed [e] = [] from by simp [committed, h1.1], List.append_nil]
          exact ih h2 hp (by simpa using hl)
      · cases hp
    case commit n =>
      replace h : evs.map (fun e => (e.kind, e.step)) = (Kind.commit, n) :: o.filterMap seen := h
      obtain ⟨e, evs', rfl, h1, h2⟩ := List.map_eq_cons_iff.1 h
      simp only [Prod.mk.injEq] at h1
      simp only [prot] at hp
      split at hp
      · next hn =>
        subst hn
        refine OrderlyFrom.cons (fun m hm => ?_) ?_
        · rw [h1.2]
          rw [List.append_assoc] at hl
          exact (List.pairwise_append.1 hl).2.2 m hm n (by simp)
        · rw [show committed [e] = [n] from by simp [committed, h1.1, h1.2]]
          refine ih h2 hp ?_
          rw [Option.toList_none, List.append_nil]
          exact hl
      · cases hp
    case scored n =>
      replace h : evs.map (fun e => (e.kind, e.step)) = (Kind.scored, n) :: o.filterMap seen := h
      obtain ⟨e, evs', rfl, h1, h2⟩ := List.map_eq_cons_iff.1 h
      simp only [Prod.mk.injEq] at h1
      simp only [prot] at hp
      split at hp
      · next hn =>
        subst hn
        refine OrderlyFrom.cons (fun m hm => ?_) ?_
        · rw [h1.2]
          rw [List.append_assoc] at hl
          exact (List.pairwise_append.1 hl).2.2 m hm n (by simp)
        · rw [show committed [e] = [] from by simp [committed, h1.1], List.append_nil]
          exact ih h2 hp hl
      · cases hp
    all_goals
      exact ih h hp hl

/-- A beginning of what is seen of a run, after `l` has been committed. -/
theorem orderly_part {s s' : S E} {o a : List (Out E)} {l : List Nat} {evs : List Ev} (h : Run c P s o s') (ha : a <+: o)
    (hs : s.pending = none) (hl : (l ++ saves o).Pairwise (· < ·)) (hd : Does a evs) : OrderlyFrom l evs := by
  obtain ⟨b, rfl⟩ := ha
  have h1 := Run.prot h
  rw [hs, prot_append] at h1
  cases hq : prot none a with
  | none => rw [hq] at h1; cases h1
  | some q =>
    refine orderly_prot hd hq ?_
    rw [saves_append, ← List.append_assoc] at hl
    simpa using (List.pairwise_append.1 hl).1

/-- The commits of a beginning are saves of the run. -/
theorem commits_part {s s' : S E} {o a : List (Out E)} (h : Run c P s o s') (ha : a <+: o)
    (hs : s.pending = none) : commits a <+: saves o := by
  obtain ⟨b, rfl⟩ := ha
  have := Run.saved h
  rw [hs] at this
  simp only [Option.toList_none, List.nil_append, commits_append] at this
  rw [this]
  exact ⟨commits b ++ s'.pending.toList, by simp⟩

theorem fresh_hi (d : E.D) (t : E.T) : Hi c [] (fresh c d t) := by
  unfold Hi fresh
  cases c.validateAtStart <;> simp

theorem fresh_orderly {o a : List (Out E)} {d : E.D} {t : E.T} {s : S E} {evs : List Ev} (h : Run c P (fresh c d t) o s)
    (hP : ∀ w, P w → w.stop = false) (hpos : ∀ n, c.maxSteps = some n → 0 < n) (he : c.checkpoint.everyEpochs = none)
    (ha : a <+: o) (hd : Does a evs) : OrderlyFrom [] evs := by
  have h1 := Run.hi h hP he (fun _ => rfl) (fresh_below hpos d t) (fresh_counted c d t) (fresh_hi d t)
  exact orderly_part h ha rfl h1.1 hd

/-- All that holds of a training with crashes. -/
theorem lives_orderly {o : List (Out E)} {evs : List Ev} (h : Lives c o) (hpos : ∀ n, c.maxSteps = some n → 0 < n)
    (hm : c.maxEpochs = none) (he : c.checkpoint.everyEpochs = none) (hd : Does o evs) : Orderly evs := by
  suffices hs : (∀ m ∈ commits o, Labelled c m) ∧ (commits o).Pairwise (· < ·) ∧ ∀ evs, Does o evs → OrderlyFrom [] evs by
    have := hs.2.2 evs hd
    intro a e b hab m hm
    exact this a e b hab m (by simpa using hm)
  clear hd evs
  have split : ∀ {o a : List (Out E)} {evs : List Ev}, Does (o ++ a) evs → ∃ e1 e2, evs = e1 ++ e2 ∧ Does o e1 ∧ Does a e2 := by
    intro o a evs hd
    unfold Does at hd
    rw [List.filterMap_append] at hd
    obtain ⟨e1, e2, rfl, h1, h2⟩ := List.map_eq_append_iff.1 hd
    exact ⟨e1, e2, rfl, h1, h2⟩
  induction h with
  | nil =>
    refine ⟨by simp [commits], by simp [commits], fun evs hd => ?_⟩
    unfold Does at hd
    simp at hd
    subst hd
    intro a e b hab
    simp at hab
  | @start o o₁ a d t s _ hc hr ha ih =>
    obtain ⟨i1, i2, i3⟩ := ih
    have hh := Run.hi hr (fun _ h => h.1) he (fun _ => rfl) (fresh_below hpos d t) (fresh_counted c d t) (fresh_hi d t)
    have hl := Run.labelled hr he hm (fresh_plain d t) (by unfold fresh; cases c.validateAtStart <;> simp)
    have hpre := commits_part hr ha rfl
    refine ⟨?_, ?_, ?_⟩
    · rw [commits_append, hc]
      intro m hm
      exact hl m (hpre.subset (by simpa using hm))
    · rw [commits_append, hc]
      exact hh.1.sublist (by simpa using hpre.sublist)
    · intro evs hd
      obtain ⟨e1, e2, rfl, d1, d2⟩ := split hd
      refine (i3 e1 d1).append ?_
      rw [List.nil_append, committed_does d1, hc]
      exact orderly_part hr ha rfl hh.1 d2
  | @resume o o₁ a k s _ hk hka hr ha ih =>
    obtain ⟨i1, i2, i3⟩ := ih
    have hkm : k.step ∈ commits o := List.mem_of_getLast? hk
    have hle : ∀ m ∈ commits o, m ≤ k.step := by
      obtain ⟨pre, hpre⟩ := List.getLast?_eq_some_iff.1 hk
      rw [hpre] at i2 ⊢
      intro m hm
      rcases List.mem_append.1 hm with hm | hm
      · exact Nat.le_of_lt ((List.pairwise_append.1 i2).2.2 m hm _ (by simp))
      · simp at hm; omega
    rcases restored_st c k with hs | ⟨hs, hlt, -⟩
    · obtain ⟨rfl, -⟩ := Run.stopped hr hs
      have : a = [] := by simpa using ha
      subst this
      simpa using ⟨i1, i2, i3⟩
    · have hkn : ∀ n, c.maxSteps = some n → k.step ≤ n := fun n hn => Nat.le_of_lt (hlt n hn)
      have hi : Hi c (commits o) (restored c k) := by
        refine ⟨i2, by rw [hs]; simp, by rw [hs]; simp, fun _ m hm => ?_⟩
        have e : (restored c k).step = k.step := rfl
        simp only [hs, cur, e]
        refine ⟨hle m hm, fun h => ?_⟩
        rcases i1 m hm with h' | ⟨n, hn, h'⟩
        · exact h'
        · have := hlt n hn
          omega
      have hh := Run.hi hr (fun _ h => h.1) he (fun _ => rfl) (restored_below hka.symm hkn) (restored_counted c hka.symm) hi
      have hpl : Plain (restored c k) := ⟨by rw [hs]; simp, by rw [hs]; simp, by rw [hs]; simp, fun _ => rfl⟩
      have hl := Run.labelled hr he hm hpl (by rw [hs]; simp)
      have hpre := commits_part hr ha rfl
      refine ⟨?_, ?_, ?_⟩
      · rw [commits_append]
        intro m hm
        rcases List.mem_append.1 hm with hm | hm
        · exact i1 m hm
        · exact hl m (hpre.subset hm)
      · rw [commits_append]
        exact hh.1.sublist (hpre.sublist.append_left _)
      · intro evs hd
        obtain ⟨e1, e2, rfl, d1, d2⟩ := split hd
        refine (i3 e1 d1).append ?_
        rw [List.nil_append, committed_does d1]
        exact orderly_part hr ha rfl hh.1 d2

/-- If no save is in progress at the end, the last thing that was done is a commit. -/
theorem prot_last {o : List (Out E)} {p : Option Nat} (h : prot p o = some none) :
    (p = none ∧ o.filterMap seen = []) ∨ ∃ l n, o.filterMap seen = l ++ [(.commit, n)] := by
  induction o generalizing p with
  | nil =>
    simp only [prot, Option.some.injEq] at h
    exact .inl ⟨h, rfl⟩
  | cons x o ih =>
    cases x with
    | save n k m =>
      simp only [prot] at h
      split at h
      · rcases ih h with ⟨h1, -⟩ | ⟨l, m, hl⟩
        · cases h1
        · exact .inr ⟨(.begin, n) :: l, m, by rw [List.cons_append, ← hl]; rfl⟩
      · cases h
    | scored n =>
      simp only [prot] at h
      split at h
      · next hp =>
        rcases ih h with ⟨h1, -⟩ | ⟨l, m, hl⟩
        · rw [h1] at hp; cases hp
        · exact .inr ⟨(.scored, n) :: l, m, by rw [List.cons_append, ← hl]; rfl⟩
      · cases h
    | commit n =>
      simp only [prot] at h
      split at h
      · rcases ih h with ⟨-, h2⟩ | ⟨l, m, hl⟩
        · refine .inr ⟨[], n, ?_⟩
          show (.commit, n) :: o.filterMap seen = _
          rw [h2]; rfl
        · exact .inr ⟨(.commit, n) :: l, m, by rw [List.cons_append, ← hl]; rfl⟩
      · cases h
    | update _ _ => exact ih h
    | endOfEpoch => exact ih h
    | validated _ => exact ih h
    | published _ => exact ih h

end Fs2.Keep
