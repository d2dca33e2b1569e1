import Verif.Checkpoint.Model

/-!
# Specification of checkpoints

What the events of a history say about a step, and what the files then have to be.
-/

namespace Fs2.Ckpt

variable {C : Type} {N : Nat}

inductive Status (C : Type) where
  /-- Never committed, or deleted. -/
  | absent
  /-- Committed with these records, and not deleted since. -/
  | complete (recs : List (Rec C))
  /-- Committed, and a deletion that keeps the model has begun. -/
  | stripping (recs : List (Rec C))
  /-- … and has ended. -/
  | stripped (recs : List (Rec C))
  /-- A deletion has begun and has not ended. -/
  | deleting

def Status.next (n : Nat) (s : Status C) : Event C → Status C
  | .committed m recs => if m = n then .complete recs else s
  | .deleting m =>
    if m = n then
      match s with
      | .absent => .absent
      | _ => .deleting
    else s
  | .deleted m => if m = n then .absent else s
  | .stripping m =>
    if m = n then
      match s with
      | .complete r | .stripping r | .stripped r => .stripping r
      | .absent => .absent
      | .deleting => .deleting
    else s
  | .stripped m =>
    if m = n then
      match s with
      | .complete r | .stripping r | .stripped r => .stripped r
      | .absent => .absent
      | .deleting => .deleting
    else s

/-- The status of step `n` after the events. -/
def status (evs : List (Event C)) (n : Nat) : Status C := evs.foldl (Status.next n) .absent

/-- The step committed last. -/
def newest (evs : List (Event C)) : Option Nat :=
  evs.foldl (fun k e => match e with | .committed n _ => some n | _ => k) none

/-- All records are completely in the directory `l` and nothing else is. -/
structure Exactly (recs : List (Rec C)) (fs : FS C) (l : Loc) : Prop where
  top : fs l .top = some .dir
  file : ∀ x ∈ recs, fs l (.file x.file) = some (.full x.state)
  dir : ∀ x ∈ recs, fs l (.dir x.file.kind x.file.path.dropLast) = some .dir
  only : ∀ f, fs l (.file f) ≠ none → ∃ x ∈ recs, x.file = f
  kinds : ∀ k p, fs l (.dir k p) ≠ none → ∃ x ∈ recs, x.file.kind = k

/-- The records of the model are completely in `step_n`. -/
def ModelKept (recs : List (Rec C)) (fs : FS C) (n : Nat) : Prop :=
  ∀ x ∈ recs, x.file.kind = .model → fs (.final n) (.file x.file) = some (.full x.state)

/-- What the files of a step have to be. -/
def StepOk (fs : FS C) (n : Nat) : Status C → Prop
  | .absent => ∀ i, fs (.final n) i = none
  | .complete recs => Exactly recs fs (.final n)
  | .stripping recs => ModelKept recs fs n ∧ fs (.final n) .top = some .dir
  | .stripped recs => ModelKept recs fs n ∧ fs (.final n) .top = some .dir ∧
      ∀ i, kept i = false → fs (.final n) i = none
  | .deleting => True

/-- Requirements on the calls of a session.  No call deletes the step whose save
is in progress.  With `pol`: no call saves or deletes the step `K` committed last, so that
a crash cannot destroy it. -/
def Sane (pol : Bool) : Option Nat → Option Nat → List (Cmd N C) → Prop
  | _, _, [] => True
  | K, p, .delete m _ :: cs => p ≠ some m ∧ (pol = true → K ≠ some m) ∧ Sane pol K p cs
  | K, p, .poll :: cs => Sane pol K p cs
  | K, none, .complete :: cs => Sane pol K none cs
  | _, some n, .complete :: cs => Sane pol (some n) none cs
  | K, p, .save sv true :: cs =>
      (pol = true → p.or K ≠ some sv.step) ∧ Sane pol (some sv.step) none cs
  | K, p, .save sv false :: cs =>
      (pol = true → p.or K ≠ some sv.step) ∧ Sane pol (p.or K) (some sv.step) cs

/-- Every save in a session has each file written once. -/
def AllApart (t : Topo N) (cs : List (Cmd N C)) : Prop :=
  ∀ sv b, Cmd.save sv b ∈ cs → Apart t sv

/-- The saves asked for in a session: step number and everything the ranks gave. -/
def asked (t : Topo N) (cs : List (Cmd N C)) : List (Nat × List (Rec C)) :=
  cs.filterMap fun c => match c with
    | .save sv _ => some (sv.step, allRecords t sv)
    | _ => none

/-- A history: sessions one after the other, each ended by a crash at any point or by
itself, each with its own number of ranks, topology and calls.  `as` lists the saves
asked for. -/
inductive Hist (pol : Bool) : FS C → List (Event C) → List (Nat × List (Rec C)) → Prop where
  | empty : Hist pol FS.empty [] []
  | session {fs evs as N} {t : Topo N} {cs : List (Cmd N C)} {evs' s} : Hist pol fs evs as →
      0 < N → Sane pol (newest evs) none cs → AllApart t cs → Exec (start t fs cs) evs' s →
      Hist pol s.fs (evs ++ evs') (as ++ asked t cs)

/-- The step that an event is about. -/
def Event.step : Event C → Nat
  | .committed n _ | .deleting n | .deleted n | .stripping n | .stripped n => n

/-- The last thing that happened to step `n` is that it was committed with these records. -/
def CommittedLast (evs : List (Event C)) (n : Nat) (recs : List (Rec C)) : Prop :=
  ∃ pre post, evs = pre ++ .committed n recs :: post ∧ ∀ e ∈ post, e.step ≠ n

/-- Step `n` was committed with these records, and all that happened to it since is that
everything but the model was deleted, or began to be. -/
def KeptSince (evs : List (Event C)) (n : Nat) (recs : List (Rec C)) : Prop :=
  ∃ pre post, evs = pre ++ .committed n recs :: post ∧
    ∀ e ∈ post, e.step = n → e = .stripping n ∨ e = .stripped n

/-- A deletion of step `n` began, and was never completed; nor was it saved again. -/
def Torn (evs : List (Event C)) (n : Nat) : Prop :=
  ∃ pre post, (evs = pre ++ .deleting n :: post ∧ ∀ e ∈ post, e.step = n → e = .deleting n ∨ e = .stripping n ∨ e = .stripped n) ∨
    (evs = pre ++ .stripping n :: post ∧ ∀ e ∈ post, e.step = n → e = .stripping n)

/-- The steps committed, in order. -/
def commits (evs : List (Event C)) : List Nat :=
  evs.filterMap fun e => match e with | .committed n _ => some n | _ => none

end Fs2.Ckpt
