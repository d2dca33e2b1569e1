import Verif.Trainer.Model

/-!
# Specification of training

What is counted in the output of a run, and what is asked of the world.
-/

namespace Fs2.Train

variable {E : Env}

/-! ## Projections of what is seen -/

def Out.upd? : Out E → Option (Nat × E.B)
  | .update n b => some (n, b)
  | _ => none

def Out.save? : Out E → Option (Snap E)
  | .save _ _ k => some k
  | _ => none

def Out.saved? : Out E → Option Nat
  | .save n _ _ => some n
  | _ => none

def Out.commit? : Out E → Option Nat
  | .commit n => some n
  | _ => none

def Out.valid? : Out E → Option Nat
  | .validated n => some n
  | _ => none

def Out.publ? : Out E → Option Nat
  | .published n => some n
  | _ => none

def Out.epoch? : Out E → Option Unit
  | .endOfEpoch => some ()
  | _ => none

/-- Steps with an update, and the batches. -/
def updates (o : List (Out E)) : List (Nat × E.B) := o.filterMap Out.upd?
/-- Checkpoints of which the save was started. -/
def snaps (o : List (Out E)) : List (Snap E) := o.filterMap Out.save?
/-- Steps whose save was started, … -/
def saves (o : List (Out E)) : List Nat := o.filterMap Out.saved?
/-- … and committed, … -/
def commits (o : List (Out E)) : List Nat := o.filterMap Out.commit?
/-- … steps after which validation ran, … -/
def valids (o : List (Out E)) : List Nat := o.filterMap Out.valid?
/-- … and metrics were published. -/
def publs (o : List (Out E)) : List Nat := o.filterMap Out.publ?
/-- Number of passes over the data that ended. -/
def epochs (o : List (Out E)) : Nat := (o.filterMap Out.epoch?).length

/-- Nobody asks to stop, and the early stopper does not. -/
def Quiet (w : World) : Prop := w.stop = false ∧ w.early = false

/-- Overflows end: each one makes something smaller (the loss scale), and the minimum is never
passed, which would raise. -/
structure Settles (E : Env) where
  fuel : E.T → Nat
  less : ∀ t b t', E.train t b = (t', .overflowed) → fuel t' < fuel t
  fine : ∀ t b, (E.train t b).2 ≠ .exploded

/-- A pass over the data ends: there are `left d` batches left. -/
structure Ends (E : Env) where
  left : E.D → Nat
  less : ∀ d b d', E.next d = some (b, d') → left d' < left d

end Fs2.Train
