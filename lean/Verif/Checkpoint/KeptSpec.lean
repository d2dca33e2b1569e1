import Verif.Checkpoint.Kept
import Verif.Trainer.Spec
import Verif.Props.Checkpoint

/-!
# Specification of what is to be kept
-/

namespace Fs2.Keep

/-- The steps that were committed, in order. -/
def committed (evs : List Ev) : List Nat :=
  evs.filterMap fun e => if e.kind = .commit then some e.step else none

/-- The score that was saved last for step `n` since its save began last. -/
def scoreOf (evs : List Ev) (n : Nat) : Option Rat :=
  evs.foldl (fun x e =>
    if e.step = n then
      match e.kind with
      | .begin => none
      | .scored => some e.score
      | .commit => x
    else x) none

/-- Whatever is done concerns a step after those that are committed. -/
def Orderly (evs : List Ev) : Prop :=
  ∀ (a : List Ev) (e : Ev) (b : List Ev), evs = a ++ e :: b → ∀ m ∈ committed a, m < e.step

/-- Values that the constructor of the trainer accepts. -/
def Policy.Valid (p : Policy) : Prop :=
  (∀ n, p.last = some n → 0 < n) ∧ (∀ n, p.best = some n → 0 < n) ∧ ∀ n, p.every = some n → 0 < n

/-- Whether no policy is given. -/
def Policy.Off (p : Policy) : Prop := p.last = none ∧ p.best = none ∧ p.every = none

/-- What is to be kept if `all` has been committed: everything if no policy is given, the newest, and what a policy keeps of `all` (see C34). -/
def Wanted (p : Policy) (all : List Nat) (score : Nat → Option Rat) (s : Nat) : Prop :=
  p.Off ∨ (∀ q ∈ all, q ≤ s) ∨ Props.Keeps all score p.last p.best p.every s

open Train in
/-- What is seen of a training that may crash at any time, any number of times, and each time is resumed from the checkpoint committed
last, or begun anew if there is none. In none of the runs is a stop requested. -/
inductive Lives {E : Env} (c : Cfg) : List (Out E) → Prop where
  | nil : Lives c []
  | start {o o₁ a : List (Out E)} {d : E.D} {t : E.T} {s : S E} : Lives c o → commits o = [] →
      Run c Quiet (fresh c d t) o₁ s → a <+: o₁ → Lives c (o ++ a)
  | resume {o o₁ a : List (Out E)} {k : Snap E} {s : S E} : Lives c o → (commits o).getLast? = some k.step →
      k.step = k.applied → Run c Quiet (restored c k) o₁ s → a <+: o₁ → Lives c (o ++ a)

end Fs2.Keep
