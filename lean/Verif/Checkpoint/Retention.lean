/-!
# Retention

Model of `get_stale_step_numbers` and `_do_load_scores`
(src/fairseq2/checkpoint/manager.py:754-834) as a function of the listing.  Scores are
rational numbers: every finite float is one, and the order is the same; scores that are
not numbers are left out.
-/

namespace Fs2.Ckpt

/-- `(score, step)` pairs in the order of Python tuples. -/
def pairLe (a b : Rat × Nat) : Bool := a.1 < b.1 ∨ (a.1 = b.1 ∧ a.2 ≤ b.2)

/-- `scores.sort(reverse=True)` after reading the score file of every step that has one
(manager.py:800-834). -/
def loadScores (score : Nat → Option Rat) (steps : List Nat) : List (Rat × Nat) :=
  (steps.filterMap fun n => (score n).map fun s => (s, n)).mergeSort (fun a b => pairLe b a)

/-- One policy (manager.py:773-796): without a value nothing is added to `keep`; a value that is not
positive is refused. -/
def addKept (policy : Option Int) (keep : List Nat) (f : Int → List Nat) : Option (List Nat) :=
  match policy with
  | none => some keep
  | some n => if n ≤ 0 then none else some (keep ++ f n)

/-- `get_stale_step_numbers` (manager.py:754-798) when the listing (lines 715-742) is `steps`;
`none` is `ValueError`. -/
def stale (steps : List Nat) (score : Nat → Option Rat) (keepLast keepBest keepEvery : Option Int) :
    Option (List Nat) :=
  if keepLast = none ∧ keepBest = none ∧ keepEvery = none then some []
  else match steps.getLast? with
  | none => some []
  | some newest =>
    (addKept keepLast [newest] fun n => steps.drop (steps.length - n.toNat)).bind fun keep =>
    (addKept keepBest keep fun n => ((loadScores score steps).take n.toNat).map (·.2)).bind fun keep =>
    (addKept keepEvery keep fun n => steps.filter fun s : Nat => decide ((s : Int) % n = 0)).bind fun keep =>
    some (steps.filter fun s => !keep.contains s)

end Fs2.Ckpt
