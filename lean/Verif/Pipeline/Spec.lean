import Verif.Pipeline.Basic

/-!
# What it means for a data source to produce a stream

Specification vocabulary: nothing here refers to how an operator works, only to
the results of calls.
-/

namespace Fs2

/-- The examples among results. -/
def yielded : List Res → List Data
  | [] => []
  | .yield x :: rs => x :: yielded rs
  | _ :: rs => yielded rs

/-- The exceptions among results. -/
def raised : List Res → List Err
  | [] => []
  | .err e :: rs => e :: raised rs
  | _ :: rs => raised rs

/-- `ys` is `xs` with each consecutive block of `w` examples (and a shorter last
block) permuted. -/
inductive BlockPerm (w : Nat) : List Data → List Data → Prop where
  | last {b b' : List Data} : b'.Perm b → b.length ≤ w → BlockPerm w b' b
  | block {b b' ys xs : List Data} : b'.Perm b → b.length = w → BlockPerm w ys xs →
      BlockPerm w (b' ++ ys) (b ++ xs)

/-- The packs, glued together: where a sequence was cut at the end of a full pack,
the next pack begins with the last token of the pack before. -/
inductive Glued : List (List Int) → List Int → Prop where
  | nil : Glued [] []
  | whole {p ps rest} : Glued ps rest → Glued (p :: ps) (p ++ rest)
  | cut {p x ps rest} : Glued ps (x :: rest) → Glued ((p ++ [x]) :: ps) (p ++ x :: rest)

namespace Source

variable (S : Source)

/-- `Emits s xs s'`: calling `next()` `xs.length` times from `s` returns the
examples `xs` one after the other and leaves the source in `s'`. -/
inductive Emits : S.σ → List Data → S.σ → Prop where
  | nil (s) : Emits s [] s
  | cons {s s' s'' x xs} :
      S.next s = some (.yield x, s') → Emits s' xs s'' → Emits s (x :: xs) s''

/-- `Ended s`: the next call and every later call of `next()` reports end of
data. -/
def Ended (s : S.σ) : Prop :=
  ∃ P : S.σ → Prop, P s ∧ ∀ t, P t → ∃ t', S.next t = some (.eod, t') ∧ P t'

/-- `Yields s xs`: the stream from `s` on is exactly `xs`, then end of data
for ever. -/
def Yields (s : S.σ) (xs : List Data) : Prop :=
  ∃ s', S.Emits s xs s' ∧ S.Ended s'

/-- `Calls s rs s'`: calling `next()` `rs.length` times from `s` gives the results
`rs` (examples or exceptions) one after the other and leaves the source in `s'`. -/
inductive Calls : S.σ → List Res → S.σ → Prop where
  | nil (s) : Calls s [] s
  | cons {s s' s'' r rs} : S.next s = some (r, s') → Calls s' rs s'' → Calls s (r :: rs) s''

/-- `Trace s rs`: the results from `s` on are exactly `rs`, then end of data for
ever. -/
def Trace (s : S.σ) (rs : List Res) : Prop := ∃ s', S.Calls s rs s' ∧ S.Ended s'

/-- The stream from `s` on is the infinite sequence `f 0, f 1, …`. -/
def Streams (s : S.σ) (f : Nat → Data) : Prop :=
  ∀ n, ∃ s', S.Emits s ((List.range n).map f) s'

/-- `Epochs rr s es`: from `s` the source can be read `es.length` times over,
with `reset(rr)` between two readings, and the readings give the lists `es`.  The
readings may differ (an upstream that shuffles). -/
inductive Epochs (rr : Bool) : S.σ → List (List Data) → Prop where
  | last {s e} : S.Yields s e → Epochs rr s [e]
  | more {s s₁ s₂ e es} : S.Emits s e s₁ → S.next s₁ = some (.eod, s₂) →
      Epochs rr (S.reset rr s₂) es → Epochs rr s (e :: es)

/-- `Cycles s xs`: from `s` every reading gives `xs` and then end of data, however
often the source is read to the end and reset (without resetting random number
generators). -/
def Cycles (s : S.σ) (xs : List Data) : Prop :=
  ∃ Fresh AtEnd : S.σ → Prop, Fresh s ∧
    (∀ t, Fresh t → ∃ t', S.Emits t xs t' ∧ AtEnd t') ∧
    (∀ t, AtEnd t → ∃ t', S.next t = some (.eod, t') ∧ AtEnd t' ∧ Fresh (S.reset false t'))

/-- What a user may do to a pipeline besides saving and loading. -/
inductive Op where
  | next
  | reset (resetRng : Bool)

/-- The observable results of a sequence of operations: one entry per `next()`
call; the list stops at a call that does not return. -/
def run : List Op → S.σ → List (Option Res)
  | [], _ => []
  | .next :: ops, s =>
    match S.next s with
    | none => [none]
    | some (r, s') => some r :: run ops s'
  | .reset b :: ops, s => run ops (S.reset b s)

/-- The state reached by a sequence of operations, if all calls return without
a fatal exception. -/
inductive Reach : S.σ → S.σ → Prop where
  | refl (s) : Reach s s
  | next {s s' s'' r} : Reach s s' → S.next s' = some (r, s'') → ¬ r.fatal → Reach s s''
  | reset {s s'} (b) : Reach s s' → Reach s (S.reset b s')

/-- Two states that no sequence of operations can tell apart. -/
def Same (s t : S.σ) : Prop := ∀ ops, S.run ops s = S.run ops t

end Source
end Fs2
