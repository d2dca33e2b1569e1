import Verif.Nn.BatchLayout

/-!
# What a batch of sequences holds

A separate specification: it does not use the model of the speech frontends.
-/

namespace Fs2.Speech
open Fs2.Nn

variable {V : Type}

/-- A batch of rows of width `W` holds the given sequences, each padded in any way, and the layout says so. -/
structure Carries (W : Nat) (rows : List (List V)) (l : Layout) (S : List (List V)) : Prop where
  num : rows.length = S.length
  begins : ∀ (r : Nat) s, S[r]? = some s → ∃ row, rows[r]? = some row ∧ row.take s.length = s
  wide : ∀ row ∈ rows, row.length = W
  layout : Layout.new [(S.length : Int), (W : Int)] (some (S.map fun s => (s.length : Int))) false = some l

/-- The operation turns the sequence `s`, given alone and without padding, into the sequence `t`. -/
def Alone (op : List (List V) → Layout → Option (List (List V) × Layout)) (s t : List V) : Prop :=
  ∃ l l', Carries s.length [s] l [s] ∧ op [s] l = some ([t], l') ∧ Carries t.length [t] l' [t]

end Fs2.Speech
