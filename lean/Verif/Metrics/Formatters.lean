import Mathlib.Data.Rat.Floor
import Mathlib.Tactic.Linarith

/-!
# Formatters of metrics

`format_as_byte_size` (/repo/src/fairseq2/metrics/formatters.py:87-114) and `format_as_int` with a postfix (17-40). Simplified: exact rational
numbers for floating-point ones; strings and tensors, which are turned into numbers first, and values that are no numbers are left
out; the text of a whole number is a function that is given.
-/

namespace Fs2.Format

theorem floor_div_lt {size : ℚ} (h : 1024 ≤ size) : ⌊size / 1024⌋.toNat < ⌊size⌋.toNat := by
  have h1 : (1 : ℤ) ≤ ⌊size⌋ := Int.le_floor.2 (by push_cast; linarith)
  have h2 : ⌊size / 1024⌋ ≤ ⌊size⌋ - 1 := by
    have : size / 1024 ≤ size - 1 := by linarith
    calc ⌊size / 1024⌋ ≤ ⌊size - 1⌋ := Int.floor_le_floor this
      _ = ⌊size⌋ - 1 := Int.floor_sub_one size
  omega

/-- The loop (formatters.py:106-109): the size in the unit, and the index of the unit. -/
def scale (size : ℚ) (unit : Nat) : ℚ × Nat :=
  if h : 1024 ≤ size then
    have := floor_div_lt h
    scale (size / 1024) (unit + 1)
  else (size, unit)
termination_by ⌊size⌋.toNat

/-- `_UNITS` (formatters.py:84). -/
def units : List String := ["B", "KiB", "MiB", "GiB", "TiB", "PiB"]

/-- What is shown: a number of hundredths and a unit, `0 B`, or `TOO BIG`. -/
inductive Text
  | sized (hundredths : ℤ) (unit : String)
  | zero
  | tooBig
deriving DecidableEq, Repr

/-- The format `.2f`: the nearest number of hundredths, the even one of two. -/
def round2 (x : ℚ) : ℤ :=
  let f := ⌊x * 100⌋
  if x * 100 - f < 1 / 2 then f
  else if 1 / 2 < x * 100 - f then f + 1
  else if f % 2 = 0 then f else f + 1

/-- `format_as_byte_size` (formatters.py:87-114) of a finite number. -/
def byteSize (size : ℚ) : Text :=
  if size ≤ 0 then .zero
  else
    match units[(scale size 0).2]? with
    | some u => .sized (round2 (scale size 0).1) u
    | none => .tooBig

/-- A value for `format_as_int`. -/
inductive Value
  | int (i : Int)
  | seq (l : List Int)

/-- `format_as_int` of a whole number (formatters.py:31-36). -/
def formatOne (render : Int → String) (postfix? : Option String) (i : Int) : String :=
  match postfix? with
  | some p => if p ≠ "" then render i ++ p else render i
  | none => render i

/-- `format_as_int` (formatters.py:17-36): the call for the elements of a sequence does not pass the postfix on (27). -/
def formatAsInt (render : Int → String) (postfix? : Option String) : Value → String
  | .int i => formatOne render postfix? i
  | .seq l => ", ".intercalate (l.map (formatOne render none))

end Fs2.Format
