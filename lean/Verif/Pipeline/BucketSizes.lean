import Verif.Pipeline.Basic

/-!
# `create_bucket_sizes`

Models `src/fairseq2/data/data_pipeline.py:646-717`.  Integers are natural numbers: a negative argument is refused like zero, except
that a negative `max_num_elements` is refused because it is below `max_seq_len`.
-/

namespace Fs2.Sizes

/-- The exceptions. -/
inductive Refused where
  /-- `ValueError` -/
  | value
  /-- `ZeroDivisionError` -/
  | zeroDivision
  deriving DecidableEq, Repr

/-- The loop (data_pipeline.py:696-704): `num` is `max_num_elements`. -/
def loop (num maxLen minLen : Nat) (seqLen bucketSize : Nat) (sizes : List (Nat × Nat)) : Except Refused (List (Nat × Nat)) :=
  if seqLen < maxLen then
    if _h : num / (seqLen + 1) = 0 then .error .zeroDivision
    else
      loop num maxLen minLen (num / (num / (seqLen + 1))) (num / (seqLen + 1))
        (if seqLen ≥ minLen then sizes ++ [(bucketSize, seqLen)] else sizes)
  else .ok (sizes ++ [(bucketSize, maxLen)])
termination_by maxLen - seqLen
decreasing_by
  have : seqLen + 1 ≤ num / (num / (seqLen + 1)) := by
    rw [Nat.le_div_iff_mul_le (Nat.pos_of_ne_zero _h), Nat.mul_comm]
    exact Nat.div_mul_le_self _ _
  omega

/-- The second loop (data_pipeline.py:711-715). -/
def crop (multiple : Nat) (sizes : List (Nat × Nat)) : List (Nat × Nat) :=
  sizes.map fun z => (if z.1 > multiple then z.1 - z.1 % multiple else z.1, z.2)

/-- `create_bucket_sizes` (data_pipeline.py:646-717). -/
def create (num maxLen minLen multiple : Nat) : Except Refused (List (Nat × Nat)) :=
  if maxLen > num then .error .value
  else if minLen < 1 then .error .value
  else if minLen > maxLen then .error .value
  else if multiple < 1 then .error .value
  else if num % maxLen ≠ 0 then .error .value
  else match loop num maxLen minLen 1 num [] with
    | .error e => .error e
    | .ok sizes => if multiple = 1 then .ok sizes else .ok (crop multiple sizes)

end Fs2.Sizes
