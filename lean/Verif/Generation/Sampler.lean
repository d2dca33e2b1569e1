import Mathlib.Algebra.BigOperators.Group.List.Basic
import Mathlib.Data.Rat.Defs
import Mathlib.Algebra.Order.Ring.Rat

/-
Model of the samplers that draw the next token.

Source: /repo/src/fairseq2/generation/sampling/sampler.py.

One row of the batch is modelled, the operations of the code work on the rows independently.
Probabilities are exact rationals. What PyTorch leaves open is a parameter: the order in which `torch.sort`
puts equal entries, the choice `torch.topk` and `torch.argmax` make among equal entries, and the draw of
`torch.multinomial`. A division by a sum that is zero gives not-a-number entries, on which
`torch.multinomial` raises: here the error `none`.
-/

namespace Fs2.Gen

/-- `probs / probs.sum(dim=-1, keepdim=True)` (sampler.py:50, 62, 96). -/
def normalize (probs : List ℚ) : Option (List ℚ) :=
  if probs.sum = 0 then none else some (probs.map (· / probs.sum))

/-- `torch.multinomial(weights, num_samples=1)`: raises unless the weights are nonnegative with a positive
sum; `pick` is the draw. -/
def multinomial (pick : List ℚ → Nat) (weights : List ℚ) : Option Nat :=
  if weights.all (fun w => decide (0 ≤ w)) && decide (0 < weights.sum) then some (pick weights) else none

/-- `cumsum_probs - sorted_probs` (sampler.py:55-57): the mass before every entry. -/
def massBefore (sorted : List ℚ) : List ℚ :=
  (List.range sorted.length).map fun i => (sorted.take (i + 1)).sum - sorted.getD i 0

/-- The weights from which `TopPSampler` draws, in the sorted order (sampler.py:47-62). `order` is
`sorted_indices`. -/
def topPWeights (p : ℚ) (order : List ℚ → List Nat) (probs : List ℚ) : Option (List ℚ) := do
  let probs ← normalize probs
  let sorted := (order probs).map fun i => probs.getD i 0
  let masked := List.zipWith (fun before x => if before > p then 0 else x) (massBefore sorted) sorted
  normalize masked

/-- `TopPSampler.sample` (sampler.py:47-70). -/
def topPSample (p : ℚ) (order : List ℚ → List Nat) (pick : List ℚ → Nat) (probs : List ℚ) : Option Nat := do
  let weights ← topPWeights p order probs
  let i ← multinomial pick weights
  let probs ← normalize probs
  (order probs)[i]?

/-- `TopKSampler.sample` (sampler.py:85-104). `argmax` and `topk` are the functions of PyTorch. -/
def topKSample (k : Nat) (argmax : List ℚ → Nat) (topk : List ℚ → Nat → List Nat) (pick : List ℚ → Nat)
    (probs : List ℚ) : Option Nat :=
  let k := min k probs.length
  if k = 1 then some (argmax probs)
  else do
    let indices := topk probs k
    let weights ← normalize (indices.map fun i => probs.getD i 0)
    let i ← multinomial pick weights
    indices[i]?

end Fs2.Gen
