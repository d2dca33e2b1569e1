import Verif.Nn.CrossEntropy

/-!
# The masked prediction loss of w2v-BERT

Models the part of `W2VBertModel` that gives the masked prediction loss: the view of the logits
(src/fairseq2/models/w2vbert/model.py:106-113), `_get_target_indices` (133-146), the call of `cross_entropy` in
`compute_loss` (158-164) and the sum of the losses (172-177).

A masked position has a row of `V * G` logits. `cb` has for each position and codebook the row of the quantizer's choice;
`argmax` gives the first largest entry. The wav2vec 2.0 loss is given. `nll_loss` demands, by contract, as many targets as
rows, and `gather` at most as many indices as rows; for these lengths `cross_entropy` is `Fs2.Loss.crossEntropy`.
-/

namespace Fs2.Bert

open Fs2.Loss

inductive LossExc where
  /-- Sizes that do not fit: `ValueError` of `nll_loss`, `RuntimeError` of `gather`. -/
  | shape
  | loss (e : Exc)

/-- `view(-1, V, G)` of one position (w2vbert/model.py:109-113): `V` rows of `G` entries. -/
def viewRow (V G : Nat) (row : List ℝ) : List (List ℝ) :=
  (List.range V).map fun v => (row.drop (v * G)).take G

/-- `argmax`: index and value of the first largest entry. -/
noncomputable def argmaxFrom : Nat → Nat → ℝ → List ℝ → Nat
  | _, best, _, [] => best
  | i, best, x, y :: rest => if x < y then argmaxFrom (i + 1) i y rest else argmaxFrom (i + 1) best x rest

noncomputable def argmax : List ℝ → Nat
  | [] => 0
  | x :: rest => argmaxFrom 1 0 x rest

/-- `_get_target_indices` (w2vbert/model.py:133-146): `cb` has `numCodebooks` rows for each position. The slice is up to
`num_codebooks`, not up to `num_target_codebooks`. -/
noncomputable def targetIndices (numCodebooks : Nat) (cb : List (List (List ℝ))) : List (List Nat) :=
  cb.map fun rows => ((rows.map argmax).take numCodebooks)

/-- `cross_entropy` with logits of three dimensions and targets of two, no padding and a sum: both are flattened
(cross_entropy.py:32-42), then the sizes have to fit (55-60, 102). -/
noncomputable def entropy3 (vocab : Nat) (logits : List (List (List ℝ))) (targets : List (List Nat)) (smoothing : ℝ) :
    Except LossExc Out :=
  let rows := logits.flatten
  let flat := targets.flatten.map Int.ofNat
  if smoothing = 0 ∧ rows.length ≠ flat.length then .error .shape
  else if smoothing ≠ 0 ∧ rows.length < flat.length then .error .shape
  else
    match crossEntropy vocab rows (some logits.length) flat none smoothing none .sum with
    | .ok out => .ok out
    | .error e => .error (.loss e)

/-- The masked prediction loss (w2vbert/model.py:106-117, 158-164). -/
noncomputable def bertLoss (V G numCodebooks : Nat) (proj : List (List ℝ)) (cb : List (List (List ℝ))) (smoothing : ℝ) :
    Except LossExc Out :=
  entropy3 G (proj.map (viewRow V G)) (targetIndices numCodebooks cb) smoothing

end Fs2.Bert
