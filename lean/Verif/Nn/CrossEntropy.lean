import Mathlib.Analysis.SpecialFunctions.Log.Basic

/-!
# Cross entropy

Models `cross_entropy` (src/fairseq2/nn/functional/cross_entropy.py:16-185) on real numbers. Logits are rows of `vocab` finite numbers that are
already flattened; `batch` is the batch size if they had three dimensions. Targets and mask are flattened, and there is one
for each row. A mask has boolean entries. PyTorch's `nll_loss` and `log_softmax` are by contract.
-/

namespace Fs2.Loss

inductive Reduction where
  | sum
  | mean
  | none
deriving DecidableEq

inductive Exc where
  /-- A target that is not in the vocabulary. -/
  | index
  /-- `ZeroDivisionError` -/
  | zeroDivision
deriving DecidableEq

/-- What is returned: a number (`none` is `nan`), a vector, or a matrix. -/
inductive Out where
  | scalar (x : Option ℝ)
  | vector (l : List ℝ)
  | matrix (l : List (List ℝ))

/-- `log_softmax` of a row. -/
noncomputable def logSoftmax (row : List ℝ) : List ℝ :=
  row.map fun x => x - Real.log ((row.map Real.exp).sum)

/-- The entry of a row at a target; indices are not counted from the end. -/
def pick (row : List ℝ) (target : Int) : Except Exc ℝ :=
  if target < 0 then .error .index
  else match row[target.toNat]? with
    | none => .error .index
    | some x => .ok x

/-- `nll_loss` without reduction. -/
def nll (logProbs : List (List ℝ)) (targets : List Int) (ignore : Int) : Except Exc (List ℝ) :=
  (logProbs.zip targets).mapM fun x => if x.2 = ignore then .ok 0 else (pick x.1 x.2).map (- ·)

/-- A sum that is divided by a count. The sums in question are 0 whenever the count is. -/
noncomputable def over (x : ℝ) (n : Nat) : Option ℝ := if n = 0 then none else some (x / n)

/-- `unflatten(0, (batch_size, -1))` -/
def unflatten (batch : Option Nat) (l : List ℝ) : Out :=
  match batch with
  | none => .vector l
  | some n => .matrix ((List.range n).map fun i => (l.drop (i * (l.length / n))).take (l.length / n))

/-- `loss * target_mask` -/
def masked (l : List ℝ) (mask : List Bool) : List ℝ := (l.zip mask).map fun x => x.1 * if x.2 then 1 else 0

/-- cross_entropy.py:118-131 -/
def maskAll (mask : Option (List Bool)) (l : List ℝ) : List ℝ :=
  match mask with
  | none => l
  | some m => masked l m

/-- `masked_fill_(targets.eq(pad_idx), 0.0)` -/
def fillPadding (l : List ℝ) (targets : List Int) (pad : Option Int) : List ℝ :=
  match pad with
  | none => l
  | some p => (l.zip targets).map fun x => if x.2 = p then 0 else x.1

/-- Without label smoothing (cross_entropy.py:50-96). -/
noncomputable def plain (logProbs : List (List ℝ)) (batch : Option Nat) (targets : List Int) (pad : Option Int)
    (mask : Option (List Bool)) (reduction : Reduction) : Except Exc Out :=
  let pad := pad.getD (-100)
  (nll logProbs targets pad).map fun loss =>
    match mask with
    | none =>
      match reduction with
      | .sum => .scalar (some loss.sum)
      | .mean => .scalar (over loss.sum (targets.countP (· ≠ pad)))
      | .none => unflatten batch loss
    | some m =>
      let loss := masked loss m
      match reduction with
      | .sum => .scalar (some loss.sum)
      | .mean => .scalar (over loss.sum ((m.zip targets).countP fun x => x.1 && x.2 ≠ pad))
      | .none => unflatten batch loss

/-- The number of entries that a mean is taken over (cross_entropy.py:141-164). -/
def meanCount (targets : List Int) (pad : Option Int) (mask : Option (List Bool)) : Nat :=
  match mask, pad with
  | some m, none => m.countP id
  | some m, some p => (m.zip targets).countP fun x => x.1 && x.2 ≠ p
  | none, some p => targets.countP (· ≠ p)
  | none, none => targets.length

/-- With label smoothing (cross_entropy.py:98-185); `vocab` is `log_probs.size(-1)`. -/
noncomputable def smoothed (vocab : Nat) (logProbs : List (List ℝ)) (batch : Option Nat) (targets : List Int) (pad : Option Int)
    (smoothing : ℝ) (mask : Option (List Bool)) (reduction : Reduction) : Except Exc Out :=
  match (logProbs.zip targets).mapM fun x => (pick x.1 x.2).map (- ·) with
  | .error e => .error e
  | .ok loss =>
    let loss := fillPadding loss targets pad
    let smooth := fillPadding (logProbs.map fun row => - row.sum) targets pad
    let loss := maskAll mask loss
    let smooth := maskAll mask smooth
    if 0 < smoothing ∧ vocab = 1 then .error .zeroDivision
    else
      let eps := smoothing / ((vocab : ℝ) - 1)
      let mix : ℝ → ℝ → ℝ := fun x s => if 0 < smoothing then (1 - smoothing - eps) * x + eps * s else x
      .ok (match reduction with
        | .sum => .scalar (some (mix loss.sum smooth.sum))
        | .mean =>
          let n := meanCount targets pad mask
          .scalar ((over loss.sum n).bind fun x => (over smooth.sum n).map fun s => mix x s)
        | .none => unflatten batch ((loss.zip smooth).map fun x => mix x.1 x.2))

/-- `cross_entropy` (cross_entropy.py:16-185). -/
noncomputable def crossEntropy (vocab : Nat) (logits : List (List ℝ)) (batch : Option Nat) (targets : List Int) (pad : Option Int)
    (smoothing : ℝ) (mask : Option (List Bool)) (reduction : Reduction) : Except Exc Out :=
  let logProbs := logits.map logSoftmax
  if smoothing = 0 then plain logProbs batch targets pad mask reduction
  else smoothed vocab logProbs batch targets pad smoothing mask reduction

end Fs2.Loss
