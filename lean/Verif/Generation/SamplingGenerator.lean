import Mathlib.Data.Rat.Defs

/-
Model of sequence generation by sampling.

Source: /repo/src/fairseq2/generation/sampling/generator.py.

The tensors of the operation are kept apart as in the code (`_prompt_lens`, `_prompt_mask`,
`_prompt_indices`, `_seqs`), every one a list with an entry per sequence, and are reordered one by one. The
language model with its incremental state, the step processors and the sampler are parameters: functions
of the sequences so far, which may raise (`none`). The prefill only fills the state of the model and is not
modelled; neither are scores, hooks and counters (scores only sort the hypotheses of a prompt).
Probabilities are rationals. The uninitialized part of `_seqs` (`torch.empty`) holds arbitrary values.
-/

namespace Fs2.Gen

/-- The arguments of the generator that matter (generator.py:44-63). -/
structure Settings where
  eos : Nat
  pad : Option Nat
  unk : Option Nat
  numGens : Nat
  minGen : Nat
  maxGen : Nat
  maxSeq : Nat
  echo : Bool
  unkPenalty : ℚ

/-- `prompt_seqs` of the shape `(P, width)` with the lengths of its layout. -/
structure Prompts where
  width : Nat
  rows : List (List Int)
  lens : List Nat

/-- What the operation calls: the model with the softmax (`none` for not-a-number results,
generator.py:598-614), which gets the indices of the prompts, since a model may have a source for each of them; the step processors one after the other, the sampler for one row at a step, and the
uninitialized memory. -/
structure Ops where
  lm : List Nat → List (List Int) → Option (List (List ℚ))
  process : Nat → List (List Int) → List (List ℚ) → Option (List (List ℚ))
  sample : Nat → Nat → List ℚ → Option Nat
  junk : Nat → Nat → Int

/-- The numbers fixed at the beginning (generator.py:424-433). -/
structure Limits where
  minPrompt : Nat
  maxPrompt : Nat
  minLen : Nat
  maxLen : Nat

/-- The state of the operation. -/
structure SampState where
  promptLens : Option (List Nat)
  promptMask : Option (List (List Bool))
  promptIdx : List Nat
  seqs : List (List Int)
  output : List (List (List Int))

/-- `BatchLayout.padded`: some sequence is shorter than the tensor is wide. -/
def Prompts.padded (p : Prompts) : Bool := p.lens.any fun l => decide (l < p.width)

/-- Largest and smallest length (`BatchLayout.max_seq_len`, `min_seq_len`). -/
def Prompts.maxLen (p : Prompts) : Nat := p.lens.foldl max 0

/-- See `maxLen`. -/
def Prompts.minLen (p : Prompts) : Nat := p.lens.foldl min (p.lens.headD 0)

/-- The checks of `SamplingSequenceGenerator.__init__` (generator.py:112-125) and of the operation, with
the limits it computes (generator.py:424-433). -/
def limits (c : Settings) (p : Prompts) : Option Limits :=
  if c.minGen < 1 then none
  else if c.maxGen < 1 then none
  else if c.maxGen < c.minGen then none
  else if c.maxSeq ≤ p.maxLen then none
  else some {
    minPrompt := p.minLen
    maxPrompt := p.maxLen
    minLen := min c.maxSeq (p.maxLen + c.minGen)
    maxLen := min c.maxSeq (p.maxLen + c.maxGen) }

/-- `position_indices >= 0` for a sequence of the given length (generator.py:459). -/
def maskRow (width len : Nat) : List Bool := (List.range width).map fun j => decide (j < len)

/-- `_AbstractSamplingSequenceGeneratorOp.__init__` (generator.py:451-493). -/
def sampInit (ops : Ops) (lim : Limits) (p : Prompts) : SampState where
  promptLens := if p.padded then some p.lens else none
  promptMask := if p.padded then some (p.lens.map (maskRow p.width)) else none
  promptIdx := List.range p.rows.length
  seqs := p.rows.mapIdx fun r row =>
    row.take lim.maxPrompt ++ (List.range (lim.maxLen - lim.maxPrompt)).map (ops.junk r)
  output := p.rows.map fun _ => []

/-- `tensor.index_select(dim=0, index=new_order)`. -/
def indexSelect {β : Type} (l : List β) (order : List Nat) : Option (List β) := order.mapM fun i => l[i]?

/-- `index_select` for a tensor that may be absent. -/
def indexSelect? {β : Type} (l : Option (List β)) (order : List Nat) : Option (Option (List β)) :=
  match l with
  | none => some none
  | some l => (indexSelect l order).map some

/-- `_reorder_state` (generator.py:757-776). -/
def sampReorder (s : SampState) (order : List Nat) : Option SampState := do
  let promptLens ← indexSelect? s.promptLens order
  let promptMask ← indexSelect? s.promptMask order
  let promptIdx ← indexSelect s.promptIdx order
  let seqs ← indexSelect s.seqs order
  return { s with promptLens, promptMask, promptIdx, seqs }

/-- `_prepare_state` without the prefill (generator.py:524-539): the fan out to `num_gens` sequences per
prompt. -/
def fanOut (c : Settings) (s : SampState) : Option SampState :=
  if c.numGens > 1 then
    sampReorder s ((List.range s.seqs.length).flatMap fun i => List.replicate c.numGens i)
  else some s

/-- `probs[:, i] = f(probs[:, i])`. -/
def updateCol {β : Type} (i : Nat) (f : β → β) (probs : List (List β)) : Option (List (List β)) :=
  probs.mapM fun row => (row[i]?).map fun x => row.set i (f x)

/-- The update for an index that may be absent. -/
def updateCol? {β : Type} (i : Option Nat) (f : β → β) (probs : List (List β)) :
    Option (List (List β)) :=
  match i with
  | none => some probs
  | some i => updateCol i f probs

/-- The tokens of a step: EOS at the last possible one, otherwise drawn from the processed probabilities
(generator.py:616-641). -/
def chooseTokens (c : Settings) (ops : Ops) (lim : Limits) (stepNr : Nat) (seqs : List (List Int))
    (probs : List (List ℚ)) : Option (List Nat) :=
  if stepNr + 1 = lim.maxLen then
    some (seqs.map fun _ => c.eos)
  else do
    let probs ← ops.process stepNr (seqs.map (·.take stepNr)) probs
    let probs ← updateCol? c.unk (· - c.unkPenalty) probs
    let probs ← updateCol? c.pad (fun _ => 0) probs
    let probs ← if stepNr + 1 < lim.minLen then updateCol c.eos (fun _ => 0) probs else some probs
    (List.range probs.length).mapM fun r => ops.sample stepNr r (probs.getD r [])

/-- The indices of the true entries (`mask.nonzero()`). -/
def whereTrue (mask : List Bool) : List Nat := (List.range mask.length).filter fun i => mask.getD i false

/-- `_finish_sequence` (generator.py:714-755). -/
def sampFinish (c : Settings) (lim : Limits) (stepNr : Nat) (s : SampState) (seqIdx : Nat) :
    Option SampState := do
  let start ← if c.echo then some 0 else
    match s.promptLens with
    | none => some lim.maxPrompt
    | some lens => lens[seqIdx]?
  let seq ← s.seqs[seqIdx]?
  let promptIdx ← s.promptIdx[seqIdx]?
  let hyps ← s.output[promptIdx]?
  return { s with output := s.output.set promptIdx (hyps ++ [(seq.take (stepNr + 1)).drop start]) }

/-- The tokens and the EOS mask of a step with the prompts kept (generator.py:643-661), and the prompt mask,
which is released once no prompt goes on. -/
def keepPrompts (c : Settings) (lim : Limits) (stepNr : Nat) (s : SampState) (tokens : List Nat) :
    Option (List Int × List Bool × Option (List (List Bool))) :=
  let eosMask := tokens.map fun t => t == c.eos
  if stepNr < lim.maxPrompt then
    match s.promptMask with
    | none => none
    | some m =>
      match m.mapM fun (row : List Bool) => row[stepNr]? with
      | none => none
      | some mask =>
        some (
          List.zipWith (fun (ms : Bool × List Int) (t : Nat) =>
            if ms.1 then ms.2.getD stepNr 0 else (t : Int)) (mask.zip s.seqs) tokens,
          List.zipWith (fun (m e : Bool) => if m then false else e) mask eosMask,
          some m)
  else some (tokens.map fun (t : Nat) => (t : Int), eosMask, none)

/-- Moves the sequences that have reached EOS to the output and goes on with the others
(generator.py:684-709). -/
def retire (c : Settings) (lim : Limits) (stepNr : Nat) (s : SampState) (eosMask : List Bool) :
    Option (SampState × Bool) :=
  let finished := whereTrue eosMask
  if finished.length > 0 then
    match finished.foldlM (sampFinish c lim stepNr) s with
    | none => none
    | some s =>
      let active := whereTrue (eosMask.map fun e => !e)
      if active.length = 0 then some (s, false)
      else (sampReorder s active).map fun s => (s, true)
  else some (s, true)

/-- `_step` (generator.py:596-709): the new state and whether to go on. -/
def sampStep (c : Settings) (ops : Ops) (lim : Limits) (stepNr : Nat) (s : SampState) :
    Option (SampState × Bool) := do
  let probs ← ops.lm s.promptIdx (s.seqs.map (·.take stepNr))
  let tokens ← chooseTokens c ops lim stepNr s.seqs probs
  let (tokens, eosMask, promptMask) ← keepPrompts c lim stepNr s tokens
  let s := { s with promptMask, seqs := List.zipWith (fun seq t => seq.set stepNr t) s.seqs tokens }
  retire c lim stepNr s eosMask

/-- The loop of `__call__` (generator.py:504-506), with `n` steps left. -/
def sampLoop (c : Settings) (ops : Ops) (lim : Limits) : Nat → SampState → Option SampState
  | 0, s => some s
  | n + 1, s => do
    let (s, more) ← sampStep c ops lim (lim.maxLen - (n + 1)) s
    if more then sampLoop c ops lim n s else return s

/-- A call of the generator (generator.py:165-192, 499-522): the hypotheses of every prompt. -/
def sampGenerate (c : Settings) (ops : Ops) (p : Prompts) : Option (List (List (List Int))) := do
  let lim ← limits c p
  let s ← fanOut c (sampInit ops lim p)
  let s ← sampLoop c ops lim (lim.maxLen - lim.minPrompt) s
  return s.output

end Fs2.Gen
