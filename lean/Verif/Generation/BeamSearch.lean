import Verif.Generation.SamplingGenerator
import Mathlib.Algebra.Order.Monoid.Unbundled.WithTop
import Mathlib.Algebra.Order.Ring.Rat

/-
Model of sequence generation by beam search.

Source: /repo/src/fairseq2/generation/beam_search/generator.py (operation: 396-819) and algo.py.

The tensors of the operation are lists with an entry per sequence, as for sampling. Log probabilities and
scores are exact numbers or minus infinity. Of `_step_scores` only the last column is kept (the others go
into the step scores of the hypotheses, which are not modelled). The language model with its state, the
step processors, `torch.topk`, the normalization of the scores and the prefill (the score of every prompt up
to the length of the shortest) are parameters; hooks and counters are not modelled. `Settings.numGens`
stands for `beam_size`.
-/

namespace Fs2.Gen

/-- A log probability or a score: `⊥` is minus infinity. -/
abbrev LogP := WithBot ℚ

/-- What the operation calls: the model with the log-softmax (`none` for not-a-number results), which gets
for every sequence the index of its prompt (in sequence-to-sequence generation the index of its source,
generator.py:925-936) and its tokens so far, the step
processors one after the other, `torch.topk` in a step for a beam (the indices of the `k` largest values),
the normalization of a score by the length (generator.py:786-789), the scores of the prompts after the
prefill, and the uninitialized memory. -/
structure BeamOps where
  lm : List Nat → List (List Int) → Option (List (List LogP))
  process : Nat → List (List Int) → List (List LogP) → Option (List (List LogP))
  topk : Nat → Nat → Nat → List LogP → Option (List Nat)
  normalize : Nat → LogP → LogP
  prefill : Nat → LogP
  junk : Nat → Nat → Int

/-- `Hypothesis` (without its step scores). -/
structure Hyp where
  seq : List Int
  score : LogP
deriving DecidableEq

/-- An entry of a `BeamStep` (algo.py:43-55). -/
structure Cand where
  seqIdx : Nat
  vocab : Int
  score : LogP

/-- The state of the operation (generator.py:454-494); `scores` is the column `step_nr - 1` of
`_step_scores`. -/
structure BeamState where
  beamSizes : List Nat
  promptLens : Option (List Nat)
  promptMask : Option (List (List Bool))
  promptIdx : List Nat
  seqs : List (List Int)
  scores : List LogP
  output : List (List Hyp)

/-- `__init__` and the prefill (generator.py:454-494, 524-583). -/
def beamInit (ops : BeamOps) (lim : Limits) (p : Prompts) : BeamState where
  beamSizes := p.rows.map fun _ => 1
  promptLens := if p.padded then some p.lens else none
  promptMask := if p.padded then some (p.lens.map (maskRow p.width)) else none
  promptIdx := List.range p.rows.length
  seqs := p.rows.mapIdx fun r row =>
    row.take lim.maxPrompt ++ (List.range (lim.maxLen - lim.maxPrompt)).map (ops.junk r)
  scores := (List.range p.rows.length).map ops.prefill
  output := p.rows.map fun _ => []

/-- The log probabilities of a step: only EOS at the last possible one, otherwise what the processors, the
UNK penalty and the bans of PAD and of an early EOS leave (generator.py:605-625). -/
def adjust (c : Settings) (ops : BeamOps) (lim : Limits) (stepNr : Nat) (seqs : List (List Int))
    (lprobs : List (List LogP)) : Option (List (List LogP)) :=
  if stepNr + 1 = lim.maxLen then
    some (lprobs.map fun row => row.mapIdx fun t x => if t = c.eos then x else ⊥)
  else do
    let lprobs ← ops.process stepNr (seqs.map (·.take stepNr)) lprobs
    let lprobs ← updateCol? c.unk (WithBot.map (· - c.unkPenalty)) lprobs
    let lprobs ← updateCol? c.pad (fun _ => ⊥) lprobs
    if stepNr + 1 < lim.minLen then updateCol c.eos (fun _ => ⊥) lprobs else some lprobs

/-- `StandardBeamSearchAlgorithm.step` (algo.py:93-107) for the beam `b`. -/
def algoStep (ops : BeamOps) (stepNr b beam : Nat) (lprobs : List (List LogP)) (scores : List LogP) :
    Option (List Cand) := do
  let V ← lprobs.head?.map (·.length)
  let values := (List.zipWith (fun (row : List LogP) (x : LogP) => row.map (· + x)) lprobs scores).flatten
  let top ← ops.topk stepNr b (min (2 * beam) V) values
  top.mapM fun j => (values[j]?).map fun x => { seqIdx := j / V, vocab := ((j % V : Nat) : Int), score := x }

/-- Whether the beam at the offset is within its prompt, and the prompt mask, which is released once no
prompt goes on (generator.py:688-694, 709-710). -/
def withinPrompt (lim : Limits) (stepNr offset : Nat) (mask : Option (List (List Bool))) :
    Option (Bool × Option (List (List Bool))) :=
  if stepNr < lim.maxPrompt then
    match mask with
    | none => none
    | some m =>
      match m[offset]? with
      | none => none
      | some row => (row[stepNr]?).map fun b => (b, some m)
  else some (false, none)

/-- The step of a beam within its prompt (generator.py:695-708). -/
def promptStep (stepNr offset : Nat) (lprobs : List (List LogP)) (scores : List LogP)
    (seqs : List (List Int)) : Option (List Cand) :=
  match lprobs, scores with
  | [row], [x] => do
    let seq ← seqs[offset]?
    let t ← seq[stepNr]?
    let w ← row[t.toNat]?
    return [{ seqIdx := offset, vocab := t, score := x + w }]
  | _, _ => none

/-- `_finish_sequence` (generator.py:756-799): the new state and whether the prompt has all its
hypotheses. -/
def beamFinish (c : Settings) (ops : BeamOps) (lim : Limits) (stepNr : Nat) (s : BeamState) (x : Cand) :
    Option (BeamState × Bool) := do
  let row ← s.seqs[x.seqIdx]?
  let row := row.set stepNr c.eos
  let start ← if c.echo then some 0 else
    match s.promptLens with
    | none => some lim.maxPrompt
    | some lens => lens[x.seqIdx]?
  let promptIdx ← s.promptIdx[x.seqIdx]?
  let hyps ← s.output[promptIdx]?
  let hyps := hyps ++ [{ seq := (row.take (stepNr + 1)).drop start, score := ops.normalize stepNr x.score }]
  return ({ s with seqs := s.seqs.set x.seqIdx row, output := s.output.set promptIdx hyps },
    hyps.length == c.numGens)

/-- The loop over the sequences that have reached EOS (generator.py:739-743). -/
def finishLoop (c : Settings) (ops : BeamOps) (lim : Limits) (stepNr : Nat) :
    List Cand → BeamState → Option (BeamState × Bool)
  | [], s => some (s, false)
  | x :: xs, s =>
    match beamFinish c ops lim stepNr s x with
    | none => none
    | some (s, true) => some (s, true)
    | some (s, false) => finishLoop c ops lim stepNr xs s

/-- `_search_beam` (generator.py:685-751) for the beam `b` at the given offset: the new state and the next
step, unless the beam is terminated. -/
def searchBeam (c : Settings) (ops : BeamOps) (lim : Limits) (stepNr b offset : Nat)
    (lprobs : List (List LogP)) (scores : List LogP) (s : BeamState) :
    Option (BeamState × Option (List Cand)) :=
  match withinPrompt lim stepNr offset s.promptMask with
  | none => none
  | some (true, m) =>
    (promptStep stepNr offset lprobs scores s.seqs).map fun next => ({ s with promptMask := m }, some next)
  | some (false, m) =>
    match algoStep ops stepNr b c.numGens lprobs scores with
    | none => none
    | some next =>
      let next := next.map fun x => { x with seqIdx := x.seqIdx + offset }
      let ends := (next.take c.numGens).filter fun x => x.vocab == (c.eos : Int)
      if ends.length > 0 then
        match finishLoop c ops lim stepNr ends { s with promptMask := m } with
        | none => none
        | some (s, true) => some (s, none)
        | some (s, false) => some (s, some ((next.filter fun x => x.vocab != (c.eos : Int)).take c.numGens))
      else some ({ s with promptMask := m }, some (next.take c.numGens))

/-- The loop over the beams (generator.py:633-656), from the beam `b` on: the next steps of those that go
on. -/
def searchBeams (c : Settings) (ops : BeamOps) (lim : Limits) (stepNr : Nat) :
    Nat → Nat → List Nat → List (List LogP) → List LogP → BeamState → Option (BeamState × List (List Cand))
  | _, _, [], _, _, s => some (s, [])
  | b, offset, size :: sizes, lprobs, scores, s =>
    match searchBeam c ops lim stepNr b offset (lprobs.take size) (scores.take size) s with
    | none => none
    | some (s, none) =>
      searchBeams c ops lim stepNr (b + 1) (offset + size) sizes (lprobs.drop size) (scores.drop size) s
    | some (s, some next) =>
      if next.length = 0 then none
      else
        (searchBeams c ops lim stepNr (b + 1) (offset + size) sizes (lprobs.drop size) (scores.drop size)
          s).map fun r => (r.1, next :: r.2)

/-- `_reorder_state` (generator.py:801-819). -/
def beamReorder (s : BeamState) (order : List Nat) : Option BeamState := do
  let promptLens ← indexSelect? s.promptLens order
  let promptMask ← indexSelect? s.promptMask order
  let promptIdx ← indexSelect s.promptIdx order
  let seqs ← indexSelect s.seqs order
  return { s with promptLens, promptMask, promptIdx, seqs }

/-- The end of a step (generator.py:658-673): the state with the sequences that go on and their tokens, or
the end of the generation. -/
def advance (stepNr : Nat) (nexts : List (List Cand)) (s : BeamState) : Option (BeamState × Bool) :=
  if nexts.length = 0 then some (s, false)
  else
    let next := nexts.flatten
    (beamReorder s (next.map (·.seqIdx))).map fun s =>
      let seqs := List.zipWith (fun seq (x : Cand) => seq.set stepNr x.vocab) s.seqs next
      ({ s with beamSizes := nexts.map (·.length), scores := next.map (·.score), seqs := seqs }, true)

/-- `_step` (generator.py:585-683): the new state and whether to go on. -/
def beamStep (c : Settings) (ops : BeamOps) (lim : Limits) (stepNr : Nat) (s : BeamState) :
    Option (BeamState × Bool) := do
  let lprobs ← ops.lm s.promptIdx (s.seqs.map (·.take stepNr))
  let lprobs ← adjust c ops lim stepNr s.seqs lprobs
  let r ← searchBeams c ops lim stepNr 0 0 s.beamSizes lprobs s.scores s
  advance stepNr r.2 r.1

/-- The loop of `__call__` (generator.py:505-507), with `n` steps left. -/
def beamLoop (c : Settings) (ops : BeamOps) (lim : Limits) : Nat → BeamState → Option BeamState
  | 0, s => some s
  | n + 1, s => do
    let (s, more) ← beamStep c ops lim (lim.maxLen - (n + 1)) s
    if more then beamLoop c ops lim n s else return s

/-- Inserts an element before those that are not larger. -/
def insertDesc {β : Type} (key : β → LogP) (x : β) : List β → List β
  | [] => [x]
  | y :: ys => if key y ≤ key x then x :: y :: ys else y :: insertDesc key x ys

/-- `list.sort(key=..., reverse=True)`: a stable sort, largest first. -/
def sortDesc {β : Type} (key : β → LogP) (l : List β) : List β := l.foldr (insertDesc key) []

/-- A call of the generator (generator.py:164-194, 500-522): the hypotheses of every prompt, best first. -/
def beamGenerate (c : Settings) (ops : BeamOps) (p : Prompts) : Option (List (List Hyp)) := do
  let lim ← limits c p
  let s ← beamLoop c ops lim (lim.maxLen - lim.minPrompt) (beamInit ops lim p)
  return s.output.map (sortDesc (·.score))

end Fs2.Gen
