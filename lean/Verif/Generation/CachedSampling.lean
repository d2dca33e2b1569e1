import Verif.Generation.Cached
import Verif.Generation.SamplingGenerator

/-
Model of sampling as it calls the model: with a state bag.

Source: /repo/src/fairseq2/generation/sampling/generator.py (443-445, 499-594, 596-709, 757-776, 826-833, 884-896).

`Verif.Generation.SamplingGenerator` models a generation in which the model is asked for the probabilities after the
sequences (`Ops.lm`). Here the model is fed with the new tokens only, and its state bag is reordered with the sequences,
as the generator does it. The scores that the generator records on request are not modelled.
-/

namespace Fs2.Gen

variable {σ : Type}

/-- The loop of `_prefill` (generator.py:541-581): the prompts are fed in chunks. What comes out matters only for the
scores, but not-a-number results raise (`feed`). -/
def samplePrefill (D : Stateful ℚ σ) (chunk : Option Nat) (rows : List (List Int)) (m : Nat) : Nat → Nat → σ → Option σ
  | 0, _, st => some st
  | fuel + 1, b, st =>
    if b < m - 1 then
      (D.feed st (rows.map fun row => (row.drop b).take (chunkSize chunk m b))).bind fun r =>
        samplePrefill D chunk rows m fuel (b + chunkSize chunk m b) r.2
    else some st

/-- The order of the fan out (generator.py:529-537). -/
def fanOrder (c : Settings) (n : Nat) : List Nat := (List.range n).flatMap fun i => List.replicate c.numGens i

/-- What `_prepare_state` (generator.py:524-539) does with the state bag: the prefill, and the fan out. -/
def samplePrepare (D : Stateful ℚ σ) (c : Settings) (chunk : Option Nat) (rows : List (List Int)) (m : Nat) : Option σ :=
  (if m > 1 then samplePrefill D chunk rows m m 0 D.start else some D.start).bind fun st =>
    if c.numGens > 1 then D.reorder st (fanOrder c rows.length) else some st

/-- `_step` (generator.py:596-709) with the state bag: the model gets the last token of every sequence, and the bag is
reordered with the sequences when some have ended and some have not (generator.py:684-709, 757-758). -/
def cachedSampStep (c : Settings) (ops : Ops) (D : Stateful ℚ σ) (lim : Limits) (stepNr : Nat) (s : SampState) (st : σ) :
    Option (SampState × σ × Bool) :=
  (D.feed st (s.seqs.map fun row => (row.drop (stepNr - 1)).take 1)).bind fun r =>
    (r.1.mapM fun (qs : List (List ℚ)) => qs.head?).bind fun probs =>
      (chooseTokens c ops lim stepNr s.seqs probs).bind fun tokens =>
        (keepPrompts c lim stepNr s tokens).bind fun k =>
          (retire c lim stepNr
            { s with promptMask := k.2.2, seqs := List.zipWith (fun seq t => seq.set stepNr t) s.seqs k.1 } k.2.1).bind fun a =>
            if (whereTrue k.2.1).length > 0 ∧ a.2 = true then
              (D.reorder r.2 (whereTrue (k.2.1.map fun e => !e))).map fun st => (a.1, st, a.2)
            else some (a.1, r.2, a.2)

/-- The loop of `__call__` (generator.py:504-506), with `n` steps left. -/
def cachedSampLoop (c : Settings) (ops : Ops) (D : Stateful ℚ σ) (lim : Limits) : Nat → SampState → σ → Option SampState
  | 0, s, _ => some s
  | n + 1, s, st =>
    (cachedSampStep c ops D lim (lim.maxLen - (n + 1)) s st).bind fun r =>
      if r.2.2 then cachedSampLoop c ops D lim n r.1 r.2.1 else some r.1

/-- A call of the generator (generator.py:165-192, 499-522) with a model whose state bag has room for as many steps as
given. Of `ops` all is used but `lm`. -/
def cachedSample (D : Nat → Stateful ℚ σ) (c : Settings) (ops : Ops) (chunk : Option Nat) (p : Prompts) :
    Option (List (List (List Int))) :=
  (limits c p).bind fun lim =>
    (samplePrepare (D lim.maxLen) c chunk p.rows lim.minPrompt).bind fun st =>
      (fanOut c (sampInit ops lim p)).bind fun s =>
        (cachedSampLoop c ops (D lim.maxLen) lim (lim.maxLen - lim.minPrompt) s st).map fun s => s.output

end Fs2.Gen
