import Verif.Generation.Text

/-
Model of beam search as it calls the model: with a state bag.

Sources: /repo/src/fairseq2/generation/beam_search/generator.py (450-452, 500-583, 585-683, 801-819, 867-873, 925-936).

`Verif.Generation.Text` models a generation in which the model is asked for the log probabilities after a
sequence. The generators do something else: they feed the model with the new tokens only, which it appends to what
the state bag holds, and reorder the state bag with the sequences. That is modelled here, for any model with a
state. Hooks and counters are not modelled.
-/

namespace Fs2.Gen

variable {S σ : Type}

/-- A model with a state bag: the bag at the start; a call with the next tokens of every sequence (generator.py:541-555,
587-602: `_decode`, `increment_step_nr`, the temperature, the log-softmax in single precision and the check for
not-a-number results), which gives the log probabilities (for sampling, the probabilities) after each of these tokens; and `IncrementalStateBag.reorder`. -/
structure Stateful (P σ : Type) where
  start : σ
  feed : σ → List (List Int) → Option (List (List (List P)) × σ)
  reorder : σ → List Nat → Option σ

/-- The scores of a chunk of a prompt (generator.py:557-571): the log probabilities of the tokens that follow, summed
up; the last one. -/
def cachedScore (row : List Int) (b size : Nat) (qs : List (List LogP)) (x : LogP) : Option LogP :=
  (((row.drop (b + 1)).take size).zip qs).foldlM (fun x tq => (gather tq.2 tq.1).map fun w => x + w) x

/-- The loop of `_prefill` (generator.py:529-573). -/
def cachedPrefill (D : Stateful LogP σ) (chunk : Option Nat) (rows : List (List Int)) (m : Nat) :
    Nat → Nat → σ → List LogP → Option (List LogP × σ)
  | 0, _, st, scores => some (scores, st)
  | fuel + 1, b, st, scores =>
    if b < m - 1 then
      let size := chunkSize chunk m b
      (D.feed st (rows.map fun row => (row.drop b).take size)).bind fun r =>
        ((rows.zip (r.1.zip scores)).mapM fun x => cachedScore x.1 b size x.2.1 x.2.2).bind fun scores =>
          cachedPrefill D chunk rows m fuel (b + size) r.2 scores
    else some (scores, st)

/-- `_prepare_state` (generator.py:524-527). -/
def cachedPrepare (D : Stateful LogP σ) (chunk : Option Nat) (rows : List (List Int)) (m : Nat) : Option (List LogP × σ) :=
  if m > 1 then cachedPrefill D chunk rows m m 0 D.start (rows.map fun _ => 0)
  else some (rows.map fun _ => 0, D.start)

/-- What the search calls besides the model. -/
def Generator.rest (g : Generator S) (scores : List LogP) : BeamOps where
  lm := fun _ _ => none
  process := callProcessors g.procs
  topk := fun _ _ => g.topk
  normalize := g.normalize
  prefill := fun i => scores.getD i 0
  junk := g.junk

/-- `_step` (generator.py:585-683) with the state bag: the model gets the last token of every sequence, and the bag is
reordered with the sequences (`_reorder_state`, generator.py:801-819) unless no beam is left. -/
def cachedStep (c : Settings) (ops : BeamOps) (D : Stateful LogP σ) (lim : Limits) (stepNr : Nat) (s : BeamState) (st : σ) :
    Option (BeamState × σ × Bool) :=
  (D.feed st (s.seqs.map fun row => (row.drop (stepNr - 1)).take 1)).bind fun r =>
    (r.1.mapM fun (qs : List (List LogP)) => qs.head?).bind fun lprobs =>
      (adjust c ops lim stepNr s.seqs lprobs).bind fun lprobs =>
        (searchBeams c ops lim stepNr 0 0 s.beamSizes lprobs s.scores s).bind fun f =>
          (advance stepNr f.2 f.1).bind fun a =>
            if f.2.length = 0 then some (a.1, r.2, a.2)
            else (D.reorder r.2 (f.2.flatten.map (·.seqIdx))).map fun st => (a.1, st, a.2)

/-- The loop of `__call__` (generator.py:505-507), with `n` steps left. -/
def cachedLoop (c : Settings) (ops : BeamOps) (D : Stateful LogP σ) (lim : Limits) : Nat → BeamState → σ → Option BeamState
  | 0, s, _ => some s
  | n + 1, s, st =>
    (cachedStep c ops D lim (lim.maxLen - (n + 1)) s st).bind fun r =>
      if r.2.2 then cachedLoop c ops D lim n r.1 r.2.1 else some r.1

/-- A generation (generator.py:166-196, 500-522) with a model whose state bag has room for as many steps as given. Of
the generator only the settings, the step processors and the rest are used, but not `next`. -/
def cachedGenerate (D : Nat → Stateful LogP σ) (g : Generator S) (maxGen : Nat) (p : Prompts) : Option (List (List Hyp)) :=
  (limits { g.settings with maxGen := maxGen } p).bind fun lim =>
    (cachedPrepare (D lim.maxLen) g.chunk p.rows lim.minPrompt).bind fun r =>
      (cachedLoop { g.settings with maxGen := maxGen } (g.rest r.1) (D lim.maxLen) lim (lim.maxLen - lim.minPrompt)
        (beamInit (g.rest r.1) lim p) r.2).map fun s => s.output.map (sortDesc (·.score))

end Fs2.Gen
