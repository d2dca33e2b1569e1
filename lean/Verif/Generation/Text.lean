import Verif.Generation.BeamSearch
import Verif.Generation.StepProcessor
import Mathlib.Data.Rat.Floor

/-
Model of text generation: translation and completion of texts, one at a time and in batches, by beam search.

Sources: /repo/src/fairseq2/generation/text.py (161-356, with `SequenceToTextConverter` 26-158),
generation/beam_search/generator.py (`__call__` 166-196 and 324-381, prefill 524-583) and
nn/utils/padding.py (17-49).

The beam search itself is the one of `Verif.Generation.BeamSearch`. The model with its log-softmax is a function
`next` of the source (without padding) and the tokens so far: decoding with a state bag and batches with padding
are the subject of C96 and C98. `none` stands for every error: a not-a-number result, an index out of range, a
`ValueError`, an error of the tokenizer. `torch.topk` is a function of the values it gets. Sampling, hooks,
counters and devices are not modelled.
-/

namespace Fs2.Gen

/-- The step processors of the library, as constructed (`bannedInit`, `ngramInit`; step_processor.py). -/
inductive Processor where
  | banned (b : Option Banned)
  | ngram (n : Nat)

/-- A call of a step processor. -/
def callProcessor (len : Nat) (seqs : List (List Int)) (lprobs : List (List LogP)) :
    Processor → Option (List (List LogP))
  | .banned b => bannedCall b seqs lprobs ⊥
  | .ngram n => ngramCall n len seqs lprobs ⊥

/-- The step processors, one after the other (generator.py:612-614). -/
def callProcessors (procs : List Processor) (len : Nat) (seqs : List (List Int)) (lprobs : List (List LogP)) :
    Option (List (List LogP)) :=
  procs.foldlM (callProcessor len seqs) lprobs

/-- A generator: the settings, the model with the temperature and the log-softmax for the position after the
tokens, the step processors, `torch.topk`, the normalization of scores, `prefill_chunk_size` and the
uninitialized memory. -/
structure Generator (S : Type) where
  settings : Settings
  next : S → List Int → Option (List LogP)
  procs : List Processor
  topk : Nat → List LogP → Option (List Nat)
  normalize : Nat → LogP → LogP
  chunk : Option Nat
  junk : Nat → Nat → Int

variable {S Text : Type}

/-- `torch.gather` for one position (generator.py:559-561). -/
def gather (q : List LogP) (t : Int) : Option LogP := if t < 0 then none else q[t.toNat]?

/-- The scores of a chunk of one prompt (generator.py:543-571): `size` positions from `b` on, with the score `x`
of the position `b`; the last one. -/
def chunkScore (next : List Int → Option (List LogP)) (row : List Int) (b size : Nat) (x : LogP) : Option LogP :=
  (List.range' b size).foldlM (fun x j =>
    (next (row.take (j + 1))).bind fun q => (row[j + 1]?).bind fun t => (gather q t).map fun w => x + w) x

/-- The size of the chunk that begins at `b` (generator.py:535-539). -/
def chunkSize (chunk : Option Nat) (m b : Nat) : Nat :=
  match chunk with
  | none => m - b - 1
  | some k => if k ≠ 0 ∧ k < m - b - 1 then k else m - b - 1

/-- The loop of `_prefill` (generator.py:529-573) from `b` on, with the scores so far. There are at most as many
chunks as positions (`fuel`). -/
def prefillLoop (g : Generator S) (batch : List (S × List Int)) (m : Nat) : Nat → Nat → List LogP → Option (List LogP)
  | 0, _, scores => some scores
  | fuel + 1, b, scores =>
    if b < m - 1 then
      ((batch.zip scores).mapM fun x => chunkScore (g.next x.1.1) x.1.2 b (chunkSize g.chunk m b) x.2).bind fun scores =>
        prefillLoop g batch m fuel (b + chunkSize g.chunk m b) scores
    else some scores

/-- `_prepare_state` (generator.py:524-527): the scores of the prompts up to the length of the shortest. -/
def prepare (g : Generator S) (batch : List (S × List Int)) (m : Nat) : Option (List LogP) :=
  if m > 1 then prefillLoop g batch m m 0 (batch.map fun _ => 0) else some (batch.map fun _ => 0)

/-- What the beam search of a batch calls. -/
def Generator.ops (g : Generator S) (sources : List S) (scores : List LogP) : BeamOps where
  lm := fun src seqs => (src.zip seqs).mapM fun x => (sources[x.1]?).bind fun s => g.next s x.2
  process := callProcessors g.procs
  topk := fun _ _ => g.topk
  normalize := g.normalize
  prefill := fun i => scores.getD i 0
  junk := g.junk

/-- A generation with the given maximal length (generator.py:166-196): the hypotheses of every prompt. -/
def generate (g : Generator S) (maxGen : Nat) (sources : List S) (p : Prompts) : Option (List (List Hyp)) :=
  (limits { g.settings with maxGen := maxGen } p).bind fun lim =>
    (prepare g (sources.zip p.rows) lim.minPrompt).bind fun scores =>
      beamGenerate { g.settings with maxGen := maxGen } (g.ops sources scores) p

/-- `BatchLayout` of a tensor with `n` rows (nn/batch_layout.py:78-124): the checks of the width and of the
lengths. -/
def checkLayout (width : Nat) (lens : List Nat) : Option Unit :=
  if width < 1 then none
  else if lens.any (fun l => l < 1) then none
  else if lens.any (fun l => width < l) then none
  else some ()

/-- `pad_seqs` (padding.py:17-49): the width, the rows and the lengths. -/
def padSeqs {α : Type} (pad : α) (seqs : List (List α)) : Nat × List (List α) × List Nat :=
  let width := (seqs.map (·.length)).foldl max 0
  (width, seqs.map (fun s => s ++ List.replicate (width - s.length) pad), seqs.map (·.length))

/-- The end of `_do_convert` and `_do_complete` (text.py:146-158, 344-356). -/
def readTexts (decode : List Int → Option Text) (out : List (List Hyp)) : Option (List Text) :=
  out.mapM fun hyps =>
    match hyps with
    | [] => none
    | h :: _ => decode h.seq

/-! ### Translation -/

/-- `TextTranslator` with its generator: `max_gen_len` is `(scale, extra)`; `pre` is the prefix of the target. -/
structure Translator (Text : Type) where
  gen : Generator (List Int)
  scale : ℚ
  extra : Int
  encode : Text → Option (List Int)
  pre : List Int
  decode : List Int → Option Text
  pad : Int
  maxSource : Option Nat

/-- `BeamSearchSeq2SeqGenerator.__call__` (generator.py:324-381). `int` cuts towards zero, which differs from the floor
only where both are below one. -/
def seq2seq (t : Translator Text) (rows : List (List Int)) (lens : List Nat) (p : Prompts) : Option (List (List Hyp)) :=
  let maxSourceLen := lens.foldl max 0
  let maxGen : Int := ⌊t.scale * maxSourceLen + t.extra⌋
  if maxGen < 1 then none
  else if maxGen < t.gen.settings.minGen then none
  else generate t.gen maxGen.toNat (List.zipWith (fun row len => row.take len) rows lens) p

/-- `_do_convert` (text.py:116-158). -/
def convert (t : Translator Text) (rows : List (List Int)) (lens : List Nat) : Option (List Text) :=
  let prompts : Prompts := {
    width := t.pre.length
    rows := rows.map fun _ => t.pre
    lens := rows.map fun _ => t.pre.length }
  (checkLayout prompts.width prompts.lens).bind fun _ => (seq2seq t rows lens prompts).bind (readTexts t.decode)

/-- `source_seq[: self._max_source_len]` (text.py:233-234, 256-257). -/
def cutSource (t : Translator Text) (seq : List Int) : List Int :=
  match t.maxSource with
  | none => seq
  | some 0 => seq
  | some (m + 1) => seq.take (m + 1)

/-- `TextTranslator.__call__` (text.py:222-236, 74-92). -/
def translate (t : Translator Text) (text : Text) : Option Text :=
  (t.encode text).bind fun seq =>
    (checkLayout (cutSource t seq).length [(cutSource t seq).length]).bind fun _ =>
      (convert t [cutSource t seq] [(cutSource t seq).length]).bind fun texts => texts[0]?

/-- `TextTranslator.batch_translate` (text.py:238-263, 94-114). -/
def batchTranslate (t : Translator Text) (texts : List Text) : Option (List Text) :=
  if texts.length = 0 then none
  else
    (texts.mapM t.encode).bind fun seqs =>
      let (width, rows, lens) := padSeqs t.pad (seqs.map (cutSource t))
      (checkLayout width lens).bind fun _ => convert t rows lens

/-! ### Completion -/

/-- `TextCompleter` with its generator. -/
structure Completer (Text : Type) where
  gen : Generator Unit
  encode : Text → Option (List Int)
  decode : List Int → Option Text

/-- `_do_complete` (text.py:339-356). -/
def doComplete (t : Completer Text) (p : Prompts) : Option (List Text) :=
  (generate t.gen t.gen.settings.maxGen (p.rows.map fun _ => ()) p).bind (readTexts t.decode)

/-- `TextCompleter.__call__` (text.py:297-315). -/
def complete (t : Completer Text) (prompt : Text) : Option Text :=
  (t.encode prompt).bind fun seq =>
    (checkLayout seq.length [seq.length]).bind fun _ =>
      (doComplete t { width := seq.length, rows := [seq], lens := [seq.length] }).bind fun texts => texts[0]?

/-- `TextCompleter.batch_complete` (text.py:317-337). -/
def batchComplete (t : Completer Text) (prompts : List Text) : Option (List Text) :=
  if prompts.length = 0 then none
  else
    (prompts.mapM t.encode).bind fun seqs =>
      let (width, rows, lens) := padSeqs 0 seqs
      (checkLayout width lens).bind fun _ => doComplete t { width, rows, lens }

end Fs2.Gen
