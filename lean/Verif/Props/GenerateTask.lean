import Verif.Datasets.LmGenerateLemmas
import Verif.Props.TextGeneration
import Verif.Props.Reader

/-!
# The text generation recipe: C111

`createReader W tok files rank size n` is the pipeline that `LMGenerateDataset.create_reader` builds on a rank, `runTask` is the run of
the task with the batches of that pipeline, and what it gives are the records in the output files of the rank. `W` says what is in the
files, and `g` is any sequence generator, with a state of its own.
-/

namespace Fs2.Props
open Fs2.LmGen Fs2.Sft Source
open Fs2.Reader (start reply)

/-- A line of a file is a JSON object with a prompt, and perhaps an id. -/
def LineAsks (W : Files) (line : Data) (q : Question) : Prop :=
  ∃ fields, W.loads line = .ok (.dict fields) ∧ fields.lookup "src" = some (.str q.text) ∧ q.id = fields.lookup "id"

/-- The value used for padding. -/
def PadsWith (tok : LmGen.Tok) (pad : Int) : Prop := tok.padIdx = some pad ∨ tok.padIdx = none ∧ tok.eosIdx = some pad

/-- The tensor and the lengths are those of the tokenized prompts, padded to the longest one. -/
structure HoldsPrompts (tok : LmGen.Tok) (pad : Int) (qs : List Question) (p : Gen.Prompts) : Prop where
  rows : p.rows = qs.map fun q => tok.prompt q.text ++ List.replicate (p.width - (tok.prompt q.text).length) pad
  lens : p.lens = qs.map fun q => (tok.prompt q.text).length
  fits : ∀ q ∈ qs, (tok.prompt q.text).length ≤ p.width
  tight : ∃ q ∈ qs, (tok.prompt q.text).length = p.width

variable {σ S : Type}

/-- The generator, called with the prompts one after the other, gives the hypotheses. -/
def Replies (g : SeqGen σ S) : σ → List Gen.Prompts → List (List (List (Hypothesis S))) → σ → Prop
  | s, [], outs, t => outs = [] ∧ t = s
  | s, p :: ps, outs, t => ∃ out more s', g s p = some (out, s') ∧ outs = out :: more ∧ Replies g s' ps more t

/-- A generator that gives for each of a number of prompts at least one hypothesis. -/
def Answers (g : SeqGen σ S) (tok : LmGen.Tok) (pad : Int) (n : Nat) (all : List Question) : Prop :=
  ∀ s qs p, qs ≠ [] → qs.length ≤ n → (∀ q ∈ qs, q ∈ all) → HoldsPrompts tok pad qs p →
    ∃ outs t, g s p = some (outs, t) ∧ outs.length = qs.length ∧ ∀ hyps ∈ outs, hyps ≠ []

/-- The record says what was asked and what the first hypothesis is. -/
structure Tells (tok : LmGen.Tok) (q : Question) (h : Hypothesis S) (r : Record S) : Prop where
  id : r.id = q.id
  prompt : r.prompt = q.text
  response : r.response = tok.decode h.seq
  tokens : r.tokenIndices = h.seq
  score : r.score = h.score
  steps : r.stepScores = h.stepScores

/-- The pipeline of a rank. -/
def genSource (R : Rng) (W : Files) (tok : LmGen.Tok) (files : List Data) (rank size n : Nat) : Source :=
  pipeline false 0 ((LmGen.createReader W tok files rank size n).denote R)

section
variable {R : Rng} {W : Files} {tok : LmGen.Tok} {files : List Data} {ask : Data → Question} {pad : Int} {n : Nat}

private theorem holds {qs : List Question} (hne : qs ≠ []) :
    HoldsPrompts tok pad qs (promptsOf tok pad qs) where
  rows := rfl
  lens := rfl
  fits q hq := Native.le_longest (List.mem_map.2 ⟨q, hq, rfl⟩)
  tight := by
    obtain ⟨t, ht, e⟩ := Native.longest_mem (ts := qs.map fun q => tok.prompt q.text) (by simpa using hne)
    obtain ⟨q, hq, rfl⟩ := List.mem_map.1 ht
    exact ⟨q, hq, e⟩

private theorem only {qs : List Question} {p : Gen.Prompts} (h : HoldsPrompts tok pad qs p) : p = promptsOf tok pad qs := by
  have hw : p.width = Native.longest (qs.map fun q => tok.prompt q.text) := by
    obtain ⟨q, hq, e⟩ := h.tight
    have h1 := Native.le_longest (ts := qs.map fun q => tok.prompt q.text) (List.mem_map.2 ⟨q, hq, rfl⟩)
    obtain ⟨t, ht, e'⟩ := Native.longest_mem (ts := qs.map fun q => tok.prompt q.text) (by
      intro e; rw [List.map_eq_nil_iff] at e; rw [e] at hq; cases hq)
    obtain ⟨q', hq', rfl⟩ := List.mem_map.1 ht
    have := h.fits q' hq'
    omega
  obtain ⟨w, rows, lens⟩ := p
  have h1 := h.rows
  have h2 := h.lens
  simp only at hw h1 h2
  subst hw h1 h2
  rfl

/-- The questions of the files as they come out of the pipeline. -/
private theorem questions (h : ∀ f ∈ files, ∀ l ∈ W.lines f, LineAsks W l (ask l)) :
    ∃ qOf : Data → Question, (contents W files).map qOf = (files.flatMap W.lines).map ask ∧
      (∀ d ∈ contents W files, LmGen.encode tok d = .ok (encoded tok (qOf d))) ∧ Parses W files := by
  have hp : Parses W files := by
    intro f hf l hl
    obtain ⟨fields, h1, -⟩ := h f hf l hl
    rw [h1, dataOf, h1]
  let qOf : Data → Question := fun d => match d with
    | .dict fields => ⟨fields.lookup "id", match fields.lookup "src" with | some (.str s) => s | _ => ""⟩
    | _ => ⟨none, ""⟩
  have each : ∀ f ∈ files, ∀ l ∈ W.lines f, qOf (dataOf W l) = ask l ∧ LmGen.encode tok (dataOf W l) = .ok (encoded tok (ask l)) := by
    intro f hf l hl
    obtain ⟨fields, h1, h2, h3⟩ := h f hf l hl
    have e : dataOf W l = .dict fields := by rw [dataOf, h1]
    rw [e]
    constructor
    · simp only [qOf, h2, ← h3]
    · simp only [LmGen.encode, h2, encoded, h3]
  refine ⟨qOf, ?_, ?_, hp⟩
  · unfold contents
    rw [List.map_flatMap, List.map_flatMap]
    apply List.flatMap_congr
    intro f hf
    rw [List.map_map]
    exact List.map_congr_left fun l hl => (each f hf l hl).1
  · intro d hd
    obtain ⟨f, hf, hd⟩ := List.mem_flatMap.1 hd
    obtain ⟨l, hl, rfl⟩ := List.mem_map.1 hd
    rw [(each f hf l hl).2, (each f hf l hl).1]

private theorem pads (hpad : PadsWith tok pad) : (LmGen.collater tok).opts = ⟨some pad, 1⟩ := by
  rcases hpad with h | ⟨h1, h2⟩
  · simp [LmGen.collater, h]
  · simp [LmGen.collater, h1, h2]

/-- The batches of a rank. -/
private theorem rank_reads (h : ∀ f ∈ files, ∀ l ∈ W.lines f, LineAsks W l (ask l)) (hpad : PadsWith tok pad)
    (hid : IdsAlike ((files.flatMap W.lines).map ask)) (hn : 0 < n) :
    ∃ qOf : Data → Question, (contents W files).map qOf = (files.flatMap W.lines).map ask ∧
      ∀ r size, r < size → ∃ batches : List (List Question), batches.flatten = (shardOf r size (contents W files)).map qOf ∧
        (∀ b ∈ batches, b ≠ [] ∧ b.length ≤ n) ∧ (∀ k b, batches[k]? = some b → k + 1 < batches.length → b.length = n) ∧
        (genSource R W tok files r size n).Yields (genSource R W tok files r size n).init (batches.map (collated tok pad)) := by
  obtain ⟨qOf, h1, h2, hp⟩ := questions (tok := tok) h
  refine ⟨qOf, h1, fun r size hr => ?_⟩
  have hmem : ∀ d ∈ shardOf r size (contents W files), d ∈ contents W files := by
    intro d hd
    obtain ⟨k, hk⟩ := List.mem_iff_getElem?.1 hd
    rw [shardOf_get hr] at hk
    exact List.mem_of_getElem? hk
  have y1 := shard_gives hr (read_yields R hp)
  have y2 := map_yields_on (f := LmGen.encode tok) (g := fun d => encoded tok (qOf d)) (fun d hd => h2 d (hmem d hd)) y1
  obtain ⟨bs, y3, h4, h5, h6⟩ := bucket_yields (n := n) (drop := false) hn y2
  rw [if_neg (by simp)] at h4
  have h4' : bs.flatten = ((shardOf r size (contents W files)).map qOf).map (encoded tok) := by rw [h4, List.map_map]; rfl
  obtain ⟨cs, rfl, hcs⟩ := flatten_map_exists bs _ h4'
  have hcs' : ∀ b ∈ cs, b ≠ [] ∧ b.length ≤ n := by
    intro b hb
    have := h5 _ (List.mem_map.2 ⟨b, hb, rfl⟩)
    simpa using this
  have hall : ∀ b ∈ cs, ∀ q ∈ b, q ∈ (files.flatMap W.lines).map ask := by
    intro b hb q hq
    have : q ∈ cs.flatten := List.mem_flatten.2 ⟨b, hb, hq⟩
    rw [hcs] at this
    obtain ⟨d, hd, rfl⟩ := List.mem_map.1 this
    rw [← h1]
    exact List.mem_map.2 ⟨d, hmem d hd, rfl⟩
  refine ⟨cs, hcs, hcs', ?_, ?_⟩
  · intro k b hb hk
    have := h6 k (b.map (encoded tok)) (by rw [List.getElem?_map, hb]; rfl) (.inr (by simpa using hk))
    simpa using this
  · apply pipeline_yields_init
    have hcol : ∀ b ∈ cs, (LmGen.collater tok).call (.list (b.map (encoded tok))) = .ok (collated tok pad b) := fun b hb =>
      collate_ok (pads hpad) (hcs' b hb).1 (hid.mono (hall b hb))
    let g : Data → Data := fun d => match (LmGen.collater tok).call d with
      | .ok x => x
      | .error _ => d
    have y4 := map_yields_on (f := (LmGen.collater tok).call) (g := g) (by
      intro d hd
      simp only [List.map_map, List.mem_map, Function.comp] at hd
      obtain ⟨b, hb, rfl⟩ := hd
      simp only [g, hcol b hb]) y3
    have e : ((cs.map (List.map (encoded tok))).map Data.list).map g = cs.map (collated tok pad) := by
      rw [List.map_map, List.map_map]
      apply List.map_congr_left
      intro b hb
      simp only [Function.comp, g, hcol b hb]
    rw [e] at y4
    exact y4

private theorem heads : ∀ outs : List (List (Hypothesis S)), (∀ hyps ∈ outs, hyps ≠ []) →
    ∃ firsts : List (Hypothesis S), outs.map List.head? = firsts.map some
  | [], _ => ⟨[], rfl⟩
  | [] :: _, h => absurd rfl (h [] (by simp))
  | (x :: _) :: outs, h => by
    obtain ⟨firsts, e⟩ := heads outs fun o ho => h o (by simp [ho])
    exact ⟨x :: firsts, by simp [e]⟩

private theorem run_ok_gen (hpad : PadsWith tok pad) {all : List Question} (hid : IdsAlike all) (hlen : ∀ q ∈ all, tok.prompt q.text ≠ [])
    {g : SeqGen σ S} (hg : Answers g tok pad n all) : ∀ (batches : List (List Question)) (s : σ),
    (∀ b ∈ batches, b ≠ [] ∧ b.length ≤ n) → (∀ b ∈ batches, ∀ q ∈ b, q ∈ all) →
    ∃ outs t firsts, Replies g s (batches.map (promptsOf tok pad)) outs t ∧ outs.flatten.map List.head? = firsts.map some ∧
      outs.flatten.length = batches.flatten.length ∧
      ∀ writes, runTask tok g writes (batches.map (collated tok pad)) s =
        (if writes then List.zipWith (recordOf tok) batches.flatten firsts else [], .ok t)
  | [], s, _, _ => ⟨[], s, [], ⟨rfl, rfl⟩, rfl, rfl, fun writes => by cases writes <;> rfl⟩
  | b :: batches, s, hb, hall => by
    have hb0 := hb b (by simp)
    obtain ⟨out, s', h1, h2, h3⟩ := hg s b _ hb0.1 hb0.2 (hall b (by simp)) (holds hb0.1)
    obtain ⟨outs, t, firsts, i1, i2, i3, i4⟩ := run_ok_gen hpad hid hlen hg batches s' (fun c hc => hb c (by simp [hc]))
      (fun c hc => hall c (by simp [hc]))
    obtain ⟨fs, e⟩ := heads out h3
    have hfl : fs.length = b.length := by
      have := congrArg List.length e
      simp only [List.length_map] at this
      omega
    have hid' := (hid.mono (hall b (by simp))).idOf
    refine ⟨out :: outs, t, fs ++ firsts, ⟨out, outs, s', h1, rfl, i1⟩, by simp [e, i2], by simp [h2, i3], fun writes => ?_⟩
    rw [List.map_cons, runTask, processBatch_call hb0.1 (fun q hq => hlen q (hall b (by simp) q hq)) writes h1,
      writeAll_ok tok b fs out hid' e h2.symm]
    cases writes with
    | false => simp [i4]
    | true =>
      simp only [if_true, i4, List.flatten_cons]
      rw [List.zipWith_append hfl.symm]

private theorem told {qs : List Question} {outs : List (List (Hypothesis S))} {firsts : List (Hypothesis S)}
    (e : outs.map List.head? = firsts.map some) (hl : outs.length = qs.length) :
    (List.zipWith (recordOf tok) qs firsts).length = qs.length ∧
    ∀ (i : Nat) (q : Question), qs[i]? = some q → ∃ hyps h r, outs[i]? = some hyps ∧ hyps.head? = some h ∧
      (List.zipWith (recordOf tok) qs firsts)[i]? = some r ∧ Tells tok q h r := by
  have hf : firsts.length = qs.length := by
    have := congrArg List.length e
    simp only [List.length_map] at this
    omega
  refine ⟨by simp [hf], fun i q hq => ?_⟩
  have hi : i < qs.length := (List.getElem?_eq_some_iff.1 hq).1
  obtain ⟨hyps, ho⟩ : ∃ hyps, outs[i]? = some hyps := ⟨_, List.getElem?_eq_getElem (by omega)⟩
  obtain ⟨h, hh⟩ : ∃ h, firsts[i]? = some h := ⟨_, List.getElem?_eq_getElem (by omega)⟩
  have := congrArg (·[i]?) e
  simp only [List.getElem?_map, ho, hh, Option.map_some, Option.some.injEq] at this
  exact ⟨hyps, h, recordOf tok q h, ho, this, by rw [List.getElem?_zipWith, hq, hh], ⟨rfl, rfl, rfl, rfl, rfl, rfl⟩⟩

/-- **C111.** A rank of the text generation recipe. For any number of files, ranks and any batch size, the rank takes every `size`-th line
of the files, from its own number on, in batches of `n` lines but for the last. The generator is called once for every batch, with the
padded prompts of that batch, and nothing else. The first rank of a tensor parallel gang writes one record per line, in this order: with
the id and the prompt of the line, the first of the hypotheses that the generator gave for that very prompt, and its text. Other ranks call
the generator in the same way and write nothing. -/
theorem C111_rank (R : Rng) (W : Files) (tok : LmGen.Tok) (files : List Data) (ask : Data → Question)
    (hask : ∀ f ∈ files, ∀ l ∈ W.lines f, LineAsks W l (ask l)) (hlen : ∀ q ∈ (files.flatMap W.lines).map ask, tok.prompt q.text ≠ [])
    (hid : IdsAlike ((files.flatMap W.lines).map ask)) (pad : Int) (hpad : PadsWith tok pad) (r size n : Nat) (hr : r < size) (hn : 0 < n)
    (g : SeqGen σ S) (hg : Answers g tok pad n ((files.flatMap W.lines).map ask)) (s : σ) :
    ∃ (batches : List (List Question)) (ds : List Data) (ps : List Gen.Prompts) (outs : List (List (List (Hypothesis S)))) (t : σ)
      (records : List (Record S)),
      (∀ k, batches.flatten[k]? = ((files.flatMap W.lines).map ask)[k * size + r]?) ∧
      (∀ b ∈ batches, b ≠ [] ∧ b.length ≤ n) ∧ (∀ k b, batches[k]? = some b → k + 1 < batches.length → b.length = n) ∧
      (genSource R W tok files r size n).Yields (genSource R W tok files r size n).init ds ∧
      List.Forall₂ (HoldsPrompts tok pad) batches ps ∧ Replies g s ps outs t ∧
      runTask tok g true ds s = (records, .ok t) ∧ runTask tok g false ds s = ([], .ok t) ∧
      records.length = batches.flatten.length ∧ outs.flatten.length = batches.flatten.length ∧
      ∀ (i : Nat) (q : Question), batches.flatten[i]? = some q → ∃ hyps h rec, outs.flatten[i]? = some hyps ∧ hyps.head? = some h ∧
        records[i]? = some rec ∧ Tells tok q h rec := by
  obtain ⟨qOf, h1, h2⟩ := rank_reads (R := R) hask hpad hid hn
  obtain ⟨batches, h3, h4, h5, h6⟩ := h2 r size hr
  have hget : ∀ k : Nat, batches.flatten[k]? = ((files.flatMap W.lines).map ask)[k * size + r]? := by
    intro k
    rw [h3, List.getElem?_map, shardOf_get hr, ← List.getElem?_map, h1]
  have hall : ∀ b ∈ batches, ∀ q ∈ b, q ∈ (files.flatMap W.lines).map ask := by
    intro b hb q hq
    obtain ⟨k, hk⟩ := List.mem_iff_getElem?.1 (List.mem_flatten.2 ⟨b, hb, hq⟩)
    rw [hget] at hk
    exact List.mem_of_getElem? hk
  obtain ⟨outs, t, firsts, i1, i2, i3, i4⟩ := run_ok_gen hpad hid hlen hg batches s h4 hall
  obtain ⟨t1, t2⟩ := told (tok := tok) i2 i3
  refine ⟨batches, _, batches.map (promptsOf tok pad), outs, t, _, hget, h4, h5, h6, ?_, i1, i4 true, i4 false, t1, i3, t2⟩
  rw [List.forall₂_map_right_iff, List.forall₂_same]
  exact fun b hb => holds (h4 b hb).1

end

/-- A generator whose hypotheses for a prompt do not depend on the other prompts or on earlier calls. -/
def AnswersAlone (g : SeqGen σ S) (tok : LmGen.Tok) (pad : Int) (n : Nat) (all : List Question) (answer : List Int → Hypothesis S) : Prop :=
  ∀ s qs p, qs ≠ [] → qs.length ≤ n → (∀ q ∈ qs, q ∈ all) → HoldsPrompts tok pad qs p →
    ∃ outs t, g s p = some (outs, t) ∧ outs.map List.head? = qs.map fun q => some (answer (tok.prompt q.text))

private theorem perm_ranks {qOf : Data → Question} {xs : List Data} {all : List Question} (size : Nat) (hs : 0 < size) (h : xs.map qOf = all)
    {recs : Nat → List (Record S)} {rec : Question → Record S} (hr : ∀ r, r < size → recs r = ((shardOf r size xs).map qOf).map rec) :
    ((List.range size).flatMap recs).Perm (all.map rec) := by
  have e : (List.range size).flatMap recs = (((List.range size).flatMap fun r => shardOf r size xs).map qOf).map rec := by
    rw [List.map_flatMap, List.map_flatMap]
    exact List.flatMap_congr fun r hr' => hr r (List.mem_range.1 hr')
  rw [e, ← h]
  exact ((perm_shards size hs xs).map _).map _

/-- **C111.** All ranks together. With a generator that answers every prompt on its own, the files of all ranks together have exactly one
record for every line of the input: whatever the number of ranks and the batch size, the records are the same, up to their order. -/
theorem C111_all (R : Rng) (W : Files) (tok : LmGen.Tok) (files : List Data) (ask : Data → Question)
    (hask : ∀ f ∈ files, ∀ l ∈ W.lines f, LineAsks W l (ask l)) (hlen : ∀ q ∈ (files.flatMap W.lines).map ask, tok.prompt q.text ≠ [])
    (hid : IdsAlike ((files.flatMap W.lines).map ask)) (pad : Int) (hpad : PadsWith tok pad) (size n : Nat) (hsize : 0 < size) (hn : 0 < n)
    (g : SeqGen σ S) (answer : List Int → Hypothesis S) (hg : AnswersAlone g tok pad n ((files.flatMap W.lines).map ask) answer)
    (s : Nat → σ) :
    ∃ records : Nat → List (Record S),
      (∀ r, r < size → ∃ ds t, (genSource R W tok files r size n).Yields (genSource R W tok files r size n).init ds ∧
        runTask tok g true ds (s r) = (records r, .ok t)) ∧
      ((List.range size).flatMap records).Perm (((files.flatMap W.lines).map ask).map fun q =>
        { id := q.id, prompt := q.text, response := tok.decode (answer (tok.prompt q.text)).seq
          tokenIndices := (answer (tok.prompt q.text)).seq, score := (answer (tok.prompt q.text)).score
          stepScores := (answer (tok.prompt q.text)).stepScores }) := by
  have hg' : Answers g tok pad n ((files.flatMap W.lines).map ask) := by
    intro s qs p a b c d
    obtain ⟨outs, t, e1, e2⟩ := hg s qs p a b c d
    refine ⟨outs, t, e1, by simpa using congrArg List.length e2, ?_⟩
    rintro hyps hh rfl
    have : (none : Option (Hypothesis S)) ∈ outs.map List.head? := List.mem_map.2 ⟨[], hh, rfl⟩
    rw [e2] at this
    simp at this
  obtain ⟨qOf, h1, h2⟩ := rank_reads (R := R) hask hpad hid hn
  refine ⟨fun r => ((shardOf r size (contents W files)).map qOf).map fun q => recordOf tok q (answer (tok.prompt q.text)), ?_,
    perm_ranks size hsize h1 fun r _ => rfl⟩
  intro r hr
  obtain ⟨batches, h3, h4, -, h6⟩ := h2 r size hr
  have hall : ∀ b ∈ batches, ∀ q ∈ b, q ∈ (files.flatMap W.lines).map ask := by
    intro b hb q hq
    have : q ∈ batches.flatten := List.mem_flatten.2 ⟨b, hb, hq⟩
    rw [h3] at this
    obtain ⟨d, hd, rfl⟩ := List.mem_map.1 this
    obtain ⟨k, hk⟩ := List.mem_iff_getElem?.1 hd
    rw [shardOf_get hr] at hk
    rw [← h1]
    exact List.mem_map.2 ⟨d, List.mem_of_getElem? hk, rfl⟩
  obtain ⟨outs, t, firsts, i1, i2, i3, i4⟩ := run_ok_gen hpad hid hlen hg' batches (s r) h4 hall
  refine ⟨_, t, h6, ?_⟩
  rw [i4 true, if_pos rfl]
  show (_, _) = (((shardOf r size (contents W files)).map qOf).map _, _)
  rw [← h3]
  have key : ∀ (bs : List (List Question)) (u : σ) (outs : List (List (List (Hypothesis S)))), (∀ b ∈ bs, b ≠ [] ∧ b.length ≤ n) →
      (∀ b ∈ bs, ∀ q ∈ b, q ∈ (files.flatMap W.lines).map ask) → Replies g u (bs.map (promptsOf tok pad)) outs t →
      outs.flatten.map List.head? = bs.flatten.map fun q => some (answer (tok.prompt q.text)) := by
    intro bs
    induction bs with
    | nil => intro u outs _ _ h; obtain ⟨rfl, -⟩ := h; rfl
    | cons b bs ih =>
      intro u outs hb ha h
      obtain ⟨out, more, u', e1, rfl, e2⟩ := h
      obtain ⟨out', t', e3, e4⟩ := hg u b _ (hb b (by simp)).1 (hb b (by simp)).2 (ha b (by simp)) (holds (hb b (by simp)).1)
      rw [e1] at e3
      obtain ⟨rfl, -⟩ := Prod.mk.inj (Option.some.inj e3)
      rw [List.flatten_cons, List.map_append, e4, ih u' more (fun c hc => hb c (by simp [hc])) (fun c hc => ha c (by simp [hc])) e2,
        List.flatten_cons, List.map_append]
  have hf : firsts = batches.flatten.map fun q => answer (tok.prompt q.text) := by
    have := key batches (s r) outs h4 hall i1
    rw [i2] at this
    exact List.map_injective_iff.2 (Option.some_injective _) (this.trans (List.map_map ..).symm)
  rw [hf, List.zipWith_map_right, List.zipWith_self]

/-- **C111.** With more than one rank, the readers give every rank all of its batches, one per call, and then empty lists until the rank
with the most batches has them all; they stop in the same call. -/
theorem C111_readers (R : Rng) (W : Files) (tok : LmGen.Tok) (files : List Data) (ask : Data → Question)
    (hask : ∀ f ∈ files, ∀ l ∈ W.lines f, LineAsks W l (ask l))
    (hid : IdsAlike ((files.flatMap W.lines).map ask)) (pad : Int) (hpad : PadsWith tok pad) (size n : Nat) (hsize : 1 < size) (hn : 0 < n) :
    ∃ (ds : Fin size → List Data) (last : Nat),
      ∀ r : Fin size, (genSource R W tok files r size n).Yields (genSource R W tok files r size n).init (ds r) ∧
        got { mode := .untilLast } (start (S := fun r : Fin size => genSource R W tok files r size n) fun r => (genSource R W tok files r size n).init)
          r last = ds r ∧
        ∀ i, (reply { mode := .untilLast } (start (S := fun r : Fin size => genSource R W tok files r size n)
          fun r => (genSource R W tok files r size n).init) i r = .stop ↔ last ≤ i) := by
  obtain ⟨qOf, h1, h2⟩ := rank_reads (R := R) hask hpad hid hn
  choose batches h3 h4 h5 h6 using fun r : Fin size => h2 r size r.2
  obtain ⟨r₀, -, hr₀⟩ := Finset.exists_max_image Finset.univ (fun r : Fin size => ((batches r).map (collated tok pad)).length)
    ⟨⟨0, by omega⟩, Finset.mem_univ _⟩
  have key := fun r => C28_longest (c := { mode := .untilLast }) (S := fun r : Fin size => genSource R W tok files r size n)
    (by decide) rfl hsize rfl rfl (s := fun r => (genSource R W tok files r size n).init) (xs := fun r => (batches r).map (collated tok pad))
    h6 (m := ((batches r₀).map (collated tok pad)).length) ⟨fun r => hr₀ r (Finset.mem_univ _), r₀, rfl⟩ r
  refine ⟨fun r => (batches r).map (collated tok pad), ((batches r₀).map (collated tok pad)).length,
    fun r => ⟨h6 r, (key r).2.2 _ (by simp), fun i => ?_⟩⟩
  rw [(key r).2.1 i]
  simp only [Nat.mul_one]
  split
  · next h => exact ⟨fun e => (by cases e), fun e => (by omega)⟩
  · next h => exact ⟨fun _ => by omega, fun _ => rfl⟩

/-- **C111.** If the generator has no hypothesis for a prompt, the records of the prompts before it are written, and the run stops with an
exception. -/
theorem C111_no_hypothesis (tok : LmGen.Tok) (pad : Int) (qs : List Question) (hne : qs ≠ []) (hlen : ∀ q ∈ qs, tok.prompt q.text ≠ [])
    (hid : IdsAlike qs) (hpad : PadsWith tok pad) (g : SeqGen σ S) (s t : σ) (p : Gen.Prompts) (hp : HoldsPrompts tok pad qs p)
    (outs rest : List (List (Hypothesis S))) (hg : g s p = some (outs ++ [] :: rest, t)) (ho : ∀ hyps ∈ outs, hyps ≠ [])
    (hfew : outs.length < qs.length) :
    ∃ d records, (LmGen.collater tok).call (.list (qs.map fun q => .dict [("id", q.id.getD nothing), ("prompt", .str q.text),
        ("indices", .tensor (tok.prompt q.text))])) = .ok d ∧
      (∀ ds, runTask tok g true (d :: ds) s = (records, .error .noHypothesis)) ∧ records.length = outs.length ∧
      ∀ (i : Nat) (q : Question), i < outs.length → qs[i]? = some q → ∃ hyps h rec, outs[i]? = some hyps ∧ hyps.head? = some h ∧
        records[i]? = some rec ∧ Tells tok q h rec := by
  rw [only hp] at hg
  obtain ⟨firsts, e⟩ := heads outs ho
  have hf : firsts.length = outs.length := by
    have := congrArg List.length e
    simp only [List.length_map] at this
    omega
  refine ⟨_, List.zipWith (recordOf tok) qs firsts, collate_ok (pads hpad) hne hid, fun ds => ?_, by simp [hf]; omega, ?_⟩
  · rw [runTask, processBatch_call hne hlen true hg, writeAll_short tok qs firsts outs rest hid.idOf e hfew]
    rfl
  · intro i q hi hq
    obtain ⟨h, hh⟩ : ∃ h, firsts[i]? = some h := ⟨_, List.getElem?_eq_getElem (by omega)⟩
    have := congrArg (·[i]?) e
    simp only [List.getElem?_map, List.getElem?_eq_getElem hi, hh, Option.map_some, Option.some.injEq] at this
    exact ⟨_, h, recordOf tok q h, List.getElem?_eq_getElem hi, this, by rw [List.getElem?_zipWith, hq, hh], ⟨rfl, rfl, rfl, rfl, rfl, rfl⟩⟩

/-! ### Completion -/

/-- The beam search of a completer as the generator of the recipe. -/
def beams {Text : Type} (t : Gen.Completer Text) : SeqGen Unit Gen.LogP := fun _ p =>
  (Gen.generate t.gen t.gen.settings.maxGen (p.rows.map fun _ => ()) p).map fun outs =>
    (outs.map (List.map fun h => ⟨h.seq, some h.score, none⟩), ())

private theorem one_prompt {t : Gen.Completer String} {V : Nat} (hs : t.gen.Sized V) {x y : String} {seq : List Int} (he : t.encode x = some seq)
    (h : Gen.complete t x = some y) : ∃ hyp more, Gen.generate t.gen t.gen.settings.maxGen [()] ⟨seq.length, [seq], [seq.length]⟩ =
      some [hyp :: more] ∧ t.decode hyp.seq = some y := by
  unfold Gen.complete at h
  rw [he] at h
  simp only [Option.bind_some, Option.bind_eq_some_iff] at h
  obtain ⟨-, -, texts, h2, h3⟩ := h
  unfold Gen.doComplete at h2
  simp only [Option.bind_eq_some_iff, List.map_cons, List.map_nil] at h2
  obtain ⟨out, h4, h5⟩ := h2
  have hlen : out.length = 1 := by
    have hb : Gen.Batched ⟨seq.length, [seq], [seq.length]⟩ := by
      constructor <;> simp
    cases hl : Gen.limits { t.gen.settings with maxGen := t.gen.settings.maxGen } ⟨seq.length, [seq], [seq.length]⟩ with
    | none =>
      unfold Gen.generate at h4
      rw [hl] at h4
      cases h4
    | some lim =>
      rw [Gen.generate_solo hs _ _ hb rfl hl] at h4
      have := Gen.mapM_len h4
      simpa using this
  obtain ⟨o, rfl⟩ := List.length_eq_one_iff.1 hlen
  cases o with
  | nil => simp [Gen.readTexts] at h5
  | cons hyp more =>
    refine ⟨hyp, more, h4, ?_⟩
    simp only [Gen.readTexts, List.mapM_cons, List.mapM_nil, Option.pure_def, Option.bind_eq_bind, Option.bind_some,
      Option.bind_eq_some_iff] at h5
    obtain ⟨a, ha, h5⟩ := h5
    cases h5
    cases h3
    exact ha

/-- **C111.** With beam search and batches of one line, the response to a prompt is what `TextCompleter` gives for it on its own (C106 says
what it has to do with larger batches). -/
theorem C111_completes (R : Rng) (W : Files) (tok : LmGen.Tok) (files : List Data) (ask : Data → Question)
    (hask : ∀ f ∈ files, ∀ l ∈ W.lines f, LineAsks W l (ask l)) (hlen : ∀ q ∈ (files.flatMap W.lines).map ask, tok.prompt q.text ≠ [])
    (hid : IdsAlike ((files.flatMap W.lines).map ask)) (pad : Int) (hpad : PadsWith tok pad) (size : Nat) (hsize : 0 < size)
    (t : Gen.Completer String) (V : Nat) (hV : t.gen.Sized V) (he : ∀ x, t.encode x = some (tok.prompt x))
    (hd : ∀ l, t.decode l = some (tok.decode l)) (hok : ∀ q ∈ (files.flatMap W.lines).map ask, (Gen.complete t q.text).isSome) :
    ∃ records : Nat → List (Record Gen.LogP),
      (∀ r, r < size → ∃ ds, (genSource R W tok files r size 1).Yields (genSource R W tok files r size 1).init ds ∧
        runTask tok (beams t) true ds () = (records r, .ok ())) ∧
      (((List.range size).flatMap records).map fun rec => (rec.id, rec.prompt, some rec.response)).Perm
        (((files.flatMap W.lines).map ask).map fun q => (q.id, q.text, Gen.complete t q.text)) := by
  let answer : List Int → Hypothesis Gen.LogP := fun seq =>
    match Gen.generate t.gen t.gen.settings.maxGen [()] ⟨seq.length, [seq], [seq.length]⟩ with
    | some [hyp :: _] => ⟨hyp.seq, some hyp.score, none⟩
    | _ => ⟨[], none, none⟩
  have ha : ∀ q ∈ (files.flatMap W.lines).map ask, ∃ hyp more,
      Gen.generate t.gen t.gen.settings.maxGen [()] ⟨(tok.prompt q.text).length, [tok.prompt q.text], [(tok.prompt q.text).length]⟩ =
        some [hyp :: more] ∧ answer (tok.prompt q.text) = ⟨hyp.seq, some hyp.score, none⟩ ∧
      Gen.complete t q.text = some (tok.decode hyp.seq) := by
    intro q hq
    obtain ⟨y, hy⟩ := Option.isSome_iff_exists.1 (hok q hq)
    obtain ⟨hyp, more, h1, h2⟩ := one_prompt hV (he q.text) hy
    refine ⟨hyp, more, h1, ?_, ?_⟩
    · simp only [answer, h1]
    · rw [hy, ← h2, hd]
  obtain ⟨records, h1, h2⟩ := C111_all R W tok files ask hask hlen hid pad hpad size 1 hsize (by omega) (beams t) answer (by
    intro s qs p hne hle hall hp
    have h1 : qs.length = 1 := by
      have := List.length_pos_iff.2 hne
      omega
    obtain ⟨q, rfl⟩ := List.length_eq_one_iff.1 h1
    obtain ⟨hyp, more, g1, g2, -⟩ := ha q (hall q (by simp))
    have hp' : p = ⟨(tok.prompt q.text).length, [tok.prompt q.text], [(tok.prompt q.text).length]⟩ := by
      rw [only hp]
      simp [promptsOf, Native.longest]
    subst hp'
    refine ⟨[⟨hyp.seq, some hyp.score, none⟩ :: more.map fun h => ⟨h.seq, some h.score, none⟩], (), ?_, ?_⟩
    · simp only [beams, List.map_cons, List.map_nil, g1, Option.map_some]
    · simp [g2]) (fun _ => ())
  refine ⟨records, fun r hr => ?_, ?_⟩
  · obtain ⟨ds, u, a, b⟩ := h1 r hr
    exact ⟨ds, a, b⟩
  · refine (h2.map _).trans (.of_eq ?_)
    rw [List.map_map]
    apply List.map_congr_left
    intro q hq
    obtain ⟨hyp, more, -, g2, g3⟩ := ha q hq
    simp only [Function.comp, g2, g3]

/-! ### Ids -/

/-- Two lines of a file, the first with an id. -/
def mixedLines : Files where
  lines := fun _ => [.int 0, .int 1]
  loads := fun d => match d with
    | .int 0 => .ok (.dict [("id", .int 7), ("src", .str "x")])
    | _ => .ok (.dict [("src", .str "y")])

/-- A tokenizer with a token per character and one at the beginning. -/
def charTok : LmGen.Tok where
  padIdx := none
  eosIdx := some 0
  prompt := fun s => 1 :: s.toList.map fun c => (c.toNat : Int)
  decode := fun l => String.ofList (l.map fun t => Char.ofNat t.toNat)

/-- **C111 needs alike ids.** The recipe writes records without an id for lines without one, but if some lines have one and others do not,
the reader raises an exception as soon as both are in one batch. -/
theorem C111_mixed_ids : (∀ l ∈ mixedLines.lines (.int 0), ∃ q, LineAsks mixedLines l q ∧ charTok.prompt q.text ≠ []) ∧
    ∀ R, ∃ e s, (genSource R mixedLines charTok [.int 0] 0 1 2).next (genSource R mixedLines charTok [.int 0] 0 1 2).init = some (.err e, s) := by
  refine ⟨?_, fun R => ⟨_, _, rfl⟩⟩
  intro l hl
  simp only [mixedLines, List.mem_cons, List.not_mem_nil, or_false] at hl
  rcases hl with rfl | rfl
  · exact ⟨⟨some (.int 7), "x"⟩, ⟨_, rfl, rfl, rfl⟩, by simp [charTok]⟩
  · exact ⟨⟨none, "y"⟩, ⟨_, rfl, rfl, rfl⟩, by simp [charTok]⟩

/-! ### Concrete cases -/

/-- Two files with three lines in all. -/
def askFiles : Files where
  lines := fun f => match f with
    | .int 0 => [.str "ab", .str "c"]
    | _ => [.str "d"]
  loads := fun d => match d with
    | .str s => .ok (.dict [("id", .str ("id of " ++ s)), ("src", .str s)])
    | _ => .error srcErr

def askOf (l : Data) : Question := match l with
  | .str s => ⟨some (.str ("id of " ++ s)), s⟩
  | _ => ⟨none, ""⟩

/-- A generator that counts its calls and repeats the prompt. -/
def parrot : SeqGen Nat Rat := fun s p =>
  some ((List.zipWith (fun row len => row.take len) p.rows p.lens).map fun seq => [⟨seq, some 1, none⟩, ⟨[], none, none⟩], s + 1)

theorem askFiles_ask : ∀ f ∈ [Data.int 0, .int 1], ∀ l ∈ askFiles.lines f, LineAsks askFiles l (askOf l) := by
  intro f hf l hl
  simp only [List.mem_cons, List.not_mem_nil, or_false] at hf
  rcases hf with rfl | rfl <;> simp only [askFiles, List.mem_cons, List.not_mem_nil, or_false] at hl
  · rcases hl with rfl | rfl <;> exact ⟨_, rfl, rfl, rfl⟩
  · subst hl
    exact ⟨_, rfl, rfl, rfl⟩

theorem askFiles_alike : IdsAlike (([Data.int 0, .int 1].flatMap askFiles.lines).map askOf) :=
  .strs (by
    intro q hq
    simp only [askFiles, List.flatMap_cons, List.flatMap_nil, List.map_cons, List.map_nil, List.cons_append, List.nil_append,
      List.mem_cons, List.not_mem_nil, or_false] at hq
    rcases hq with rfl | rfl | rfl <;> exact ⟨_, rfl⟩)

theorem parrot_alone (n : Nat) (all : List Question) : AnswersAlone parrot charTok 0 n all fun x => ⟨x, some 1, none⟩ := by
  intro s qs p _ _ _ hp
  refine ⟨_, _, rfl, ?_⟩
  rw [hp.rows, hp.lens, List.zipWith_map, List.zipWith_self, List.map_map, List.map_map]
  apply List.map_congr_left
  intro q _
  simp

/-- Files, a tokenizer and a generator for `C111_rank`, `C111_all` and `C111_readers`; and what comes out with one rank. -/
example : PadsWith charTok 0 ∧ (∀ q, charTok.prompt q ≠ []) ∧
    (runTask charTok parrot true [collated charTok 0 [askOf (.str "ab"), askOf (.str "c")], collated charTok 0 [askOf (.str "d")]] 5).1.map
      (fun r => (r.prompt, r.tokenIndices)) = [("ab", [1, 97, 98]), ("c", [1, 99]), ("d", [1, 100])] ∧
    (runTask charTok parrot true [collated charTok 0 [askOf (.str "ab"), askOf (.str "c")], collated charTok 0 [askOf (.str "d")]] 5).2.toOption =
      some 7 :=
  ⟨.inr ⟨rfl, rfl⟩, fun q => by simp [charTok], by decide +kernel, by decide +kernel⟩

example : ∃ records : Nat → List (Record Rat), (∀ r, r < 2 → ∃ ds t,
      (genSource lcg askFiles charTok [.int 0, .int 1] r 2 2).Yields (genSource lcg askFiles charTok [.int 0, .int 1] r 2 2).init ds ∧
      runTask charTok parrot true ds 0 = (records r, .ok t)) ∧
    (((List.range 2).flatMap records).map fun r => (r.prompt, r.tokenIndices)).Perm
      [("ab", [1, 97, 98]), ("c", [1, 99]), ("d", [1, 100])] := by
  obtain ⟨records, h1, h2⟩ := C111_all lcg askFiles charTok [.int 0, .int 1] askOf askFiles_ask (by simp [charTok]) askFiles_alike 0
    (.inr ⟨rfl, rfl⟩) 2 2 (by omega) (by omega) parrot _ (parrot_alone _ _) (fun _ => 0)
  refine ⟨records, h1, (h2.map _).trans (.of_eq ?_)⟩
  decide +kernel

/-- A generator without a hypothesis for the second prompt, for `C111_no_hypothesis`. -/
example : HoldsPrompts charTok 0 [⟨none, "ab"⟩, ⟨none, "c"⟩] ⟨3, [[1, 97, 98], [1, 99, 0]], [3, 2]⟩ ∧
    IdsAlike [⟨none, "ab"⟩, ⟨none, "c"⟩] ∧
    (fun (_ : Unit) (_ : Gen.Prompts) => some ([[(⟨[4], none, none⟩ : Hypothesis Rat)], []], ())) () ⟨3, [[1, 97, 98], [1, 99, 0]], [3, 2]⟩ =
      some ([[⟨[4], none, none⟩]] ++ [] :: [], ()) := by
  refine ⟨⟨by decide +kernel, by decide +kernel, ?_, ⟨_, List.mem_cons_self, by decide +kernel⟩⟩, .absent (by simp), rfl⟩
  simp [charTok]

/-- A tokenizer and a completer for `C111_completes`. -/
example : ∃ (tok : LmGen.Tok) (t : Gen.Completer String), PadsWith tok 0 ∧ t.gen.Sized 4 ∧ (∀ x, t.encode x = some (tok.prompt x)) ∧
    (∀ l, t.decode l = some (tok.decode l)) ∧ ∀ q ∈ ([Data.int 0, .int 1].flatMap askFiles.lines).map askOf,
      tok.prompt q.text ≠ [] ∧ (Gen.complete t q.text).isSome := by
  refine ⟨⟨some 0, none, fun s => 2 :: s.toList.map fun _ => 3, charTok.decode⟩,
    ⟨terse.gen, fun s => some (2 :: s.toList.map fun _ => 3), fun l => some (charTok.decode l)⟩, .inl rfl, ?_, fun _ => rfl, fun _ => rfl, ?_⟩
  · rintro s l q h; cases h; rfl
  · decide +kernel

end Fs2.Props
