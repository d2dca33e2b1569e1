import Verif.Generation.CachedSamplingLemmas
import Verif.Props.CachedGeneration
import Verif.Props.SamplingGenerator

/-!
# C108: sampling with a state bag is sampling from a model without state
-/

namespace Fs2.Props
open Fs2.Nn Fs2.Dec Fs2.Dec.Spec
open Fs2.Gen hiding grown

/-- The probabilities after sequences, when each of them is decoded on its own, with the source of its prompt. -/
noncomputable def recomputed (m : Model) (score : Vec → Option (List ℚ)) (sources : List (List Vec)) (src : List Nat)
    (seqs : List (List Int)) : Option (List (List ℚ)) :=
  (src.zip seqs).mapM fun x => (sources[x.1]?).bind fun s => recomputing m score s x.2

/-- No probability is lacking (not a number) within the tokens that all prompts have. -/
def PromptsScored (m : Model) (score : Vec → Option (List ℚ)) (sources : List (List Vec)) (p : Prompts) : Prop :=
  ∀ (i : Nat) row, p.rows[i]? = some row → ∀ k, k + 1 < p.minLen →
    ((sources[i]?).bind fun s => recomputing m score s (row.take (k + 1))) ≠ none

private theorem sample_ok {m : Model} {c : Settings} (hm : GoodModel m c.maxSeq) (junk : Heads)
    {score : Vec → Option (List ℚ)} {ops : Ops} {sources : List (List Vec)} (hlm : ops.lm = recomputed m score sources)
    (hproc : ∀ n seqs probs out, ops.process n seqs probs = some out → out.length = probs.length) {inc : Option Int}
    (hinc : ∀ c, inc = some c → 1 ≤ c) {given : Option Source} {p : Prompts} (hp : Batched p)
    (hpos : ∀ len ∈ p.lens, 1 ≤ len) (hsrc : GoodSources m given sources p) {chunk : Option Nat}
    (hw : HasWindow m → chunk = none ∨ chunk = some 0 ∨ chunk = some 1)
    (hfan : c.numGens > 1 → p.minLen = 1 → given = none) :
    (¬ PromptsScored m score sources p → cachedSample (decoderStateful m junk given inc score) c ops chunk p = none) ∧
    (PromptsScored m score sources p →
      cachedSample (decoderStateful m junk given inc score) c ops chunk p = sampGenerate c ops p) := by
  have hstart : ∀ M, HoldsAll m given inc sources M (decoderStateful m junk given inc score M).start
      ((List.range p.rows.length).map fun i => (i, [])) := fun M => holds_start hsrc M
  refine sampled_same hp hpos chunk _ (HoldsAll m given inc sources)
    (fun a n => HasWindow m → a = 0 ∨ n = 1) (NeedsSource m)
    (next := fun i t => (sources[i]?).bind fun s => recomputing m score s t) ?_ hstart ?_ ?_ hproc (fun _ _ => .inr rfl)
    (fun k b => HasWindow m → chunk = some 1 ∨ b = 0 ∨ k - 1 ≤ b) (fun _ _ => .inr (.inl rfl)) ?_
  · intro lim hl
    have h1 := (limits_facts hl).2.2.2.1
    have h2 := (limits_facts hl).2.2.2.2
    exact remembers junk (hm.mono (k := lim.maxLen - 1) (by rw [h1]; omega)) hinc hsrc.needs score sources
      (M := lim.maxLen) (by omega)
  · intro M order hG hmin ho hl
    have hg := hfan hG hmin
    have hne : ((List.range p.rows.length).map fun i => (i, ([] : List Int))) ≠ [] := by
      intro h
      have := congrArg List.length h
      simp at this
      exact hp.nonempty this
    obtain ⟨st, e1, e2⟩ := holds_reorder (order := order) (a := 0) (hstart M) hne (.inr hg)
      (by
        intro r hr
        obtain ⟨i, -, rfl⟩ := List.mem_map.mp hr
        rfl)
      (by simpa using ho)
      (by
        intro _ h
        exact absurd (by simpa using h) hl)
    refine ⟨st, e1, ?_⟩
    have : (order.map fun i => (((List.range p.rows.length).map fun i => (i, ([] : List Int)))[i]?).getD (0, [])) =
        order.map fun i => (i, []) := by
      apply List.map_congr_left
      intro i hi
      rw [List.getElem?_map, List.getElem?_range (ho i hi)]
      rfl
    rw [this] at e2
    exact e2
  · intro src seqs _
    rw [hlm]
    rfl
  · intro k b hQ hb
    unfold chunkSize
    refine ⟨?_, ?_⟩
    · intro h
      rcases hQ h with h1 | h1 | h1
      · rw [h1]
        dsimp only
        split <;> omega
      · exact .inl h1
      · omega
    · intro h
      rcases hw h with h1 | h1 | h1
      · rw [h1]
        dsimp only
        exact .inr (.inr (by omega))
      · rw [h1]
        dsimp only
        rw [if_neg (by simp)]
        exact .inr (.inr (by omega))
      · exact .inl h1

/-- **Language models.** Sampling with a decoder that keeps a state bag — it is fed with pieces of the prompts, the bag is
fanned out to the wanted number of sequences, it is fed with the last token of every sequence, and it drops the sequences
that have ended — gives the sequences of sampling in which the probabilities after a sequence are those of decoding this
sequence on its own from its first token. That holds for any prompts, of equal length or not, any number of sequences per
prompt, any sampler, any step processors and any step of the bag's capacity. If a probability within the prompts is not a
number, the generation raises. With sliding windows the prompts must not be fed in chunks of more than one token.

Missing for the full property: the attention biases that `GoodModel` leaves out, and windows with larger chunks. -/
theorem C108_language_partial {m : Model} {c : Settings} (hm : GoodModel m c.maxSeq) (hneeds : ¬ NeedsSource m)
    (junk : Heads) {score : Vec → Option (List ℚ)} {ops : Ops} {p : Prompts}
    (hlm : ops.lm = recomputed m score (p.rows.map fun _ => []))
    (hproc : ∀ n seqs probs out, ops.process n seqs probs = some out → out.length = probs.length) {inc : Option Int}
    (hinc : ∀ c, inc = some c → 1 ≤ c) (hp : Batched p) (hpos : ∀ len ∈ p.lens, 1 ≤ len) {chunk : Option Nat}
    (hw : HasWindow m → chunk = none ∨ chunk = some 0 ∨ chunk = some 1) :
    (¬ PromptsScored m score (p.rows.map fun _ => []) p →
      cachedSample (decoderStateful m junk none inc score) c ops chunk p = none) ∧
    (PromptsScored m score (p.rows.map fun _ => []) p →
      cachedSample (decoderStateful m junk none inc score) c ops chunk p = sampGenerate c ops p) :=
  sample_ok hm junk hlm hproc hinc hp hpos ⟨by simp, by simp, fun h => absurd h hneeds⟩ hw (fun _ _ => rfl)

/-- **Encoder-decoder models.** The same for a model that attends to the output of an encoder, with a source for every
prompt, also for prompts of different lengths (compare `C107_source_lost`), if every prompt has at least two tokens or one
sequence per prompt is asked for.

Missing for the full property: prompts of one token (`C108_fan_out_lost`), besides what is missing in
`C108_language_partial`. -/
theorem C108_source_partial {m : Model} {c : Settings} (hm : GoodModel m c.maxSeq) (junk : Heads)
    {score : Vec → Option (List ℚ)} {ops : Ops} {p : Prompts} {given : Source} {sources : List (List Vec)}
    (hlen : sources.length = p.rows.length) (hsrc : SourceInv given sources)
    (hlm : ops.lm = recomputed m score sources)
    (hproc : ∀ n seqs probs out, ops.process n seqs probs = some out → out.length = probs.length) {inc : Option Int}
    (hinc : ∀ c, inc = some c → 1 ≤ c) (hp : Batched p) (hpos : ∀ len ∈ p.lens, 1 ≤ len) {chunk : Option Nat}
    (hw : HasWindow m → chunk = none ∨ chunk = some 0 ∨ chunk = some 1)
    (hfan : c.numGens ≤ 1 ∨ ∀ len ∈ p.lens, 2 ≤ len) :
    (¬ PromptsScored m score sources p →
      cachedSample (decoderStateful m junk (some given) inc score) c ops chunk p = none) ∧
    (PromptsScored m score sources p →
      cachedSample (decoderStateful m junk (some given) inc score) c ops chunk p = sampGenerate c ops p) := by
  refine sample_ok hm junk hlm hproc hinc hp hpos ⟨hlen, fun s h => by cases h; exact hsrc, by simp⟩ hw ?_
  intro hG hmin
  exfalso
  rcases hfan with h | h
  · omega
  · have : 2 ≤ p.minLen := le_minLen (fun hn => hp.nonempty (List.length_eq_zero_iff.mp (by rw [← hp.rows, hn]; rfl))) h
    omega

private theorem loop_lm {σ : Type} (c : Settings) (ops : Ops) (L : List Nat → List (List Int) → Option (List (List ℚ)))
    (D : Stateful ℚ σ) (lim : Limits) : ∀ (n : Nat) (s : SampState) (st : σ),
    cachedSampLoop c { ops with lm := L } D lim n s st = cachedSampLoop c ops D lim n s st := by
  intro n
  induction n with
  | zero => intro s st; rfl
  | succ n ih =>
    intro s st
    unfold cachedSampLoop
    simp only [ih]
    rfl

private theorem sample_lm {σ : Type} (D : Nat → Stateful ℚ σ) (c : Settings) (ops : Ops)
    (L : List Nat → List (List Int) → Option (List (List ℚ))) (chunk : Option Nat) (p : Prompts) :
    cachedSample D c { ops with lm := L } chunk p = cachedSample D c ops chunk p := by
  unfold cachedSample
  simp only [loop_lm]
  rfl

/-- **Memory does not matter.** What a language model generates depends neither on what fresh memory holds, nor on the
steps in which the capacity of the caches grows, nor, without windows, on the size of the chunks in which the prompts are
fed. -/
theorem C108_memory_partial {m : Model} {c : Settings} (hm : GoodModel m c.maxSeq) (hneeds : ¬ NeedsSource m)
    (hw : ¬ HasWindow m) (junk junk' : Heads) (score : Vec → Option (List ℚ)) (ops : Ops)
    (hproc : ∀ n seqs probs out, ops.process n seqs probs = some out → out.length = probs.length) {inc inc' : Option Int}
    (hinc : ∀ c, inc = some c → 1 ≤ c) (hinc' : ∀ c, inc' = some c → 1 ≤ c) {p : Prompts} (hp : Batched p)
    (hpos : ∀ len ∈ p.lens, 1 ≤ len) (chunk chunk' : Option Nat) :
    cachedSample (decoderStateful m junk none inc score) c ops chunk p =
      cachedSample (decoderStateful m junk' none inc' score) c ops chunk' p := by
  have h1 := C108_language_partial (ops := { ops with lm := recomputed m score (p.rows.map fun _ => []) }) hm hneeds junk rfl
    hproc hinc hp hpos (chunk := chunk) (fun h => absurd h hw)
  have h2 := C108_language_partial (ops := { ops with lm := recomputed m score (p.rows.map fun _ => []) }) hm hneeds junk' rfl
    hproc hinc' hp hpos (chunk := chunk') (fun h => absurd h hw)
  rw [sample_lm] at h1 h2
  by_cases h : PromptsScored m score (p.rows.map fun _ => []) p
  · rw [h1.2 h, h2.2 h]
  · rw [h1.1 h, h2.1 h]

/-- **What comes out.** The sequences that a language model generates with a state bag are those that C61 describes: one
list for every prompt with as many sequences as asked for, each the prompt (if requested), tokens that the step processors
let through, and one EOS. -/
theorem C108_sequences_partial {m : Model} {c : Settings} (hm : GoodModel m c.maxSeq) (hneeds : ¬ NeedsSource m)
    (junk : Heads) {score : Vec → Option (List ℚ)} {V : Nat} (hscore : ∀ x q, score x = some q → q.length = V)
    {ops : Ops} {p : Prompts} (hp : GoodPrompts V p)
    (hproc : ∀ n seqs probs out, ops.process n seqs probs = some out →
      out.length = probs.length ∧ ((∀ q ∈ probs, q.length = V) → ∀ q ∈ out, q.length = V))
    (hsample : ∀ (n r : Nat) (ws : List ℚ) (t : Nat), ops.sample n r ws = some t → ∃ w, ws[t]? = some w ∧ 0 < w)
    {inc : Option Int} (hinc : ∀ c, inc = some c → 1 ≤ c) {chunk : Option Nat}
    (hw : HasWindow m → chunk = none ∨ chunk = some 0 ∨ chunk = some 1) (hpen : 0 ≤ c.unkPenalty) (hgens : 1 ≤ c.numGens)
    {out : List (List (List Int))} (h : cachedSample (decoderStateful m junk none inc score) c ops chunk p = some out) :
    out.length = p.rows.length ∧ ∀ i < p.rows.length, ∃ hs, out[i]? = some hs ∧ hs.length = c.numGens ∧
      ∀ hyp ∈ hs, GoodHypothesis V c ops p i hyp := by
  let ops' : Ops := { ops with lm := recomputed m score (p.rows.map fun _ => []) }
  have hB : Batched p := ⟨hp.nonempty, hp.rows, hp.width, fun len hl => (hp.lens len hl).2⟩
  have h1 := C108_language_partial (ops := ops') hm hneeds junk rfl (fun n seqs probs out h => (hproc n seqs probs out h).1)
    hinc hB (fun len hl => (hp.lens len hl).1) hw
  rw [sample_lm] at h1
  have h2 : sampGenerate c ops' p = some out := by
    by_cases hs : PromptsScored m score (p.rows.map fun _ => []) p
    · rw [← h1.2 hs, h]
    · rw [h1.1 hs] at h
      cases h
  have hg : GoodOps V ops' := by
    refine ⟨?_, ?_, hsample⟩
    · intro src seqs o hl ho
      have ho : (src.zip seqs).mapM (fun x => ((p.rows.map fun _ => ([] : List Vec))[x.1]?).bind fun s =>
        recomputing m score s x.2) = some o := ho
      refine ⟨by rw [mapM_len ho, List.length_zip, hl, Nat.min_self], ?_⟩
      intro q hq
      obtain ⟨x, -, hx⟩ := mapM_mem ho q hq
      obtain ⟨s, -, hx⟩ := Option.bind_eq_some_iff.mp hx
      obtain ⟨v, -, hx⟩ := Option.bind_eq_some_iff.mp hx
      exact hscore v q hx
    · intro n seqs probs o hV ho
      exact ⟨(hproc n seqs probs o ho).1, (hproc n seqs probs o ho).2 hV⟩
  have h3 := C61_sequences_partial V c ops' p hp hg hpen hgens out h2
  refine ⟨h3.1, ?_⟩
  intro i hi
  obtain ⟨hs, e1, e2, e3⟩ := h3.2 i hi
  exact ⟨hs, e1, e2, fun hyp hh => ⟨(e3 hyp hh).shape⟩⟩

/-! ### Prompts of one token and an encoder -/

private theorem first_layer_raises (junk : Heads) {L : Layer} {b : Bag} (hb : GoodBag b) {R : List Row}
    {F : Row → List Vec} {n : Nat} (hL : GoodLayer L n) (hF : CausalOn F) (hN : 0 < R.length) (hn : 1 ≤ n)
    (hR : ∀ r ∈ R, r.tokens.length = n) (hs : b.stepNr = 0) (hmax : (n : Int) ≤ b.maxNumSteps)
    {l : Layout} (hl : Layout.new [(R.length : Int), (n : Int)] none false = some l) {src : Source}
    (hsrc : src.rows.length ≠ R.length) {m : Mha} {blk : Block} (hc : L.cross = some (m, blk)) :
    L.forward junk (some b) (some src) l {} (R.map F) = none := by
  obtain ⟨st', e, -⟩ := layer_step junk hb (L := { L with cross := none }) (st := {}) (R := R) (F := F) (a := 0) (n := n)
    ⟨by rw [Nat.zero_add]; exact hL.self, by simp⟩ hF hN hn (by simpa using hR) hs (by simpa using hmax) (fun _ => .inl rfl) hl
    (src := none) (by simp) ⟨rfl, fun _ => rfl, fun _ _ _ => rfl⟩
  simp only [List.drop_zero] at e
  have hself : ∀ xs, (({ L with cross := none } : Layer).forwardSelf junk (some b) none l xs) =
      L.forwardSelf junk (some b) none l xs := fun _ => rfl
  unfold Layer.forward at e ⊢
  rw [hself] at e
  cases hx : L.forwardSelf junk (some b) none l (R.map F) with
  | none =>
    rfl
  | some y =>
    rw [hx] at e
    simp only [Option.bind_some, Layer.forwardCross, Option.map_some, Option.some.injEq, Prod.mk.injEq] at e
    have hlen : y.1.length = R.length := by
      have h1 := congrArg List.length e.1
      rw [List.length_map] at h1
      rw [← h1]
      unfold Layer.forwardFfn Block.leave Block.enter
      dsimp only
      repeat' split
      all_goals simp
    simp only [Option.bind_some, Layer.forwardCross, hc]
    have hgc := hL.cross m blk hc
    have hq : (m.projectQ (some b) l (blk.enter y.1)) = some ((blk.enter y.1).map (List.map m.q)) := by
      unfold Mha.projectQ encode
      rw [hgc.pos]
    have hk : m.projectK none src.layout src.rows = some (src.rows.map (List.map m.k)) := by
      unfold Mha.projectK encode
      rw [hgc.pos]
    have hle : (blk.enter y.1).length = R.length := by
      unfold Block.enter
      split <;> simp [hlen]
    have hsd : m.sdpa l src.layout ((blk.enter y.1).map (List.map m.q)) (src.rows.map (List.map m.k))
        (m.projectV src.rows) = none := by
      unfold Mha.sdpa
      rw [if_pos (by rw [List.length_map, List.length_map, hle]; exact fun h => hsrc h.symm)]
    simp only [Mha.forwardCross, hq, hk, Option.bind_some, hsd, Option.map_none]

private theorem start_feed_raises (junk : Heads) {m : Model} {b : Bag} (hb : GoodBag b) (hs : b.stepNr = 0)
    (hm : GoodModel m 1) {L : Layer} {Ls : List Layer} (hlayers : m.layers = L :: Ls) (hcross : L.cross ≠ none)
    {given : Source} {T : Batch Nat} (hT : ∀ t ∈ T, t.length = 1) (hN : 0 < T.length)
    (hne : given.rows.length ≠ T.length) : (Session.start m b).feed m junk (some given) T = none := by
  obtain ⟨l, hl, -⟩ := full_positions (N := T.length) (le_refl 1)
  have hwid : width T = 1 := width_eq hN hT
  let R : List Row := T.map fun t => ⟨t, []⟩
  have hRT : R.map Row.tokens = T := by simp [R, Function.comp_def]
  have hRl : R.length = T.length := by simp [R]
  have hR : ∀ r ∈ R, r.tokens.length = 1 := by
    intro r hr
    obtain ⟨t, ht, rfl⟩ := List.mem_map.1 hr
    exact hT t ht
  have hbmax := hb.max
  have e0 := embed_ok (m := m) (bag := some b) (a := 0) (R := R) (n := 1) (by omega) (le_refl 1) (by simpa using hR)
    (show startOf (some b) = 0 from hs) (by simpa using hm.pos) (l := l) (by rw [hRl]; exact hl)
  simp only [List.drop_zero] at e0
  rw [show (R.map fun r => r.tokens) = T from hRT] at e0
  obtain ⟨⟨mh, blk⟩, hc⟩ := Option.ne_none_iff_exists'.1 hcross
  have e1 := first_layer_raises junk hb (R := R) (F := embedded m) (n := 1)
    (hm.layers L (by rw [hlayers]; exact List.mem_cons_self)) (embedded_causal m) (by omega) (le_refl 1) hR hs
    (by omega) (l := l) (by rw [hRl]; exact hl) (src := given) (by rw [hRl]; exact hne) hc
  have hf : m.forward junk (some b) (some given) (m.layers.map fun _ => {}) T = none := by
    unfold Model.forward
    rw [hwid, hl, Option.bind_some, e0, Option.bind_some, hlayers]
    simp only [List.map_cons, forwardLayers]
    rw [show (R.map fun r => embedded m r) = R.map (embedded m) from rfl, e1]
    rfl
  unfold Session.feed Session.start
  dsimp only
  rw [show (none : Option Source).or (some given) = some given from rfl, hf]
  rfl

private theorem start_reorder (m : Model) (b : Bag) (order : List Nat) :
    (Session.start m b).reorder order = some (Session.start m b) := by
  unfold Session.reorder Session.start
  have : ∀ (Ls : List Layer), ((Ls.map fun _ => ({} : LayerState)).mapM fun (st : LayerState) => st.reorder order) =
      some (Ls.map fun _ => {}) := by
    intro Ls
    induction Ls with
    | nil => rfl
    | cons L Ls ih =>
      rw [List.map_cons, List.mapM_cons, ih]
      rfl
  dsimp only
  rw [this]
  rfl

/-- **The sources are not fanned out.** If some prompt has one token only and more than one sequence per prompt is asked
for, sampling with an encoder-decoder model raises whatever the rest of the settings is: the state bag is still empty when
it is fanned out, so that the first call encodes one source for every prompt, while there are several times as many
sequences. (With a single prompt the one source may be broadcast to all sequences; hence the prompts are at least two.) -/
theorem C108_fan_out_lost {m : Model} {c : Settings} (hm : GoodModel m c.maxSeq) {L : Layer} {Ls : List Layer}
    (hlayers : m.layers = L :: Ls) (hcross : L.cross ≠ none) (junk : Heads) (score : Vec → Option (List ℚ)) (ops : Ops)
    {p : Prompts} {given : Source} {sources : List (List Vec)} (hlen : sources.length = p.rows.length)
    (hsrc : SourceInv given sources) {inc : Option Int} (hinc : ∀ c, inc = some c → 1 ≤ c) (hp : Batched p)
    (_ : 2 ≤ p.rows.length) (hone : p.minLen = 1) (hgens : 2 ≤ c.numGens) (chunk : Option Nat) :
    cachedSample (decoderStateful m junk (some given) inc score) c ops chunk p = none := by
  unfold cachedSample
  cases hl : limits c p with
  | none => rfl
  | some lim =>
    simp only [Option.bind_some]
    obtain ⟨f1, f2, -, f4, f5⟩ := limits_facts hl
    have hprep : samplePrepare (decoderStateful m junk (some given) inc score lim.maxLen) c chunk p.rows lim.minPrompt =
        some (Session.start m ⟨0, lim.maxLen, inc⟩) := by
      unfold samplePrepare
      rw [if_neg (by omega), Option.bind_some, if_pos (by omega)]
      exact start_reorder _ _ _
    rw [hprep, Option.bind_some]
    have hlne : p.lens ≠ [] := by
      intro h
      have := hp.rows
      rw [h] at this
      exact hp.nonempty (List.length_eq_zero_iff.mp this.symm)
    obtain ⟨len0, hlen0⟩ := List.exists_mem_of_ne_nil _ hlne
    have hmin : p.minLen ≤ len0 := (foldl_min_le' p.lens _).2 _ hlen0
    have hmax : len0 ≤ p.maxLen := (foldl_max_ge p.lens 0).2 _ hlen0
    have hfit : p.maxLen ≤ p.width := foldl_max_le _ _ _ (Nat.zero_le _) hp.lens
    have hPpos : 0 < p.rows.length := List.length_pos_iff.mpr hp.nonempty
    cases hs : fanOut c (sampInit ops lim p) with
    | none => rfl
    | some s =>
      rw [Option.bind_some]
      unfold fanOut at hs
      rw [if_pos (by omega)] at hs
      have hinit : Lined lim.maxLen (sampInit ops lim p) := by
        refine ⟨by simp [sampInit], ?_, ?_, ?_⟩
        · intro h
          have := congrArg List.length h
          simp [sampInit] at this
          exact hp.nonempty this
        · intro row hrow
          obtain ⟨i, hi, rfl⟩ := List.getElem_of_mem hrow
          have hi' : i < p.rows.length := by simpa [sampInit] using hi
          have := hp.width p.rows[i] (List.getElem_mem _)
          simp only [sampInit, List.getElem_mapIdx, List.length_append, List.length_map, List.length_range,
            List.length_take, this]
          omega
        · intro m hm
          simp only [sampInit] at hm ⊢
          split at hm
          · cases hm
            simp [hp.rows]
          · cases hm
      have hseq0 : (sampInit ops lim p).seqs.length = p.rows.length := by simp [sampInit]
      rw [hseq0] at hs
      have hfl : ((List.range p.rows.length).flatMap fun i => List.replicate c.numGens i).length =
          p.rows.length * c.numGens := by
        rw [List.length_flatMap]
        simp
      have hmul : p.rows.length * 2 ≤ p.rows.length * c.numGens := Nat.mul_le_mul_left _ hgens
      obtain ⟨hlined, hzip⟩ := reorder_lined hinit (by
        intro h
        rw [h] at hfl
        simp only [List.length_nil] at hfl
        omega) hs 0
      have hslen : s.seqs.length = p.rows.length * c.numGens := by
        have := congrArg List.length hzip
        rw [List.length_zip, List.length_map, List.length_map, hlined.idx, Nat.min_self] at this
        rw [this, hfl]
      have hstep : lim.maxLen - lim.minPrompt = (lim.maxLen - lim.minPrompt - 1) + 1 := by omega
      rw [hstep]
      unfold cachedSampLoop cachedSampStep
      have hfeed : (decoderStateful m junk (some given) inc score lim.maxLen).feed (Session.start m ⟨0, lim.maxLen, inc⟩)
          (s.seqs.map fun row => (row.drop (lim.maxLen - (lim.maxLen - lim.minPrompt - 1 + 1) - 1)).take 1) = none := by
        show ((Session.start m ⟨0, lim.maxLen, inc⟩).feed m junk (some given) _).bind _ = none
        rw [start_feed_raises junk (b := ⟨0, lim.maxLen, inc⟩) ⟨hinc, by dsimp only; omega⟩ rfl
          (hm.mono (by omega)) hlayers hcross]
        · rfl
        · intro t ht
          obtain ⟨u, hu, rfl⟩ := List.mem_map.1 ht
          obtain ⟨row, hrow, rfl⟩ := List.mem_map.1 hu
          have := hlined.len row hrow
          rw [List.length_map, List.length_take, List.length_drop]
          omega
        · rw [List.length_map, List.length_map]
          omega
        · rw [List.length_map, List.length_map, hslen, hsrc.begins.1, hlen]
          omega
      rw [hfeed]
      rfl

/-! ### Models that the theorems speak of -/

/-- Probabilities of four tokens that depend on the logits. -/
private noncomputable def tilted (x : Vec) : Option (List ℚ) := some (if x 0 < 2 then [0, 1/2, 1/4, 1/4] else [0, 1/4, 1/2, 1/4])

private theorem logits_nil {m : Model} {src : List Vec} {t : List Nat} : logits m src t = [] ↔ t = [] := by
  rw [← List.length_eq_zero_iff, logits_length, List.length_eq_zero_iff]

private theorem tilted_scored (m : Model) {sources : List (List Vec)} {p : Prompts}
    (hlen : sources.length = p.rows.length) (hrow : ∀ row ∈ p.rows, row ≠ []) : PromptsScored m tilted sources p := by
  intro i row hi k hk
  have hlt : i < sources.length := by
    rw [hlen]
    exact (List.getElem?_eq_some_iff.1 hi).1
  rw [List.getElem?_eq_getElem hlt, Option.bind_some]
  unfold recomputing tilted
  have hl : (logits m sources[i] ((row.take (k + 1)).map Int.toNat)) ≠ [] := by
    rw [ne_eq, logits_nil]
    have hr := hrow row (List.mem_of_getElem? hi)
    cases row with
    | nil => exact absurd rfl hr
    | cons a t => simp
  rw [List.getLast?_eq_some_getLast hl]
  simp

private def pickFirst : Ops where
  lm := fun _ _ => none
  process := fun _ _ probs => some probs
  sample := fun _ _ ws => ws.findIdx? fun w => decide (0 < w)
  junk := fun _ _ => 7

private def twoEach : Settings where
  eos := 3
  pad := some 0
  unk := none
  numGens := 2
  minGen := 1
  maxGen := 2
  maxSeq := 10
  echo := true
  unkPenalty := 0

private def longAndShort : Prompts := ⟨3, [[2, 1, 2], [1, 0, 0]], [3, 1]⟩

private theorem full_no_window {cross : Option (Mha × Block)} : ¬ HasWindow (averaging (.causal none) .full cross) := by
  rintro ⟨L, hL, h⟩
  simp [averaging] at hL
  subst hL
  exact absurd rfl h

/-- Two prompts of different lengths and two sequences each, for `C108_language_partial`, and with the same hypotheses
`C108_memory_partial`. -/
example (junk : Heads) :
    let m := averaging (.causal none) .full none
    cachedSample (decoderStateful m junk none (some 2) tilted) twoEach pickFirst (some 2) longAndShort =
      sampGenerate twoEach { pickFirst with lm := recomputed m tilted [[], []] } longAndShort := by
  intro m
  have h := C108_language_partial (ops := { pickFirst with lm := recomputed m tilted [[], []] }) (c := twoEach)
    (p := longAndShort) (averaging_good .causal (by simp) _) (by simp [NeedsSource, averaging]) junk rfl
    (fun n seqs probs out h => by cases h; rfl) (inc := some 2) (by simp)
    ⟨by decide, by decide, by decide, by decide⟩ (by decide) (chunk := some 2) (fun h => absurd h full_no_window)
  rw [sample_lm] at h
  exact h.2 (tilted_scored _ rfl (by decide))

/-- With constant probabilities one can see the sequences, for `C108_sequences_partial`: the first prompt, which has two
tokens more, gets two tokens, the second one four. -/
example (junk : Heads) :
    cachedSample (decoderStateful (averaging (.causal none) .full none) junk none none fun _ => some [0, 1/2, 1/4, 1/4])
        twoEach pickFirst none longAndShort =
      some [[[2, 1, 2, 1, 3], [2, 1, 2, 1, 3]], [[1, 1, 1, 1, 3], [1, 1, 1, 1, 3]]] := by
  have hlm : recomputed (averaging (.causal none) .full none) (fun _ => some [0, 1/2, 1/4, 1/4]) [[], []] = fun src seqs =>
      (src.zip seqs).mapM fun x => if x.1 < 2 ∧ x.2 ≠ [] then some [0, 1/2, 1/4, 1/4] else none := by
    funext src seqs
    unfold recomputed
    congr 1
    funext x
    obtain ⟨i, t⟩ := x
    have hnone : t = [] → ∀ s, recomputing (averaging (.causal none) .full none)
        (fun _ => some [(0 : ℚ), 1/2, 1/4, 1/4]) s t = none := by
      rintro rfl s
      unfold recomputing
      rw [show logits (averaging (.causal none) .full none) s (List.map Int.toNat []) = [] from logits_nil.2 rfl]
      rfl
    have hsome : t ≠ [] → ∀ s, recomputing (averaging (.causal none) .full none)
        (fun _ => some [(0 : ℚ), 1/2, 1/4, 1/4]) s t = some [0, 1/2, 1/4, 1/4] := by
      intro ht s
      unfold recomputing
      rw [List.getLast?_eq_some_getLast (by rw [ne_eq, logits_nil]; simpa using ht)]
      rfl
    dsimp only
    by_cases ht : t = []
    · rw [if_neg (by simp [ht])]
      cases ([[], []] : List (List Vec))[i]? with
      | none => rfl
      | some s => exact hnone ht s
    · match i with
      | 0 => rw [if_pos ⟨by decide, ht⟩]; exact hsome ht []
      | 1 => rw [if_pos ⟨by decide, ht⟩]; exact hsome ht []
      | i + 2 => rw [if_neg (by simp)]; rfl
  have h := C108_language_partial
    (ops := { pickFirst with lm := recomputed (averaging (.causal none) .full none) (fun _ => some [0, 1/2, 1/4, 1/4]) [[], []] })
    (c := twoEach) (p := longAndShort) (averaging_good .causal (by simp) _) (by simp [NeedsSource, averaging]) junk rfl
    (fun n seqs probs out h => by cases h; rfl) (inc := none) (by simp)
    ⟨by decide, by decide, by decide, by decide⟩ (by decide) (chunk := none) (fun h => absurd h full_no_window)
  rw [sample_lm] at h
  rw [h.2 (fun i row _ k hk => absurd hk (by simp [longAndShort, Prompts.minLen])), hlm]
  decide +kernel

private theorem watching_good (n : Nat) :
    GoodModel (averaging (.causal none) .full (some (averager .identity .full, bareBlock))) n :=
  averaging_good .causal (by rintro m k h; simp at h; obtain ⟨rfl, rfl⟩ := h; exact ⟨rfl, rfl⟩) n

/-- Two sources of different lengths and prompts of three and two tokens, for `C108_source_partial`. -/
example (junk : Heads) :
    let m := averaging (.causal none) .full (some (averager .identity .full, bareBlock))
    cachedSample (decoderStateful m junk (some twoSources) (some 1) tilted) twoEach pickFirst (some 1)
        ⟨3, [[2, 1, 2], [1, 2, 0]], [3, 2]⟩ =
      sampGenerate twoEach { pickFirst with lm := recomputed m tilted [[fun _ => 1, fun _ => 2], [fun _ => 3]] }
        ⟨3, [[2, 1, 2], [1, 2, 0]], [3, 2]⟩ := by
  intro m
  have h := C108_source_partial
    (ops := { pickFirst with lm := recomputed m tilted [[fun _ => 1, fun _ => 2], [fun _ => 3]] }) (c := twoEach)
    (p := ⟨3, [[2, 1, 2], [1, 2, 0]], [3, 2]⟩) (watching_good _) junk rfl twoSources_inv rfl
    (fun n seqs probs out h => by cases h; rfl) (inc := some 1) (by simp)
    ⟨by decide, by decide, by decide, by decide⟩ (by decide) (chunk := some 1) (fun h => absurd h full_no_window)
    (.inr (by decide))
  rw [sample_lm] at h
  exact h.2 (tilted_scored _ rfl (by decide))

/-- The same with a prompt of one token, for `C108_fan_out_lost`. -/
example (junk : Heads) :
    cachedSample (decoderStateful (averaging (.causal none) .full (some (averager .identity .full, bareBlock))) junk
      (some twoSources) (some 1) tilted) twoEach pickFirst (some 1) longAndShort = none :=
  C108_fan_out_lost (watching_good _) rfl (by simp) junk tilted pickFirst rfl twoSources_inv (by simp)
    ⟨by decide, by decide, by decide, by decide⟩ (by decide) (by decide) (by decide) _

end Fs2.Props
