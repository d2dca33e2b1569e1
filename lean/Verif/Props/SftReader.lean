import Verif.Datasets.SftReaderLemmas
import Verif.Props.FineTuning
import Verif.Props.BucketSizes

/-!
# One epoch of supervised fine-tuning: C102

`createReader W tok sources rank size minLen maxLen o` is the pipeline that `LMSFTDataset.create_reader` builds on a rank; a
`DataPipelineReader` reads `pipeline false 0` of it and turns what it gives into batches with `toBatch`. `W` says what is in the
files, and `R` is any random number generator.
-/

namespace Fs2.Props
open Fs2.Sft Fs2.Dec Fs2.Nn Source
open Fs2.Enc (PadModel)

/-- A line of a file holds a prompt and a response, and perhaps an id; tokenized they are the example. -/
def LineHolds (W : Files) (tok : Tok) (line : Data) (e : Example) : Prop :=
  ∃ fields s t, W.loads line = .ok (.dict fields) ∧ fields.lookup "src" = some (.str s) ∧ fields.lookup "tgt" = some (.str t) ∧
    e = ⟨fields.lookup "id", tok.source s, tok.target t⟩

/-- The number of tokens of an example. -/
def numTokens (e : Example) : Nat := e.src.length + e.tgt.length

/-- The reader of a rank. -/
def rankReads (R : Rng) (W : Files) (tok : Tok) (sources : List Origin) (rank size minLen maxLen : Nat) (o : Options) (ds : List Data) : Prop :=
  ∃ P, createReader W tok sources rank size minLen maxLen o = .ok P ∧
    (pipeline false 0 (P.denote R)).Yields (pipeline false 0 (P.denote R)).init ds

section
variable {R : Rng} {W : Files} {tok : Tok} {files : List Data} {ex : Data → Example}

private theorem parses (h : ∀ f ∈ files, ∀ l ∈ W.lines f, LineHolds W tok l (ex l)) : Parses W files := by
  intro f hf l hl
  obtain ⟨fields, s, t, h1, -⟩ := h f hf l hl
  rw [h1, dataOf, h1]

private theorem contents_eq (h : ∀ f ∈ files, ∀ l ∈ W.lines f, LineHolds W tok l (ex l)) :
    (contents W files).map (exampleOf tok) = (files.flatMap W.lines).map ex ∧
    ∀ d ∈ contents W files, encodeExample tok d = .ok (catSourceAndTarget (exampleOf tok d)) := by
  have each : ∀ f ∈ files, ∀ l ∈ W.lines f, exampleOf tok (dataOf W l) = ex l ∧
      encodeExample tok (dataOf W l) = .ok (catSourceAndTarget (exampleOf tok (dataOf W l))) := by
    intro f hf l hl
    obtain ⟨fields, s, t, h1, h2, h3, h4⟩ := h f hf l hl
    have : dataOf W l = .dict fields := by rw [dataOf, h1]
    rw [this]
    simp [exampleOf, encodeExample, h2, h3, h4]
  constructor
  · rw [contents, List.map_flatMap, List.map_flatMap]
    unfold List.flatMap
    congr 1
    apply List.map_congr_left
    intro f hf
    rw [List.map_map]
    apply List.map_congr_left
    intro l hl
    exact (each f hf l hl).1
  · intro d hd
    obtain ⟨f, hf, hd⟩ := List.mem_flatMap.1 hd
    obtain ⟨l, hl, rfl⟩ := List.mem_map.1 hd
    exact (each f hf l hl).2

/-- What all ranks have before batching. -/
private theorem before_batching (h : ∀ f ∈ files, ∀ l ∈ W.lines f, LineHolds W tok l (ex l)) (weight : Rat) (size window seed : Nat)
    (hsize : 0 < size) (hmany : size ≤ (files.flatMap W.lines).length) :
    ∃ L : Nat → List Example, ((List.range size).flatMap L).Perm ((files.flatMap W.lines).map ex) ∧
      ∀ rank, rank < size → ∀ seed', 
        (Pipe.denote R (.map (encodeExample tok) (.sample [(⟨files, weight⟩ : Origin)].length (fun _ => 0)
          (fun i => pathPipe W ([(⟨files, weight⟩ : Origin)].get i).files rank size window (seed + i)) [weight] seed' true))).Yields
        (Pipe.denote R (.map (encodeExample tok) (.sample [(⟨files, weight⟩ : Origin)].length (fun _ => 0)
          (fun i => pathPipe W ([(⟨files, weight⟩ : Origin)].get i).files rank size window (seed + i)) [weight] seed' true))).init
        ((L rank).map catSourceAndTarget) := by
  obtain ⟨hc, henc⟩ := contents_eq h
  have hlen : (contents W files).length = (files.flatMap W.lines).length := by
    have := congrArg List.length hc
    simpa using this
  obtain ⟨order, hord, hall⟩ := single_source R (parses h) window seed
  refine ⟨fun r => (shardOf r size order).map (exampleOf tok), ?_, ?_⟩
  · rw [← List.map_flatMap, ← hc]
    exact ((perm_shards size hsize order).trans hord).map _
  · intro rank hr seed'
    have := hall weight rank size seed' hr (by omega)
    have := map_yields_on (f := encodeExample tok) (g := fun d => catSourceAndTarget (exampleOf tok d)) (by
      intro x hx
      apply henc
      rw [← hord.mem_iff]
      unfold shardOf at hx
      rw [List.mem_filterMap] at hx
      obtain ⟨k, -, hk⟩ := hx
      exact List.mem_of_getElem? hk) this
    rw [List.map_map]
    exact this

private theorem perm_flatMap {α β : Type} {f g : α → List β} {l : List α} (h : ∀ a ∈ l, (f a).Perm (g a)) : (l.flatMap f).Perm (l.flatMap g) := by
  induction l with
  | nil => simp
  | cons a l ih =>
    rw [List.flatMap_cons, List.flatMap_cons]
    exact (h a List.mem_cons_self).append (ih fun b hb => h b (List.mem_cons_of_mem _ hb))

private theorem filter_flatMap {α β : Type} (p : β → Bool) (f : α → List β) (l : List α) :
    (l.flatMap f).filter p = l.flatMap fun a => (f a).filter p := by
  induction l with
  | nil => rfl
  | cons a l ih => rw [List.flatMap_cons, List.flatMap_cons, List.filter_append, ih]

end

/-- **C102.** One epoch with batches of a fixed number of examples. Whatever the shuffle windows and seeds, every example of the files
whose length is within the limits is in exactly one batch of exactly one rank, and nothing else is; the batches are the padded ones of
C100, not empty, not above the batch size, and all but one per rank of exactly that size. With `drop_remainder` every rank leaves out
fewer examples than the batch size. -/
theorem C102_static (R : Rng) (W : Files) (tok : Tok) (files : List Data) (weight : Rat) (ex : Data → Example)
    (hex : ∀ f ∈ files, ∀ l ∈ W.lines f, LineHolds W tok l (ex l)) (size minLen maxLen n : Nat) (o : Options) (pad : Int)
    (hsize : 0 < size) (hmany : size ≤ (files.flatMap W.lines).length) (hb : o.batching = .static n) (hn : 0 < n)
    (hall : o.maxNumBatches = none) (hpad : tok.padIdx = some pad) (hid : IdsMatch ((files.flatMap W.lines).map ex)) :
    ∃ (buckets : Nat → List (List Example)) (dropped : Nat → List Example),
      (∀ r, r < size → ∃ ds, rankReads R W tok [⟨files, weight⟩] r size minLen maxLen o ds ∧ ds.map toBatch = (buckets r).map (batchOf pad)) ∧
      (∀ r, r < size → (∀ b ∈ buckets r, b ≠ [] ∧ b.length ≤ n ∧ (o.dropRemainder = true → b.length = n)) ∧
        ((buckets r).filter fun b => b.length < n).length ≤ 1 ∧ (dropped r).length < n ∧ (o.dropRemainder = false → dropped r = [])) ∧
      ((List.range size).flatMap fun r => (buckets r).flatten ++ dropped r).Perm
        (((files.flatMap W.lines).map ex).filter fun e => minLen ≤ numTokens e ∧ numTokens e ≤ maxLen) := by
  obtain ⟨L, hL, hy⟩ := before_batching (R := R) hex weight size o.exampleShuffleWindow o.seed hsize hmany
  have hidL : ∀ r, r < size → ∀ e ∈ L r, e ∈ (files.flatMap W.lines).map ex := fun r hr e he =>
    hL.mem_iff.1 (List.mem_flatMap.2 ⟨r, List.mem_range.2 hr, he⟩)
  have step : ∀ r, ∃ (buckets : List (List Example)) (dropped : List Example), r < size →
      (∃ ds, rankReads R W tok [⟨files, weight⟩] r size minLen maxLen o ds ∧ ds.map toBatch = buckets.map (batchOf pad)) ∧
      (∀ b ∈ buckets, b ≠ [] ∧ b.length ≤ n ∧ (o.dropRemainder = true → b.length = n)) ∧
        (buckets.filter fun b => b.length < n).length ≤ 1 ∧ dropped.length < n ∧ (o.dropRemainder = false → dropped = []) ∧
      (buckets.flatten ++ dropped).Perm ((L r).filter fun e => minLen ≤ numTokens e ∧ numTokens e ≤ maxLen) := by
    intro r
    by_cases hr : r < size
    · obtain ⟨cs, dropped, h1, h2, h3, h4, h5, h6⟩ := static_yields minLen maxLen n o.dropRemainder hn
        (hy r hr (o.seed + [(⟨files, weight⟩ : Origin)].length + r))
      have hmem : ∀ b ∈ cs, ∀ e ∈ b, e ∈ (files.flatMap W.lines).map ex := by
        intro b hb e he
        apply hidL r hr
        have : e ∈ cs.flatten ++ dropped := List.mem_append_left _ (List.mem_flatten.2 ⟨b, hb, he⟩)
        rw [h2] at this
        exact (List.mem_filter.1 this).1
      obtain ⟨buckets, ds, h7, h8, h9⟩ := collated_yields R (p := .bucket n o.dropRemainder (.filter (within minLen maxLen) _))
        o.batchShuffleWindow (o.seed + [(⟨files, weight⟩ : Origin)].length + r) pad (fun b hb => (h5 b hb).1)
        (fun b hb => hid.mono (hmem b hb)) h1
      refine ⟨buckets, dropped, fun _ => ⟨⟨ds, ⟨_, ?_, pipeline_yields_init h9⟩, h8⟩, ?_, ?_, h3, h4, ?_⟩⟩
      · simp only [createReader, batchPipe, hb, hpad, hall]
        rfl
      · exact fun b hb => h5 b (h7.mem_iff.1 hb)
      · rw [(h7.filter _).length_eq]
        exact h6
      · refine (h7.flatten.append_right _).trans (.of_eq (h2.trans (List.filter_congr fun e _ => ?_)))
        simp only [List.length_append, numTokens]
        exact decide_eq_decide.2 Iff.rfl
    · exact ⟨[], [], fun h => absurd h hr⟩
  choose buckets dropped H using step
  refine ⟨buckets, dropped, fun r hr => (H r hr).1, fun r hr => ⟨(H r hr).2.1, (H r hr).2.2.1, (H r hr).2.2.2.1, (H r hr).2.2.2.2.1⟩, ?_⟩
  refine (perm_flatMap fun r hr => (H r (List.mem_range.1 hr)).2.2.2.2.2).trans ?_
  rw [← filter_flatMap]
  exact hL.filter _

private theorem length_yields {S : Source} {L : List Example} {num lo hi : Nat} {sizes : List (Nat × Nat)} (drop : Bool)
    (hs : Sizes.create num hi lo 1 = .ok sizes) (hlo : ∀ e ∈ L, lo ≤ (e.src ++ e.tgt).length)
    (h : S.Yields S.init (L.map catSourceAndTarget)) :
    ∃ (cs : List (List Example)) (dropped : List Example),
      (bucketByLength ⟨sizes, seqLen, lo, false, true, drop⟩ S).Yields
        (bucketByLength ⟨sizes, seqLen, lo, false, true, drop⟩ S).init (cs.map bucketData) ∧
      (cs.flatten ++ dropped).Perm (L.filter fun e => decide (lo ≤ (e.src ++ e.tgt).length ∧ (e.src ++ e.tgt).length ≤ hi)) ∧
      (drop = false → dropped = []) ∧
      ∀ b ∈ cs, b ≠ [] ∧ ∃ w, (∀ e ∈ b, (e.src ++ e.tgt).length ≤ w) ∧ b.length * w ≤ num := by
  obtain ⟨up, range, z, hl, hz⟩ := C101_lengths hs
  have hv : BblCfg.Valid ⟨sizes, seqLen, lo, false, true, drop⟩ := by
    refine ⟨?_, up.imp Nat.le_of_lt⟩
    rintro rfl
    simp at hl
  have hlong : longest ⟨sizes, seqLen, lo, false, true, drop⟩ = hi := by
    rw [longest_spec _ hv]
    simp [BblCfg.maxLen, hl, hz]
  obtain ⟨rs, outs, dropped, h1, h0, h2, h3, h4, h5, h6⟩ := C08_bucket_by_length S ⟨sizes, seqLen, lo, false, true, drop⟩ _ hv
    (fun z hz => (C101_bounded hs hz).1) h
  rw [hlong] at h4 h6
  have hraise : raised rs = [] := by
    rw [h6, List.filterMap_eq_nil_iff]
    intro x hx
    obtain ⟨e, he, rfl⟩ := List.mem_map.1 hx
    have := hlo e he
    simp only [seqLen_cat]
    rw [if_neg (by omega), if_neg (by simp)]
  rw [raised_nil hraise h0, h2] at h1
  have hy := Trace.yields h1
  have hin : ∀ w (e : Example), LenIn seqLen lo w (catSourceAndTarget e) ↔ lo ≤ (e.src ++ e.tgt).length ∧ (e.src ++ e.tgt).length ≤ w := by
    intro w e
    unfold LenIn
    rw [seqLen_cat]
    constructor
    · rintro ⟨k, h1, h2⟩
      cases h1
      exact h2
    · intro h
      exact ⟨_, rfl, h⟩
  have h4' : (outs.flatten ++ dropped).Perm
      ((L.filter fun e => decide (lo ≤ (e.src ++ e.tgt).length ∧ (e.src ++ e.tgt).length ≤ hi)).map catSourceAndTarget) := by
    refine h4.trans (.of_eq ?_)
    rw [List.filter_map]
    congr 1
    apply List.filter_congr
    intro e _
    exact decide_eq_decide.2 (hin hi e)
  obtain ⟨K, hK, hflat⟩ := perm_map_exists h4'.symm _ rfl
  have hsplit : outs.flatten = (K.take outs.flatten.length).map catSourceAndTarget := by
    rw [List.map_take, ← hflat, List.take_left]
  obtain ⟨cs, rfl, hcs⟩ := flatten_map_exists outs _ hsplit
  refine ⟨cs, K.drop (cs.map (List.map catSourceAndTarget)).flatten.length, ?_, ?_, ?_, ?_⟩
  · rw [List.map_map] at hy
    exact hy
  · rw [hcs, List.take_append_drop]
    exact hK.symm
  · intro hd
    rcases h5 with h5 | h5
    · have := congrArg List.length hflat
      rw [h5, List.append_nil, List.length_map] at this
      rw [this, List.drop_length]
    · rw [hd] at h5
      exact absurd h5.1 (by simp)
  · intro b hb
    obtain ⟨z, hz, h7, h8, -, h9⟩ := h3 _ (List.mem_map.2 ⟨b, hb, rfl⟩)
    refine ⟨fun e => h7 (by rw [e]; rfl), z.2, fun e he => ?_, ?_⟩
    · exact ((hin z.2 e).1 (h9 _ (List.mem_map.2 ⟨e, he, rfl⟩))).2
    · rw [List.length_map] at h8
      exact Nat.le_trans (Nat.mul_le_mul_right _ h8) (C101_bounded hs hz).2

/-- **C102.** One epoch with batches of a limited number of elements, for files without examples that are too short. Every example of
the files that is not too long is in exactly one batch of exactly one rank, and nothing else is; a batch, padded to its longest example,
has at most `max_num_elements` elements.

Missing for the full property: examples below the smallest length, see `C102_short`. -/
theorem C102_length_partial (R : Rng) (W : Files) (tok : Tok) (files : List Data) (weight : Rat) (ex : Data → Example)
    (hex : ∀ f ∈ files, ∀ l ∈ W.lines f, LineHolds W tok l (ex l)) (size minLen maxLen num : Nat) (o : Options) (pad : Int)
    (hsize : 0 < size) (hmany : size ≤ (files.flatMap W.lines).length) (hb : o.batching = .length num)
    (hnum : GoodLimits num maxLen minLen 1) (hshort : ∀ e ∈ (files.flatMap W.lines).map ex, minLen ≤ numTokens e)
    (hdrop : o.dropRemainder = false) (hall : o.maxNumBatches = none) (hpad : tok.padIdx = some pad)
    (hid : IdsMatch ((files.flatMap W.lines).map ex)) :
    ∃ buckets : Nat → List (List Example),
      (∀ r, r < size → ∃ ds, rankReads R W tok [⟨files, weight⟩] r size minLen maxLen o ds ∧ ds.map toBatch = (buckets r).map (batchOf pad)) ∧
      (∀ r, r < size → ∀ b ∈ buckets r, b ≠ [] ∧ ∃ w, (∀ e ∈ b, numTokens e ≤ w) ∧ b.length * w ≤ num) ∧
      ((List.range size).flatMap fun r => (buckets r).flatten).Perm
        (((files.flatMap W.lines).map ex).filter fun e => minLen ≤ numTokens e ∧ numTokens e ≤ maxLen) := by
  obtain ⟨sizes, hs⟩ := (C101_accepts num maxLen minLen 1).1 hnum
  obtain ⟨L, hL, hy⟩ := before_batching (R := R) hex weight size o.exampleShuffleWindow o.seed hsize hmany
  have hidL : ∀ r, r < size → ∀ e ∈ L r, e ∈ (files.flatMap W.lines).map ex := fun r hr e he =>
    hL.mem_iff.1 (List.mem_flatMap.2 ⟨r, List.mem_range.2 hr, he⟩)
  have step : ∀ r, ∃ buckets : List (List Example), r < size →
      (∃ ds, rankReads R W tok [⟨files, weight⟩] r size minLen maxLen o ds ∧ ds.map toBatch = buckets.map (batchOf pad)) ∧
      (∀ b ∈ buckets, b ≠ [] ∧ ∃ w, (∀ e ∈ b, numTokens e ≤ w) ∧ b.length * w ≤ num) ∧
      buckets.flatten.Perm ((L r).filter fun e => minLen ≤ numTokens e ∧ numTokens e ≤ maxLen) := by
    intro r
    by_cases hr : r < size
    · obtain ⟨cs, dropped, h1, h2, h3, h4⟩ := length_yields o.dropRemainder hs
        (fun e he => by have := hshort e (hidL r hr e he); simpa [numTokens] using this)
        (hy r hr (o.seed + [(⟨files, weight⟩ : Origin)].length + r))
      have hmem : ∀ b ∈ cs, ∀ e ∈ b, e ∈ (files.flatMap W.lines).map ex := by
        intro b hb e he
        apply hidL r hr
        have : e ∈ cs.flatten ++ dropped := List.mem_append_left _ (List.mem_flatten.2 ⟨b, hb, he⟩)
        exact (List.mem_filter.1 (h2.mem_iff.1 this)).1
      obtain ⟨buckets, ds, h7, h8, h9⟩ := collated_yields R (p := .bucketByLength ⟨sizes, seqLen, minLen, false, true, o.dropRemainder⟩ _)
        o.batchShuffleWindow (o.seed + [(⟨files, weight⟩ : Origin)].length + r) pad (fun b hb => (h4 b hb).1)
        (fun b hb => hid.mono (hmem b hb)) h1
      refine ⟨buckets, fun _ => ⟨⟨ds, ⟨_, ?_, pipeline_yields_init h9⟩, h8⟩, ?_, ?_⟩⟩
      · simp only [createReader, batchPipe, hb, hs, hpad, hall]
        rfl
      · intro b hb
        obtain ⟨a1, w, a2, a3⟩ := h4 b (h7.mem_iff.1 hb)
        exact ⟨a1, w, fun e he => by have := a2 e he; simpa [numTokens] using this, a3⟩
      · rw [h3 hdrop, List.append_nil] at h2
        refine h7.flatten.trans (h2.trans (.of_eq (List.filter_congr fun e _ => ?_)))
        simp only [List.length_append, numTokens]
        exact decide_eq_decide.2 Iff.rfl
    · exact ⟨[], fun h => absurd h hr⟩
  choose buckets H using step
  refine ⟨buckets, fun r hr => (H r hr).1, fun r hr => (H r hr).2.1, ?_⟩
  refine (perm_flatMap fun r hr => (H r (List.mem_range.1 hr)).2.2).trans ?_
  rw [← filter_flatMap]
  exact hL.filter _

private theorem mapM_batches {β : Type} (P : Batch.SeqBatch Int → Option β) (pad : Int) (g : List Example → β) :
    ∀ (ds : List Data) (bs : List (List Example)), ds.map toBatch = bs.map (batchOf pad) →
      (∀ b ∈ bs, (batchOf pad b).bind P = some (g b)) → ds.mapM (fun d => (toBatch d).bind P) = some (bs.map g)
  | [], [], _, _ => rfl
  | [], _ :: _, h, _ => by simp at h
  | _ :: _, [], h, _ => by simp at h
  | d :: ds, b :: bs, h, hb => by
    simp only [List.map_cons, List.cons.injEq] at h
    rw [List.mapM_cons, h.1, hb b List.mem_cons_self, mapM_batches P pad g ds bs h.2 fun c hc => hb c (List.mem_cons_of_mem _ hc)]
    rfl

private theorem flatten_flatMap {α β : Type} (f : α → List (List β)) (l : List α) : (l.flatMap f).flatten = l.flatMap fun a => (f a).flatten := by
  induction l with
  | nil => rfl
  | cons a l ih => rw [List.flatMap_cons, List.flatMap_cons, List.flatten_append, ih]

private theorem sum_buckets {β : Type} [AddCommMonoid β] (f : Example → β) (bs : List (List Example)) :
    (bs.map fun b => (b.map f).sum).sum = (bs.flatten.map f).sum := by
  induction bs with
  | nil => rfl
  | cons b bs ih => rw [List.map_cons, List.sum_cons, ih, List.flatten_cons, List.map_append, List.sum_append]

private theorem epoch_loss {R : Rng} {W : Files} {tok : Tok} {sources : List Origin} {size minLen maxLen : Nat} {o : Options} {padIdx : Int}
    {all : List Example} {buckets : Nat → List (List Example)}
    (h1 : ∀ r, r < size → ∃ ds, rankReads R W tok sources r size minLen maxLen o ds ∧ ds.map toBatch = (buckets r).map (batchOf padIdx))
    (h2 : ∀ r, r < size → ∀ b ∈ buckets r, b ≠ [])
    (h3 : ((List.range size).flatMap fun r => (buckets r).flatten).Perm (all.filter fun e => minLen ≤ numTokens e ∧ numTokens e ≤ maxLen))
    (hid : IdsMatch all) (vocab : Nat) (pad : Option Int) (m : Model) (hlm : ∀ L ∈ m.layers, L.cross = none)
    (hp : 0 ≤ padIdx ∧ padIdx < vocab) (hmin : 2 ≤ minLen) (hv : ∀ e ∈ all, TokensIn vocab e)
    (hm : ∀ k, minLen ≤ k → k ≤ maxLen → PadModel m (k - 1)) :
    ∃ results : Nat → List (ℝ × Nat),
      (∀ r, r < size → ∃ ds, rankReads R W tok sources r size minLen maxLen o ds ∧
        ds.mapM (fun d => (toBatch d).bind (processBatch vocab pad m)) = some (results r)) ∧
      (((List.range size).flatMap results).map (·.1)).sum =
        ((all.filter fun e => minLen ≤ numTokens e ∧ numTokens e ≤ maxLen).map (exampleLoss vocab pad m)).sum ∧
      (((List.range size).flatMap results).map (·.2)).sum =
        ((all.filter fun e => minLen ≤ numTokens e ∧ numTokens e ≤ maxLen).map fun e => (learnt e).length).sum := by
  have hmem : ∀ r, r < size → ∀ b ∈ buckets r, ∀ e ∈ b, e ∈ all ∧ minLen ≤ numTokens e ∧ numTokens e ≤ maxLen := by
    intro r hr b hb e he
    have : e ∈ (List.range size).flatMap fun r => (buckets r).flatten :=
      List.mem_flatMap.2 ⟨r, List.mem_range.2 hr, List.mem_flatten.2 ⟨b, hb, he⟩⟩
    have := List.mem_filter.1 (h3.mem_iff.1 this)
    simpa using this
  let g : List Example → ℝ × Nat := fun b => ((b.map (exampleLoss vocab pad m)).sum, (b.map fun e => (learnt e).length).sum)
  refine ⟨fun r => (buckets r).map g, ?_, ?_, ?_⟩
  · intro r hr
    obtain ⟨ds, a1, a2⟩ := h1 r hr
    refine ⟨ds, a1, mapM_batches _ padIdx g ds _ a2 fun b hb => ?_⟩
    have hb' := hmem r hr b hb
    obtain ⟨x, b1, b2⟩ := C100_loss_partial vocab pad m hlm padIdx hp b (h2 r hr b hb) (hid.mono fun e he => (hb' e he).1)
      (fun e he => by have := (hb' e he).2.1; simp only [numTokens] at this; simp; omega) (fun e he => hv e (hb' e he).1)
      (fun e he => by
        have := hm (numTokens e) (hb' e he).2.1 (hb' e he).2.2
        simpa [numTokens] using this)
    rw [b1]
    exact b2
  · have : ((List.range size).flatMap fun r => (buckets r).map g).map (·.1) =
        ((List.range size).flatMap buckets).map fun b => (b.map (exampleLoss vocab pad m)).sum := by
      rw [List.map_flatMap, List.map_flatMap]
      simp [g, List.map_map, Function.comp_def]
    rw [this, sum_buckets, ← (h3.map (exampleLoss vocab pad m)).sum_eq]
    congr 2
    rw [flatten_flatMap]
  · have : ((List.range size).flatMap fun r => (buckets r).map g).map (·.2) =
        ((List.range size).flatMap buckets).map fun b => (b.map fun e => (learnt e).length).sum := by
      rw [List.map_flatMap, List.map_flatMap]
      simp [g, List.map_map, Function.comp_def]
    rw [this, sum_buckets, ← (h3.map fun e => (learnt e).length).sum_eq]
    congr 2
    rw [flatten_flatMap]

/-- **C102.** What an epoch learns. The losses and the numbers of targets of all batches of all ranks add up to those of the examples
within the limits, each on its own: however many ranks there are and however examples are shuffled, batched and padded.

Missing for the full property: as for `C100_loss_partial`, and limits below 2 tokens (`C100_one_token`). -/
theorem C102_loss_partial (R : Rng) (W : Files) (tok : Tok) (files : List Data) (weight : Rat) (ex : Data → Example)
    (hex : ∀ f ∈ files, ∀ l ∈ W.lines f, LineHolds W tok l (ex l)) (size minLen maxLen n : Nat) (o : Options) (padIdx : Int)
    (hsize : 0 < size) (hmany : size ≤ (files.flatMap W.lines).length) (hdrop : o.dropRemainder = false)
    (hb : o.batching = .static n ∧ 0 < n ∨ o.batching = .length n ∧ GoodLimits n maxLen minLen 1 ∧
      ∀ e ∈ (files.flatMap W.lines).map ex, minLen ≤ numTokens e)
    (hall : o.maxNumBatches = none) (hpad : tok.padIdx = some padIdx) (hid : IdsMatch ((files.flatMap W.lines).map ex))
    (vocab : Nat) (pad : Option Int) (m : Model) (hlm : ∀ L ∈ m.layers, L.cross = none)
    (hp : 0 ≤ padIdx ∧ padIdx < vocab) (hmin : 2 ≤ minLen) (hv : ∀ e ∈ (files.flatMap W.lines).map ex, TokensIn vocab e)
    (hm : ∀ k, minLen ≤ k → k ≤ maxLen → PadModel m (k - 1)) :
    ∃ results : Nat → List (ℝ × Nat),
      (∀ r, r < size → ∃ ds, rankReads R W tok [⟨files, weight⟩] r size minLen maxLen o ds ∧
        ds.mapM (fun d => (toBatch d).bind (processBatch vocab pad m)) = some (results r)) ∧
      (((List.range size).flatMap results).map (·.1)).sum =
        ((((files.flatMap W.lines).map ex).filter fun e => minLen ≤ numTokens e ∧ numTokens e ≤ maxLen).map (exampleLoss vocab pad m)).sum ∧
      (((List.range size).flatMap results).map (·.2)).sum =
        ((((files.flatMap W.lines).map ex).filter fun e => minLen ≤ numTokens e ∧ numTokens e ≤ maxLen).map fun e => (learnt e).length).sum := by
  rcases hb with ⟨hb, hn⟩ | ⟨hb, hn, hs⟩
  · obtain ⟨buckets, dropped, h1, h2, h3⟩ := C102_static R W tok files weight ex hex size minLen maxLen n o padIdx hsize hmany hb hn hall hpad hid
    refine epoch_loss h1 (fun r hr b hb => ((h2 r hr).1 b hb).1) ?_ hid vocab pad m hlm hp hmin hv hm
    refine List.Perm.trans (List.Perm.of_eq ?_) h3
    unfold List.flatMap
    congr 1
    apply List.map_congr_left
    intro r hr
    rw [(h2 r (List.mem_range.1 hr)).2.2.2 hdrop, List.append_nil]
  · obtain ⟨buckets, h1, h2, h3⟩ := C102_length_partial R W tok files weight ex hex size minLen maxLen n o padIdx hsize hmany hb hn hs hdrop
      hall hpad hid
    exact epoch_loss h1 (fun r hr b hb => (h2 r hr b hb).1) h3 hid vocab pad m hlm hp hmin hv hm

private theorem blows_reader {R : Rng} {W : Files} {tok : Tok} {files : List Data} {weight : Rat} {rank size minLen maxLen : Nat} {o : Options}
    {P : Pipe} {e : Err} (h1 : Blows (Pipe.denote R (.map (encodeExample tok) (.sample [(⟨files, weight⟩ : Origin)].length (fun _ => 0)
      (fun i => pathPipe W ([(⟨files, weight⟩ : Origin)].get i).files rank size o.exampleShuffleWindow (o.seed + i)) [weight]
        (o.seed + 1 + rank) true))) e) (hb : o.batching ≠ .static 0) (hmax : o.maxNumBatches ≠ some 0)
    (hP : createReader W tok [⟨files, weight⟩] rank size minLen maxLen o = .ok P) : Blows (P.denote R) e := by
  have h2 : ∀ Q, batchPipe minLen maxLen o (.map (encodeExample tok) (.sample [(⟨files, weight⟩ : Origin)].length (fun _ => 0)
      (fun i => pathPipe W ([(⟨files, weight⟩ : Origin)].get i).files rank size o.exampleShuffleWindow (o.seed + i)) [weight]
        (o.seed + 1 + rank) true)) = .ok Q → Blows (Q.denote R) e := by
    intro Q hQ
    unfold batchPipe at hQ
    split at hQ
    · split at hQ
      · cases hQ
      · cases hQ
        exact h1.bbl _
    · rename_i n hn
      cases hQ
      exact (h1.filter _).bucket _ _ (Nat.pos_of_ne_zero fun h => hb (by rw [hn, h]))
  unfold createReader at hP
  simp only at hP
  split at hP
  · cases hP
  · rename_i Q hQ
    have h3 := h2 Q hQ
    split at hP
    · cases hP
    · have h4 : Blows (Pipe.denote R (if o.batchShuffleWindow ≠ 1 then .shuffle o.batchShuffleWindow (o.seed + 1 + rank) Q else Q))
          e := by
        split
        · exact h3.shuffle R _ _
        · exact h3
      cases hP
      split
      · exact h4.map _
      · rename_i n hn
        exact (h4.map _).take n (Nat.pos_of_ne_zero fun h => hmax (by rw [hn, h]))

/-- **C102.** `max_num_batches` stops the epoch after its first batches and changes nothing else. -/
theorem C102_first (R : Rng) (W : Files) (tok : Tok) (sources : List Origin) (rank size minLen maxLen n : Nat) (o : Options) (ds : List Data)
    (h : rankReads R W tok sources rank size minLen maxLen { o with maxNumBatches := none } ds) :
    rankReads R W tok sources rank size minLen maxLen { o with maxNumBatches := some n } (ds.take n) := by
  obtain ⟨P, h1, h2⟩ := h
  refine ⟨.take n P, ?_, pipeline_yields_init (take_yields (yields_of_pipeline h2))⟩
  unfold createReader batchPipe at h1 ⊢
  simp only at h1 ⊢
  split at h1
  · cases h1
  · rename_i B hB
    split at h1
    · cases h1
    · cases h1
      rfl

/-- **C102.** No reader is made without a padding index or with limits that `create_bucket_sizes` refuses; otherwise there is one. -/
theorem C102_refused (W : Files) (tok : Tok) (sources : List Origin) (rank size minLen maxLen : Nat) (o : Options) :
    (∃ P, createReader W tok sources rank size minLen maxLen o = .ok P) ↔
      (∃ pad, tok.padIdx = some pad) ∧ ∀ n, o.batching = .length n → GoodLimits n maxLen minLen 1 := by
  unfold createReader batchPipe
  cases hb : o.batching with
  | static n => cases hp : tok.padIdx <;> simp
  | length n =>
    by_cases hg : GoodLimits n maxLen minLen 1
    · obtain ⟨zs, hz⟩ := (C101_accepts n maxLen minLen 1).1 hg
      cases hp : tok.padIdx <;> simp [hz, hg]
    · have hz := (C101_accepts n maxLen minLen 1).2 hg
      simp [hz, hg]

/-- **C102.** An example without a text, or with a text that is no string, is an exception and not skipped. -/
theorem C102_no_text (R : Rng) (W : Files) (tok : Tok) (file line d : Data) (weight : Rat) (hf : W.lines file = [line])
    (hd : W.loads line = .ok d) (hno : ∀ fields, d = .dict fields →
      (∀ s, fields.lookup "src" ≠ some (.str s)) ∨ ∀ t, fields.lookup "tgt" ≠ some (.str t))
    (minLen maxLen : Nat) (o : Options) (P : Pipe) (hb : o.batching ≠ .static 0) (hmax : o.maxNumBatches ≠ some 0)
    (hP : createReader W tok [⟨[file], weight⟩] 0 1 minLen maxLen o = .ok P) :
    ∃ s, (P.denote R).next (P.denote R).init = some (.err textErr, s) := by
  have hpar : Parses W [file] := by
    intro f h1 l h2
    rw [List.mem_singleton] at h1
    subst h1
    rw [hf, List.mem_singleton] at h2
    subst h2
    rw [hd, dataOf, hd]
  have hcon : contents W [file] = [d] := by simp [contents, hf, dataOf, hd]
  obtain ⟨order, h1, h2⟩ := single_source R hpar o.exampleShuffleWindow o.seed
  have h2 := h2 weight 0 1 (o.seed + 1 + 0) (by omega) (by rw [hcon]; simp)
  rw [hcon] at h1
  rw [List.perm_singleton.1 h1] at h2
  have h3 : shardOf 0 1 [d] = [d] := by rfl
  rw [h3] at h2
  obtain ⟨t, h4, -⟩ := h2.cons_inv
  have henc : encodeExample tok d = .error textErr := by
    unfold encodeExample
    split
    · rename_i fields
      split
      · rename_i s t hs ht
        rcases hno fields rfl with h | h
        · exact absurd hs (h s)
        · exact absurd ht (h t)
      · rfl
    · rfl
  have h5 : Blows (Pipe.denote R (.map (encodeExample tok) (.sample [(⟨[file], weight⟩ : Origin)].length (fun _ => 0)
      (fun i => pathPipe W ([(⟨[file], weight⟩ : Origin)].get i).files 0 1 o.exampleShuffleWindow (o.seed + i)) [weight]
        (o.seed + 1 + 0) true))) textErr := ⟨t, by
    simp only [Pipe.denote, Fs2.map, mapNext] at h4 ⊢
    rw [h4]
    simp only [henc]⟩
  exact blows_reader h5 hb hmax hP

/-- **C102, violation.** With fewer examples than ranks the ranks that have none do not read an empty epoch: their first call raises
“The data pipeline is empty and cannot be sampled.”, although `shard` is told to allow uneven shards. -/
theorem C102_too_few (R : Rng) (W : Files) (tok : Tok) (files : List Data) (weight : Rat) (ex : Data → Example)
    (hex : ∀ f ∈ files, ∀ l ∈ W.lines f, LineHolds W tok l (ex l)) (rank size minLen maxLen : Nat) (o : Options) (P : Pipe)
    (hr : rank < size) (hfew : (files.flatMap W.lines).length ≤ rank) (hb : o.batching ≠ .static 0) (hmax : o.maxNumBatches ≠ some 0)
    (hP : createReader W tok [⟨files, weight⟩] rank size minLen maxLen o = .ok P) :
    ∃ s, (P.denote R).next (P.denote R).init = some (.err sampleEmptyErr, s) := by
  obtain ⟨hc, -⟩ := contents_eq hex
  have hlen : (contents W files).length = (files.flatMap W.lines).length := by
    have := congrArg List.length hc
    simpa using this
  have h0 := path_empty R (parses hex) weight rank size o.exampleShuffleWindow o.seed (o.seed + 1 + rank) hr (by omega)
  exact blows_reader (h0.map (encodeExample tok)) hb hmax hP

/-- **C102, violation.** An example below `min_seq_len` is left out with batches of a fixed number of examples (`C102_static`), but with
batches of a limited number of elements the reader raises an exception. -/
theorem C102_short (R : Rng) (W : Files) (tok : Tok) (file line : Data) (weight : Rat) (e : Example) (hf : W.lines file = [line])
    (he : LineHolds W tok line e) (minLen maxLen num : Nat) (o : Options) (hb : o.batching = .length num)
    (hnum : GoodLimits num maxLen minLen 1) (hshort : numTokens e < minLen) (hmax : o.maxNumBatches = none) (pad : Int)
    (hpad : tok.padIdx = some pad) :
    ∃ P s, createReader W tok [⟨[file], weight⟩] 0 1 minLen maxLen o = .ok P ∧
      (P.denote R).next (P.denote R).init = some (.err bblShortErr, s) := by
  obtain ⟨sizes, hs⟩ := (C101_accepts num maxLen minLen 1).1 hnum
  obtain ⟨L, hL, hy⟩ := before_batching (R := R) (W := W) (tok := tok) (files := [file]) (ex := fun _ => e)
    (by
      intro f h1 l h2
      rw [List.mem_singleton] at h1
      subst h1
      rw [hf, List.mem_singleton] at h2
      subst h2
      exact he) weight 1 o.exampleShuffleWindow o.seed (by omega) (by simp [hf])
  have hy := hy 0 (by omega) (o.seed + [(⟨[file], weight⟩ : Origin)].length + 0)
  have hL0 : L 0 = [e] := by
    simp only [List.range_one, List.flatMap_cons, List.flatMap_nil, List.append_nil, hf, List.map_cons, List.map_nil] at hL
    exact List.perm_singleton.1 hL
  rw [hL0] at hy
  obtain ⟨t, h1, -⟩ := hy.cons_inv
  obtain ⟨B, hB⟩ : ∃ B : Pipe, B = .bucketByLength ⟨sizes, seqLen, minLen, false, true, o.dropRemainder⟩
      (.map (encodeExample tok) (.sample [(⟨[file], weight⟩ : Origin)].length (fun _ => 0)
      (fun i => pathPipe W ([(⟨[file], weight⟩ : Origin)].get i).files 0 1 o.exampleShuffleWindow (o.seed + i)) [weight]
        (o.seed + [(⟨[file], weight⟩ : Origin)].length + 0) true)) := ⟨_, rfl⟩
  have h3 : Blows (B.denote R) bblShortErr := by
    rw [hB]
    exact blows_short _ h1 (seqLen_cat e) (by simpa [numTokens] using hshort) rfl
  have h4 : Blows (Pipe.denote R (if o.batchShuffleWindow ≠ 1 then
      .shuffle o.batchShuffleWindow (o.seed + [(⟨[file], weight⟩ : Origin)].length + 0) B else B)) bblShortErr := by
    split
    · exact h3.shuffle R _ _
    · exact h3
  obtain ⟨s, h5⟩ := h4.map (collater pad).call
  refine ⟨.map (collater pad).call (if o.batchShuffleWindow ≠ 1 then
      .shuffle o.batchShuffleWindow (o.seed + [(⟨[file], weight⟩ : Origin)].length + 0) B else B), s, ?_, h5⟩
  simp only [createReader, batchPipe, hb, hs, hpad, hmax, hB]
  rfl

/-- Two files with three lines. The second line has a short response. -/
def threeLines : Files where
  lines
    | .str "a" => [.int 0, .int 1]
    | .str "b" => [.int 2]
    | _ => []
  loads
    | .int n => .ok (.dict [("id", .int n), ("src", .str "hello"), ("tgt", .str (if n = 1 then "hi" else "hi there"))])
    | _ => .error ⟨false, "no JSON"⟩

def wordTok : Tok := ⟨some 0, fun _ => [1], fun t => if t = "hi" then [2] else [2, 3]⟩

def lineExample : Data → Example
  | .int n => ⟨some (.int n), [1], if n = 1 then [2] else [2, 3]⟩
  | _ => ⟨none, [], []⟩

theorem threeLines_hold : ∀ f ∈ [Data.str "a", .str "b"], ∀ l ∈ threeLines.lines f, LineHolds threeLines wordTok l (lineExample l) := by
  intro f hf l hl
  have hl : l = .int 0 ∨ l = .int 1 ∨ l = .int 2 := by
    simp only [List.mem_cons, List.not_mem_nil, or_false] at hf
    rcases hf with rfl | rfl <;> simp [threeLines] at hl <;> tauto
  rcases hl with rfl | rfl | rfl <;> exact ⟨_, _, _, rfl, by simp; rfl, by simp; rfl, by simp [lineExample, wordTok]⟩

theorem threeLines_all : ([Data.str "a", .str "b"].flatMap threeLines.lines).map lineExample =
    [⟨some (.int 0), [1], [2, 3]⟩, ⟨some (.int 1), [1], [2]⟩, ⟨some (.int 2), [1], [2, 3]⟩] := by
  simp [threeLines, lineExample]

theorem threeLines_ids : IdsMatch (([Data.str "a", .str "b"].flatMap threeLines.lines).map lineExample) := by
  rw [threeLines_all]
  exact .ints (fun e => match e.id with | some (.int n) => n | _ => 0) (by simp)

/-- Two ranks, whatever the seed and the windows: the short example is in no batch, and the two others are. -/
example (R : Rng) (w1 w2 seed : Nat) : ∃ (buckets : Nat → List (List Example)),
    (∀ r, r < 2 → ∃ ds, rankReads R threeLines wordTok [⟨[.str "a", .str "b"], 1⟩] r 2 3 8 ⟨.static 2, w1, w2, false, none, seed⟩ ds ∧
      ds.map toBatch = (buckets r).map (batchOf 0)) ∧
    ((buckets 0).flatten ++ (buckets 1).flatten).Perm [⟨some (.int 0), [1], [2, 3]⟩, ⟨some (.int 2), [1], [2, 3]⟩] := by
  obtain ⟨buckets, dropped, h1, h2, h3⟩ := C102_static R threeLines wordTok _ 1 lineExample threeLines_hold 2 3 8 2
    ⟨.static 2, w1, w2, false, none, seed⟩ 0 (by omega) (by simp [threeLines]) rfl (by omega) rfl rfl threeLines_ids
  refine ⟨buckets, h1, ?_⟩
  rw [threeLines_all] at h3
  have d0 := (h2 0 (by omega)).2.2.2 rfl
  have d1 := (h2 1 (by omega)).2.2.2 rfl
  simpa [List.range, List.range.loop, d0, d1, numTokens] using h3

/-- The same with batches of at most 6 tokens, and what is learnt from them. -/
example (R : Rng) (w1 w2 seed : Nat) : ∃ results : Nat → List (ℝ × Nat),
    (∀ r, r < 2 → ∃ ds, rankReads R threeLines wordTok [⟨[.str "a", .str "b"], 1⟩] r 2 2 3 ⟨.length 6, w1, w2, false, none, seed⟩ ds ∧
      ds.mapM (fun d => (toBatch d).bind (processBatch 8 (some 0) (averaging (.causal none) .full none))) = some (results r)) ∧
    (((List.range 2).flatMap results).map (·.2)).sum = 5 := by
  obtain ⟨results, h1, -, h2⟩ := C102_loss_partial R threeLines wordTok _ 1 lineExample threeLines_hold 2 2 3 6
    ⟨.length 6, w1, w2, false, none, seed⟩ 0 (by omega) (by simp [threeLines]) rfl
    (.inr ⟨rfl, by constructor <;> decide, by rw [threeLines_all]; simp [numTokens]⟩) rfl rfl threeLines_ids 8 (some 0)
    (averaging (.causal none) .full none) (by simp [averaging]) (by decide) (by omega)
    (by rw [threeLines_all]; simp [TokensIn]) (fun k _ _ => averaging_pad none (by simp) _)
  refine ⟨results, h1, h2.trans ?_⟩
  rw [threeLines_all]
  simp [numTokens, learnt]
  decide

/-- The fourth of four ranks has nothing to read. -/
example (R : Rng) (w1 w2 seed : Nat) : ∃ P s, createReader threeLines wordTok [⟨[.str "a", .str "b"], 1⟩] 3 4 3 8
    ⟨.static 2, w1, w2, false, none, seed⟩ = .ok P ∧ (P.denote R).next (P.denote R).init = some (.err sampleEmptyErr, s) := by
  obtain ⟨s, h⟩ := C102_too_few R threeLines wordTok _ 1 lineExample threeLines_hold 3 4 3 8 ⟨.static 2, w1, w2, false, none, seed⟩ _
    (by omega) (by simp [threeLines]) (by simp) (by simp) rfl
  exact ⟨_, s, rfl, h⟩

example (R : Rng) (w1 w2 seed : Nat) : ∃ P s, createReader threeLines wordTok [⟨[.str "b"], 1⟩] 0 1 4 8
    ⟨.length 8, w1, w2, false, none, seed⟩ = .ok P ∧ (P.denote R).next (P.denote R).init = some (.err bblShortErr, s) :=
  C102_short R threeLines wordTok (.str "b") (.int 2) 1 (lineExample (.int 2)) rfl
    (threeLines_hold (.str "b") (by simp) (.int 2) (by simp [threeLines])) 4 8 8 _ rfl (by constructor <;> decide) (by simp [lineExample, numTokens]) rfl 0 rfl

/-- With two ranks and at most one batch, rank 0 reads the first of its batches. -/
example (R : Rng) (w1 w2 seed : Nat) : ∃ ds : List Data, rankReads R threeLines wordTok [⟨[.str "a", .str "b"], 1⟩] 0 2 3 8
    ⟨.static 2, w1, w2, false, some 1, seed⟩ (ds.take 1) := by
  obtain ⟨buckets, dropped, h1, -⟩ := C102_static R threeLines wordTok _ 1 lineExample threeLines_hold 2 3 8 2
    ⟨.static 2, w1, w2, false, none, seed⟩ 0 (by omega) (by simp [threeLines]) rfl (by omega) rfl rfl threeLines_ids
  obtain ⟨ds, h, -⟩ := h1 0 (by omega)
  exact ⟨ds, C102_first R _ _ _ 0 2 3 8 1 ⟨.static 2, w1, w2, false, none, seed⟩ ds h⟩

/-- A line without a response. -/
example (R : Rng) (w1 w2 seed : Nat) : ∃ P s,
    createReader ⟨fun _ => [.int 0], fun _ => .ok (.dict [("src", .str "hello")])⟩ wordTok [⟨[.str "a"], 1⟩] 0 1 3 8
      ⟨.static 2, w1, w2, false, none, seed⟩ = .ok P ∧ (P.denote R).next (P.denote R).init = some (.err textErr, s) := by
  obtain ⟨s, h⟩ := C102_no_text R ⟨fun _ => [.int 0], fun _ => .ok (.dict [("src", .str "hello")])⟩ wordTok (.str "a") (.int 0) _ 1 rfl rfl
    (by rintro fields h; cases h; exact .inr (by simp [List.lookup])) 3 8 ⟨.static 2, w1, w2, false, none, seed⟩ _ (by simp) (by simp) rfl
  exact ⟨_, s, rfl, h⟩

end Fs2.Props
