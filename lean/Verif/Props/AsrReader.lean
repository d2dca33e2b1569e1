import Verif.Datasets.AsrEpochsLemmas
import Verif.Props.Buffering
import Verif.Props.BucketSizes

/-!
# One epoch of speech recognition: C113

`createReader W tok rank size minLen maxLen o` is the pipeline that `Wav2Vec2AsrDataset.create_reader` builds on a rank; a
`DataPipelineReader` reads `pipeline false 0` of it and turns what it gives into batches with `toBatch`. `W` says what is in the files, and `R`
is any random number generator.
-/

namespace Fs2.Props
open Fs2.AsrData Source

/-- The manifest has, after its first line, one line for each clip, the other file has their transcripts in the same order, and the recordings
can be read. -/
def Lists (W : Files) (clips : List Clip) : Prop :=
  (∃ header lines, W.manifest = header :: lines ∧
    lines.map W.parse = clips.map fun c => .ok (.dict [("audio", .str c.path), ("audio_size", .int c.size)])) ∧
  W.transcripts = clips.map (fun c => .str c.text) ∧ ∀ c ∈ clips, W.audio c.path = .ok c.audio

/-- Rows of one width, the longest of them full and the others filled up. -/
def FilledUp (fill : Int) (seqs : List (List Int)) (s : Batch.Seqs Int) : Prop :=
  ∃ width, s = .padded width (seqs.map fun t => t ++ List.replicate (width - t.length) fill) ∧ (∀ t ∈ seqs, t.length ≤ width) ∧
    ∃ t ∈ seqs, t.length = width

/-- The batch has the waveforms of the clips as sources and, in the same rows, their tokenized transcripts as targets. -/
def Carries (tok : Tok) (pad : Int) (b : Batch.S2SBatch Int) (cs : List Clip) : Prop :=
  FilledUp 0 (cs.map fun c => c.audio.wave) b.source ∧ b.sourceLens = cs.map (fun c => c.audio.wave.length) ∧
  FilledUp pad (cs.map fun c => tok.encode c.text) b.target ∧ b.targetLens = cs.map fun c => (tok.encode c.text).length

/-- The reader of a rank. -/
def rankHears (R : Rng) (W : Files) (tok : Tok) (rank size minLen maxLen : Nat) (o : Options) (ds : List Data) : Prop :=
  ∃ P, createReader W tok rank size minLen maxLen o = .ok P ∧
    (pipeline false 0 (P.denote R)).Yields (pipeline false 0 (P.denote R)).init ds

private theorem rounded_eq (num maxLen : Nat) : roundedNum num maxLen = num / maxLen * maxLen := by
  unfold roundedNum
  split
  · rfl
  · rename_i h
    exact (Nat.div_mul_cancel (Nat.dvd_of_mod_eq_zero (by simpa using h))).symm

private theorem good_iff (num maxLen minLen multiple : Nat) : GoodLimits (roundedNum num maxLen) maxLen minLen multiple ↔
    1 ≤ minLen ∧ minLen ≤ maxLen ∧ maxLen ≤ num ∧ 1 ≤ multiple := by
  rw [rounded_eq]
  constructor
  · intro G
    have := Nat.div_mul_le_self num maxLen
    have := G.room
    exact ⟨G.min, G.max, by omega, G.multiple⟩
  · rintro ⟨h1, h2, h3, h4⟩
    refine ⟨h1, h2, ?_, Nat.dvd_mul_left _ _, h4⟩
    exact Nat.le_mul_of_pos_left _ (Nat.div_pos h3 (by omega))

/-- **C113.** Which limits are accepted: exactly those with a smallest length of at least one sample, not above the largest, room for at least
one recording of the largest length, and a multiple of at least one, for a tokenizer with a padding index. -/
theorem C113_accepts (W : Files) (tok : Tok) (rank size minLen maxLen : Nat) (o : Options) :
    (∃ P, createReader W tok rank size minLen maxLen o = .ok P) ↔
      1 ≤ minLen ∧ minLen ≤ maxLen ∧ maxLen ≤ o.maxNumElements ∧ 1 ≤ o.numSeqsMultipleOf ∧ tok.padIdx ≠ none := by
  unfold createReader
  by_cases h0 : maxLen = 0
  · simp only [if_pos h0]
    constructor
    · rintro ⟨P, h⟩
      cases h
    · omega
  simp only [if_neg h0]
  have G := good_iff o.maxNumElements maxLen minLen o.numSeqsMultipleOf
  by_cases h : GoodLimits (roundedNum o.maxNumElements maxLen) maxLen minLen o.numSeqsMultipleOf
  · obtain ⟨sizes, hs⟩ := (C101_accepts _ _ _ _).1 h
    obtain ⟨h1, h2, h3, h4⟩ := G.1 h
    rw [hs]
    cases hp : tok.padIdx with
    | none => simp
    | some pad => simp [h1, h2, h3, h4]
  · rw [(C101_accepts _ _ _ _).2 h]
    constructor
    · rintro ⟨P, h⟩
      cases h
    · rintro ⟨h1, h2, h3, h4, -⟩
      exact absurd (G.2 ⟨h1, h2, h3, h4⟩) h

private theorem bucket_yields {S : Source} {L : List Clip} {num lo hi multiple : Nat} {sizes : List (Nat × Nat)} (drop : Bool)
    (hs : Sizes.create num hi lo multiple = .ok sizes) (hlo : 1 ≤ lo) (hL : ∀ c ∈ L, lo ≤ c.size ∧ c.size ≤ hi)
    (h : S.Yields S.init (L.map raw)) :
    ∃ (cs : List (List Clip)) (dropped : List Clip),
      (bucketByLength ⟨sizes, audioSize, lo, true, true, drop⟩ S).Yields
        (bucketByLength ⟨sizes, audioSize, lo, true, true, drop⟩ S).init (cs.map fun b => .list (b.map raw)) ∧
      (cs.flatten ++ dropped).Perm L ∧ (drop = false → dropped = []) ∧ (dropped = [] ∨ dropped.length * lo < num) ∧
      ∀ b ∈ cs, b ≠ [] ∧ ∃ w, w ≤ hi ∧ (∀ c ∈ b, c.size ≤ w) ∧ b.length * w ≤ num := by
  obtain ⟨up, range, z, hl, hz⟩ := C101_lengths hs
  have hv : BblCfg.Valid ⟨sizes, audioSize, lo, true, true, drop⟩ := by
    refine ⟨?_, up.imp Nat.le_of_lt⟩
    rintro rfl
    simp at hl
  have hlong : longest ⟨sizes, audioSize, lo, true, true, drop⟩ = hi := by
    rw [longest_spec _ hv]
    simp [BblCfg.maxLen, hl, hz]
  obtain ⟨rs, outs, dropped, h1, h0, h2, h3, h4, h5, h6⟩ := C08_bucket_by_length S ⟨sizes, audioSize, lo, true, true, drop⟩ _ hv
    (fun z hz => (C101_bounded hs hz).1) h
  rw [hlong] at h4 h6
  have hraise : raised rs = [] := by
    rw [h6, List.filterMap_eq_nil_iff]
    intro x hx
    obtain ⟨c, -, rfl⟩ := List.mem_map.1 hx
    simp [size_raw]
  rw [raised_nil hraise h0, h2] at h1
  have hy := Trace.yields h1
  have hin : ∀ w (c : Clip), LenIn audioSize lo w (raw c) ↔ lo ≤ c.size ∧ c.size ≤ w := by
    intro w c
    unfold LenIn
    rw [size_raw]
    constructor
    · rintro ⟨k, h1, h2⟩
      cases h1
      exact h2
    · intro h
      exact ⟨_, rfl, h⟩
  have h4' : (outs.flatten ++ dropped).Perm (L.map raw) := by
    refine h4.trans (.of_eq (List.filter_eq_self.2 ?_))
    intro x hx
    obtain ⟨c, hc, rfl⟩ := List.mem_map.1 hx
    simp only [decide_eq_true_eq]
    exact (hin hi c).2 (hL c hc)
  obtain ⟨K, hK, hflat⟩ := perm_map_exists h4'.symm _ rfl
  have hsplit : outs.flatten = (K.take outs.flatten.length).map raw := by
    rw [List.map_take, ← hflat, List.take_left]
  obtain ⟨cs, rfl, hcs⟩ := flatten_map_exists outs _ hsplit
  have hlen : (K.drop (cs.map (List.map raw)).flatten.length).length = dropped.length := by
    have := congrArg List.length hflat
    rw [List.length_append, List.length_map] at this
    rw [List.length_drop]
    omega
  refine ⟨cs, K.drop (cs.map (List.map raw)).flatten.length, ?_, ?_, ?_, ?_, ?_⟩
  · rw [List.map_map] at hy
    exact hy
  · rw [hcs, List.take_append_drop]
    exact hK.symm
  · intro hd
    rcases h5 with h5 | h5
    · rw [h5] at hlen
      exact List.length_eq_zero_iff.1 hlen
    · rw [hd] at h5
      exact absurd h5.1 (by simp)
  · rcases h5 with h5 | ⟨-, z, hz, h5⟩
    · rw [h5] at hlen
      exact .inl (List.length_eq_zero_iff.1 hlen)
    · right
      rw [hlen]
      have h7 := (C101_bounded hs hz).2
      have h8 := (range z hz).1
      calc dropped.length * lo < z.1 * lo := Nat.mul_lt_mul_of_pos_right h5 hlo
        _ ≤ z.1 * z.2 := Nat.mul_le_mul_left _ h8
        _ ≤ num := h7
  · intro b hb
    obtain ⟨z, hz, h7, h8, -, h9⟩ := h3 _ (List.mem_map.2 ⟨b, hb, rfl⟩)
    refine ⟨fun e => h7 (by rw [e]; rfl), z.2, (range z hz).2, fun c hc => ?_, ?_⟩
    · exact ((hin z.2 c).1 (h9 _ (List.mem_map.2 ⟨c, hc, rfl⟩))).2
    · rw [List.length_map] at h8
      exact Nat.le_trans (Nat.mul_le_mul_right _ h8) (C101_bounded hs hz).2

private theorem perm_flatMap {α β : Type} {f g : α → List β} {l : List α} (h : ∀ a ∈ l, (f a).Perm (g a)) : (l.flatMap f).Perm (l.flatMap g) := by
  induction l with
  | nil => simp
  | cons a l ih =>
    rw [List.flatMap_cons, List.flatMap_cons]
    exact (h a List.mem_cons_self).append (ih fun b hb => h b (List.mem_cons_of_mem _ hb))

/-- One epoch as collated data. -/
private theorem collated_epoch (R : Rng) (W : Files) (tok : Tok) (clips : List Clip) (h : Lists W clips) (size minLen maxLen : Nat) (o : Options)
    (pad : Int) (hsize : 0 < size) (hmin : 1 ≤ minLen) (hmax : minLen ≤ maxLen) (hroom : maxLen ≤ o.maxNumElements)
    (hmul : 1 ≤ o.numSeqsMultipleOf) (hall : o.maxNumBatches = none) (hpad : tok.padIdx = some pad) :
    ∃ (buckets : Nat → List (List Clip)) (dropped : Nat → List Clip),
      (∀ r, r < size → rankHears R W tok r size minLen maxLen o ((buckets r).map (collated tok pad))) ∧
      (∀ r, r < size → (o.dropRemainder = false → dropped r = []) ∧ (dropped r).length * minLen < o.maxNumElements ∧
        ∀ b ∈ buckets r, b ≠ [] ∧ ∃ w, w ≤ maxLen ∧ (∀ c ∈ b, c.size ≤ w) ∧ b.length * w ≤ o.maxNumElements) ∧
      ((List.range size).flatMap fun r => (buckets r).flatten ++ dropped r).Perm
        (clips.filter fun c => minLen ≤ c.size ∧ c.size ≤ maxLen) := by
  have hr : Reads W clips := ⟨h.1, h.2.1, h.2.2⟩
  obtain ⟨sizes, hs⟩ := (C101_accepts _ _ _ _).1 ((good_iff o.maxNumElements maxLen minLen o.numSeqsMultipleOf).2 ⟨hmin, hmax, hroom, hmul⟩)
  have hle : roundedNum o.maxNumElements maxLen ≤ o.maxNumElements := by
    rw [rounded_eq]
    exact Nat.div_mul_le_self _ _
  obtain ⟨L, hL, hy⟩ := examples_yield R hr size minLen maxLen o hsize
  have hmem : ∀ r, r < size → ∀ c ∈ L r, c ∈ clips ∧ minLen ≤ c.size ∧ c.size ≤ maxLen := by
    intro r hr c hc
    have := hL.mem_iff.1 (List.mem_flatMap.2 ⟨r, List.mem_range.2 hr, hc⟩)
    simpa using List.mem_filter.1 this
  have step : ∀ r, ∃ x : List (List Clip) × List Clip, r < size →
      rankHears R W tok r size minLen maxLen o (x.1.map (collated tok pad)) ∧
      ((o.dropRemainder = false → x.2 = []) ∧ x.2.length * minLen < o.maxNumElements ∧
        ∀ b ∈ x.1, b ≠ [] ∧ ∃ w, w ≤ maxLen ∧ (∀ c ∈ b, c.size ≤ w) ∧ b.length * w ≤ o.maxNumElements) ∧
      (x.1.flatten ++ x.2).Perm (L r) := by
    intro r
    by_cases hlt : r < size
    · obtain ⟨cs, dropped, h1, h2, h3, h4, h5⟩ := bucket_yields o.dropRemainder hs hmin (fun c hc => (hmem r hlt c hc).2) (hy r hlt)
      have hin : ∀ b ∈ cs, ∀ c ∈ b, c ∈ clips := fun b hb c hc =>
        (hmem r hlt c (h2.mem_iff.1 (List.mem_append_left _ (List.mem_flatten.2 ⟨b, hb, hc⟩)))).1
      obtain ⟨buckets, h6, h7⟩ := collated_yields R (W := W)
        (p := .bucketByLength ⟨sizes, audioSize, minLen, true, true, o.dropRemainder⟩ (examplePipe W r size minLen maxLen o)) tok
        o.batchShuffleWindow (batchSeed r size o) pad (fun b hb => (h5 b hb).1) (fun b hb c hc => h.2.2 c (hin b hb c hc)) h1
      refine ⟨(buckets, dropped), fun _ => ⟨⟨_, ?_, pipeline_yields_init h7⟩, ⟨h3, ?_, ?_⟩, (h6.flatten.append_right _).trans h2⟩⟩
      · unfold createReader
        simp only [if_neg (show ¬ maxLen = 0 by omega), hs, hpad, hall]
      · rcases h4 with h4 | h4
        · simp only [h4, List.length_nil, Nat.zero_mul]
          omega
        · exact Nat.lt_of_lt_of_le h4 hle
      · intro b hb
        obtain ⟨a1, w, a2, a3, a4⟩ := h5 b (h6.mem_iff.1 hb)
        exact ⟨a1, w, a2, a3, Nat.le_trans a4 hle⟩
    · exact ⟨([], []), fun h => absurd h hlt⟩
  obtain ⟨x, H⟩ := Classical.axiomOfChoice step
  refine ⟨fun r => (x r).1, fun r => (x r).2, fun r hr => (H r hr).1, fun r hr => (H r hr).2.1, ?_⟩
  exact (perm_flatMap fun r hr => (H r (List.mem_range.1 hr)).2.2).trans hL

private theorem carries_of (tok : Tok) (pad : Int) {cs : List Clip} (hne : cs ≠ []) (hw : ∀ c ∈ cs, c.audio.wave ≠ [])
    (ht : ∀ c ∈ cs, tok.encode c.text ≠ []) : ∃ b, toBatch (collated tok pad cs) = some b ∧ Carries tok pad b cs := by
  obtain ⟨b, h1, h2, h3, h4, h5⟩ := toBatch_ok tok pad cs hne hw ht
  refine ⟨b, h1, ⟨_, h2, fun t ht => Native.le_longest ht, Native.longest_mem (by simpa using hne)⟩, ?_,
    ⟨_, h4, fun t ht => Native.le_longest ht, Native.longest_mem (by simpa using hne)⟩, ?_⟩
  · rw [h3, List.map_map]
    rfl
  · rw [h5, List.map_map]
    rfl

private theorem all_carry (tok : Tok) (pad : Int) : ∀ {bs : List (List Clip)}, (∀ b ∈ bs, b ≠ []) →
    (∀ b ∈ bs, ∀ c ∈ b, c.audio.wave ≠ [] ∧ tok.encode c.text ≠ []) →
    ∃ batches, (bs.map (collated tok pad)).map toBatch = batches.map some ∧ List.Forall₂ (Carries tok pad) batches bs
  | [], _, _ => ⟨[], rfl, .nil⟩
  | b :: bs, h, hc => by
    obtain ⟨batches, h1, h2⟩ := all_carry tok pad (fun c hc => h c (List.mem_cons_of_mem _ hc)) fun c hc' => hc c (List.mem_cons_of_mem _ hc')
    have hb := hc b List.mem_cons_self
    obtain ⟨x, h3, h4⟩ := carries_of tok pad (h b List.mem_cons_self) (fun c hc => (hb c hc).1) fun c hc => (hb c hc).2
    exact ⟨x :: batches, by simp only [List.map_cons, h1, h3], .cons h4 h2⟩

/-- **C113.** The first epoch of speech recognition. Whatever the shuffle windows and seeds, every clip of the manifest whose size is within the
limits is in exactly one batch of exactly one rank, and no other clip is; in the batch its waveform and the tokens of the transcript on its own
line are in the same row, filled up with zeros and the padding index. All sizes of a batch fit a width for which the batch has at most
`max_num_elements` elements. With `drop_remainder` a rank leaves out fewer clips than would fit into one batch of the shortest ones.

Missing for the full property: later epochs, see `C113_later_epoch`. -/
theorem C113_epoch_partial (R : Rng) (W : Files) (tok : Tok) (clips : List Clip) (h : Lists W clips) (size minLen maxLen : Nat) (o : Options)
    (pad : Int) (hsize : 0 < size) (hmin : 1 ≤ minLen) (hmax : minLen ≤ maxLen) (hroom : maxLen ≤ o.maxNumElements)
    (hmul : 1 ≤ o.numSeqsMultipleOf) (hall : o.maxNumBatches = none) (hpad : tok.padIdx = some pad)
    (hclips : ∀ c ∈ clips, minLen ≤ c.size → c.size ≤ maxLen → c.audio.wave ≠ [] ∧ tok.encode c.text ≠ []) :
    ∃ (buckets : Nat → List (List Clip)) (dropped : Nat → List Clip),
      (∀ r, r < size → ∃ ds batches, rankHears R W tok r size minLen maxLen o ds ∧ ds.map toBatch = batches.map some ∧
        List.Forall₂ (Carries tok pad) batches (buckets r)) ∧
      (∀ r, r < size → (o.dropRemainder = false → dropped r = []) ∧ (dropped r).length * minLen < o.maxNumElements ∧
        ∀ b ∈ buckets r, b ≠ [] ∧ ∃ w, w ≤ maxLen ∧ (∀ c ∈ b, c.size ≤ w) ∧ b.length * w ≤ o.maxNumElements) ∧
      ((List.range size).flatMap fun r => (buckets r).flatten ++ dropped r).Perm
        (clips.filter fun c => minLen ≤ c.size ∧ c.size ≤ maxLen) := by
  obtain ⟨buckets, dropped, h1, h2, h3⟩ := collated_epoch R W tok clips h size minLen maxLen o pad hsize hmin hmax hroom hmul hall hpad
  refine ⟨buckets, dropped, fun r hr => ?_, h2, h3⟩
  obtain ⟨batches, h4, h5⟩ := all_carry tok pad (fun b hb => ((h2 r hr).2.2 b hb).1) (by
    intro b hb c hc
    have := h3.mem_iff.1 (List.mem_flatMap.2 ⟨r, List.mem_range.2 hr, List.mem_append_left _ (List.mem_flatten.2 ⟨b, hb, hc⟩)⟩)
    have := List.mem_filter.1 this
    have h6 : minLen ≤ c.size ∧ c.size ≤ maxLen := by simpa using this.2
    exact hclips c this.1 h6.1 h6.2)
  exact ⟨_, batches, h1 r hr, h4, h5⟩

/-- **C113.** The limit is one on the sizes in the manifest. If those are the numbers of samples, no batch of waveforms has more than
`max_num_elements` samples, padding included. -/
theorem C113_budget {tok : Tok} {pad : Int} {b : Batch.S2SBatch Int} {cs : List Clip} {num w : Nat} (h : Carries tok pad b cs)
    (hsize : ∀ c ∈ cs, c.size = c.audio.wave.length) (hw : ∀ c ∈ cs, c.size ≤ w) (hnum : cs.length * w ≤ num) :
    ∃ width rows, b.source = .padded width rows ∧ (∀ row ∈ rows, row.length = width) ∧ rows.length * width ≤ num := by
  obtain ⟨⟨width, h1, h2, t, ht, h3⟩, -⟩ := h
  refine ⟨width, _, h1, ?_, ?_⟩
  · intro row hrow
    obtain ⟨t, ht, rfl⟩ := List.mem_map.1 hrow
    have := h2 t ht
    simp
    omega
  · obtain ⟨c, hc, rfl⟩ := List.mem_map.1 ht
    have := hw c hc
    rw [hsize c hc, h3] at this
    simp only [List.length_map]
    exact Nat.le_trans (Nat.mul_le_mul_left _ this) hnum

/-- **C113.** One transcript without tokens among the clips is enough: some rank gets a batch for which `Seq2SeqBatch` raises `ValueError`. -/
theorem C113_empty_transcript (R : Rng) (W : Files) (tok : Tok) (clips : List Clip) (h : Lists W clips) (size minLen maxLen : Nat) (o : Options)
    (pad : Int) (hsize : 0 < size) (hmin : 1 ≤ minLen) (hmax : minLen ≤ maxLen) (hroom : maxLen ≤ o.maxNumElements)
    (hmul : 1 ≤ o.numSeqsMultipleOf) (hall : o.maxNumBatches = none) (hpad : tok.padIdx = some pad) (hdrop : o.dropRemainder = false)
    {c : Clip} (hc : c ∈ clips) (hlen : minLen ≤ c.size ∧ c.size ≤ maxLen) (he : tok.encode c.text = []) :
    ∃ r ds, r < size ∧ rankHears R W tok r size minLen maxLen o ds ∧ none ∈ ds.map toBatch := by
  obtain ⟨buckets, dropped, h1, h2, h3⟩ := collated_epoch R W tok clips h size minLen maxLen o pad hsize hmin hmax hroom hmul hall hpad
  have hin : c ∈ (List.range size).flatMap fun r => (buckets r).flatten ++ dropped r :=
    h3.mem_iff.2 (List.mem_filter.2 ⟨hc, by simpa using hlen⟩)
  obtain ⟨r, hr, hin⟩ := List.mem_flatMap.1 hin
  have hr := List.mem_range.1 hr
  rw [(h2 r hr).1 hdrop, List.append_nil] at hin
  obtain ⟨b, hb, hcb⟩ := List.mem_flatten.1 hin
  refine ⟨r, _, hr, h1 r hr, List.mem_map.2 ⟨_, List.mem_map.2 ⟨b, hb, rfl⟩, ?_⟩⟩
  exact toBatch_empty tok pad b ((h2 r hr).2.2 b hb).1 ⟨c, hcb, he⟩

/-! ### All epochs -/

/-- The same source with another first state. -/
private def from_ (S : Source) (s : S.σ) : Source := { S with init := s }

private theorem bucket_cyclic {S : Source} {L : Nat → List Clip} {C : Nat → S.σ → Prop} {num lo hi multiple : Nat} {sizes : List (Nat × Nat)}
    (drop : Bool) (hs : Sizes.create num hi lo multiple = .ok sizes) (hlo : 1 ≤ lo) (hL : ∀ k, ∀ c ∈ L k, lo ≤ c.size ∧ c.size ≤ hi)
    (h : S.Cyclic C fun k ys => ys = (L k).map raw) :
    (bucketByLength ⟨sizes, audioSize, lo, true, true, drop⟩ S).Cyclic
      (fun k (s : BblSt S.σ) => s.bs = sizes.map (fun _ => []) ∧ C k s.inner)
      fun k ys => ∃ cs : List (List Clip), (∃ dropped : List Clip, (cs.flatten ++ dropped).Perm (L k) ∧ (drop = false → dropped = []) ∧
        (dropped = [] ∨ dropped.length * lo < num) ∧ ∀ b ∈ cs, b ≠ [] ∧ ∃ w, w ≤ hi ∧ (∀ c ∈ b, c.size ≤ w) ∧ b.length * w ≤ num) ∧
        ys = cs.map fun b => .list (b.map raw) := by
  intro k (s : BblSt S.σ) hk
  obtain ⟨bs, i⟩ := s
  obtain ⟨hb, hi⟩ := hk
  simp only at hb hi
  subst hb
  obtain ⟨ys, rfl, hy, hc⟩ := h k i hi
  have hy' : (from_ S i).Yields (from_ S i).init ((L k).map raw) := yields_transfer (T₁ := S) (T₂ := from_ S i) (fun s => s) (fun hn => hn) hy
  obtain ⟨cs, dropped, h1, h2, h3, h4, h5⟩ := bucket_yields (S := from_ S i) drop hs hlo (hL k) hy'
  refine ⟨_, ⟨cs, ⟨dropped, h2, h3, h4, h5⟩, rfl⟩,
    yields_transfer (T₁ := bucketByLength ⟨sizes, audioSize, lo, true, true, drop⟩ (from_ S i))
      (T₂ := bucketByLength ⟨sizes, audioSize, lo, true, true, drop⟩ S) (fun s => s) (fun hn => hn) h1, ?_⟩
  intro t ht
  obtain ⟨up, -, z, hl, -⟩ := C101_lengths hs
  have hv : BblCfg.Valid ⟨sizes, audioSize, lo, true, true, drop⟩ := by
    refine ⟨?_, up.imp Nat.le_of_lt⟩
    rintro rfl
    simp at hl
  have hbs : BblInv ⟨sizes, audioSize, lo, true, true, drop⟩ (fun _ : S.σ => True) t := ht.inv (bbl_inv (always S) hv) ⟨all2_empty _, trivial⟩
  obtain ⟨b, h6, h7⟩ := Source.Steps.lower (S := S) (T := bucketByLength ⟨sizes, audioSize, lo, true, true, drop⟩ S)
    (fun s : BblSt S.σ => s.inner) (fun hn hr => bblNext_steps hn hr) ht
  obtain rfl := h7 rfl
  exact ⟨hbs.1.map_nil, hc _ h6⟩

/-- **C113.** All epochs of speech recognition, if every rank reads each epoch to its end before `reset`: in epoch after epoch, however the clips are
shuffled, every clip of the manifest whose size is within the limits is in exactly one batch of exactly one rank, and no other clip is; the batches are as
`C113_epoch_partial` says.

Missing for the full property: epochs that a rank does not read to their end, see `C113_later_epoch`. -/
theorem C113_epochs_partial (R : Rng) (W : Files) (tok : Tok) (clips : List Clip) (h : Lists W clips) (size minLen maxLen : Nat) (o : Options)
    (pad : Int) (hsize : 0 < size) (hmin : 1 ≤ minLen) (hmax : minLen ≤ maxLen) (hroom : maxLen ≤ o.maxNumElements)
    (hmul : 1 ≤ o.numSeqsMultipleOf) (hall : o.maxNumBatches = none) (hpad : tok.padIdx = some pad)
    (hclips : ∀ c ∈ clips, minLen ≤ c.size → c.size ≤ maxLen → c.audio.wave ≠ [] ∧ tok.encode c.text ≠ []) :
    ∃ (buckets : Nat → Nat → List (List Clip)) (dropped : Nat → Nat → List Clip),
      (∀ r, r < size → ∃ P ds, createReader W tok r size minLen maxLen o = .ok P ∧
        (pipeline false 0 (P.denote R)).Passes (pipeline false 0 (P.denote R)).init ds ∧
        ∀ k, ∃ batches, (ds k).map toBatch = batches.map some ∧ List.Forall₂ (Carries tok pad) batches (buckets k r)) ∧
      (∀ k r, r < size → (o.dropRemainder = false → dropped k r = []) ∧ (dropped k r).length * minLen < o.maxNumElements ∧
        ∀ b ∈ buckets k r, b ≠ [] ∧ ∃ w, w ≤ maxLen ∧ (∀ c ∈ b, c.size ≤ w) ∧ b.length * w ≤ o.maxNumElements) ∧
      ∀ k, ((List.range size).flatMap fun r => (buckets k r).flatten ++ dropped k r).Perm
        (clips.filter fun c => minLen ≤ c.size ∧ c.size ≤ maxLen) := by
  have hr : Reads W clips := ⟨h.1, h.2.1, h.2.2⟩
  obtain ⟨sizes, hs⟩ := (C101_accepts _ _ _ _).1 ((good_iff o.maxNumElements maxLen minLen o.numSeqsMultipleOf).2 ⟨hmin, hmax, hroom, hmul⟩)
  have hle : roundedNum o.maxNumElements maxLen ≤ o.maxNumElements := by
    rw [rounded_eq]
    exact Nat.div_mul_le_self _ _
  obtain ⟨L, hL, hy⟩ := examples_cyclic R hr size minLen maxLen o hsize
  have hmem : ∀ r, r < size → ∀ k, ∀ c ∈ L k r, c ∈ clips ∧ minLen ≤ c.size ∧ c.size ≤ maxLen := by
    intro r hr k c hc
    have := (hL k).mem_iff.1 (List.mem_flatMap.2 ⟨r, List.mem_range.2 hr, hc⟩)
    simpa using List.mem_filter.1 this
  have step : ∀ r, ∃ x : Nat → List (List Clip) × List Clip, r < size →
      (∃ P ds, createReader W tok r size minLen maxLen o = .ok P ∧
        (pipeline false 0 (P.denote R)).Passes (pipeline false 0 (P.denote R)).init ds ∧ ∀ k, ds k = (x k).1.map (collated tok pad)) ∧
      ∀ k, ((o.dropRemainder = false → (x k).2 = []) ∧ (x k).2.length * minLen < o.maxNumElements ∧
        ∀ b ∈ (x k).1, b ≠ [] ∧ ∃ w, w ≤ maxLen ∧ (∀ c ∈ b, c.size ≤ w) ∧ b.length * w ≤ o.maxNumElements) ∧
        ((x k).1.flatten ++ (x k).2).Perm (L k r) := by
    intro r
    by_cases hlt : r < size
    · obtain ⟨C, h0, hc⟩ := hy r hlt
      have h1 := bucket_cyclic o.dropRemainder hs hmin (fun k c hc => (hmem r hlt k c hc).2) hc
      obtain ⟨C', h2, h3⟩ := collated_cyclic R (W := W)
        (p := .bucketByLength ⟨sizes, audioSize, minLen, true, true, o.dropRemainder⟩ (examplePipe W r size minLen maxLen o)) tok
        o.batchShuffleWindow (batchSeed r size o) pad
        (fun k cs ⟨_, _, _, _, h5⟩ b hb => (h5 b hb).1)
        (fun k cs ⟨_, h5, _⟩ b hb c hc => h.2.2 c
          (hmem r hlt k c (h5.mem_iff.1 (List.mem_append_left _ (List.mem_flatten.2 ⟨b, hb, hc⟩)))).1) h1 ⟨rfl, h0⟩
      obtain ⟨ds, h4, h5⟩ := h3.passes h2
      have h6 : ∀ k, ∃ x : List (List Clip) × List Clip, ds k = x.1.map (collated tok pad) ∧
          ((o.dropRemainder = false → x.2 = []) ∧ x.2.length * minLen < o.maxNumElements ∧
          ∀ b ∈ x.1, b ≠ [] ∧ ∃ w, w ≤ maxLen ∧ (∀ c ∈ b, c.size ≤ w) ∧ b.length * w ≤ o.maxNumElements) ∧ (x.1.flatten ++ x.2).Perm (L k r) := by
        intro k
        obtain ⟨cs, buckets, ⟨dropped, a1, a2, a3, a4⟩, a5, a6⟩ := h4 k
        refine ⟨(buckets, dropped), a6, ⟨a2, ?_, ?_⟩, (a5.flatten.append_right _).trans a1⟩
        · rcases a3 with a3 | a3
          · simp only [a3, List.length_nil, Nat.zero_mul]
            omega
          · exact Nat.lt_of_lt_of_le a3 hle
        · intro b hb
          obtain ⟨b1, w, b2, b3, b4⟩ := a4 b (a5.mem_iff.1 hb)
          exact ⟨b1, w, b2, b3, Nat.le_trans b4 hle⟩
      obtain ⟨x, hx⟩ := Classical.axiomOfChoice h6
      refine ⟨x, fun _ => ⟨⟨_, ds, ?_, pipeline_passes h5, fun k => (hx k).1⟩, fun k => (hx k).2⟩⟩
      unfold createReader
      simp only [if_neg (show ¬ maxLen = 0 by omega), hs, hpad, hall]
    · exact ⟨fun _ => ([], []), fun h => absurd h hlt⟩
  obtain ⟨x, H⟩ := Classical.axiomOfChoice step
  have hperm : ∀ k, ((List.range size).flatMap fun r => (x r k).1.flatten ++ (x r k).2).Perm
      (clips.filter fun c => minLen ≤ c.size ∧ c.size ≤ maxLen) := fun k =>
    (perm_flatMap fun r hr => ((H r (List.mem_range.1 hr)).2 k).2).trans (hL k)
  refine ⟨fun k r => (x r k).1, fun k r => (x r k).2, fun r hr => ?_, fun k r hr => ((H r hr).2 k).1, hperm⟩
  obtain ⟨⟨P, ds, h1, h2, h3⟩, h4⟩ := H r hr
  refine ⟨P, ds, h1, h2, fun k => ?_⟩
  rw [h3 k]
  refine all_carry tok pad (fun b hb => ((h4 k).1.2.2 b hb).1) ?_
  intro b hb c hc
  have := (hperm k).mem_iff.1 (List.mem_flatMap.2 ⟨r, List.mem_range.2 hr, List.mem_append_left _ (List.mem_flatten.2 ⟨b, hb, hc⟩)⟩)
  have := List.mem_filter.1 this
  have h6 : minLen ≤ c.size ∧ c.size ≤ maxLen := by simpa using this.2
  exact hclips c this.1 h6.1 h6.2

/-! ### Later epochs -/

/-- What a rank does after filtering, with a shuffle window of two, two ranks and `max_num_batches` 1. -/
def hearing (sizes : List (Nat × Nat)) (clips : List Clip) (rank : Nat) : Source :=
  Pipe.denote lcg (.take 1 (.bucketByLength ⟨sizes, audioSize, 1, true, true, false⟩ (.shard rank 2 true (.shuffle 2 0 (.list (clips.map raw))))))

/-- Two epochs with `reset` in between. -/
def TwoEpochs (S : Source) (first second : List Data) : Prop :=
  ∃ e e' f f', S.Emits S.init first e ∧ S.next e = some (.eod, e') ∧ S.Emits (S.reset false e') second f ∧ S.next f = some (.eod, f')

private def ca : Clip := ⟨"a", 1, "x", ⟨16000, 1, [1]⟩⟩
private def cb : Clip := ⟨"b", 2, "x", ⟨16000, 1, [1, 1]⟩⟩
private def cc : Clip := ⟨"c", 1, "x", ⟨16000, 1, [1]⟩⟩
private def cd : Clip := ⟨"d", 1, "x", ⟨16000, 1, [1]⟩⟩

private abbrev shards (r : Nat) : Source := shard r 2 true (shuffle lcg 2 0 (listSource ([ca, cb, cc, cd].map raw)))
private abbrev cfg : BblCfg := ⟨[(2, 1), (1, 2)], audioSize, 1, true, true, false⟩

private theorem lone : bblNext (shards 0).next cfg ⟨[[], []], (⟨[], 0, 0, true, 0, (0 : Nat), (0 : Nat)⟩ : ShuffleSt lcg Nat)⟩ =
    some (.yield (.list [raw cb]), ⟨[[], []], (⟨[raw cc, raw cd], 0, 2, false, 0, (3 : Nat), (4 : Nat)⟩ : ShuffleSt lcg Nat)⟩) := by
  rw [bblNext]
  rfl

private theorem both (r : Nat) (g g' g'' : Nat) (b b' : List Data)
    (h1 : (shards r).next (⟨[], 0, 0, true, 0, g, (0 : Nat)⟩ : ShuffleSt lcg Nat) =
      some (.yield (raw ca), (⟨b, 0, 2, false, 0, g', (4 : Nat)⟩ : ShuffleSt lcg Nat)))
    (h2 : (shards r).next (⟨b, 0, 2, false, 0, g', (4 : Nat)⟩ : ShuffleSt lcg Nat) =
      some (.yield (raw cd), (⟨b', 0, 0, false, 0, g'', (4 : Nat)⟩ : ShuffleSt lcg Nat))) :
    bblNext (shards r).next cfg ⟨[[], []], (⟨[], 0, 0, true, 0, g, (0 : Nat)⟩ : ShuffleSt lcg Nat)⟩ =
    some (.yield (.list [raw ca, raw cd]), ⟨[[], []], (⟨b', 0, 0, false, 0, g'', (4 : Nat)⟩ : ShuffleSt lcg Nat)⟩) := by
  rw [bblNext, h1]
  show bblNext (shards r).next cfg ⟨[[raw ca], []], (⟨b, 0, 2, false, 0, g', (4 : Nat)⟩ : ShuffleSt lcg Nat)⟩ = _
  rw [bblNext, h2]
  rfl

/-- The first batch, and then no more. -/
private theorem take_one {B : Source} {s : B.σ} {x : Data} {t : B.σ} (h : B.next s = some (.yield x, t)) :
    (take 1 B).Emits (0, s) [x] (1, t) ∧ (take 1 B).next (1, t) = some (.eod, (1, t)) := by
  refine ⟨.cons ?_ (.nil _), by simp [take, takeNext]⟩
  simp [take, takeNext, h]

/-- **C113.** In later epochs the ranks need not share the examples: the example shuffle before sharding goes on from where its generator was when the
rank stopped reading, and with batches by length the ranks do not stop at the same place. There are a generator and four clips such that with
two ranks, a shuffle window of two and `max_num_batches` 1, the ranks' first epochs have no clip in common, but in the second epoch
both ranks get one and the same batch. -/
theorem C113_later_epoch : ∃ a b c d : Clip, [a, b, c, d].Nodup ∧ (∃ sizes, Sizes.create 2 2 1 1 = .ok sizes ∧
    TwoEpochs (hearing sizes [a, b, c, d] 0) [.list [raw b]] [.list [raw a, raw d]] ∧
    TwoEpochs (hearing sizes [a, b, c, d] 1) [.list [raw a, raw d]] [.list [raw a, raw d]]) := by
  refine ⟨ca, cb, cc, cd, ?_, [(2, 1), (1, 2)], ?_, ?_, ?_⟩
  · have n1 : ca.path ≠ cb.path := by decide
    have n2 : ca.path ≠ cc.path := by decide
    have n3 : ca.path ≠ cd.path := by decide
    have n4 : cb.path ≠ cc.path := by decide
    have n5 : cb.path ≠ cd.path := by decide
    have n6 : cc.path ≠ cd.path := by decide
    simp only [List.nodup_cons, List.mem_cons, List.not_mem_nil, or_false, not_or, not_false_eq_true, List.nodup_nil, and_true]
    exact ⟨⟨fun h => n1 (by rw [h]), fun h => n2 (by rw [h]), fun h => n3 (by rw [h])⟩, ⟨fun h => n4 (by rw [h]), fun h => n5 (by rw [h])⟩,
      fun h => n6 (by rw [h])⟩
  · simp [Sizes.create, Sizes.loop]
  · have h1 := take_one (B := bucketByLength cfg (shards 0)) lone
    have h2 := take_one (B := bucketByLength cfg (shards 0)) (both 0 3 18 93 [raw cc, raw cd] [raw cd, raw cc] rfl rfl)
    exact ⟨_, _, _, _, h1.1, h1.2, h2.1, h2.2⟩
  · have h1 := take_one (B := bucketByLength cfg (shards 1)) (both 1 0 3 18 [raw cc, raw cd] [raw cc, raw cd] rfl rfl)
    have h2 := take_one (B := bucketByLength cfg (shards 1)) (both 1 18 93 468 [raw cc, raw cd] [raw cc, raw cd] rfl rfl)
    exact ⟨_, _, _, _, h1.1, h1.2, h2.1, h2.2⟩

/-! ### The hypotheses can be met -/

/-- Files with three clips, of which one is too long, as `C113_epoch_partial` wants them. -/
private def threeClips : List Clip := [ca, cb, ⟨"e", 9, "y", ⟨16000, 1, [1, 2]⟩⟩]

private def threeFiles : Files where
  manifest := .str "/dir" :: [.int 0, .int 1, .int 2]
  transcripts := threeClips.map fun c => .str c.text
  parse
    | .int 0 => .ok (entry ca)
    | .int 1 => .ok (entry cb)
    | .int 2 => .ok (.dict [("audio", .str "e"), ("audio_size", .int 9)])
    | _ => .error fieldErr
  audio p := if p = "a" then .ok ca.audio else if p = "b" then .ok cb.audio else .ok ⟨16000, 1, [1, 2]⟩

private def letters : Tok := ⟨some 0, fun s => s.toList.map fun c => (c.toNat : Int)⟩

private theorem three_listed : Lists threeFiles threeClips := by
  refine ⟨⟨_, _, rfl, rfl⟩, rfl, ?_⟩
  intro c hc
  simp only [threeClips, List.mem_cons, List.not_mem_nil, or_false] at hc
  rcases hc with rfl | rfl | rfl <;> rfl

example : ∃ (buckets : Nat → List (List Clip)) (dropped : Nat → List Clip), ((List.range 2).flatMap fun r => (buckets r).flatten ++ dropped r).Perm
    (threeClips.filter fun c => 1 ≤ c.size ∧ c.size ≤ 2) ∧ (threeClips.filter fun c => 1 ≤ c.size ∧ c.size ≤ 2) = [ca, cb] := by
  obtain ⟨buckets, dropped, -, -, h⟩ := C113_epoch_partial lcg threeFiles letters threeClips three_listed 2 1 2
    ⟨5, 1, 3, 4, false, 7, none⟩ 0 (by decide) (by decide) (by decide) (by decide) (by decide) rfl rfl (by
      intro c hc _ _
      simp only [threeClips, List.mem_cons, List.not_mem_nil, or_false] at hc
      rcases hc with rfl | rfl | rfl <;> exact ⟨by simp [ca, cb], by simp [letters, ca, cb]⟩)
  exact ⟨buckets, dropped, h, by simp [threeClips, ca, cb]⟩

/-- Both clips of the right size come back in every epoch. -/
example : ∃ (buckets : Nat → Nat → List (List Clip)) (dropped : Nat → Nat → List Clip), ∀ k,
    ((List.range 2).flatMap fun r => (buckets k r).flatten ++ dropped k r).Perm [ca, cb] := by
  obtain ⟨buckets, dropped, -, -, h⟩ := C113_epochs_partial lcg threeFiles letters threeClips three_listed 2 1 2
    ⟨5, 1, 3, 4, false, 7, none⟩ 0 (by decide) (by decide) (by decide) (by decide) (by decide) rfl rfl (by
      intro c hc _ _
      simp only [threeClips, List.mem_cons, List.not_mem_nil, or_false] at hc
      rcases hc with rfl | rfl | rfl <;> exact ⟨by simp [ca, cb], by simp [letters, ca, cb]⟩)
  have e : (threeClips.filter fun c => 1 ≤ c.size ∧ c.size ≤ 2) = [ca, cb] := by simp [threeClips, ca, cb]
  exact ⟨buckets, dropped, fun k => e ▸ h k⟩

example : ∃ P, createReader threeFiles letters 0 2 1 2 ⟨5, 1, 3, 4, false, 7, none⟩ = .ok P :=
  (C113_accepts _ _ _ _ _ _ _).2 (by decide)

/-- A tokenizer that knows no `x`: the clips have no tokens. -/
example : ∃ r ds, r < 2 ∧ rankHears lcg threeFiles ⟨some 0, fun _ => []⟩ r 2 1 2 ⟨5, 1, 3, 4, false, 7, none⟩ ds ∧ none ∈ ds.map toBatch :=
  C113_empty_transcript lcg threeFiles ⟨some 0, fun _ => []⟩ threeClips three_listed 2 1 2 ⟨5, 1, 3, 4, false, 7, none⟩ 0 (by decide) (by decide)
    (by decide) (by decide) (by decide) rfl rfl rfl (c := ca) (by simp [threeClips]) (by decide) rfl

/-- A batch of two clips of one and two samples. -/
example : ∃ b : Batch.S2SBatch Int, Carries letters 0 b [ca, cb] ∧
    ∃ width rows, b.source = .padded width rows ∧ (∀ row ∈ rows, row.length = width) ∧ rows.length * width ≤ 4 := by
  obtain ⟨b, -, h⟩ := carries_of letters 0 (cs := [ca, cb]) (by simp) (by simp [ca, cb]) (by simp [letters, ca, cb])
  exact ⟨b, h, C113_budget (w := 2) h (by simp [ca, cb]) (by simp [ca, cb]) (by simp)⟩

end Fs2.Props
