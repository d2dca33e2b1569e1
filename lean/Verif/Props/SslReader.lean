import Verif.Datasets.SslReaderLemmas
import Verif.Props.Buffering
import Verif.Props.BucketSizes

/-!
# The data reader of wav2vec 2.0 pretraining: C114

`createReader R D W rank size minLen maxLen o` is what `Wav2Vec2SslDataset.create_reader` builds on a rank; a `DataPipelineReader` reads
`pipeline false 0` of it and turns what it gives into batches with `toBatch`. `W` says what is in the files, `R` is any generator of the shuffles, and
`D` is any generator of the places where recordings are cut.
-/

namespace Fs2.Props
open Fs2.SslData Source
open Fs2.AsrData (audioSize roundedNum always)

/-- The manifest has, after its first line, one line for each clip, and the recordings can be read. -/
def Indexes (W : Files) (clips : List Clip) : Prop :=
  (∃ header lines, W.manifest = header :: lines ∧
    lines.map W.parse = clips.map fun c => .ok (.dict [("audio", .str c.path), ("audio_size", .int c.size)])) ∧
  ∀ c ∈ clips, W.audio c.path = .ok c.audio

/-- The rows of the batch are stretches of the clips' waveforms, all of one width: that of the shortest waveform, or `maxLen` if that is less.
Nothing is padding. -/
def ClipRows (maxLen : Nat) (b : Batch.SeqBatch Int) (cs : List Clip) : Prop :=
  ∃ width rows, b.seqs = .padded width rows ∧ b.lens = List.replicate cs.length width ∧ b.padding = 0 ∧
    width ≤ maxLen ∧ (∀ c ∈ cs, width ≤ c.audio.wave.length) ∧ (width = maxLen ∨ ∃ c ∈ cs, width = c.audio.wave.length) ∧
    List.Forall₂ (fun c row => row.length = width ∧ ∃ before after, c.audio.wave = before ++ row ++ after) cs rows

private theorem rounded_eq (num maxLen : Nat) : roundedNum num maxLen = num / maxLen * maxLen := by
  unfold roundedNum
  split
  · rfl
  · rename_i h
    exact (Nat.div_mul_cancel (Nat.dvd_of_mod_eq_zero (by simpa using h))).symm

private theorem good_iff (num maxLen minLen multiple : Nat) : GoodLimits (roundedNum num maxLen) maxLen minLen multiple ↔
    1 ≤ minLen ∧ minLen ≤ maxLen ∧ maxLen ≤ num ∧ 1 ≤ multiple := by
  rw [rounded_eq]
  constructor
  · intro G
    have := Nat.div_mul_le_self num maxLen
    have := G.room
    exact ⟨G.min, G.max, by omega, G.multiple⟩
  · rintro ⟨h1, h2, h3, h4⟩
    refine ⟨h1, h2, ?_, Nat.dvd_mul_left _ _, h4⟩
    exact Nat.le_mul_of_pos_left _ (Nat.div_pos h3 (by omega))


/-- **C114.** Which limits are accepted: exactly those with a smallest length of at least one sample, not above the largest, room for at least
one recording of the largest length, and a multiple of at least one. -/
theorem C114_accepts (R : Rng) (D : Draws) (W : Files) (rank size minLen maxLen : Nat) (o : Options) :
    (∃ S, createReader R D W rank size minLen maxLen o = .ok S) ↔
      1 ≤ minLen ∧ minLen ≤ maxLen ∧ maxLen ≤ o.maxNumElements ∧ 1 ≤ o.numSeqsMultipleOf := by
  unfold createReader
  by_cases h0 : maxLen = 0
  · simp only [if_pos h0]
    constructor
    · rintro ⟨P, h⟩
      cases h
    · omega
  simp only [if_neg h0]
  have G := good_iff o.maxNumElements maxLen minLen o.numSeqsMultipleOf
  by_cases h : GoodLimits (roundedNum o.maxNumElements maxLen) maxLen minLen o.numSeqsMultipleOf
  · obtain ⟨sizes, hs⟩ := (C101_accepts _ _ _ _).1 h
    obtain ⟨h1, h2, h3, h4⟩ := G.1 h
    rw [hs]
    simp [h1, h2, h3, h4]
  · rw [(C101_accepts _ _ _ _).2 h]
    constructor
    · rintro ⟨P, h⟩
      cases h
    · rintro ⟨h1, h2, h3, h4⟩
      exact absurd (G.2 ⟨h1, h2, h3, h4⟩) h

private theorem bucket_yields {S : Source} {L : List Clip} {num lo hi multiple : Nat} {sizes : List (Nat × Nat)} (drop : Bool)
    (hs : Sizes.create num hi lo multiple = .ok sizes) (hlo : 1 ≤ lo)
    (h : S.Yields S.init (L.map raw)) :
    ∃ (cs : List (List Clip)) (dropped : List Clip),
      (bucketByLength ⟨sizes, audioSize, lo, true, true, drop⟩ S).Yields
        (bucketByLength ⟨sizes, audioSize, lo, true, true, drop⟩ S).init (cs.map fun b => .list (b.map raw)) ∧
      (cs.flatten ++ dropped).Perm (L.filter fun c => decide (lo ≤ c.size ∧ c.size ≤ hi)) ∧ (drop = false → dropped = []) ∧ (dropped = [] ∨ dropped.length * lo < num) ∧
      ∀ b ∈ cs, b ≠ [] ∧ ∃ w, w ≤ hi ∧ (∀ c ∈ b, c.size ≤ w) ∧ b.length * w ≤ num := by
  obtain ⟨up, range, z, hl, hz⟩ := C101_lengths hs
  have hv : BblCfg.Valid ⟨sizes, audioSize, lo, true, true, drop⟩ := by
    refine ⟨?_, up.imp Nat.le_of_lt⟩
    rintro rfl
    simp at hl
  have hlong : longest ⟨sizes, audioSize, lo, true, true, drop⟩ = hi := by
    rw [longest_spec _ hv]
    simp [BblCfg.maxLen, hl, hz]
  obtain ⟨rs, outs, dropped, h1, h0, h2, h3, h4, h5, h6⟩ := C08_bucket_by_length S ⟨sizes, audioSize, lo, true, true, drop⟩ _ hv
    (fun z hz => (C101_bounded hs hz).1) h
  rw [hlong] at h4 h6
  have hraise : raised rs = [] := by
    rw [h6, List.filterMap_eq_nil_iff]
    intro x hx
    obtain ⟨c, -, rfl⟩ := List.mem_map.1 hx
    simp [size_raw]
  rw [raised_nil hraise h0, h2] at h1
  have hy := Trace.yields h1
  have hin : ∀ w (c : Clip), LenIn audioSize lo w (raw c) ↔ lo ≤ c.size ∧ c.size ≤ w := by
    intro w c
    unfold LenIn
    rw [size_raw]
    constructor
    · rintro ⟨k, h1, h2⟩
      cases h1
      exact h2
    · intro h
      exact ⟨_, rfl, h⟩
  have h4' : (outs.flatten ++ dropped).Perm ((L.filter fun c => decide (lo ≤ c.size ∧ c.size ≤ hi)).map raw) := by
    refine h4.trans (.of_eq ?_)
    rw [List.filter_map]
    congr 1
    apply List.filter_congr
    intro c _
    simp only [Function.comp, decide_eq_decide]
    exact hin hi c
  obtain ⟨K, hK, hflat⟩ := perm_map_exists h4'.symm _ rfl
  have hsplit : outs.flatten = (K.take outs.flatten.length).map raw := by
    rw [List.map_take, ← hflat, List.take_left]
  obtain ⟨cs, rfl, hcs⟩ := flatten_map_exists outs _ hsplit
  have hlen : (K.drop (cs.map (List.map raw)).flatten.length).length = dropped.length := by
    have := congrArg List.length hflat
    rw [List.length_append, List.length_map] at this
    rw [List.length_drop]
    omega
  refine ⟨cs, K.drop (cs.map (List.map raw)).flatten.length, ?_, ?_, ?_, ?_, ?_⟩
  · rw [List.map_map] at hy
    exact hy
  · rw [hcs, List.take_append_drop]
    exact hK.symm
  · intro hd
    rcases h5 with h5 | h5
    · rw [h5] at hlen
      exact List.length_eq_zero_iff.1 hlen
    · rw [hd] at h5
      exact absurd h5.1 (by simp)
  · rcases h5 with h5 | ⟨-, z, hz, h5⟩
    · rw [h5] at hlen
      exact .inl (List.length_eq_zero_iff.1 hlen)
    · right
      rw [hlen]
      have h7 := (C101_bounded hs hz).2
      have h8 := (range z hz).1
      calc dropped.length * lo < z.1 * lo := Nat.mul_lt_mul_of_pos_right h5 hlo
        _ ≤ z.1 * z.2 := Nat.mul_le_mul_left _ h8
        _ ≤ num := h7
  · intro b hb
    obtain ⟨z, hz, h7, h8, -, h9⟩ := h3 _ (List.mem_map.2 ⟨b, hb, rfl⟩)
    refine ⟨fun e => h7 (by rw [e]; rfl), z.2, (range z hz).2, fun c hc => ?_, ?_⟩
    · exact ((hin z.2 c).1 (h9 _ (List.mem_map.2 ⟨c, hc, rfl⟩))).2
    · rw [List.length_map] at h8
      exact Nat.le_trans (Nat.mul_le_mul_right _ h8) (C101_bounded hs hz).2

private theorem perm_flatMap {α β : Type} {f g : α → List β} {l : List α} (h : ∀ a ∈ l, (f a).Perm (g a)) : (l.flatMap f).Perm (l.flatMap g) := by
  induction l with
  | nil => simp
  | cons a l ih =>
    rw [List.flatMap_cons, List.flatMap_cons]
    exact (h a List.mem_cons_self).append (ih fun b hb => h b (List.mem_cons_of_mem _ hb))

/-- The same source with another first state. -/
private def from_ (S : Source) (s : S.σ) : Source := { S with init := s }

private theorem bucket_cyclic {S : Source} {L : Nat → List Clip} {C : Nat → S.σ → Prop} {num lo hi multiple : Nat} {sizes : List (Nat × Nat)}
    (drop : Bool) (hs : Sizes.create num hi lo multiple = .ok sizes) (hlo : 1 ≤ lo)
    (h : S.Cyclic C fun k ys => ys = (L k).map raw) :
    (bucketByLength ⟨sizes, audioSize, lo, true, true, drop⟩ S).Cyclic
      (fun k (s : BblSt S.σ) => s.bs = sizes.map (fun _ => []) ∧ C k s.inner)
      fun k ys => ∃ cs : List (List Clip), (∃ dropped : List Clip, (cs.flatten ++ dropped).Perm ((L k).filter fun c => decide (lo ≤ c.size ∧ c.size ≤ hi)) ∧ (drop = false → dropped = []) ∧
        (dropped = [] ∨ dropped.length * lo < num) ∧ ∀ b ∈ cs, b ≠ [] ∧ ∃ w, w ≤ hi ∧ (∀ c ∈ b, c.size ≤ w) ∧ b.length * w ≤ num) ∧
        ys = cs.map fun b => .list (b.map raw) := by
  intro k (s : BblSt S.σ) hk
  obtain ⟨bs, i⟩ := s
  obtain ⟨hb, hi⟩ := hk
  simp only at hb hi
  subst hb
  obtain ⟨ys, rfl, hy, hc⟩ := h k i hi
  have hy' : (from_ S i).Yields (from_ S i).init ((L k).map raw) := yields_transfer (T₁ := S) (T₂ := from_ S i) (fun s => s) (fun hn => hn) hy
  obtain ⟨cs, dropped, h1, h2, h3, h4, h5⟩ := bucket_yields (S := from_ S i) drop hs hlo hy'
  refine ⟨_, ⟨cs, ⟨dropped, h2, h3, h4, h5⟩, rfl⟩,
    yields_transfer (T₁ := bucketByLength ⟨sizes, audioSize, lo, true, true, drop⟩ (from_ S i))
      (T₂ := bucketByLength ⟨sizes, audioSize, lo, true, true, drop⟩ S) (fun s => s) (fun hn => hn) h1, ?_⟩
  intro t ht
  obtain ⟨up, -, z, hl, -⟩ := C101_lengths hs
  have hv : BblCfg.Valid ⟨sizes, audioSize, lo, true, true, drop⟩ := by
    refine ⟨?_, up.imp Nat.le_of_lt⟩
    rintro rfl
    simp at hl
  have hbs : BblInv ⟨sizes, audioSize, lo, true, true, drop⟩ (fun _ : S.σ => True) t := ht.inv (bbl_inv (always S) hv) ⟨all2_empty _, trivial⟩
  obtain ⟨b, h6, h7⟩ := Source.Steps.lower (S := S) (T := bucketByLength ⟨sizes, audioSize, lo, true, true, drop⟩ S)
    (fun s : BblSt S.σ => s.inner) (fun hn hr => bblNext_steps hn hr) ht
  obtain rfl := h7 rfl
  exact ⟨hbs.1.map_nil, hc _ h6⟩


private theorem cuts_of {maxLen : Nat} {cs : List Clip} {rows : List (List Int)} (hne : cs ≠ []) (hmax : 0 < maxLen)
    (hw : ∀ c ∈ cs, c.audio.wave ≠ []) (h : Rows (min maxLen (shortest (cs.map fun c => c.audio.wave))) cs rows) :
    ∃ b, toBatch (collated (cs.zip rows)) = some b ∧ ClipRows maxLen b cs := by
  obtain ⟨t, ht, hlen⟩ := shortest_mem (ts := cs.map fun c => c.audio.wave) (by simpa using hne)
  obtain ⟨c₀, hc₀, rfl⟩ := List.mem_map.1 ht
  have hpos : 0 < c₀.audio.wave.length := List.length_pos_of_ne_nil (hw c₀ hc₀)
  have hle : ∀ c ∈ cs, shortest (cs.map fun c => c.audio.wave) ≤ c.audio.wave.length := fun c hc => shortest_le (List.mem_map.2 ⟨c, hc, rfl⟩)
  have e : (cs.zip rows).map (fun p => p.2) = rows ∧ (cs.zip rows).length = cs.length := by
    have hl : cs.length = rows.length := h.length_eq
    exact ⟨List.map_snd_zip (by omega), by simp [hl]⟩
  have hn : ∀ p ∈ cs.zip rows, p.2.length = min maxLen (shortest (cs.map fun c => c.audio.wave)) := by
    generalize min maxLen (shortest (cs.map fun c => c.audio.wave)) = n at h
    clear e hle hpos hlen ht hc₀ hw hne
    induction h with
    | nil => simp
    | cons h _ ih =>
      intro p hp
      rw [List.zip_cons_cons] at hp
      rcases List.mem_cons.1 hp with rfl | hp
      · exact h.1
      · exact ih p hp
  obtain ⟨b, h1, h2, h3, h4⟩ := toBatch_ok (ps := cs.zip rows) (by
    intro he
    have := e.2
    rw [he] at this
    exact hne (List.length_eq_zero_iff.1 this.symm)) hn (by omega)
  rw [e.1] at h2
  rw [e.2] at h3
  refine ⟨b, h1, _, rows, h2, h3, h4, Nat.min_le_left _ _, fun c hc => Nat.le_trans (Nat.min_le_right _ _) (hle c hc), ?_, ?_⟩
  · by_cases hm : maxLen ≤ shortest (cs.map fun c => c.audio.wave)
    · exact .inl (Nat.min_eq_left hm)
    · exact .inr ⟨c₀, hc₀, by rw [hlen]; exact Nat.min_eq_right (by omega)⟩
  · exact List.Forall₂.imp (fun c row ⟨h5, before, after, h6, _⟩ => ⟨h5, before, after, h6⟩) h

/-- **C114.** All epochs of pretraining, if every rank reads each epoch to its end before `reset`: however the clips are shuffled and cut, every clip of the manifest
whose size is within the limits is in exactly one batch of exactly one rank, and no other clip is; its row is a stretch of its
own waveform, all rows of a batch have the length of the shortest waveform of the batch (at most `max_audio_len`), and there is no padding. All sizes of a batch fit a
width for which the batch has at most `max_num_elements` elements. With `drop_remainder` a rank leaves out fewer clips than would
fit into one batch of the shortest ones.

Missing for the full property: epochs that a rank does not read to their end (`C113_later_epoch` shows for the same operators that ranks may then
read the same clips), and the places of the cuts, see `C114_tail_unused` and `C114_resume`. -/
theorem C114_epochs_partial (R : Rng) (D : Draws) (W : Files) (clips : List Clip) (h : Indexes W clips) (size minLen maxLen : Nat) (o : Options)
    (hsize : 0 < size) (hmin : 1 ≤ minLen) (hmax : minLen ≤ maxLen) (hroom : maxLen ≤ o.maxNumElements)
    (hmul : 1 ≤ o.numSeqsMultipleOf) (hall : o.maxNumBatches = none)
    (hclips : ∀ c ∈ clips, minLen ≤ c.size → c.size ≤ maxLen → c.audio.wave ≠ []) :
    ∃ (buckets : Nat → Nat → List (List Clip)) (dropped : Nat → Nat → List Clip),
      (∀ r, r < size → ∃ S ds, createReader R D W r size minLen maxLen o = .ok S ∧
        (pipeline false 0 S).Passes (pipeline false 0 S).init ds ∧
        ∀ k, ∃ batches, (ds k).map toBatch = batches.map some ∧ List.Forall₂ (ClipRows maxLen) batches (buckets k r)) ∧
      (∀ k r, r < size → (o.dropRemainder = false → dropped k r = []) ∧ (dropped k r).length * minLen < o.maxNumElements ∧
        ∀ b ∈ buckets k r, b ≠ [] ∧ ∃ w, w ≤ maxLen ∧ (∀ c ∈ b, c.size ≤ w) ∧ b.length * w ≤ o.maxNumElements) ∧
      ∀ k, ((List.range size).flatMap fun r => (buckets k r).flatten ++ dropped k r).Perm
        (clips.filter fun c => minLen ≤ c.size ∧ c.size ≤ maxLen) := by
  have hr : Reads W clips := ⟨h.1, h.2⟩
  obtain ⟨sizes, hs⟩ := (C101_accepts _ _ _ _).1 ((good_iff o.maxNumElements maxLen minLen o.numSeqsMultipleOf).2 ⟨hmin, hmax, hroom, hmul⟩)
  have hle : roundedNum o.maxNumElements maxLen ≤ o.maxNumElements := by
    rw [rounded_eq]
    exact Nat.div_mul_le_self _ _
  obtain ⟨L, hL, hy⟩ := examples_cyclic R hr size o hsize
  have hmem : ∀ r, r < size → ∀ k, ∀ c ∈ L k r, c ∈ clips := fun r hr k c hc =>
    (hL k).mem_iff.1 (List.mem_flatMap.2 ⟨r, List.mem_range.2 hr, hc⟩)
  have step : ∀ r, ∃ x : Nat → List (List Clip) × List Clip, r < size →
      (∃ S ds, createReader R D W r size minLen maxLen o = .ok S ∧
        (pipeline false 0 S).Passes (pipeline false 0 S).init ds ∧
        ∀ k, List.Forall₂ (fun z b => ∃ rows, Rows (min maxLen (shortest (b.map fun c => c.audio.wave))) b rows ∧ z = collated (b.zip rows)) (ds k) (x k).1) ∧
      ∀ k, ((o.dropRemainder = false → (x k).2 = []) ∧ (x k).2.length * minLen < o.maxNumElements ∧
        ∀ b ∈ (x k).1, b ≠ [] ∧ ∃ w, w ≤ maxLen ∧ (∀ c ∈ b, c.size ≤ w) ∧ b.length * w ≤ o.maxNumElements) ∧
        ((x k).1.flatten ++ (x k).2).Perm ((L k r).filter fun c => decide (minLen ≤ c.size ∧ c.size ≤ maxLen)) := by
    intro r
    by_cases hlt : r < size
    · obtain ⟨C, h0, hc⟩ := hy r hlt
      have h1 := bucket_cyclic o.dropRemainder hs hmin hc
      obtain ⟨C', h2, h3⟩ := collated_cyclic R (W := W) (D := D)
        (p := .bucketByLength ⟨sizes, audioSize, minLen, true, true, o.dropRemainder⟩ (examplePipe W r size o))
        o.batchShuffleWindow (batchSeed r size o) maxLen (batchSeed r size o + 1)
        (fun k cs ⟨_, _, _, _, h5⟩ b hb => (h5 b hb).1)
        (fun k cs ⟨_, h5, _⟩ b hb c hc => h.2 c
          (hmem r hlt k c (List.mem_filter.1 (h5.mem_iff.1 (List.mem_append_left _ (List.mem_flatten.2 ⟨b, hb, hc⟩)))).1)) h1 ⟨rfl, h0⟩
      obtain ⟨ds, h4, h5⟩ := h3.passes h2
      have h6 : ∀ k, ∃ x : List (List Clip) × List Clip,
          List.Forall₂ (fun z b => ∃ rows, Rows (min maxLen (shortest (b.map fun c => c.audio.wave))) b rows ∧ z = collated (b.zip rows)) (ds k) x.1 ∧
          ((o.dropRemainder = false → x.2 = []) ∧ x.2.length * minLen < o.maxNumElements ∧
          ∀ b ∈ x.1, b ≠ [] ∧ ∃ w, w ≤ maxLen ∧ (∀ c ∈ b, c.size ≤ w) ∧ b.length * w ≤ o.maxNumElements) ∧
          (x.1.flatten ++ x.2).Perm ((L k r).filter fun c => decide (minLen ≤ c.size ∧ c.size ≤ maxLen)) := by
        intro k
        obtain ⟨cs, buckets, ⟨dropped, a1, a2, a3, a4⟩, a5, a6⟩ := h4 k
        refine ⟨(buckets, dropped), a6, ⟨a2, ?_, ?_⟩, (a5.flatten.append_right _).trans a1⟩
        · rcases a3 with a3 | a3
          · simp only [a3, List.length_nil, Nat.zero_mul]
            omega
          · exact Nat.lt_of_lt_of_le a3 hle
        · intro b hb
          obtain ⟨b1, w, b2, b3, b4⟩ := a4 b (a5.mem_iff.1 hb)
          exact ⟨b1, w, b2, b3, Nat.le_trans b4 hle⟩
      obtain ⟨x, hx⟩ := Classical.axiomOfChoice h6
      refine ⟨x, fun _ => ⟨⟨_, ds, ?_, pipeline_passes h5, fun k => (hx k).1⟩, fun k => (hx k).2⟩⟩
      unfold createReader
      simp only [if_neg (show ¬ maxLen = 0 by omega), hs, hall]
    · exact ⟨fun _ => ([], []), fun h => absurd h hlt⟩
  obtain ⟨x, H⟩ := Classical.axiomOfChoice step
  have hperm : ∀ k, ((List.range size).flatMap fun r => (x r k).1.flatten ++ (x r k).2).Perm
      (clips.filter fun c => minLen ≤ c.size ∧ c.size ≤ maxLen) := by
    intro k
    refine (perm_flatMap fun r hr => ((H r (List.mem_range.1 hr)).2 k).2).trans ?_
    rw [← List.filter_flatMap]
    exact (hL k).filter _
  refine ⟨fun k r => (x r k).1, fun k r => (x r k).2, fun r hr => ?_, fun k r hr => ((H r hr).2 k).1, hperm⟩
  obtain ⟨⟨S, ds, h1, h2, h3⟩, h4⟩ := H r hr
  refine ⟨S, ds, h1, h2, fun k => ?_⟩
  have hw : ∀ b ∈ (x r k).1, b ≠ [] ∧ ∀ c ∈ b, c.audio.wave ≠ [] := by
    intro b hb
    refine ⟨((h4 k).1.2.2 b hb).1, fun c hc => ?_⟩
    have := (hperm k).mem_iff.1 (List.mem_flatMap.2 ⟨r, List.mem_range.2 hr, List.mem_append_left _ (List.mem_flatten.2 ⟨b, hb, hc⟩)⟩)
    have := List.mem_filter.1 this
    have h6 : minLen ≤ c.size ∧ c.size ≤ maxLen := by simpa using this.2
    exact hclips c this.1 h6.1 h6.2
  have h5 := h3 k
  show ∃ batches, (ds k).map toBatch = batches.map some ∧ List.Forall₂ (ClipRows maxLen) batches (x r k).1
  generalize (x r k).1 = bs at h5 hw ⊢
  generalize ds k = zs at h5 ⊢
  induction h5 with
  | nil => exact ⟨[], rfl, .nil⟩
  | cons hz _ ih =>
    obtain ⟨rows, h6, rfl⟩ := hz
    obtain ⟨h7, h8⟩ := hw _ List.mem_cons_self
    obtain ⟨b, h9, h10⟩ := cuts_of h7 (by omega) h8 h6
    obtain ⟨batches, h11, h12⟩ := ih fun b hb => hw b (List.mem_cons_of_mem _ hb)
    exact ⟨b :: batches, by simp only [List.map_cons, h11, h9], .cons h10 h12⟩

/-- **C114.** If the manifest has the right number of samples for at least one clip of the batch, the batch has no more than `max_num_elements` samples. -/
theorem C114_budget {maxLen : Nat} {b : Batch.SeqBatch Int} {cs : List Clip} {num w : Nat} (h : ClipRows maxLen b cs) {c : Clip} (hc : c ∈ cs)
    (hsize : c.audio.wave.length ≤ c.size) (hw : c.size ≤ w) (hnum : cs.length * w ≤ num) :
    ∃ width rows, b.seqs = .padded width rows ∧ (∀ row ∈ rows, row.length = width) ∧ rows.length = cs.length ∧ rows.length * width ≤ num := by
  obtain ⟨width, rows, h1, -, -, -, h2, -, h3⟩ := h
  have hl : cs.length = rows.length := h3.length_eq
  refine ⟨width, rows, h1, ?_, hl.symm, ?_⟩
  · clear hl hnum h2 h1 hc
    induction h3 with
    | nil => simp
    | cons h _ ih =>
      intro row hrow
      rcases List.mem_cons.1 hrow with rfl | hrow
      · exact h.1
      · exact ih row hrow
  · have := h2 c hc
    rw [← hl]
    exact Nat.le_trans (Nat.mul_le_mul_left _ (by omega)) hnum

/-! ### Where recordings are cut -/

private theorem lookup_update (key : String) (g : Data → Data) : ∀ kvs : List (String × Data),
    (kvs.map fun kv => if kv.1 = key then (kv.1, g kv.2) else kv).lookup key = (kvs.lookup key).map g
  | [] => rfl
  | (k, v) :: kvs => by
    by_cases hk : k = key
    · subst hk
      simp [List.lookup]
    · have : (key == k) = false := by simpa using fun e : key = k => hk e.symm
      simp [List.lookup, hk, this, lookup_update key g kvs]

private theorem waveOf_set {x : Data} {t : List Int} (t' : List Int) (h : waveOf x = some t) : waveOf (setWave t' x) = some t' := by
  unfold waveOf at h
  split at h
  · next a =>
    split at h
    · next b ha =>
      split at h
      · next c hb =>
        split at h
        · next t hc =>
          have e3 := lookup_update "waveform" (fun _ => .tensor t') c
          have e2 := lookup_update "data" (update "waveform" fun _ => .tensor t') b
          have e1 := lookup_update "audio" (update "data" (update "waveform" fun _ => .tensor t')) a
          rw [ha, Option.map_some] at e1
          rw [hb, Option.map_some] at e2
          rw [hc, Option.map_some] at e3
          rw [setWave, update, waveOf, e1]
          simp only [update]
          simp only [update] at e2
          rw [e2]
          simp only
          rw [e3]
        · cases h
      · cases h
    · cases h
  · cases h

/-- **C114.** The end of a longer recording is never used: whatever the generator draws, each waveform that `crop_audios_in_batch` shortens loses
at least its last sample, as `randint` excludes its upper bound. -/
theorem C114_tail_unused (D : Draws) (maxLen : Nat) (g : D.G) (xs : List Data) (ts : List (List Int)) (hne : xs ≠ [])
    (h : xs.map waveOf = ts.map some) :
    ∃ ys rows g', cropBatch D maxLen g (.list xs) = .ok (.list ys, g') ∧ ys.map waveOf = rows.map some ∧
      List.Forall₂ (fun t row => ∃ before after, t = before ++ row ++ after ∧ (row.length < t.length → after ≠ [])) ts rows := by
  have hw : wavesOf xs = some ts := by
    clear hne
    induction xs generalizing ts with
    | nil =>
      cases ts with
      | nil => rfl
      | cons t ts => simp at h
    | cons x xs ih =>
      cases ts with
      | nil => simp at h
      | cons t ts =>
        simp only [List.map_cons, List.cons.injEq] at h
        simp [wavesOf, h.1, ih ts h.2]
  have hshort : ∀ t ∈ ts, min maxLen (shortest ts) ≤ t.length := fun t ht => Nat.le_trans (Nat.min_le_right _ _) (shortest_le ht)
  have items : ∀ (size : Nat) (g : D.G) (xs : List Data) (ts : List (List Int)), xs.map waveOf = ts.map some → (∀ t ∈ ts, size ≤ t.length) →
      ∃ rows, (cropItems D size g (xs.zip ts)).1.map waveOf = rows.map some ∧
        List.Forall₂ (fun t row => ∃ before after, t = before ++ row ++ after ∧ (row.length < t.length → after ≠ [])) ts rows := by
    intro size g xs
    induction xs generalizing g with
    | nil =>
      intro ts h _
      cases ts with
      | nil => exact ⟨[], rfl, .nil⟩
      | cons t ts => simp at h
    | cons x xs ih =>
      intro ts h hs
      cases ts with
      | nil => simp at h
      | cons t ts =>
        simp only [List.map_cons, List.cons.injEq] at h
        obtain ⟨rows, h1, h2⟩ := ih (cropOne D size g t).2 ts h.2 fun t ht => hs t (List.mem_cons_of_mem _ ht)
        refine ⟨(cropOne D size g t).1 :: rows, ?_, .cons ?_ h2⟩
        · simp only [List.zip_cons_cons, cropItems, List.map_cons, h1, waveOf_set _ h.1]
        · obtain ⟨h3, before, after, h4, h5⟩ := cropOne_stretch D g (hs t List.mem_cons_self)
          exact ⟨before, after, h4, by rw [h3]; exact h5⟩
  obtain ⟨rows, h1, h2⟩ := items (min maxLen (shortest ts)) g xs ts h hshort
  obtain ⟨x, xs, rfl⟩ := List.exists_cons_of_ne_nil hne
  refine ⟨(cropItems D (min maxLen (shortest ts)) g ((x :: xs).zip ts)).1, rows, (cropItems D (min maxLen (shortest ts)) g ((x :: xs).zip ts)).2, ?_, h1, h2⟩
  simp only [cropBatch, hw]

/-- **C114.** For a recording one sample longer than the others there is no choice at all: it is cut at the end. -/
theorem C114_one_place (D : Draws) (maxLen : Nat) (g : D.G) (xs : List Data) (ts : List (List Int)) (hne : xs ≠ [])
    (h : xs.map waveOf = ts.map some) :
    ∃ ys rows g', cropBatch D maxLen g (.list xs) = .ok (.list ys, g') ∧ ys.map waveOf = rows.map some ∧
      List.Forall₂ (fun t row => t.length = row.length + 1 → row = t.dropLast) ts rows := by
  obtain ⟨ys, rows, g', h1, h2, h3⟩ := C114_tail_unused D maxLen g xs ts hne h
  refine ⟨ys, rows, g', h1, h2, h3.imp ?_⟩
  rintro t row ⟨before, after, rfl, ha⟩ hl
  replace ha := ha (by omega)
  have : after.length ≠ 0 := fun e => ha (List.length_eq_zero_iff.1 e)
  have hlen : before.length + row.length + after.length = row.length + 1 := by simpa [Nat.add_assoc] using hl
  have hb : before = [] := List.length_eq_zero_iff.1 (by omega)
  obtain ⟨x, rfl⟩ := List.length_eq_one_iff.1 (show after.length = 1 by omega)
  simp [hb]

/-- A generator that counts. -/
private def counter : Draws where
  G := Nat
  seed n := n
  randint n g := (g % n, g + 1)
  lt _ g h := Nat.mod_lt g h

private def longClip : Clip := ⟨"a", 3, ⟨16000, 1, [1, 2, 3]⟩⟩
private def shortClip : Clip := ⟨"b", 1, ⟨16000, 1, [4]⟩⟩

/-- **C114.** The state of the reader lacks the generator of the cuts: there are batches for which a reader that was restored from the state after the first batch
cuts the second one at another place than the reader that went on. -/
theorem C114_resume : ∃ (D : Draws) (maxLen seed : Nat) (items : List Data), ∀ strict : Bool,
    let S := cropping D maxLen seed (listSource items)
    ∃ x s tape s' y t y' t', S.next S.init = some (.yield x, s) ∧ S.record strict s = .ok tape ∧ S.reload strict S.init tape = .ok (s', []) ∧
      S.next s = some (.yield y, t) ∧ S.next s' = some (.yield y', t') ∧ y ≠ y' := by
  refine ⟨counter, 5, 0, [.list [loaded longClip, loaded shortClip], .list [loaded longClip, loaded shortClip]], fun strict => ?_⟩
  refine ⟨.list [withWave longClip [1], withWave shortClip [4]], ((1 : Nat), (1 : Nat)), if strict then [.int 0, .int 0, .int 1] else [.int 1],
    ((1 : Nat), (0 : Nat)), .list [withWave longClip [2], withWave shortClip [4]], ((2 : Nat), (2 : Nat)),
    .list [withWave longClip [1], withWave shortClip [4]], ((2 : Nat), (1 : Nat)), rfl, ?_, ?_, rfl, rfl, ?_⟩
  · cases strict <;> rfl
  · cases strict <;> rfl
  · simp [withWave, audioPart]

/-! ### The hypotheses can be met -/

private def someClips : List Clip := [longClip, shortClip, ⟨"e", 9, ⟨16000, 1, [1, 2]⟩⟩]

private def someFiles : Files where
  manifest := .str "/dir" :: [.int 0, .int 1, .int 2]
  parse
    | .int 0 => .ok (raw longClip)
    | .int 1 => .ok (raw shortClip)
    | .int 2 => .ok (.dict [("audio", .str "e"), ("audio_size", .int 9)])
    | _ => .error AsrData.fieldErr
  audio p := if p = "a" then .ok longClip.audio else if p = "b" then .ok shortClip.audio else .ok ⟨16000, 1, [1, 2]⟩

private theorem some_indexed : Indexes someFiles someClips := by
  refine ⟨⟨_, _, rfl, rfl⟩, ?_⟩
  intro c hc
  simp only [someClips, List.mem_cons, List.not_mem_nil, or_false] at hc
  rcases hc with rfl | rfl | rfl <;> rfl

/-- Both clips of the right size come back in every epoch. -/
example : ∃ (buckets : Nat → Nat → List (List Clip)) (dropped : Nat → Nat → List Clip), ∀ k,
    ((List.range 2).flatMap fun r => (buckets k r).flatten ++ dropped k r).Perm [longClip, shortClip] := by
  obtain ⟨buckets, dropped, -, -, h⟩ := C114_epochs_partial lcg counter someFiles someClips some_indexed 2 1 3
    ⟨7, 1, 3, 4, false, 7, none⟩ (by decide) (by decide) (by decide) (by decide) (by decide) rfl (by
      intro c hc _ _
      simp only [someClips, List.mem_cons, List.not_mem_nil, or_false] at hc
      rcases hc with rfl | rfl | rfl <;> simp [longClip, shortClip])
  have e : (someClips.filter fun c => 1 ≤ c.size ∧ c.size ≤ 3) = [longClip, shortClip] := by simp [someClips, longClip, shortClip]
  exact ⟨buckets, dropped, fun k => e ▸ h k⟩

example : ∃ S, createReader lcg counter someFiles 0 2 1 3 ⟨7, 1, 3, 4, false, 7, none⟩ = .ok S :=
  (C114_accepts _ _ _ _ _ _ _ _).2 (by decide)

/-- A batch of two clips, of which the longer one is cut to one sample. -/
example : ∃ b : Batch.SeqBatch Int, ClipRows 3 b [longClip, shortClip] ∧
    ∃ width rows, b.seqs = .padded width rows ∧ (∀ row ∈ rows, row.length = width) ∧ rows.length = 2 ∧ rows.length * width ≤ 6 := by
  obtain ⟨rows, g', h1, -⟩ := cropBatch_rows counter 3 (0 : Nat) (cs := [longClip, shortClip]) (by simp)
  obtain ⟨b, -, h⟩ := cuts_of (by simp) (by decide) (by simp [longClip, shortClip]) h1
  exact ⟨b, h, C114_budget (c := longClip) (w := 3) h (by simp) (by simp [longClip]) (by simp [longClip]) (by simp)⟩

example : ∃ ys rows g', cropBatch counter 5 (1 : Nat) (.list [loaded longClip, loaded shortClip]) = .ok (.list ys, g') ∧ ys.map waveOf = rows.map some ∧
    List.Forall₂ (fun t row => ∃ before after, t = before ++ row ++ after ∧ (row.length < t.length → after ≠ [])) [[1, 2, 3], [4]] rows :=
  C114_tail_unused counter 5 (1 : Nat) _ _ (by simp) (by simp [loaded, waveOf_with, longClip, shortClip])

example : ∃ ys rows g', cropBatch counter 2 (1 : Nat) (.list [loaded longClip]) = .ok (.list ys, g') ∧ ys.map waveOf = rows.map some ∧
    List.Forall₂ (fun t row => t.length = row.length + 1 → row = t.dropLast) [[1, 2, 3]] rows :=
  C114_one_place counter 2 (1 : Nat) _ _ (by simp) (by simp [loaded, waveOf_with, longClip])

end Fs2.Props
