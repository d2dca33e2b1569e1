import Verif.Datasets.AsrReader
import Verif.Datasets.LmGenerateLemmas

/-!
# The data reader of speech recognition (helper lemmas)
-/

namespace Fs2.AsrData
open Fs2.Native Fs2.Batch Source
open Fs2.Sft (others_map key_hit key_miss matrix_ok lengths_ok pad_one seqsOf)
open Fs2.LmGen (leaf_list leaf_tensor)

/-- A recording with its entry in the manifest and its transcript. -/
structure Clip where
  path : String
  size : Nat
  text : String
  audio : Recording

/-- The entry of the manifest. -/
def entry (c : Clip) : Data := .dict [("audio", .str c.path), ("audio_size", .int c.size)]

/-- The example before loading. -/
def raw (c : Clip) : Data := .dict [("audio", .str c.path), ("audio_size", .int c.size), ("text", .str c.text)]

/-- The example after loading. -/
def loaded (tok : Tok) (c : Clip) : Data :=
  .dict [("audio", .dict [("path", .str c.path),
      ("data", .dict [("sample_rate", .num c.audio.rate), ("format", .int c.audio.format), ("waveform", .tensor c.audio.wave)])]),
    ("audio_size", .int c.size), ("text", .tensor (tok.encode c.text))]

theorem size_raw (c : Clip) : audioSize (raw c) = .ok c.size := by
  simp [audioSize, raw, List.lookup]

theorem right_raw (lo hi : Nat) (c : Clip) : rightLength lo hi (raw c) = .ok (decide (lo ≤ c.size ∧ c.size ≤ hi)) := by
  rw [rightLength, size_raw]

theorem load_raw {W : Files} {c : Clip} (tok : Tok) (h : W.audio c.path = .ok c.audio) : loadExample W tok (raw c) = .ok (loaded tok c) := by
  simp [loadExample, raw, List.lookup, h, loaded]

theorem load_all {W : Files} (tok : Tok) : ∀ {cs : List Clip}, (∀ c ∈ cs, W.audio c.path = .ok c.audio) →
    loadAll W tok (cs.map raw) = .ok (cs.map (loaded tok))
  | [], _ => rfl
  | c :: cs, h => by
    rw [List.map_cons, loadAll, load_raw tok (h c List.mem_cons_self), load_all tok fun d hd => h d (List.mem_cons_of_mem _ hd)]
    rfl

/-! ### Reading -/

/-- The lines are those of the clips. -/
structure Reads (W : Files) (clips : List Clip) : Prop where
  manifest : ∃ header lines, W.manifest = header :: lines ∧ lines.map W.parse = clips.map fun c => .ok (entry c)
  transcripts : W.transcripts = clips.map fun c => .str c.text
  audio : ∀ c ∈ clips, W.audio c.path = .ok c.audio

theorem list_yields (xs : List Data) : (listSource xs).Yields (listSource xs).init xs := by
  have := listSource_yields_from xs 0 (Nat.zero_le _)
  rw [List.drop_zero] at this
  exact this

theorem range_map {α β : Type} [Inhabited β] (f : α → β) (l : List α) :
    ((List.range l.length).map fun k => ((l[k]?).map f).getD default) = l.map f := by
  apply List.ext_getElem?
  intro k
  rw [List.getElem?_map, List.getElem?_map]
  by_cases hk : k < l.length
  · simp [hk]
  · rw [List.getElem?_eq_none (by simpa using hk), List.getElem?_eq_none (by simpa using hk)]
    rfl

variable (R : Rng)

theorem tsv_yields {W : Files} {clips : List Clip} (h : Reads W clips) :
    ((tsvPipe W).denote R).Yields ((tsvPipe W).denote R).init (clips.map entry) := by
  obtain ⟨header, lines, hm, hp⟩ := h.manifest
  have h1 := skip_yields (n := 1) (list_yields W.manifest)
  rw [hm] at h1
  let g : Data → Data := fun l => match W.parse l with
    | .ok d => d
    | .error _ => l
  have hg : ∀ l ∈ lines, W.parse l = .ok (g l) := by
    intro l hl
    have : W.parse l ∈ lines.map W.parse := List.mem_map.2 ⟨l, hl, rfl⟩
    rw [hp] at this
    obtain ⟨c, -, hc⟩ := List.mem_map.1 this
    simp only [g, ← hc]
  have h2 := map_yields_on (f := W.parse) (g := g) hg h1
  have e : lines.map g = clips.map entry := by
    have h3 : (lines.map g).map (Except.ok (ε := Err)) = (clips.map entry).map Except.ok := by
      rw [List.map_map, List.map_map]
      refine Eq.trans (List.map_congr_left fun l hl => (hg l hl).symm) hp
    exact (List.map_inj_right (fun a b h => by cases h; rfl)).1 h3
  rw [e, ← hm] at h2
  exact h2

theorem wrd_yields {W : Files} {clips : List Clip} (h : Reads W clips) :
    ((wrdPipe W).denote R).Yields ((wrdPipe W).denote R).init (clips.map fun c => .dict [("text", .str c.text)]) := by
  have := list_yields (W.transcripts.map fun l => .dict [("text", l)])
  rw [show (W.transcripts.map fun l => Data.dict [("text", l)]) = clips.map fun c => .dict [("text", .str c.text)] by
    rw [h.transcripts, List.map_map]; rfl] at this
  unfold wrdPipe
  rw [show (W.transcripts.map fun l => Data.dict [("text", l)]) = clips.map fun c => .dict [("text", .str c.text)] by
    rw [h.transcripts, List.map_map]; rfl]
  exact this

/-- Manifest and transcripts line by line. -/
def zipped (W : Files) : Pipe := .zip 2 (fun _ => 0) (fun i => if i = 0 then tsvPipe W else wrdPipe W) ["tsv", "wrd"] false false

theorem zipped_yields {W : Files} {clips : List Clip} (h : Reads W clips) :
    (Pipe.denote R (.map flattenExample (zipped W))).Yields (Pipe.denote R (.map flattenExample (zipped W))).init (clips.map raw) := by
  let pair : Clip → Data := fun c => .dict [("tsv", entry c), ("wrd", .dict [("text", .str c.text)])]
  have hz : (Pipe.denote R (zipped W)).Yields (Pipe.denote R (zipped W)).init (clips.map pair) := by
    rw [← range_map pair clips]
    refine zip_yields (f := fun i k => ((clips[k]?).map fun c => if i = 0 then entry c else .dict [("text", .str c.text)]).getD default)
      (len := fun _ => some clips.length) ?_ ?_ ⟨0, rfl⟩ ?_ (.inr fun _ _ => rfl) ?_
    · intro i
      show Source.Yields _ _ _
      rw [range_map]
      apply pipeline_yields_init
      match i with
      | 0 => exact tsv_yields R h
      | 1 => exact wrd_yields R h
    · intro i hi
      match i with
      | 0 => exact absurd hi (by simp [pipeline, tsvPipe, Pipe.denote, Fs2.map, skip, listSource])
      | 1 => exact absurd hi (by simp [pipeline, wrdPipe, Pipe.denote, listSource])
    · intro i k hk
      exact Nat.le_of_eq (Option.some.inj hk)
    · intro k hk
      rw [List.getElem?_eq_getElem hk]
      rfl
  have := map_yields_on (f := flattenExample) (g := fun d => match flattenExample d with | .ok y => y | .error _ => d) (by
    intro x hx
    obtain ⟨c, -, rfl⟩ := List.mem_map.1 hx
    rfl) hz
  rw [List.map_map] at this
  exact this

/-- The clips within the limits. -/
theorem filtered_yields {W : Files} {clips : List Clip} (h : Reads W clips) (lo hi : Nat) :
    (Pipe.denote R (.filter (rightLength lo hi) (.map flattenExample (zipped W)))).Yields
      (Pipe.denote R (.filter (rightLength lo hi) (.map flattenExample (zipped W)))).init
      ((clips.filter fun c => decide (lo ≤ c.size ∧ c.size ≤ hi)).map raw) := by
  have h1 := filter_yields_on (f := rightLength lo hi) (p := fun d => match rightLength lo hi d with | .ok b => b | .error _ => false) (by
    intro x hx
    obtain ⟨c, -, rfl⟩ := List.mem_map.1 hx
    rw [right_raw]) (zipped_yields R h)
  rw [List.filter_map] at h1
  have e : (clips.filter ((fun d => match rightLength lo hi d with | .ok b => b | .error _ => false) ∘ raw)) =
      clips.filter fun c => decide (lo ≤ c.size ∧ c.size ≤ hi) := by
    apply List.filter_congr
    intro c _
    simp only [Function.comp, right_raw]
  rw [e] at h1
  exact h1

/-- Shuffling rearranges. -/
theorem shuffled_yields {α : Type} {p : Pipe} {f : α → Data} {L : List α} (window seed : Nat)
    (h : (p.denote R).Yields (p.denote R).init (L.map f)) :
    ∃ order : List α, order.Perm L ∧ (Pipe.denote R (if window ≠ 1 then .shuffle window seed p else p)).Yields
      (Pipe.denote R (if window ≠ 1 then .shuffle window seed p else p)).init (order.map f) := by
  by_cases hw : window ≠ 1
  · rw [if_pos hw]
    by_cases hs : shuffleWindow window = 1
    · exact ⟨L, .refl _, shuffle_one_yields (R := R) (w := window) (seed := seed) hs h⟩
    · obtain ⟨ys, h1, h2⟩ := shuffle_yields (R := R) (w := window) (seed := seed) (s := (shuffle R window seed (p.denote R)).init) hs rfl rfl h
      obtain ⟨bs, h3, rfl⟩ := perm_map_exists h1.perm.symm L rfl
      exact ⟨bs, h3.symm, h2⟩
  · rw [if_neg hw]
    exact ⟨L, .refl _, h⟩

theorem mem_of_shardOf {r n : Nat} {xs : List Data} {x : Data} (h : x ∈ shardOf r n xs) : x ∈ xs := by
  unfold shardOf at h
  rw [List.mem_filterMap] at h
  obtain ⟨k, -, hk⟩ := h
  exact List.mem_of_getElem? hk

theorem raw_inj {W : Files} {clips : List Clip} (h : Reads W clips) {a b : Clip} (ha : a ∈ clips) (hb : b ∈ clips) (e : raw a = raw b) :
    a = b := by
  have h1 := h.audio a ha
  have h2 := h.audio b hb
  obtain ⟨p, s, t, u⟩ := a
  obtain ⟨p', s', t', u'⟩ := b
  simp only [raw, Data.dict.injEq, List.cons.injEq, Prod.mk.injEq, Data.str.injEq, Data.int.injEq, true_and, and_true] at e
  obtain ⟨e1, e2, e3⟩ := e
  subst e1
  subst e3
  rw [h1] at h2
  cases h2
  cases Int.ofNat.inj e2
  rfl

theorem map_raw_inj {W : Files} {clips : List Clip} (h : Reads W clips) : ∀ {K L : List Clip}, (∀ c ∈ K, c ∈ clips) → (∀ c ∈ L, c ∈ clips) →
    K.map raw = L.map raw → K = L
  | [], [], _, _, _ => rfl
  | [], _ :: _, _, _, e => by simp at e
  | _ :: _, [], _, _, e => by simp at e
  | a :: K, b :: L, hK, hL, e => by
    simp only [List.map_cons, List.cons.injEq] at e
    rw [raw_inj h (hK a List.mem_cons_self) (hL b List.mem_cons_self) e.1,
      map_raw_inj h (fun c hc => hK c (List.mem_cons_of_mem _ hc)) (fun c hc => hL c (List.mem_cons_of_mem _ hc)) e.2]

/-- The shards of the clips in some order: the data tell the clips apart. -/
theorem split_shards {W : Files} {clips : List Clip} (h : Reads W clips) (size : Nat) (hsize : 0 < size) {q : Clip → Bool} {order : List Clip}
    (hord : order.Perm (clips.filter q)) : ∃ M : Nat → List Clip, ((List.range size).flatMap M).Perm (clips.filter q) ∧
      ∀ r, shardOf r size (order.map raw) = (M r).map raw := by
  have pick : ∀ r, ∃ K : List Clip, shardOf r size (order.map raw) = K.map raw ∧ ∀ c ∈ K, c ∈ clips := by
    intro r
    have : ∀ ys : List Data, (∀ y ∈ ys, y ∈ order.map raw) → ∃ K : List Clip, ys = K.map raw ∧ ∀ c ∈ K, c ∈ clips := by
      intro ys
      induction ys with
      | nil => exact fun _ => ⟨[], rfl, by simp⟩
      | cons y ys ih =>
        intro hy
        obtain ⟨K, k1, k2⟩ := ih fun z hz => hy z (List.mem_cons_of_mem _ hz)
        obtain ⟨a, ha, e⟩ := List.mem_map.1 (hy y List.mem_cons_self)
        refine ⟨a :: K, by rw [List.map_cons, e, ← k1], ?_⟩
        intro c hc
        rcases List.mem_cons.1 hc with rfl | hc
        · exact (List.mem_filter.1 (hord.mem_iff.1 ha)).1
        · exact k2 c hc
    exact this _ fun y hy => mem_of_shardOf hy
  obtain ⟨M, hM⟩ := Classical.axiomOfChoice pick
  refine ⟨M, ?_, fun r => (hM r).1⟩
  have hp : (((List.range size).flatMap M).map raw).Perm (order.map raw) := by
    rw [List.map_flatMap]
    simp only [← (hM _).1]
    exact perm_shards size hsize _
  obtain ⟨K, hK, hKe⟩ := perm_map_exists hp.symm order rfl
  have : (List.range size).flatMap M = K := by
    refine map_raw_inj h ?_ ?_ hKe
    · intro c hc
      obtain ⟨r, -, hc⟩ := List.mem_flatMap.1 hc
      exact (hM r).2 c hc
    · intro c hc
      exact (List.mem_filter.1 (hord.mem_iff.1 (hK.mem_iff.2 hc))).1
  rw [this]
  exact hK.symm.trans hord

/-- What all ranks have before batching. -/
theorem examples_yield {W : Files} {clips : List Clip} (h : Reads W clips) (size lo hi : Nat) (o : Options) (hsize : 0 < size) :
    ∃ L : Nat → List Clip, ((List.range size).flatMap L).Perm (clips.filter fun c => decide (lo ≤ c.size ∧ c.size ≤ hi)) ∧
      ∀ rank, rank < size → (Pipe.denote R (examplePipe W rank size lo hi o)).Yields
        (Pipe.denote R (examplePipe W rank size lo hi o)).init ((L rank).map raw) := by
  have h1 := filtered_yields R h lo hi
  obtain ⟨order, hord, hy⟩ := shuffled_yields R (p := .filter (rightLength lo hi) (.map flattenExample (zipped W)))
    o.exampleShuffleWindow o.seed h1
  by_cases hs : size > 1
  · obtain ⟨M, hM, hsh⟩ := split_shards h size hsize hord
    refine ⟨M, hM, fun rank hr => ?_⟩
    have := shard_gives hr hy
    rw [hsh rank] at this
    have e : examplePipe W rank size lo hi o = .shard rank size true (if o.exampleShuffleWindow ≠ 1 then
        .shuffle o.exampleShuffleWindow o.seed (.filter (rightLength lo hi) (.map flattenExample (zipped W)))
      else .filter (rightLength lo hi) (.map flattenExample (zipped W))) := if_pos hs
    rw [e]
    exact this
  · obtain rfl : size = 1 := by omega
    refine ⟨fun _ => order, ?_, ?_⟩
    · simpa [List.range_succ] using hord
    · intro rank _
      exact hy

/-! ### Collating -/

/-- The collated batch. -/
def collated (tok : Tok) (pad : Int) (cs : List Clip) : Data :=
  .dict [("audio", .dict [("path", .list (cs.map fun c => .str c.path)),
      ("data", .dict [("sample_rate", .list (cs.map fun c => .num c.audio.rate)), ("format", .list (cs.map fun c => .int c.audio.format)),
        ("waveform", (padTensors 0 1 (cs.map fun c => c.audio.wave)).toData)])]),
    ("audio_size", .list (cs.map fun c => .int c.size)), ("text", (padTensors pad 1 (cs.map fun c => tok.encode c.text)).toData)]

theorem leaf_num {α : Type} {c : Collater} {path : Path} {l : List α} (f : α → Data) (g : α → Rat) (q : Rat)
    (h : ∀ a ∈ l, nodeAt path (f a) = some (.num (g a))) :
    collateAt c (l.map f) path (.num q) = .ok (.list (.num q :: l.map fun a => .num (g a))) := by
  rw [collateAt, collateLeaf, others_map (k := kind (.num q)) l f (fun a => .num (g a)) fun a ha => ⟨h a ha, rfl⟩]

theorem same_size {α : Type} {path : Path} {l : List α} (f g : α → Data) (x : Data)
    (h : ∀ a ∈ l, nodeAt path (f a) = some (g a) ∧ kind (g a) = kind x ∧ sizeOfData (g a) = sizeOfData x) :
    checkSizes (l.map f) path x = .ok () := by
  unfold checkSizes
  rw [others_map (k := kind x) l f g fun a ha => ⟨(h a ha).1, (h a ha).2.1⟩]
  simp only
  rw [if_pos]
  simp only [List.all_eq_true, List.mem_map, decide_eq_true_eq]
  rintro y ⟨a, ha, rfl⟩
  exact (h a ha).2.2

section
variable (tok : Tok) (c : Clip)

/-- The part with the recording. -/
def audioPart : Data :=
  .dict [("sample_rate", .num c.audio.rate), ("format", .int c.audio.format), ("waveform", .tensor c.audio.wave)]

theorem node_audio : nodeAt [.key "audio".toList] (loaded tok c) = some (.dict [("path", .str c.path), ("data", audioPart c)]) := by
  simp only [loaded, nodeAt]
  rw [key_hit (by decide)]
  rfl

theorem node_under (p : Path) : nodeAt (.key "audio".toList :: .key "data".toList :: p) (loaded tok c) = nodeAt p (audioPart c) := by
  rw [loaded, nodeAt, key_hit (by decide), Option.bind_some, nodeAt, key_miss (by decide), key_hit (by decide)]
  rfl

theorem node_path : nodeAt [.key "audio".toList, .key "path".toList] (loaded tok c) = some (.str c.path) := by
  rw [loaded, nodeAt, key_hit (by decide), Option.bind_some, nodeAt, key_hit (by decide)]
  rfl

theorem node_rate : nodeAt [.key "sample_rate".toList] (audioPart c) = some (.num c.audio.rate) := by
  simp only [audioPart, nodeAt]
  rw [key_hit (by decide)]
  rfl

theorem node_format : nodeAt [.key "format".toList] (audioPart c) = some (.int c.audio.format) := by
  simp only [audioPart, nodeAt]
  rw [key_miss (by decide), key_hit (by decide)]
  rfl

theorem node_wave : nodeAt [.key "waveform".toList] (audioPart c) = some (.tensor c.audio.wave) := by
  simp only [audioPart, nodeAt]
  rw [key_miss (by decide), key_miss (by decide), key_hit (by decide)]
  rfl

theorem node_size : nodeAt [.key "audio_size".toList] (loaded tok c) = some (.int c.size) := by
  simp only [loaded, nodeAt]
  rw [key_miss (by decide), key_hit (by decide)]
  rfl

theorem node_text : nodeAt [.key "text".toList] (loaded tok c) = some (.tensor (tok.encode c.text)) := by
  simp only [loaded, nodeAt]
  rw [key_miss (by decide), key_miss (by decide), key_hit (by decide)]
  rfl

end

theorem collate_ok (tok : Tok) (pad : Int) {cs : List Clip} (hne : cs ≠ []) :
    (collater pad).call (.list (cs.map (loaded tok))) = .ok (collated tok pad cs) := by
  obtain ⟨c, l, rfl⟩ := List.exists_cons_of_ne_nil hne
  have p1 : collateAt (collater pad) (l.map (loaded tok)) (([] ++ [.key "audio".toList]) ++ [.key "path".toList]) (.str c.path) =
      .ok (.list (.str c.path :: l.map fun c => .str c.path)) :=
    leaf_list (k := .str) (loaded tok) (fun c => .str c.path) _ rfl (by simp) fun a _ => ⟨node_path tok a, rfl⟩
  have p2 : collateAt (collater pad) (l.map (loaded tok)) ((([] ++ [.key "audio".toList]) ++ [.key "data".toList]) ++ [.key "sample_rate".toList])
      (.num c.audio.rate) = .ok (.list (.num c.audio.rate :: l.map fun c => .num c.audio.rate)) :=
    leaf_num (loaded tok) (fun c => c.audio.rate) _ fun a _ => (node_under tok a _).trans (node_rate a)
  have p3 : collateAt (collater pad) (l.map (loaded tok)) ((([] ++ [.key "audio".toList]) ++ [.key "data".toList]) ++ [.key "format".toList])
      (.int c.audio.format) = .ok (.list (.int c.audio.format :: l.map fun c => .int c.audio.format)) :=
    leaf_list (k := .int) (loaded tok) (fun c => .int c.audio.format) _ rfl (by simp) fun a _ =>
      ⟨(node_under tok a _).trans (node_format a), rfl⟩
  have p4 : collateAt (collater pad) (l.map (loaded tok)) ((([] ++ [.key "audio".toList]) ++ [.key "data".toList]) ++ [.key "waveform".toList])
      (.tensor c.audio.wave) = .ok (padTensors 0 1 ((c :: l).map fun c => c.audio.wave)).toData :=
    leaf_tensor (a := c) (loaded tok) (fun c => c.audio.wave) (fun a _ => (node_under tok a _).trans (node_wave a)) rfl
  have p5 : collateAt (collater pad) (l.map (loaded tok)) ([] ++ [.key "audio_size".toList]) (.int c.size) =
      .ok (.list (.int c.size :: l.map fun c => .int c.size)) :=
    leaf_list (k := .int) (loaded tok) (fun c => .int c.size) _ rfl (by simp) fun a _ => ⟨node_size tok a, rfl⟩
  have p6 : collateAt (collater pad) (l.map (loaded tok)) ([] ++ [.key "text".toList]) (.tensor (tok.encode c.text)) =
      .ok (padTensors pad 1 ((c :: l).map fun c => tok.encode c.text)).toData :=
    leaf_tensor (a := c) (loaded tok) (fun c => tok.encode c.text) (fun a _ => node_text tok a) rfl
  have s1 : checkSizes (l.map (loaded tok)) [] (loaded tok c) = .ok () :=
    same_size (loaded tok) (loaded tok) _ fun a _ => ⟨rfl, rfl, rfl⟩
  have s2 : checkSizes (l.map (loaded tok)) ([] ++ [.key "audio".toList]) (.dict [("path", .str c.path), ("data", audioPart c)]) = .ok () :=
    same_size (loaded tok) _ _ fun a _ => ⟨node_audio tok a, rfl, rfl⟩
  have s3 : checkSizes (l.map (loaded tok)) (([] ++ [.key "audio".toList]) ++ [.key "data".toList]) (audioPart c) = .ok () :=
    same_size (loaded tok) _ _ fun a _ => ⟨node_under tok a [], rfl, rfl⟩
  have d3 : collateAt (collater pad) (l.map (loaded tok)) (([] ++ [.key "audio".toList]) ++ [.key "data".toList]) (audioPart c) =
      .ok (.dict [("sample_rate", .list (.num c.audio.rate :: l.map fun c => .num c.audio.rate)),
        ("format", .list (.int c.audio.format :: l.map fun c => .int c.audio.format)),
        ("waveform", (padTensors 0 1 ((c :: l).map fun c => c.audio.wave)).toData)]) := by
    unfold audioPart at s3 ⊢
    rw [collateAt, s3]
    simp only [collateDict, p2, p3, p4]
  have d2 : collateAt (collater pad) (l.map (loaded tok)) ([] ++ [.key "audio".toList]) (.dict [("path", .str c.path), ("data", audioPart c)]) =
      .ok (.dict [("path", .list (.str c.path :: l.map fun c => .str c.path)),
        ("data", .dict [("sample_rate", .list (.num c.audio.rate :: l.map fun c => .num c.audio.rate)),
        ("format", .list (.int c.audio.format :: l.map fun c => .int c.audio.format)),
        ("waveform", (padTensors 0 1 ((c :: l).map fun c => c.audio.wave)).toData)])]) := by
    rw [collateAt, s2]
    simp only [collateDict, p1, d3]
  rw [List.map_cons, Collater.call]
  unfold loaded at s1 ⊢
  rw [collateAt, s1]
  change (match collateDict (collater pad) (l.map (loaded tok)) [] [("audio", .dict [("path", .str c.path), ("data", audioPart c)]),
    ("audio_size", .int c.size), ("text", .tensor (tok.encode c.text))] with | .error e => _ | .ok ys => _) = _
  simp only [collateDict, d2, p5, p6]
  rfl

/-! ### The batch -/

theorem seqs_at {pad : Int} {ts : List (List Int)} {d : Data} {p : Path} (hne : ts ≠ []) (h : ∀ q : Path, nodeAt (p ++ q) d =
    nodeAt q (padTensors pad 1 ts).toData) :
    seqsAt p d = some (.padded (longest ts) (ts.map fun t => t ++ List.replicate (longest ts - t.length) pad), ts.map List.length) := by
  have h1 : nodeAt (p ++ [.key "seqs".toList]) d = some (.list ((padTensors pad 1 ts).seqs.map .tensor)) := by
    rw [h, Padded.toData, nodeAt, key_miss (by decide), key_hit (by decide)]
    rfl
  have h2 : nodeAt (p ++ [.key "seq_lens".toList]) d = some (.list ((ts.map List.length).map fun n : Nat => .int (Int.ofNat n))) := by
    rw [h, Padded.toData, nodeAt, key_miss (by decide), key_miss (by decide), key_hit (by decide)]
    simp only [Option.bind_some, nodeAt, padTensors, List.map_map]
  unfold seqsAt
  rw [h1, h2]
  simp only [Option.bind_some, matrix_ok, lengths_ok, Option.map_some, pad_one]
  obtain ⟨t, l, rfl⟩ := List.exists_cons_of_ne_nil hne
  have := le_longest (ts := t :: l) (t := t) (by simp)
  simp only [seqsOf, List.map_cons, List.head?_cons, Option.map_some, Option.getD_some, List.length_append, List.length_replicate]
  rw [Nat.add_sub_cancel' this]

theorem measure_ok {α : Type} {width : Nat} {rows : List (List α)} {lens : List Nat} (hl : lens.length = rows.length) (hne : lens ≠ [])
    (hw : width ≠ 0) (hn : ∀ n ∈ lens, 1 ≤ n ∧ n ≤ width) :
    measureLens (Seqs.padded width rows) (some lens) = some (lens, rows.length, rows.length, lens.sum, (lens.map (width - ·)).sum) := by
  unfold measureLens
  rw [if_neg (by simpa using hne)]
  simp only [Option.getD_some]
  rw [if_neg hw, if_neg (by omega), if_neg]
  simp only [List.any_eq_true, decide_eq_true_eq, not_exists, not_and]
  intro n h
  have := hn n h
  omega

theorem measure_short {α : Type} {width : Nat} {rows : List (List α)} {lens : List Nat} (h : 0 ∈ lens) :
    measureLens (Seqs.padded width rows) (some lens) = none := by
  unfold measureLens
  split
  · rfl
  · simp only [Option.getD_some]
    split
    · rfl
    · split
      · rfl
      · rw [if_pos]
        simp only [List.any_eq_true]
        exact ⟨0, h, by simp⟩

section
variable (tok : Tok) (pad : Int) (cs : List Clip)

theorem source_at (hne : cs ≠ []) : seqsAt [.key "audio".toList, .key "data".toList, .key "waveform".toList] (collated tok pad cs) =
    some (.padded (longest (cs.map fun c => c.audio.wave)) ((cs.map fun c => c.audio.wave).map fun t =>
      t ++ List.replicate (longest (cs.map fun c => c.audio.wave) - t.length) 0), (cs.map fun c => c.audio.wave).map List.length) := by
  refine seqs_at (by simpa using hne) fun q => ?_
  simp only [List.cons_append, List.nil_append]
  rw [collated, nodeAt, key_hit (by decide), Option.bind_some, nodeAt, key_miss (by decide), key_hit (by decide), Option.bind_some, nodeAt,
    key_miss (by decide), key_miss (by decide), key_hit (by decide), Option.bind_some]

theorem target_at (hne : cs ≠ []) : seqsAt [.key "text".toList] (collated tok pad cs) =
    some (.padded (longest (cs.map fun c => tok.encode c.text)) ((cs.map fun c => tok.encode c.text).map fun t =>
      t ++ List.replicate (longest (cs.map fun c => tok.encode c.text) - t.length) pad), (cs.map fun c => tok.encode c.text).map List.length) := by
  refine seqs_at (by simpa using hne) fun q => ?_
  simp only [List.cons_append, List.nil_append]
  rw [collated, nodeAt, key_miss (by decide), key_miss (by decide), key_hit (by decide), Option.bind_some]

theorem lens_ok {ts : List (List Int)} (h : ∀ t ∈ ts, t ≠ []) : ∀ n ∈ ts.map List.length, 1 ≤ n ∧ n ≤ longest ts := by
  intro n hn
  obtain ⟨t, ht, rfl⟩ := List.mem_map.1 hn
  exact ⟨List.length_pos_iff.2 (h t ht), le_longest ht⟩

theorem wide_ok {ts : List (List Int)} (hne : ts ≠ []) (h : ∀ t ∈ ts, t ≠ []) : longest ts ≠ 0 := by
  obtain ⟨t, l, rfl⟩ := List.exists_cons_of_ne_nil hne
  have := lens_ok h t.length (by simp)
  omega

theorem toBatch_ok (hne : cs ≠ []) (hw : ∀ c ∈ cs, c.audio.wave ≠ []) (ht : ∀ c ∈ cs, tok.encode c.text ≠ []) :
    ∃ b, toBatch (collated tok pad cs) = some b ∧
      b.source = .padded (longest (cs.map fun c => c.audio.wave)) ((cs.map fun c => c.audio.wave).map fun t =>
        t ++ List.replicate (longest (cs.map fun c => c.audio.wave) - t.length) 0) ∧
      b.sourceLens = (cs.map fun c => c.audio.wave).map List.length ∧
      b.target = .padded (longest (cs.map fun c => tok.encode c.text)) ((cs.map fun c => tok.encode c.text).map fun t =>
        t ++ List.replicate (longest (cs.map fun c => tok.encode c.text) - t.length) pad) ∧
      b.targetLens = (cs.map fun c => tok.encode c.text).map List.length := by
  have hw' : ∀ t ∈ cs.map fun c => c.audio.wave, t ≠ [] := by
    intro t h
    obtain ⟨c, hc, rfl⟩ := List.mem_map.1 h
    exact hw c hc
  have ht' : ∀ t ∈ cs.map fun c => tok.encode c.text, t ≠ [] := by
    intro t h
    obtain ⟨c, hc, rfl⟩ := List.mem_map.1 h
    exact ht c hc
  unfold toBatch
  rw [source_at tok pad cs hne, target_at tok pad cs hne]
  simp only [Option.bind_some]
  unfold S2SBatch.create
  rw [measure_ok (by simp) (by simpa using hne) (wide_ok (by simpa using hne) hw') (lens_ok hw'),
    measure_ok (by simp) (by simpa using hne) (wide_ok (by simpa using hne) ht') (lens_ok ht')]
  simp only [Option.bind_eq_bind, Option.bind_some, compatible, List.length_map, decide_true, if_true]
  exact ⟨_, rfl, rfl, rfl, rfl, rfl⟩

theorem toBatch_empty (hne : cs ≠ []) (h : ∃ c ∈ cs, tok.encode c.text = []) : toBatch (collated tok pad cs) = none := by
  obtain ⟨c, hc, he⟩ := h
  unfold toBatch
  rw [source_at tok pad cs hne, target_at tok pad cs hne]
  simp only [Option.bind_some]
  unfold S2SBatch.create
  rw [measure_short (rows := (cs.map fun c => tok.encode c.text).map _) (List.mem_map.2 ⟨[], List.mem_map.2 ⟨c, hc, he⟩, rfl⟩)]
  cases measureLens _ (some _) <;> rfl

end

/-- Shuffled, loaded and collated batches. -/
theorem collated_yields {W : Files} {p : Pipe} (tok : Tok) (window seed : Nat) (pad : Int) {cs : List (List Clip)}
    (hne : ∀ b ∈ cs, b ≠ []) (ha : ∀ b ∈ cs, ∀ c ∈ b, W.audio c.path = .ok c.audio)
    (h : (p.denote R).Yields (p.denote R).init (cs.map fun b => .list (b.map raw))) :
    ∃ buckets : List (List Clip), buckets.Perm cs ∧
      (Pipe.denote R (.map (collater pad).call (.map (loadBatch W tok) (if window ≠ 1 then .shuffle window seed p else p)))).Yields
        (Pipe.denote R (.map (collater pad).call (.map (loadBatch W tok) (if window ≠ 1 then .shuffle window seed p else p)))).init
        (buckets.map (collated tok pad)) := by
  obtain ⟨bs, hbs, hy⟩ := shuffled_yields R window seed h
  refine ⟨bs, hbs, ?_⟩
  let g : Data → Data := fun x => match loadBatch W tok x with
    | .ok d => d
    | .error _ => x
  have hl : ∀ b ∈ bs, loadBatch W tok (.list (b.map raw)) = .ok (.list (b.map (loaded tok))) := by
    intro b hb
    rw [loadBatch, load_all tok (ha b (hbs.mem_iff.1 hb))]
  have h1 := map_yields_on (f := loadBatch W tok) (g := g) (by
    intro x hx
    obtain ⟨b, hb, rfl⟩ := List.mem_map.1 hx
    simp only [g, hl b hb]) hy
  rw [List.map_map, show bs.map (g ∘ fun b => .list (b.map raw)) = bs.map fun b => .list (b.map (loaded tok)) from
    List.map_congr_left fun b hb => by simp only [Function.comp, g, hl b hb]] at h1
  let k : Data → Data := fun x => match (collater pad).call x with
    | .ok d => d
    | .error _ => x
  have hc : ∀ b ∈ bs, (collater pad).call (.list (b.map (loaded tok))) = .ok (collated tok pad b) := fun b hb =>
    collate_ok tok pad (hne b (hbs.mem_iff.1 hb))
  have h2 := map_yields_on (f := (collater pad).call) (g := k) (by
    intro x hx
    obtain ⟨b, hb, rfl⟩ := List.mem_map.1 hx
    simp only [k, hc b hb]) h1
  rw [List.map_map, show bs.map (k ∘ fun b => .list (b.map (loaded tok))) = bs.map (collated tok pad) from
    List.map_congr_left fun b hb => by simp only [Function.comp, k, hc b hb]] at h2
  exact h2

end Fs2.AsrData
