import Verif.Datasets.SslReader
import Verif.Datasets.AsrEpochsLemmas

/-!
# The data reader of wav2vec 2.0 pretraining (helper lemmas)
-/

namespace Fs2.SslData
open Fs2.Native Fs2.Batch Source
open Fs2.Sft (others_map key_hit key_miss matrix_ok)
open Fs2.LmGen (leaf_list)
open Fs2.AsrData (Recording fieldErr audioSize list_yields mem_of_shardOf leaf_num same_size shuffled_cyclic always)

/-- A recording with its entry in the manifest. -/
structure Clip where
  path : String
  size : Nat
  audio : Recording

/-- The entry of the manifest. -/
def raw (c : Clip) : Data := .dict [("audio", .str c.path), ("audio_size", .int c.size)]

/-- The part with the recording. -/
def audioPart (c : Clip) (t : List Int) : Data :=
  .dict [("sample_rate", .num c.audio.rate), ("format", .int c.audio.format), ("waveform", .tensor t)]

/-- The example with some waveform. -/
def withWave (c : Clip) (t : List Int) : Data :=
  .dict [("audio", .dict [("path", .str c.path), ("data", audioPart c t)]), ("audio_size", .int c.size)]

def loaded (c : Clip) : Data := withWave c c.audio.wave

theorem size_raw (c : Clip) : audioSize (raw c) = .ok c.size := by
  simp [audioSize, raw, List.lookup]

theorem load_all {W : Files} : ∀ {cs : List Clip}, (∀ c ∈ cs, W.audio c.path = .ok c.audio) → loadAll W (cs.map raw) = .ok (cs.map loaded)
  | [], _ => rfl
  | c :: cs, h => by
    have h1 : loadExample W (raw c) = .ok (loaded c) := by
      simp [loadExample, raw, List.lookup, h c List.mem_cons_self, loaded, withWave, audioPart]
    rw [List.map_cons, loadAll, h1, load_all fun d hd => h d (List.mem_cons_of_mem _ hd)]
    rfl

theorem waveOf_with (c : Clip) (t : List Int) : waveOf (withWave c t) = some t := by
  simp [waveOf, withWave, audioPart, List.lookup]

theorem setWave_with (c : Clip) (t t' : List Int) : setWave t' (withWave c t) = withWave c t' := by
  simp [setWave, update, withWave, audioPart]

theorem waves_loaded : ∀ cs : List Clip, wavesOf (cs.map loaded) = some (cs.map fun c => c.audio.wave)
  | [] => rfl
  | c :: cs => by
    simp only [List.map_cons, wavesOf, waves_loaded cs]
    rw [loaded, waveOf_with]
    rfl

/-! ### Cropping -/

theorem shortest_le {t : List Int} : ∀ {ts : List (List Int)}, t ∈ ts → shortest ts ≤ t.length
  | [], h => by simp at h
  | [a], h => by
    obtain rfl := List.mem_singleton.1 h
    exact Nat.le_refl _
  | a :: b :: ts, h => by
    rw [shortest]
    · rcases List.mem_cons.1 h with rfl | h
      · exact Nat.min_le_left _ _
      · exact Nat.le_trans (Nat.min_le_right _ _) (shortest_le h)
    · simp

theorem shortest_mem : ∀ {ts : List (List Int)}, ts ≠ [] → ∃ t ∈ ts, t.length = shortest ts
  | [], h => absurd rfl h
  | [a], _ => ⟨a, by simp, rfl⟩
  | a :: b :: ts, _ => by
    obtain ⟨t, h1, h2⟩ := shortest_mem (ts := b :: ts) (by simp)
    rw [shortest]
    · by_cases h : a.length ≤ shortest (b :: ts)
      · exact ⟨a, by simp, (Nat.min_eq_left h).symm⟩
      · exact ⟨t, List.mem_cons_of_mem _ h1, by rw [h2, Nat.min_eq_right (by omega)]⟩
    · simp

/-- A stretch of `size` samples; if it is not everything, it ends before the end. -/
def Stretch (size : Nat) (wave row : List Int) : Prop :=
  row.length = size ∧ ∃ before after, wave = before ++ row ++ after ∧ (size < wave.length → after ≠ [])

theorem cropOne_stretch (D : Draws) {size : Nat} (g : D.G) {t : List Int} (h : size ≤ t.length) : Stretch size t (cropOne D size g t).1 := by
  unfold cropOne
  split
  · next hgt =>
    have hlt := D.lt (t.length - size) g (by omega)
    dsimp only
    refine ⟨by rw [List.length_take, List.length_drop]; omega, t.take (D.randint (t.length - size) g).1,
      (t.drop (D.randint (t.length - size) g).1).drop size, ?_, fun _ he => ?_⟩
    · rw [List.append_assoc, List.take_append_drop, List.take_append_drop]
    · have := congrArg List.length he
      simp only [List.length_drop, List.length_nil] at this
      omega
  · next hle =>
    exact ⟨show t.length = size by omega, [], [], by simp, fun h' => absurd h' hle⟩

/-- Rows with their clips. -/
def Rows (size : Nat) (cs : List Clip) (rows : List (List Int)) : Prop := List.Forall₂ (fun c row => Stretch size c.audio.wave row) cs rows

theorem cropItems_rows (D : Draws) {size : Nat} : ∀ (g : D.G) {cs : List Clip}, (∀ c ∈ cs, size ≤ c.audio.wave.length) →
    ∃ rows, Rows size cs rows ∧
      (cropItems D size g ((cs.map loaded).zip (cs.map fun c => c.audio.wave))).1 = (cs.zip rows).map fun p => withWave p.1 p.2
  | g, [], _ => ⟨[], .nil, rfl⟩
  | g, c :: cs, h => by
    obtain ⟨rows, h1, h2⟩ := cropItems_rows D (cropOne D size g c.audio.wave).2 (fun d hd => h d (List.mem_cons_of_mem _ hd))
    refine ⟨(cropOne D size g c.audio.wave).1 :: rows, .cons (cropOne_stretch D g (h c List.mem_cons_self)) h1, ?_⟩
    simp only [List.map_cons, List.zip_cons_cons, cropItems, h2]
    rw [loaded, setWave_with]

/-- A batch before collating. -/
def cropped (cs : List Clip) (rows : List (List Int)) : Data := .list ((cs.zip rows).map fun p => withWave p.1 p.2)

theorem cropBatch_rows (D : Draws) (maxLen : Nat) (g : D.G) {cs : List Clip} (hne : cs ≠ []) :
    ∃ rows g', Rows (min maxLen (shortest (cs.map fun c => c.audio.wave))) cs rows ∧
      cropBatch D maxLen g (.list (cs.map loaded)) = .ok (cropped cs rows, g') := by
  obtain ⟨c, l, rfl⟩ := List.exists_cons_of_ne_nil hne
  obtain ⟨rows, h1, h2⟩ := cropItems_rows D (size := min maxLen (shortest ((c :: l).map fun c => c.audio.wave))) g (cs := c :: l) (by
    intro d hd
    have := shortest_le (List.mem_map.2 ⟨d, hd, rfl⟩ : d.audio.wave ∈ (c :: l).map fun c => c.audio.wave)
    omega)
  refine ⟨rows, (cropItems D (min maxLen (shortest ((c :: l).map fun c => c.audio.wave))) g
    (((c :: l).map loaded).zip ((c :: l).map fun c => c.audio.wave))).2, h1, ?_⟩
  have hw := waves_loaded (c :: l)
  rw [List.map_cons] at hw ⊢
  simp only [cropBatch, hw]
  rw [cropped, ← h2]
  rfl

variable {S : Source}

theorem crop_steps {D : Draws} {maxLen seed : Nat} {s t : S.σ × D.G} {b : Bool} (h : (cropping D maxLen seed S).Steps s b t) :
    ∃ c, S.Steps s.1 c t.1 ∧ (b = true → c = true) := by
  refine Source.Steps.lower (S := S) (T := cropping D maxLen seed S) (fun s : S.σ × D.G => s.1) ?_ h
  intro (s : S.σ × D.G) r (s' : S.σ × D.G) hn hr
  replace hn : cropNext S D maxLen s = some (r, s') := hn
  unfold cropNext at hn
  split at hn
  · cases hn
  · next hx =>
    obtain ⟨b, h1, -⟩ := Source.Steps.one hx (by simp)
    split at hn <;> cases hn
    · exact absurd rfl (hr _)
    · exact ⟨b, h1, by simp⟩
  · next hx =>
    cases hn
    exact Source.Steps.one hx (by simp)
  · cases hn
    exact absurd rfl (hr _)

theorem crop_yields {D : Draws} {maxLen seed : Nat} {s : S.σ} {ys : List Data} (g : D.G) (h : S.Yields s ys)
    (hc : ∀ y ∈ ys, ∀ g, ∃ z, cropBatch D maxLen g y = .ok z) :
    ∃ zs, List.Forall₂ (fun z y => ∃ g g', cropBatch D maxLen g y = .ok (z, g')) zs ys ∧ (cropping D maxLen seed S).Yields (s, g) zs := by
  obtain ⟨s', h1, h2⟩ := h
  induction h1 generalizing g with
  | nil s =>
    refine ⟨[], .nil, (s, g), .nil _, .coind (fun u : S.σ × D.G => S.Ended u.1) h2 ?_⟩
    rintro u hu
    obtain ⟨v, h3, h4⟩ := hu.next
    exact ⟨(v, u.2), by simp [cropping, cropNext, h3], h4⟩
  | @cons s s₁ s₂ x xs hn _ ih =>
    obtain ⟨⟨z, g'⟩, hz⟩ := hc x List.mem_cons_self g
    obtain ⟨zs, h3, t, h4, h5⟩ := ih g' (fun y hy => hc y (List.mem_cons_of_mem _ hy)) h2
    exact ⟨z :: zs, .cons ⟨g, g', hz⟩ h3, t, .cons (by simp [cropping, cropNext, hn, hz]) h4, h5⟩

theorem crop_cyclic {D : Draws} {maxLen seed : Nat} {C : Nat → S.σ → Prop} {Q : Nat → List Data → Prop} (h : S.Cyclic C Q)
    (hc : ∀ k ys, Q k ys → ∀ y ∈ ys, ∀ g, ∃ z, cropBatch D maxLen g y = .ok z) :
    (cropping D maxLen seed S).Cyclic (fun k (s : S.σ × D.G) => C k s.1)
      (fun k zs => ∃ ys, Q k ys ∧ List.Forall₂ (fun z y => ∃ g g', cropBatch D maxLen g y = .ok (z, g')) zs ys) := by
  intro k (s : S.σ × D.G) hs
  obtain ⟨ys, h1, h2, h3⟩ := h k s.1 hs
  obtain ⟨zs, h4, h5⟩ := crop_yields (seed := seed) s.2 h2 (hc k ys h1)
  refine ⟨zs, ⟨ys, h1, h4⟩, h5, fun t ht => ?_⟩
  obtain ⟨c, h6, h7⟩ := crop_steps ht
  obtain rfl := h7 rfl
  exact h3 _ h6

/-! ### Collating -/

/-- The collated batch. -/
def collated (ps : List (Clip × List Int)) : Data :=
  .dict [("audio", .dict [("path", .list (ps.map fun p => .str p.1.path)),
      ("data", .dict [("sample_rate", .list (ps.map fun p => .num p.1.audio.rate)), ("format", .list (ps.map fun p => .int p.1.audio.format)),
        ("waveform", .list (ps.map fun p => .tensor p.2))])]),
    ("audio_size", .list (ps.map fun p => .int p.1.size))]

theorem leaf_stack {α : Type} {path : Path} {l : List α} {a : α} (f : α → Data) (g : α → List Int)
    (h : ∀ b ∈ l, nodeAt path (f b) = some (.tensor (g b))) (hl : ∀ b ∈ l, (g b).length = (g a).length) :
    collateAt collater (l.map f) path (.tensor (g a)) = .ok (.list ((a :: l).map fun b => .tensor (g b))) := by
  rw [collateAt]
  unfold collateLeaf
  rw [others_map (k := kind (.tensor (g a))) l f (fun b => .tensor (g b)) fun b hb => ⟨h b hb, rfl⟩]
  have ho : (collater.optsFor path).padValue = none := rfl
  simp only [collateTensors, ho, List.map_map]
  rw [if_pos]
  · simp [Function.comp, tensorOf]
  · simp only [List.all_eq_true, List.mem_map, decide_eq_true_eq]
    rintro x ⟨b, hb, rfl⟩
    exact hl b hb

section
variable (p : Clip × List Int)

private abbrev f (p : Clip × List Int) : Data := withWave p.1 p.2

theorem node_audio : nodeAt [.key "audio".toList] (withWave p.1 p.2) = some (.dict [("path", .str p.1.path), ("data", audioPart p.1 p.2)]) := by
  simp only [withWave, nodeAt]
  rw [key_hit (by decide)]
  rfl

theorem node_under (q : Path) : nodeAt (.key "audio".toList :: .key "data".toList :: q) (withWave p.1 p.2) = nodeAt q (audioPart p.1 p.2) := by
  rw [withWave, nodeAt, key_hit (by decide), Option.bind_some, nodeAt, key_miss (by decide), key_hit (by decide)]
  rfl

theorem node_path : nodeAt [.key "audio".toList, .key "path".toList] (withWave p.1 p.2) = some (.str p.1.path) := by
  rw [withWave, nodeAt, key_hit (by decide), Option.bind_some, nodeAt, key_hit (by decide)]
  rfl

theorem node_rate : nodeAt [.key "sample_rate".toList] (audioPart p.1 p.2) = some (.num p.1.audio.rate) := by
  simp only [audioPart, nodeAt]
  rw [key_hit (by decide)]
  rfl

theorem node_format : nodeAt [.key "format".toList] (audioPart p.1 p.2) = some (.int p.1.audio.format) := by
  simp only [audioPart, nodeAt]
  rw [key_miss (by decide), key_hit (by decide)]
  rfl

theorem node_wave : nodeAt [.key "waveform".toList] (audioPart p.1 p.2) = some (.tensor p.2) := by
  simp only [audioPart, nodeAt]
  rw [key_miss (by decide), key_miss (by decide), key_hit (by decide)]
  rfl

theorem node_size : nodeAt [.key "audio_size".toList] (withWave p.1 p.2) = some (.int p.1.size) := by
  simp only [withWave, nodeAt]
  rw [key_miss (by decide), key_hit (by decide)]
  rfl

end

theorem collate_ok {ps : List (Clip × List Int)} {n : Nat} (hne : ps ≠ []) (hn : ∀ p ∈ ps, p.2.length = n) :
    collater.call (.list (ps.map fun p => withWave p.1 p.2)) = .ok (collated ps) := by
  obtain ⟨c, l, rfl⟩ := List.exists_cons_of_ne_nil hne
  have hl : ∀ b ∈ l, b.2.length = c.2.length := fun b hb => by rw [hn b (List.mem_cons_of_mem _ hb), hn c List.mem_cons_self]
  have p1 : collateAt collater (l.map f) (([] ++ [.key "audio".toList]) ++ [.key "path".toList]) (.str c.1.path) =
      .ok (.list (.str c.1.path :: l.map fun c => .str c.1.path)) :=
    leaf_list (k := .str) f (fun c => .str c.1.path) _ rfl (by simp) fun a _ => ⟨node_path a, rfl⟩
  have p2 : collateAt collater (l.map f) ((([] ++ [.key "audio".toList]) ++ [.key "data".toList]) ++ [.key "sample_rate".toList])
      (.num c.1.audio.rate) = .ok (.list (.num c.1.audio.rate :: l.map fun c => .num c.1.audio.rate)) :=
    leaf_num f (fun c => c.1.audio.rate) _ fun a _ => (node_under a _).trans (node_rate a)
  have p3 : collateAt collater (l.map f) ((([] ++ [.key "audio".toList]) ++ [.key "data".toList]) ++ [.key "format".toList])
      (.int c.1.audio.format) = .ok (.list (.int c.1.audio.format :: l.map fun c => .int c.1.audio.format)) :=
    leaf_list (k := .int) f (fun c => .int c.1.audio.format) _ rfl (by simp) fun a _ => ⟨(node_under a _).trans (node_format a), rfl⟩
  have p4 : collateAt collater (l.map f) ((([] ++ [.key "audio".toList]) ++ [.key "data".toList]) ++ [.key "waveform".toList])
      (.tensor c.2) = .ok (.list ((c :: l).map fun p => .tensor p.2)) :=
    leaf_stack (a := c) f (fun c => c.2) (fun a _ => (node_under a _).trans (node_wave a)) hl
  have p5 : collateAt collater (l.map f) ([] ++ [.key "audio_size".toList]) (.int c.1.size) =
      .ok (.list (.int c.1.size :: l.map fun c => .int c.1.size)) :=
    leaf_list (k := .int) f (fun c => .int c.1.size) _ rfl (by simp) fun a _ => ⟨node_size a, rfl⟩
  have s1 : checkSizes (l.map f) [] (withWave c.1 c.2) = .ok () :=
    same_size f f _ fun a _ => ⟨rfl, rfl, rfl⟩
  have s2 : checkSizes (l.map f) ([] ++ [.key "audio".toList]) (.dict [("path", .str c.1.path), ("data", audioPart c.1 c.2)]) = .ok () :=
    same_size f _ _ fun a _ => ⟨node_audio a, rfl, rfl⟩
  have s3 : checkSizes (l.map f) (([] ++ [.key "audio".toList]) ++ [.key "data".toList]) (audioPart c.1 c.2) = .ok () :=
    same_size f _ _ fun a _ => ⟨node_under a [], rfl, rfl⟩
  have d3 : collateAt collater (l.map f) (([] ++ [.key "audio".toList]) ++ [.key "data".toList]) (audioPart c.1 c.2) =
      .ok (.dict [("sample_rate", .list (.num c.1.audio.rate :: l.map fun c => .num c.1.audio.rate)),
        ("format", .list (.int c.1.audio.format :: l.map fun c => .int c.1.audio.format)),
        ("waveform", .list ((c :: l).map fun p => .tensor p.2))]) := by
    unfold audioPart at s3 ⊢
    rw [collateAt, s3]
    simp only [collateDict, p2, p3, p4]
  have d2 : collateAt collater (l.map f) ([] ++ [.key "audio".toList]) (.dict [("path", .str c.1.path), ("data", audioPart c.1 c.2)]) =
      .ok (.dict [("path", .list (.str c.1.path :: l.map fun c => .str c.1.path)),
        ("data", .dict [("sample_rate", .list (.num c.1.audio.rate :: l.map fun c => .num c.1.audio.rate)),
        ("format", .list (.int c.1.audio.format :: l.map fun c => .int c.1.audio.format)),
        ("waveform", .list ((c :: l).map fun p => .tensor p.2))])]) := by
    rw [collateAt, s2]
    simp only [collateDict, p1, d3]
  rw [List.map_cons, Collater.call]
  change collateAt collater (l.map f) [] (withWave c.1 c.2) = _
  unfold withWave at s1 ⊢
  rw [collateAt, s1]
  simp only [collateDict, d2, p5]
  rfl

/-- Waveforms of one width are stacked, and no length is told. -/
theorem toBatch_ok {ps : List (Clip × List Int)} {n : Nat} (hne : ps ≠ []) (hn : ∀ p ∈ ps, p.2.length = n) (h0 : n ≠ 0) :
    ∃ b, toBatch (collated ps) = some b ∧ b.seqs = .padded n (ps.map fun p => p.2) ∧ b.lens = List.replicate ps.length n ∧ b.padding = 0 := by
  have hnode : nodeAt [.key "audio".toList, .key "data".toList, .key "waveform".toList] (collated ps) =
      some (.list ((ps.map fun p => p.2).map .tensor)) := by
    rw [collated, nodeAt, key_hit (by decide), Option.bind_some, nodeAt, key_miss (by decide), key_hit (by decide), Option.bind_some, nodeAt,
      key_miss (by decide), key_miss (by decide), key_hit (by decide), List.map_map]
    rfl
  have hs : Sft.seqsOf (ps.map fun p => p.2) = .padded n (ps.map fun p => p.2) := by
    obtain ⟨c, l, rfl⟩ := List.exists_cons_of_ne_nil hne
    simp [Sft.seqsOf, hn c List.mem_cons_self]
  have hm : measureLens (.padded n (ps.map fun p => p.2)) none = some (List.replicate ps.length n, ps.length, ps.length, (List.replicate ps.length n).sum,
      ((List.replicate ps.length n).map (n - ·)).sum) := by
    unfold measureLens
    rw [if_neg (by simp)]
    simp only [Option.getD_none, List.length_map, List.length_replicate]
    rw [if_neg h0, if_neg (by simp), if_neg]
    simp only [List.any_eq_true, decide_eq_true_eq, not_exists, not_and]
    intro m hm
    have := List.eq_of_mem_replicate hm
    omega
  unfold toBatch
  rw [hnode]
  simp only [Option.bind_some, matrix_ok, hs, SeqBatch.create, hm, Option.bind_eq_bind]
  exact ⟨_, rfl, rfl, rfl, by simp⟩

/-! ### Examples -/

/-- The lines are those of the clips. -/
structure Reads (W : Files) (clips : List Clip) : Prop where
  manifest : ∃ header lines, W.manifest = header :: lines ∧ lines.map W.parse = clips.map fun c => .ok (raw c)
  audio : ∀ c ∈ clips, W.audio c.path = .ok c.audio

variable (R : Rng)

theorem manifest_yields {W : Files} {clips : List Clip} (h : Reads W clips) :
    ((manifestPipe W).denote R).Yields ((manifestPipe W).denote R).init (clips.map raw) := by
  obtain ⟨header, lines, hm, hp⟩ := h.manifest
  have h1 := skip_yields (n := 1) (list_yields W.manifest)
  rw [hm] at h1
  let g : Data → Data := fun l => match W.parse l with
    | .ok d => d
    | .error _ => l
  have hg : ∀ l ∈ lines, W.parse l = .ok (g l) := by
    intro l hl
    have : W.parse l ∈ lines.map W.parse := List.mem_map.2 ⟨l, hl, rfl⟩
    rw [hp] at this
    obtain ⟨c, -, hc⟩ := List.mem_map.1 this
    simp only [g, ← hc]
  have h2 := map_yields_on (f := W.parse) (g := g) hg h1
  have e : lines.map g = clips.map raw := by
    have h3 : (lines.map g).map (Except.ok (ε := Err)) = (clips.map raw).map Except.ok := by
      rw [List.map_map, List.map_map]
      refine Eq.trans (List.map_congr_left fun l hl => (hg l hl).symm) hp
    exact (List.map_inj_right (fun a b h => by cases h; rfl)).1 h3
  rw [e, ← hm] at h2
  exact h2

theorem raw_inj {W : Files} {clips : List Clip} (h : Reads W clips) {a b : Clip} (ha : a ∈ clips) (hb : b ∈ clips) (e : raw a = raw b) :
    a = b := by
  have h1 := h.audio a ha
  have h2 := h.audio b hb
  obtain ⟨p, s, u⟩ := a
  obtain ⟨p', s', u'⟩ := b
  simp only [raw, Data.dict.injEq, List.cons.injEq, Prod.mk.injEq, Data.str.injEq, Data.int.injEq, true_and, and_true] at e
  obtain ⟨e1, e2⟩ := e
  subst e1
  rw [h1] at h2
  cases h2
  cases Int.ofNat.inj e2
  rfl

theorem map_raw_inj {W : Files} {clips : List Clip} (h : Reads W clips) : ∀ {K L : List Clip}, (∀ c ∈ K, c ∈ clips) → (∀ c ∈ L, c ∈ clips) →
    K.map raw = L.map raw → K = L
  | [], [], _, _, _ => rfl
  | [], _ :: _, _, _, e => by simp at e
  | _ :: _, [], _, _, e => by simp at e
  | a :: K, b :: L, hK, hL, e => by
    simp only [List.map_cons, List.cons.injEq] at e
    rw [raw_inj h (hK a List.mem_cons_self) (hL b List.mem_cons_self) e.1,
      map_raw_inj h (fun c hc => hK c (List.mem_cons_of_mem _ hc)) (fun c hc => hL c (List.mem_cons_of_mem _ hc)) e.2]

theorem split_shards {W : Files} {clips : List Clip} (h : Reads W clips) (size : Nat) (hsize : 0 < size) {order : List Clip}
    (hord : order.Perm clips) : ∃ M : Nat → List Clip, ((List.range size).flatMap M).Perm clips ∧
      ∀ r, shardOf r size (order.map raw) = (M r).map raw := by
  have pick : ∀ r, ∃ K : List Clip, shardOf r size (order.map raw) = K.map raw ∧ ∀ c ∈ K, c ∈ clips := by
    intro r
    have : ∀ ys : List Data, (∀ y ∈ ys, y ∈ order.map raw) → ∃ K : List Clip, ys = K.map raw ∧ ∀ c ∈ K, c ∈ clips := by
      intro ys
      induction ys with
      | nil => exact fun _ => ⟨[], rfl, by simp⟩
      | cons y ys ih =>
        intro hy
        obtain ⟨K, k1, k2⟩ := ih fun z hz => hy z (List.mem_cons_of_mem _ hz)
        obtain ⟨a, ha, e⟩ := List.mem_map.1 (hy y List.mem_cons_self)
        refine ⟨a :: K, by rw [List.map_cons, e, ← k1], ?_⟩
        intro c hc
        rcases List.mem_cons.1 hc with rfl | hc
        · exact hord.mem_iff.1 ha
        · exact k2 c hc
    exact this _ fun y hy => mem_of_shardOf hy
  obtain ⟨M, hM⟩ := Classical.axiomOfChoice pick
  refine ⟨M, ?_, fun r => (hM r).1⟩
  have hp : (((List.range size).flatMap M).map raw).Perm (order.map raw) := by
    rw [List.map_flatMap]
    simp only [← (hM _).1]
    exact perm_shards size hsize _
  obtain ⟨K, hK, hKe⟩ := perm_map_exists hp.symm order rfl
  have : (List.range size).flatMap M = K := by
    refine map_raw_inj h ?_ ?_ hKe
    · intro c hc
      obtain ⟨r, -, hc⟩ := List.mem_flatMap.1 hc
      exact (hM r).2 c hc
    · intro c hc
      exact hord.mem_iff.1 (hK.mem_iff.2 hc)
  rw [this]
  exact hK.symm.trans hord

/-- The order of the examples in each epoch, which is the same for all ranks. -/
theorem orders {W : Files} {clips : List Clip} (h : Reads W clips) (window seed : Nat) :
    ∃ (order : Nat → List Clip) (C : _), (∀ k, (order k).Perm clips) ∧
      C 0 (Pipe.denote R (if window ≠ 1 then .shuffle window seed (manifestPipe W) else manifestPipe W)).init ∧
      (Pipe.denote R (if window ≠ 1 then .shuffle window seed (manifestPipe W) else manifestPipe W)).Cyclic C fun k ys => ys = (order k).map raw := by
  have hb := cyclic_of_inv (always ((manifestPipe W).denote R)) (xs := clips.map raw) (fun {t} _ => manifest_yields R h)
  by_cases hw : window ≠ 1
  · rw [if_pos hw]
    have hne : shuffleWindow window ≠ 1 := by
      unfold shuffleWindow
      split
      · decide
      · exact hw
    obtain ⟨u, L, h1, h2, h3⟩ := (shuffle_cyclic (R := R) (w := window) (seed := seed) hb).pin (shuffle_stay hne)
      (s₀ := (shuffle R window seed _).init) ⟨rfl, rfl, trivial, manifest_yields R h⟩
    have h4 : ∀ k, ∃ order : List Clip, order.Perm clips ∧ L k = order.map raw := by
      intro k
      obtain ⟨ys, rfl, hp⟩ := h2 k
      obtain ⟨bs, h5, h6⟩ := perm_map_exists hp.symm _ rfl
      exact ⟨bs, h5.symm, h6⟩
    obtain ⟨order, ho⟩ := Classical.axiomOfChoice h4
    refine ⟨order, fun k s => s = u k, fun k => (ho k).1, h1.symm, h3.mono fun k ys e => ?_⟩
    rw [e, (ho k).2]
  · rw [if_neg hw]
    exact ⟨fun _ => clips, _, fun _ => .refl _, ⟨trivial, manifest_yields R h⟩, hb⟩

/-- What all ranks have before batching, in every epoch. -/
theorem examples_cyclic {W : Files} {clips : List Clip} (h : Reads W clips) (size : Nat) (o : Options) (hsize : 0 < size) :
    ∃ L : Nat → Nat → List Clip, (∀ k, ((List.range size).flatMap (L k)).Perm clips) ∧
      ∀ rank, rank < size → ∃ C, C 0 (Pipe.denote R (examplePipe W rank size o)).init ∧
        (Pipe.denote R (examplePipe W rank size o)).Cyclic C fun k ys => ys = (L k rank).map raw := by
  obtain ⟨order, C, ho, h0, hc⟩ := orders R h o.exampleShuffleWindow o.seed
  by_cases hs : size > 1
  · obtain ⟨M, hM⟩ := Classical.axiomOfChoice fun k => split_shards h size hsize (ho k)
    refine ⟨M, fun k => (hM k).1, fun rank hr => ?_⟩
    have e : examplePipe W rank size o = .shard rank size true (if o.exampleShuffleWindow ≠ 1 then
        .shuffle o.exampleShuffleWindow o.seed (manifestPipe W) else manifestPipe W) := if_pos hs
    rw [e]
    exact ⟨C, h0, (shard_cyclic hr hc).mono fun k ys e => by rw [e, (hM k).2]⟩
  · obtain rfl : size = 1 := by omega
    refine ⟨fun k _ => order k, fun k => ?_, fun rank _ => ⟨C, h0, hc⟩⟩
    simpa [List.range_succ] using ho k

theorem forall₂_map_right {α β γ : Type} {P : α → γ → Prop} {f : β → γ} : ∀ {zs : List α} {l : List β},
    List.Forall₂ P zs (l.map f) → List.Forall₂ (fun z b => P z (f b)) zs l
  | [], [], _ => .nil
  | _ :: _, _ :: _, .cons h t => .cons h (forall₂_map_right t)

/-- Shuffling batches, loading, cropping and collating: what is made of each bucket. -/
theorem collated_cyclic {W : Files} {p : Pipe} {D : Draws} (window seed maxLen cropSeed : Nat) {C : Nat → (p.denote R).σ → Prop}
    {P : Nat → List (List Clip) → Prop} (hne : ∀ k cs, P k cs → ∀ b ∈ cs, b ≠ [])
    (ha : ∀ k cs, P k cs → ∀ b ∈ cs, ∀ c ∈ b, W.audio c.path = .ok c.audio)
    (h : (p.denote R).Cyclic C fun k ys => ∃ cs, P k cs ∧ ys = cs.map fun b => .list (b.map raw)) (h0 : C 0 (p.denote R).init) :
    ∃ C', C' 0 (map collater.call (cropping D maxLen cropSeed (Pipe.denote R (.map (loadBatch W) (if window ≠ 1 then .shuffle window seed p else p))))).init ∧
      (map collater.call (cropping D maxLen cropSeed (Pipe.denote R (.map (loadBatch W) (if window ≠ 1 then .shuffle window seed p else p))))).Cyclic C'
        fun k zs => ∃ cs buckets : List (List Clip), P k cs ∧ buckets.Perm cs ∧
          List.Forall₂ (fun z b => ∃ rows, Rows (min maxLen (shortest (b.map fun c => c.audio.wave))) b rows ∧ z = collated (b.zip rows)) zs buckets := by
  obtain ⟨C', h1, h2⟩ := shuffled_cyclic R window seed h h0
  have h3 := h2.mono (Q' := fun k zs => ∃ cs buckets : List (List Clip), P k cs ∧ buckets.Perm cs ∧ zs = buckets.map fun b => .list (b.map raw)) (by
    rintro k zs ⟨ys, ⟨cs, hp, rfl⟩, hperm⟩
    obtain ⟨bs, h5, h6⟩ := perm_map_exists hperm.symm _ rfl
    exact ⟨cs, bs, hp, h5.symm, h6⟩)
  let g : Data → Data := fun x => match loadBatch W x with
    | .ok d => d
    | .error _ => x
  have hl : ∀ b : List Clip, (∀ c ∈ b, W.audio c.path = .ok c.audio) → loadBatch W (.list (b.map raw)) = .ok (.list (b.map loaded)) := by
    intro b hb
    rw [loadBatch, load_all hb]
  have h4 := (map_cyclic (f := loadBatch W) (g := g) h3 (by
    rintro k zs ⟨cs, bs, hp, hperm, rfl⟩ x hx
    obtain ⟨b, hb, rfl⟩ := List.mem_map.1 hx
    simp only [g, hl b (ha k cs hp b (hperm.mem_iff.1 hb))])).mono
    (Q' := fun k zs => ∃ cs buckets : List (List Clip), P k cs ∧ buckets.Perm cs ∧ zs = buckets.map fun b => .list (b.map loaded)) (by
    rintro k zs ⟨_, ⟨cs, bs, hp, hperm, rfl⟩, rfl⟩
    refine ⟨cs, bs, hp, hperm, ?_⟩
    rw [List.map_map]
    exact List.map_congr_left fun b hb => by simp only [Function.comp, g, hl b (ha k cs hp b (hperm.mem_iff.1 hb))])
  have h5 := (crop_cyclic (D := D) (maxLen := maxLen) (seed := cropSeed) h4 (by
    rintro k zs ⟨cs, bs, hp, hperm, rfl⟩ x hx g
    obtain ⟨b, hb, rfl⟩ := List.mem_map.1 hx
    obtain ⟨rows, g', -, h6⟩ := cropBatch_rows D maxLen g (hne k cs hp b (hperm.mem_iff.1 hb))
    exact ⟨_, h6⟩)).mono (Q' := fun k zs => ∃ cs buckets : List (List Clip), P k cs ∧ buckets.Perm cs ∧
      List.Forall₂ (fun z b => b ≠ [] ∧ ∃ rows, Rows (min maxLen (shortest (b.map fun c => c.audio.wave))) b rows ∧ z = cropped b rows) zs buckets) (by
    rintro k zs ⟨_, ⟨cs, bs, hp, hperm, rfl⟩, hf⟩
    refine ⟨cs, bs, hp, hperm, ?_⟩
    replace hf := forall₂_map_right hf
    have hb : ∀ b ∈ bs, b ≠ [] := fun b hb => hne k cs hp b (hperm.mem_iff.1 hb)
    clear hperm
    induction hf with
    | nil => exact .nil
    | @cons z b zs bs hz _ ih =>
      refine .cons ?_ (ih fun c hc => hb c (List.mem_cons_of_mem _ hc))
      obtain ⟨g, g', hz⟩ := hz
      have hb := hb b List.mem_cons_self
      obtain ⟨rows, g'', h6, h7⟩ := cropBatch_rows D maxLen g hb
      rw [hz] at h7
      cases h7
      exact ⟨hb, rows, h6, rfl⟩)
  let j : Data → Data := fun x => match collater.call x with
    | .ok d => d
    | .error _ => x
  have hcol : ∀ {b : List Clip} {n : Nat} {rows : List (List Int)}, b ≠ [] → Rows n b rows → collater.call (cropped b rows) = .ok (collated (b.zip rows)) := by
    intro b n rows hb hr
    refine collate_ok (n := n) ?_ ?_
    · cases hr with
      | nil => exact absurd rfl hb
      | cons _ _ => simp
    · intro p hp
      clear hb
      induction hr with
      | nil => simp at hp
      | cons h _ ih =>
        rw [List.zip_cons_cons] at hp
        rcases List.mem_cons.1 hp with rfl | hp
        · exact h.1
        · exact ih hp
  refine ⟨_, h1, (map_cyclic (f := collater.call) (g := j) h5 ?_).mono ?_⟩
  · rintro k zs ⟨cs, bs, -, -, hf⟩ y hy
    induction hf with
    | nil => simp at hy
    | cons h _ ih =>
      rcases List.mem_cons.1 hy with rfl | hy
      · obtain ⟨hb, rows, h6, rfl⟩ := h
        simp only [j, hcol hb h6]
      · exact ih hy
  · rintro k zs ⟨ys, ⟨cs, bs, hp, hperm, hf⟩, rfl⟩
    refine ⟨cs, bs, hp, hperm, ?_⟩
    clear hperm
    induction hf with
    | nil => exact .nil
    | cons h _ ih =>
      obtain ⟨hb, rows, h6, rfl⟩ := h
      exact .cons ⟨rows, h6, by simp only [j, hcol hb h6]⟩ ih

end Fs2.SslData
