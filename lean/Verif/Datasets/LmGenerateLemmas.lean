import Verif.Datasets.LmGenerate
import Verif.Datasets.SftReaderLemmas
import Verif.Pipeline.MultiStreams

/-!
# Lemmas about the text generation recipe
-/

namespace Fs2.LmGen
open Fs2.Native Fs2.Batch Fs2.Sft Source

/-- What a line of a file asks for. -/
structure Question where
  id : Option Data
  text : String

/-- The example that `encode` makes of it. -/
def encoded (tok : Tok) (q : Question) : Data :=
  .dict [("id", q.id.getD nothing), ("prompt", .str q.text), ("indices", .tensor (tok.prompt q.text))]

/-- Ids that can be collated. -/
inductive IdsAlike (qs : List Question) : Prop where
  | absent (h : ∀ q ∈ qs, q.id = none)
  | ints (h : ∀ q ∈ qs, ∃ i, q.id = some (.int i))
  | strs (h : ∀ q ∈ qs, ∃ s, q.id = some (.str s))

theorem IdsAlike.mono {a b : List Question} (h : IdsAlike a) (hs : ∀ q ∈ b, q ∈ a) : IdsAlike b := by
  cases h with
  | absent h => exact .absent fun q hq => h q (hs q hq)
  | ints h => exact .ints fun q hq => h q (hs q hq)
  | strs h => exact .strs fun q hq => h q (hs q hq)

/-- All ids are of one type that is not a container. -/
theorem IdsAlike.kinds {qs : List Question} (h : IdsAlike qs) : ∃ k : Kind, (k = .bool ∨ k = .int ∨ k = .str) ∧
    ∀ q ∈ qs, kind (q.id.getD nothing) = k := by
  cases h with
  | absent h => exact ⟨.bool, by simp, fun q hq => by rw [h q hq]; rfl⟩
  | ints h => exact ⟨.int, by simp, fun q hq => by obtain ⟨i, e⟩ := h q hq; rw [e]; rfl⟩
  | strs h => exact ⟨.str, by simp, fun q hq => by obtain ⟨i, e⟩ := h q hq; rw [e]; rfl⟩

theorem IdsAlike.idOf {qs : List Question} (h : IdsAlike qs) : ∀ q ∈ qs, idOf (q.id.getD nothing) = q.id := by
  intro q hq
  cases h with
  | absent h => rw [h q hq]; rfl
  | ints h => obtain ⟨i, e⟩ := h q hq; rw [e]; rfl
  | strs h => obtain ⟨i, e⟩ := h q hq; rw [e]; rfl

/-! ### The collater -/

theorem node_id (tok : Tok) (q : Question) : nodeAt [.key "id".toList] (encoded tok q) = some (q.id.getD nothing) := by
  simp only [encoded, nodeAt]
  rw [key_hit (by decide)]
  rfl

theorem node_prompt (tok : Tok) (q : Question) : nodeAt [.key "prompt".toList] (encoded tok q) = some (.str q.text) := by
  simp only [encoded, nodeAt]
  rw [key_miss (by decide), key_hit (by decide)]
  rfl

theorem node_indices (tok : Tok) (q : Question) : nodeAt [.key "indices".toList] (encoded tok q) = some (.tensor (tok.prompt q.text)) := by
  simp only [encoded, nodeAt]
  rw [key_miss (by decide), key_miss (by decide), key_hit (by decide)]
  rfl

theorem leaf_list {α : Type} {c : Collater} {path : Path} {l : List α} {k : Kind} (f g : α → Data) (x : Data) (hx : kind x = k)
    (hk : k = .bool ∨ k = .int ∨ k = .str)
    (h : ∀ a ∈ l, nodeAt path (f a) = some (g a) ∧ kind (g a) = k) :
    collateAt c (l.map f) path x = .ok (.list (x :: l.map g)) := by
  have ho := others_map l f g h
  cases x with
  | bool b => rw [collateAt, collateLeaf, show kind (.bool b) = k from hx, ho]
  | int i => rw [collateAt, collateLeaf, show kind (.int i) = k from hx, ho]
  | str s => rw [collateAt, collateLeaf, show kind (.str s) = k from hx, ho]
  | num q => simp [kind] at hx; subst hx; simp at hk
  | tensor t => simp [kind] at hx; subst hx; simp at hk
  | list t => simp [kind] at hx; subst hx; simp at hk
  | dict t => simp [kind] at hx; subst hx; simp at hk

theorem leaf_tensor {α : Type} {c : Collater} {path : Path} {l : List α} {a : α} (f : α → Data) (g : α → List Int)
    (h : ∀ b ∈ l, nodeAt path (f b) = some (.tensor (g b))) {pad : Int} (ho : c.optsFor path = ⟨some pad, 1⟩) :
    collateAt c (l.map f) path (.tensor (g a)) = .ok (padTensors pad 1 ((a :: l).map g)).toData := by
  rw [collateAt]
  unfold collateLeaf
  rw [others_map (k := kind (.tensor (g a))) l f (fun b => .tensor (g b)) fun b hb => ⟨h b hb, rfl⟩]
  simp only [collateTensors, ho, List.map_map, List.map_cons]
  rfl

/-- The batch that the collater makes. -/
def collated (tok : Tok) (pad : Int) (qs : List Question) : Data :=
  .dict [("id", .list (qs.map fun q => q.id.getD nothing)), ("prompt", .list (qs.map fun q => .str q.text)),
    ("indices", (padTensors pad 1 (qs.map fun q => tok.prompt q.text)).toData)]

theorem collate_ok {tok : Tok} {pad : Int} (hp : (collater tok).opts = ⟨some pad, 1⟩) {qs : List Question} (hne : qs ≠ [])
    (hid : IdsAlike qs) : (collater tok).call (.list (qs.map (encoded tok))) = .ok (collated tok pad qs) := by
  obtain ⟨q, l, rfl⟩ := List.exists_cons_of_ne_nil hne
  obtain ⟨k, hk, hall⟩ := hid.kinds
  have h1 : collateAt (collater tok) (l.map (encoded tok)) ([] ++ [.key "id".toList]) (q.id.getD nothing) =
      .ok (.list ((q.id.getD nothing) :: l.map fun q => q.id.getD nothing)) :=
    leaf_list (encoded tok) (fun q => q.id.getD nothing) _ (hall q (by simp)) hk fun a ha => ⟨node_id tok a, hall a (by simp [ha])⟩
  have h2 : collateAt (collater tok) (l.map (encoded tok)) ([] ++ [.key "prompt".toList]) (.str q.text) =
      .ok (.list ((.str q.text) :: l.map fun q => .str q.text)) :=
    leaf_list (k := .str) (encoded tok) (fun q => .str q.text) _ rfl (by simp) fun a _ => ⟨node_prompt tok a, rfl⟩
  have h3 : collateAt (collater tok) (l.map (encoded tok)) ([] ++ [.key "indices".toList]) (.tensor (tok.prompt q.text)) =
      .ok (padTensors pad 1 ((q :: l).map fun q => tok.prompt q.text)).toData :=
    leaf_tensor (encoded tok) (fun q => tok.prompt q.text) (fun a _ => node_indices tok a) (by rw [← hp]; rfl)
  have hs : checkSizes (l.map (encoded tok)) [] (encoded tok q) = .ok () := by
    unfold checkSizes
    rw [others_map (k := kind (encoded tok q)) l (encoded tok) (encoded tok) fun a _ => ⟨rfl, rfl⟩]
    simp only
    rw [if_pos]
    simp only [List.all_eq_true, List.mem_map, decide_eq_true_eq]
    rintro x ⟨a, ha, rfl⟩
    rfl
  rw [List.map_cons, Collater.call]
  unfold encoded at hs ⊢
  rw [collateAt, hs]
  change (match collateDict (collater tok) (l.map (encoded tok)) [] _ with | .error e => _ | .ok ys => _) = _
  simp only [collateDict, h1, h2, h3]
  rfl

/-! ### The batch -/

/-- The prompts as the generator gets them. -/
def promptsOf (tok : Tok) (pad : Int) (qs : List Question) : Gen.Prompts :=
  let width := longest (qs.map fun q => tok.prompt q.text)
  ⟨width, qs.map fun q => tok.prompt q.text ++ List.replicate (width - (tok.prompt q.text).length) pad,
    qs.map fun q => (tok.prompt q.text).length⟩

theorem toBatch_ok {tok : Tok} {pad : Int} {qs : List Question} (hne : qs ≠ []) (hlen : ∀ q ∈ qs, tok.prompt q.text ≠ []) :
    ∃ b, toBatch (collated tok pad qs) = some b ∧ asInput b = some (promptsOf tok pad qs) := by
  have h1 : nodeAt [.key "indices".toList, .key "seqs".toList] (collated tok pad qs) =
      some (.list ((padTensors pad 1 (qs.map fun q => tok.prompt q.text)).seqs.map .tensor)) := by
    rw [collated, nodeAt, key_miss (by decide), key_miss (by decide), key_hit (by decide), Option.bind_some]
    rw [Padded.toData, nodeAt, key_miss (by decide), key_hit (by decide)]
    rfl
  have h2 : nodeAt [.key "indices".toList, .key "seq_lens".toList] (collated tok pad qs) =
      some (.list ((qs.map fun q => (tok.prompt q.text).length).map fun n : Nat => .int (Int.ofNat n))) := by
    rw [collated, nodeAt, key_miss (by decide), key_miss (by decide), key_hit (by decide), Option.bind_some]
    rw [Padded.toData, nodeAt, key_miss (by decide), key_miss (by decide), key_hit (by decide)]
    simp only [Option.bind_some, nodeAt, padTensors, List.map_map]
    rfl
  have hle : ∀ q ∈ qs, (tok.prompt q.text).length ≤ longest (qs.map fun q => tok.prompt q.text) := fun q hq =>
    le_longest (List.mem_map.2 ⟨q, hq, rfl⟩)
  have hpos : ∀ q ∈ qs, 1 ≤ (tok.prompt q.text).length := fun q hq => List.length_pos_iff.2 (hlen q hq)
  obtain ⟨q, l, rfl⟩ := List.exists_cons_of_ne_nil hne
  have h3 : seqsOf (padTensors pad 1 ((q :: l).map fun q => tok.prompt q.text)).seqs =
      .padded (promptsOf tok pad (q :: l)).width (promptsOf tok pad (q :: l)).rows := by
    rw [pad_one]
    have := hle q (by simp)
    simp only [seqsOf, promptsOf, List.map_cons, List.head?_cons, Option.map_some, Option.getD_some, List.map_map, List.length_append,
      List.length_replicate] at this ⊢
    congr 1
    omega
  obtain ⟨b, b1, b2, b3⟩ := create_ok' (α := Int) (width := (promptsOf tok pad (q :: l)).width) (rows := (promptsOf tok pad (q :: l)).rows)
    (lens := (promptsOf tok pad (q :: l)).lens) (by simp [promptsOf]) (by simp [promptsOf])
    (by have := hle q (by simp); have := hpos q (by simp); simp only [promptsOf]; omega)
    (by
      intro n hn
      simp only [promptsOf] at hn ⊢
      obtain ⟨a, ha, rfl⟩ := List.mem_map.1 hn
      exact ⟨hpos a ha, hle a ha⟩)
  refine ⟨b, ?_, ?_⟩
  · unfold toBatch
    rw [h1, h2]
    simp only [Option.bind_some, matrix_ok, lengths_ok]
    rw [h3]
    exact b1
  · unfold asInput
    rw [b2, b3]

theorem batch_prompts (tok : Tok) (pad : Int) (qs : List Question) :
    nodeAt [.key "prompt".toList] (collated tok pad qs) = some (.list (qs.map fun q => .str q.text)) := by
  rw [collated, nodeAt, key_miss (by decide), key_hit (by decide)]
  rfl

theorem batch_ids (tok : Tok) (pad : Int) (qs : List Question) :
    nodeAt [.key "id".toList] (collated tok pad qs) = some (.list (qs.map fun q => q.id.getD nothing)) := by
  rw [collated, nodeAt, key_hit (by decide)]
  rfl

/-! ### The records -/

variable {σ S : Type}

/-- The record for a hypothesis. -/
def recordOf (tok : Tok) (q : Question) (h : Hypothesis S) : Record S :=
  ⟨q.id, q.text, tok.decode h.seq, h.seq, h.score, h.stepScores⟩

theorem writeAll_ok (tok : Tok) : ∀ (qs : List Question) (firsts : List (Hypothesis S)) (outs : List (List (Hypothesis S))),
    (∀ q ∈ qs, idOf (q.id.getD nothing) = q.id) → outs.map List.head? = firsts.map some → qs.length = outs.length →
    writeAll tok (qs.map fun q => q.id.getD nothing) (qs.map fun q => .str q.text) outs = (List.zipWith (recordOf tok) qs firsts, none)
  | [], _, _, _, _, hl => by
    cases (List.length_eq_zero_iff.1 hl.symm)
    rfl
  | q :: qs, [], _ :: _, _, h, _ => by simp at h
  | q :: qs, f :: firsts, [] :: outs, _, h, _ => by simp at h
  | q :: qs, f :: firsts, (hyp :: more) :: outs, hid, h, hl => by
    simp only [List.map_cons, List.head?_cons, List.cons.injEq, Option.some.injEq] at h
    obtain ⟨rfl, h⟩ := h
    simp only [List.length_cons, Nat.add_right_cancel_iff] at hl
    have ih := writeAll_ok tok qs firsts outs (fun a ha => hid a (by simp [ha])) h hl
    simp only [List.map_cons, writeAll, ih, hid q (by simp), List.zipWith_cons_cons]
    rfl
  | _ :: _, _, [], _, _, hl => by simp at hl

theorem writeAll_short (tok : Tok) : ∀ (qs : List Question) (firsts : List (Hypothesis S)) (outs rest : List (List (Hypothesis S))),
    (∀ q ∈ qs, idOf (q.id.getD nothing) = q.id) → outs.map List.head? = firsts.map some → outs.length < qs.length →
    writeAll tok (qs.map fun q => q.id.getD nothing) (qs.map fun q => .str q.text) (outs ++ [] :: rest) =
      (List.zipWith (recordOf tok) qs firsts, some .noHypothesis)
  | [], _, _, _, _, _, hl => by simp at hl
  | q :: qs, [], [], rest, _, _, _ => by simp [writeAll]
  | q :: qs, _ :: _, [], rest, _, h, _ => by simp at h
  | q :: qs, [], _ :: _, rest, _, h, _ => by simp at h
  | q :: qs, f :: firsts, [] :: outs, rest, _, h, _ => by simp at h
  | q :: qs, f :: firsts, (hyp :: more) :: outs, rest, hid, h, hl => by
    simp only [List.map_cons, List.head?_cons, List.cons.injEq, Option.some.injEq] at h
    obtain ⟨rfl, h⟩ := h
    simp only [List.length_cons, Nat.add_lt_add_iff_right] at hl
    have ih := writeAll_short tok qs firsts outs rest (fun a ha => hid a (by simp [ha])) h hl
    simp only [List.map_cons, List.cons_append, writeAll, ih, hid q (by simp), List.zipWith_cons_cons]
    rfl

theorem processBatch_call {tok : Tok} {pad : Int} {qs : List Question} (hne : qs ≠ []) (hlen : ∀ q ∈ qs, tok.prompt q.text ≠ [])
    {g : SeqGen σ S} (writes : Bool) {s t : σ} {outs : List (List (Hypothesis S))} (hg : g s (promptsOf tok pad qs) = some (outs, t)) :
    processBatch tok g writes (collated tok pad qs) s =
      if writes then
        match writeAll tok (qs.map fun q => q.id.getD nothing) (qs.map fun q => .str q.text) outs with
        | (records, some e) => (records, .error e)
        | (records, none) => (records, .ok t)
      else ([], .ok t) := by
  obtain ⟨b, h1, h2⟩ := toBatch_ok (pad := pad) hne hlen
  unfold processBatch
  rw [h1]
  simp only [batch_prompts, batch_ids, h2, hg]
  rfl

/-! ### The pipeline -/

variable (R : Rng)

theorem read_yields {W : Files} {files : List Data} (h : Parses W files) :
    (Pipe.denote R (readPipe W files)).Yields (Pipe.denote R (readPipe W files)).init (contents W files) := by
  have hone : ∀ f ∈ files, (Pipe.denote R (filePipe W f)).Yields (Pipe.denote R (filePipe W f)).init ((W.lines f).map (dataOf W)) := by
    intro f hf
    apply map_yields_on (h f hf)
    have := listSource_yields_from (W.lines f) 0 (Nat.zero_le _)
    rw [List.drop_zero] at this
    exact this
  have many : ∀ fs : List Data, (∀ f ∈ fs, f ∈ files) →
      (Pipe.denote R (.concat fs.length (fun _ => 0) fun i => filePipe W (fs.get i))).Yields
        (Pipe.denote R (.concat fs.length (fun _ => 0) fun i => filePipe W (fs.get i))).init (contents W fs) := by
    intro fs hfs
    have := concat_yields (Ss := fun i => pipeline false 0 ((filePipe W (fs.get i)).denote R))
      (st := fun i => (pipeline false 0 ((filePipe W (fs.get i)).denote R)).init)
      (ys := fun i => (W.lines (fs.get i)).map (dataOf W))
      (fun i => pipeline_yields_init (hone _ (hfs _ (List.get_mem _ _))))
    have e : (List.finRange fs.length).flatMap (fun i => (W.lines (fs.get i)).map (dataOf W)) = contents W fs := by
      unfold contents
      have e' : (List.finRange fs.length).map fs.get = fs := by
        apply List.ext_getElem
        · simp
        · intro i _ _
          simp
      conv => rhs; rw [← e', List.flatMap_map]
    rw [← e]
    exact this
  match files, h, hone, many with
  | [], _, _, many => exact many [] (by simp)
  | [f], _, hone, _ =>
    have := hone f (by simp)
    simp only [contents, List.flatMap_cons, List.flatMap_nil, List.append_nil]
    exact this
  | f :: f' :: fs, _, _, many => exact many (f :: f' :: fs) (fun _ h => h)

end Fs2.LmGen
