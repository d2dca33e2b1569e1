import Verif.Datasets.Sft
import Verif.Nn.DecoderSteps

/-!
# Lemmas about fine-tuning batches
-/

namespace Fs2.Sft
open Fs2.Batch Fs2.Native Fs2.Dec Fs2.Nn

theorem others_map {α : Type} {path : Path} {k : Kind} (l : List α) (f g : α → Data)
    (h : ∀ a ∈ l, nodeAt path (f a) = some (g a) ∧ kind (g a) = k) : others path k (l.map f) = .ok (l.map g) := by
  induction l with
  | nil => rfl
  | cons a l ih =>
    have ⟨h1, h2⟩ := h a (by simp)
    rw [List.map_cons, others, h1]
    simp only
    rw [if_neg (by simp [h2]), ih fun b hb => h b (by simp [hb])]
    rfl

theorem key_hit {k : List Char} {s : String} (h : s = String.ofList k) (x : Data) (l : List (String × Data)) :
    lookupKey k ((s, x) :: l) = some x := by
  unfold lookupKey
  rw [List.find?_cons_of_pos (by simp [h])]
  rfl

theorem key_miss {k : List Char} {s : String} (h : s ≠ String.ofList k) (x : Data) (l : List (String × Data)) :
    lookupKey k ((s, x) :: l) = lookupKey k l := by
  unfold lookupKey
  rw [List.find?_cons_of_neg (by simp [h])]

/-- The tokens of an example. -/
def toks (e : Example) : List Int := e.src ++ e.tgt

/-- Its mask. -/
def maskOf (e : Example) : List Int := targetMask e.src.length (toks e).length

theorem maskOf_length (e : Example) : (maskOf e).length = (toks e).length := by simp [maskOf, targetMask]

/-- The batch that the collater makes, but for the ids. -/
def columns (pad : Int) (bucket : List Example) : List (String × Data) :=
  [("indices", (padTensors pad 1 (bucket.map toks)).toData), ("target_mask", (padTensors 0 1 (bucket.map maskOf)).toData)]

/-- Ids that can be collated. -/
inductive IdsMatch (bucket : List Example) : Prop where
  | absent (h : ∀ e ∈ bucket, e.id = none)
  | ints (f : Example → Int) (h : ∀ e ∈ bucket, e.id = some (.int (f e)))
  | strs (f : Example → String) (h : ∀ e ∈ bucket, e.id = some (.str (f e)))

theorem opts_indices (pad : Int) : (collater pad).optsFor [.key "indices".toList] = ⟨some pad, 1⟩ := by
  simp only [Collater.optsFor, collater]
  rw [List.find?_cons_of_neg (by decide)]
  rfl

theorem opts_mask (pad : Int) : (collater pad).optsFor [.key "target_mask".toList] = ⟨some 0, 1⟩ := by
  simp only [Collater.optsFor, collater]
  rw [List.find?_cons_of_pos (by decide)]

theorem leaf_ok {c : Collater} {path : Path} {l : List Example} {e : Example} (f : Example → Data) (g : Example → List Int)
    (h : ∀ a ∈ l, nodeAt path (f a) = some (.tensor (g a))) {pad : Int} (ho : c.optsFor path = ⟨some pad, 1⟩) :
    collateLeaf c (l.map f) path (.tensor (g e)) = .ok (padTensors pad 1 ((e :: l).map g)).toData := by
  unfold collateLeaf
  rw [others_map (k := kind (.tensor (g e))) l f (fun a => .tensor (g a)) fun a ha => ⟨h a ha, rfl⟩]
  simp only [collateTensors, ho, List.map_map, List.map_cons]
  rfl

theorem other_ok {c : Collater} {path : Path} {l : List Example} (f g : Example → Data) (x : Data) (hx : ∀ t, x ≠ .tensor t)
    (h : ∀ a ∈ l, nodeAt path (f a) = some (g a) ∧ kind (g a) = kind x) :
    collateLeaf c (l.map f) path x = .ok (.list (x :: l.map g)) := by
  unfold collateLeaf
  rw [others_map l f g h]
  cases x with
  | tensor t => exact absurd rfl (hx t)
  | _ => rfl

theorem node_indices (e : Example) : nodeAt [.key "indices".toList] (catSourceAndTarget e) = some (.tensor (toks e)) := by
  cases hid : e.id with
  | none =>
    simp only [catSourceAndTarget, hid, nodeAt, List.nil_append]
    rw [key_hit (by decide)]
    rfl
  | some x =>
    simp only [catSourceAndTarget, hid, nodeAt, List.nil_append, List.cons_append]
    rw [key_miss (by decide), key_hit (by decide)]
    rfl

theorem node_mask (e : Example) : nodeAt [.key "target_mask".toList] (catSourceAndTarget e) = some (.tensor (maskOf e)) := by
  cases hid : e.id with
  | none =>
    simp only [catSourceAndTarget, hid, nodeAt, List.nil_append]
    rw [key_miss (by decide), key_hit (by decide)]
    rfl
  | some x =>
    simp only [catSourceAndTarget, hid, nodeAt, List.nil_append, List.cons_append]
    rw [key_miss (by decide), key_miss (by decide), key_hit (by decide)]
    rfl

theorem node_id (e : Example) (x : Data) (h : e.id = some x) : nodeAt [.key "id".toList] (catSourceAndTarget e) = some x := by
  simp only [catSourceAndTarget, h, nodeAt, List.cons_append]
  rw [key_hit (by decide)]
  rfl

theorem sizes_ok {l : List Example} {e : Example} (h : ∀ a ∈ l, a.id.isSome = e.id.isSome) :
    checkSizes (l.map catSourceAndTarget) [] (catSourceAndTarget e) = .ok () := by
  unfold checkSizes
  rw [others_map (k := kind (catSourceAndTarget e)) l catSourceAndTarget catSourceAndTarget fun a _ => ⟨rfl, rfl⟩]
  simp only
  rw [if_pos]
  simp only [List.all_eq_true, List.mem_map, decide_eq_true_eq]
  rintro x ⟨a, ha, rfl⟩
  have := h a ha
  cases h1 : a.id <;> cases h2 : e.id <;> simp [h1, h2] at this <;> simp [catSourceAndTarget, sizeOfData, h1, h2]

/-- What the collater makes of a bucket of examples. -/
theorem collate_ok (pad : Int) (bucket : List Example) (hne : bucket ≠ []) (hid : IdsMatch bucket) :
    ∃ ids, (∀ p ∈ ids, p.1 = "id") ∧
      (collater pad).call (.list (bucket.map catSourceAndTarget)) = .ok (.dict (ids ++ columns pad bucket)) := by
  obtain ⟨e, l, rfl⟩ := List.exists_cons_of_ne_nil hne
  have hi := leaf_ok (c := collater pad) (l := l) (e := e) catSourceAndTarget toks (fun a _ => node_indices a) (opts_indices pad)
  have hm := leaf_ok (c := collater pad) (l := l) (e := e) catSourceAndTarget maskOf (fun a _ => node_mask a) (opts_mask pad)
  have hs : (∀ a ∈ e :: l, a.id.isSome = e.id.isSome) := by
    intro a ha
    cases hid with
    | absent h => rw [h a ha, h e (by simp)]
    | ints f h => rw [h a ha, h e (by simp)]; rfl
    | strs f h => rw [h a ha, h e (by simp)]; rfl
  have hs := sizes_ok (l := l) (e := e) fun a ha => hs a (by simp [ha])
  have key : ∀ ids ids', catSourceAndTarget e = .dict (ids ++ [("indices", .tensor (toks e)), ("target_mask", .tensor (maskOf e))]) →
      collateDict (collater pad) (l.map catSourceAndTarget) []
        (ids ++ [("indices", .tensor (toks e)), ("target_mask", .tensor (maskOf e))]) = .ok (ids' ++ columns pad (e :: l)) →
      (collater pad).call (.list ((e :: l).map catSourceAndTarget)) = .ok (.dict (ids' ++ columns pad (e :: l))) := by
    intro ids ids' h1 h2
    rw [List.map_cons, Collater.call]
    rw [h1] at hs ⊢
    rw [collateAt, hs]
    simp only [h2]
  have htail : collateDict (collater pad) (l.map catSourceAndTarget) []
      [("indices", .tensor (toks e)), ("target_mask", .tensor (maskOf e))] = .ok (columns pad (e :: l)) := by
    simp only [collateDict, List.nil_append, collateAt, hi, hm]
    rfl
  cases hid with
  | absent h =>
    refine ⟨[], by simp, key [] [] ?_ htail⟩
    simp only [catSourceAndTarget, h e (by simp)]
    rfl
  | ints f h =>
    refine ⟨[("id", .list (.int (f e) :: l.map fun a => .int (f a)))], by simp, key [("id", .int (f e))] _ ?_ ?_⟩
    · simp only [catSourceAndTarget, h e (by simp)]
      rfl
    · rw [List.cons_append, List.nil_append, collateDict, List.nil_append, collateAt,
        other_ok catSourceAndTarget (fun a => .int (f a)) _ (by simp) fun a ha => ⟨node_id a _ (h a (by simp [ha])), rfl⟩]
      simp only [htail]
      rfl
  | strs f h =>
    refine ⟨[("id", .list (.str (f e) :: l.map fun a => .str (f a)))], by simp, key [("id", .str (f e))] _ ?_ ?_⟩
    · simp only [catSourceAndTarget, h e (by simp)]
      rfl
    · rw [List.cons_append, List.nil_append, collateDict, List.nil_append, collateAt,
        other_ok catSourceAndTarget (fun a => .str (f a)) _ (by simp) fun a ha => ⟨node_id a _ (h a (by simp [ha])), rfl⟩]
      simp only [htail]
      rfl

/-! ## The batch -/

theorem matrix_ok (rows : List (List Int)) : matrix (.list (rows.map .tensor)) = some rows := by
  simp only [matrix]
  induction rows with
  | nil => rfl
  | cons r rows ih =>
    rw [List.map_cons, List.mapM_cons, ih]
    rfl

theorem lengths_ok (ns : List Nat) : lengths (.list (ns.map fun n : Nat => .int (Int.ofNat n))) = some ns := by
  simp only [lengths]
  induction ns with
  | nil => rfl
  | cons n ns ih =>
    rw [List.map_cons, List.mapM_cons, ih]
    simp only [Int.ofNat_eq_natCast]
    rw [if_pos (by omega)]
    simp

theorem pad_one (pad : Int) (ts : List (List Int)) :
    (padTensors pad 1 ts).seqs = ts.map fun t => t ++ List.replicate (longest ts - t.length) pad := by
  simp [padTensors, padSequence]

theorem find_ids {ids : List (String × Data)} (hids : ∀ p ∈ ids, p.1 = "id") (k : List Char) (hk : String.ofList k ≠ "id")
    (rest : List (String × Data)) : lookupKey k (ids ++ rest) = lookupKey k rest := by
  unfold lookupKey
  rw [List.find?_append, List.find?_eq_none.2 fun p hp => by simp [hids p hp, Ne.symm hk]]
  rfl

theorem toBatch_ok {pad : Int} {bucket : List Example} {ids : List (String × Data)} (hids : ∀ p ∈ ids, p.1 = "id") :
    toBatch (.dict (ids ++ columns pad bucket)) =
      SeqBatch.create (seqsOf (padTensors pad 1 (bucket.map toks)).seqs) (some (bucket.map fun e => (toks e).length))
        (some (seqsOf ((padTensors 0 1 (bucket.map maskOf)).seqs.map (List.map (· ≠ 0))))) := by
  have h1 : nodeAt [.key "indices".toList, .key "seqs".toList] (.dict (ids ++ columns pad bucket)) =
      some (.list ((padTensors pad 1 (bucket.map toks)).seqs.map .tensor)) := by
    rw [nodeAt, find_ids hids _ (by decide), columns, key_hit (by decide), Option.bind_some]
    rw [Padded.toData, nodeAt, key_miss (by decide), key_hit (by decide)]
    rfl
  have h2 : nodeAt [.key "indices".toList, .key "seq_lens".toList] (.dict (ids ++ columns pad bucket)) =
      some (.list ((bucket.map fun e => (toks e).length).map fun n : Nat => .int (Int.ofNat n))) := by
    rw [nodeAt, find_ids hids _ (by decide), columns, key_hit (by decide), Option.bind_some]
    rw [Padded.toData, nodeAt, key_miss (by decide), key_miss (by decide), key_hit (by decide)]
    simp only [Option.bind_some, nodeAt, padTensors, List.map_map]
    rfl
  have h3 : nodeAt [.key "target_mask".toList, .key "seqs".toList] (.dict (ids ++ columns pad bucket)) =
      some (.list ((padTensors 0 1 (bucket.map maskOf)).seqs.map .tensor)) := by
    rw [nodeAt, find_ids hids _ (by decide), columns, key_miss (by decide), key_hit (by decide), Option.bind_some]
    rw [Padded.toData, nodeAt, key_miss (by decide), key_hit (by decide)]
    rfl
  unfold toBatch
  rw [h1, h2, h3]
  simp only [Option.bind_some, matrix_ok, lengths_ok]

theorem create_ok {α : Type} {width : Nat} {rows : List (List α)} {lens : List Nat} {mask : Seqs Bool} (hl : lens.length = rows.length)
    (hne : lens ≠ []) (hw : width ≠ 0) (hn : ∀ n ∈ lens, 1 ≤ n ∧ n ≤ width) (hm : mask.sameShape (Seqs.padded width rows) = true) :
    ∃ b, SeqBatch.create (.padded width rows) (some lens) (some mask) = some b ∧ b.seqs = .padded width rows ∧ b.lens = lens ∧
      b.mask = some mask ∧ b.numTargets = maskSum mask := by
  have h1 : measureLens (Seqs.padded width rows) (some lens) =
      some (lens, rows.length, rows.length, lens.sum, (lens.map (width - ·)).sum) := by
    unfold measureLens
    rw [if_neg (by simpa using hne)]
    simp only [Option.getD_some]
    rw [if_neg hw, if_neg (by omega), if_neg]
    simp only [List.any_eq_true, decide_eq_true_eq, not_exists, not_and]
    intro n h
    have := hn n h
    omega
  unfold SeqBatch.create
  rw [h1]
  simp only [Option.bind_eq_bind, Option.bind_some, hm, if_true]
  exact ⟨_, rfl, rfl, rfl, rfl, rfl⟩

theorem create_ok' {α : Type} {width : Nat} {rows : List (List α)} {lens : List Nat} (hl : lens.length = rows.length)
    (hne : lens ≠ []) (hw : width ≠ 0) (hn : ∀ n ∈ lens, 1 ≤ n ∧ n ≤ width) :
    ∃ b, SeqBatch.create (.padded width rows) (some lens) none = some b ∧ b.seqs = .padded width rows ∧ b.lens = lens := by
  have h1 : measureLens (Seqs.padded width rows) (some lens) =
      some (lens, rows.length, rows.length, lens.sum, (lens.map (width - ·)).sum) := by
    unfold measureLens
    rw [if_neg (by simpa using hne)]
    simp only [Option.getD_some]
    rw [if_neg hw, if_neg (by omega), if_neg]
    simp only [List.any_eq_true, decide_eq_true_eq, not_exists, not_and]
    intro n h
    have := hn n h
    omega
  unfold SeqBatch.create
  rw [h1]
  simp only [Option.bind_eq_bind, Option.bind_some]
  exact ⟨_, rfl, rfl, rfl⟩

/-- The width of the batch. -/
def wide (bucket : List Example) : Nat := longest (bucket.map toks)

/-- The row of an example. -/
def rowOf (pad : Int) (W : Nat) (e : Example) : List Int := toks e ++ List.replicate (W - (toks e).length) pad

/-- The row of its mask. -/
def keepOf (W : Nat) (e : Example) : List Bool := (maskOf e ++ List.replicate (W - (toks e).length) 0).map (· ≠ 0)

theorem le_wide {bucket : List Example} {e : Example} (h : e ∈ bucket) : (toks e).length ≤ wide bucket :=
  le_longest (List.mem_map.2 ⟨e, h, rfl⟩)

theorem wide_mem {bucket : List Example} (h : bucket ≠ []) : ∃ e ∈ bucket, (toks e).length = wide bucket := by
  obtain ⟨t, ht, e⟩ := longest_mem (ts := bucket.map toks) (by simpa using h)
  obtain ⟨e', he', rfl⟩ := List.mem_map.1 ht
  exact ⟨e', he', e⟩

theorem rowOf_length {pad : Int} {W : Nat} {e : Example} (h : (toks e).length ≤ W) : (rowOf pad W e).length = W := by
  simp [rowOf]; omega

theorem keepOf_length {W : Nat} {e : Example} (h : (toks e).length ≤ W) : (keepOf W e).length = W := by
  simp [keepOf, maskOf_length]; omega

theorem keepOf_get {W : Nat} {e : Example} {i : Nat} (h : i < W) (hl : (toks e).length ≤ W) :
    (keepOf W e)[i]? = some (decide (e.src.length ≤ i ∧ i < (toks e).length)) := by
  unfold keepOf
  rw [List.getElem?_map]
  by_cases hi : i < (toks e).length
  · rw [List.getElem?_append_left (by rw [maskOf_length]; exact hi)]
    simp only [maskOf, targetMask, List.getElem?_map, List.getElem?_range hi, Option.map_some]
    by_cases h2 : e.src.length ≤ i <;> simp [h2, hi]
  · rw [List.getElem?_append_right (by rw [maskOf_length]; omega), List.getElem?_replicate, if_pos (by rw [maskOf_length]; omega)]
    simp [hi]

theorem longest_masks (bucket : List Example) : longest (bucket.map maskOf) = wide bucket := by
  unfold wide longest
  rw [List.map_map, List.map_map]
  congr 1
  exact List.map_congr_left fun e _ => maskOf_length e

theorem batchOf_ok (pad : Int) (bucket : List Example) (hne : bucket ≠ []) (hid : IdsMatch bucket)
    (hlen : ∀ e ∈ bucket, 1 ≤ (toks e).length) :
    ∃ b, batchOf pad bucket = some b ∧ b.seqs = .padded (wide bucket) (bucket.map (rowOf pad (wide bucket))) ∧
      b.lens = bucket.map (fun e => (toks e).length) ∧
      b.mask = some (.padded (wide bucket) (bucket.map (keepOf (wide bucket)))) := by
  obtain ⟨ids, h1, h2⟩ := collate_ok pad bucket hne hid
  unfold batchOf
  rw [h2]
  simp only
  rw [toBatch_ok h1, pad_one, pad_one, longest_masks]
  have e1 : (bucket.map toks).map (fun t => t ++ List.replicate (longest (bucket.map toks) - t.length) pad) =
      bucket.map (rowOf pad (wide bucket)) := by
    rw [List.map_map]; rfl
  have e2 : (((bucket.map maskOf).map fun t => t ++ List.replicate (wide bucket - t.length) 0).map
      (List.map fun x : Int => decide (x ≠ 0))) = bucket.map (keepOf (wide bucket)) := by
    rw [List.map_map, List.map_map]
    exact List.map_congr_left fun e _ => by simp only [Function.comp, keepOf, maskOf_length]
  rw [e1, e2]
  obtain ⟨e, l, rfl⟩ := List.exists_cons_of_ne_nil hne
  have e3 : seqsOf ((e :: l).map (rowOf pad (wide (e :: l)))) = .padded (wide (e :: l)) ((e :: l).map (rowOf pad (wide (e :: l)))) := by
    simp only [seqsOf, List.map_cons, List.head?_cons, Option.map_some, Option.getD_some]
    rw [rowOf_length (le_wide (by simp))]
  have e4 : seqsOf ((e :: l).map (keepOf (wide (e :: l)))) = .padded (wide (e :: l)) ((e :: l).map (keepOf (wide (e :: l)))) := by
    simp only [seqsOf, List.map_cons, List.head?_cons, Option.map_some, Option.getD_some]
    rw [keepOf_length (le_wide (by simp))]
  rw [e3, e4]
  obtain ⟨b, h1, h2, h3, h4, _⟩ := create_ok (width := wide (e :: l)) (rows := (e :: l).map (rowOf pad (wide (e :: l))))
    (lens := (e :: l).map fun e => (toks e).length) (mask := .padded (wide (e :: l)) ((e :: l).map (keepOf (wide (e :: l)))))
    (by simp) (by simp) (by have := hlen e (by simp); have := le_wide (bucket := e :: l) (e := e) (by simp); omega)
    (by
      intro n hn
      obtain ⟨a, ha, rfl⟩ := List.mem_map.1 hn
      exact ⟨hlen a ha, le_wide ha⟩)
    (by simp [Seqs.sameShape])
  exact ⟨b, h1, h2, h3, h4⟩

/-- What the batch is turned into. -/
theorem autoRegressive_ok (pad : Int) (bucket : List Example) (hne : bucket ≠ []) (hlen : ∀ e ∈ bucket, 2 ≤ (toks e).length)
    (b : SeqBatch Int) (h1 : b.seqs = .padded (wide bucket) (bucket.map (rowOf pad (wide bucket))))
    (h2 : b.lens = bucket.map fun e => (toks e).length) (h3 : b.mask = some (.padded (wide bucket) (bucket.map (keepOf (wide bucket))))) :
    ∃ inp tgt, b.asAutoRegressive = some (inp, tgt) ∧
      inp.seqs = .padded (wide bucket - 1) (bucket.map fun e => (rowOf pad (wide bucket) e).dropLast) ∧
      inp.lens = (bucket.map fun e => (toks e).length - 1) ∧
      tgt.seqs = .padded (wide bucket - 1) (bucket.map fun e => (rowOf pad (wide bucket) e).tail) ∧
      tgt.mask = some (.padded (wide bucket - 1) (bucket.map fun e => (keepOf (wide bucket) e).tail)) ∧
      tgt.numTargets = (bucket.map fun e => (keepOf (wide bucket) e).tail.count true).sum := by
  obtain ⟨e₀, he₀⟩ := List.exists_mem_of_ne_nil _ hne
  have hw : 2 ≤ wide bucket := Nat.le_trans (hlen e₀ he₀) (le_wide he₀)
  have ht : trimLens b.seqs b.lens = some (bucket.map fun e => (toks e).length - 1) := by
    rw [h1, h2]
    simp only [trimLens]
    rw [if_neg, List.map_map]
    · rfl
    · simp only [List.any_eq_true, decide_eq_true_eq, List.mem_map]
      rintro ⟨n, ⟨e, he, rfl⟩, h⟩
      have := hlen e he
      omega
  have hn : ∀ n ∈ (bucket.map fun e => (toks e).length - 1), 1 ≤ n ∧ n ≤ wide bucket - 1 := by
    intro n hn
    obtain ⟨e, he, rfl⟩ := List.mem_map.1 hn
    have := hlen e he
    have := le_wide he
    omega
  have hi : b.seqs.init = .padded (wide bucket - 1) (bucket.map fun e => (rowOf pad (wide bucket) e).dropLast) := by
    rw [h1, Seqs.init, List.map_map]; rfl
  have hr : b.seqs.rest = .padded (wide bucket - 1) (bucket.map fun e => (rowOf pad (wide bucket) e).tail) := by
    rw [h1, Seqs.rest, List.map_map]; rfl
  have hm : b.mask.map Seqs.rest = some (.padded (wide bucket - 1) (bucket.map fun e => (keepOf (wide bucket) e).tail)) := by
    rw [h3, Option.map_some, Seqs.rest, List.map_map]; rfl
  obtain ⟨inp, i1, i2, i3⟩ := create_ok' (width := wide bucket - 1) (rows := bucket.map fun e => (rowOf pad (wide bucket) e).dropLast)
    (lens := bucket.map fun e => (toks e).length - 1) (by simp) (by simpa using hne) (by omega) hn
  obtain ⟨tgt, t1, t2, t3, t4, t5⟩ := create_ok (width := wide bucket - 1) (rows := bucket.map fun e => (rowOf pad (wide bucket) e).tail)
    (lens := bucket.map fun e => (toks e).length - 1)
    (mask := .padded (wide bucket - 1) (bucket.map fun e => (keepOf (wide bucket) e).tail)) (by simp) (by simpa using hne) (by omega) hn
    (by simp [Seqs.sameShape])
  refine ⟨inp, tgt, ?_, i2, i3, t2, t4, ?_⟩
  · unfold SeqBatch.asAutoRegressive
    rw [ht, hi, hr, hm]
    simp only [Option.bind_eq_bind, Option.bind_some, i1, t1]
  · rw [t5, maskSum, List.map_map]; rfl

theorem indices_ok (vocab : Nat) (rows : List (List Int)) (h : ∀ r ∈ rows, ∀ t ∈ r, 0 ≤ t ∧ t < vocab) :
    rows.mapM (fun (row : List Int) => row.mapM (indexOf vocab)) = some (rows.map (List.map Int.toNat)) := by
  have h1 : ∀ r : List Int, (∀ t ∈ r, 0 ≤ t ∧ t < vocab) → r.mapM (indexOf vocab) = some (r.map Int.toNat) := by
    intro r hr
    induction r with
    | nil => rfl
    | cons t r ih =>
      rw [List.mapM_cons, ih fun x hx => hr x (by simp [hx]), indexOf, if_pos (hr t (by simp))]
      rfl
  induction rows with
  | nil => rfl
  | cons r rows ih =>
    rw [List.mapM_cons, ih fun x hx => h x (by simp [hx]), h1 r (h r (by simp))]
    rfl

/-! ## Prefixes -/

theorem logits_take (m : Model) (src : List Vec) (tokens : List Nat) (k : Nat) :
    Spec.logits m src (tokens.take k) = (Spec.logits m src tokens).take k := by
  unfold Spec.logits
  rw [← List.map_take]
  congr 1
  have h : ∀ (layers : List Layer) (xs : List Vec), layers.foldl (fun xs L => Spec.layer L src xs) (xs.take k) =
      (layers.foldl (fun xs L => Spec.layer L src xs) xs).take k := by
    intro layers
    induction layers with
    | nil => intro xs; rfl
    | cons L layers ih => intro xs; rw [List.foldl_cons, List.foldl_cons, layer_take, ih]
  rw [← h, take_mapIdx]

theorem logits_length (m : Model) (src : List Vec) (tokens : List Nat) : (Spec.logits m src tokens).length = tokens.length := by
  unfold Spec.logits
  rw [List.length_map]
  have h : ∀ (layers : List Layer) (xs : List Vec), (layers.foldl (fun xs L => Spec.layer L src xs) xs).length = xs.length := by
    intro layers
    induction layers with
    | nil => intro xs; rfl
    | cons L layers ih => intro xs; rw [List.foldl_cons, ih, layer_length]
  rw [h, List.length_mapIdx]

end Fs2.Sft
