import Verif.Datasets.LmLoss
import Verif.Nn.PackedForward
import Verif.Props.FineTuning
import Verif.Props.Pretraining

/-!
# Forward passes and losses of packed batches: C110

The specification takes one sequence at a time: `Dec.Spec.logits` and `Enc.Spec.encodeText` know nothing of batches, and generation token
by token fulfils the former (C96). In a packed batch the sequences are written one after the other, and anything may follow them.
-/

namespace Fs2.Props
open Fs2.Nn Fs2.Enc Fs2.Batch
open Fs2.Lm (trainLoss modelInput)
open Fs2.Dec (Model)
open Fs2.Sft (flat indexOf vocabRow)

/-! ### Forward passes -/

/-- **C110 (language models).** The logits that a `TransformerLM` computes for each sequence of a packed batch are those of the
specification for the sequence alone, whatever the other sequences and the padding are, with or without a window. -/
theorem C110_lm (m : Model) (hlm : ∀ L ∈ m.layers, L.cross = none) (seqs : List (List Nat)) (padding : List Nat) (hne : seqs ≠ [])
    (h0 : ∀ s ∈ seqs, s ≠ []) (hm : ∀ s ∈ seqs, PackModel m s.length) :
    ∃ l rest, Layout.new [((seqs.flatten ++ padding).length : Int)] (some (seqs.map fun s => (s.length : Int))) true = some l ∧
      rest.length = padding.length ∧
      decodeAll m none [seqs.flatten ++ padding] l = some [(seqs.map (Dec.Spec.logits m [])).flatten ++ rest] := by
  obtain ⟨l, hl⟩ := pieces_layout seqs padding hne h0
  have h := lies_of padding hl
  have h' : Lies (seqs.flatten ++ padding).length [seqs.flatten ++ padding] l (seqs.map id) := by rw [List.map_id]; exact h
  obtain ⟨ys, e, hy⟩ := decode_lies (m := m) (src := none) (Wk := 0) (G := fun _ => []) hne h' hm
    (fun ⟨L, hL, h⟩ => absurd (hlm L hL) h)
  obtain ⟨rest, rfl, hr⟩ := hy.eq
  refine ⟨l, rest, hl, ?_, e⟩
  have hlen : (seqs.map fun a => Dec.Spec.logits m [] (id a)).flatten.length = seqs.flatten.length := by
    rw [List.length_flatten, List.length_flatten, List.map_map]
    congr 1
    exact List.map_congr_left fun s _ => Sft.logits_length m [] s
  rw [hlen, List.length_append] at hr
  omega

/-- **C110 (translation).** The logits that a `TransformerModel` computes for each pair of a batch with packed sources and packed targets
are those of the specification for this pair: a target looks at its own source and at nothing else.

Missing for the full property: what a `nan` at a padding position does to the sequences, which arises if the targets are padded and the
sources are not, see `C110_starved`. -/
theorem C110_translate_partial (T : TextEncoder) (m : Model) (hT : ∀ L ∈ T.encoder.layers, PackLayer L) (P : List (List Nat × List Nat))
    (pad pad' : List Nat) (hne : P ≠ []) (h0 : ∀ p ∈ P, p.1 ≠ [] ∧ p.2 ≠ []) (hf : ∀ p ∈ P, Enc.Fits T.encoder p.1.length)
    (hp : ∀ p ∈ P, ∀ e, T.pos = some e → (p.1.length : Int) ≤ e.maxLen) (hm : ∀ p ∈ P, PackModel m p.2.length) :
    ∃ ls lt rest,
      Layout.new [(((P.map (·.1)).flatten ++ pad).length : Int)] (some (P.map fun p => (p.1.length : Int))) true = some ls ∧
      Layout.new [(((P.map (·.2)).flatten ++ pad').length : Int)] (some (P.map fun p => (p.2.length : Int))) true = some lt ∧
      rest.length = pad'.length ∧
      translate T m [(P.map (·.1)).flatten ++ pad] ls [(P.map (·.2)).flatten ++ pad'] lt =
        some [(P.map fun p => Dec.Spec.logits m (Enc.Spec.encodeText T p.1) p.2).flatten ++ rest] := by
  obtain ⟨ls, hl⟩ := pieces_layout (P.map (·.1)) pad (by simpa using hne) (by
    intro s hs; obtain ⟨p, hp, rfl⟩ := List.mem_map.1 hs; exact (h0 p hp).1)
  obtain ⟨lt, hl'⟩ := pieces_layout (P.map (·.2)) pad' (by simpa using hne) (by
    intro s hs; obtain ⟨p, hp, rfl⟩ := List.mem_map.1 hs; exact (h0 p hp).2)
  obtain ⟨xs, e, hx⟩ := text_lies hne (lies_of pad hl) hT hf hp
  obtain ⟨ys, e', hy⟩ := decode_lies (m := m) (src := some ⟨ls.width.toNat, xs, ls⟩)
    (G := fun p => Enc.Spec.encodeText T p.1) hne (lies_of pad' hl') hm (fun _ => ⟨_, rfl, hx⟩)
  obtain ⟨rest, rfl, hr⟩ := hy.eq
  rw [List.map_map] at hl hl'
  refine ⟨ls, lt, rest, hl, hl', ?_, by simp only [translate, e, Option.bind_some, e']⟩
  have hlen : (P.map fun p => Dec.Spec.logits m (Enc.Spec.encodeText T p.1) p.2).flatten.length = (P.map (·.2)).flatten.length := by
    rw [List.length_flatten, List.length_flatten, List.map_map, List.map_map]
    congr 1
    exact List.map_congr_left fun p _ => Sft.logits_length m _ p.2
  rw [hlen, List.length_append] at hr
  omega

/-- **C110 (refusals).** If one sequence is longer than a position encoder, of the frontend or of a layer, allows, there is an exception
and nothing is computed for the others. -/
theorem C110_refuses (m : Model) (src : Option Dec.Source) (seqs : List (List Nat)) (padding : List Nat) (l : Layout)
    (hl : Layout.new [((seqs.flatten ++ padding).length : Int)] (some (seqs.map fun s => (s.length : Int))) true = some l)
    (h : ∃ s ∈ seqs, ∃ e, (m.pos = some e ∨ ∃ L ∈ m.layers, L.selfAttn.pos = some e) ∧ e.maxLen < (s.length : Int)) :
    decodeAll m src [seqs.flatten ++ padding] l = none := by
  obtain ⟨s, hs, e, he, hlong⟩ := h
  obtain ⟨_, h2⟩ := (lies_of padding hl).facts.2.2.2.2.1 (List.ne_nil_of_mem hs)
  have := h2 (s.length : Int) (List.mem_map.2 ⟨s, hs, rfl⟩)
  have hlt : e.maxLen < l.maxSeqLen := by omega
  unfold decodeAll
  rcases he with he | ⟨L, hL, he⟩
  · rw [he, encode_long _ hlt]; rfl
  · simp only [layers_refuse hL (self_none (Or.inl ⟨e, he, hlt⟩)), Option.map_none, Option.bind_fun_none]

/-- **C110, violation.** A model with ALiBi and two or more heads raises an exception for every packed batch of more than one sequence and
for every one with padding. -/
theorem C110_alibi_raises (m : Model) (src : Option Dec.Source) (H : Nat) (hH : 2 ≤ H)
    (hb : ∃ L ∈ m.layers, L.selfAttn.bias = .alibi H) (seqs : List (List Nat)) (padding : List Nat) (hne : seqs ≠ []) (l : Layout)
    (hl : Layout.new [((seqs.flatten ++ padding).length : Int)] (some (seqs.map fun s => (s.length : Int))) true = some l)
    (h : 2 ≤ seqs.length ∨ padding ≠ []) : decodeAll m src [seqs.flatten ++ padding] l = none := by
  obtain ⟨L, hL, hb⟩ := hb
  unfold decodeAll
  simp only [layers_refuse hL (self_none (Or.inr (by rw [hb]; exact alibi_packed_none hH hne hl h))), Option.map_none,
    Option.bind_fun_none]

/-- **C110 (what padding sees).** Attention of a padding position of a packed batch to another packed batch is a number if the latter has
padding too, as is always the case in self attention, and `nan` otherwise. -/
theorem C110_starved (b : BiasKind) (hb : b = .identity ∨ ∃ w, b = .causal w) (Wq Wk : Nat) (lq lk : List Nat) (Q K : Layout)
    (hQ : Layout.new [(Wq : Int)] (some (lq.map Int.ofNat)) true = some Q)
    (hK : Layout.new [(Wk : Int)] (some (lk.map Int.ofNat)) true = some K) (hn : lq.length = lk.length) (h0 : lq ≠ []) :
    ∃ bias, maybeGet b Q K = some bias ∧ ∀ i, lq.sum ≤ i → i < Wq →
      ∀ (scale : ℝ) (d : Nat) (q : Nat → ℝ) (k v : Nat → Nat → ℝ) (h c : Nat),
        (attend scale d Wk q k v (Dec.biasEntry bias 0 h i) c = none ↔ lk.sum = Wk) := by
  have hle : lk.sum ≤ Wk := by
    obtain ⟨w, e, -, -, h3, -⟩ := (C47_packed _ _).1 K hK
    simp only [List.cons.injEq, and_true] at e
    rw [sum_ofNat'] at h3
    omega
  obtain ⟨T, hT, -, -, -, -, hout, hin⟩ := C52_packed b (by rintro H rfl; rcases hb with h | ⟨w, h⟩ <;> cases h) Wq Wk lq lk Q K hQ hK hn h0
    (by intro p _; rcases hb with rfl | ⟨w, rfl⟩ <;> exact ⟨_, rfl⟩)
  have hp : Q.packed = true := by
    obtain ⟨w, e, e1, e2, e3, d⟩ := (C47_packed _ _).1 Q hQ
    exact d.packed
  refine ⟨some (.one T), ?_, ?_⟩
  · unfold maybeGet
    rw [if_neg (by simp [hp])]
    rcases hb with rfl | ⟨w, rfl⟩ <;> simp [hp, hT]
  · intro i h1 h2 scale d q k v h c
    show attend scale d Wk q k v (fun j => T.at' h i j) c = none ↔ lk.sum = Wk
    unfold attend
    dsimp only
    constructor
    · intro e
      by_contra hne
      split at e
      · next ht =>
        rw [Finset.sum_eq_zero_iff_of_nonneg (fun j _ => by
          cases T.at' h i j with
          | negInf => exact le_refl _
          | fin x => exact le_of_lt (Real.exp_pos _))] at ht
        have := ht lk.sum (Finset.mem_range.2 (by omega))
        rw [hin h i lk.sum h1 h2 le_rfl (by omega)] at this
        exact absurd this (ne_of_gt (Real.exp_pos _))
      · cases e
    · intro e
      rw [if_pos]
      apply Finset.sum_eq_zero
      intro j hj
      have hj := Finset.mem_range.1 hj
      have : T.at' h i j = .negInf := not_not.mp (hout h i j h2 hj (Or.inl ⟨h1, by omega⟩))
      rw [this]
      rfl

/-- Targets with padding, and sources without. -/
example : (∃ Q, Layout.new [(4 : Int)] (some (([1, 2] : List Nat).map Int.ofNat)) true = some Q) ∧
    ∃ K, Layout.new [(3 : Int)] (some (([2, 1] : List Nat).map Int.ofNat)) true = some K := ⟨⟨_, rfl⟩, _, rfl⟩

/-! ### Losses -/

/-- The mean of numbers; without numbers it is `nan`. -/
noncomputable def average (xs : List ℝ) : Option ℝ := if xs = [] then none else some (xs.sum / xs.length)

/-- The loss of what a batch teaches. Predictions of the padding token of the model are left out. -/
noncomputable def meanSurprise (vocab : Nat) (pad : Option Int) (m : Model) (P : List (List Int × Int)) : Option ℝ :=
  average ((P.filter fun p => pad ≠ some p.2).map fun p => surprise vocab m (p.1.map Int.toNat) p.2.toNat)

/-- Tokens that are in the vocabulary. -/
def InTable (vocab : Nat) (t : Int) : Prop := 0 ≤ t ∧ t < vocab

private theorem entropy_plain (vocab : Nat) (p : Position) (h : InVocab vocab p) :
    entropyAt vocab 0 p = - Real.log (softmaxAt p.row p.target.toNat) := by
  unfold entropyAt aim
  have : ∀ n, ((List.range n).map fun v => (if v = p.target.toNat then (1 : ℝ) - 0 else 0 / ((vocab : ℝ) - 1)) *
      - Real.log (softmaxAt p.row v)).sum = if p.target.toNat < n then - Real.log (softmaxAt p.row p.target.toNat) else 0 := by
    intro n
    induction n with
    | zero => simp
    | succ n ih =>
      rw [List.range_succ, List.map_append, List.sum_append, ih]
      simp only [List.map_cons, List.map_nil, List.sum_cons, List.sum_nil, add_zero, sub_zero, zero_div]
      by_cases h1 : n = p.target.toNat
      · subst h1; simp
      · by_cases h2 : p.target.toNat < n
        · rw [if_pos h2, if_neg h1, if_pos (by omega)]; ring
        · rw [if_neg h2, if_neg h1, if_neg (by omega)]; ring
  rw [this, if_pos h.2]

private theorem cut_flatten : ∀ (ns : List Nat) (xs : List Int), ns.sum = xs.length → (cutAt ns xs).flatten = xs
  | [], xs, h => by simp at h; rw [List.length_eq_zero_iff.1 h.symm]; rfl
  | n :: ns, xs, h => by
    rw [List.sum_cons] at h
    rw [cutAt, List.flatten_cons, cut_flatten ns _ (by rw [List.length_drop]; omega), List.take_append_drop]

private theorem cut_lens : ∀ (ns : List Nat) (xs : List Int), ns.sum = xs.length → (cutAt ns xs).map List.length = ns
  | [], xs, h => rfl
  | n :: ns, xs, h => by
    rw [List.sum_cons] at h
    rw [cutAt, List.map_cons, cut_lens ns _ (by rw [List.length_drop]; omega), List.length_take]
    congr 1
    omega

private theorem contexts_length (S : List (List Int)) : (S.flatMap contextsIn).length = S.flatten.length := by
  rw [List.length_flatMap, List.length_flatten]
  congr 1
  exact List.map_congr_left fun s _ => by simp [contextsIn]

/-- The logits after some tokens. -/
private noncomputable def lastLogits (m : Model) (c : List Int) : Dec.Vec :=
  (Dec.Spec.logits m [] (c.map Int.toNat)).getLast?.getD fun _ => 0

private theorem logits_contexts (m : Model) (s : List Int) :
    Dec.Spec.logits m [] (s.map Int.toNat) = (contextsIn s).map (lastLogits m) := by
  apply List.ext_getElem
  · simp [Sft.logits_length, contextsIn]
  · intro i h1 h2
    rw [Sft.logits_length, List.length_map] at h1
    simp only [contextsIn, List.getElem_map, List.getElem_range, lastLogits]
    rw [List.map_take, Sft.logits_take, List.getLast?_eq_getElem?, List.length_take, Sft.logits_length, List.length_map,
      List.getElem?_take_of_lt (by omega)]
    rw [show min (i + 1) s.length - 1 = i by omega, List.getElem?_eq_getElem (by rw [Sft.logits_length, List.length_map]; exact h1)]
    rfl

private theorem create_facts {seqs : Seqs Int} {lens : List Nat} {mask : Option (Seqs Bool)} {b : SeqBatch Int}
    (h : SeqBatch.create seqs (some lens) mask = some b) : b.seqs = seqs ∧ b.lens = lens ∧ lens ≠ [] ∧
      ∀ xs, seqs = .packed xs → (∀ n ∈ lens, 1 ≤ n) ∧ lens.sum ≤ xs.length ∧ b.padding = xs.length - lens.sum := by
  unfold SeqBatch.create at h
  cases hme : measureLens seqs (some lens) with
  | none => rw [hme] at h; cases h
  | some x =>
    obtain ⟨n1, n2, n3, n4, n5⟩ := x
    rw [hme] at h
    simp only [Option.bind_eq_bind, Option.bind_some] at h
    have hb : b.seqs = seqs ∧ b.lens = n1 ∧ b.padding = n5 := by
      cases mask with
      | none => cases h; exact ⟨rfl, rfl, rfl⟩
      | some w =>
        dsimp only at h
        split at h
        · cases h; exact ⟨rfl, rfl, rfl⟩
        · cases h
    unfold measureLens at hme
    split at hme
    · cases hme
    · rename_i hne
      have hne' : lens ≠ [] := fun e => hne (by rw [e])
      cases seqs with
      | packed xs =>
        dsimp only at hme
        split at hme
        · cases hme
        · simp only [Option.getD_some] at hme
          split at hme
          · cases hme
          · rename_i hany
            split at hme
            · cases hme
            · rename_i hsum
              cases hme
              refine ⟨hb.1, hb.2.1, hne', fun ys e => ?_⟩
              cases e
              refine ⟨fun n hn => ?_, by omega, hb.2.2⟩
              simp only [List.any_eq_true, decide_eq_true_eq, not_exists, not_and] at hany
              have := hany n hn
              omega
      | padded w rows =>
        dsimp only at hme
        split at hme
        · cases hme
        · simp only [Option.getD_some] at hme
          split at hme
          · cases hme
          · split at hme
            · cases hme
            · cases hme
              exact ⟨hb.1, hb.2.1, hne', fun ys e => by cases e⟩

private theorem input_facts {d : Data} {inp tgt : SeqBatch Int} (h : modelInput d = some (inp, tgt)) (hp : inp.padding = 0) :
    ∃ row targets, inp.seqs = .packed row ∧ tgt.seqs = .packed targets ∧ targets.length = row.length ∧ inp.lens ≠ [] ∧
      (∀ n ∈ inp.lens, 1 ≤ n) ∧ inp.lens.sum = row.length := by
  unfold modelInput at h
  rw [Option.bind_eq_some_iff] at h
  obtain ⟨b, hb, h⟩ := h
  obtain ⟨xs, hxs⟩ : ∃ xs, b.seqs = .packed xs := by
    unfold Lm.toBatch at hb
    rw [Option.bind_eq_some_iff] at hb
    obtain ⟨s, -, hb⟩ := hb
    rw [Option.bind_eq_some_iff] at hb
    obtain ⟨n, -, hb⟩ := hb
    split at hb
    · rename_i seqs
      rw [Option.bind_eq_some_iff] at hb
      obtain ⟨lens, -, hb⟩ := hb
      exact ⟨seqs, (create_facts hb).1⟩
    · cases hb
  unfold SeqBatch.asAutoRegressive at h
  rw [hxs] at h
  simp only [Option.bind_eq_bind, Option.bind_eq_some_iff] at h
  obtain ⟨lens, -, i, hi, t, ht, e⟩ := h
  cases e
  obtain ⟨i1, i2, i3, i4⟩ := create_facts hi
  obtain ⟨t1, -, -, -⟩ := create_facts ht
  obtain ⟨i5, i6, i7⟩ := i4 _ rfl
  refine ⟨xs.dropLast, xs.tail, i1, t1, by simp, by rw [i2]; exact i3, by rw [i2]; exact i5, ?_⟩
  rw [i2]
  omega

private theorem pairs_cover {inp tgt : SeqBatch Int} {row targets : List Int} (h1 : inp.seqs = .packed row) (h2 : tgt.seqs = .packed targets)
    (h3 : targets.length = row.length) (h4 : inp.lens.sum = row.length) :
    (∀ t ∈ row, ∃ p ∈ learntPairs inp tgt, t ∈ p.1) ∧ ∀ s ∈ cutAt inp.lens row, s ≠ [] → ∃ p ∈ learntPairs inp tgt, p.1 = s := by
  have hP : learntPairs inp tgt = ((cutAt inp.lens row).flatMap contextsIn).zip targets := by
    unfold learntPairs; rw [h1, h2]; rfl
  have hlen : ((cutAt inp.lens row).flatMap contextsIn).length = targets.length := by
    rw [contexts_length, cut_flatten _ _ h4, h3]
  have hmem : ∀ c ∈ (cutAt inp.lens row).flatMap contextsIn, ∃ p ∈ learntPairs inp tgt, p.1 = c := by
    intro c hc
    rw [hP]
    have : c ∈ ((((cutAt inp.lens row).flatMap contextsIn).zip targets).map Prod.fst) := by
      rw [List.map_fst_zip (by omega)]; exact hc
    obtain ⟨p, hp, e⟩ := List.mem_map.1 this
    exact ⟨p, hp, e⟩
  have hall : ∀ s ∈ cutAt inp.lens row, s ≠ [] → ∃ p ∈ learntPairs inp tgt, p.1 = s := by
    intro s hs hne
    have := List.length_pos_iff.2 hne
    refine hmem s (List.mem_flatMap.2 ⟨s, hs, List.mem_map.2 ⟨s.length - 1, List.mem_range.2 (by omega), ?_⟩⟩)
    exact List.take_of_length_le (by omega)
  refine ⟨fun t ht => ?_, hall⟩
  rw [← cut_flatten _ _ h4] at ht
  obtain ⟨s, hs, hts⟩ := List.mem_flatten.1 ht
  obtain ⟨p, hp, e⟩ := hall s hs (List.ne_nil_of_mem hts)
  exact ⟨p, hp, by rw [e]; exact hts⟩

/-- **C110 (the loss).** The loss of a packed batch without padding is the mean, over what the batch teaches (C109), of minus the logarithm
of the probability that the model gives to the token after its context alone. -/
theorem C110_loss (vocab : Nat) (pad : Option Int) (m : Model) (hlm : ∀ L ∈ m.layers, L.cross = none) (d : Data) (inp tgt : SeqBatch Int)
    (h : modelInput d = some (inp, tgt)) (hp : inp.padding = 0)
    (hv : ∀ p ∈ learntPairs inp tgt, (∀ t ∈ p.1, InTable vocab t) ∧ InTable vocab p.2)
    (hm : ∀ p ∈ learntPairs inp tgt, PackModel m p.1.length) :
    trainLoss vocab pad m d = some (meanSurprise vocab pad m (learntPairs inp tgt)) := by
  obtain ⟨row, targets, h1, h2, h3, h4, h5, h6⟩ := input_facts h hp
  obtain ⟨hc1, hc2⟩ := pairs_cover h1 h2 h3 h6
  have hP : learntPairs inp tgt = ((cutAt inp.lens row).flatMap contextsIn).zip targets := by
    unfold learntPairs; rw [h1, h2]; rfl
  have hcl := cut_lens _ _ h6
  have hcf := cut_flatten _ _ h6
  generalize hS : cutAt inp.lens row = S at hP hcl hcf hc2
  have hSne : S ≠ [] := by intro e; rw [e] at hcl; exact h4 hcl.symm
  have hS0 : ∀ s ∈ S, s ≠ [] := by
    intro s hs e
    have := h5 s.length (by rw [← hcl]; exact List.mem_map.2 ⟨s, hs, rfl⟩)
    rw [e] at this
    simp at this
  have hrow : (S.map (List.map Int.toNat)).flatten = row.map Int.toNat := by rw [← List.map_flatten, hcf]
  obtain ⟨l, rest, hl, hr, e⟩ := C110_lm m hlm (S.map (List.map Int.toNat)) [] (by simpa using hSne)
    (by intro s hs; obtain ⟨s', hs', rfl⟩ := List.mem_map.1 hs; simpa using hS0 s' hs')
    (by
      intro s hs
      obtain ⟨s', hs', rfl⟩ := List.mem_map.1 hs
      obtain ⟨p, hp, rfl⟩ := hc2 s' hs' (hS0 s' hs')
      simpa using hm p hp)
  rw [List.length_nil, List.length_eq_zero_iff] at hr
  subst hr
  rw [List.append_nil, List.append_nil, hrow] at e
  rw [List.append_nil, hrow, List.length_map, List.map_map] at hl
  have hlay : Layout.of [(row.length : Int)] (some (inp.lens.map fun (n : Nat) => (n : Int))) true = some l := by
    rw [← hl, Layout.of, ← hcl, List.map_map]
    simp [Function.comp_def]
  have hidx : row.mapM (indexOf vocab) = some (row.map Int.toNat) := by
    have := Sft.indices_ok vocab [row] (by
      intro r hr t ht
      simp only [List.mem_singleton] at hr
      subst hr
      obtain ⟨p, hp, htp⟩ := hc1 t ht
      exact (hv p hp).1 t htp)
    simp only [List.mapM_cons, List.mapM_nil] at this
    cases hx : row.mapM (indexOf vocab) with
    | none => rw [hx] at this; cases this
    | some z => rw [hx] at this; simpa using this
  have hys : ((S.map (List.map Int.toNat)).map (Dec.Spec.logits m [])).flatten = (S.flatMap contextsIn).map (lastLogits m) := by
    rw [List.map_map, List.map_flatMap, ← List.flatMap_def]
    congr 1
    funext s
    exact logits_contexts m s
  rw [hys] at e
  have hCl : (S.flatMap contextsIn).length = targets.length := by rw [contexts_length, hcf, h3]
  let g : List Int × Int → Position := fun p => ⟨vocabRow vocab (lastLogits m p.1), p.2, true⟩
  have hloss := C94_loss vocab pad 0 le_rfl (Or.inl rfl) none false ((learntPairs inp tgt).map g)
    (by
      intro p hp
      obtain ⟨q, -, rfl⟩ := List.mem_map.1 hp
      simp [g, vocabRow])
    (by
      intro _ p hp
      obtain ⟨q, -, rfl⟩ := List.mem_map.1 hp
      rfl)
    (by
      intro p hp
      obtain ⟨q, hq, rfl⟩ := List.mem_map.1 hp
      have := (hv q hq).2
      exact Or.inl ⟨this.1, by have h1 := this.1; have h2 := this.2; simp only [g]; omega⟩) .mean
  have hrows : ((learntPairs inp tgt).map g).map (·.row) = ((S.flatMap contextsIn).map (lastLogits m)).map (vocabRow vocab) := by
    rw [hP, List.map_map, List.map_map]
    have : ((fun x : Position => x.row) ∘ g) = (vocabRow vocab ∘ lastLogits m) ∘ Prod.fst := rfl
    rw [this, ← List.map_map, List.map_fst_zip (by omega)]
  have htg : ((learntPairs inp tgt).map g).map (·.target) = targets := by
    rw [hP, List.map_map]
    have : ((fun x : Position => x.target) ∘ g) = Prod.snd := rfl
    rw [this, List.map_snd_zip (by omega)]
  unfold lossCall at hloss
  rw [hrows, htg] at hloss
  simp only [Bool.false_eq_true, if_false] at hloss
  unfold trainLoss
  rw [h, Option.bind_some]
  simp only [h1, hlay, hidx, Option.bind_some, e, h2, flat, List.flatten_cons, List.flatten_nil, List.append_nil, hloss, lossOf]
  have hf : ((learntPairs inp tgt).map g).filter (countsIn pad) = ((learntPairs inp tgt).filter fun p => pad ≠ some p.2).map g := by
    rw [List.filter_map]
    congr 1
  have hsum : (((learntPairs inp tgt).filter fun p => pad ≠ some p.2).map g).map (entropyAt vocab 0) =
      ((learntPairs inp tgt).filter fun p => pad ≠ some p.2).map fun p => surprise vocab m (p.1.map Int.toNat) p.2.toNat := by
    rw [List.map_map]
    apply List.map_congr_left
    intro p hp
    have := (hv p (List.mem_of_mem_filter hp)).2
    simp only [Function.comp]
    rw [entropy_plain vocab (g p) ⟨this.1, by have h1 := this.1; have h2 := this.2; simp only [g]; omega⟩]
    rfl
  rw [hf, hsum]
  simp only [meanSurprise, average, List.map_eq_nil_iff, List.length_map]

private theorem shorter {m : Model} {L k : Nat} (h : PackModel m L) (hk : k ≤ L) : PackModel m k :=
  ⟨h.bias, fun M hM e he => by have := h.attnPos M hM e he; omega, h.cross, fun e he => by have := h.pos e he; omega⟩

private theorem taught {L n : Nat} {docs : List (List Int)} {ds : List Data} {pos : List (List (Nat × Nat))} (h : Teaches L n docs ds pos)
    {vocab : Nat} (hv : ∀ doc ∈ docs, ∀ t ∈ doc, InTable vocab t) {E : List (Nat × Nat)} (hE : E ∈ pos) {p : List Int × Int}
    (hp : p ∈ E.map (stretch docs.flatten)) : ((∀ t ∈ p.1, InTable vocab t) ∧ InTable vocab p.2) ∧ p.1.length ≤ L := by
  have hv' : ∀ t ∈ docs.flatten, InTable vocab t := by
    intro t ht
    obtain ⟨doc, hd, h⟩ := List.mem_flatten.1 ht
    exact hv doc hd t h
  obtain ⟨e, he, rfl⟩ := List.mem_map.1 hp
  obtain ⟨h1, h2, h3, -⟩ := h.inside E hE e he
  refine ⟨⟨fun t ht => hv' t (List.mem_of_mem_drop (List.mem_of_mem_take ht)), ?_⟩, ?_⟩
  · simp only [stretch]
    rw [List.getD_eq_getElem?_getD, List.getElem?_eq_getElem h2]
    exact hv' _ (List.getElem_mem h2)
  · simp only [stretch, List.length_take, List.length_drop]
    omega

/-- **C110 (the losses of an epoch).** Of batches that teach documents in the sense of C109 the loss of each is the mean of minus the
logarithms of the probabilities that the model gives to the tokens after their contexts. -/
theorem C110_epoch (vocab : Nat) (pad : Option Int) (m : Model) (hlm : ∀ L ∈ m.layers, L.cross = none) (L n : Nat)
    (docs : List (List Int)) (ds : List Data) (pos : List (List (Nat × Nat))) (h : Teaches L n docs ds pos)
    (hv : ∀ doc ∈ docs, ∀ t ∈ doc, InTable vocab t) (hm : PackModel m L) :
    List.Forall₂ (fun d E => trainLoss vocab pad m d = some (meanSurprise vocab pad m (E.map (stretch docs.flatten)))) ds pos := by
  obtain ⟨h1, h2⟩ := List.forall₂_iff_zip.1 h.batches
  refine List.forall₂_iff_zip.2 ⟨h1, ?_⟩
  intro d E hd
  obtain ⟨inp, tgt, a1, -, a2, a3⟩ := h2 hd
  rw [← a3]
  have hE := (List.of_mem_zip hd).2
  refine C110_loss vocab pad m hlm d inp tgt a1 a2 ?_ ?_
  · intro p hp
    rw [a3] at hp
    exact (taught h hv hE hp).1
  · intro p hp
    rw [a3] at hp
    exact shorter hm (taught h hv hE hp).2

/-- **C110 (all predictions weigh the same).** For a model without padding token the losses of the batches, times the number of predictions
of a batch, add up to the sum over all predictions. -/
theorem C110_total (vocab : Nat) (m : Model) (hlm : ∀ L ∈ m.layers, L.cross = none) (L n : Nat) (hn : 0 < n)
    (docs : List (List Int)) (ds : List Data) (pos : List (List (Nat × Nat))) (h : Teaches L n docs ds pos)
    (hv : ∀ doc ∈ docs, ∀ t ∈ doc, InTable vocab t) (hm : PackModel m L) :
    ∃ losses : List ℝ, List.Forall₂ (fun d r => trainLoss vocab none m d = some (some r)) ds losses ∧
      n * losses.sum = ((pos.flatten.map (stretch docs.flatten)).map fun p =>
        surprise vocab m (p.1.map Int.toNat) p.2.toNat).sum := by
  have he := C110_epoch vocab none m hlm L n docs ds pos h hv hm
  have hb := h.batches
  clear h
  induction he with
  | nil => exact ⟨[], .nil, by simp⟩
  | cons hd _ ih =>
    rename_i d E ds pos _
    obtain ⟨⟨inp, tgt, -, hE, -⟩, hb⟩ := List.forall₂_cons.1 hb
    obtain ⟨losses, i1, i2⟩ := ih hb
    have hne : E ≠ [] := by intro e; rw [e] at hE; simp at hE; omega
    simp only [meanSurprise, average, ne_eq, reduceCtorEq, not_false_eq_true, decide_true, List.filter_true, List.map_eq_nil_iff,
      hne, if_false, List.length_map, hE] at hd
    refine ⟨_ :: losses, .cons hd i1, ?_⟩
    have hn' : (n : ℝ) ≠ 0 := by exact_mod_cast (by omega : n ≠ 0)
    rw [List.sum_cons, mul_add, i2, List.flatten_cons, List.map_append, List.map_append, List.sum_append]
    congr 1
    field_simp

/-! ### Examples -/

theorem averaging_pack (cross : Option (Dec.Mha × Dec.Block)) (hc : ∀ a b, cross = some (a, b) → Dec.GoodCross a) (w : Option Nat) (n : Nat) :
    PackModel (averaging (.causal w) .full cross) n := by
  refine ⟨?_, ?_, ?_, by simp [averaging]⟩
  · intro L hL
    simp only [averaging, List.mem_singleton] at hL
    subst hL
    exact ⟨w, rfl⟩
  · intro L hL e he
    simp only [averaging, List.mem_singleton] at hL
    subst hL
    cases he
  · intro L hL a b h
    simp only [averaging, List.mem_singleton] at hL
    subst hL
    exact hc a b h

/-- Two sequences and padding. -/
example (a b c p : Nat) : ∃ l rest, Layout.new [4] (some [2, 1]) true = some l ∧ rest.length = 1 ∧
    decodeAll (averaging (.causal none) .full none) none [[a, b, c, p]] l =
      some [Dec.Spec.logits (averaging (.causal none) .full none) [] [a, b] ++
        Dec.Spec.logits (averaging (.causal none) .full none) [] [c] ++ rest] := by
  have := C110_lm (averaging (.causal none) .full none) (by simp [averaging]) [[a, b], [c]] [p] (by simp) (by simp)
    (fun s _ => averaging_pack none (by simp) none _)
  simpa using this

/-- Two pairs, of which the second has the longer target. -/
example (a b c x y z : Nat) : ∃ ls lt rest, Layout.new [3] (some [2, 1]) true = some ls ∧ Layout.new [3] (some [1, 2]) true = some lt ∧
    rest.length = 0 ∧
    translate ⟨fun t _ => t, none, ⟨[.transformer (averager .identity .full) bareBlock id bareBlock], id⟩⟩
      (averaging (.causal none) .full (some (averager .identity .full, bareBlock))) [[a, b, c]] ls [[x, y, z]] lt =
      some [(([([a, b], [x]), ([c], [y, z])] : List (List Nat × List Nat)).map fun p =>
        Dec.Spec.logits (averaging (.causal none) .full (some (averager .identity .full, bareBlock)))
          (Enc.Spec.encodeText ⟨fun t _ => t, none, ⟨[.transformer (averager .identity .full) bareBlock id bareBlock], id⟩⟩ p.1) p.2).flatten ++
        rest] := by
  have := C110_translate_partial ⟨fun t _ => t, none, ⟨[.transformer (averager .identity .full) bareBlock id bareBlock], id⟩⟩
    (averaging (.causal none) .full (some (averager .identity .full, bareBlock)))
    (by
      intro L hL
      simp only [List.mem_singleton] at hL
      subst hL
      exact ⟨rfl, _, _, _, _, rfl⟩)
    [([a, b], [x]), ([c], [y, z])] [] [] (by simp) (by simp)
    (by
      intro p _ L hL e he
      simp only [List.mem_singleton] at hL
      subst hL
      cases he)
    (by simp) (fun p _ => averaging_pack _ (by rintro a b ⟨⟩; exact ⟨rfl, rfl⟩) none _)
  simpa using this

/-- A sequence of three tokens for a position encoder of two. -/
example : ∃ (m : Model) (e : Dec.PosEnc), m.pos = some e ∧ e.maxLen < (([1, 2, 3] : List Nat).length : Int) :=
  ⟨{ averaging (.causal none) .full none with pos := some ⟨2, fun _ x => x⟩ }, ⟨2, fun _ x => x⟩, rfl, by decide⟩

/-- The batches of C109 fulfil what is asked for. -/
example (R : Rng) (seed : Nat) : ∃ ds, ∃ losses : List ℝ, lmReads R twoChunks xyTok [⟨[.str "a", .str "b"], 1⟩] 0 1 8 3 seed ds ∧
    List.Forall₂ (fun d r => trainLoss 5 none (averaging (.causal none) .full none) d = some (some r)) ds losses := by
  obtain ⟨-, h2⟩ := C109_epoch R twoChunks xyTok [.str "a", .str "b"] 1 chunkText twoChunks_hold 1 8 3 seed (by omega) (by simp)
    (by intro r hr; exact ⟨0, .str "a", by obtain rfl : r = 0 := by omega
                                           rfl, by simp [twoChunks]⟩) (by omega) (by omega)
  obtain ⟨ds, pos, hr, ht⟩ := h2 0 (by omega)
  obtain ⟨losses, hl, -⟩ := C110_total 5 (averaging (.causal none) .full none) (by simp [averaging]) 8 3 (by omega) _ ds pos ht
    (by
      intro doc hd t ht
      obtain ⟨x, -, rfl⟩ := List.mem_map.1 hd
      simp only [xyTok] at ht
      split at ht <;> simp at ht <;> rcases ht with rfl | rfl <;> exact ⟨by decide, by decide⟩)
    (averaging_pack none (by simp) none 8)
  exact ⟨ds, losses, hr, hl⟩

end Fs2.Props
