import Verif.Nn.EncoderLemmas
import Verif.Props.Decoder
import Verif.Props.Speech

/-!
# C98: Forward passes over padded batches compute each sequence on its own

The specification is in `Verif/Nn/EncoderSpec.lean` (`Enc.Spec.encode`, `Enc.Spec.encodeText`) and in
`Verif/Nn/DecoderSpec.lean` (`Dec.Spec.logits`): they take one sequence and know nothing of batches, padding and masks.
`Carries W rows l S` of `Verif/Nn/SpeechSpec.lean` says that the rows of width `W` hold the sequences `S`, with
anything as padding, and that `l` is their layout.
-/

namespace Fs2.Props
open Fs2.Nn Fs2.Speech Fs2.Enc
open Fs2.Dec hiding GoodLayer

/-- **C98 (encoder).** An encoder of transformer layers and conformer blocks computes for each sequence of a batch,
padded or not, what the specification says for this sequence; whatever is in the padding has no influence. A batch
with a sequence that is too long for a position encoder is refused. -/
theorem C98_encoder (E : Encoder) (hE : ∀ L ∈ E.layers, Enc.GoodLayer L) {W : Nat} {rows : Batch Vec} {l : Layout}
    {S : Batch Vec} (hne : S ≠ []) (hc : Carries W rows l S) :
    ((∀ s ∈ S, Enc.Fits E s.length) →
      ∃ rows', E.forward rows l = some (rows', l) ∧ Carries W rows' l (S.map (Enc.Spec.encode E))) ∧
    ((∃ s ∈ S, ¬ Enc.Fits E s.length) → E.forward rows l = none) := by
  have hk := keeps_encoder hE
  constructor
  · intro hf
    obtain ⟨ys, e, hy⟩ := hk.ok hne hc hf
    refine ⟨ys, ?_, hy⟩
    simp only [Encoder.forward, Option.map_map, Option.map_eq_some_iff, Function.comp_apply] at e ⊢
    obtain ⟨a, h1, h2⟩ := e
    exact ⟨a, h1, by rw [h2]⟩
  · intro hf
    have := hk.bad hc hf
    rw [Option.map_eq_none_iff] at this
    exact this

/-- **C98 (speech recognition).** A speech recognition model, from waveforms to logits, returns for each recording of a
batch what it returns for this recording alone, and refuses a batch if and only if it refuses one of its recordings. -/
theorem C98_asr (m : AsrModel) (hF : Steady m.frontend) (hE : ∀ L ∈ m.encoder.layers, Enc.GoodLayer L) {W : Nat}
    {rows : Batch Vec} {l : Layout} {S : Batch Vec} (hne : S ≠ []) (hc : Carries W rows l S) :
    ((∀ s ∈ S, ∃ t, Alone m.forward s t) → ∃ W' rows' l' T, m.forward rows l = some (rows', l') ∧
        Carries W' rows' l' T ∧ T.length = S.length ∧
        ∀ (r : Nat) s t, S[r]? = some s → T[r]? = some t → Alone m.forward s t) ∧
    ((∃ s ∈ S, ∀ t, ¬ Alone m.forward s t) → m.forward rows l = none) := by
  classical
  obtain ⟨g, hg⟩ := frontend_acts m.frontend hF
  have hA := hg.comp ((acts_encoder hE).comp (acts_map m.proj))
  have hB : Acts m.forward _ := acts_congr hA (op' := m.forward) (by
    intro W rows l S _
    simp only [AsrModel.forward]
    cases m.frontend.forward rows l with
    | none => rfl
    | some x =>
      simp only [Option.bind_some]
      cases m.encoder.forward x.1 x.2 <;> rfl)
  exact hB.batch hne hc

/-- **C98 (what is returned for a recording alone).** It is the specification of the encoder applied to what the
frontend makes of the recording. -/
theorem C98_asr_alone (m : AsrModel) (hF : Steady m.frontend) (hE : ∀ L ∈ m.encoder.layers, Enc.GoodLayer L)
    {s f : List Vec} (hf : Alone m.frontend.forward s f) (hfit : Enc.Fits m.encoder f.length) :
    Alone m.forward s ((Enc.Spec.encode m.encoder f).map m.proj) := by
  classical
  obtain ⟨g, hg⟩ := frontend_acts m.frontend hF
  have hA := hg.comp ((acts_encoder hE).comp (acts_map m.proj))
  have hB : Acts m.forward _ := acts_congr hA (op' := m.forward) (by
    intro W rows l S _
    simp only [AsrModel.forward]
    cases m.frontend.forward rows l with
    | none => rfl
    | some x =>
      simp only [Option.bind_some]
      cases m.encoder.forward x.1 x.2 <;> rfl)
  obtain ⟨l, l', h1, h2, h3⟩ := id hf
  have hs : 1 ≤ s.length := (h1.facts.2.1 s (by simp)).1
  rw [hB.alone hs, (hg.alone hs f).1 hf]
  simp only [Option.bind_some, if_pos hfit]

/-- **C98 (language models).** The logits that a `TransformerLM` computes in training for each sequence of a padded
batch are those of the specification, the one that generation token by token fulfils (C96).

Missing for the full property: ALiBi, which raises an exception for padded batches (`C52_alibi_padded_raises`), and
batches of sequences of one token that are padded (`C98_one_token`). -/
theorem C98_lm_partial (m : Model) (hlm : ∀ L ∈ m.layers, L.cross = none) {W : Nat} {tokens : Batch Nat} {l : Layout}
    {S : Batch Nat} (hne : S ≠ []) (hc : Carries W tokens l S) (hm : ∀ s ∈ S, PadModel m s.length)
    (h1 : W = 1 ∨ ∃ s ∈ S, 2 ≤ s.length) :
    ∃ ys, decodeAll m none tokens l = some ys ∧ Carries W ys l (S.map (Dec.Spec.logits m [])) := by
  have hc' : Carries W tokens l (S.map id) := by rw [List.map_id]; exact hc
  exact decode_pad (Wk := 0) (G := fun _ => []) hne hc' hm h1 (fun ⟨L, hL, h⟩ => absurd (hlm L hL) h)

/-- **C98 (translation).** The logits that a `TransformerModel` computes in training for each pair of a batch with
padded sources and padded targets are those of the specification for this pair: the decoder looks at the whole source
and at nothing else.

Missing for the full property: ALiBi and targets of one token, as above; and what a `nan` at a padding position does to
the sequence, see `C98_starved`. -/
theorem C98_translate_partial (T : TextEncoder) (m : Model) (hT : ∀ L ∈ T.encoder.layers, Enc.GoodLayer L)
    {Ws Wt : Nat} {sources targets : Batch Nat} {ls lt : Layout} {P : List (List Nat × List Nat)} (hne : P ≠ [])
    (hs : Carries Ws sources ls (P.map (·.1))) (ht : Carries Wt targets lt (P.map (·.2)))
    (hf : ∀ p ∈ P, Enc.Fits T.encoder p.1.length) (hp : ∀ p ∈ P, ∀ e, T.pos = some e → (p.1.length : Int) ≤ e.maxLen)
    (hm : ∀ p ∈ P, PadModel m p.2.length) (h1 : Wt = 1 ∨ ∃ p ∈ P, 2 ≤ p.2.length) :
    ∃ ys, translate T m sources ls targets lt = some ys ∧
      Carries Wt ys lt (P.map fun p => Dec.Spec.logits m (Enc.Spec.encodeText T p.1) p.2) := by
  obtain ⟨xs, e, hx⟩ := text_pad hne hs hT hf hp
  obtain ⟨ys, e', hy⟩ := decode_pad (m := m) (src := some ⟨ls.width.toNat, xs, ls⟩) (Wk := Ws)
    (G := fun p => Enc.Spec.encodeText T p.1) hne ht hm h1 (fun _ => ⟨_, rfl, hx⟩)
  exact ⟨ys, by simp only [translate, e, Option.bind_some, e'], hy⟩

/-- The smallest example of padding: one position of two. -/
def oneOfTwoRows : Layout := ⟨2, [0, 2], [1], [[0, -1]], 1, 1, false, true⟩

/-- **C98 (targets of one token).** If all sequences of a padded batch have one token, a causal decoder uses no mask at
all: the logits of the token depend on what is in the padding. -/
theorem C98_one_token : ∃ (m : Model) (l : Layout) (a b c : Nat) (ys zs : Batch Vec),
    (∀ L ∈ m.layers, L.cross = none) ∧ PadModel m 1 ∧ Carries 2 [[a, b]] l [[a]] ∧ Carries 2 [[a, c]] l [[a]] ∧
    decodeAll m none [[a, b]] l = some ys ∧ decodeAll m none [[a, c]] l = some zs ∧
    (ys[0]?).bind (fun y => (y[0]?).map fun x => x 0) ≠ (zs[0]?).bind (fun y => (y[0]?).map fun x => x 0) := by
  have hcar : ∀ b, Carries 2 [[1, b]] oneOfTwoRows [[1]] := by
    intro b
    refine ⟨rfl, ?_, by simp, (by decide : Layout.new [1, 2] (some [1]) false = some oneOfTwoRows)⟩
    intro r s h
    match r with
    | 0 => simp at h; subst h; exact ⟨_, rfl, rfl⟩
    | r + 1 => simp at h
  refine ⟨averaging (.causal none) .full none, oneOfTwoRows, 1, 1, 3, _, _, by simp [averaging], ?_, hcar 1, hcar 3,
    rfl, rfl, ?_⟩
  · refine ⟨?_, ?_, ?_, ?_⟩
    · intro L hL
      simp [averaging] at hL
      subst hL
      exact ⟨none, rfl, by simp⟩
    · simp [averaging, averager]
    · simp [averaging]
    · simp [averaging]
  · simp [averaging, averager, bareBlock, oneOfTwoRows, elem, biasEntry, attend, dot, Finset.sum_range_succ, expBias,
      Block.leave, Block.enter, Layer.forwardFfn, Mha.projectV]

/-- **C98 (padding that sees nothing).** In the attention to the encoder a padding position of a target sees a source
position if and only if the source of its row is padded too; a position of the target always does. Attention is a number
in exactly these cases, and `nan` otherwise. -/
theorem C98_starved {Wq Wk : Nat} {Q K : Layout} {xs ys : Batch Vec} {X Y : Batch Vec} (hne : X ≠ [])
    (hn : X.length = Y.length) (hx : Carries Wq xs Q X) (hy : Carries Wk ys K Y) :
    ∃ bias, maybeGet .identity Q K = some bias ∧ ∀ (r : Nat) x y, X[r]? = some x → Y[r]? = some y → ∀ i < Wq,
      ∀ (scale : ℝ) (d : Nat) (q : Nat → ℝ) (k v : Nat → Nat → ℝ) (h c : Nat),
        (attend scale d Wk q k v (biasEntry bias r h i) c = none ↔ x.length ≤ i ∧ y.length = Wk) := by
  have hnone : ∀ (scale : ℝ) (d : Nat) (q : Nat → ℝ) (k v : Nat → Nat → ℝ) (bias : Nat → Entry) (c : Nat),
      attend scale d Wk q k v bias c = none ↔ ∀ j < Wk, bias j = .negInf := by
    intro scale d q k v bias c
    have hnn : ∀ j, 0 ≤ expBias (dot d q (k j) * scale) (bias j) := by
      intro j
      cases bias j with
      | negInf => exact le_refl _
      | fin x => exact le_of_lt (Real.exp_pos _)
    unfold attend
    simp only
    split
    · next h0 =>
      rw [Finset.sum_eq_zero_iff_of_nonneg (fun j _ => hnn j)] at h0
      refine ⟨fun _ j hj => ?_, fun _ => rfl⟩
      have := h0 j (Finset.mem_range.2 hj)
      cases hb : bias j with
      | negInf => rfl
      | fin x =>
        rw [hb] at this
        exact absurd this (ne_of_gt (Real.exp_pos _))
    · next h0 =>
      refine ⟨fun h => (by cases h), fun hall => ?_⟩
      exfalso
      apply h0
      apply Finset.sum_eq_zero
      intro j hj
      rw [hall j (Finset.mem_range.1 hj)]
      rfl
  obtain ⟨_, x2, x3, x4, x5, _⟩ := hx.facts
  obtain ⟨hWk, y2, y3, y4, y5, _⟩ := hy.facts
  by_cases hp : Q.padded = false ∧ K.padded = false
  · refine ⟨none, by simp [maybeGet, hp.1, hp.2, x3, y3], ?_⟩
    intro r x y hr hr' i hi scale d q k v h c
    rw [hnone]
    have hX := (hx.eq hp.1).2 x (List.mem_of_getElem? hr)
    constructor
    · intro hall
      have := hall 0 (by omega)
      simp [biasEntry] at this
    · rintro ⟨h1, _⟩
      omega
  · have lay : ∀ {W : Nat} {rows : Batch Vec} {l : Layout} {S : Batch Vec}, Carries W rows l S →
        Layout.new [((S.map List.length).length : Int), (W : Int)] (some ((S.map List.length).map Int.ofNat)) false =
          some l := by
      intro W rows l S h
      have := h.layout
      rw [List.length_map, List.map_map]
      rw [← this]
      rfl
    obtain ⟨M, hM, hent⟩ := C52_padded .identity (by intro H h; cases h) Wq Wk (X.map List.length) (Y.map List.length) Q K
      (lay hx) (lay hy) (by simpa using hn) (by simpa using hne) (fun p _ => ⟨_, rfl⟩)
    obtain ⟨M', hM', hpad⟩ := C52_padding_sees .identity (by intro H h; cases h) Wq Wk (X.map List.length)
      (Y.map List.length) Q K (lay hx) (lay hy) (by simpa using hn) (by simpa using hne) (fun p _ => ⟨_, rfl⟩)
    rw [hM] at hM'
    cases hM'
    refine ⟨some M, ?_, ?_⟩
    · unfold maybeGet
      rw [if_neg]
      · simp [hM]
      · rintro ⟨_, h1, h2⟩
        simp [x3] at h1
        simp [y3] at h2
        exact hp ⟨h1, h2⟩
    · intro r x y hr hr' i hi scale d q k v h c
      rw [hnone]
      have e1 : (X.map List.length)[r]? = some x.length := by rw [List.getElem?_map, hr]; rfl
      have e2 : (Y.map List.length)[r]? = some y.length := by rw [List.getElem?_map, hr']; rfl
      have hyl := y2 y (List.mem_of_getElem? hr')
      by_cases hix : i < x.length
      · constructor
        · intro hall
          obtain ⟨t, ht, e⟩ := (hent h r _ _ e1 e2).1 i 0 hix (by omega)
          have h0 := hall 0 (by omega)
          rw [biasEntry, e] at h0
          simp only [BiasKind.create, Option.some.injEq] at ht
          subst ht
          simp at h0
        · rintro ⟨h1, _⟩
          omega
      · obtain ⟨h1, h2⟩ := hpad h r _ _ e1 e2 i (by omega) hi
        constructor
        · intro hall
          refine ⟨by omega, ?_⟩
          by_contra hne'
          obtain ⟨j, hj, hs⟩ := h2.2 (by omega)
          exact hs (hall j hj)
        · rintro ⟨_, hw⟩ j hj
          by_contra hs
          have := (h1 j hj).1 hs
          omega

/-! ## Examples -/

/-- An encoder of a transformer layer and a conformer block. -/
noncomputable def smallEncoder : Encoder :=
  ⟨[.transformer (averager .identity .full) bareBlock id bareBlock,
    .conformer id id id (averager .identity .full) id
      ⟨3, false, id, fun w c => (w.map fun x => x c).sum, id⟩ id id id], id⟩

theorem smallEncoder_good : ∀ L ∈ smallEncoder.layers, Enc.GoodLayer L := by
  intro L hL
  simp only [smallEncoder, List.mem_cons, List.not_mem_nil, or_false] at hL
  rcases hL with rfl | rfl
  · exact ⟨rfl, by intros; rename_i h; cases h⟩
  · refine ⟨rfl, ?_⟩
    intro a b c d e f g h k hh
    cases hh
    exact ⟨by decide, rfl⟩

theorem smallEncoder_fits (n : Nat) : Enc.Fits smallEncoder n := by
  intro L hL e he
  simp only [smallEncoder, List.mem_cons, List.not_mem_nil, or_false] at hL
  rcases hL with rfl | rfl <;> cases he

theorem carries_two {V : Type} (x y z p : V) :
    ∃ l, Carries 2 [[x, y], [z, p]] l [[x, y], [z]] := by
  refine ⟨⟨2, [0, 2, 4], [2, 1], [[0, 1], [0, -1]], 1, 2, false, true⟩, rfl, ?_, by simp,
    (by decide : Layout.new [2, 2] (some [2, 1]) false = some _)⟩
  intro r s h
  match r with
  | 0 => simp at h; subst h; exact ⟨_, rfl, rfl⟩
  | 1 => simp at h; subst h; exact ⟨_, rfl, rfl⟩
  | r + 2 => simp at h

/-- Two sequences, the second padded with anything. -/
example (x y z p : Vec) : ∃ l rows', smallEncoder.forward [[x, y], [z, p]] l = some (rows', l) ∧
    Carries 2 rows' l [Enc.Spec.encode smallEncoder [x, y], Enc.Spec.encode smallEncoder [z]] := by
  obtain ⟨l, h⟩ := carries_two x y z p
  obtain ⟨rows', e, hc⟩ := (C98_encoder smallEncoder smallEncoder_good (by simp) h).1 fun s _ => smallEncoder_fits s.length
  exact ⟨l, rows', e, hc⟩

/-- A speech recognition model without feature extractor that accepts everything. -/
example (x y z p : Vec) : ∃ l rows' l' T, AsrModel.forward ⟨⟨.none, id, .none, id⟩, smallEncoder, id⟩ [[x, y], [z, p]] l =
    some (rows', l') ∧ Carries 2 rows' l' T ∧ T.length = 2 := by
  obtain ⟨l, h⟩ := carries_two x y z p
  have hl : ∀ s : List Vec, 1 ≤ s.length → Alone (AsrModel.forward ⟨⟨.none, id, .none, id⟩, smallEncoder, id⟩) s
      ((Enc.Spec.encode smallEncoder s).map id) := by
    intro s hs
    obtain ⟨l, h⟩ := carries_one hs
    refine C98_asr_alone ⟨⟨.none, id, .none, id⟩, smallEncoder, id⟩ ⟨trivial, trivial⟩ smallEncoder_good (f := s) ?_
      (smallEncoder_fits _)
    exact ⟨l, l, h, by simp [Frontend.forward, Extractor.forward, SpeechPos.forward], h⟩
  obtain ⟨W', rows', l', T, e, hc, hT, _⟩ := (C98_asr ⟨⟨.none, id, .none, id⟩, smallEncoder, id⟩ ⟨trivial, trivial⟩
    smallEncoder_good (by simp) h).1 (by
      intro s hs
      simp only [List.mem_cons, List.not_mem_nil, or_false] at hs
      rcases hs with rfl | rfl
      · exact ⟨_, hl _ (by simp)⟩
      · exact ⟨_, hl _ (by simp)⟩)
  have hw : W' = 2 := by
    simp only [AsrModel.forward, Frontend.forward, Extractor.forward, SpeechPos.forward, List.map_id_fun, List.map_id,
      Option.bind_some, Option.map_some] at e
    obtain ⟨rows2, e2, hc2⟩ := (C98_encoder smallEncoder smallEncoder_good (by simp) h).1 fun s _ => smallEncoder_fits s.length
    rw [e2] at e
    simp only [Option.map_some, Option.some.injEq, Prod.mk.injEq] at e
    obtain ⟨rfl, rfl⟩ := e
    obtain ⟨row, hr⟩ : ∃ row, row ∈ rows2 := by
      have := hc.num
      rw [hT] at this
      exact List.exists_mem_of_ne_nil _ (by rintro rfl; simp at this)
    rw [← hc.wide row hr, hc2.wide row hr]
  subst hw
  exact ⟨l, rows', l', T, e, hc, hT⟩

theorem averaging_pad (cross : Option (Mha × Block)) (hc : ∀ a b, cross = some (a, b) → GoodCross a) (n : Nat) :
    PadModel (averaging (.causal none) .full cross) n := by
  refine ⟨?_, ?_, ?_, ?_⟩
  · intro L hL
    simp [averaging] at hL
    subst hL
    exact ⟨none, rfl, by simp⟩
  · simp [averaging, averager]
  · intro L hL
    simp [averaging] at hL
    subst hL
    exact hc
  · simp [averaging]

/-- A language model and two sequences, the second padded. -/
example (a b c p : Nat) : ∃ l ys, decodeAll (averaging (.causal none) .full none) none [[a, b], [c, p]] l = some ys ∧
    Carries 2 ys l [Dec.Spec.logits (averaging (.causal none) .full none) [] [a, b],
      Dec.Spec.logits (averaging (.causal none) .full none) [] [c]] := by
  obtain ⟨l, h⟩ := carries_two a b c p
  obtain ⟨ys, e, hy⟩ := C98_lm_partial (averaging (.causal none) .full none) (by simp [averaging]) (by simp) h
    (fun s _ => averaging_pad none (by simp) s.length) (.inr ⟨[a, b], by simp, by simp⟩)
  exact ⟨l, ys, e, hy⟩

/-- A translation model with two pairs, both second sequences padded. -/
example (a b c p x y z q : Nat) : ∃ l ys, translate ⟨fun t _ => t, none, smallEncoder⟩
    (averaging (.causal none) .full (some (averager .identity .full, bareBlock))) [[a, b], [c, p]] l [[x, y], [z, q]] l = some ys ∧
    Carries 2 ys l [Dec.Spec.logits (averaging (.causal none) .full (some (averager .identity .full, bareBlock)))
        (Enc.Spec.encodeText ⟨fun t _ => t, none, smallEncoder⟩ [a, b]) [x, y],
      Dec.Spec.logits (averaging (.causal none) .full (some (averager .identity .full, bareBlock)))
        (Enc.Spec.encodeText ⟨fun t _ => t, none, smallEncoder⟩ [c]) [z]] := by
  obtain ⟨l, h⟩ := carries_two a b c p
  obtain ⟨l', h'⟩ := carries_two x y z q
  obtain rfl : l = l' := Option.some.inj (h.layout.symm.trans h'.layout)
  obtain ⟨ys, e, hy⟩ := C98_translate_partial ⟨fun t _ => t, none, smallEncoder⟩
    (averaging (.causal none) .full (some (averager .identity .full, bareBlock))) smallEncoder_good
    (P := [([a, b], [x, y]), ([c], [z])]) (by simp) h h' (fun p _ => smallEncoder_fits _) (by simp)
    (fun p _ => averaging_pad _ (by rintro m k hh; simp at hh; obtain ⟨rfl, rfl⟩ := hh; exact ⟨rfl, rfl⟩) _)
    (.inr ⟨([a, b], [x, y]), by simp, by simp⟩)
  exact ⟨l, ys, e, hy⟩

/-- Padding of the second target with a source of full length: its attention is `nan`. -/
example (x y z p u v w t : Vec) : ∃ Q K bias, maybeGet .identity Q K = some bias ∧ Carries 2 [[x, y], [z, p]] Q [[x, y], [z]] ∧
    Carries 2 [[u, v], [w, t]] K [[u, v], [w, t]] ∧ attend 1 1 2 (fun _ => 1) (fun _ _ => 1) (fun _ _ => 1) (biasEntry bias 1 0 1) 0 = none := by
  obtain ⟨Q, h⟩ := carries_two x y z p
  have hK : Carries 2 [[u, v], [w, t]] ⟨2, [0, 2, 4], [2, 2], [[0, 1], [0, 1]], 2, 2, false, false⟩ [[u, v], [w, t]] := by
    refine ⟨rfl, ?_, by simp, (by decide : Layout.new [2, 2] (some [2, 2]) false = some _)⟩
    intro r s h
    exact ⟨s, h, List.take_length⟩
  obtain ⟨bias, e, hb⟩ := C98_starved (by simp) (by simp) h hK
  exact ⟨Q, _, bias, e, h, hK, (hb 1 [z] [w, t] rfl rfl 1 (by decide) 1 1 _ _ _ 0 0).2 ⟨by simp, rfl⟩⟩

end Fs2.Props
