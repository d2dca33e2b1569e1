import Verif.Nn.SpeechLemmas

/-!
# C97: What a speech frontend computes for a recording does not depend on the batch

The specification is in `Verif/Nn/SpeechSpec.lean`: `Carries W rows l S` says that a batch of rows of width `W`
holds the sequences `S`, with anything as padding, and that `l` is its layout; `Alone op s t` says that the
operation turns the sequence `s`, given alone and without padding, into `t`.
-/

namespace Fs2.Props
open Fs2.Nn Fs2.Speech

variable {V : Type}

/-- A frontend without group norm, without sampling of frames and without a stacked position encoder. -/
def Steady (F : Frontend V) : Prop :=
  (match F.extractor with
    | .none => True
    | .conv layers => ∀ L ∈ layers, L.groupNorm = none
    | .fbank _ every _ => every ≤ 1) ∧
  match F.pos with
    | .none => True
    | .conv kernel _ _ _ => 1 ≤ kernel
    | .stacked _ _ _ => False

section
variable [Zero V]

/-- The frontend acts on each sequence. -/
theorem frontend_acts (F : Frontend V) (hF : Steady F) : ∃ g, Acts F.forward g := by
  have h1 : ∃ g, Acts F.extractor.forward g := by
    have := hF.1
    cases e : F.extractor with
    | none =>
      refine ⟨fun s => some s, ?_⟩
      refine acts_congr (op := fun rows l => some (rows.map (List.map id), l)) ?_ (fun _ => by simp [Extractor.forward])
      have := acts_map (V := V) id
      simp only [List.map_id] at this ⊢
      exact this
    | conv layers =>
      rw [e] at this
      exact ⟨_, acts_conv this⟩
    | fbank stride every stack =>
      rw [e] at this
      exact ⟨_, acts_fbank stride every this stack⟩
  have h2 : ∃ g, Acts (fun rows l => (F.pos.forward rows l).map fun rows => (rows, l)) g := by
    have := hF.2
    cases e : F.pos with
    | none =>
      refine ⟨fun s => some s, ?_⟩
      refine acts_congr (op := fun rows l => some (rows.map (List.map id), l)) ?_ (fun _ => by simp [SpeechPos.forward])
      have := acts_map (V := V) id
      simp only [List.map_id] at this ⊢
      exact this
    | conv kernel f act add =>
      rw [e] at this
      have hk : kernel ≠ 0 := by
        have : 1 ≤ kernel := this
        omega
      refine ⟨_, acts_congr (acts_local (pos_local kernel f act add)) ?_⟩
      intro W rows l S hc
      simp [SpeechPos.forward, convPosEncode, hc.facts.2.2.1, hk]
    | stacked kernel layers add =>
      rw [e] at this
      exact this.elim
  obtain ⟨g1, h1⟩ := h1
  obtain ⟨g2, h2⟩ := h2
  refine ⟨_, acts_congr (((h1.comp (acts_map F.pre)).comp h2).comp (acts_map F.post)) ?_⟩
  intro W rows l S _
  unfold Frontend.forward
  cases e : F.extractor.forward rows l with
  | none => rfl
  | some x =>
    simp only [Option.bind_some]
    cases F.pos.forward (x.1.map (List.map F.pre)) x.2 <;> rfl

/-- **C97 (the batch does not matter), partial.** For each sequence of a batch a frontend computes exactly what it
computes for the sequence alone, whatever the other sequences and the padding are, and the layout that it
returns says how much of each row that is. A batch is refused exactly if one of its sequences would be refused
alone. What is missing: this holds without group norm in the feature extractor (`C97_group_norm`), without a stacked
position encoder (`C97_stacked`) and without sampling of frames (`C97_sampled`); there it is false. -/
theorem C97_frontend_partial (F : Frontend V) (hF : Steady F) {W : Nat} {rows : List (List V)} {l : Layout}
    {S : List (List V)} (hne : S ≠ []) (hc : Carries W rows l S) :
    ((∀ s ∈ S, ∃ t, Alone F.forward s t) → ∃ W' rows' l' T, F.forward rows l = some (rows', l') ∧
        Carries W' rows' l' T ∧ T.length = S.length ∧
        ∀ (r : Nat) s t, S[r]? = some s → T[r]? = some t → Alone F.forward s t) ∧
    ((∃ s ∈ S, ∀ t, ¬ Alone F.forward s t) → F.forward rows l = none) := by
  obtain ⟨g, hg⟩ := frontend_acts F hF
  exact hg.batch hne hc

/-- What a frontend computes for a sequence alone is unique. -/
theorem C97_alone (F : Frontend V) (hF : Steady F) {s t t' : List V} (h : Alone F.forward s t)
    (h' : Alone F.forward s t') : t = t' := by
  obtain ⟨g, hg⟩ := frontend_acts F hF
  obtain ⟨l, _, hc, _⟩ := id h
  have hs : 1 ≤ s.length := (hc.facts.2.1 s (by simp)).1
  have := (hg.alone hs t).1 h
  rw [(hg.alone hs t').1 h'] at this
  cases this
  rfl

/-- **C97 (the convolution of a conformer).** For each sequence of a batch, padded or not, the convolution module
computes what it computes for the sequence alone, at every kernel size and with causal convolutions too, as long as
its first part maps zero to zero, as a convolution without bias and a gated linear unit do. -/
theorem C97_conformer (c : ConformerConv V) (hk : 1 ≤ c.kernel) (h0 : c.first 0 = 0) {W : Nat} {rows : List (List V)}
    {l : Layout} {S : List (List V)} (hne : S ≠ []) (hc : Carries W rows l S) :
    ∃ rows' T, c.forward rows l = some rows' ∧ Carries W rows' l T ∧ T.length = S.length ∧
      ∀ (r : Nat) s t, S[r]? = some s → T[r]? = some t → t.length = s.length ∧
        Alone (fun rows l => (c.forward rows l).map fun rows => (rows, l)) s t := by
  have hloc := conformer_local c hk h0
  have hk' : c.kernel ≠ 0 := by omega
  have hA : Acts (fun rows l => (c.forward rows l).map fun rows => (rows, l)) fun s => some
      ((if c.causal then convZ c.kernel (c.kernel - 1) 0 c.depthwise (s.map c.first)
        else convSame c.kernel c.depthwise (s.map c.first)).map c.last) := by
    refine acts_congr (acts_local hloc) ?_
    intro W rows l S hc
    simp [ConformerConv.forward, hc.facts.2.2.1, hk']
  have hlen : ∀ s : List V, ((if c.causal then convZ c.kernel (c.kernel - 1) 0 c.depthwise (s.map c.first)
      else convSame c.kernel c.depthwise (s.map c.first)).map c.last).length = s.length := by
    intro s
    obtain ⟨G, hG⟩ := hloc
    have := congrArg List.length (hG s)
    simpa using this
  obtain ⟨_, f2, _⟩ := hc.facts
  obtain ⟨W', rows', l', T, e, c1, n, h⟩ := (hA.batch hne hc).1 (fun s hm => ⟨_, (hA.alone (f2 s hm).1 _).2 rfl⟩)
  simp only [Option.map_eq_some_iff] at e
  obtain ⟨x, e, e'⟩ := e
  simp only [Prod.mk.injEq] at e'
  obtain ⟨rfl, rfl⟩ := e'
  have hlt : ∀ (r : Nat) s t, S[r]? = some s → T[r]? = some t → t.length = s.length := by
    intro r s t h1 h2
    have h3 := (hA.alone (f2 s (List.mem_of_getElem? h1)).1 t).1 (h r s t h1 h2)
    simp only [Option.some.injEq] at h3
    rw [← h3]
    exact hlen s
  refine ⟨x, T, e, ⟨c1.num, c1.begins, ?_, ?_⟩, n, fun r s t h1 h2 => ⟨hlt r s t h1 h2, h r s t h1 h2⟩⟩
  · have hw := c1.layout
    have hl := hc.layout
    have hT : (T.map fun t => (t.length : Int)) = S.map fun s => (s.length : Int) := by
      apply List.ext_getElem (by simp [n])
      intro i h1 h2
      simp only [List.length_map] at h1 h2
      simp only [List.getElem_map]
      rw [hlt i S[i] T[i] (List.getElem?_eq_getElem h2) (List.getElem?_eq_getElem h1)]
    have : W' = W := by
      simp only [ConformerConv.forward, hc.facts.2.2.1, hk', decide_false, Bool.or_self, Bool.false_eq_true, if_false,
        Option.some.injEq] at e
      have hx : 0 < x.length := by rw [c1.num, n]; exact List.length_pos_iff.2 hne
      have h1 := c1.wide _ (List.getElem_mem hx)
      obtain ⟨y, hy, hy'⟩ := List.mem_map.1 (by rw [e]; exact List.getElem_mem hx)
      rw [← hy', hlen] at h1
      rw [masked hc] at hy
      obtain ⟨s, hs, rfl⟩ := List.mem_map.1 hy
      have := (f2 s hs).2
      simp at h1
      omega
    rw [← this]
    exact c1.wide
  · have hT : (T.map fun t => (t.length : Int)) = S.map fun s => (s.length : Int) := by
      apply List.ext_getElem (by simp [n])
      intro i h1 h2
      simp only [List.length_map] at h1 h2
      simp only [List.getElem_map]
      rw [hlt i S[i] T[i] (List.getElem?_eq_getElem h2) (List.getElem?_eq_getElem h1)]
    rw [hT, n]
    exact hc.layout

end

/-! ## How many features there are, and what they depend on -/

/-- The number of samples that one feature of the convolutions depends on. -/
def reach : List (ConvLayer V) → Nat
  | [] => 1
  | L :: Ls => L.kernel + (reach Ls - 1) * L.stride

/-- The number of samples from one feature to the next. -/
def hop : List (ConvLayer V) → Nat
  | [] => 1
  | L :: Ls => L.stride * hop Ls

private theorem reach_pos {layers : List (ConvLayer V)} (hk : ∀ L ∈ layers, 1 ≤ L.kernel ∧ 1 ≤ L.stride) :
    1 ≤ reach layers ∧ 1 ≤ hop layers := by
  induction layers with
  | nil => exact ⟨Nat.le_refl _, Nat.le_refl _⟩
  | cons L Ls ih =>
    obtain ⟨h1, h2⟩ := hk L (by simp)
    obtain ⟨h3, h4⟩ := ih fun L' h => hk L' (by simp [h])
    refine ⟨by rw [reach]; omega, ?_⟩
    rw [hop]
    exact Nat.mul_pos h2 h4

private theorem forward_eq {L : ConvLayer V} (hL : L.groupNorm = none) (hk : 1 ≤ L.kernel) (hs : 1 ≤ L.stride) {s : List V}
    (h : L.kernel ≤ s.length) : L.forward s = some ((List.range ((s.length - L.kernel) / L.stride + 1)).map fun i =>
      L.post (L.conv ((s.drop (i * L.stride)).take L.kernel))) := by
  unfold ConvLayer.forward conv1d
  rw [hL, if_neg (by omega)]
  simp

private theorem stack_spec : ∀ {layers : List (ConvLayer V)}, NoGroupNorm layers →
    (∀ L ∈ layers, 1 ≤ L.kernel ∧ 1 ≤ L.stride) → ∀ s : List V,
    (s.length < reach layers → 1 ≤ s.length → convStack layers s = none) ∧
    (reach layers ≤ s.length → ∃ t, convStack layers s = some t ∧ t.length = (s.length - reach layers) / hop layers + 1 ∧
      ∀ i, i < t.length → ∃ x, t[i]? = some x ∧
        convStack layers ((s.drop (i * hop layers)).take (reach layers)) = some [x] ∧
        i * hop layers + reach layers ≤ s.length) := by
  intro layers
  induction layers with
  | nil =>
    intro _ _ s
    refine ⟨fun h h' => by simp only [reach] at h; omega, ?_⟩
    intro h
    refine ⟨s, rfl, by simp only [reach, hop, Nat.div_one] at *; omega, ?_⟩
    intro i hi
    refine ⟨s[i], List.getElem?_eq_getElem hi, ?_, by simp only [reach, hop] at *; omega⟩
    simp only [convStack, reach, hop, Nat.mul_one]
    rw [List.take_one, List.head?_drop, List.getElem?_eq_getElem hi]
    rfl
  | cons L Ls ih =>
    intro hp hk s
    obtain ⟨k1, k2⟩ := hk L (by simp)
    have hL := hp L (by simp)
    have hk' : ∀ L ∈ Ls, 1 ≤ L.kernel ∧ 1 ≤ L.stride := fun L' h => hk L' (by simp [h])
    have ih := ih (fun L' h => hp L' (by simp [h])) hk'
    obtain ⟨r1, r2⟩ := reach_pos hk'
    refine ⟨?_, ?_⟩
    · intro h _
      simp only [reach] at h
      simp only [convStack]
      by_cases hs : s.length < L.kernel
      · rw [layer_isSome.2 (by omega)]
        rfl
      · rw [forward_eq hL k1 k2 (by omega), Option.bind_some]
        refine (ih _).1 ?_ (by simp)
        rw [List.length_map, List.length_range]
        have : (s.length - L.kernel) / L.stride < reach Ls - 1 := by
          rw [Nat.div_lt_iff_lt_mul (by omega)]
          omega
        omega
    · intro h
      simp only [reach] at h
      have hy := forward_eq hL k1 k2 (s := s) (by omega)
      have hle : reach Ls - 1 ≤ (s.length - L.kernel) / L.stride := by
        rw [Nat.le_div_iff_mul_le (by omega)]
        omega
      obtain ⟨t, e, n, ht⟩ := (ih ((List.range ((s.length - L.kernel) / L.stride + 1)).map fun i =>
        L.post (L.conv ((s.drop (i * L.stride)).take L.kernel)))).2 (by simp; omega)
      refine ⟨t, by simp only [convStack, hy, Option.bind_some, e], ?_, ?_⟩
      · rw [n, List.length_map, List.length_range, reach, hop]
        congr 1
        rw [← Nat.div_div_eq_div_mul]
        congr 1
        rw [show s.length - (L.kernel + (reach Ls - 1) * L.stride) = (s.length - L.kernel) - L.stride * (reach Ls - 1) by
          rw [Nat.mul_comm L.stride]; omega, Nat.sub_mul_div]
        omega
      · intro i hi
        obtain ⟨x, h1, h2, h3⟩ := ht i hi
        rw [List.length_map, List.length_range] at h3
        have hend : i * (L.stride * hop Ls) + (L.kernel + (reach Ls - 1) * L.stride) ≤ s.length := by
          have : (i * hop Ls + (reach Ls - 1)) * L.stride ≤ s.length - L.kernel := by
            rw [← Nat.le_div_iff_mul_le (by omega)]
            omega
          have e1 : (i * hop Ls + (reach Ls - 1)) * L.stride = i * (L.stride * hop Ls) + (reach Ls - 1) * L.stride := by
            rw [Nat.add_mul, Nat.mul_assoc, Nat.mul_comm (hop Ls)]
          omega
        refine ⟨x, h1, ?_, by simpa only [hop, reach] using hend⟩
        simp only [convStack, hop, reach]
        have hwl : ((s.drop (i * (L.stride * hop Ls))).take (L.kernel + (reach Ls - 1) * L.stride)).length =
            L.kernel + (reach Ls - 1) * L.stride := by
          rw [List.length_take, List.length_drop]
          omega
        rw [forward_eq hL k1 k2 (by rw [hwl]; omega), hwl, Option.bind_some]
        rw [show L.kernel + (reach Ls - 1) * L.stride - L.kernel = (reach Ls - 1) * L.stride by omega,
          Nat.mul_div_cancel _ (by omega), show reach Ls - 1 + 1 = reach Ls by omega]
        rw [← h2]
        congr 1
        apply List.ext_getElem
        · simp
          omega
        · intro j j1 j2
          simp only [List.length_map, List.length_range] at j1
          simp only [List.getElem_map, List.getElem_range, List.getElem_take, List.getElem_drop]
          congr 2
          have hj : j * L.stride ≤ (reach Ls - 1) * L.stride := Nat.mul_le_mul_right _ (by omega)
          rw [List.drop_take, List.take_take, List.drop_drop, Nat.min_eq_left (by omega)]
          congr 2
          rw [Nat.add_mul, Nat.mul_assoc, Nat.mul_comm (hop Ls)]

/-- **C97 (the number of features).** A recording that is shorter than `reach` samples is refused. From any other one
the convolutions make `(n - reach) / hop + 1` features, and feature `i` is the only feature of the `reach` samples
that begin at sample `i * hop`: it depends on nothing else. -/
theorem C97_count {layers : List (ConvLayer V)} (hp : ∀ L ∈ layers, L.groupNorm = none)
    (hk : ∀ L ∈ layers, 1 ≤ L.kernel ∧ 1 ≤ L.stride) (s : List V) (hs : 1 ≤ s.length) :
    (s.length < reach layers → ∀ t, ¬ Alone (convExtract layers) s t) ∧
    (reach layers ≤ s.length → ∃ t, Alone (convExtract layers) s t ∧
      t.length = (s.length - reach layers) / hop layers + 1 ∧
      ∀ i, i < t.length → ∃ x, t[i]? = some x ∧ i * hop layers + reach layers ≤ s.length ∧
        Alone (convExtract layers) ((s.drop (i * hop layers)).take (reach layers)) [x]) := by
  have hA := acts_conv hp
  obtain ⟨h1, h2⟩ := stack_spec hp hk s
  obtain ⟨r1, _⟩ := reach_pos hk
  refine ⟨?_, ?_⟩
  · intro h t ha
    have := (hA.alone hs t).1 ha
    rw [h1 h hs] at this
    cases this
  · intro h
    obtain ⟨t, e, n, ht⟩ := h2 h
    refine ⟨t, (hA.alone hs t).2 e, n, ?_⟩
    intro i hi
    obtain ⟨x, g1, g2, g3⟩ := ht i hi
    refine ⟨x, g1, g3, (hA.alone ?_ _).2 g2⟩
    rw [List.length_take, List.length_drop]
    omega

/-- The convolutions of the published configurations of wav2vec 2.0 (`models/wav2vec2/config.py`): kernel sizes and
strides. -/
def usualSizes : List (Nat × Nat) := [(10, 5), (3, 2), (3, 2), (3, 2), (3, 2), (2, 2), (2, 2)]

/-- With the usual convolutions a feature sees 400 samples and there is one for every 320 samples, that is 25 ms and
20 ms of a recording of 16 kHz. -/
theorem C97_usual {layers : List (ConvLayer V)} (h : layers.map (fun L => (L.kernel, L.stride)) = usualSizes)
    (hp : ∀ L ∈ layers, L.groupNorm = none) (s : List V) (hs : 400 ≤ s.length) :
    ∃ t, Alone (convExtract layers) s t ∧ t.length = (s.length - 400) / 320 + 1 := by
  have hk : ∀ L ∈ layers, 1 ≤ L.kernel ∧ 1 ≤ L.stride := by
    intro L hL
    have : (L.kernel, L.stride) ∈ usualSizes := by rw [← h]; exact List.mem_map.2 ⟨L, hL, rfl⟩
    simp only [usualSizes, List.mem_cons, Prod.mk.injEq, List.not_mem_nil, or_false] at this
    omega
  have key : ∀ layers : List (ConvLayer V),
      reach layers = (layers.map fun L => (L.kernel, L.stride)).foldr (fun x r => x.1 + (r - 1) * x.2) 1 ∧
      hop layers = (layers.map fun L => (L.kernel, L.stride)).foldr (fun x r => x.2 * r) 1 := by
    intro layers
    induction layers with
    | nil => exact ⟨rfl, rfl⟩
    | cons L Ls ih => exact ⟨by simp [reach, ih.1], by simp [hop, ih.2]⟩
  obtain ⟨e1, e2⟩ := key layers
  rw [h] at e1 e2
  have e1 : reach layers = 400 := by rw [e1]; decide
  have e2 : hop layers = 320 := by rw [e2]; decide
  obtain ⟨t, h1, h2, _⟩ := (C97_count hp hk s (by omega)).2 (by omega)
  exact ⟨t, h1, by rw [h2, e1, e2]⟩

/-! ## Where the batch does matter -/

/-- The layout of a recording of one sample in a batch of width two. -/
private def oneOfTwo : Layout := ⟨2, [0, 2], [1], [[0, -1]], 1, 1, false, true⟩

/-- The layout of a recording of one sample. -/
private def oneOfOne : Layout := ⟨1, [0, 1], [1], [[0]], 1, 1, false, false⟩

private theorem carries_two (x y : V) : Carries 2 [[x] ++ [y]] oneOfTwo [[x]] := by
  refine ⟨rfl, ?_, by simp, (by decide : Layout.new [1, 2] (some [1]) false = some oneOfTwo)⟩
  intro r s hs
  match r with
  | 0 => cases hs; exact ⟨_, rfl, rfl⟩
  | _ + 1 => cases hs

private theorem carries_single (x : V) : Carries 1 [[x]] oneOfOne [[x]] := by
  refine ⟨rfl, ?_, by simp, (by decide : Layout.new [1, 1] (some [1]) false = some oneOfOne)⟩
  intro r s hs
  match r with
  | 0 => cases hs; exact ⟨_, rfl, rfl⟩
  | _ + 1 => cases hs

/-- **C97 (group norm).** With group norm, as in the published base configuration, the features of a recording do
depend on the padding: the recording has one sample, alone or padded with a zero. -/
theorem C97_group_norm : ∃ (layers : List (ConvLayer Rat)) (s t row : List Rat) (l l' : Layout),
    Alone (convExtract layers) s t ∧ Carries 2 [s ++ [0]] l [s] ∧ convExtract layers [s ++ [0]] l = some ([row], l') ∧
      row.take t.length ≠ t := by
  refine ⟨[⟨1, 1, fun w => (w[0]?).getD 0, some fun ys => ys.map fun y => y - ys.foldr (· + ·) 0 / (ys.length : Rat), id⟩],
    [3], [0], [3 / 2, -3 / 2], oneOfTwo, oneOfTwo, ⟨oneOfOne, oneOfOne, carries_single 3, ?_, carries_single 0⟩,
    carries_two 3 0, ?_, ?_⟩
  · decide +kernel
  · decide +kernel
  · decide +kernel

/-- **C97 (stacked position encoder).** The stacked position encoder sets the padding to zero once, before its first
layer, but each layer fills it again. With two layers the encoding of a recording depends on whether it is
padded. -/
theorem C97_stacked : ∃ (kernel : Nat) (layers : List (PosLayer Int)) (add : Int → Int → Int) (s t row : List Int)
    (l : Layout),
    Alone (fun rows l => (stackedPosEncode kernel layers add rows l).map fun rows => (rows, l)) s t ∧
      Carries 2 [s ++ [0]] l [s] ∧ stackedPosEncode kernel layers add [s ++ [0]] l = some [row] ∧ row.take t.length ≠ t := by
  refine ⟨3, [⟨fun w => w.foldr (· + ·) 1, id⟩, ⟨fun w => w.foldr (· + ·) 1, id⟩], (· + ·), [0], [2], [3, 3], oneOfTwo,
    ⟨oneOfOne, oneOfOne, carries_single 0, ?_, carries_single 2⟩, carries_two 0 0, ?_, ?_⟩
  · decide +kernel
  · decide +kernel
  · decide +kernel

private theorem zipIdx_drops {α : Type} (k : Nat) (x : α) (xs : List α) :
    (((x :: xs).zipIdx.filter fun y => y.2 % k ≠ 0).map (·.1)).length ≤ xs.length := by
  rw [List.length_map, List.zipIdx_cons, List.filter_cons_of_neg (by simp)]
  exact Nat.le_trans (List.length_filter_le _ _) (by simp)

/-- **C97 (sampling).** With `sample_every_k > 1` the filterbank extractor does not leave out frames but whole
sequences: a batch with padding is refused, and a batch without padding comes back with fewer sequences. -/
theorem C97_sampled (stride every : Nat) (he : 1 < every) (stack : List V → V) {W : Nat} {rows : List (List V)}
    {l : Layout} {S : List (List V)} (hne : S ≠ []) (hc : Carries W rows l S) :
    ((∃ s ∈ S, s.length < W) → fbankExtract stride every stack rows l = none) ∧
    ∀ rows' l', fbankExtract stride every stack rows l = some (rows', l') → rows'.length < S.length := by
  obtain ⟨_, _, f3, f4, f5, _⟩ := hc.facts
  have hlen : ∀ f : List V → List V, (((rows.map f).zipIdx.filter fun x => x.2 % every ≠ 0).map (·.1)).length < S.length := by
    intro f
    rw [← hc.num]
    cases rows with
    | nil => exact absurd (List.length_eq_zero_iff.1 hc.num.symm) hne
    | cons x xs =>
      have := zipIdx_drops every (f x) (xs.map f)
      exact Nat.lt_succ_of_le (Nat.le_trans this (by simp))
  refine ⟨?_, ?_⟩
  · intro hp
    unfold fbankExtract
    rw [f3, f5.2 hp]
    split
    · rfl
    · simp only [if_true]
      rw [of_some]
      rw [Option.map_eq_none_iff]
      cases e : Layout.new _ _ _ with
      | none => rfl
      | some l' =>
        obtain ⟨w, h1, _⟩ := (C47_padded _ _).1 l' e
        simp only [List.cons.injEq, List.length_map, f4] at h1
        have := hlen fun xs => (List.range ((width rows - width rows % stride) / stride)).map fun i =>
          stack (((xs.take (width rows - width rows % stride)).drop (i * stride)).take stride)
        simp only [List.length_map] at this
        omega
  · intro rows' l' e
    unfold fbankExtract at e
    rw [f3] at e
    split at e
    · cases e
    · simp only [Option.map_eq_some_iff, Prod.mk.injEq] at e
      obtain ⟨_, _, rfl, _⟩ := e
      exact hlen _

/-- **C97 (subsampling).** `Conv1dFbankSubsampler` refuses every batch in which two sequences have different lengths,
although it accepts each of them alone. -/
theorem C97_subsampler [Zero V] (layers : List (Nat × (List V → V))) {W : Nat} {rows : List (List V)} {l : Layout}
    {S : List (List V)} (hc : Carries W rows l S) (s s' : List V) (h1 : s ∈ S) (h2 : s' ∈ S)
    (hn : s.length ≠ s'.length) : subsampler layers rows l = none := by
  obtain ⟨_, f2, _, _, f5, _⟩ := hc.facts
  have : ∃ s ∈ S, s.length < W := by
    have g1 := (f2 s h1).2
    have g2 := (f2 s' h2).2
    rcases Nat.lt_or_ge s.length W with h | h
    · exact ⟨s, h1, h⟩
    · exact ⟨s', h2, by omega⟩
  simp [subsampler, f5.2 this]

/-! ## Examples -/

/-- A frontend of sums: a convolution over two samples at every second one, and a position encoder over three. -/
private def sums : Frontend Int where
  extractor := .conv [⟨2, 2, fun w => w.foldr (· + ·) 0, none, id⟩]
  pre := (· + 1)
  pos := .conv 3 (fun w => w.foldr (· + ·) 0) id (· + ·)
  post := (2 * ·)

private theorem sums_steady : Steady sums := ⟨by simp [sums], by simp [sums]⟩

private theorem two_recordings : Carries 5 [[(1 : Int), 2, 3, 4, 5], [6, 7, 9, 9, 9]]
    (⟨5, [0, 5, 10], [5, 2], [[0, 1, 2, 3, 4], [0, 1, -1, -1, -1]], 2, 5, false, true⟩ : Layout)
    [[1, 2, 3, 4, 5], [6, 7]] := by
  refine ⟨rfl, ?_, by simp, by decide⟩
  intro r s hs
  match r with
  | 0 => cases hs; exact ⟨_, rfl, rfl⟩
  | 1 => cases hs; exact ⟨_, rfl, rfl⟩
  | _ + 2 => cases hs

/-- Two recordings with padding, and the second one alone. -/
example : sums.forward [[1, 2, 3, 4, 5], [6, 7, 9, 9, 9]]
      ⟨5, [0, 5, 10], [5, 2], [[0, 1, 2, 3, 4], [0, 1, -1, -1, -1]], 2, 5, false, true⟩ =
    some ([[32, 40], [56, 28]], ⟨2, [0, 2, 4], [2, 1], [[0, 1], [0, -1]], 1, 2, false, true⟩) ∧
    Alone sums.forward [6, 7] [56] := by
  refine ⟨by decide, ⟨2, [0, 2], [2], [[0, 1]], 2, 2, false, false⟩, oneOfOne, ?_, by decide, carries_single _⟩
  refine ⟨rfl, ?_, by simp, by decide⟩
  intro r s hs
  match r with
  | 0 => cases hs; exact ⟨_, rfl, rfl⟩
  | _ + 1 => cases hs

/-- The hypotheses of `C97_frontend_partial` and of `C97_alone` hold for it. -/
example : ∃ W' rows' l' T, sums.forward [[1, 2, 3, 4, 5], [6, 7, 9, 9, 9]]
      ⟨5, [0, 5, 10], [5, 2], [[0, 1, 2, 3, 4], [0, 1, -1, -1, -1]], 2, 5, false, true⟩ = some (rows', l') ∧
    Carries W' rows' l' T ∧ T.length = 2 ∧ ∀ t, T[1]? = some t → Alone sums.forward [6, 7] t := by
  have h := C97_frontend_partial sums sums_steady (by simp) two_recordings
  have hne : sums.forward [[1, 2, 3, 4, 5], [6, 7, 9, 9, 9]]
      ⟨5, [0, 5, 10], [5, 2], [[0, 1, 2, 3, 4], [0, 1, -1, -1, -1]], 2, 5, false, true⟩ ≠ none := by decide
  obtain ⟨W', rows', l', T, h1, h2, h3, h4⟩ := h.1 (fun s hs => Classical.byContradiction fun hn =>
    hne (h.2 ⟨s, hs, fun t ht => hn ⟨t, ht⟩⟩))
  exact ⟨W', rows', l', T, h1, h2, h3, fun t ht => h4 1 [6, 7] t rfl ht⟩

/-- A convolution module of a conformer, and the same two recordings. -/
example : ∃ rows' T : List (List Int), (⟨3, true, (3 * ·), fun w => w.foldr (· + ·) 1, id⟩ : ConformerConv Int).forward
      [[1, 2, 3, 4, 5], [6, 7, 9, 9, 9]]
      ⟨5, [0, 5, 10], [5, 2], [[0, 1, 2, 3, 4], [0, 1, -1, -1, -1]], 2, 5, false, true⟩ = some rows' ∧ T.length = 2 ∧
    rows'.length = T.length := by
  obtain ⟨rows', T, h1, h2, h3, _⟩ := C97_conformer (⟨3, true, (3 * ·), fun w => w.foldr (· + ·) 1, id⟩ : ConformerConv Int)
    (by decide) (by decide) (by simp) two_recordings
  exact ⟨rows', T, h1, h3, h2.num⟩

/-- Two recordings of different lengths, for `C97_sampled` and `C97_subsampler`. -/
example : fbankExtract 2 2 (fun w : List Int => w.foldr (· + ·) 0) [[1, 2, 3, 4, 5], [6, 7, 9, 9, 9]]
      ⟨5, [0, 5, 10], [5, 2], [[0, 1, 2, 3, 4], [0, 1, -1, -1, -1]], 2, 5, false, true⟩ = none ∧
    subsampler [(3, fun w : List Int => w.foldr (· + ·) 0)] [[1, 2, 3, 4, 5], [6, 7, 9, 9, 9]]
      ⟨5, [0, 5, 10], [5, 2], [[0, 1, 2, 3, 4], [0, 1, -1, -1, -1]], 2, 5, false, true⟩ = none ∧
    subsampler [(3, fun w : List Int => w.foldr (· + ·) 0)] [[6, 7]] ⟨2, [0, 2], [2], [[0, 1]], 2, 2, false, false⟩ =
      some ([[13]], oneOfOne) :=
  ⟨(C97_sampled 2 2 (by decide) _ (by simp) two_recordings).1 ⟨[6, 7], by simp, by decide⟩,
    C97_subsampler _ two_recordings [1, 2, 3, 4, 5] [6, 7] (by simp) (by simp) (by decide), by decide⟩

/-- Layers of the usual sizes exist. -/
example (s : List Int) (hs : 400 ≤ s.length) : ∃ t, t.length = (s.length - 400) / 320 + 1 ∧
    Alone (convExtract (usualSizes.map fun x => ⟨x.1, x.2, fun w => w.foldr (· + ·) 0, none, id⟩)) s t := by
  obtain ⟨t, h1, h2⟩ := C97_usual (layers := usualSizes.map fun x => ⟨x.1, x.2, fun w : List Int => w.foldr (· + ·) 0, none, id⟩)
    (by decide) (by decide) s hs
  exact ⟨t, h2, h1⟩

end Fs2.Props
