import Verif.Nn.DecoderLemmas

/-! # Layers and sessions of decoders, step by step -/

namespace Fs2.Dec
open Fs2.Nn Fs2.Props Spec

/-- The beginning of a sequence. -/
def Row.cut (k : Nat) (r : Row) : Row := { r with tokens := r.tokens.take k }

/-- A vector for every token, which depends only on the tokens up to it. -/
structure CausalOn (F : Row → List Vec) : Prop where
  len : ∀ r, (F r).length = r.tokens.length
  cut : ∀ r k, F (r.cut k) = (F r).take k

/-! ## Blocks -/

/-- The norm before a sub-layer, for one sequence. -/
def enterRow (b : Block) (xs : List Vec) : List Vec := if b.post then xs else xs.map b.norm

/-- The residual connection and the norm after a sub-layer, for one sequence. -/
def leaveRow (b : Block) (ys xs : List Vec) : List Vec :=
  if b.post then (List.zipWith b.residual ys xs).map b.norm else List.zipWith b.residual ys xs

theorem enterRow_length (b : Block) (xs : List Vec) : (enterRow b xs).length = xs.length := by
  unfold enterRow; split <;> simp

theorem enterRow_take (b : Block) (xs : List Vec) (k : Nat) : enterRow b (xs.take k) = (enterRow b xs).take k := by
  unfold enterRow; split <;> simp

theorem enterRow_drop (b : Block) (xs : List Vec) (k : Nat) : enterRow b (xs.drop k) = (enterRow b xs).drop k := by
  unfold enterRow; split <;> simp

theorem enter_map {ρ : Type} (b : Block) (R : List ρ) (F : ρ → List Vec) :
    b.enter (R.map F) = R.map fun r => enterRow b (F r) := by
  unfold Block.enter enterRow
  split <;> simp [Function.comp_def]

theorem leave_map {ρ : Type} (b : Block) (R : List ρ) (G F : ρ → List Vec) :
    b.leave (R.map G) (R.map F) = R.map fun r => leaveRow b (G r) (F r) := by
  unfold Block.leave leaveRow
  split <;> rename_i h <;> simp [List.zipWith_map_left, List.zipWith_map_right, List.zipWith_self]

theorem leaveRow_drop (b : Block) (ys xs : List Vec) (k : Nat) :
    leaveRow b (ys.drop k) (xs.drop k) = (leaveRow b ys xs).drop k := by
  unfold leaveRow; split <;> simp [List.drop_zipWith]

theorem around_eq (b : Block) (f : List Vec → Nat → Vec) (xs : List Vec) :
    around b f xs = leaveRow b ((enterRow b xs).mapIdx fun i _ => f (enterRow b xs) i) xs := by
  unfold around leaveRow enterRow
  apply List.ext_getElem
  · split <;> simp
  · intro i h1 h2
    split <;> simp_all

theorem around_length (b : Block) (f : List Vec → Nat → Vec) (xs : List Vec) : (around b f xs).length = xs.length := by
  simp [around]

theorem around_take {b : Block} {f : List Vec → Nat → Vec} (hf : ∀ xs k i, i < k → f (xs.take k) i = f xs i)
    (xs : List Vec) (k : Nat) : around b f (xs.take k) = (around b f xs).take k := by
  apply List.ext_getElem
  · simp [around]
  · intro i h1 h2
    have hi : i < k := by simp [around] at h2; omega
    have e : (if b.post = true then xs.take k else (xs.take k).map b.norm) =
        (if b.post = true then xs else xs.map b.norm).take k := by split <;> simp
    simp only [around, List.getElem_mapIdx, List.getElem_take, e, hf _ _ _ hi]

theorem selfAt_take (m : Mha) (xs : List Vec) (k i : Nat) (hi : i < k) : selfAt m (xs.take k) i = selfAt m xs i := by
  unfold selfAt
  congr 1
  funext h c
  rw [at'_take hi]
  apply attend_congr
  · exact fun _ _ => rfl
  · intro j hj _
    rw [at'_take (by omega : j < k)]
    exact ⟨fun _ => rfl, fun _ => rfl⟩

theorem crossAt_take (m : Mha) (src xs : List Vec) (k i : Nat) (hi : i < k) :
    crossAt m src (xs.take k) i = crossAt m src xs i := by
  unfold crossAt
  rw [at'_take hi]

theorem crossPart_length (L : Layer) (src xs : List Vec) : (crossPart L src xs).length = xs.length := by
  unfold crossPart; split <;> simp [around_length]

theorem crossPart_take (L : Layer) (src xs : List Vec) (k : Nat) :
    crossPart L src (xs.take k) = (crossPart L src xs).take k := by
  unfold crossPart
  split
  · rfl
  · exact around_take (fun xs k i hi => crossAt_take _ _ xs k i hi) xs k

theorem layer_length (L : Layer) (src xs : List Vec) : (layer L src xs).length = xs.length := by
  simp [layer, around_length, crossPart_length]

theorem layer_take (L : Layer) (src xs : List Vec) (k : Nat) : layer L src (xs.take k) = (layer L src xs).take k := by
  unfold layer
  rw [around_take (fun xs k i hi => selfAt_take _ xs k i hi), crossPart_take,
    around_take (fun xs k i hi => by rw [at'_take hi])]

theorem layer_causal (L : Layer) {F : Row → List Vec} (hF : CausalOn F) : CausalOn fun r => layer L r.src (F r) :=
  ⟨fun r => by rw [layer_length, hF.len], fun r k => by rw [hF.cut, ← layer_take]; rfl⟩

/-! ## Layers -/

/-- What is known of the states of a layer after `a` positions. -/
structure LayerInv (L : Layer) (b : Bag) (st : LayerState) (R : List Row) (F : Row → List Vec) (a : Nat) : Prop where
  self : SelfInv L.selfAttn b st.self (R.map fun r => enterRow L.selfBlock (F r)) a
  none : L.cross = .none → st.cross = .none
  cross : ∀ m blk, L.cross = some (m, blk) → CrossInv m st.cross (R.map Row.src) a

theorem cross_rows {ρ : Type} (R : List ρ) (s : ρ → List Vec) (F : ρ → List Vec) (f : List Vec → List Vec → List Vec) :
    List.zipWith f (R.map s) (R.map F) = R.map fun r => f (s r) (F r) := by
  simp [List.zipWith_map_left, List.zipWith_map_right, List.zipWith_self]

theorem ffn_rows {ρ : Type} (L : Layer) (R : List ρ) (F : ρ → List Vec) :
    L.forwardFfn (R.map F) = R.map fun r => around L.ffnBlock (fun ys i => L.ffn (at' ys i)) (F r) := by
  unfold Layer.forwardFfn
  rw [enter_map, List.map_map, leave_map]
  apply List.map_congr_left
  intro r _
  rw [around_eq]
  congr 1
  simp only [Function.comp]
  apply List.ext_getElem
  · simp
  · intro i h1 h2
    simp only [List.getElem_map, List.getElem_mapIdx]
    rw [at'_eq]

theorem ffn_drop (L : Layer) (xs : List Vec) (a : Nat) :
    around L.ffnBlock (fun ys i => L.ffn (at' ys i)) (xs.drop a) =
      (around L.ffnBlock (fun ys i => L.ffn (at' ys i)) xs).drop a := by
  rw [around_eq, around_eq, ← leaveRow_drop, enterRow_drop]
  congr 1
  apply List.ext_getElem
  · simp
  · intro i h1 h2
    have : i < (enterRow L.ffnBlock xs).length - a := by simpa using h1
    simp only [List.getElem_mapIdx, List.getElem_drop]
    rw [at'_eq (by simpa using this), at'_eq (by omega), List.getElem_drop]

theorem layer_step (junk : Heads) {L : Layer} {b : Bag} (hb : GoodBag b) {st : LayerState} {R : List Row}
    {F : Row → List Vec} {a n : Nat} (hL : GoodLayer L (a + n)) (hF : CausalOn F) (hN : 0 < R.length) (hn : 1 ≤ n)
    (hR : ∀ r ∈ R, r.tokens.length = a + n) (hs : b.stepNr = a) (hmax : ((a + n : Nat) : Int) ≤ b.maxNumSteps)
    (h1 : L.selfAttn.state ≠ .full → a = 0 ∨ n = 1)
    {l : Layout} (hl : Layout.new [(R.length : Int), (n : Int)] none false = some l) {src : Option Source}
    (hsrc : L.cross ≠ none → ∃ s, src = some s ∧ SourceInv s (R.map Row.src))
    (hst : LayerInv L b st (R.map (Row.cut a)) F a) :
    ∃ st', L.forward junk (some b) src l st (R.map fun r => (F r).drop a) =
        some (R.map fun r => (layer L r.src (F r)).drop a, st') ∧ LayerInv L b st' R F (a + n) := by
  -- self attention
  have hself : ∃ st', L.forwardSelf junk (some b) st.self l (R.map fun r => (F r).drop a) =
      some (R.map fun r => (around L.selfBlock (selfAt L.selfAttn) (F r)).drop a, st') ∧
      SelfInv L.selfAttn b st' (R.map fun r => enterRow L.selfBlock (F r)) (a + n) := by
    have hst0 : SelfInv L.selfAttn b st.self ((R.map fun r => enterRow L.selfBlock (F r)).map (List.take a)) a := by
      have := hst.self
      rw [List.map_map] at this ⊢
      have e : ∀ r ∈ R, ((fun r => enterRow L.selfBlock (F r)) ∘ Row.cut a) r =
          (List.take a ∘ fun r => enterRow L.selfBlock (F r)) r := by
        intro r _
        simp only [Function.comp, hF.cut, enterRow_take]
      rw [List.map_congr_left e] at this
      exact this
    obtain ⟨st', e, hi⟩ := self_step junk hb hL.self (X := R.map fun r => enterRow L.selfBlock (F r))
      (by simpa using hN) hn
      (by
        intro xs hxs
        obtain ⟨r, hr, rfl⟩ := List.mem_map.1 hxs
        rw [enterRow_length, hF.len, hR r hr]) hs hmax h1 (by simpa using hl) hst0
    refine ⟨st', ?_, hi⟩
    rw [List.map_map, List.map_map] at e
    have e' : (R.map fun r => enterRow L.selfBlock ((F r).drop a)) =
        R.map (List.drop a ∘ fun r => enterRow L.selfBlock (F r)) :=
      List.map_congr_left fun r _ => by simp only [Function.comp, enterRow_drop]
    rw [Layer.forwardSelf, enter_map, e', e]
    simp only [Option.map_some]
    rw [leave_map]
    refine congrArg (fun z => some (z, st')) (List.map_congr_left fun r _ => ?_)
    simp only [Function.comp]
    rw [leaveRow_drop, around_eq]
    rfl
  obtain ⟨self', e1, hi1⟩ := hself
  -- attention to the source
  have hcross : ∃ st', L.forwardCross (some b) st.cross l src
      (R.map fun r => (around L.selfBlock (selfAt L.selfAttn) (F r)).drop a) =
      some (R.map fun r => (crossPart L r.src (around L.selfBlock (selfAt L.selfAttn) (F r))).drop a, st') ∧
      (L.cross = none → st' = none) ∧ ∀ m blk, L.cross = some (m, blk) → CrossInv m st' (R.map Row.src) (a + n) := by
    cases hc : L.cross with
    | none =>
      refine ⟨st.cross, ?_, fun _ => hst.none hc, fun m blk h => by cases h⟩
      simp only [Layer.forwardCross, hc, crossPart]
    | some mb =>
      obtain ⟨m, blk⟩ := mb
      obtain ⟨s, rfl, hS⟩ := hsrc (by rw [hc]; simp)
      have hci := hst.cross m blk hc
      rw [List.map_map] at hci
      have hci : CrossInv m st.cross (R.map Row.src) a := hci
      obtain ⟨st', e, hi⟩ := cross_step (hL.cross m blk hc) (b := b)
        (X := R.map fun r => enterRow blk (around L.selfBlock (selfAt L.selfAttn) (F r))) (S := R.map Row.src)
        (by simpa using hN) hn
        (by
          intro xs hxs
          obtain ⟨r, hr, rfl⟩ := List.mem_map.1 hxs
          rw [enterRow_length, around_length, hF.len, hR r hr])
        (by simp) hs (by simpa using hl) hS hci
      refine ⟨st', ?_, fun h => (by cases h), fun m' blk' h => (by cases h; exact hi)⟩
      rw [List.map_map, cross_rows] at e
      have e' : (R.map fun r => enterRow blk ((around L.selfBlock (selfAt L.selfAttn) (F r)).drop a)) =
          R.map (List.drop a ∘ fun r => enterRow blk (around L.selfBlock (selfAt L.selfAttn) (F r))) :=
        List.map_congr_left fun r _ => by simp only [Function.comp, enterRow_drop]
      simp only [Layer.forwardCross, hc, Option.bind_some]
      rw [enter_map, e', e]
      simp only [Option.map_some]
      rw [leave_map]
      refine congrArg (fun z => some (z, st')) (List.map_congr_left fun r _ => ?_)
      rw [leaveRow_drop]
      simp only [crossPart, hc]
      rw [around_eq blk]
      rfl
  obtain ⟨cross', e2, hi2, hi3⟩ := hcross
  refine ⟨⟨self', cross'⟩, ?_, hi1, hi2, hi3⟩
  simp only [Layer.forward, e1, Option.bind_some, e2, Option.map_some, Option.some.injEq, Prod.mk.injEq, and_true]
  rw [ffn_rows]
  exact List.map_congr_left fun r _ => ffn_drop L _ a

theorem layer_full (junk : Heads) {L : Layer} {st : LayerState} {R : List Row}
    {F : Row → List Vec} {n : Nat} (hL : GoodLayer L n) (hF : CausalOn F) (hN : 0 < R.length) (hn : 1 ≤ n)
    (hR : ∀ r ∈ R, r.tokens.length = n)
    {l : Layout} (hl : Layout.new [(R.length : Int), (n : Int)] none false = some l) {src : Option Source}
    (hsrc : L.cross ≠ none → ∃ s, src = some s ∧ SourceInv s (R.map Row.src)) :
    L.forward junk none src l st (R.map F) = some (R.map fun r => layer L r.src (F r), st) := by
  have e1 : L.forwardSelf junk none st.self l (R.map F) =
      some (R.map fun r => around L.selfBlock (selfAt L.selfAttn) (F r), st.self) := by
    have e := self_full junk hL.self (st := st.self) (X := R.map fun r => enterRow L.selfBlock (F r))
      (by simpa using hN) hn
      (by
        intro xs hxs
        obtain ⟨r, hr, rfl⟩ := List.mem_map.1 hxs
        rw [enterRow_length, hF.len, hR r hr]) (by simpa using hl)
    rw [Layer.forwardSelf, enter_map, e]
    simp only [Option.map_some]
    rw [List.map_map, leave_map]
    refine congrArg (fun z => some (z, st.self)) (List.map_congr_left fun r _ => ?_)
    rw [around_eq]
    rfl
  have e2 : L.forwardCross none st.cross l src (R.map fun r => around L.selfBlock (selfAt L.selfAttn) (F r)) =
      some (R.map fun r => crossPart L r.src (around L.selfBlock (selfAt L.selfAttn) (F r)), st.cross) := by
    cases hc : L.cross with
    | none => simp only [Layer.forwardCross, hc, crossPart]
    | some mb =>
      obtain ⟨m, blk⟩ := mb
      obtain ⟨s, rfl, hS⟩ := hsrc (by rw [hc]; simp)
      have e := cross_full (hL.cross m blk hc) (st := st.cross)
        (X := R.map fun r => enterRow blk (around L.selfBlock (selfAt L.selfAttn) (F r))) (S := R.map Row.src)
        (by simpa using hN) hn
        (by
          intro xs hxs
          obtain ⟨r, hr, rfl⟩ := List.mem_map.1 hxs
          rw [enterRow_length, around_length, hF.len, hR r hr])
        (by simp) (by simpa using hl) hS
      rw [cross_rows] at e
      simp only [Layer.forwardCross, hc, Option.bind_some]
      rw [enter_map, e]
      simp only [Option.map_some]
      rw [leave_map]
      refine congrArg (fun z => some (z, st.cross)) (List.map_congr_left fun r _ => ?_)
      simp only [crossPart, hc]
      rw [around_eq blk]
      rfl
  simp only [Layer.forward, e1, Option.bind_some, e2, Option.map_some, ffn_rows]
  rfl

/-! ## All layers -/

/-- What is known of the states of all layers. -/
def LayersInv (b : Bag) (R : List Row) (a : Nat) : List Layer → List LayerState → (Row → List Vec) → Prop
  | [], [], _ => True
  | L :: Ls, st :: sts, F => LayerInv L b st R F a ∧ LayersInv b R a Ls sts fun r => layer L r.src (F r)
  | _, _, _ => False

/-- The vectors after the layers. -/
noncomputable def throughLayers (Ls : List Layer) (F : Row → List Vec) (r : Row) : List Vec :=
  Ls.foldl (fun xs L => layer L r.src xs) (F r)

theorem layers_step (junk : Heads) {b : Bag} (hb : GoodBag b) {R : List Row} {a n : Nat} (hN : 0 < R.length)
    (hn : 1 ≤ n) (hR : ∀ r ∈ R, r.tokens.length = a + n) (hs : b.stepNr = a)
    (hmax : ((a + n : Nat) : Int) ≤ b.maxNumSteps)
    {l : Layout} (hl : Layout.new [(R.length : Int), (n : Int)] none false = some l) {src : Option Source} :
    ∀ (Ls : List Layer) (sts : List LayerState) (F : Row → List Vec),
      (∀ L ∈ Ls, GoodLayer L (a + n)) → (∀ L ∈ Ls, L.selfAttn.state ≠ .full → a = 0 ∨ n = 1) →
      ((∃ L ∈ Ls, L.cross ≠ none) → ∃ s, src = some s ∧ SourceInv s (R.map Row.src)) → CausalOn F →
      LayersInv b (R.map (Row.cut a)) a Ls sts F →
      ∃ sts', forwardLayers junk (some b) src l Ls sts (R.map fun r => (F r).drop a) =
          some (R.map fun r => (throughLayers Ls F r).drop a, sts') ∧ LayersInv b R (a + n) Ls sts' F := by
  intro Ls
  induction Ls with
  | nil =>
    intro sts F _ _ _ _ hi
    cases sts with
    | nil => exact ⟨[], rfl, trivial⟩
    | cons st sts => exact hi.elim
  | cons L Ls ih =>
    intro sts F hg hw hsrc hF hi
    cases sts with
    | nil => exact hi.elim
    | cons st sts =>
      obtain ⟨hi1, hi2⟩ := hi
      obtain ⟨st', e1, h1⟩ := layer_step junk hb (hg L (by simp)) hF hN hn hR hs hmax (hw L (by simp)) hl
        (fun hc => hsrc ⟨L, by simp, hc⟩) hi1
      obtain ⟨sts', e2, h2⟩ := ih sts (fun r => layer L r.src (F r)) (fun L' h => hg L' (by simp [h]))
        (fun L' h => hw L' (by simp [h])) (fun ⟨L', h, hc⟩ => hsrc ⟨L', by simp [h], hc⟩) (layer_causal L hF) hi2
      refine ⟨st' :: sts', ?_, h1, h2⟩
      simp only [forwardLayers, e1, Option.bind_some, e2, Option.map_some]
      rfl

theorem layers_full (junk : Heads) {R : List Row} {n : Nat} (hN : 0 < R.length)
    (hn : 1 ≤ n) (hR : ∀ r ∈ R, r.tokens.length = n)
    {l : Layout} (hl : Layout.new [(R.length : Int), (n : Int)] none false = some l) {src : Option Source} :
    ∀ (Ls : List Layer) (sts : List LayerState) (F : Row → List Vec), sts.length = Ls.length →
      (∀ L ∈ Ls, GoodLayer L n) →
      ((∃ L ∈ Ls, L.cross ≠ none) → ∃ s, src = some s ∧ SourceInv s (R.map Row.src)) → CausalOn F →
      forwardLayers junk none src l Ls sts (R.map F) = some (R.map (throughLayers Ls F), sts) := by
  intro Ls
  induction Ls with
  | nil =>
    intro sts F hlen _ _ _
    rw [List.length_eq_zero_iff.1 hlen]
    rfl
  | cons L Ls ih =>
    intro sts F hlen hg hsrc hF
    cases sts with
    | nil => cases hlen
    | cons st sts =>
      have e1 := layer_full junk (hg L (by simp)) (st := st) hF hN hn hR hl (fun hc => hsrc ⟨L, by simp, hc⟩)
      have e2 := ih sts (fun r => layer L r.src (F r)) (by simpa using hlen) (fun L' h => hg L' (by simp [h]))
        (fun ⟨L', h, hc⟩ => hsrc ⟨L', by simp [h], hc⟩) (layer_causal L hF)
      simp only [forwardLayers, e1, Option.bind_some, e2, Option.map_some]
      rfl

/-! ## The model -/

/-- The embedded tokens of a sequence. -/
def embedded (m : Model) (r : Row) : List Vec := r.tokens.mapIdx fun i t => placed PosEnc.apply m.pos i (m.embed t)

theorem embedded_causal (m : Model) : CausalOn (embedded m) :=
  ⟨fun r => by simp [embedded], fun r k => by simp only [embedded, Row.cut, take_mapIdx]⟩

theorem logits_eq (m : Model) (r : Row) :
    logits m r.src r.tokens = (throughLayers m.layers (embedded m) r).map fun x => m.proj (m.norm x) := rfl

theorem embed_ok {m : Model} {bag : Option Bag} {l : Layout} {R : List Row} {n a : Nat} (hN : 0 < R.length)
    (hn : 1 ≤ n) (hR : ∀ r ∈ R, r.tokens.length = a + n) (hb : startOf bag = a)
    (hp : ∀ e, m.pos = some e → ((a + n : Nat) : Int) ≤ e.maxLen)
    (hl : Layout.new [(R.length : Int), (n : Int)] none false = some l) :
    encode PosEnc.apply m.pos bag l ((R.map fun r => r.tokens.drop a).map (List.map m.embed)) =
      some (R.map fun r => (embedded m r).drop a) := by
  rw [encode_ok (n := n) (a := a) PosEnc.apply (by simpa using hN) hn ?_ hb (fun e he => by have := hp e he; omega)
    (by simpa using hl)]
  · rw [Option.some.injEq, List.map_map, List.map_map]
    apply List.map_congr_left
    intro r _
    simp only [Function.comp, embedded, drop_mapIdx]
    apply List.ext_getElem
    · simp
    · intro i h1 h2; simp
  · intro ys hys
    simp only [List.map_map, List.mem_map, Function.comp] at hys
    obtain ⟨r, hr, rfl⟩ := hys
    simp [hR r hr]

theorem width_eq {T : Batch Nat} {n : Nat} (hN : 0 < T.length) (hT : ∀ t ∈ T, t.length = n) : width T = n := by
  simp only [width, List.getElem?_eq_getElem hN, Option.getD_some]
  exact hT _ (List.getElem_mem _)

theorem GoodModel.mono {m : Model} {k n : Nat} (h : GoodModel m n) (hk : k ≤ n) : GoodModel m k :=
  ⟨fun L hL => ⟨⟨(h.layers L hL).self.matched, fun e he => by have := (h.layers L hL).self.pos e he; omega⟩,
    (h.layers L hL).cross⟩, fun e he => by have := h.pos e he; omega⟩

theorem model_step (junk : Heads) {m : Model} {b : Bag} (hb : GoodBag b) {R : List Row} {a n : Nat}
    (hm : GoodModel m (a + n)) (hN : 0 < R.length) (hn : 1 ≤ n) (hR : ∀ r ∈ R, r.tokens.length = a + n)
    (hs : b.stepNr = a) (hmax : ((a + n : Nat) : Int) ≤ b.maxNumSteps)
    (hw : ∀ L ∈ m.layers, L.selfAttn.state ≠ .full → a = 0 ∨ n = 1) {src : Option Source}
    (hsrc : (∃ L ∈ m.layers, L.cross ≠ none) → ∃ s, src = some s ∧ SourceInv s (R.map Row.src))
    {sts : List LayerState} (hi : LayersInv b (R.map (Row.cut a)) a m.layers sts (embedded m)) :
    ∃ sts', m.forward junk (some b) src sts (R.map fun r => r.tokens.drop a) =
        some (R.map fun r => (logits m r.src r.tokens).drop a, sts') ∧
      LayersInv b R (a + n) m.layers sts' (embedded m) := by
  obtain ⟨l, hl, -⟩ := full_positions (N := R.length) hn
  have hwid : width (R.map fun r => r.tokens.drop a) = n := by
    refine width_eq (by simpa using hN) ?_
    intro t ht
    obtain ⟨r, hr, rfl⟩ := List.mem_map.1 ht
    rw [List.length_drop, hR r hr]
    omega
  obtain ⟨sts', e, hi'⟩ := layers_step junk hb hN hn hR hs hmax hl (src := src) m.layers sts (embedded m) hm.layers hw
    hsrc (embedded_causal m) hi
  refine ⟨sts', ?_, hi'⟩
  have e0 := embed_ok (m := m) hN hn hR (show startOf (some b) = a from hs) hm.pos hl
  simp only [Model.forward, hwid, List.length_map, hl, Option.bind_some]
  rw [e0, Option.bind_some, e]
  simp only [Option.map_some, Option.some.injEq, Prod.mk.injEq, and_true, List.map_map]
  apply List.map_congr_left
  intro r _
  simp only [Function.comp, logits_eq, List.map_drop]

theorem model_full (junk : Heads) {m : Model} {R : List Row} {n : Nat} (hm : GoodModel m n) (hN : 0 < R.length)
    (hn : 1 ≤ n) (hR : ∀ r ∈ R, r.tokens.length = n) {src : Option Source}
    (hsrc : (∃ L ∈ m.layers, L.cross ≠ none) → ∃ s, src = some s ∧ SourceInv s (R.map Row.src))
    {sts : List LayerState} (hlen : sts.length = m.layers.length) :
    m.forward junk none src sts (R.map Row.tokens) = some (R.map fun r => logits m r.src r.tokens, sts) := by
  obtain ⟨l, hl, -⟩ := full_positions (N := R.length) hn
  have hwid : width (R.map Row.tokens) = n := by
    refine width_eq (by simpa using hN) ?_
    intro t ht
    obtain ⟨r, hr, rfl⟩ := List.mem_map.1 ht
    exact hR r hr
  have e0 := embed_ok (m := m) (bag := none) (a := 0) hN hn (by simpa using hR) rfl (by simpa using hm.pos) hl
  simp only [List.drop_zero] at e0
  have e1 := layers_full junk hN hn hR hl (src := src) m.layers sts (embedded m) hlen hm.layers hsrc (embedded_causal m)
  simp only [Model.forward, hwid, List.length_map, hl, Option.bind_some]
  rw [show (R.map Row.tokens) = R.map fun r => r.tokens from rfl, e0, Option.bind_some,
    show (R.map fun r => embedded m r) = R.map (embedded m) from rfl, e1]
  simp only [Option.map_some, List.map_map]
  rfl

/-! ## Reordering -/

theorem picked_map {R : List Row} {order : List Nat} (ho : ∀ i ∈ order, i < R.length) {β : Type}
    (G : Row → List β) : (picked R order).map G = reordered (R.map G) order := by
  simp only [picked, reordered, List.map_map]
  apply List.map_congr_left
  intro i hi
  simp [List.getElem?_eq_getElem (ho i hi)]

theorem begins_reorder {β : Type} {rows S : Batch β} (h : Begins rows S) {order : List Nat}
    (ho : ∀ i ∈ order, i < S.length) :
    Begins (order.map fun i => (rows[i]?).getD []) (order.map fun i => (S[i]?).getD []) := by
  refine ⟨by simp, ?_⟩
  intro r s hs
  rw [List.getElem?_map, Option.map_eq_some_iff] at hs
  obtain ⟨i, hi, rfl⟩ := hs
  have hlt := ho i (List.mem_of_getElem? hi)
  obtain ⟨row, hr, ht⟩ := h.2 i S[i] (List.getElem?_eq_getElem hlt)
  refine ⟨row, by simp [hi, hr], ?_⟩
  simp only [List.getElem?_eq_getElem hlt, Option.getD_some]
  exact ht

theorem cross_reorder {m : Mha} {st : Option (Static Heads)} {R : List Row} {a : Nat} {order : List Nat}
    (ho : ∀ i ∈ order, i < R.length) (hk : KeepsSource R order) (hst : CrossInv m st (R.map Row.src) a) :
    ∃ st', (st.mapM fun (s : Static Heads) => s.reorder order) = some st' ∧
      CrossInv m st' ((picked R order).map Row.src) a := by
  cases st with
  | none => exact ⟨none, rfl, hst⟩
  | some s =>
    obtain ⟨ha, hkk, hvv⟩ := hst
    have hkl : s.k.rows.length = R.length := by rw [hkk.1]; simp
    have hvl : s.v.rows.length = R.length := by rw [hvv.1]; simp
    have hpm : ∀ f : Vec → Heads, ((picked R order).map Row.src).map (List.map f) =
        order.map fun i => (((R.map Row.src).map (List.map f))[i]?).getD [] := by
      intro f
      rw [List.map_map, picked_map ho (List.map f ∘ Row.src), List.map_map]
      rfl
    by_cases hl : order.length = R.length
    · have hsame : ∀ f : Vec → Heads, ((picked R order).map Row.src).map (List.map f) =
          (R.map Row.src).map (List.map f) := by
        intro f
        congr 1
        apply List.ext_getElem?
        intro i
        by_cases hi : i < order.length
        · have h1 : order[i]? = some order[i] := List.getElem?_eq_getElem hi
          have h2 := hk hl i order[i] h1
          have h3 := ho order[i] (List.getElem_mem hi)
          rw [List.getElem?_map, List.getElem?_map, ← h2]
          simp only [picked, List.getElem?_map, h1, Option.map_some, List.getElem?_eq_getElem h3, Option.getD_some]
        · rw [List.getElem?_eq_none (by simp [picked]; omega), List.getElem?_eq_none (by simp; omega)]
      refine ⟨some s, ?_, ha, ?_, ?_⟩
      · simp [Option.mapM, Static.reorder, hl, hkl]
      · rw [hsame]; exact hkk
      · rw [hsame]; exact hvv
    · have h1 := indexSelect_ok (t := s.k) (order := order) (by rw [hkl]; exact ho)
      have h2 := indexSelect_ok (t := s.v) (order := order) (by rw [hvl]; exact ho)
      refine ⟨some ⟨{ s.k with rows := order.map fun i => (s.k.rows[i]?).getD [] },
        { s.v with rows := order.map fun i => (s.v.rows[i]?).getD [] }⟩, ?_, ha, ?_, ?_⟩
      · simp [Option.mapM, Static.reorder, hl, hkl, h1, h2]
      · rw [hpm]; exact begins_reorder hkk (by simpa using ho)
      · rw [hpm]; exact begins_reorder hvv (by simpa using ho)

theorem layer_reorder {L : Layer} {b : Bag} {st : LayerState} {R : List Row} {F : Row → List Vec} {a : Nat}
    {order : List Nat} (ho : ∀ i ∈ order, i < R.length) (hk : L.cross ≠ none → KeepsSource R order)
    (hst : LayerInv L b st R F a) :
    ∃ st', st.reorder order = some st' ∧ LayerInv L b st' (picked R order) F a := by
  obtain ⟨s', e1, h1⟩ := self_reorder (X := R.map fun r => enterRow L.selfBlock (F r)) (order := order)
    (by simpa using ho) hst.self
  rw [← picked_map ho] at h1
  cases hc : L.cross with
  | none =>
    refine ⟨⟨s', none⟩, ?_, h1, fun _ => rfl, fun m blk h => (by rw [hc] at h; cases h)⟩
    simp only [LayerState.reorder, e1, Option.bind_some, hst.none hc]
    rfl
  | some mb =>
    obtain ⟨m, blk⟩ := mb
    obtain ⟨c', e2, h2⟩ := cross_reorder ho (hk (by rw [hc]; simp)) (hst.cross m blk hc)
    refine ⟨⟨s', c'⟩, ?_, h1, fun h => (by rw [hc] at h; cases h), fun m' blk' h => (by rw [hc] at h; cases h; exact h2)⟩
    simp only [LayerState.reorder, e1, Option.bind_some, e2, Option.map_some]

theorem layers_reorder {b : Bag} {R : List Row} {a : Nat} {order : List Nat} (ho : ∀ i ∈ order, i < R.length) :
    ∀ (Ls : List Layer) (sts : List LayerState) (F : Row → List Vec),
      ((∃ L ∈ Ls, L.cross ≠ none) → KeepsSource R order) → LayersInv b R a Ls sts F →
      ∃ sts', (sts.mapM fun (st : LayerState) => st.reorder order) = some sts' ∧
        LayersInv b (picked R order) a Ls sts' F := by
  intro Ls
  induction Ls with
  | nil =>
    intro sts F _ hi
    cases sts with
    | nil => exact ⟨[], rfl, trivial⟩
    | cons st sts => exact hi.elim
  | cons L Ls ih =>
    intro sts F hk hi
    cases sts with
    | nil => exact hi.elim
    | cons st sts =>
      obtain ⟨st', e1, h1⟩ := layer_reorder ho (fun hc => hk ⟨L, by simp, hc⟩) hi.1
      obtain ⟨sts', e2, h2⟩ := ih sts _ (fun ⟨L', h, hc⟩ => hk ⟨L', by simp [h], hc⟩) hi.2
      refine ⟨st' :: sts', ?_, h1, h2⟩
      simp only [List.mapM_cons, e1, e2, Option.bind_eq_bind, Option.bind_some, Option.pure_def]

theorem source_reorder {src : Source} {R : List Row} {order : List Nat} (ho : ∀ i ∈ order, i < R.length)
    (hs : SourceInv src (R.map Row.src)) :
    ∃ src', src.reorder order = some src' ∧ SourceInv src' ((picked R order).map Row.src) := by
  have hlay : Layout.new [(((R.map Row.src).map List.length).length : Int), (src.width : Int)]
      (some (((R.map Row.src).map List.length).map Int.ofNat)) false = some src.layout := by
    rw [← hs.layout]; simp [List.map_map, Function.comp_def]
  obtain ⟨w1, w2, w3, w4, w5⟩ := padded_facts hlay
  have hrl : src.rows.length = R.length := by rw [hs.begins.1]; simp
  have e1 : (order.mapM fun i => src.rows[i]?) = some (order.map fun i => (src.rows[i]?).getD []) :=
    mapM_some_of fun i hi => by
      have := ho i hi
      rw [List.getElem?_eq_getElem (by omega)]; rfl
  have e2 : (order.mapM fun i => src.layout.seqLens[i]?) =
      some (((picked R order).map Row.src).map fun s => (s.length : Int)) := by
    rw [picked_map ho, reordered, List.map_map]
    apply mapM_some_of
    intro i hi
    rw [w3]
    simp [List.getElem?_eq_getElem (ho i hi)]
  have hw : 1 ≤ (src.width : Int) := by
    obtain ⟨w, e, h, -⟩ := (C47_padded _ _).1 _ hlay
    simp only [List.cons.injEq, and_true] at e
    omega
  obtain ⟨lay, hl⟩ := (C47_padded [((picked R order).length : Int), (src.width : Int)]
      (((picked R order).map Row.src).map fun s => (s.length : Int))).2 src.width (by simp) hw (by
    intro n hn
    simp only [List.mem_map, picked] at hn
    obtain ⟨s, ⟨r, ⟨i, hi, rfl⟩, rfl⟩, rfl⟩ := hn
    rw [List.getElem?_eq_getElem (ho i hi), Option.getD_some]
    have := w4 (R[i]'(ho i hi)).src.length (List.mem_map.2 ⟨_, List.mem_map.2 ⟨R[i]'(ho i hi), List.getElem_mem _, rfl⟩, rfl⟩)
    omega)
  refine ⟨⟨src.width, order.map fun i => (src.rows[i]?).getD [], lay⟩, ?_, ?_, ?_⟩
  · have hl' := hl
    simp only [picked, List.length_map] at hl'
    simp only [Source.reorder, e1, Option.bind_some, e2, List.length_map]
    simp only [picked] at *
    rw [hl']
    rfl
  · rw [picked_map ho]
    exact begins_reorder hs.begins (by simpa using ho)
  · rw [← hl]; simp

end Fs2.Dec
