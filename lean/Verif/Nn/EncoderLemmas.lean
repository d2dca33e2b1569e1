import Verif.Nn.EncoderSpec
import Verif.Nn.SpeechLemmas
import Verif.Nn.DecoderSteps

/-! # Lemmas about forward passes over padded batches -/

namespace Fs2.Enc
open Fs2.Nn Fs2.Props Fs2.Speech
open Fs2.Dec hiding GoodLayer
open Fs2.Dec.Spec (placed at' around weight selfAt crossAt crossPart)
open Fs2.Enc.Spec (lookAt convAt before)

/-! ## Batches -/

theorem carries_swap {V V' ρ : Type} {W : Nat} {xs : List (List V)} {l : Layout} {R : List ρ} {F : ρ → List V}
    (h : Carries W xs l (R.map F)) {ys : List (List V')} {G : ρ → List V'} (hn : ys.length = R.length)
    (hb : ∀ (r : Nat) a, R[r]? = some a → ∃ row, ys[r]? = some row ∧ row.take (G a).length = G a)
    (hw : ∀ row ∈ ys, row.length = W) (hl : ∀ a ∈ R, (G a).length = (F a).length) : Carries W ys l (R.map G) := by
  refine ⟨by simp [hn], ?_, hw, ?_⟩
  · intro r s hs
    rw [List.getElem?_map, Option.map_eq_some_iff] at hs
    obtain ⟨a, ha, rfl⟩ := hs
    exact hb r a ha
  · have := h.layout
    rw [List.length_map, List.map_map] at this ⊢
    rw [← this]
    congr 2
    apply List.map_congr_left
    intro a ha
    simp [hl a ha]

theorem carries_at {V ρ : Type} {W : Nat} {xs : List (List V)} {l : Layout} {R : List ρ} {F : ρ → List V}
    (h : Carries W xs l (R.map F)) {r : Nat} {a : ρ} (ha : R[r]? = some a) :
    ∃ row, xs[r]? = some row ∧ row.take (F a).length = F a ∧ row.length = W ∧ 1 ≤ (F a).length ∧ (F a).length ≤ W := by
  obtain ⟨row, h1, h2⟩ := h.begins r (F a) (by rw [List.getElem?_map, ha]; rfl)
  have := h.facts.2.1 (F a) (List.mem_map.2 ⟨a, List.mem_of_getElem? ha, rfl⟩)
  exact ⟨row, h1, h2, h.wide _ (List.mem_of_getElem? h1), this.1, this.2⟩

theorem carries_num {V ρ : Type} {W : Nat} {xs : List (List V)} {l : Layout} {R : List ρ} {F : ρ → List V}
    (h : Carries W xs l (R.map F)) : xs.length = R.length := by rw [h.num, List.length_map]

theorem carries_map {V V' ρ : Type} {W : Nat} {xs : List (List V)} {l : Layout} {R : List ρ} {F : ρ → List V}
    (h : Carries W xs l (R.map F)) (f : V → V') : Carries W (xs.map (List.map f)) l (R.map fun a => (F a).map f) := by
  refine carries_swap h (by simp [(carries_num h)]) ?_ ?_ (by simp)
  · intro r a ha
    obtain ⟨row, h1, h2, _⟩ := carries_at h ha
    exact ⟨row.map f, by simp [h1], by rw [List.length_map, ← List.map_take, h2]⟩
  · intro row hr
    obtain ⟨x, hx, rfl⟩ := List.mem_map.1 hr
    rw [List.length_map]
    exact h.wide x hx

theorem carries_enter {ρ : Type} {W : Nat} {xs : Batch Vec} {l : Layout} {R : List ρ} {F : ρ → List Vec}
    (h : Carries W xs l (R.map F)) (b : Block) : Carries W (b.enter xs) l (R.map fun a => enterRow b (F a)) := by
  unfold Block.enter enterRow
  split
  · exact h
  · exact carries_map h b.norm

theorem carries_zip {V V' V'' ρ : Type} {W : Nat} {ys : List (List V)} {xs : List (List V')} {l : Layout} {R : List ρ}
    {G : ρ → List V} {F : ρ → List V'} (hy : Carries W ys l (R.map G)) (hx : Carries W xs l (R.map F))
    (f : V → V' → V'') (hl : ∀ a ∈ R, (G a).length = (F a).length) :
    Carries W (List.zipWith (List.zipWith f) ys xs) l (R.map fun a => List.zipWith f (G a) (F a)) := by
  refine carries_swap hx (by simp [(carries_num hx), (carries_num hy)]) ?_ ?_ (by intro a ha; simp [hl a ha])
  · intro r a ha
    obtain ⟨row, h1, h2, _⟩ := carries_at hx ha
    obtain ⟨row', g1, g2, _⟩ := carries_at hy ha
    refine ⟨List.zipWith f row' row, by simp [List.getElem?_zipWith, h1, g1], ?_⟩
    have := hl a (List.mem_of_getElem? ha)
    rw [List.length_zipWith, this, Nat.min_self, List.take_zipWith, h2]
    rw [← this, g2]
  · intro row hr
    obtain ⟨i, hi, rfl⟩ := List.getElem_of_mem hr
    simp only [List.length_zipWith] at hi
    rw [List.getElem_zipWith, List.length_zipWith, hy.wide _ (List.getElem_mem _), hx.wide _ (List.getElem_mem _), Nat.min_self]

theorem carries_leave {ρ : Type} {W : Nat} {ys xs : Batch Vec} {l : Layout} {R : List ρ} {G F : ρ → List Vec}
    (hy : Carries W ys l (R.map G)) (hx : Carries W xs l (R.map F)) (b : Block)
    (hl : ∀ a ∈ R, (G a).length = (F a).length) :
    Carries W (b.leave ys xs) l (R.map fun a => leaveRow b (G a) (F a)) := by
  unfold Block.leave leaveRow
  split
  · exact carries_map (carries_zip hy hx b.residual hl) b.norm
  · exact carries_zip hy hx b.residual hl

/-! ## Positions -/

theorem max_len {V : Type} {W : Nat} {xs : List (List V)} {l : Layout} {S : List (List V)} (h : Carries W xs l S)
    (hS : S ≠ []) : Largest l.maxSeqLen (S.map fun s => (s.length : Int)) := by
  obtain ⟨w', e, h1, h2, d⟩ := (C47_padded _ _).1 l h.layout
  exact d.largest (by simpa using hS)

theorem carries_full {V : Type} {W : Nat} {xs : List (List V)} {l : Layout} {S : List (List V)} (h : Carries W xs l S)
    (hp : l.padded = false) : Layout.new [(xs.length : Int), (W : Int)] none false = some l := by
  obtain ⟨e, hW⟩ := h.eq hp
  have := of_none xs.length W
  have he : Layout.of [(xs.length : Int), (W : Int)] none false = Layout.new [(xs.length : Int), (W : Int)] none false := by
    simp only [Layout.of, Bool.false_eq_true, if_false, List.take]
  rw [he] at this
  rw [this, ← h.layout, h.num]
  congr 2
  symm
  rw [List.eq_replicate_iff]
  refine ⟨by simp, ?_⟩
  intro n hn
  obtain ⟨s, hs, rfl⟩ := List.mem_map.1 hn
  rw [hW s hs]

theorem encode_carries {β ρ : Type} (f : PosEnc → Int → β → β) (p : Option PosEnc) {W : Nat} {Y : Batch β} {l : Layout}
    {R : List ρ} {F : ρ → List β} (hR : R ≠ []) (h : Carries W Y l (R.map F))
    (hp : ∀ e, p = some e → ∀ a ∈ R, ((F a).length : Int) ≤ e.maxLen) :
    ∃ Y', encode f p none l Y = some Y' ∧
      Carries W Y' l (R.map fun a => (F a).mapIdx fun i x => placed f p i x) := by
  cases p with
  | none =>
    refine ⟨Y, rfl, ?_⟩
    have : ∀ a ∈ R, ((F a).mapIdx fun i x => placed f none i x) = F a := by
      intro a _
      exact List.ext_getElem (by simp) (by simp [placed])
    rw [List.map_congr_left this]
    exact h
  | some e =>
    have hmax : l.maxSeqLen ≤ e.maxLen := by
      obtain ⟨h1, _⟩ := max_len h (by simpa using hR)
      obtain ⟨s, hs, e'⟩ := List.mem_map.1 h1
      obtain ⟨a, ha, rfl⟩ := List.mem_map.1 hs
      rw [← e']
      exact hp e rfl a ha
    obtain ⟨f1, f2, f3, f4, f5, f6, f7⟩ := h.facts
    cases hpad : l.padded with
    | false =>
      have hN : 0 < Y.length := by rw [(carries_num h)]; exact List.length_pos_iff.2 hR
      have hle : (W : Int) ≤ e.maxLen := by
        obtain ⟨a, ha⟩ := List.exists_mem_of_ne_nil R hR
        have := hp e rfl a ha
        rw [(h.eq hpad).2 (F a) (List.mem_map.2 ⟨a, ha, rfl⟩)] at this
        exact this
      refine ⟨_, encode_ok f (p := some e) (bag := none) (a := 0) hN f1 (fun ys hys => h.wide ys hys) rfl
        (fun e' he' => by cases he'; simpa using hle) (carries_full h hpad), ?_⟩
      rw [(h.eq hpad).1]
      have := h.layout
      rw [List.map_map]
      have hb : Carries W ((R.map fun a => (F a).mapIdx fun i x => placed f (some e) i x)) l
          (R.map fun a => (F a).mapIdx fun i x => placed f (some e) i x) := by
        refine carries_swap h (by simp) ?_ ?_ (by simp)
        · intro r a ha
          exact ⟨_, by rw [List.getElem?_map, ha]; rfl, by simp⟩
        · intro row hr
          obtain ⟨a, ha, rfl⟩ := List.mem_map.1 hr
          rw [List.length_mapIdx]
          exact (h.eq hpad).2 (F a) (List.mem_map.2 ⟨a, ha, rfl⟩)
      simp only [Nat.zero_add, Function.comp_def]
      exact hb
    | true =>
      refine ⟨List.zipWith (List.zipWith (f e)) (l.positions.map (List.map (· + 1))) Y, ?_, ?_⟩
      · have : ¬ l.maxSeqLen > e.maxLen := by omega
        simp only [encode, Layout.tableRows]
        simp [hpad, this]
      · refine carries_swap h (by simp [f6, (carries_num h)]) ?_ ?_ (by simp)
        · intro r a ha
          obtain ⟨row, h1, h2, h3, h4, h5⟩ := carries_at h ha
          obtain ⟨q, q1, q2, q3⟩ := f7 r (F a) (by rw [List.getElem?_map, ha]; rfl)
          refine ⟨List.zipWith (f e) (q.map (· + 1)) row, by simp [List.getElem?_zipWith, h1, q1], ?_⟩
          rw [List.length_mapIdx]
          apply List.ext_getElem (by simp; omega)
          intro i i1 i2
          simp only [List.length_mapIdx] at i2
          have hq := q3 i (by omega)
          rw [if_pos i2, List.getElem?_eq_getElem (by omega)] at hq
          simp only [Option.some.injEq] at hq
          have hrow : row[i]'(by omega) = (F a)[i] := by
            have : (row.take (F a).length)[i]'(by simp; omega) = (F a)[i] := List.getElem_of_eq h2 _
            rw [List.getElem_take] at this
            exact this
          simp only [List.getElem_take, List.getElem_zipWith, List.getElem_map, List.getElem_mapIdx, placed, hq, hrow]
        · intro row hr
          obtain ⟨i, hi, rfl⟩ := List.getElem_of_mem hr
          simp only [List.length_zipWith, List.length_map] at hi
          have hi' : i < R.length := by rw [← (carries_num h)]; omega
          obtain ⟨q, q1, q2, _⟩ := f7 i (F R[i]) (by rw [List.getElem?_map, List.getElem?_eq_getElem hi']; rfl)
          obtain ⟨_, q1⟩ := List.getElem?_eq_some_iff.1 q1
          rw [List.getElem_zipWith, List.length_zipWith, List.getElem_map, List.length_map, q1, q2,
            h.wide _ (List.getElem_mem _), Nat.min_self]

theorem encode_refuses {β ρ : Type} (f : PosEnc → Int → β → β) {e : PosEnc} {W : Nat} {Y : Batch β} {l : Layout}
    {R : List ρ} {F : ρ → List β} (h : Carries W Y l (R.map F)) {a : ρ} (ha : a ∈ R)
    (hlong : e.maxLen < ((F a).length : Int)) : encode f (some e) none l Y = none := by
  obtain ⟨_, h2⟩ := max_len h (by intro e; rw [List.map_eq_nil_iff] at e; rw [e] at ha; cases ha)
  have := h2 ((F a).length : Int) (List.mem_map.2 ⟨F a, List.mem_map.2 ⟨a, ha, rfl⟩, rfl⟩)
  have : l.maxSeqLen > e.maxLen := by omega
  simp only [encode, Layout.tableRows]
  simp [this]

/-! ## Attention -/

/-- What is known of a bias: a query of a sequence sees `w` at the keys of the sequence and nothing else. -/
def BiasIs (b : BiasKind) (Q K : Layout) (w : Nat → Nat → Nat → Entry) (Wk : Nat) (lens : List (Nat × Nat)) : Prop :=
  ∃ bias, maybeGet b Q K = some bias ∧ ∀ (r : Nat) n m, lens[r]? = some (n, m) → ∀ h i j, i < n → j < Wk →
    biasEntry bias r h i j = if j < m then w h i j else .negInf

/-- Attention for one sequence. -/
noncomputable def attendRow (m : Mha) (w : Nat → Nat → Nat → Entry) (q k v : List Heads) : List Vec :=
  q.mapIdx fun i x => m.out fun h c =>
    attend m.scale m.headDim k.length (x h) (fun j => ((k[j]?).getD fun _ _ => 0) (h / m.groups))
      (fun j => ((v[j]?).getD fun _ _ => 0) (h / m.groups)) (w h i) c

theorem attendRow_length (m : Mha) (w : Nat → Nat → Nat → Entry) (q k v : List Heads) :
    (attendRow m w q k v).length = q.length := by simp [attendRow]

theorem elem_take {b : Batch Heads} {r j : Nat} {row s : List Heads} (h : b[r]? = some row)
    (ht : row.take s.length = s) (hj : j < s.length) : elem b r j = (s[j]?).getD fun _ _ => 0 := by
  have : row[j]? = s[j]? := by
    conv => rhs; rw [← ht]
    rw [List.getElem?_take, if_pos hj]
  simp [elem, h, this]

theorem sdpa_pad {ρ : Type} {m : Mha} {w : Nat → Nat → Nat → Entry} {Q K : Layout} {q k v : Batch Heads} {R : List ρ}
    {Fq Fk Fv : ρ → List Heads} {Wq Wk : Nat} (hq : Carries Wq q Q (R.map Fq)) (hk : Carries Wk k K (R.map Fk))
    (hv : Carries Wk v K (R.map Fv)) (hkv : ∀ a ∈ R, (Fv a).length = (Fk a).length)
    (hb : BiasIs m.bias Q K w Wk (R.map fun a => ((Fq a).length, (Fk a).length))) :
    ∃ ys, m.sdpa Q K q k v = some ys ∧ Carries Wq ys Q (R.map fun a => attendRow m w (Fq a) (Fk a) (Fv a)) := by
  obtain ⟨bias, e, hbias⟩ := hb
  have hK : K.width.toNat = Wk := by
    obtain ⟨w', e, h1, h2, d⟩ := (C47_padded _ _).1 K hk.layout
    simp only [List.cons.injEq, and_true] at e
    rw [d.width, ← e.2]
    rfl
  refine ⟨_, by rw [Mha.sdpa, if_neg (by rw [(carries_num hq), (carries_num hk)]; simp), e]; rfl, ?_⟩
  rw [hK]
  refine carries_swap hq (by simp [(carries_num hq)]) ?_ ?_ (by intro a _; rw [attendRow_length])
  · intro r a ha
    obtain ⟨qr, q1, q2, q3, q4, q5⟩ := carries_at hq ha
    obtain ⟨kr, k1, k2, k3, k4, k5⟩ := carries_at hk ha
    obtain ⟨vr, v1, v2, v3, v4, v5⟩ := carries_at hv ha
    have hkv := hkv a (List.mem_of_getElem? ha)
    refine ⟨_, by rw [List.getElem?_mapIdx, q1]; rfl, ?_⟩
    rw [attendRow_length]
    apply List.ext_getElem (by simp [attendRow]; omega)
    intro i i1 i2
    rw [attendRow_length] at i2
    simp only [List.getElem_take, List.getElem_mapIdx, attendRow]
    have hx : qr[i]'(by omega) = (Fq a)[i] := by
      have : (qr.take (Fq a).length)[i]'(by simp; omega) = (Fq a)[i] := List.getElem_of_eq q2 _
      rw [List.getElem_take] at this
      exact this
    rw [hx]
    congr 1
    funext h c
    have hent := hbias r (Fq a).length (Fk a).length (by rw [List.getElem?_map, ha]; rfl) h i
    rw [attend_stretch m.scale m.headDim Wk _ _ _ _ c 0 (Fk a).length (by omega) ?_]
    · apply attend_congr
      · intro j hj
        rw [Nat.zero_add, hent j i2 (by omega), if_pos hj]
      · intro j hj _
        rw [Nat.zero_add, elem_take k1 k2 hj, elem_take v1 v2 (by omega)]
        exact ⟨fun _ => rfl, fun _ => rfl⟩
    · intro j hj hjo
      rw [hent j i2 hj, if_neg (by omega)]
  · intro row hr
    obtain ⟨i, hi, rfl⟩ := List.getElem_of_mem hr
    simp only [List.length_mapIdx] at hi
    rw [List.getElem_mapIdx, List.length_mapIdx, hq.wide _ (List.getElem_mem _)]

theorem lens_layout' {V ρ : Type} {W : Nat} {xs : List (List V)} {l : Layout} {R : List ρ} {F : ρ → List V}
    (h : Carries W xs l (R.map F)) :
    Layout.new [((R.map fun a => (F a).length).length : Int), (W : Int)]
      (some ((R.map fun a => (F a).length).map Int.ofNat)) false = some l := by
  have := h.layout
  rw [List.length_map, List.map_map] at this ⊢
  rw [← this]
  rfl

/-- The bias of attention without mask. -/
theorem bias_identity {V V' ρ : Type} {Wq Wk : Nat} {xs : List (List V)} {ys : List (List V')} {Q K : Layout} {R : List ρ}
    {F : ρ → List V} {G : ρ → List V'} (hR : R ≠ []) (hx : Carries Wq xs Q (R.map F)) (hy : Carries Wk ys K (R.map G)) :
    BiasIs .identity Q K (fun _ _ _ => .fin 0) Wk (R.map fun a => ((F a).length, (G a).length)) := by
  obtain ⟨_, x2, x3, x4, x5, _⟩ := hx.facts
  obtain ⟨_, y2, y3, y4, y5, _⟩ := hy.facts
  by_cases hp : Q.padded = false ∧ K.padded = false
  · refine ⟨none, by simp [maybeGet, hp.1, hp.2, x3, y3], ?_⟩
    intro r n m hr h i j hi hj
    rw [List.getElem?_map, Option.map_eq_some_iff] at hr
    obtain ⟨a, ha, e⟩ := hr
    cases e
    have := (hy.eq hp.2).2 (G a) (List.mem_map.2 ⟨a, List.mem_of_getElem? ha, rfl⟩)
    rw [if_pos (by omega)]
    rfl
  · obtain ⟨M, hM, hent⟩ := C52_padded .identity (by intro H h; cases h) Wq Wk (R.map fun a => (F a).length)
      (R.map fun a => (G a).length) Q K (lens_layout' hx) (lens_layout' hy) (by simp) (by simpa using hR)
      (fun p _ => ⟨_, rfl⟩)
    refine ⟨some M, ?_, ?_⟩
    · unfold maybeGet
      rw [if_neg]
      · simp [hM]
      · rintro ⟨_, h1, h2⟩
        simp [x3] at h1
        simp [y3] at h2
        exact hp ⟨h1, h2⟩
    · intro r n m hr h i j hi hj
      rw [List.getElem?_map, Option.map_eq_some_iff] at hr
      obtain ⟨a, ha, e⟩ := hr
      cases e
      obtain ⟨e1, e2⟩ := hent h r (F a).length (G a).length (by rw [List.getElem?_map, ha]; rfl)
        (by rw [List.getElem?_map, ha]; rfl)
      by_cases hj' : j < (G a).length
      · obtain ⟨t, ht, e⟩ := e1 i j hi hj'
        cases ht
        rw [if_pos hj']
        exact e
      · rw [if_neg hj']
        have hWq := (x2 (F a) (List.mem_map.2 ⟨a, List.mem_of_getElem? ha, rfl⟩)).2
        exact not_not.mp (e2 i j (by omega) hj (Or.inr ⟨hi, by omega⟩))

/-- The bias of causal attention, with or without window. -/
theorem bias_causal {V ρ : Type} {W : Nat} {xs : List (List V)} {l : Layout} {R : List ρ} {F : ρ → List V} {w : Option Int}
    (hR : R ≠ []) (hx : Carries W xs l (R.map F)) (hw : ∀ k, w = some k → 0 < k)
    (h1 : W = 1 ∨ ∃ a ∈ R, 2 ≤ (F a).length) :
    BiasIs (.causal w) l l (fun h i j => if j ≤ i then weight (.causal w) h i j else .negInf) W
      (R.map fun a => ((F a).length, (F a).length)) := by
  obtain ⟨_, x2, x3, x4, x5, _⟩ := hx.facts
  have hmax := max_len hx (by simpa using hR)
  by_cases hone : l.maxSeqLen = 1
  · have hall : ∀ a ∈ R, (F a).length = 1 := by
      intro a ha
      have h2 := hmax.2 ((F a).length : Int) (List.mem_map.2 ⟨F a, List.mem_map.2 ⟨a, ha, rfl⟩, rfl⟩)
      have := (x2 (F a) (List.mem_map.2 ⟨a, ha, rfl⟩)).1
      omega
    have hW : W = 1 := by
      rcases h1 with h | ⟨a, ha, h⟩
      · exact h
      · have := hall a ha
        omega
    refine ⟨none, by simp [maybeGet, x3, hone], ?_⟩
    intro r n m hr h i j hi hj
    rw [List.getElem?_map, Option.map_eq_some_iff] at hr
    obtain ⟨a, ha, e⟩ := hr
    cases e
    have := hall a (List.mem_of_getElem? ha)
    have hi0 : i = 0 := by omega
    have hj0 : j = 0 := by omega
    subst hi0 hj0
    rw [if_pos (by omega)]
    simp only [Nat.le_refl, if_true]
    cases w with
    | none => rfl
    | some k =>
      have := hw k rfl
      simp only [weight, biasEntry]
      rw [if_neg (by omega)]
  · obtain ⟨M, hM, hent⟩ := C52_padded (.causal w) (by intro H h; cases h) W W (R.map fun a => (F a).length)
      (R.map fun a => (F a).length) l l (lens_layout' hx) (lens_layout' hx) (by simp) (by simpa using hR)
      (fun p _ => ⟨_, rfl⟩)
    refine ⟨some M, ?_, ?_⟩
    · simp [maybeGet, x3, hone, hM]
    · intro r n m hr h i j hi hj
      rw [List.getElem?_map, Option.map_eq_some_iff] at hr
      obtain ⟨a, ha, e⟩ := hr
      cases e
      obtain ⟨e1, e2⟩ := hent h r (F a).length (F a).length (by rw [List.getElem?_map, ha]; rfl)
        (by rw [List.getElem?_map, ha]; rfl)
      by_cases hj' : j < (F a).length
      · obtain ⟨t, ht, e⟩ := e1 i j hi hj'
        rw [if_pos hj']
        refine e.trans ?_
        simp only [BiasKind.create, Option.some.injEq] at ht
        subst ht
        simp only [causalTensor]
        cases w with
        | none =>
          simp only [Option.getD_none, weight]
          by_cases h : j ≤ i
          · rw [if_pos h, if_pos ⟨by omega, by omega⟩]
          · rw [if_neg h, if_neg (by omega)]
        | some k =>
          simp only [Option.getD_some, weight]
          by_cases h : j ≤ i
          · rw [if_pos h]
            by_cases h' : (j : Int) + k ≤ i
            · rw [if_pos h', if_neg]
              intro hh
              have := hh.2 (by omega)
              omega
            · rw [if_neg h', if_pos ⟨by omega, by omega⟩]
          · rw [if_neg h, if_neg (by omega)]
      · rw [if_neg hj']
        have hW := (x2 (F a) (List.mem_map.2 ⟨a, List.mem_of_getElem? ha, rfl⟩)).2
        exact not_not.mp (e2 i j (by omega) hj (Or.inr ⟨hi, by omega⟩))

/-! ## Modules -/

/-- The position encoder of an attention module is long enough. -/
def PosFits (m : Mha) (n : Nat) : Prop := ∀ e, m.pos = some e → (n : Int) ≤ e.maxLen

theorem proj_pad {ρ : Type} (p : Option PosEnc) (f : Vec → Heads) {W : Nat} {xs : Batch Vec} {l : Layout} {R : List ρ}
    {F : ρ → List Vec} (hR : R ≠ []) (h : Carries W xs l (R.map F))
    (hp : ∀ e, p = some e → ∀ a ∈ R, ((F a).length : Int) ≤ e.maxLen) :
    ∃ k, encode PosEnc.onHeads p none l (xs.map (List.map f)) = some k ∧
      Carries W k l (R.map fun a => (F a).mapIdx fun i x => placed PosEnc.onHeads p i (f x)) := by
  obtain ⟨k, e, hk⟩ := encode_carries PosEnc.onHeads p hR (carries_map h f) (by simpa using hp)
  refine ⟨k, e, ?_⟩
  have : (R.map fun a => ((F a).map f).mapIdx fun i x => placed PosEnc.onHeads p i x) =
      R.map fun a => (F a).mapIdx fun i x => placed PosEnc.onHeads p i (f x) :=
    List.map_congr_left fun a _ => List.ext_getElem (by simp) (by simp)
  rw [← this]
  exact hk

theorem self_pad {ρ : Type} {m : Mha} (junk : Heads) (st : Option Cache) {w : Nat → Nat → Nat → Entry} {W : Nat}
    {xs : Batch Vec} {l : Layout} {R : List ρ} {F : ρ → List Vec} (hR : R ≠ []) (h : Carries W xs l (R.map F))
    (hp : ∀ a ∈ R, PosFits m (F a).length)
    (hb : BiasIs m.bias l l w W (R.map fun a => ((F a).length, (F a).length))) :
    ∃ ys, m.forwardSelf junk none st l xs = some (ys, st) ∧
      Carries W ys l (R.map fun a => attendRow m w (queriesOf m (F a)) (keysOf m (F a)) ((F a).map m.v)) := by
  obtain ⟨q, e1, hq⟩ := proj_pad m.pos m.q hR h (fun e he a ha => hp a ha e he)
  obtain ⟨k, e2, hk⟩ := proj_pad m.pos m.k hR h (fun e he a ha => hp a ha e he)
  have hv : Carries W (m.projectV xs) l (R.map fun a => (F a).map m.v) := carries_map h m.v
  obtain ⟨ys, e3, hy⟩ := sdpa_pad (m := m) (w := w) (Fq := fun a => queriesOf m (F a)) (Fk := fun a => keysOf m (F a))
    (Fv := fun a => (F a).map m.v) hq hk hv (by simp [keysOf]) (by simpa [queriesOf, keysOf] using hb)
  refine ⟨ys, ?_, hy⟩
  simp only [Mha.forwardSelf, Mha.projectQ, e1, Option.bind_some, Mha.projectK, e2, e3, Option.map_some]

theorem self_refuses {ρ : Type} {m : Mha} (junk : Heads) (st : Option Cache) {W : Nat}
    {xs : Batch Vec} {l : Layout} {R : List ρ} {F : ρ → List Vec} (h : Carries W xs l (R.map F))
    (hp : ∃ a ∈ R, ¬ PosFits m (F a).length) : m.forwardSelf junk none st l xs = none := by
  obtain ⟨a, ha, hn⟩ := hp
  unfold PosFits at hn
  push Not at hn
  obtain ⟨e, he, hlt⟩ := hn
  have := encode_refuses PosEnc.onHeads (e := e) (carries_map h m.q) ha (by simpa using hlt)
  simp only [Mha.forwardSelf, Mha.projectQ, he, this, Option.bind_none]

theorem lookAll (m : Mha) (xs : List Vec) :
    attendRow m (fun _ _ _ => .fin 0) (queriesOf m xs) (keysOf m xs) (xs.map m.v) =
      xs.mapIdx fun i _ => lookAt m xs i := by
  apply List.ext_getElem (by simp [attendRow, queriesOf])
  intro i h1 h2
  simp only [attendRow_length, queriesOf, List.length_mapIdx] at h1
  simp only [attendRow, queriesOf, List.getElem_mapIdx, keysOf_length, lookAt, placed_heads]
  congr 1
  funext h c
  rw [at'_eq h1]
  apply attend_congr
  · intro _ _; rfl
  · intro j hj _
    simp only [keysOf, List.getElem?_mapIdx, List.getElem?_map, List.getElem?_eq_getElem hj, Option.map_some,
      Option.getD_some, placed_heads, at'_eq hj]
    exact ⟨fun _ => trivial, fun _ => trivial⟩

theorem lookBack (m : Mha) (xs : List Vec) :
    attendRow m (fun h i j => if j ≤ i then weight m.bias h i j else .negInf) (queriesOf m xs) (keysOf m xs) (xs.map m.v) =
      xs.mapIdx fun i _ => selfAt m xs i := by
  apply List.ext_getElem (by simp [attendRow, queriesOf])
  intro i h1 h2
  simp only [attendRow_length, queriesOf, List.length_mapIdx] at h1
  simp only [attendRow, queriesOf, List.getElem_mapIdx, keysOf_length, selfAt, placed_heads]
  congr 1
  funext h c
  rw [at'_eq h1]
  rw [attend_stretch m.scale m.headDim xs.length _ _ _ _ c 0 (i + 1) (by omega) ?_]
  · apply attend_congr
    · intro j hj
      rw [Nat.zero_add, if_pos (by omega)]
    · intro j hj _
      have hj' : j < xs.length := by omega
      simp only [Nat.zero_add, keysOf, List.getElem?_mapIdx, List.getElem?_map, List.getElem?_eq_getElem hj',
        Option.map_some, Option.getD_some, placed_heads, at'_eq hj']
      exact ⟨fun _ => trivial, fun _ => trivial⟩
  · intro j hj hjo
    rw [if_neg (by omega)]

theorem cross_pad {ρ : Type} {m : Mha} (hm : GoodCross m) (st : Option (Static Heads)) {W Wk : Nat} {xs : Batch Vec}
    {l : Layout} {src : Source} {R : List ρ} {F G : ρ → List Vec} (hR : R ≠ []) (h : Carries W xs l (R.map F))
    (hs : Carries Wk src.rows src.layout (R.map G)) :
    ∃ ys, m.forwardCross none st l xs src = some (ys, st) ∧
      Carries W ys l (R.map fun a => (F a).mapIdx fun i _ => crossAt m (G a) (F a) i) := by
  have hq := carries_map h m.q
  have hk := carries_map hs m.k
  have hv := carries_map hs m.v
  obtain ⟨ys, e3, hy⟩ := sdpa_pad (m := m) (w := fun _ _ _ => .fin 0) hq hk hv (by simp)
    (by rw [hm.bias]; simpa using bias_identity hR h hs)
  refine ⟨ys, ?_, ?_⟩
  · simp only [Mha.forwardCross, Mha.projectQ, Mha.projectK, hm.pos, encode, Option.bind_some, Mha.projectV, e3,
      Option.map_some]
  · have : (R.map fun a => attendRow m (fun _ _ _ => .fin 0) ((F a).map m.q) ((G a).map m.k) ((G a).map m.v)) =
        R.map fun a => (F a).mapIdx fun i _ => crossAt m (G a) (F a) i := by
      refine List.map_congr_left fun a _ => ?_
      apply List.ext_getElem (by simp [attendRow])
      intro i h1 h2
      simp only [attendRow_length, List.length_map] at h1
      simp only [attendRow, List.getElem_mapIdx, List.getElem_map, List.length_map, crossAt]
      congr 1
      funext h c
      rw [at'_eq h1]
      apply attend_congr
      · intro _ _; rfl
      · intro j hj _
        simp only [List.getElem?_map, List.getElem?_eq_getElem hj, Option.map_some, Option.getD_some, at'_eq hj]
        exact ⟨fun _ => trivial, fun _ => trivial⟩
    rw [← this]
    exact hy

/-! ## Encoders -/

/-- An operation on batches that does `f` to every sequence whose length fulfils `P`, and refuses a batch with
another. -/
structure Keeps (op : Layout → Batch Vec → Option (Batch Vec)) (P : Nat → Prop) (f : List Vec → List Vec) : Prop where
  len : ∀ s, (f s).length = s.length
  ok : ∀ {W xs l S}, S ≠ [] → Carries W xs l S → (∀ s ∈ S, P s.length) →
    ∃ ys, op l xs = some ys ∧ Carries W ys l (S.map f)
  bad : ∀ {W xs l S}, Carries W xs l S → (∃ s ∈ S, ¬ P s.length) → op l xs = none

theorem Keeps.comp {op op' : Layout → Batch Vec → Option (Batch Vec)} {P P' : Nat → Prop} {f f' : List Vec → List Vec}
    (h : Keeps op P f) (h' : Keeps op' P' f') :
    Keeps (fun l xs => (op l xs).bind (op' l)) (fun n => P n ∧ P' n) fun s => f' (f s) := by
  refine ⟨fun s => by rw [h'.len, h.len], ?_, ?_⟩
  · intro W xs l S hS hc hP
    obtain ⟨ys, e, hy⟩ := h.ok hS hc fun s hs => (hP s hs).1
    obtain ⟨zs, e', hz⟩ := h'.ok (by simpa using hS) hy (by
      intro s hs
      obtain ⟨t, ht, rfl⟩ := List.mem_map.1 hs
      rw [h.len]
      exact (hP t ht).2)
    exact ⟨zs, by simp only [e, Option.bind_some, e'], by rw [List.map_map] at hz; exact hz⟩
  · rintro W xs l S hc ⟨s, hs, hn⟩
    by_cases hall : ∀ s ∈ S, P s.length
    · obtain ⟨ys, e, hy⟩ := h.ok (by rintro rfl; cases hs) hc hall
      simp only [e, Option.bind_some]
      refine h'.bad hy ⟨f s, List.mem_map.2 ⟨s, hs, rfl⟩, ?_⟩
      rw [h.len]
      exact fun h' => hn ⟨hall s hs, h'⟩
    · push Not at hall
      simp only [h.bad hc hall, Option.bind_none]

theorem Keeps.congr {op op' : Layout → Batch Vec → Option (Batch Vec)} {P P' : Nat → Prop} {f f' : List Vec → List Vec}
    (h : Keeps op P f) (ho : op = op') (hP : ∀ n, P n ↔ P' n) (hf : ∀ s, f s = f' s) : Keeps op' P' f' := by
  obtain rfl : f = f' := funext hf
  obtain rfl : P = P' := funext fun n => propext (hP n)
  subst ho
  exact h

theorem keeps_map (f : Vec → Vec) : Keeps (fun _ xs => some (xs.map (List.map f))) (fun _ => True) (List.map f) := by
  refine ⟨by simp, ?_, ?_⟩
  · intro W xs l S _ hc _
    refine ⟨_, rfl, carries_map (F := id) (R := S) (by rw [List.map_id]; exact hc) f⟩
  · rintro W xs l S _ ⟨s, _, hn⟩
    exact absurd trivial hn

/-- A sub-layer with its norm and residual connection. -/
theorem keeps_around {op : Layout → Batch Vec → Option (Batch Vec)} {P : Nat → Prop} {f : List Vec → Nat → Vec}
    (h : Keeps op P fun s => s.mapIdx fun i _ => f s i) (b : Block) :
    Keeps (fun l xs => (op l (b.enter xs)).map fun ys => b.leave ys xs) P (around b f) := by
  refine ⟨fun s => around_length b f s, ?_, ?_⟩
  · intro W xs l S hS hc hP
    have hc' : Carries W xs l (S.map id) := by rw [List.map_id]; exact hc
    obtain ⟨ys, e, hy⟩ := h.ok (by simpa using hS) (carries_enter hc' b) (by
      intro s hs
      obtain ⟨t, ht, rfl⟩ := List.mem_map.1 hs
      rw [enterRow_length]
      exact hP t ht)
    refine ⟨_, by rw [e]; rfl, ?_⟩
    rw [List.map_map] at hy
    have := carries_leave hy hc' b (by simp [enterRow_length])
    have e' : (S.map fun a => leaveRow b (((fun s => s.mapIdx fun i _ => f s i) ∘ fun a => enterRow b (id a)) a) (id a)) =
        S.map (around b f) := List.map_congr_left fun s _ => by rw [around_eq]; rfl
    rw [← e']
    exact this
  · rintro W xs l S hc ⟨s, hs, hn⟩
    have hc' : Carries W xs l (S.map id) := by rw [List.map_id]; exact hc
    rw [h.bad (carries_enter hc' b) ⟨enterRow b s, List.mem_map.2 ⟨s, hs, rfl⟩, by rw [enterRow_length]; exact hn⟩]
    rfl

theorem keeps_ffn (f : Vec → Vec) (b : Block) :
    Keeps (fun _ xs => some (ffnPart f b xs)) (fun _ => True) (around b fun ys i => f (at' ys i)) := by
  have h : Keeps (fun _ xs => some (xs.map (List.map f))) (fun _ => True) fun s => s.mapIdx fun i _ => f (at' s i) :=
    (keeps_map f).congr rfl (fun _ => Iff.rfl) fun s => List.ext_getElem (by simp) (by
      intro i h1 h2
      simp only [List.getElem_map, List.getElem_mapIdx]
      rw [at'_eq])
  exact keeps_around h b

theorem keeps_attn {m : Mha} (hm : m.bias = .identity) (b : Block) :
    Keeps (attnPart m b) (PosFits m) (around b (lookAt m)) := by
  have h : Keeps (fun l xs => (m.forwardSelf (fun _ _ => 0) none none l xs).map (·.1)) (PosFits m)
      fun s => s.mapIdx fun i _ => lookAt m s i := by
    refine ⟨by simp, ?_, ?_⟩
    · intro W xs l S hS hc hP
      have hc' : Carries W xs l (S.map id) := by rw [List.map_id]; exact hc
      obtain ⟨ys, e, hy⟩ := self_pad (fun _ _ => 0) none (w := fun _ _ _ => .fin 0) hS hc' hP
        (by rw [hm]; exact bias_identity hS hc' hc')
      refine ⟨ys, by simp only [e, Option.map_some], ?_⟩
      simp only [lookAll] at hy
      exact hy
    · rintro W xs l S hc ⟨s, hs, hn⟩
      have hc' : Carries W xs l (S.map id) := by rw [List.map_id]; exact hc
      simp only [self_refuses (fun _ _ => 0) none hc' ⟨s, hs, hn⟩, Option.map_none]
  refine (keeps_around h b).congr ?_ (fun _ => Iff.rfl) (fun _ => rfl)
  funext l xs
  simp only [attnPart, Option.map_map]
  rfl

theorem keeps_conv {c : ConformerConv Vec} (hk : 1 ≤ c.kernel) (h0 : c.first 0 = 0) (b : Block) :
    Keeps (convPart c b) (fun _ => True) (around b (convAt c)) := by
  have hspec : ∀ s : List Vec, ((if c.causal then convZ c.kernel (c.kernel - 1) 0 c.depthwise (s.map c.first)
      else convSame c.kernel c.depthwise (s.map c.first)).map c.last) = s.mapIdx fun i _ => convAt c s i := by
    intro s
    have hext : ∀ i j, ext (s.map c.first) (((i + j : Nat) : Int) - (before c : Int)) =
        if before c ≤ i + j ∧ i + j - before c < s.length then c.first (at' s (i + j - before c)) else fun _ => 0 := by
      intro i j
      unfold ext
      by_cases h1 : before c ≤ i + j
      · rw [if_pos (by omega)]
        have e : (((i + j : Nat) : Int) - (before c : Int)).toNat = i + j - before c := by omega
        rw [e]
        by_cases h2 : i + j - before c < s.length
        · rw [if_pos ⟨h1, h2⟩, List.getElem?_map, List.getElem?_eq_getElem h2, at'_eq h2]
          rfl
        · rw [if_neg (fun h => h2 h.2), List.getElem?_eq_none (by simpa using h2)]
          rfl
      · rw [if_neg (by omega), if_neg (fun h => h1 h.1)]
        rfl
    cases hc : c.causal with
    | true =>
      have hb : before c = c.kernel - 1 := by simp [before, hc]
      simp only [if_true, convZ]
      apply List.ext_getElem (by simp; omega)
      intro i h1 h2
      simp only [List.getElem_map, List.getElem_range, List.getElem_mapIdx, convAt, ← hb, hext]
    | false =>
      have hb : before c = (c.kernel - 1) / 2 := by simp [before, hc]
      simp only [Bool.false_eq_true, if_false, convSame, convZ]
      apply List.ext_getElem (by simp; omega)
      intro i h1 h2
      simp only [List.getElem_map, List.getElem_range, List.getElem_mapIdx, convAt, ← hb, hext]
  have h : Keeps (fun l xs => c.forward xs l) (fun _ => True) fun s => s.mapIdx fun i _ => convAt c s i := by
    refine ⟨by simp, ?_, ?_⟩
    · intro W xs l S hS hc _
      have hA := acts_local (conformer_local c hk h0)
      obtain ⟨W', ys, l', e, hy, _⟩ := hA.ok hS hc (by simp)
      simp only [Option.some.injEq, Prod.mk.injEq] at e
      obtain ⟨e, rfl⟩ := e
      refine ⟨ys, ?_, ?_⟩
      · simp only [ConformerConv.forward, hc.facts.2.2.1, Bool.false_or]
        rw [if_neg (by simp; omega), ← e]
      · have hW : W' = W := by
          obtain ⟨w, e1, -, -, d⟩ := (C47_padded _ _).1 _ hc.layout
          obtain ⟨w', e2, -, -, d'⟩ := (C47_padded _ _).1 _ hy.layout
          simp only [List.cons.injEq, and_true] at e1 e2
          have := d.width.symm.trans d'.width
          omega
        subst hW
        simp only [Option.getD_some, hspec] at hy
        exact hy
    · rintro W xs l S _ ⟨s, _, hn⟩
      exact absurd trivial hn
  exact keeps_around h b

theorem keeps_layer {L : EncLayer} (hL : GoodLayer L) : Keeps (fun l xs => L.forward l xs) (PosFits L.attn) (Spec.layer L) := by
  cases L with
  | transformer attn ab ffn fb =>
    have h := (keeps_attn (m := attn) hL.bias ab).comp (keeps_ffn ffn fb)
    refine h.congr ?_ (by simp [EncLayer.attn]) (fun _ => rfl)
    funext l xs
    simp only [EncLayer.forward]
    cases attnPart attn ab l xs <;> rfl
  | conformer n1 f1 na attn nc conv n2 f2 norm =>
    obtain ⟨hk, h0⟩ := hL.conv _ _ _ _ _ _ _ _ _ rfl
    have h := ((keeps_ffn f1 ⟨n1, false, halfResidual⟩).comp
      ((keeps_attn (m := attn) hL.bias ⟨na, false, plainResidual⟩).comp
        ((keeps_conv hk h0 ⟨nc, false, plainResidual⟩).comp
          ((keeps_ffn f2 ⟨n2, false, halfResidual⟩).comp (keeps_map norm)))))
    refine h.congr ?_ (by simp [EncLayer.attn]) (fun _ => rfl)
    funext l xs
    simp only [EncLayer.forward, Option.bind_some]
    cases attnPart attn ⟨na, false, plainResidual⟩ l (ffnPart f1 ⟨n1, false, halfResidual⟩ xs) with
    | none => rfl
    | some ys =>
      simp only [Option.bind_some]
      cases convPart conv ⟨nc, false, plainResidual⟩ l ys <;> rfl

theorem keeps_layers : ∀ {Ls : List EncLayer}, (∀ L ∈ Ls, GoodLayer L) →
    Keeps (fun l xs => forwardAll l Ls xs) (fun n => ∀ L ∈ Ls, PosFits L.attn n)
      (fun s => Ls.foldl (fun xs L => Spec.layer L xs) s)
  | [], _ => by
    refine (keeps_map id).congr ?_ (by simp) (by simp)
    funext l xs
    simp [forwardAll]
  | L :: Ls, h => by
    refine ((keeps_layer (h L (by simp))).comp (keeps_layers fun L' h' => h L' (by simp [h']))).congr ?_ (by simp)
      (fun _ => rfl)
    funext l xs
    rfl

theorem keeps_encoder {E : Encoder} (h : ∀ L ∈ E.layers, GoodLayer L) :
    Keeps (fun l xs => (E.forward xs l).map (·.1)) (Fits E) (Spec.encode E) := by
  refine ((keeps_layers h).comp (keeps_map E.norm)).congr ?_ (by simp [Fits, PosFits]) (fun _ => rfl)
  funext l xs
  simp only [Encoder.forward]
  cases forwardAll l E.layers xs <;> rfl

open Classical in
theorem acts_encoder {E : Encoder} (h : ∀ L ∈ E.layers, GoodLayer L) :
    Acts E.forward fun s => if Fits E s.length then some (Spec.encode E s) else none := by
  have hk := keeps_encoder h
  have hl : ∀ {xs l ys}, (E.forward xs l).map (·.1) = some ys → E.forward xs l = some (ys, l) := by
    intro xs l ys hh
    simp only [Encoder.forward, Option.map_map, Option.map_eq_some_iff, Function.comp_apply] at hh ⊢
    obtain ⟨a, h1, h2⟩ := hh
    exact ⟨a, h1, by rw [h2]⟩
  constructor
  · intro W rows l S hS hc hg
    have hf : ∀ s ∈ S, Fits E s.length := by
      intro s hs
      by_contra hn
      exact hg s hs (if_neg hn)
    obtain ⟨ys, e, hy⟩ := hk.ok hS hc hf
    refine ⟨W, ys, l, hl e, ?_, ?_⟩
    · have : (S.map fun s => (if Fits E s.length then some (Spec.encode E s) else none).getD []) = S.map (Spec.encode E) :=
        List.map_congr_left fun s hs => by rw [if_pos (hf s hs)]; rfl
      rw [this]
      exact hy
    · intro s hs hW
      rw [if_pos (hf s hs), Option.getD_some, hk.len, hW]
  · rintro W rows l S hc ⟨s, hs, hn⟩
    have := hk.bad hc ⟨s, hs, fun hf => by rw [if_pos hf] at hn; cases hn⟩
    rw [Option.map_eq_none_iff] at this
    exact this

/-! ## Decoders -/

theorem around_pad {ρ : Type} {op : Batch Vec → Option (Batch Vec × τ)} {st : τ} {f : ρ → List Vec → Nat → Vec} {W : Nat}
    {xs : Batch Vec} {l : Layout} {R : List ρ} {F : ρ → List Vec} (b : Block) (h : Carries W xs l (R.map F))
    (hop : ∃ ys, op (b.enter xs) = some (ys, st) ∧
      Carries W ys l (R.map fun a => (enterRow b (F a)).mapIdx fun i _ => f a (enterRow b (F a)) i)) :
    ∃ ys, ((op (b.enter xs)).map fun x => (b.leave x.1 xs, x.2)) = some (ys, st) ∧
      Carries W ys l (R.map fun a => around b (f a) (F a)) := by
  obtain ⟨ys, e, hy⟩ := hop
  refine ⟨b.leave ys xs, by rw [e]; rfl, ?_⟩
  have e' : (R.map fun a => leaveRow b ((enterRow b (F a)).mapIdx fun i _ => f a (enterRow b (F a)) i) (F a)) =
      R.map fun a => around b (f a) (F a) := List.map_congr_left fun a _ => by rw [around_eq]
  rw [← e']
  exact carries_leave hy h b (by simp [enterRow_length])

theorem layer_pad {ρ : Type} (junk : Heads) {L : Layer} {st : LayerState} {src : Option Source} {W Wk : Nat}
    {xs : Batch Vec} {l : Layout} {R : List ρ} {F G : ρ → List Vec} (hR : R ≠ []) (h : Carries W xs l (R.map F))
    (hb : ∃ w, L.selfAttn.bias = .causal w ∧ ∀ k, w = some k → 0 < k) (hp : ∀ a ∈ R, PosFits L.selfAttn (F a).length)
    (hc : ∀ a b, L.cross = some (a, b) → GoodCross a) (h1 : W = 1 ∨ ∃ a ∈ R, 2 ≤ (F a).length)
    (hs : L.cross ≠ none → ∃ s, src = some s ∧ Carries Wk s.rows s.layout (R.map G)) :
    ∃ ys, L.forward junk none src l st xs = some (ys, st) ∧
      Carries W ys l (R.map fun a => Dec.Spec.layer L (G a) (F a)) := by
  obtain ⟨w, hw, hw0⟩ := hb
  have h' := carries_enter h L.selfBlock
  obtain ⟨ys, e, hy⟩ := around_pad (f := fun _ => selfAt L.selfAttn) (st := st.self)
    (op := fun z => L.selfAttn.forwardSelf junk none st.self l z) L.selfBlock h (by
      obtain ⟨ys, e, hy⟩ := self_pad junk st.self hR h' (by simpa [enterRow_length] using hp)
        (by rw [hw]; exact bias_causal hR h' hw0 (by simpa [enterRow_length] using h1))
      refine ⟨ys, e, ?_⟩
      simp only [← hw, lookBack] at hy
      exact hy)
  have e1 : L.forwardSelf junk none st.self l xs = some (ys, st.self) := e
  have hcross : ∃ zs, L.forwardCross none st.cross l src ys = some (zs, st.cross) ∧
      Carries W zs l (R.map fun a => crossPart L (G a) (around L.selfBlock (selfAt L.selfAttn) (F a))) := by
    cases hx : L.cross with
    | none =>
      refine ⟨ys, by simp only [Layer.forwardCross, hx], ?_⟩
      simp only [crossPart, hx]
      exact hy
    | some mb =>
      obtain ⟨m, blk⟩ := mb
      obtain ⟨s, rfl, hS⟩ := hs (by rw [hx]; simp)
      obtain ⟨zs, e, hz⟩ := around_pad (f := fun a => crossAt m (G a)) (st := st.cross)
        (op := fun z => m.forwardCross none st.cross l z s) blk hy
        (cross_pad (hc m blk hx) st.cross hR (carries_enter hy blk) hS)
      refine ⟨zs, ?_, ?_⟩
      · simp only [Layer.forwardCross, hx, Option.bind_some]
        exact e
      · simp only [crossPart, hx]
        exact hz
  obtain ⟨zs, e2, hz⟩ := hcross
  obtain ⟨us, e3, hu⟩ := (keeps_ffn L.ffn L.ffnBlock).ok (by simpa using hR) hz (by simp)
  refine ⟨us, ?_, ?_⟩
  · simp only [Option.some.injEq] at e3
    simp only [Layer.forward, e1, Option.bind_some, e2, Option.map_some, Layer.forwardFfn]
    rw [← e3]
    rfl
  · rw [List.map_map] at hu
    exact hu

theorem layer_length (L : Layer) (src xs : List Vec) : (Dec.Spec.layer L src xs).length = xs.length := by
  rw [Dec.Spec.layer, around_length, crossPart]
  split <;> simp [around_length]

theorem layers_pad {ρ : Type} (junk : Heads) {src : Option Source} {W Wk : Nat} {l : Layout} {R : List ρ} {G : ρ → List Vec}
    (hR : R ≠ []) : ∀ {Ls : List Layer} {sts : List LayerState} {xs : Batch Vec} {F : ρ → List Vec},
      sts.length = Ls.length → Carries W xs l (R.map F) →
      (∀ L ∈ Ls, ∃ w, L.selfAttn.bias = .causal w ∧ ∀ k, w = some k → 0 < k) →
      (∀ L ∈ Ls, ∀ a ∈ R, PosFits L.selfAttn (F a).length) →
      (∀ L ∈ Ls, ∀ a b, L.cross = some (a, b) → GoodCross a) → (W = 1 ∨ ∃ a ∈ R, 2 ≤ (F a).length) →
      ((∃ L ∈ Ls, L.cross ≠ none) → ∃ s, src = some s ∧ Carries Wk s.rows s.layout (R.map G)) →
      ∃ ys sts', forwardLayers junk none src l Ls sts xs = some (ys, sts') ∧
        Carries W ys l (R.map fun a => Ls.foldl (fun xs L => Dec.Spec.layer L (G a) xs) (F a))
  | [], sts, xs, F, _, h, _, _, _, _, _ => ⟨xs, [], rfl, h⟩
  | L :: Ls, st :: sts, xs, F, hl, h, hb, hp, hc, h1, hs => by
    obtain ⟨ys, e, hy⟩ := layer_pad junk (st := st) (G := G) (src := src) (Wk := Wk) hR h (hb L (by simp)) (hp L (by simp))
      (hc L (by simp)) h1 (fun hx => hs ⟨L, by simp, hx⟩)
    obtain ⟨zs, sts', e', hz⟩ := layers_pad junk (src := src) (G := G) (Wk := Wk) hR (Ls := Ls) (sts := sts) (by simpa using hl)
      hy (fun L' h' => hb L' (by simp [h'])) (fun L' h' a ha => by rw [layer_length]; exact hp L' (by simp [h']) a ha)
      (fun L' h' => hc L' (by simp [h'])) (by simpa [layer_length] using h1)
      (fun ⟨L', h', hx⟩ => hs ⟨L', by simp [h'], hx⟩)
    refine ⟨zs, st :: sts', ?_, hz⟩
    simp only [forwardLayers, e, Option.bind_some, e', Option.map_some]

theorem decode_pad {ρ : Type} {m : Model} {src : Option Source} {W Wk : Nat} {tokens : Batch Nat} {l : Layout} {R : List ρ}
    {F : ρ → List Nat} {G : ρ → List Vec} (hR : R ≠ []) (h : Carries W tokens l (R.map F))
    (hm : ∀ a ∈ R, PadModel m (F a).length) (h1 : W = 1 ∨ ∃ a ∈ R, 2 ≤ (F a).length)
    (hs : (∃ L ∈ m.layers, L.cross ≠ none) → ∃ s, src = some s ∧ Carries Wk s.rows s.layout (R.map G)) :
    ∃ ys, decodeAll m src tokens l = some ys ∧ Carries W ys l (R.map fun a => Dec.Spec.logits m (G a) (F a)) := by
  obtain ⟨a0, ha0⟩ := List.exists_mem_of_ne_nil R hR
  obtain ⟨xs, e, hx⟩ := encode_carries PosEnc.apply m.pos hR (carries_map h m.embed)
    (by intro e he a ha; simpa using (hm a ha).pos e he)
  have e0 : (R.map fun a => ((F a).map m.embed).mapIdx fun i x => placed PosEnc.apply m.pos i x) =
      R.map fun a => (F a).mapIdx fun i t => placed PosEnc.apply m.pos i (m.embed t) :=
    List.map_congr_left fun a _ => List.ext_getElem (by simp) (by simp)
  rw [e0] at hx
  obtain ⟨ys, sts', e', hy⟩ := layers_pad (fun _ _ => 0) (src := src) (G := G) (Wk := Wk) hR (Ls := m.layers)
    (sts := m.layers.map fun _ => {}) (by simp) hx (hm a0 ha0).bias
    (fun L hL a ha e he => by simpa using (hm a ha).attnPos L hL e he) (hm a0 ha0).cross (by simpa using h1) hs
  refine ⟨_, by simp only [decodeAll, e, Option.bind_some, e', Option.map_some]; rfl, ?_⟩
  exact carries_map hy _

theorem text_pad {ρ : Type} {T : TextEncoder} {W : Nat} {tokens : Batch Nat} {l : Layout} {R : List ρ} {F : ρ → List Nat}
    (hR : R ≠ []) (h : Carries W tokens l (R.map F)) (hT : ∀ L ∈ T.encoder.layers, GoodLayer L)
    (hf : ∀ a ∈ R, Fits T.encoder (F a).length) (hp : ∀ a ∈ R, ∀ e, T.pos = some e → ((F a).length : Int) ≤ e.maxLen) :
    ∃ ys, T.forward tokens l = some (ys, l) ∧ Carries W ys l (R.map fun a => Spec.encodeText T (F a)) := by
  obtain ⟨xs, e, hx⟩ := encode_carries PosEnc.apply T.pos hR (carries_map h T.embed)
    (by intro e he a ha; simpa using hp a ha e he)
  have e0 : (R.map fun a => ((F a).map T.embed).mapIdx fun i x => placed PosEnc.apply T.pos i x) =
      R.map fun a => (F a).mapIdx fun i t => placed PosEnc.apply T.pos i (T.embed t) :=
    List.map_congr_left fun a _ => List.ext_getElem (by simp) (by simp)
  rw [e0] at hx
  obtain ⟨ys, e', hy⟩ := (keeps_encoder hT).ok (by simpa using hR) hx (by simpa using hf)
  rw [List.map_map] at hy
  refine ⟨ys, ?_, hy⟩
  simp only [TextEncoder.forward, e, Option.bind_some]
  simp only [Encoder.forward, Option.map_map, Option.map_eq_some_iff, Function.comp_apply] at e' ⊢
  obtain ⟨a, h1, h2⟩ := e'
  exact ⟨a, h1, by rw [h2]⟩

end Fs2.Enc
