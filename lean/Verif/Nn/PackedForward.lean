import Verif.Nn.EncoderLemmas

/-!
# Forward passes over packed batches

In a packed batch the sequences lie one after the other in a single row.
-/

namespace Fs2.Enc
open Fs2.Nn Fs2.Props Fs2.Speech
open Fs2.Dec hiding GoodLayer
open Fs2.Dec.Spec (placed at' around weight selfAt crossAt crossPart)
open Fs2.Enc.Spec (lookAt)

/-- Where a sequence begins if the sequences are written one after the other. -/
def startAt {V : Type} (S : List (List V)) (a : Nat) : Nat := ((S.take a).map List.length).sum

/-- A batch of one row of width `W` begins with the sequences, one after the other; anything may follow. The layout says so. -/
structure Lies {V : Type} (W : Nat) (rows : List (List V)) (l : Layout) (S : List (List V)) : Prop where
  row : ∃ row, rows = [row] ∧ row.length = W ∧
    ∀ (a : Nat) s, S[a]? = some s → ∀ (i : Nat) x, s[i]? = some x → row[startAt S a + i]? = some x
  layout : Layout.new [(W : Int)] (some (S.map fun s => (s.length : Int))) true = some l

/-! ## Places -/

theorem startAt_eq {V : Type} (S : List (List V)) (a : Nat) : startAt S a = ((S.map List.length).take a).sum := by
  rw [startAt, List.map_take]

theorem startAt_map {V V' ρ : Type} {R : List ρ} {F : ρ → List V} {G : ρ → List V'} (h : ∀ r ∈ R, (G r).length = (F r).length)
    (a : Nat) : startAt (R.map G) a = startAt (R.map F) a := by
  rw [startAt_eq, startAt_eq, List.map_map, List.map_map]
  congr 2
  exact List.map_congr_left fun r hr => h r hr

theorem sum_ofNat' (l : List Nat) : (l.map Int.ofNat).sum = (l.sum : Int) := by
  induction l with
  | nil => rfl
  | cons a l ih => simp only [List.map_cons, List.sum_cons, ih]; simp

theorem lens_ofNat {V : Type} (S : List (List V)) :
    (S.map fun s => (s.length : Int)) = (S.map List.length).map Int.ofNat := by
  rw [List.map_map]; rfl

theorem take_sum_le {l : List Nat} {a n : Nat} (h : l[a]? = some n) : (l.take a).sum + n ≤ l.sum := by
  induction l generalizing a with
  | nil => simp at h
  | cons x l ih =>
    cases a with
    | zero => simp at h; subst h; simp
    | succ a =>
      simp only [List.getElem?_cons_succ] at h
      have := ih h
      simp only [List.take_succ_cons, List.sum_cons]
      omega

/-- Every place is in one of the sequences. -/
theorem place_in (lens : List Nat) (q : Nat) (h : q < lens.sum) :
    ∃ (c m j : Nat), lens[c]? = some m ∧ j < m ∧ q = (lens.take c).sum + j := by
  induction lens generalizing q with
  | nil => simp at h
  | cons n lens ih =>
    simp only [List.sum_cons] at h
    by_cases hq : q < n
    · exact ⟨0, n, q, rfl, hq, by simp⟩
    · obtain ⟨c, m, j, h1, h2, h3⟩ := ih (q - n) (by omega)
      exact ⟨c + 1, m, j, by simpa using h1, h2, by simp; omega⟩

theorem Lies.facts {V : Type} {W : Nat} {rows : List (List V)} {l : Layout} {S : List (List V)} (h : Lies W rows l S) :
    l.width = W ∧ l.packed = true ∧ (∀ s ∈ S, 1 ≤ s.length) ∧ (S.map List.length).sum ≤ W ∧
      (S ≠ [] → Largest l.maxSeqLen (S.map fun s => (s.length : Int))) ∧
      ∃ q, l.positions = [q] ∧ q.length = W ∧
        ∀ (a : Nat) s, S[a]? = some s → ∀ i < s.length, q[startAt S a + i]? = some (i : Int) := by
  obtain ⟨w, e, h1, h2, h3, d⟩ := (C47_packed _ _).1 l h.layout
  simp only [List.cons.injEq, and_true] at e
  subst e
  refine ⟨d.width, d.packed, ?_, ?_, ?_, ?_⟩
  · intro s hs
    have := h2 _ (List.mem_map.2 ⟨s, hs, rfl⟩)
    omega
  · rw [lens_ofNat, sum_ofNat'] at h3
    omega
  · intro hS
    exact d.largest (by simpa using hS)
  · obtain ⟨q, q1, q2, q3, _⟩ := d.positions
    refine ⟨q, q1, by omega, ?_⟩
    intro a s hs i hi
    obtain ⟨p, p1, p2⟩ := q3 a s.length (by rw [List.getElem?_map, hs]; rfl) i (by omega)
    rw [lens_ofNat, ← List.map_take, sum_ofNat', ← startAt_eq] at p1
    obtain rfl : p = startAt S a + i := by omega
    exact p2

theorem Lies.room {V : Type} {W : Nat} {rows : List (List V)} {l : Layout} {S : List (List V)} (h : Lies W rows l S) {a : Nat}
    {s : List V} (hs : S[a]? = some s) : startAt S a + s.length ≤ W := by
  have h1 := h.facts.2.2.2.1
  have h2 := take_sum_le (l := S.map List.length) (a := a) (n := s.length) (by rw [List.getElem?_map, hs]; rfl)
  rw [← startAt_eq] at h2
  omega

/-! ## Batches -/

theorem lies_swap {V V' ρ : Type} {W : Nat} {xs : List (List V)} {l : Layout} {R : List ρ} {F : ρ → List V}
    (h : Lies W xs l (R.map F)) {row : List V'} {G : ρ → List V'} (hw : row.length = W)
    (hl : ∀ r ∈ R, (G r).length = (F r).length)
    (hb : ∀ (a : Nat) r, R[a]? = some r → ∀ i x, (G r)[i]? = some x → row[startAt (R.map F) a + i]? = some x) :
    Lies W [row] l (R.map G) := by
  refine ⟨⟨row, rfl, hw, ?_⟩, ?_⟩
  · intro a s hs i x hx
    rw [List.getElem?_map, Option.map_eq_some_iff] at hs
    obtain ⟨r, hr, rfl⟩ := hs
    rw [startAt_map hl]
    exact hb a r hr i x hx
  · have := h.layout
    rw [List.map_map] at this ⊢
    rw [← this]
    congr 2
    exact List.map_congr_left fun r hr => by simp [hl r hr]

theorem lies_at {V ρ : Type} {W : Nat} {xs : List (List V)} {l : Layout} {R : List ρ} {F : ρ → List V}
    (h : Lies W xs l (R.map F)) : ∃ row, xs = [row] ∧ row.length = W ∧
      ∀ (a : Nat) r, R[a]? = some r → ∀ (i : Nat) x, (F r)[i]? = some x → row[startAt (R.map F) a + i]? = some x := by
  obtain ⟨row, h1, h2, h3⟩ := h.row
  exact ⟨row, h1, h2, fun a r hr => h3 a (F r) (by rw [List.getElem?_map, hr]; rfl)⟩

theorem lies_map {V V' ρ : Type} {W : Nat} {xs : List (List V)} {l : Layout} {R : List ρ} {F : ρ → List V}
    (h : Lies W xs l (R.map F)) (f : V → V') : Lies W (xs.map (List.map f)) l (R.map fun a => (F a).map f) := by
  obtain ⟨row, rfl, h2, h3⟩ := lies_at h
  refine lies_swap h (by simpa using h2) (by simp) ?_
  intro a r hr i x hx
  rw [List.getElem?_map, Option.map_eq_some_iff] at hx
  obtain ⟨y, hy, rfl⟩ := hx
  rw [List.getElem?_map, h3 a r hr i y hy]
  rfl

theorem lies_enter {ρ : Type} {W : Nat} {xs : Batch Vec} {l : Layout} {R : List ρ} {F : ρ → List Vec}
    (h : Lies W xs l (R.map F)) (b : Block) : Lies W (b.enter xs) l (R.map fun a => enterRow b (F a)) := by
  unfold Block.enter enterRow
  split
  · exact h
  · exact lies_map h b.norm

theorem lies_zip {V V' V'' ρ : Type} {W : Nat} {ys : List (List V)} {xs : List (List V')} {l : Layout} {R : List ρ}
    {G : ρ → List V} {F : ρ → List V'} (hy : Lies W ys l (R.map G)) (hx : Lies W xs l (R.map F))
    (f : V → V' → V'') (hl : ∀ a ∈ R, (G a).length = (F a).length) :
    Lies W (List.zipWith (List.zipWith f) ys xs) l (R.map fun a => List.zipWith f (G a) (F a)) := by
  obtain ⟨row, rfl, h2, h3⟩ := lies_at hx
  obtain ⟨row', rfl, g2, g3⟩ := lies_at hy
  refine lies_swap hx (by simp [h2, g2]) (by intro r hr; simp [hl r hr]) ?_
  intro a r hr i x he
  rw [List.getElem?_zipWith] at he ⊢
  cases e1 : (G r)[i]? with
  | none => simp [e1] at he
  | some u =>
    cases e2 : (F r)[i]? with
    | none => simp [e1, e2] at he
    | some v =>
      have g := g3 a r hr i u e1
      rw [startAt_map hl] at g
      rw [g, h3 a r hr i v e2, ← he, e1, e2]

theorem lies_leave {ρ : Type} {W : Nat} {ys xs : Batch Vec} {l : Layout} {R : List ρ} {G F : ρ → List Vec}
    (hy : Lies W ys l (R.map G)) (hx : Lies W xs l (R.map F)) (b : Block)
    (hl : ∀ a ∈ R, (G a).length = (F a).length) :
    Lies W (b.leave ys xs) l (R.map fun a => leaveRow b (G a) (F a)) := by
  unfold Block.leave leaveRow
  split
  · exact lies_map (lies_zip hy hx b.residual hl) b.norm
  · exact lies_zip hy hx b.residual hl

/-! ## Positions -/

theorem encode_lies {β ρ : Type} (f : PosEnc → Int → β → β) (p : Option PosEnc) {W : Nat} {Y : Batch β} {l : Layout}
    {R : List ρ} {F : ρ → List β} (hR : R ≠ []) (h : Lies W Y l (R.map F))
    (hp : ∀ e, p = some e → ∀ a ∈ R, ((F a).length : Int) ≤ e.maxLen) :
    ∃ Y', encode f p none l Y = some Y' ∧
      Lies W Y' l (R.map fun a => (F a).mapIdx fun i x => placed f p i x) := by
  cases p with
  | none =>
    refine ⟨Y, rfl, ?_⟩
    have : ∀ a ∈ R, ((F a).mapIdx fun i x => placed f none i x) = F a := by
      intro a _
      exact List.ext_getElem (by simp) (by simp [placed])
    rw [List.map_congr_left this]
    exact h
  | some e =>
    obtain ⟨f1, f2, f3, f4, f5, q, q1, q2, q3⟩ := h.facts
    have hmax : l.maxSeqLen ≤ e.maxLen := by
      obtain ⟨h1, _⟩ := f5 (by simpa using hR)
      obtain ⟨s, hs, e'⟩ := List.mem_map.1 h1
      obtain ⟨a, ha, rfl⟩ := List.mem_map.1 hs
      rw [← e']
      exact hp e rfl a ha
    obtain ⟨row, rfl, h2, h3⟩ := lies_at h
    refine ⟨[List.zipWith (f e) (q.map (· + 1)) row], ?_, ?_⟩
    · have : ¬ l.maxSeqLen > e.maxLen := by omega
      simp only [encode, Layout.tableRows]
      simp [f2, this, q1]
    · refine lies_swap h (by simp [q2, h2]) (by simp) ?_
      intro a r hr i x hx
      rw [List.getElem?_mapIdx, Option.map_eq_some_iff] at hx
      obtain ⟨y, hy, rfl⟩ := hx
      have hi : i < (F r).length := (List.getElem?_eq_some_iff.1 hy).1
      rw [List.getElem?_zipWith, List.getElem?_map, q3 a (F r) (by rw [List.getElem?_map, hr]; rfl) i hi, h3 a r hr i y hy]
      rfl

theorem encode_lies_refuses {β ρ : Type} (f : PosEnc → Int → β → β) {e : PosEnc} {W : Nat} {Y : Batch β} {l : Layout}
    {R : List ρ} {F : ρ → List β} (h : Lies W Y l (R.map F)) {a : ρ} (ha : a ∈ R)
    (hlong : e.maxLen < ((F a).length : Int)) : encode f (some e) none l Y = none := by
  obtain ⟨_, h2⟩ := h.facts.2.2.2.2.1 (by intro e; rw [List.map_eq_nil_iff] at e; rw [e] at ha; cases ha)
  have := h2 ((F a).length : Int) (List.mem_map.2 ⟨F a, List.mem_map.2 ⟨a, ha, rfl⟩, rfl⟩)
  have : l.maxSeqLen > e.maxLen := by omega
  simp only [encode, Layout.tableRows]
  simp [this]

/-! ## Attention -/

/-- What is known of a bias: a query of a sequence sees `w` at the keys of the sequence and nothing else. -/
def BlockBias (b : BiasKind) (Q K : Layout) (w : Nat → Nat → Nat → Entry) (Wk : Nat) (qs ks : List Nat) : Prop :=
  ∃ bias, maybeGet b Q K = some bias ∧ ∀ (a : Nat) n m, qs[a]? = some n → ks[a]? = some m → ∀ h i j, i < n → j < Wk →
    biasEntry bias 0 h ((qs.take a).sum + i) j =
      if (ks.take a).sum ≤ j ∧ j < (ks.take a).sum + m then w h i (j - (ks.take a).sum) else .negInf

theorem block_bias {b : BiasKind} (hb : ∀ H, b ≠ .alibi H) {w : Nat → Nat → Nat → Entry} {V V' ρ : Type} {Wq Wk : Nat}
    {xs : List (List V)} {ys : List (List V')} {Q K : Layout} {R : List ρ} {F : ρ → List V} {G : ρ → List V'} (hR : R ≠ [])
    (hx : Lies Wq xs Q (R.map F)) (hy : Lies Wk ys K (R.map G))
    (hw : ∀ r ∈ R, ∃ t, b.create (F r).length (G r).length = some t ∧
      ∀ h i j, i < (F r).length → j < (G r).length → t.at' h i j = w h i j) :
    BlockBias b Q K w Wk ((R.map F).map List.length) ((R.map G).map List.length) := by
  obtain ⟨x1, x2, x3, x4, _⟩ := hx.facts
  obtain ⟨y1, y2, y3, y4, _⟩ := hy.facts
  have lx := hx.layout
  have ly := hy.layout
  rw [lens_ofNat] at lx ly
  obtain ⟨T, hT, -, -, -, hin, hout, -⟩ := C52_packed b hb Wq Wk _ _ Q K lx ly (by simp) (by simpa using hR) (by
    intro p hp
    rw [List.map_map, List.map_map] at hp
    obtain ⟨i, hi, rfl⟩ := List.getElem_of_mem hp
    simp only [List.length_zip, List.length_map, Nat.min_self] at hi
    obtain ⟨t, ht, _⟩ := hw R[i] (List.getElem_mem _)
    exact ⟨t, by simpa using ht⟩)
  refine ⟨some (.one T), ?_, ?_⟩
  · unfold maybeGet
    rw [if_neg]
    · cases b <;> simp [x2, hT]
    · simp [x2]
  · intro a n m hn hm h i j hi hj
    have hne : ∀ e : Entry, ¬ Sees e → e = .negInf := fun e he => not_not.mp he
    simp only [biasEntry, Materialized.entry]
    by_cases hs : j < ((R.map G).map List.length).sum
    · obtain ⟨c, m', j', h1, h2, rfl⟩ := place_in _ j hs
      obtain ⟨k1, k2⟩ := hin h a c n m' i j' hn h1 hi h2
      by_cases hac : a = c
      · subst hac
        rw [hm] at h1
        cases h1
        rw [if_pos (by omega)]
        obtain ⟨s, e1, e2⟩ := k2 rfl
        rw [e2, Nat.add_sub_cancel_left]
        rw [List.getElem?_map, List.getElem?_map, Option.map_eq_some_iff] at hn hm
        obtain ⟨_, hr', rfl⟩ := hn
        obtain ⟨_, hr'', rfl⟩ := hm
        rw [Option.map_eq_some_iff] at hr' hr''
        obtain ⟨r, hr, rfl⟩ := hr'
        obtain ⟨r', hr2, rfl⟩ := hr''
        rw [hr] at hr2
        cases hr2
        obtain ⟨t, t1, t2⟩ := hw r (List.mem_of_getElem? hr)
        rw [t1] at e1
        cases e1
        exact t2 h i j' hi h2
      · rw [hne _ (k1 hac), if_neg]
        intro hh
        -- the stretches of different sequences do not meet
        rcases Nat.lt_or_gt_of_ne hac with hlt | hlt
        · have := take_sum_le (l := ((R.map G).map List.length).take c) (a := a) (n := m)
            (by rw [List.getElem?_take, if_pos hlt]; exact hm)
          rw [List.take_take, Nat.min_eq_left (by omega)] at this
          omega
        · have := take_sum_le (l := ((R.map G).map List.length).take a) (a := c) (n := m')
            (by rw [List.getElem?_take, if_pos hlt]; exact h1)
          rw [List.take_take, Nat.min_eq_left (by omega)] at this
          omega
    · have h1 := take_sum_le hm
      have h2 := take_sum_le hn
      rw [if_neg (by omega)]
      exact hne _ (hout h _ j (by omega) hj (Or.inr ⟨by omega, by omega⟩))

theorem sdpa_lies {ρ : Type} {m : Mha} {w : Nat → Nat → Nat → Entry} {Q K : Layout} {q k v : Batch Heads} {R : List ρ}
    {Fq Fk Fv : ρ → List Heads} {Wq Wk : Nat} (hq : Lies Wq q Q (R.map Fq)) (hk : Lies Wk k K (R.map Fk))
    (hv : Lies Wk v K (R.map Fv)) (hkv : ∀ a ∈ R, (Fv a).length = (Fk a).length)
    (hb : BlockBias m.bias Q K w Wk ((R.map Fq).map List.length) ((R.map Fk).map List.length)) :
    ∃ ys, m.sdpa Q K q k v = some ys ∧ Lies Wq ys Q (R.map fun a => attendRow m w (Fq a) (Fk a) (Fv a)) := by
  obtain ⟨bias, e, hbias⟩ := hb
  have hK : K.width.toNat = Wk := by rw [hk.facts.1]; rfl
  obtain ⟨qr, rfl, q2, q3⟩ := lies_at hq
  obtain ⟨kr, rfl, k2, k3⟩ := lies_at hk
  obtain ⟨vr, rfl, v2, v3⟩ := lies_at hv
  refine ⟨_, by rw [Mha.sdpa, if_neg (by simp), e]; rfl, ?_⟩
  rw [hK]
  simp only [List.mapIdx_cons, List.mapIdx_nil]
  refine lies_swap hq (by simp [q2]) (by intro a _; rw [attendRow_length]) ?_
  intro a r hr i x hx
  have hroom := hk.room (a := a) (s := Fk r) (by rw [List.getElem?_map, hr]; rfl)
  have hi : i < (Fq r).length := by
    have := (List.getElem?_eq_some_iff.1 hx).1
    rwa [attendRow_length] at this
  simp only [attendRow, List.getElem?_mapIdx, List.getElem?_eq_getElem hi, Option.map_some, Option.some.injEq] at hx
  rw [List.getElem?_mapIdx, q3 a r hr i _ (List.getElem?_eq_getElem hi), Option.map_some, ← hx]
  congr 2
  funext h c
  have hkv := hkv r (List.mem_of_getElem? hr)
  have hent := hbias a (Fq r).length (Fk r).length (by rw [List.getElem?_map, List.getElem?_map, hr]; rfl)
    (by rw [List.getElem?_map, List.getElem?_map, hr]; rfl) h i
  rw [← startAt_eq, ← startAt_eq] at hent
  rw [attend_stretch m.scale m.headDim Wk _ _ _ _ c (startAt (R.map Fk) a) (Fk r).length hroom ?_]
  · apply attend_congr
    · intro j hj
      rw [hent _ hi (by omega), if_pos (by omega), Nat.add_sub_cancel_left]
    · intro j hj _
      have hj' : j < (Fv r).length := by omega
      have e1 := k3 a r hr j _ (List.getElem?_eq_getElem hj)
      have e2 := v3 a r hr j _ (List.getElem?_eq_getElem hj')
      rw [startAt_map (F := Fk) (G := Fv) (by assumption)] at e2
      simp only [elem, List.getElem?_cons_zero, Option.getD_some, e1, e2, List.getElem?_eq_getElem hj,
        List.getElem?_eq_getElem hj']
      exact ⟨fun _ => trivial, fun _ => trivial⟩
  · intro j hj hjo
    rw [hent j hi hj, if_neg (by omega)]

/-- The bias of attention without mask. -/
theorem block_identity {V V' ρ : Type} {Wq Wk : Nat} {xs : List (List V)} {ys : List (List V')} {Q K : Layout} {R : List ρ}
    {F : ρ → List V} {G : ρ → List V'} (hR : R ≠ []) (hx : Lies Wq xs Q (R.map F)) (hy : Lies Wk ys K (R.map G)) :
    BlockBias .identity Q K (fun _ _ _ => .fin 0) Wk ((R.map F).map List.length) ((R.map G).map List.length) :=
  block_bias (by intro H h; cases h) hR hx hy fun _ _ => ⟨_, rfl, fun _ _ _ _ _ => rfl⟩

/-- The bias of causal attention, with or without window. -/
theorem block_causal {V ρ : Type} {W : Nat} {xs : List (List V)} {l : Layout} {R : List ρ} {F : ρ → List V} {w : Option Int}
    (hR : R ≠ []) (hx : Lies W xs l (R.map F)) :
    BlockBias (.causal w) l l (fun h i j => if j ≤ i then weight (.causal w) h i j else .negInf) W
      ((R.map F).map List.length) ((R.map F).map List.length) := by
  refine block_bias (by intro H h; cases h) hR hx hx fun r _ => ⟨_, rfl, fun h i j hi hj => ?_⟩
  simp only [causalTensor]
  cases w with
  | none =>
    simp only [Option.getD_none, weight]
    by_cases h : j ≤ i
    · rw [if_pos h, if_pos ⟨by omega, by omega⟩]
    · rw [if_neg h, if_neg (by omega)]
  | some k =>
    simp only [Option.getD_some, weight]
    by_cases h : j ≤ i
    · rw [if_pos h]
      by_cases h' : (j : Int) + k ≤ i
      · rw [if_pos h', if_neg]
        intro hh
        have := hh.2 (by omega)
        omega
      · rw [if_neg h', if_pos ⟨by omega, by omega⟩]
    · rw [if_neg h, if_neg (by omega)]

/-! ## Modules -/

theorem proj_lies {ρ : Type} (p : Option PosEnc) (f : Vec → Heads) {W : Nat} {xs : Batch Vec} {l : Layout} {R : List ρ}
    {F : ρ → List Vec} (hR : R ≠ []) (h : Lies W xs l (R.map F))
    (hp : ∀ e, p = some e → ∀ a ∈ R, ((F a).length : Int) ≤ e.maxLen) :
    ∃ k, encode PosEnc.onHeads p none l (xs.map (List.map f)) = some k ∧
      Lies W k l (R.map fun a => (F a).mapIdx fun i x => placed PosEnc.onHeads p i (f x)) := by
  obtain ⟨k, e, hk⟩ := encode_lies PosEnc.onHeads p hR (lies_map h f) (by simpa using hp)
  refine ⟨k, e, ?_⟩
  have : (R.map fun a => ((F a).map f).mapIdx fun i x => placed PosEnc.onHeads p i x) =
      R.map fun a => (F a).mapIdx fun i x => placed PosEnc.onHeads p i (f x) :=
    List.map_congr_left fun a _ => List.ext_getElem (by simp) (by simp)
  rw [← this]
  exact hk

theorem self_lies {ρ : Type} {m : Mha} (junk : Heads) (st : Option Cache) {w : Nat → Nat → Nat → Entry} {W : Nat}
    {xs : Batch Vec} {l : Layout} {R : List ρ} {F : ρ → List Vec} (hR : R ≠ []) (h : Lies W xs l (R.map F))
    (hp : ∀ a ∈ R, PosFits m (F a).length)
    (hb : BlockBias m.bias l l w W ((R.map F).map List.length) ((R.map F).map List.length)) :
    ∃ ys, m.forwardSelf junk none st l xs = some (ys, st) ∧
      Lies W ys l (R.map fun a => attendRow m w (queriesOf m (F a)) (keysOf m (F a)) ((F a).map m.v)) := by
  obtain ⟨q, e1, hq⟩ := proj_lies m.pos m.q hR h (fun e he a ha => hp a ha e he)
  obtain ⟨k, e2, hk⟩ := proj_lies m.pos m.k hR h (fun e he a ha => hp a ha e he)
  have hv : Lies W (m.projectV xs) l (R.map fun a => (F a).map m.v) := lies_map h m.v
  have hlen : ∀ f : Vec → Heads, (R.map fun a => (F a).mapIdx fun i x => placed PosEnc.onHeads m.pos i (f x)).map List.length =
      (R.map F).map List.length := by
    intro f
    rw [List.map_map, List.map_map]
    exact List.map_congr_left fun a _ => by simp
  obtain ⟨ys, e3, hy⟩ := sdpa_lies (m := m) (w := w) (Fq := fun a => queriesOf m (F a)) (Fk := fun a => keysOf m (F a))
    (Fv := fun a => (F a).map m.v) hq hk hv (by simp [keysOf]) (by
      have h1 := hlen m.q
      have h2 := hlen m.k
      unfold queriesOf keysOf
      rw [h1, h2]
      exact hb)
  refine ⟨ys, ?_, hy⟩
  simp only [Mha.forwardSelf, Mha.projectQ, e1, Option.bind_some, Mha.projectK, e2, e3, Option.map_some]

theorem cross_lies {ρ : Type} {m : Mha} (hm : GoodCross m) (st : Option (Static Heads)) {W Wk : Nat} {xs : Batch Vec}
    {l : Layout} {src : Source} {R : List ρ} {F G : ρ → List Vec} (hR : R ≠ []) (h : Lies W xs l (R.map F))
    (hs : Lies Wk src.rows src.layout (R.map G)) :
    ∃ ys, m.forwardCross none st l xs src = some (ys, st) ∧
      Lies W ys l (R.map fun a => (F a).mapIdx fun i _ => crossAt m (G a) (F a) i) := by
  have hq := lies_map h m.q
  have hk := lies_map hs m.k
  have hv := lies_map hs m.v
  obtain ⟨ys, e3, hy⟩ := sdpa_lies (m := m) (w := fun _ _ _ => .fin 0) hq hk hv (by simp)
    (by rw [hm.bias]; exact block_identity hR hq hk)
  refine ⟨ys, ?_, ?_⟩
  · simp only [Mha.forwardCross, Mha.projectQ, Mha.projectK, hm.pos, encode, Option.bind_some, Mha.projectV, e3,
      Option.map_some]
  · have : (R.map fun a => attendRow m (fun _ _ _ => .fin 0) ((F a).map m.q) ((G a).map m.k) ((G a).map m.v)) =
        R.map fun a => (F a).mapIdx fun i _ => crossAt m (G a) (F a) i := by
      refine List.map_congr_left fun a _ => ?_
      apply List.ext_getElem (by simp [attendRow])
      intro i h1 h2
      simp only [attendRow_length, List.length_map] at h1
      simp only [attendRow, List.getElem_mapIdx, List.getElem_map, List.length_map, crossAt]
      congr 1
      funext h c
      rw [at'_eq h1]
      apply attend_congr
      · intro _ _; rfl
      · intro j hj _
        simp only [List.getElem?_map, List.getElem?_eq_getElem hj, Option.map_some, Option.getD_some, at'_eq hj]
        exact ⟨fun _ => trivial, fun _ => trivial⟩
    rw [← this]
    exact hy

theorem around_lies {τ ρ : Type} {op : Batch Vec → Option (Batch Vec × τ)} {st : τ} {f : ρ → List Vec → Nat → Vec} {W : Nat}
    {xs : Batch Vec} {l : Layout} {R : List ρ} {F : ρ → List Vec} (b : Block) (h : Lies W xs l (R.map F))
    (hop : ∃ ys, op (b.enter xs) = some (ys, st) ∧
      Lies W ys l (R.map fun a => (enterRow b (F a)).mapIdx fun i _ => f a (enterRow b (F a)) i)) :
    ∃ ys, ((op (b.enter xs)).map fun x => (b.leave x.1 xs, x.2)) = some (ys, st) ∧
      Lies W ys l (R.map fun a => around b (f a) (F a)) := by
  obtain ⟨ys, e, hy⟩ := hop
  refine ⟨b.leave ys xs, by rw [e]; rfl, ?_⟩
  have e' : (R.map fun a => leaveRow b ((enterRow b (F a)).mapIdx fun i _ => f a (enterRow b (F a)) i) (F a)) =
      R.map fun a => around b (f a) (F a) := List.map_congr_left fun a _ => by rw [around_eq]
  rw [← e']
  exact lies_leave hy h b (by simp [enterRow_length])

theorem ffn_lies {ρ : Type} (f : Vec → Vec) (b : Block) {W : Nat} {xs : Batch Vec} {l : Layout} {R : List ρ} {F : ρ → List Vec}
    (h : Lies W xs l (R.map F)) : Lies W (ffnPart f b xs) l (R.map fun a => around b (fun ys i => f (at' ys i)) (F a)) := by
  obtain ⟨ys, e, hy⟩ := around_lies (τ := Unit) (st := ()) (f := fun _ ys i => f (at' ys i))
    (op := fun z => some (z.map (List.map f), ())) b h (by
      refine ⟨_, rfl, ?_⟩
      have e' : (R.map fun a => (enterRow b (F a)).map f) =
          R.map fun a => (enterRow b (F a)).mapIdx fun i _ => f (at' (enterRow b (F a)) i) :=
        List.map_congr_left fun a _ => List.ext_getElem (by simp) (by
          intro i h1 h2
          simp only [List.getElem_map, List.getElem_mapIdx]
          rw [at'_eq])
      rw [← e']
      exact lies_map (lies_enter h b) f)
  simp only [Option.map_some, Option.some.injEq, Prod.mk.injEq, and_true] at e
  rw [← e] at hy
  exact hy

/-! ## Decoders -/

theorem layer_lies {ρ : Type} (junk : Heads) {L : Layer} {st : LayerState} {src : Option Source} {W Wk : Nat}
    {xs : Batch Vec} {l : Layout} {R : List ρ} {F G : ρ → List Vec} (hR : R ≠ []) (h : Lies W xs l (R.map F))
    (hb : ∃ w, L.selfAttn.bias = .causal w) (hp : ∀ a ∈ R, PosFits L.selfAttn (F a).length)
    (hc : ∀ a b, L.cross = some (a, b) → GoodCross a)
    (hs : L.cross ≠ none → ∃ s, src = some s ∧ Lies Wk s.rows s.layout (R.map G)) :
    ∃ ys, L.forward junk none src l st xs = some (ys, st) ∧
      Lies W ys l (R.map fun a => Dec.Spec.layer L (G a) (F a)) := by
  obtain ⟨w, hw⟩ := hb
  have h' := lies_enter h L.selfBlock
  obtain ⟨ys, e, hy⟩ := around_lies (f := fun _ => selfAt L.selfAttn) (st := st.self)
    (op := fun z => L.selfAttn.forwardSelf junk none st.self l z) L.selfBlock h (by
      obtain ⟨ys, e, hy⟩ := self_lies junk st.self hR h' (by simpa [enterRow_length] using hp)
        (by rw [hw]; exact block_causal hR h')
      refine ⟨ys, e, ?_⟩
      simp only [← hw, lookBack] at hy
      exact hy)
  have e1 : L.forwardSelf junk none st.self l xs = some (ys, st.self) := e
  have hcross : ∃ zs, L.forwardCross none st.cross l src ys = some (zs, st.cross) ∧
      Lies W zs l (R.map fun a => crossPart L (G a) (around L.selfBlock (selfAt L.selfAttn) (F a))) := by
    cases hx : L.cross with
    | none =>
      refine ⟨ys, by simp only [Layer.forwardCross, hx], ?_⟩
      simp only [crossPart, hx]
      exact hy
    | some mb =>
      obtain ⟨m, blk⟩ := mb
      obtain ⟨s, rfl, hS⟩ := hs (by rw [hx]; simp)
      obtain ⟨zs, e, hz⟩ := around_lies (f := fun a => crossAt m (G a)) (st := st.cross)
        (op := fun z => m.forwardCross none st.cross l z s) blk hy
        (cross_lies (hc m blk hx) st.cross hR (lies_enter hy blk) hS)
      refine ⟨zs, ?_, ?_⟩
      · simp only [Layer.forwardCross, hx, Option.bind_some]
        exact e
      · simp only [crossPart, hx]
        exact hz
  obtain ⟨zs, e2, hz⟩ := hcross
  refine ⟨_, ?_, ffn_lies L.ffn L.ffnBlock hz⟩
  simp only [Layer.forward, e1, Option.bind_some, e2, Option.map_some, Layer.forwardFfn]
  rfl

theorem layers_lies {ρ : Type} (junk : Heads) {src : Option Source} {W Wk : Nat} {l : Layout} {R : List ρ} {G : ρ → List Vec}
    (hR : R ≠ []) : ∀ {Ls : List Layer} {sts : List LayerState} {xs : Batch Vec} {F : ρ → List Vec},
      sts.length = Ls.length → Lies W xs l (R.map F) → (∀ L ∈ Ls, ∃ w, L.selfAttn.bias = .causal w) →
      (∀ L ∈ Ls, ∀ a ∈ R, PosFits L.selfAttn (F a).length) →
      (∀ L ∈ Ls, ∀ a b, L.cross = some (a, b) → GoodCross a) →
      ((∃ L ∈ Ls, L.cross ≠ none) → ∃ s, src = some s ∧ Lies Wk s.rows s.layout (R.map G)) →
      ∃ ys sts', forwardLayers junk none src l Ls sts xs = some (ys, sts') ∧
        Lies W ys l (R.map fun a => Ls.foldl (fun xs L => Dec.Spec.layer L (G a) xs) (F a))
  | [], sts, xs, F, _, h, _, _, _, _ => ⟨xs, [], rfl, h⟩
  | L :: Ls, st :: sts, xs, F, hl, h, hb, hp, hc, hs => by
    obtain ⟨ys, e, hy⟩ := layer_lies junk (st := st) (G := G) (src := src) (Wk := Wk) hR h (hb L (by simp)) (hp L (by simp))
      (hc L (by simp)) (fun hx => hs ⟨L, by simp, hx⟩)
    obtain ⟨zs, sts', e', hz⟩ := layers_lies junk (src := src) (G := G) (Wk := Wk) hR (Ls := Ls) (sts := sts) (by simpa using hl)
      hy (fun L' h' => hb L' (by simp [h'])) (fun L' h' a ha => by rw [layer_length]; exact hp L' (by simp [h']) a ha)
      (fun L' h' => hc L' (by simp [h'])) (fun ⟨L', h', hx⟩ => hs ⟨L', by simp [h'], hx⟩)
    refine ⟨zs, st :: sts', ?_, hz⟩
    simp only [forwardLayers, e, Option.bind_some, e', Option.map_some]

/-- What a decoder has to fulfil for packed batches of sequences of up to `n` tokens: as for padded batches, but any window
will do. -/
structure PackModel (m : Model) (n : Nat) : Prop where
  bias : ∀ L ∈ m.layers, ∃ w, L.selfAttn.bias = .causal w
  attnPos : ∀ L ∈ m.layers, ∀ e, L.selfAttn.pos = some e → (n : Int) ≤ e.maxLen
  cross : ∀ L ∈ m.layers, ∀ a b, L.cross = some (a, b) → GoodCross a
  pos : ∀ e, m.pos = some e → (n : Int) ≤ e.maxLen

theorem decode_lies {ρ : Type} {m : Model} {src : Option Source} {W Wk : Nat} {tokens : Batch Nat} {l : Layout} {R : List ρ}
    {F : ρ → List Nat} {G : ρ → List Vec} (hR : R ≠ []) (h : Lies W tokens l (R.map F))
    (hm : ∀ a ∈ R, PackModel m (F a).length)
    (hs : (∃ L ∈ m.layers, L.cross ≠ none) → ∃ s, src = some s ∧ Lies Wk s.rows s.layout (R.map G)) :
    ∃ ys, decodeAll m src tokens l = some ys ∧ Lies W ys l (R.map fun a => Dec.Spec.logits m (G a) (F a)) := by
  obtain ⟨a0, ha0⟩ := List.exists_mem_of_ne_nil R hR
  obtain ⟨xs, e, hx⟩ := encode_lies PosEnc.apply m.pos hR (lies_map h m.embed)
    (by intro e he a ha; simpa using (hm a ha).pos e he)
  have e0 : (R.map fun a => ((F a).map m.embed).mapIdx fun i x => placed PosEnc.apply m.pos i x) =
      R.map fun a => (F a).mapIdx fun i t => placed PosEnc.apply m.pos i (m.embed t) :=
    List.map_congr_left fun a _ => List.ext_getElem (by simp) (by simp)
  rw [e0] at hx
  obtain ⟨ys, sts', e', hy⟩ := layers_lies (fun _ _ => 0) (src := src) (G := G) (Wk := Wk) hR (Ls := m.layers)
    (sts := m.layers.map fun _ => {}) (by simp) hx (hm a0 ha0).bias
    (fun L hL a ha e he => by simpa using (hm a ha).attnPos L hL e he) (hm a0 ha0).cross hs
  refine ⟨_, by simp only [decodeAll, e, Option.bind_some, e', Option.map_some]; rfl, ?_⟩
  exact lies_map hy _

/-! ## Encoders -/

theorem attn_lies {ρ : Type} {m : Mha} (hm : m.bias = .identity) (b : Block) {W : Nat} {xs : Batch Vec} {l : Layout} {R : List ρ}
    {F : ρ → List Vec} (hR : R ≠ []) (h : Lies W xs l (R.map F)) (hp : ∀ a ∈ R, PosFits m (F a).length) :
    ∃ ys, attnPart m b l xs = some ys ∧ Lies W ys l (R.map fun a => around b (lookAt m) (F a)) := by
  have h' := lies_enter h b
  obtain ⟨ys, e, hy⟩ := around_lies (f := fun _ => lookAt m) (st := (none : Option Cache))
    (op := fun z => m.forwardSelf (fun _ _ => 0) none none l z) b h (by
      obtain ⟨ys, e, hy⟩ := self_lies (fun _ _ => 0) none hR h' (by simpa [enterRow_length] using hp)
        (by rw [hm]; exact block_identity hR h' h')
      refine ⟨ys, e, ?_⟩
      simp only [lookAll] at hy
      exact hy)
  refine ⟨ys, ?_, hy⟩
  rw [Option.map_eq_some_iff] at e
  obtain ⟨x, e1, e2⟩ := e
  simp only [Prod.mk.injEq] at e2
  simp only [attnPart, e1, Option.map_some, e2.1]

/-- What an encoder layer has to fulfil for packed batches: no mask, and no convolution. -/
def PackLayer (L : EncLayer) : Prop := L.attn.bias = .identity ∧ ∃ a b c d, L = .transformer a b c d

theorem enc_layers_lies {ρ : Type} {W : Nat} {l : Layout} {R : List ρ} (hR : R ≠ []) : ∀ {Ls : List EncLayer} {xs : Batch Vec}
    {F : ρ → List Vec}, Lies W xs l (R.map F) → (∀ L ∈ Ls, PackLayer L) → (∀ L ∈ Ls, ∀ a ∈ R, PosFits L.attn (F a).length) →
      ∃ ys, forwardAll l Ls xs = some ys ∧ Lies W ys l (R.map fun a => Ls.foldl (fun xs L => Spec.layer L xs) (F a))
  | [], xs, F, h, _, _ => ⟨xs, rfl, h⟩
  | L :: Ls, xs, F, h, hL, hp => by
    obtain ⟨hb, a, b, c, d, rfl⟩ := hL L (by simp)
    obtain ⟨ys, e, hy⟩ := attn_lies (m := a) hb b hR h (hp (.transformer a b c d) (by simp))
    have hz := ffn_lies c d hy
    obtain ⟨zs, e', hz'⟩ := enc_layers_lies hR (Ls := Ls) hz (fun L' h' => hL L' (by simp [h']))
      (fun L' h' r hr => by
        rw [around_length, around_length]
        exact hp L' (by simp [h']) r hr)
    refine ⟨zs, ?_, hz'⟩
    simp only [forwardAll, EncLayer.forward, e, Option.map_some, Option.bind_some, e']

theorem text_lies {ρ : Type} {T : TextEncoder} {W : Nat} {tokens : Batch Nat} {l : Layout} {R : List ρ} {F : ρ → List Nat}
    (hR : R ≠ []) (h : Lies W tokens l (R.map F)) (hT : ∀ L ∈ T.encoder.layers, PackLayer L)
    (hf : ∀ a ∈ R, Fits T.encoder (F a).length) (hp : ∀ a ∈ R, ∀ e, T.pos = some e → ((F a).length : Int) ≤ e.maxLen) :
    ∃ ys, T.forward tokens l = some (ys, l) ∧ Lies W ys l (R.map fun a => Spec.encodeText T (F a)) := by
  obtain ⟨xs, e, hx⟩ := encode_lies PosEnc.apply T.pos hR (lies_map h T.embed)
    (by intro e he a ha; simpa using hp a ha e he)
  have e0 : (R.map fun a => ((F a).map T.embed).mapIdx fun i x => placed PosEnc.apply T.pos i x) =
      R.map fun a => (F a).mapIdx fun i t => placed PosEnc.apply T.pos i (T.embed t) :=
    List.map_congr_left fun a _ => List.ext_getElem (by simp) (by simp)
  rw [e0] at hx
  obtain ⟨ys, e', hy⟩ := enc_layers_lies hR hx hT (fun L hL a ha e he => by simpa using hf a ha L hL e he)
  refine ⟨_, ?_, lies_map hy T.encoder.norm⟩
  simp only [TextEncoder.forward, e, Option.bind_some, Encoder.forward, e', Option.map_some]

/-! ## Rows as lists -/

theorem flatten_get {V : Type} (rest : List V) : ∀ (S : List (List V)) {a : Nat} {s : List V} {i : Nat} {x : V}, S[a]? = some s →
    s[i]? = some x → (S.flatten ++ rest)[startAt S a + i]? = some x
  | [], a, s, i, x, h, _ => by simp at h
  | t :: S, 0, s, i, x, h, h' => by
    simp only [List.getElem?_cons_zero, Option.some.injEq] at h
    subst h
    have : i < t.length := (List.getElem?_eq_some_iff.1 h').1
    rw [startAt, List.take_zero, List.map_nil, List.sum_nil, Nat.zero_add, List.flatten_cons, List.append_assoc,
      List.getElem?_append_left this, h']
  | t :: S, a + 1, s, i, x, h, h' => by
    simp only [List.getElem?_cons_succ] at h
    have := flatten_get rest S h h'
    simp only [startAt] at this ⊢
    rw [List.take_succ_cons, List.map_cons, List.sum_cons, List.flatten_cons, List.append_assoc,
      List.getElem?_append_right (by omega), ← this]
    congr 1
    omega

theorem lies_of {V : Type} {S : List (List V)} (rest : List V) {l : Layout}
    (h : Layout.new [((S.flatten ++ rest).length : Int)] (some (S.map fun s => (s.length : Int))) true = some l) :
    Lies (S.flatten ++ rest).length [S.flatten ++ rest] l S :=
  ⟨⟨_, rfl, rfl, fun _ _ hs _ _ hx => flatten_get rest S hs hx⟩, h⟩

theorem Lies.eq {V : Type} {W : Nat} {rows : List (List V)} {l : Layout} {S : List (List V)} (h : Lies W rows l S) :
    ∃ rest, rows = [S.flatten ++ rest] ∧ S.flatten.length + rest.length = W := by
  have h4 := h.facts.2.2.2.1
  obtain ⟨row, rfl, rfl, h3⟩ := h.row
  have hl : S.flatten.length = (S.map List.length).sum := List.length_flatten
  have key : row.take S.flatten.length = S.flatten := by
    apply List.ext_getElem?
    intro q
    by_cases hq : q < S.flatten.length
    · obtain ⟨c, m, j, e1, e2, e3⟩ := place_in (S.map List.length) q (by omega)
      rw [List.getElem?_map, Option.map_eq_some_iff] at e1
      obtain ⟨s, hs, rfl⟩ := e1
      rw [← startAt_eq] at e3
      obtain ⟨x, hx⟩ : ∃ x, s[j]? = some x := ⟨_, List.getElem?_eq_getElem e2⟩
      have a1 := h3 c s hs j x hx
      have a2 := flatten_get [] S hs hx
      rw [List.append_nil] at a2
      rw [List.getElem?_take_of_lt hq, e3, a1, a2]
    · rw [List.getElem?_eq_none (by simp; omega), List.getElem?_eq_none (by omega)]
  refine ⟨row.drop S.flatten.length, ?_, ?_⟩
  · conv_lhs => rw [← List.take_append_drop S.flatten.length row, key]
  · rw [List.length_drop]
    omega

theorem pieces_layout {V : Type} (S : List (List V)) (rest : List V) (hne : S ≠ []) (h : ∀ s ∈ S, s ≠ []) :
    ∃ l, Layout.new [((S.flatten ++ rest).length : Int)] (some (S.map fun s => (s.length : Int))) true = some l := by
  have h1 : ∀ n ∈ S.map fun s => (s.length : Int), 1 ≤ n := by
    intro n hn
    obtain ⟨s, hs, rfl⟩ := List.mem_map.1 hn
    have := List.length_pos_iff.2 (h s hs)
    omega
  obtain ⟨s, hs⟩ := List.exists_mem_of_ne_nil S hne
  have h2 : 1 ≤ S.flatten.length := by
    obtain ⟨x, hx⟩ := List.exists_mem_of_ne_nil s (h s hs)
    exact List.length_pos_of_mem (List.mem_flatten.2 ⟨s, hs, hx⟩)
  refine (C47_packed _ _).2 _ rfl ?_ h1 ?_
  · rw [List.length_append]; omega
  · rw [lens_ofNat, sum_ofNat', ← List.length_flatten, List.length_append]
    omega

/-! ## Refusals -/

theorem encode_long {β : Type} (f : PosEnc → Int → β → β) {e : PosEnc} {l : Layout} (h : e.maxLen < l.maxSeqLen) (Y : Batch β) :
    encode f (some e) none l Y = none := by
  have : l.maxSeqLen > e.maxLen := h
  simp only [encode, Layout.tableRows]
  simp [this]

theorem self_none {m : Mha} {l : Layout} (h : (∃ e, m.pos = some e ∧ e.maxLen < l.maxSeqLen) ∨ maybeGet m.bias l l = none)
    (xs : Batch Vec) : m.forwardSelf (fun _ _ => 0) none none l xs = none := by
  simp only [Mha.forwardSelf]
  rcases h with ⟨e, he, h⟩ | h
  · rw [Mha.projectQ, he, encode_long _ h]; rfl
  · simp only [Mha.sdpa, h, Option.map_none, ite_self, Option.bind_fun_none]

theorem layers_refuse {Ls : List Layer} {L : Layer} (hL : L ∈ Ls) {l : Layout} {src : Option Source}
    (h : ∀ xs, L.selfAttn.forwardSelf (fun _ _ => 0) none none l xs = none) : ∀ xs : Batch Vec,
    forwardLayers (fun _ _ => 0) none src l Ls (Ls.map fun _ => {}) xs = none := by
  induction Ls with
  | nil => cases hL
  | cons M Ls ih =>
    intro xs
    simp only [List.map_cons, forwardLayers]
    rcases List.mem_cons.1 hL with rfl | hL
    · simp only [Layer.forward, Layer.forwardSelf, h, Option.map_none, Option.bind_none]
    · simp only [ih hL, Option.map_none, Option.bind_fun_none]

theorem alibi_packed_none {H : Nat} (hH : 2 ≤ H) {V : Type} {S : List (List V)} {rest : List V} {l : Layout} (hne : S ≠ [])
    (h : Layout.new [((S.flatten ++ rest).length : Int)] (some (S.map fun s => (s.length : Int))) true = some l)
    (h2 : 2 ≤ S.length ∨ rest ≠ []) : maybeGet (.alibi H) l l = none := by
  obtain ⟨w, e, -, h1, -, d⟩ := (C47_packed _ _).1 l h
  simp only [List.cons.injEq, and_true] at e
  obtain ⟨s, S, rfl⟩ := List.exists_cons_of_ne_nil hne
  have hs : 1 ≤ s.length := by have := h1 (s.length : Int) (by simp); omega
  have hp := d.packed
  have hl := d.seqLens
  have hw := d.width
  rw [← e] at hw
  have hz : l.seqLens.map Int.toNat = s.length :: S.map List.length := by
    rw [hl]; simp [Function.comp_def]
  have hm : materialize (.alibi H) l l = none := by
    simp only [materialize, hp, bne_self_eq_false, Bool.false_eq_true, if_false, ne_eq, not_true_eq_false, if_true, hz, hw]
    rw [if_neg (by rw [hl]; simp), Option.map_eq_none_iff]
    simp only [blockTensor, seqRanges, Nat.zero_add]
    rw [if_neg]
    · simp only [List.cons_append, List.zip_cons_cons, blockLoop, ne_eq, not_true_eq_false, false_and, if_false, BiasKind.create]
      rw [if_pos (by omega), if_neg (by omega)]
      simp [BiasTensor.put]
      omega
    · rintro ⟨e1, e2⟩
      simp only [List.cons.injEq, Prod.mk.injEq, true_and] at e1
      rcases h2 with h2 | h2
      · cases S with
        | nil => simp at h2
        | cons t S => simp [seqRanges] at e1
      · cases S with
        | nil =>
          have := List.length_pos_iff.2 h2
          simp at e1
          omega
        | cons t S => simp [seqRanges] at e1
  simp only [maybeGet, hp, hm]
  simp

end Fs2.Enc
