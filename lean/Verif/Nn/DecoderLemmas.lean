import Verif.Nn.DecoderSpec
import Verif.Props.KvCache
import Verif.Props.Incremental
import Verif.Props.AttentionBias

/-! # Lemmas about decoders -/

namespace Fs2.Dec
open Fs2.Nn Fs2.Props Spec

/-! ## Layouts and positions -/

/-- The step number that matters for positions. -/
def startOf (bag : Option Bag) : Int := (bag.map Bag.stepNr).getD 0

theorem rows_at {N n a : Nat} {M : Int} {bag : Option Bag} (hN : 0 < N) (hn : 1 ≤ n)
    (hb : startOf bag = a) (h : (a : Int) + n ≤ M) {l : Layout}
    (hl : Layout.new [(N : Int), (n : Int)] none false = some l) :
    l.tableRows M false bag = some (List.replicate N (rowsFrom a n)) := by
  cases bag with
  | some b => exact (rows_full hN hn hb h hl).1
  | none =>
    have ha : a = 0 := by simp only [startOf, Option.map_none, Option.getD_none] at hb; omega
    subst ha
    obtain ⟨l', hl', h1, h2, h3, h4, h5⟩ := full_positions (N := N) hn
    rw [hl] at hl'
    cases hl'
    simp only [Layout.tableRows, Bool.not_false, Bool.true_and, Option.isSome_none,
      Bool.false_eq_true, if_false, h4 hN, h1, h2, h3, Bool.or_self]
    have := rowSlice_eq (M := M) (a := 0) (n := n) (by omega)
    rw [if_neg (by omega), h5]
    simp only [List.map_replicate]
    rw [← this]
    rfl

theorem zip_rows {β : Type} (f : Int → β → β) (a : Nat) (ys : List β) :
    List.zipWith f (rowsFrom a ys.length) ys = ys.mapIdx fun i x => f (((a + i : Nat) : Int) + 1) x := by
  apply List.ext_getElem
  · simp [rowsFrom]
  · intro i h1 h2
    simp [rowsFrom]

theorem zip_replicate {β γ δ : Type} (f : β → γ → δ) (x : β) (ys : List γ) :
    List.zipWith f (List.replicate ys.length x) ys = ys.map (f x) := by
  induction ys with
  | nil => rfl
  | cons y ys ih => simp only [List.length_cons, List.replicate_succ, List.zipWith_cons_cons, ih, List.map_cons]

/-- Encoding gives every element its position. -/
theorem encode_ok {β : Type} (f : PosEnc → Int → β → β) {p : Option PosEnc} {bag : Option Bag} {l : Layout}
    {Y : Batch β} {n a : Nat} (hN : 0 < Y.length) (hn : 1 ≤ n) (hY : ∀ ys ∈ Y, ys.length = n)
    (hb : startOf bag = a) (hp : ∀ e, p = some e → (a : Int) + n ≤ e.maxLen)
    (hl : Layout.new [(Y.length : Int), (n : Int)] none false = some l) :
    encode f p bag l Y = some (Y.map fun ys => ys.mapIdx fun i x => placed f p (a + i) x) := by
  cases p with
  | none =>
    simp only [encode, placed, Option.some.injEq]
    symm
    calc Y.map (fun ys => ys.mapIdx fun _ x => x) = Y.map id := by
          apply List.map_congr_left
          intro ys _
          exact List.ext_getElem (by simp) (by simp)
      _ = Y := List.map_id Y
  | some e =>
    simp only [encode, rows_at hN hn hb (hp e rfl) hl, Option.map_some, zip_replicate, Option.some.injEq]
    apply List.map_congr_left
    intro ys hys
    rw [← hY ys hys, zip_rows]
    rfl

theorem drop_mapIdx {β γ : Type} (f : Nat → β → γ) (a : Nat) (xs : List β) :
    (xs.mapIdx f).drop a = (xs.drop a).mapIdx fun i x => f (a + i) x := by
  apply List.ext_getElem
  · simp
  · intro i h1 h2
    simp

theorem take_mapIdx {β γ : Type} (f : Nat → β → γ) (a : Nat) (xs : List β) :
    (xs.mapIdx f).take a = (xs.take a).mapIdx f := by
  apply List.ext_getElem
  · simp
  · intro i h1 h2
    simp

theorem at'_eq {xs : List Vec} {i : Nat} (h : i < xs.length) : at' xs i = xs[i] := by
  simp [at', List.getElem?_eq_getElem h]

theorem at'_take {xs : List Vec} {i a : Nat} (h : i < a) : at' (xs.take a) i = at' xs i := by
  simp [at', h]

/-! ## Keys and values of a sequence -/

theorem placed_heads (p : Option PosEnc) (i : Nat) (x : Heads) (h : Nat) :
    placed PosEnc.onHeads p i x h = placed PosEnc.apply p i (x h) := by cases p <;> rfl

/-- The keys of a sequence. -/
def keysOf (m : Mha) (xs : List Vec) : List Heads := xs.mapIdx fun i x => placed PosEnc.onHeads m.pos i (m.k x)

/-- The queries of a sequence. -/
def queriesOf (m : Mha) (xs : List Vec) : List Heads := xs.mapIdx fun i x => placed PosEnc.onHeads m.pos i (m.q x)

theorem keysOf_length (m : Mha) (xs : List Vec) : (keysOf m xs).length = xs.length := by simp [keysOf]

theorem project_ok (proj : Vec → Heads) {p : Option PosEnc} {bag : Option Bag} {l : Layout} {X : Batch Vec}
    {n a : Nat} (hN : 0 < X.length) (hn : 1 ≤ n) (hX : ∀ xs ∈ X, xs.length = a + n) (hb : startOf bag = a)
    (hp : ∀ e, p = some e → ((a + n : Nat) : Int) ≤ e.maxLen)
    (hl : Layout.new [(X.length : Int), (n : Int)] none false = some l) :
    encode PosEnc.onHeads p bag l ((X.map (List.drop a)).map (List.map proj)) =
      some (X.map fun xs => (xs.mapIdx fun i x => placed PosEnc.onHeads p i (proj x)).drop a) := by
  rw [encode_ok (n := n) (a := a) PosEnc.onHeads (by simpa using hN) hn ?_ hb (fun e he => by have := hp e he; omega)
    (by simpa using hl)]
  · rw [Option.some.injEq, List.map_map, List.map_map]
    apply List.map_congr_left
    intro xs hxs
    simp only [Function.comp, drop_mapIdx]
    apply List.ext_getElem
    · simp
    · intro i h1 h2; simp
  · intro ys hys
    simp only [List.map_map, List.mem_map, Function.comp] at hys
    obtain ⟨xs, hxs, rfl⟩ := hys
    simp [hX xs hxs]

theorem elem_eq {b : Batch Heads} {r j : Nat} {row : List Heads} (h : b[r]? = some row) (hj : j < row.length) :
    elem b r j = row[j] := by simp [elem, h, List.getElem?_eq_getElem hj]

/-! ## Biases -/

/-- The number of positions that a cache has dropped. -/
def dropped (s : StateKind) (total : Nat) : Nat :=
  match s with
  | .full => 0
  | .window w => total - w

theorem dropped_lt {b : BiasKind} {s : StateKind} (hm : Matched b s) {n : Nat} (hn : 1 ≤ n) : dropped s n < n := by
  cases hm <;> simp only [dropped] <;> omega

theorem full_layout {N n : Nat} (hN : 0 < N) (hn : 1 ≤ n) {l : Layout}
    (hl : Layout.new [(N : Int), (n : Int)] none false = some l) :
    l.packed = false ∧ l.padded = false ∧ l.width = n ∧ l.maxSeqLen = n ∧ l.seqLens.length = N := by
  obtain ⟨l', hl', h1, h2, h3, h4, -⟩ := full_positions (N := N) hn
  rw [hl] at hl'
  cases hl'
  refine ⟨h1, h2, h3, h4 hN, ?_⟩
  obtain ⟨-, L, hL, hd, -⟩ := C47_default (N : Int) (n : Int) (by omega) (by omega)
  rw [hl] at hL
  cases hL
  rw [hd.seqLens]
  simp

theorem materialize_full (b : BiasKind) {N n k : Nat} (hN : 0 < N) (hn : 1 ≤ n) (hk : 1 ≤ k) {Q K : Layout}
    (hQ : Layout.new [(N : Int), (n : Int)] none false = some Q)
    (hK : Layout.new [(N : Int), (k : Int)] none false = some K) :
    materialize b Q K = (b.create n k).map .one := by
  obtain ⟨q1, q2, q3, q4, q5⟩ := full_layout hN hn hQ
  obtain ⟨k1, k2, k3, k4, k5⟩ := full_layout hN hk hK
  simp only [materialize, q1, q2, q3, q5, k1, k2, k3, k5]
  simp [show N ≠ 0 by omega]

/-- What the bias hides and adds in a step: `n` new positions after `a` old ones, with `o` of them dropped. -/
theorem bias_facts {m : Mha} (hm : Matched m.bias m.state) {N n a o kl : Nat} (hN : 0 < N) (hn : 1 ≤ n)
    (hkl : o + kl = a + n)
    (ho : (o = 0 ∧ (m.state = .full ∨ a = 0)) ∨ (o = dropped m.state (a + n) ∧ n = 1))
    {Q K : Layout} (hQ : Layout.new [(N : Int), (n : Int)] none false = some Q)
    (hK : Layout.new [(N : Int), (kl : Int)] none false = some K) :
    ∃ bias, maybeGet m.bias Q K = some bias ∧
      ∀ r h i j, i < n → j < kl → biasEntry bias r h i j =
        if o + j ≤ a + i then weight m.bias h (a + i) (o + j) else .negInf := by
  have hdrop : o < a + n := by
    rcases ho with ⟨h, -⟩ | ⟨h, h1⟩
    · omega
    · rw [h]
      exact dropped_lt hm (by omega)
  have hk : 1 ≤ kl := by omega
  obtain ⟨q1, q2, q3, q4, q5⟩ := full_layout hN hn hQ
  have hmat := materialize_full m.bias hN hn hk hQ hK
  generalize hs : m.state = s at *
  generalize hb : m.bias = b at *
  have hid : ¬ (b = .identity ∧ (!Q.packed && !Q.padded) = true ∧ (!K.packed && !K.padded) = true) := by
    rintro ⟨h, -⟩; subst h; cases hm
  cases hm with
  | causal =>
    have ho0 : o = 0 := by
      rcases ho with ⟨h, -⟩ | ⟨h, -⟩
      · exact h
      · exact h
    subst ho0
    by_cases h1 : n = 1
    · refine ⟨none, ?_, ?_⟩
      · simp only [maybeGet]
        rw [if_neg hid]
        simp [q1, q4, h1]
      · intro r h i j hi hj
        rw [if_pos (by omega)]
        rfl
    · refine ⟨some (.one (causalTensor n kl n)), ?_, ?_⟩
      · simp only [maybeGet]
        rw [if_neg hid]
        simp [q1, q4, show (n : Int) ≠ 1 by omega, hmat, BiasKind.create]
      · intro r h i j hi hj
        simp only [biasEntry, Materialized.entry, causalTensor, weight]
        by_cases hc : 0 + j ≤ a + i
        · rw [if_pos hc, if_pos (by omega)]
        · rw [if_neg hc, if_neg (by omega)]
  | alibi H hH =>
    have ho0 : o = 0 := by
      rcases ho with ⟨h, -⟩ | ⟨h, -⟩
      · exact h
      · exact h
    subst ho0
    obtain ⟨t, ht, -, -, -, hent⟩ := C52_alibi_unpadded H n kl hH (by omega)
    refine ⟨some (.one t), ?_, ?_⟩
    · simp only [maybeGet]
      rw [if_neg hid]
      simp [hmat, ht]
    · intro r h i j hi hj
      obtain ⟨e1, e2⟩ := hent h i j hi hj
      simp only [biasEntry, Materialized.entry, weight]
      have hsee : MaySee (.alibi H) n kl i j ↔ 0 + j ≤ a + i := by simp only [MaySee]; omega
      by_cases hc : 0 + j ≤ a + i
      · rw [if_pos hc, e2 (hsee.2 hc), Nat.zero_add]
      · rw [if_neg hc]
        have := mt e1.1 (mt hsee.1 hc)
        exact not_not.mp this
  | window w hw =>
    by_cases h1 : n = 1
    · refine ⟨none, ?_, ?_⟩
      · simp only [maybeGet]
        rw [if_neg hid]
        simp [q1, q4, h1]
      · intro r h i j hi hj
        rw [if_pos (by omega)]
        simp only [biasEntry, weight]
        rw [if_neg ?_]
        rcases ho with ⟨h, h'⟩ | ⟨h, -⟩
        · rcases h' with h' | h'
          · cases h'
          · omega
        · simp only [dropped] at h
          omega
    · have ha : a = 0 ∧ o = 0 := by
        rcases ho with ⟨h, h'⟩ | ⟨-, h⟩
        · rcases h' with h' | h'
          · cases h'
          · exact ⟨h', h⟩
        · exact absurd h h1
      obtain ⟨rfl, rfl⟩ := ha
      have : kl = n := by omega
      subst this
      refine ⟨some (.one (causalTensor kl kl w)), ?_, ?_⟩
      · simp only [maybeGet]
        rw [if_neg hid]
        simp [q1, q4, show (kl : Int) ≠ 1 by omega, hmat, BiasKind.create]
      · intro r h i j hi hj
        simp only [biasEntry, Materialized.entry, causalTensor, weight]
        by_cases hc : 0 + j ≤ 0 + i
        · rw [if_pos hc]
          by_cases hw' : ((0 + j : Nat) : Int) + w ≤ ((0 + i : Nat) : Int)
          · rw [if_pos hw', if_neg (by omega)]
          · rw [if_neg hw', if_pos (by omega)]
        · rw [if_neg hc, if_neg (by omega)]

/-! ## Attention -/

/-- Self attention of a whole sequence. -/
noncomputable def selfOf (m : Mha) (xs : List Vec) : List Vec := xs.mapIdx fun i _ => selfAt m xs i

theorem sdpa_self {m : Mha} (hm : Matched m.bias m.state) {X : Batch Vec} {n a o kl : Nat} (hN : 0 < X.length)
    (hn : 1 ≤ n) (hX : ∀ xs ∈ X, xs.length = a + n) (hkl : o + kl = a + n)
    (ho : (o = 0 ∧ (m.state = .full ∨ a = 0)) ∨ (o = dropped m.state (a + n) ∧ n = 1))
    {Q K : Layout} (hQ : Layout.new [(X.length : Int), (n : Int)] none false = some Q)
    (hK : Layout.new [(X.length : Int), (kl : Int)] none false = some K) :
    m.sdpa Q K (X.map fun xs => (queriesOf m xs).drop a) (X.map fun xs => (keysOf m xs).drop o)
      (X.map fun xs => (xs.map m.v).drop o) = some (X.map fun xs => (selfOf m xs).drop a) := by
  obtain ⟨bias, hbias, hent⟩ := bias_facts hm hN hn hkl ho hQ hK
  have hdrop : n = 1 → o ≤ a := by
    intro h1
    rcases ho with ⟨h, -⟩ | ⟨h, h1⟩
    · omega
    · have := dropped_lt hm (n := a + n) (by omega)
      omega
  have hoa : ∀ i, o ≤ a + i := by
    intro i
    rcases ho with ⟨h, -⟩ | ⟨h, h1⟩
    · omega
    · have := hdrop h1; omega
  have hk : 1 ≤ kl := by have := hoa (n - 1); omega
  have k3 : K.width.toNat = kl := by
    obtain ⟨-, -, k3, -⟩ := full_layout hN hk hK
    rw [k3]; rfl
  simp only [Mha.sdpa, List.length_map, ne_eq, not_true_eq_false, if_false, hbias, Option.map_some,
    Option.some.injEq, k3]
  apply List.ext_getElem
  · simp
  intro r h1 h2
  have hr : r < X.length := by simpa using h2
  have hxl := hX _ (List.getElem_mem hr)
  simp only [List.getElem_mapIdx, List.getElem_map]
  apply List.ext_getElem
  · simp [queriesOf, selfOf]
  intro i h3 h4
  have hi : i < n := by
    simp only [selfOf, List.length_drop, List.length_mapIdx, hxl] at h4; omega
  simp only [List.getElem_mapIdx, List.getElem_drop, selfOf, queriesOf, selfAt, placed_heads]
  congr 1
  funext h c
  rw [at'_eq (by omega : a + i < X[r].length)]
  rw [attend_stretch m.scale m.headDim kl _ _ _ _ c 0 (a + i + 1 - o) (by omega) ?_]
  rw [attend_stretch m.scale m.headDim (a + i + 1) _ _ _ _ c o (a + i + 1 - o) (by have := hoa i; omega) ?_]
  · apply attend_congr
    · intro j hj
      rw [hent r h i (0 + j) hi (by omega), if_pos (by omega), Nat.zero_add]
    · intro j hj _
      have e1 : elem (X.map fun xs => (keysOf m xs).drop o) r (0 + j) =
          placed PosEnc.onHeads m.pos (o + j) (m.k (at' X[r] (o + j))) := by
        rw [elem_eq (row := (keysOf m X[r]).drop o) (by simp [List.getElem?_eq_getElem hr])
          (by simp only [List.length_drop, keysOf_length]; omega)]
        simp only [List.getElem_drop, keysOf, List.getElem_mapIdx, Nat.zero_add]
        rw [at'_eq]
      have e2 : elem (X.map fun xs => (xs.map m.v).drop o) r (0 + j) = m.v (at' X[r] (o + j)) := by
        rw [elem_eq (row := (X[r].map m.v).drop o) (by simp [List.getElem?_eq_getElem hr])
          (by simp only [List.length_drop, List.length_map]; omega)]
        simp only [List.getElem_drop, List.getElem_map, Nat.zero_add]
        rw [at'_eq]
      exact ⟨fun e => by rw [e1, placed_heads], fun e => by rw [e2]⟩
  · intro j hj hjo
    have hjo : j < o := by omega
    rcases ho with ⟨h, -⟩ | ⟨h, h1⟩
    · omega
    · have hi0 : i = 0 := by omega
      cases hm' : m.state with
      | full => rw [hm'] at h; simp only [dropped] at h; omega
      | window w =>
        rw [hm'] at h hm
        generalize m.bias = b at hm
        cases hm
        simp only [dropped] at h
        simp only [weight]
        rw [if_pos (by omega)]
  · intro j hj hjo
    rw [hent r h i j hi hj, if_neg (by omega)]

/-! ## Caches -/

/-- The keys and values of the sequences of a batch. -/
def historyOf (m : Mha) (X : Batch Vec) : KvHistory Heads :=
  ⟨[m.kvHeads, m.headDim], X.map (keysOf m), X.map (List.map m.v)⟩

/-- A cache of the right kind holds the keys and values of the sequences of a batch, of length `a`. -/
def Holds (m : Mha) (b : Bag) (c : Cache) (X : Batch Vec) (a : Nat) : Prop :=
  match m.state, c with
  | .full, .full s =>
    s.seqLen = a ∧ FInv s b.maxNumSteps.toNat (b.capacityIncrement.map Int.toNat) (historyOf m X)
  | .window w, .window s =>
    s.seqLen = a ∧ LInv s (min b.maxNumSteps.toNat w) (b.capacityIncrement.map Int.toNat) (historyOf m X)
  | _, _ => False

/-- A bag as its constructor makes it. -/
structure GoodBag (b : Bag) : Prop where
  inc : ∀ c, b.capacityIncrement = some c → 1 ≤ c
  max : 0 < b.maxNumSteps

theorem GoodBag.ne {b : Bag} (h : GoodBag b) : b.capacityIncrement.map Int.toNat ≠ some 0 := by
  intro h0
  cases hc : b.capacityIncrement with
  | none => rw [hc] at h0; cases h0
  | some c =>
    have := h.inc c hc
    rw [hc] at h0
    simp only [Option.map_some, Option.some.injEq] at h0
    omega

theorem alike_of {m : Mha} {k v : Batch Heads} {n : Nat} (hk : ∀ r ∈ k, r.length = n) (hv : ∀ r ∈ v, r.length = n)
    (h : v.length = k.length) : Alike (m.ten n k) (m.ten n v) := ⟨hk, hv, rfl, rfl, h⟩

theorem map_len {β γ : Type} {X : List β} {f : β → List γ} {n : Nat} (h : ∀ x ∈ X, (f x).length = n) :
    ∀ r ∈ X.map f, r.length = n := by
  intro r hr
  rw [List.mem_map] at hr
  obtain ⟨x, hx, rfl⟩ := hr
  exact h x hx

theorem cache_new (junk : Heads) {m : Mha} (hm : Matched m.bias m.state) {b : Bag} (hb : GoodBag b) {X : Batch Vec}
    {n : Nat} (hX : ∀ xs ∈ X, xs.length = n) (hn : (n : Int) ≤ b.maxNumSteps) :
    ∃ c, Cache.new junk m.state (m.ten n (X.map (keysOf m))) (m.ten n (X.map (List.map m.v))) b = some c ∧
      Holds m b c X n := by
  have hal : Alike (m.ten n (X.map (keysOf m))) (m.ten n (X.map (List.map m.v))) :=
    alike_of (map_len fun x hx => by rw [keysOf_length, hX x hx]) (map_len fun x hx => by rw [List.length_map, hX x hx])
      (by simp)
  unfold Holds
  generalize hs : m.state = s at hm
  cases s with
  | full =>
    obtain ⟨s, e, hl, hi⟩ := full_new junk (maxLen := b.maxNumSteps.toNat) hb.ne hal
      (fun _ => by show n ≤ _; omega)
    exact ⟨.full s, by simp only [Cache.new, e, Option.map_some], hl, hi⟩
  | window w =>
    have hw : 0 < w := by generalize m.bias = bb at hm; cases hm; assumption
    have := hb.max
    obtain ⟨s, e, hl, hi⟩ := local_new junk (maxLen := b.maxNumSteps.toNat) (window := w) hb.ne
      (w := min b.maxNumSteps.toNat w) (by omega) hal rfl
    exact ⟨.window s, by simp only [Cache.new, e, Option.map_some], hl, hi⟩

theorem zip_take_drop {β γ : Type} (f : β → List γ) (a : Nat) (X : List β) :
    List.zipWith (· ++ ·) (X.map fun x => (f x).take a) (X.map fun x => (f x).drop a) = X.map f := by
  rw [List.zipWith_map_left, List.zipWith_map_right]
  apply List.ext_getElem
  · simp
  · intro i h1 h2; simp

theorem keysOf_take (m : Mha) (a : Nat) (xs : List Vec) : keysOf m (xs.take a) = (keysOf m xs).take a := by
  simp only [keysOf, take_mapIdx]

theorem cache_append (junk : Heads) {m : Mha} (hm : Matched m.bias m.state) {b : Bag} (hb : GoodBag b) {c : Cache}
    {X : Batch Vec} {a n : Nat} (hX : ∀ xs ∈ X, xs.length = a + n) (hn : ((a + n : Nat) : Int) ≤ b.maxNumSteps)
    (h1 : m.state ≠ .full → n = 1) (hc : Holds m b c (X.map (List.take a)) a) :
    ∃ c', c.append junk (m.ten n (X.map fun xs => (keysOf m xs).drop a))
        (m.ten n (X.map fun xs => (xs.map m.v).drop a)) = some c' ∧ Holds m b c' X (a + n) := by
  have hfit : (historyOf m (X.map (List.take a))).Fits (.append (m.ten n (X.map fun xs => (keysOf m xs).drop a))
      (m.ten n (X.map fun xs => (xs.map m.v).drop a))) := by
    refine ⟨alike_of (map_len fun x hx => ?_) (map_len fun x hx => ?_) (by simp), rfl, ?_⟩
    · rw [List.length_drop, keysOf_length, hX x hx]; omega
    · rw [List.length_drop, List.length_map, hX x hx]; omega
    · simp [historyOf, Mha.ten]
  have hafter : (historyOf m (X.map (List.take a))).after (.append (m.ten n (X.map fun xs => (keysOf m xs).drop a))
      (m.ten n (X.map fun xs => (xs.map m.v).drop a))) = historyOf m X := by
    simp only [KvHistory.after, historyOf, Mha.ten, List.map_map]
    congr 1
    · rw [← zip_take_drop (keysOf m) a X]
      congr 1
      exact List.map_congr_left fun x _ => keysOf_take m a x
    · rw [← zip_take_drop (List.map m.v) a X]
      congr 1
      exact List.map_congr_left fun x _ => by simp
  unfold Holds at hc ⊢
  generalize hs : m.state = s at hm hc h1
  cases s with
  | full =>
    cases c with
    | full s =>
      obtain ⟨hl, hi⟩ := hc
      obtain ⟨s', e, hl', hi'⟩ := full_append junk hi hb.ne hfit (fun _ => by
        show s.seqLen + n ≤ _; omega)
      rw [hafter] at hi'
      exact ⟨.full s', by simp only [Cache.append, e, Option.map_some], by rw [hl', hl]; rfl, hi'⟩
    | window s => exact hc.elim
  | window w =>
    have hw : 0 < w := by generalize m.bias = bb at hm; cases hm; assumption
    have := hb.max
    have h1 := h1 (by simp)
    subst h1
    cases c with
    | full s => exact hc.elim
    | window s =>
      obtain ⟨hl, hi⟩ := hc
      obtain ⟨s', e, hl', hi'⟩ := local_append junk hi hb.ne (by omega) hfit (by
        show s.seqLen + 1 ≤ _ ∨ _ ∨ _ ≤ 1; omega)
      rw [hafter] at hi'
      exact ⟨.window s', by simp only [Cache.append, e, Option.map_some], by rw [hl', hl]; rfl, hi'⟩

theorem cache_get {m : Mha} {b : Bag} {c : Cache} {X : Batch Vec} {a : Nat} (hX : ∀ xs ∈ X, xs.length = a)
    (hn : (a : Int) ≤ b.maxNumSteps) (hc : Holds m b c X a) :
    c.get.1.rows = (X.map fun xs => (keysOf m xs).drop (dropped m.state a)) ∧
    c.get.2.rows = (X.map fun xs => (xs.map m.v).drop (dropped m.state a)) ∧
    c.get.1.len = a - dropped m.state a := by
  unfold Holds at hc
  generalize hs : m.state = s at hc
  cases s with
  | full =>
    cases c with
    | full s =>
      obtain ⟨hl, hi⟩ := hc
      obtain ⟨cap, bk, bv, -⟩ := hi.buf
      have hmin : min s.seqLen cap = s.seqLen := by have := bk.le; omega
      obtain ⟨g1, g2, -⟩ := bk.get hmin
      obtain ⟨g3, -, -⟩ := bv.get hmin
      refine ⟨?_, ?_, ?_⟩
      · rw [show (Cache.full s).get.1.rows = _ from g1]; simp [historyOf, dropped]
      · rw [show (Cache.full s).get.2.rows = _ from g3]; simp [historyOf, dropped]
      · rw [show (Cache.full s).get.1.len = _ from g2, hl]; simp [dropped]
    | window s => exact hc.elim
  | window w =>
    cases c with
    | full s => exact hc.elim
    | window s =>
      obtain ⟨hl, hi⟩ := hc
      obtain ⟨cap, hcw, hlc, -, bk, bv⟩ := hi.buf
      obtain ⟨g1, g2, -⟩ := bk.get (n := s.seqLen) rfl
      obtain ⟨g3, -, -⟩ := bv.get (n := s.seqLen) rfl
      have hcut : a - min s.seqLen cap = a - w := by omega
      refine ⟨?_, ?_, ?_⟩
      · rw [show (Cache.window s).get.1.rows = _ from g1]
        simp only [historyOf, List.map_map, dropped]
        apply List.map_congr_left
        intro xs hxs
        simp only [Function.comp, lastN, keysOf_length, hX xs hxs, hcut]
      · rw [show (Cache.window s).get.2.rows = _ from g3]
        simp only [historyOf, List.map_map, dropped]
        apply List.map_congr_left
        intro xs hxs
        simp only [Function.comp, lastN, List.length_map, hX xs hxs, hcut]
      · rw [show (Cache.window s).get.1.len = _ from g2]
        simp only [dropped]
        omega

/-- The rows of a batch in a new order. -/
def reordered {β : Type} (X : Batch β) (order : List Nat) : Batch β := order.map fun i => (X[i]?).getD []

theorem getD_map_nil {β γ : Type} {f : List β → List γ} (hf : f [] = []) (X : Batch β) (i : Nat) :
    ((X.map f)[i]?).getD [] = f ((X[i]?).getD []) := by
  rw [List.getElem?_map]
  cases X[i]? with
  | none => simp [hf]
  | some x => rfl

theorem history_reorder (m : Mha) (X : Batch Vec) (order : List Nat) :
    (historyOf m X).after (.reorder order) = historyOf m (reordered X order) := by
  simp only [KvHistory.after, historyOf, reordered, List.map_map]
  congr 1
  · exact List.map_congr_left fun i _ => getD_map_nil rfl X i
  · exact List.map_congr_left fun i _ => getD_map_nil rfl X i

theorem cache_reorder {m : Mha} {b : Bag} {c : Cache} {X : Batch Vec} {a : Nat} {order : List Nat}
    (ho : ∀ i ∈ order, i < X.length) (hc : Holds m b c X a) :
    ∃ c', c.reorder order = some c' ∧ Holds m b c' (reordered X order) a := by
  have hfit : (historyOf m X).Fits (.reorder order) := by
    intro i hi; simp only [historyOf, List.length_map]; exact ho i hi
  unfold Holds at hc ⊢
  generalize hs : m.state = s at hc
  cases s with
  | full =>
    cases c with
    | full s =>
      obtain ⟨hl, hi⟩ := hc
      obtain ⟨s', e, hl', hi'⟩ := full_reorder hi hfit
      rw [history_reorder] at hi'
      exact ⟨.full s', by simp only [Cache.reorder, e, Option.map_some], by rw [hl', hl], hi'⟩
    | window s => exact hc.elim
  | window w =>
    cases c with
    | full s => exact hc.elim
    | window s =>
      obtain ⟨hl, hi⟩ := hc
      obtain ⟨s', e, hl', hi'⟩ := local_reorder hi hfit
      rw [history_reorder] at hi'
      exact ⟨.window s', by simp only [Cache.reorder, e, Option.map_some], by rw [hl', hl], hi'⟩

/-! ## Self attention -/

/-- What is known of the state of self attention after `a` positions. -/
def SelfInv (m : Mha) (b : Bag) (st : Option Cache) (X : Batch Vec) (a : Nat) : Prop :=
  match st with
  | none => a = 0
  | some c => 0 < a ∧ Holds m b c X a

theorem self_step (junk : Heads) {m : Mha} {b : Bag} (hb : GoodBag b) {st : Option Cache} {X : Batch Vec} {a n : Nat}
    (hm : GoodSelf m (a + n)) (hN : 0 < X.length) (hn : 1 ≤ n) (hX : ∀ xs ∈ X, xs.length = a + n)
    (hs : b.stepNr = a) (hmax : ((a + n : Nat) : Int) ≤ b.maxNumSteps) (h1 : m.state ≠ .full → a = 0 ∨ n = 1)
    {l : Layout} (hl : Layout.new [(X.length : Int), (n : Int)] none false = some l)
    (hst : SelfInv m b st (X.map (List.take a)) a) :
    ∃ st', m.forwardSelf junk (some b) st l (X.map (List.drop a)) =
        some (X.map fun xs => (selfOf m xs).drop a, st') ∧ SelfInv m b st' X (a + n) := by
  obtain ⟨l1, l2, l3, l4, l5⟩ := full_layout hN hn hl
  have hq : m.projectQ (some b) l (X.map (List.drop a)) = some (X.map fun xs => (queriesOf m xs).drop a) :=
    project_ok m.q hN hn hX hs hm.pos hl
  have hk : m.projectK (some b) l (X.map (List.drop a)) = some (X.map fun xs => (keysOf m xs).drop a) :=
    project_ok m.k hN hn hX hs hm.pos hl
  have hv : m.projectV (X.map (List.drop a)) = X.map fun xs => (xs.map m.v).drop a := by
    simp only [Mha.projectV, List.map_map]
    exact List.map_congr_left fun xs _ => by simp
  have hw : l.width.toNat = n := by rw [l3]; rfl
  simp only [Mha.forwardSelf, hq, hk, hv, Option.bind_some, l1, l2, Bool.or_self, Bool.false_eq_true, if_false]
  cases st with
  | none =>
    have ha : a = 0 := hst
    subst ha
    simp only [Nat.zero_add] at hX hmax hm
    obtain ⟨c, e, hc⟩ := cache_new junk hm.matched hb hX hmax
    have hd := sdpa_self (m := m) hm.matched (a := 0) (o := 0) (kl := n) hN hn (by simpa using hX) rfl
      (Or.inl ⟨rfl, Or.inr rfl⟩) hl hl
    refine ⟨some c, ?_, by simp only [Nat.zero_add]; exact ⟨by omega, hc⟩⟩
    simp only [Mha.firstStep, hw]
    simp only [List.drop_zero] at hd ⊢
    rw [e]
    simp only [Option.bind_some, hd, Option.map_some]
  | some c =>
    obtain ⟨ha, hc⟩ := hst
    have h1' : m.state ≠ .full → n = 1 := fun h => by have := h1 h; omega
    obtain ⟨c', e, hc'⟩ := cache_append junk hm.matched hb hX hmax h1' hc
    obtain ⟨g1, g2, g3⟩ := cache_get hX hmax hc'
    have hlt := dropped_lt hm.matched (n := a + n) (by omega)
    have hdr : m.state = .full ∨ n = 1 := by
      cases hms : m.state with
      | full => exact Or.inl rfl
      | window w => exact Or.inr (h1' (by rw [hms]; simp))
    obtain ⟨K, hK, -⟩ := full_positions (N := X.length) (n := a + n - dropped m.state (a + n)) (by omega)
    have hd := sdpa_self (m := m) hm.matched (a := a) (o := dropped m.state (a + n))
      (kl := a + n - dropped m.state (a + n)) hN hn hX (by omega)
      (by
        rcases hdr with h | h
        · exact Or.inl ⟨by rw [h]; rfl, Or.inl h⟩
        · exact Or.inr ⟨rfl, h⟩) hl hK
    refine ⟨some c', ?_, by exact ⟨by omega, hc'⟩⟩
    simp only [Mha.laterStep, hw, e, Option.bind_some, g1, g2, g3, List.length_map, hK, hd, Option.map_some]

theorem map_drop_zero {β : Type} (X : Batch β) : X.map (List.drop 0) = X := by
  conv => rhs; rw [← List.map_id X]
  exact List.map_congr_left fun _ _ => List.drop_zero

theorem self_full (junk : Heads) {m : Mha} {st : Option Cache} {X : Batch Vec} {n : Nat} (hm : GoodSelf m n)
    (hN : 0 < X.length) (hn : 1 ≤ n) (hX : ∀ xs ∈ X, xs.length = n)
    {l : Layout} (hl : Layout.new [(X.length : Int), (n : Int)] none false = some l) :
    m.forwardSelf junk none st l X = some (X.map (selfOf m), st) := by
  have hq : m.projectQ none l X = some (X.map (queriesOf m)) := by
    have := project_ok m.q (a := 0) (p := m.pos) (bag := none) hN hn (by simpa using hX) rfl (by simpa using hm.pos) hl
    rw [map_drop_zero] at this
    exact this
  have hk : m.projectK none l X = some (X.map (keysOf m)) := by
    have := project_ok m.k (a := 0) (p := m.pos) (bag := none) hN hn (by simpa using hX) rfl (by simpa using hm.pos) hl
    rw [map_drop_zero] at this
    exact this
  have hd := sdpa_self (m := m) hm.matched (a := 0) (o := 0) (kl := n) hN hn (by simpa using hX) rfl
    (Or.inl ⟨rfl, Or.inr rfl⟩) hl hl
  simp only [List.drop_zero] at hd
  simp only [Mha.forwardSelf, hq, hk, Option.bind_some, Mha.projectV, hd, Option.map_some]

theorem self_reorder {m : Mha} {b : Bag} {st : Option Cache} {X : Batch Vec} {a : Nat} {order : List Nat}
    (ho : ∀ i ∈ order, i < X.length) (hst : SelfInv m b st X a) :
    ∃ st', (st.mapM fun (c : Cache) => c.reorder order) = some st' ∧ SelfInv m b st' (reordered X order) a := by
  cases st with
  | none => exact ⟨none, rfl, hst⟩
  | some c =>
    obtain ⟨ha, hc⟩ := hst
    obtain ⟨c', e, hc'⟩ := cache_reorder ho hc
    exact ⟨some c', by simp [Option.mapM, e], ha, hc'⟩

/-! ## Attention to a source -/

/-- Attention of a whole sequence to a source. -/
noncomputable def crossOf (m : Mha) (src xs : List Vec) : List Vec := xs.mapIdx fun i _ => crossAt m src xs i

theorem cross_bias {N n W : Nat} {S : Batch Vec} (hN : 0 < S.length) (hn : 1 ≤ n) (hS : S.length = N) {Q K : Layout}
    (hQ : Layout.new [(N : Int), (n : Int)] none false = some Q)
    (hK : Layout.new [(S.length : Int), (W : Int)] (some (S.map fun s => (s.length : Int))) false = some K) :
    K.width.toNat = W ∧ ∃ bias, maybeGet .identity Q K = some bias ∧
      ∀ (r : Nat) s h i, S[r]? = some s → i < n → s.length ≤ W ∧
        (∀ j < s.length, biasEntry bias r h i j = .fin 0) ∧
        ∀ j, s.length ≤ j → j < W → biasEntry bias r h i j = .negInf := by
  subst hS
  obtain ⟨q1, q2, q3, q4, q5⟩ := full_layout hN hn hQ
  have hK' : Layout.new [((S.map List.length).length : Int), (W : Int)]
      (some ((S.map List.length).map Int.ofNat)) false = some K := by
    rw [← hK]; simp [List.map_map, Function.comp_def]
  have hQ' : Layout.new [((List.replicate S.length n).length : Int), (n : Int)]
      (some ((List.replicate S.length n).map Int.ofNat)) false = some Q := by
    rw [← hQ]
    simp only [List.length_replicate, List.map_replicate]
    simp only [Layout.new, newPadded, Option.getD_some, Option.getD_none, Int.toNat_natCast]
    rfl
  obtain ⟨w1, w2, w3, w4, w5⟩ := padded_facts hK'
  refine ⟨w1, ?_⟩
  have hle : ∀ (r : Nat) s, S[r]? = some s → s.length ≤ W := by
    intro r s hs
    exact (w4 s.length (List.mem_map.2 ⟨s, List.mem_of_getElem? hs, rfl⟩)).2
  by_cases hp : K.padded = true
  · obtain ⟨M, hM, hent⟩ := C52_padded .identity (by intro H h; cases h) n W (List.replicate S.length n)
      (S.map List.length) Q K hQ' hK' (by simp) (by
        intro h; have := congrArg List.length h; simp only [List.length_replicate, List.length_nil] at this; omega)
      (fun p _ => ⟨_, rfl⟩)
    refine ⟨some M, ?_, ?_⟩
    · simp only [maybeGet, hM, hp]
      simp
    · intro r s h i hs hi
      have hr : r < S.length := (List.getElem?_eq_some_iff.1 hs).1
      have hlq : (List.replicate S.length n)[r]? = some n := by simp [hr]
      have hlk : (S.map List.length)[r]? = some s.length := by simp [hs]
      obtain ⟨e1, e2⟩ := hent h r n s.length hlq hlk
      refine ⟨hle r s hs, ?_, ?_⟩
      · intro j hj
        obtain ⟨t, ht, e⟩ := e1 i j hi hj
        cases ht
        exact e
      · intro j hj hjW
        exact not_not.mp (e2 i j hi hjW (Or.inr ⟨hi, hj⟩))
  · refine ⟨none, ?_, ?_⟩
    · simp only [maybeGet, q1, q2, w2]
      simp [Bool.not_eq_true _ ▸ hp]
    · intro r s h i hs hi
      refine ⟨hle r s hs, fun _ _ => rfl, ?_⟩
      intro j hj hjW
      have hlt : s.length < W := by omega
      exact absurd (w5.2 ⟨s.length, List.mem_map.2 ⟨s, List.mem_of_getElem? hs, rfl⟩, hlt⟩) hp

theorem begins_map {β γ : Type} {rows S : Batch β} (f : β → γ) (h : Begins rows S) :
    Begins (rows.map (List.map f)) (S.map (List.map f)) := by
  refine ⟨by simp [h.1], ?_⟩
  intro r s hs
  rw [List.getElem?_map, Option.map_eq_some_iff] at hs
  obtain ⟨s', hs', rfl⟩ := hs
  obtain ⟨row, hr, ht⟩ := h.2 r s' hs'
  refine ⟨row.map f, by simp [hr], ?_⟩
  rw [List.length_map, ← List.map_take, ht]

theorem elem_begins {rows S : Batch Heads} (h : Begins rows S) {r j : Nat} {s : List Heads} (hs : S[r]? = some s)
    (hj : j < s.length) : elem rows r j = s[j] := by
  obtain ⟨row, hr, ht⟩ := h.2 r s hs
  have hl : j < row.length := by
    have := congrArg List.length ht
    rw [List.length_take] at this
    omega
  rw [elem_eq hr hl]
  have : (row.take s.length)[j]'(by rw [ht]; exact hj) = s[j] := by simp only [ht]
  rw [← this, List.getElem_take]

theorem sdpa_cross {m : Mha} (hm : GoodCross m) {X S : Batch Vec} {n a W : Nat} (hN : 0 < X.length) (hn : 1 ≤ n)
    (hX : ∀ xs ∈ X, xs.length = a + n) (hS : S.length = X.length) {Q K : Layout} {k v : Batch Heads}
    (hQ : Layout.new [(X.length : Int), (n : Int)] none false = some Q)
    (hK : Layout.new [(S.length : Int), (W : Int)] (some (S.map fun s => (s.length : Int))) false = some K)
    (hk : Begins k (S.map (List.map m.k))) (hv : Begins v (S.map (List.map m.v))) :
    m.sdpa Q K (X.map fun xs => (queriesOf m xs).drop a) k v =
      some (List.zipWith (fun src xs => (crossOf m src xs).drop a) S X) := by
  obtain ⟨hw, bias, hbias, hent⟩ := cross_bias (by omega) hn hS hQ hK
  have hkl : k.length = X.length := by rw [hk.1]; simp [hS]
  simp only [Mha.sdpa, List.length_map, hkl, ne_eq, not_true_eq_false, if_false, hm.bias, hbias, Option.map_some,
    Option.some.injEq, hw]
  apply List.ext_getElem
  · simp [hS]
  intro r h1 h2
  have hr : r < X.length := by simp at h1; exact h1
  have hrS : r < S.length := by omega
  have hxl := hX _ (List.getElem_mem hr)
  simp only [List.getElem_mapIdx, List.getElem_map, List.getElem_zipWith]
  apply List.ext_getElem
  · simp [queriesOf, crossOf]
  intro i h3 h4
  have hi : i < n := by
    simp only [crossOf, List.length_drop, List.length_mapIdx, hxl] at h4; omega
  simp only [List.getElem_mapIdx, List.getElem_drop, crossOf, queriesOf, crossAt, hm.pos, placed]
  congr 1
  funext h c
  rw [at'_eq (by omega : a + i < X[r].length)]
  have hs : S[r]? = some S[r] := List.getElem?_eq_getElem hrS
  obtain ⟨e0, e1, e2⟩ := hent r S[r] h i hs hi
  rw [attend_stretch m.scale m.headDim W _ _ _ _ c 0 S[r].length (by omega) ?_]
  · apply attend_congr
    · intro j hj
      rw [Nat.zero_add, e1 j hj]
    · intro j hj _
      have f1 : elem k r (0 + j) = m.k (at' S[r] j) := by
        rw [Nat.zero_add, elem_begins hk (s := S[r].map m.k) (by simp [hs]) (by simpa using hj), List.getElem_map,
          at'_eq hj]
      have f2 : elem v r (0 + j) = m.v (at' S[r] j) := by
        rw [Nat.zero_add, elem_begins hv (s := S[r].map m.v) (by simp [hs]) (by simpa using hj), List.getElem_map,
          at'_eq hj]
      exact ⟨fun e => by rw [f1], fun e => by rw [f2]⟩
  · intro j hj hjo
    exact e2 j (by omega) hj

/-- What is known of the state of encoder-decoder attention after `a` positions. -/
def CrossInv (m : Mha) (st : Option (Static Heads)) (S : Batch Vec) (a : Nat) : Prop :=
  match st with
  | none => a = 0
  | some s => 0 < a ∧ Begins s.k.rows (S.map (List.map m.k)) ∧ Begins s.v.rows (S.map (List.map m.v))

theorem cross_step {m : Mha} (hm : GoodCross m) {b : Bag} {st : Option (Static Heads)} {X S : Batch Vec} {a n : Nat}
    (hN : 0 < X.length) (hn : 1 ≤ n) (hX : ∀ xs ∈ X, xs.length = a + n) (hS : S.length = X.length)
    (hs : b.stepNr = a) {l : Layout} (hl : Layout.new [(X.length : Int), (n : Int)] none false = some l)
    {src : Source} (hsrc : SourceInv src S) (hst : CrossInv m st S a) :
    ∃ st', m.forwardCross (some b) st l (X.map (List.drop a)) src =
        some (List.zipWith (fun src xs => (crossOf m src xs).drop a) S X, st') ∧ CrossInv m st' S (a + n) := by
  have hq : m.projectQ (some b) l (X.map (List.drop a)) = some (X.map fun xs => (queriesOf m xs).drop a) :=
    project_ok m.q hN hn hX hs (fun e he => by rw [hm.pos] at he; cases he) hl
  simp only [Mha.forwardCross, hq, Option.bind_some]
  cases st with
  | some s =>
    obtain ⟨ha, hk, hv⟩ := hst
    have := sdpa_cross hm hN hn hX hS hl hsrc.layout hk hv
    refine ⟨some s, ?_, by omega, hk, hv⟩
    simp only [Static.get, this, Option.map_some]
  | none =>
    have hk := begins_map m.k hsrc.begins
    have hv := begins_map m.v hsrc.begins
    have := sdpa_cross hm hN hn hX hS hl hsrc.layout hk hv
    refine ⟨some ⟨m.ten src.width (src.rows.map (List.map m.k)), m.ten src.width (m.projectV src.rows)⟩, ?_,
      by omega, hk, hv⟩
    simp only [Mha.projectK, hm.pos, encode, Option.bind_some, Mha.projectV, this, Option.map_some]

theorem cross_full {m : Mha} (hm : GoodCross m) {st : Option (Static Heads)} {X S : Batch Vec} {n : Nat}
    (hN : 0 < X.length) (hn : 1 ≤ n) (hX : ∀ xs ∈ X, xs.length = n) (hS : S.length = X.length)
    {l : Layout} (hl : Layout.new [(X.length : Int), (n : Int)] none false = some l)
    {src : Source} (hsrc : SourceInv src S) :
    m.forwardCross none st l X src = some (List.zipWith (crossOf m) S X, st) := by
  have hq : m.projectQ none l X = some (X.map (queriesOf m)) := by
    have := project_ok m.q (a := 0) (p := m.pos) (bag := none) hN hn (by simpa using hX) rfl
      (fun e he => by rw [hm.pos] at he; cases he) hl
    rw [map_drop_zero] at this
    exact this
  have := sdpa_cross hm (a := 0) hN hn (by simpa using hX) hS hl hsrc.layout (begins_map m.k hsrc.begins)
    (begins_map m.v hsrc.begins)
  simp only [List.drop_zero] at this
  simp only [Mha.forwardCross, hq, Option.bind_some, Mha.projectK, hm.pos, encode, Mha.projectV]
  rw [show (X.map (queriesOf m)) = X.map fun xs => queriesOf m xs from rfl, this, Option.map_some]

end Fs2.Dec
