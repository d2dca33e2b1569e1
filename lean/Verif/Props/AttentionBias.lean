import Mathlib.Algebra.BigOperators.Field
import Verif.Nn.AttentionBiasLemmas
import Verif.Props.Layout

/-!
# C52: attention masks; C71: attention over a batch
-/

namespace Fs2.Props
open Fs2.Nn

/-- A key is visible to a query if its bias is not minus infinity: its weight is then positive. -/
def Sees (e : Entry) : Prop := e ≠ .negInf

/-- Which of `m` keys query `i` of `n` may see. The queries are the last `n` positions of the keys. -/
def MaySee (b : BiasKind) (n m i j : Nat) : Prop :=
  match b with
  | .identity => True
  | .causal none => (j : Int) ≤ i + (m - n)
  | .causal (some w) => (j : Int) ≤ i + (m - n) ∧ (j : Int) > i + (m - n) - w
  | .chunked c => j ≤ i ∧ j / c = i / c
  | .alibi _ => (j : Int) ≤ i + (m - n)

/-- **Causal bias.** Without a window, query `i` sees exactly the keys up to its own position. With a
window `w` it sees exactly the last `w` of them, if the window is shorter than the queries or not shorter
than the keys; in particular if there are as many keys as queries.

Missing for the full property: windows at least as long as the queries but shorter than the keys, for
which the claim is false (`C52_window_ignored`). -/
theorem C52_causal_partial (w : Option Int) (n m : Nat)
    (hw : ∀ x, w = some x → x < n ∨ (m : Int) ≤ x) :
    ∃ t, (BiasKind.causal w).create n m = some t ∧ t.heads = none ∧ t.q = n ∧ t.k = m ∧
      ∀ h i j, i < n → j < m → (Sees (t.at' h i j) ↔ MaySee (.causal w) n m i j) := by
  refine ⟨_, rfl, rfl, rfl, rfl, ?_⟩
  intro h i j hi hj
  have key : Sees ((causalTensor n m (w.getD n)).at' h i j) ↔
      ((j : Int) - i ≤ (m : Int) - n ∧ (w.getD n < n → (m : Int) - n - w.getD n + 1 ≤ (j : Int) - i)) := by
    simp only [causalTensor, Sees]
    split <;> simp_all
  rw [key]
  cases w with
  | none => simp only [MaySee, Option.getD_none]; omega
  | some x =>
    have := hw x rfl
    simp only [MaySee, Option.getD_some]
    omega

example : ∀ x, (some 2 : Option Int) = some x → x < (5 : Nat) ∨ ((5 : Nat) : Int) ≤ x := by
  intro x hx; cases hx; left; decide

/-- **Ignored window.** Two queries over five keys with a window of two: the first query, at position 3,
sees key 0, which is three positions back. -/
theorem C52_window_ignored : ∃ t, (BiasKind.causal (some 2)).create 2 5 = some t ∧
    Sees (t.at' 0 0 0) ∧ ¬ MaySee (.causal (some 2)) 2 5 0 0 := by
  refine ⟨_, rfl, ?_, ?_⟩
  · simp [Sees, causalTensor]
  · simp [MaySee]

/-- **ALiBi.** Over a batch without padding every head sees exactly the keys up to the query's own
position, with a bias of the key's position times the slope of the head. -/
theorem C52_alibi_unpadded (H n m : Nat) (hH : 0 < H) (hn : 0 < n) :
    ∃ t, (BiasKind.alibi H).create n m = some t ∧ t.heads = some H ∧ t.q = n ∧ t.k = m ∧
      ∀ h i j, i < n → j < m → (Sees (t.at' h i j) ↔ MaySee (.alibi H) n m i j) ∧
        (MaySee (.alibi H) n m i j →
          t.at' h i j = .fin (j * ((2 : ℝ) ^ (-8 / (H : ℝ))) ^ (h + 1))) := by
  refine ⟨_, by rw [BiasKind.create, if_neg (by omega)], rfl, rfl, rfl, ?_⟩
  intro h i j hi hj
  simp only [MaySee, causalTensor]
  by_cases h1 : n > 1
  · simp only [h1, if_true]
    by_cases h2 : (j : Int) ≤ i + (m - n)
    · rw [if_pos (by omega)]
      simp [Entry.add, Sees, h2]
    · rw [if_neg (by omega)]
      simp [Entry.add, Sees, h2]
  · simp only [h1, if_false]
    refine ⟨?_, fun _ => by trivial⟩
    simp only [Sees, ne_eq, reduceCtorEq, not_false_eq_true, true_iff]
    omega

example : 0 < 8 ∧ 0 < 3 := by decide

/-- **Chunked bias.** The tensor marks exactly the keys a query may see with a one and the others with a
zero. These are numbers to be added to the scores, so that every query sees every key: the full property
is false (`C52_chunked_hides_nothing`), since the logarithm is not taken. -/
theorem C52_chunked_partial (c n : Nat) (hc : 0 < c) :
    ∃ t, (BiasKind.chunked c).create n n = some t ∧ t.heads = none ∧ t.q = n ∧ t.k = n ∧
      ∀ h i j, i < n → j < n →
        (MaySee (.chunked c) n n i j → t.at' h i j = .fin 1) ∧
        (¬ MaySee (.chunked c) n n i j → t.at' h i j = .fin 0) := by
  refine ⟨_, by rw [BiasKind.create, if_neg (by simp), if_neg (by omega)], rfl, rfl, rfl, ?_⟩
  intro h i j hi hj
  have e : ((j / c = i / c) ∧ (j : Int) - i ≤ 0) ↔ (j ≤ i ∧ j / c = i / c) := by
    constructor
    · intro h; exact ⟨by omega, h.1⟩
    · intro h; exact ⟨h.2, by omega⟩
  simp only [MaySee, e]
  constructor <;> intro h' <;> simp [h']

example : 0 < 4 := by decide

/-- With a chunked bias every query sees every key, whatever the chunk size. -/
theorem C52_chunked_hides_nothing (c n m : Nat) (t : BiasTensor)
    (h : (BiasKind.chunked c).create n m = some t) (head i j : Nat) : Sees (t.at' head i j) := by
  simp only [BiasKind.create] at h
  split at h
  · cases h
  · split at h
    · cases h
    · cases h; simp [Sees]

example : ∃ t, (BiasKind.chunked 2).create 4 4 = some t :=
  ⟨_, by rw [BiasKind.create, if_neg (by simp), if_neg (by simp)]⟩

/-! ## Batches -/

private theorem toNat_ofNat (l : List Nat) : (l.map Int.ofNat).map Int.toNat = l := by
  rw [List.map_map]
  conv => rhs; rw [← List.map_id l]
  exact List.map_congr_left fun x _ => by simp

private theorem sum_ofNat (l : List Nat) : (l.map Int.ofNat).sum = (l.sum : Int) := by
  induction l with
  | nil => rfl
  | cons a l ih => simp only [List.map_cons, List.sum_cons, ih]; simp

private theorem take_sum {l : List Nat} {a n : Nat} (h : l[a]? = some n) : (l.take a).sum + n ≤ l.sum := by
  induction l generalizing a with
  | nil => simp at h
  | cons x l ih =>
    cases a with
    | zero => simp only [List.getElem?_cons_zero, Option.some.injEq] at h; subst h; simp
    | succ a =>
      have := ih (by simpa using h)
      simp only [List.take_succ_cons, List.sum_cons]
      omega

private theorem packed_facts {w : Nat} {l : List Nat} {L : Layout}
    (h : Layout.new [(w : Int)] (some (l.map Int.ofNat)) true = some L) :
    L.width.toNat = w ∧ L.packed = true ∧ L.seqLens = l.map Int.ofNat ∧ (∀ n ∈ l, 1 ≤ n) ∧ l.sum ≤ w := by
  obtain ⟨w', e, h1, h2, h3, d⟩ := (C47_packed [(w : Int)] (l.map Int.ofNat)).1 L h
  cases e
  refine ⟨by rw [d.width]; simp, d.packed, d.seqLens, ?_, ?_⟩
  · intro n hn
    have := h2 (Int.ofNat n) (by simp only [List.mem_map]; exact ⟨n, hn, rfl⟩)
    simp only [Int.ofNat_eq_natCast] at this
    omega
  · rw [sum_ofNat] at h3; omega

/-- **Packed batches.** The bias of a packed batch is, between a query and a key of the same sequence,
the bias of that sequence alone; no query sees a key of another sequence, no query of a sequence sees
padding, no padding query sees a key of a sequence, and padding sees padding. -/
theorem C52_packed (b : BiasKind) (hb : ∀ H, b ≠ .alibi H) (wq wk : Nat) (lq lk : List Nat) (Q K : Layout)
    (hQ : Layout.new [(wq : Int)] (some (lq.map Int.ofNat)) true = some Q)
    (hK : Layout.new [(wk : Int)] (some (lk.map Int.ofNat)) true = some K)
    (hn : lq.length = lk.length) (h0 : lq ≠ [])
    (hc : ∀ p ∈ lq.zip lk, ∃ s, b.create p.1 p.2 = some s) :
    ∃ T, materialize b Q K = some (.one T) ∧ T.heads = none ∧ T.q = wq ∧ T.k = wk ∧
      (∀ h a c n m i j, lq[a]? = some n → lk[c]? = some m → i < n → j < m →
        (a ≠ c → ¬ Sees (T.at' h ((lq.take a).sum + i) ((lk.take c).sum + j))) ∧
        (a = c → ∃ s, b.create n m = some s ∧
          T.at' h ((lq.take a).sum + i) ((lk.take c).sum + j) = s.at' h i j)) ∧
      (∀ h i j, i < wq → j < wk → ((lq.sum ≤ i ∧ j < lk.sum) ∨ (i < lq.sum ∧ lk.sum ≤ j)) →
        ¬ Sees (T.at' h i j)) ∧
      (∀ h i j, lq.sum ≤ i → i < wq → lk.sum ≤ j → j < wk → T.at' h i j = .fin 0) := by
  obtain ⟨q1, q2, q3, q4, q5⟩ := packed_facts hQ
  obtain ⟨k1, k2, k3, k4, k5⟩ := packed_facts hK
  obtain ⟨T, e, t1, t2, t3, t4⟩ := blockTensor_ok hb lq lk hn q4 k4 q5 k5 hc
  refine ⟨T, ?_, t1, t2, t3, ?_, ?_, ?_⟩
  · simp only [materialize, q1, q2, q3, k1, k2, k3, toNat_ofNat, e, Bool.xor_self, List.length_map, hn]
    have : ¬ lk.length = 0 := by
      rw [← hn]; simpa using h0
    simp [this]
  · intro h a c n m i j ha hc' hi hj
    have sq : (lq.take a).sum + n ≤ wq := by
      have := take_sum ha; omega
    have sk : (lk.take c).sum + m ≤ wk := by
      have := take_sum hc'; omega
    have key := blockEntry_inside (b := b) (qLen := wq) (kLen := wk) lq lk 0 0 .negInf hn ha hc' hi hj
    simp only [Nat.zero_add] at key
    have ht := t4 h ((lq.take a).sum + i) ((lk.take c).sum + j) (by omega) (by omega)
    rw [key] at ht
    constructor
    · intro hne
      rw [ht, if_neg hne]
      simp [Sees]
    · intro heq
      subst heq
      have hmem : (n, m) ∈ lq.zip lk := by
        rw [List.mem_iff_getElem?]
        exact ⟨a, by rw [List.getElem?_zip_eq_some]; exact ⟨ha, hc'⟩⟩
      obtain ⟨s, hs⟩ := hc _ hmem
      refine ⟨s, hs, ?_⟩
      rw [ht, if_pos rfl, entryOf, hs]
      exact ((create_head hb hs).2.2.2 h i j).symm
  · intro h i j hi hj hpad
    rw [t4 h i j hi hj, blockEntry_padding lq lk 0 0 _ hn (by omega), if_neg (by omega)]
    simp [Sees]
  · intro h i j h1 h2 h3 h4
    rw [t4 h i j h2 h4, blockEntry_padding lq lk 0 0 _ hn (by omega), if_pos (by omega)]

/-- Two sequences of 2 and 1 positions, and one of padding. -/
example : ∃ Q, Layout.new [(4 : Int)] (some ([2, 1].map Int.ofNat)) true = some Q ∧
    (∀ p ∈ [2, 1].zip [2, 1], ∃ s, (BiasKind.causal none).create p.1 p.2 = some s) :=
  ⟨_, rfl, fun _ _ => ⟨_, rfl⟩⟩

theorem padded_facts {w : Nat} {l : List Nat} {L : Layout}
    (h : Layout.new [(l.length : Int), (w : Int)] (some (l.map Int.ofNat)) false = some L) :
    L.width.toNat = w ∧ L.packed = false ∧ L.seqLens = l.map Int.ofNat ∧ (∀ n ∈ l, 1 ≤ n ∧ n ≤ w) ∧
      (L.padded = true ↔ ∃ n ∈ l, n < w) := by
  obtain ⟨w', e, h1, h2, d⟩ := (C47_padded [(l.length : Int), (w : Int)] (l.map Int.ofNat)).1 L h
  simp only [List.cons.injEq, and_true] at e
  have e := e.2
  subst e
  refine ⟨by rw [d.width]; simp, d.packed, d.seqLens, ?_, ?_⟩
  · intro n hn
    have := h2 (Int.ofNat n) (by simp only [List.mem_map]; exact ⟨n, hn, rfl⟩)
    simp only [Int.ofNat_eq_natCast] at this
    omega
  · rw [d.padded]
    constructor
    · rintro ⟨n, hn, hlt⟩
      rw [List.mem_map] at hn
      obtain ⟨x, hx, rfl⟩ := hn
      simp only [Int.ofNat_eq_natCast] at hlt
      exact ⟨x, hx, by omega⟩
    · rintro ⟨n, hn, hlt⟩
      exact ⟨Int.ofNat n, by simp only [List.mem_map]; exact ⟨n, hn, rfl⟩, by
        simp only [Int.ofNat_eq_natCast]; omega⟩

private theorem mapM_all {β γ : Type} {f : β → Option γ} {P : β → γ → Prop} (l : List β)
    (h : ∀ x ∈ l, ∃ y, f x = some y ∧ P x y) :
    ∃ ys, l.mapM f = some ys ∧ ys.length = l.length ∧
      ∀ (i : Nat) x, l[i]? = some x → ∃ y, ys[i]? = some y ∧ P x y := by
  induction l with
  | nil => exact ⟨[], rfl, rfl, by simp⟩
  | cons a l ih =>
    obtain ⟨y, hy, hp⟩ := h a (by simp)
    obtain ⟨ys, e, hl, hi⟩ := ih fun x hx => h x (by simp [hx])
    refine ⟨y :: ys, by simp [List.mapM_cons, hy, e], by simp [hl], ?_⟩
    intro i x hx
    cases i with
    | zero => simp only [List.getElem?_cons_zero, Option.some.injEq] at hx; subst hx; exact ⟨y, rfl, hp⟩
    | succ i => exact hi i x (by simpa using hx)

private theorem padded_bias (b : BiasKind) (hb : ∀ H, b ≠ .alibi H) (wq wk : Nat) (lq lk : List Nat) (Q K : Layout)
    (hQ : Layout.new [(lq.length : Int), (wq : Int)] (some (lq.map Int.ofNat)) false = some Q)
    (hK : Layout.new [(lk.length : Int), (wk : Int)] (some (lk.map Int.ofNat)) false = some K)
    (hn : lq.length = lk.length) (h0 : lq ≠ [])
    (hc : ∀ p ∈ lq.zip lk, ∃ s, b.create p.1 p.2 = some s) :
    ∃ M, materialize b Q K = some M ∧
      ∀ h r n m, lq[r]? = some n → lk[r]? = some m →
        (∀ i j, i < n → j < m → ∃ s, b.create n m = some s ∧ M.entry r h i j = s.at' h i j) ∧
        (∀ i j, i < wq → j < wk → ((n ≤ i ∧ j < m) ∨ (i < n ∧ m ≤ j)) → ¬ Sees (M.entry r h i j)) ∧
        (∀ i j, n ≤ i → i < wq → m ≤ j → j < wk → M.entry r h i j = .fin 0) := by
  obtain ⟨q1, q2, q3, q4, q5⟩ := padded_facts hQ
  obtain ⟨k1, k2, k3, k4, k5⟩ := padded_facts hK
  have hlen : ¬ lk.length = 0 := by rw [← hn]; simpa using h0
  have hzip : ∀ (r n m : Nat), lq[r]? = some n → lk[r]? = some m → (n, m) ∈ lq.zip lk := by
    intro r n m h1 h2
    rw [List.mem_iff_getElem?]
    exact ⟨r, by rw [List.getElem?_zip_eq_some]; exact ⟨h1, h2⟩⟩
  by_cases hpad : Q.padded = false ∧ K.padded = false
  · have allq : ∀ n ∈ lq, n = wq := by
      intro n hm
      have h1 : ¬ ∃ n ∈ lq, n < wq := by rw [← q5]; simp [hpad.1]
      have h2 := q4 n hm
      by_contra h3
      exact h1 ⟨n, hm, by omega⟩
    have allk : ∀ n ∈ lk, n = wk := by
      intro n hm
      have h1 : ¬ ∃ n ∈ lk, n < wk := by rw [← k5]; simp [hpad.2]
      have h2 := k4 n hm
      by_contra h3
      exact h1 ⟨n, hm, by omega⟩
    obtain ⟨n0, rest, rfl⟩ : ∃ a l, lq = a :: l := by
      cases lq with
      | nil => exact absurd rfl h0
      | cons a l => exact ⟨a, l, rfl⟩
    obtain ⟨m0, rest', rfl⟩ : ∃ a l, lk = a :: l := by
      cases lk with
      | nil => simp at hlen
      | cons a l => exact ⟨a, l, rfl⟩
    obtain ⟨s, hs⟩ := hc (n0, m0) (by simp)
    rw [allq n0 (by simp), allk m0 (by simp)] at hs
    refine ⟨.one s, ?_, ?_⟩
    · simp only [List.length_cons] at hn
      simp [materialize, q1, q2, q3, k1, k2, k3, hn, hpad, hs]
    · intro h r n m hr hr'
      have e1 := allq n (List.mem_of_getElem? hr)
      have e2 := allk m (List.mem_of_getElem? hr')
      subst e1 e2
      refine ⟨fun i j _ _ => ⟨s, hs, rfl⟩, ?_, ?_⟩
      · intro i j hi hj hp
        omega
      · intro i j h1 h2 h3 h4
        omega
  · obtain ⟨ts, e, hl, hts⟩ := mapM_all
      (f := fun (p : Int × Int) => do
        let t ← blockTensor b [p.1.toNat] wq [p.2.toNat] wk
        some { t with heads := some (t.heads.getD 1) })
      (P := fun p t => t.heads = some 1 ∧ t.q = wq ∧ t.k = wk ∧ ∀ h i j, i < wq → j < wk →
        t.at' h i j = blockEntry b wq wk i j [p.1.toNat] [p.2.toNat] 0 0 .negInf)
      ((lq.map Int.ofNat).zip (lk.map Int.ofNat)) (by
        intro p hp
        rw [List.zip_map, List.mem_map] at hp
        obtain ⟨⟨n, m⟩, hm, rfl⟩ := hp
        have hm' := List.of_mem_zip hm
        have b1 := q4 n hm'.1
        have b2 := k4 m hm'.2
        obtain ⟨s, hs⟩ := hc _ hm
        obtain ⟨T, e, t1, t2, t3, t4⟩ := blockTensor_ok hb (qLen := wq) (kLen := wk) [n] [m] rfl
          (by simpa using b1.1) (by simpa using b2.1) (by simpa using b1.2) (by simpa using b2.2)
          (by intro p hp; simp at hp; subst hp; exact ⟨s, hs⟩)
        refine ⟨{ T with heads := some (T.heads.getD 1) }, ?_, by simp [t1], t2, t3, ?_⟩
        · simp [e]
        · simpa using t4)
    refine ⟨.stack ts, ?_, ?_⟩
    · have hst : stackTensors ts = some (.stack ts) := by
        have hall : ∀ t ∈ ts, t.heads = some 1 ∧ t.q = wq ∧ t.k = wk := by
          intro t ht
          obtain ⟨i, hi⟩ := List.mem_iff_getElem?.mp ht
          have hlt : i < ts.length := by
            by_contra hx
            rw [List.getElem?_eq_none (by omega)] at hi
            cases hi
          obtain ⟨t', e', p1, p2, p3, -⟩ := hts i _ (List.getElem?_eq_getElem (by rw [← hl]; exact hlt))
          rw [hi] at e'
          cases e'
          exact ⟨p1, p2, p3⟩
        cases ts with
        | nil =>
          simp only [List.length_nil, List.length_zip, List.length_map] at hl
          omega
        | cons t rest =>
          simp only [stackTensors]
          rw [if_pos]
          rw [List.all_eq_true]
          intro u hu
          have h1 := hall u (by simp [hu])
          have h2 := hall t (by simp)
          simp [h1, h2]
      have hp' : ¬ ((!Q.padded) = true ∧ (!K.padded) = true) := by
        simpa using hpad
      simp only [materialize, q1, q2, q3, k1, k2, k3, Bool.xor_self, Bool.false_eq_true, if_false,
        List.length_map, hn, ne_eq, not_true_eq_false, hlen, hp', e]
      rw [Option.bind_eq_bind, Option.bind_some, hst]
    · intro h r n m hr hr'
      obtain ⟨t, et, -, -, -, p4⟩ := hts r ((n : Int), (m : Int)) (by
        rw [List.getElem?_zip_eq_some]
        simp [List.getElem?_map, hr, hr'])
      have b1 := q4 n (List.mem_of_getElem? hr)
      have b2 := k4 m (List.mem_of_getElem? hr')
      simp only [Int.toNat_natCast] at p4
      simp only [Materialized.entry, et]
      refine ⟨?_, ?_, ?_⟩
      · intro i j hi hj
        obtain ⟨s, hs⟩ := hc _ (hzip r n m hr hr')
        refine ⟨s, hs, ?_⟩
        have key := blockEntry_inside (b := b) (qLen := wq) (kLen := wk) (i := i) (j := j) [n] [m] 0 0
          .negInf rfl (a := 0) (c := 0) (n := n) (m := m) rfl rfl hi hj
        simp only [Nat.zero_add, List.take_zero, List.sum_nil, if_true] at key
        rw [p4 h i j (by omega) (by omega), key, entryOf, hs]
        exact ((create_head hb hs).2.2.2 h i j).symm
      · intro i j hi hj hp
        rw [p4 h i j hi hj, blockEntry_padding [n] [m] 0 0 _ rfl (by simp; omega), if_neg (by simp; omega)]
        simp [Sees]
      · intro i j h1 h2 h3 h4
        rw [p4 h i j h2 h4, blockEntry_padding [n] [m] 0 0 _ rfl (by simp; omega), if_pos (by simp; omega)]

/-- **Padded batches.** In every row of a padded batch the bias between a query and a key of the sequence
is the bias of that sequence alone; no query of the sequence sees padding and no padding query sees the
sequence. -/
theorem C52_padded (b : BiasKind) (hb : ∀ H, b ≠ .alibi H) (wq wk : Nat) (lq lk : List Nat) (Q K : Layout)
    (hQ : Layout.new [(lq.length : Int), (wq : Int)] (some (lq.map Int.ofNat)) false = some Q)
    (hK : Layout.new [(lk.length : Int), (wk : Int)] (some (lk.map Int.ofNat)) false = some K)
    (hn : lq.length = lk.length) (h0 : lq ≠ [])
    (hc : ∀ p ∈ lq.zip lk, ∃ s, b.create p.1 p.2 = some s) :
    ∃ M, materialize b Q K = some M ∧
      ∀ h r n m, lq[r]? = some n → lk[r]? = some m →
        (∀ i j, i < n → j < m → ∃ s, b.create n m = some s ∧ M.entry r h i j = s.at' h i j) ∧
        (∀ i j, i < wq → j < wk → ((n ≤ i ∧ j < m) ∨ (i < n ∧ m ≤ j)) → ¬ Sees (M.entry r h i j)) := by
  obtain ⟨M, e, h⟩ := padded_bias b hb wq wk lq lk Q K hQ hK hn h0 hc
  exact ⟨M, e, fun h' r n m hr hk => ⟨(h h' r n m hr hk).1, (h h' r n m hr hk).2.1⟩⟩

/-- Two rows of four: one of 2 positions, one of 4. -/
example : ∃ Q, Layout.new [(([2, 4] : List Nat).length : Int), (4 : Int)] (some ([2, 4].map Int.ofNat))
    false = some Q ∧ (∀ p ∈ [2, 4].zip [2, 4], ∃ s, (BiasKind.causal none).create p.1 p.2 = some s) :=
  ⟨_, rfl, fun _ _ => ⟨_, rfl⟩⟩

private theorem mapM_none {β γ : Type} {f : β → Option γ} {l : List β} {x : β} (hx : x ∈ l)
    (h : f x = none) : l.mapM f = none := by
  induction l with
  | nil => cases hx
  | cons a l ih =>
    rcases List.mem_cons.mp hx with rfl | hx
    · simp [List.mapM_cons, h]
    · simp only [List.mapM_cons, ih hx]
      cases f a <;> rfl

/-- **Padding in a padded batch.** A padding query sees the padding of the keys of its row and nothing else. So it
sees a key if and only if the keys of the row are padded too. -/
theorem C52_padding_sees (b : BiasKind) (hb : ∀ H, b ≠ .alibi H) (wq wk : Nat) (lq lk : List Nat) (Q K : Layout)
    (hQ : Layout.new [(lq.length : Int), (wq : Int)] (some (lq.map Int.ofNat)) false = some Q)
    (hK : Layout.new [(lk.length : Int), (wk : Int)] (some (lk.map Int.ofNat)) false = some K)
    (hn : lq.length = lk.length) (h0 : lq ≠ [])
    (hc : ∀ p ∈ lq.zip lk, ∃ s, b.create p.1 p.2 = some s) :
    ∃ M, materialize b Q K = some M ∧
      ∀ h r n m, lq[r]? = some n → lk[r]? = some m → ∀ i, n ≤ i → i < wq →
        (∀ j < wk, Sees (M.entry r h i j) ↔ m ≤ j) ∧ ((∃ j < wk, Sees (M.entry r h i j)) ↔ m < wk) := by
  obtain ⟨M, e, hM⟩ := padded_bias b hb wq wk lq lk Q K hQ hK hn h0 hc
  refine ⟨M, e, ?_⟩
  intro h r n m hr hk i h1 h2
  obtain ⟨_, x2, x3⟩ := hM h r n m hr hk
  have key : ∀ j < wk, Sees (M.entry r h i j) ↔ m ≤ j := by
    intro j hj
    constructor
    · intro hs
      by_contra hlt
      exact x2 i j h2 hj (Or.inl ⟨h1, by omega⟩) hs
    · intro hm
      rw [x3 i j h1 h2 hm hj]
      simp [Sees]
  refine ⟨key, ?_⟩
  constructor
  · rintro ⟨j, hj, hs⟩
    have := (key j hj).1 hs
    omega
  · intro hm
    exact ⟨m, hm, (key m hm).2 (Nat.le_refl m)⟩

/-- A row of 2 of 4 queries with 3 of 3 keys, and one of 4 of 4 queries with 1 of 3 keys. -/
example : (∃ Q, Layout.new [(([2, 4] : List Nat).length : Int), (4 : Int)] (some ([2, 4].map Int.ofNat)) false = some Q) ∧
    ∃ K, Layout.new [(([3, 1] : List Nat).length : Int), (3 : Int)] (some ([3, 1].map Int.ofNat)) false = some K :=
  ⟨⟨_, rfl⟩, _, rfl⟩

/-- **ALiBi and padding.** With two or more heads an ALiBi bias cannot be used with a batch that has
padding: materializing it raises, since the tensor for one sequence has a head dimension and the block it
is written to does not. -/
theorem C52_alibi_padded_raises (H : Nat) (hH : 2 ≤ H) (wq wk : Nat) (lq lk : List Nat) (Q K : Layout)
    (hQ : Layout.new [(lq.length : Int), (wq : Int)] (some (lq.map Int.ofNat)) false = some Q)
    (hK : Layout.new [(lk.length : Int), (wk : Int)] (some (lk.map Int.ofNat)) false = some K)
    (hpad : ∃ p ∈ lq.zip lk, p.1 < wq ∨ p.2 < wk) : materialize (.alibi H) Q K = none := by
  obtain ⟨q1, q2, q3, q4, q5⟩ := padded_facts hQ
  obtain ⟨k1, k2, k3, k4, k5⟩ := padded_facts hK
  obtain ⟨⟨n, m⟩, hm, hlt⟩ := hpad
  have hm' := List.of_mem_zip hm
  have b1 := q4 n hm'.1
  have b2 := k4 m hm'.2
  have hp : ¬ ((!Q.padded) = true ∧ (!K.padded) = true) := by
    rintro ⟨h1, h2⟩
    simp only [Bool.not_eq_true'] at h1 h2
    rcases hlt with h | h
    · have := q5.mpr ⟨n, hm'.1, h⟩
      rw [h1] at this; cases this
    · have := k5.mpr ⟨m, hm'.2, h⟩
      rw [h2] at this; cases this
  have hblock : blockTensor (.alibi H) [n] wq [m] wk = none := by
    simp only [blockTensor]
    rw [if_neg (by simp [seqRanges]; simp only at hlt; omega)]
    simp only [seqRanges, List.cons_append, List.nil_append, List.zip_cons_cons, blockLoop,
      Nat.zero_add, Nat.sub_zero, BiasKind.create]
    rw [if_pos (by omega), if_neg (by omega)]
    simp only [Option.bind_eq_bind, Option.bind_some, BiasTensor.put, Option.getD_some]
    rw [if_pos (by omega)]
    rfl
  have hmap := mapM_none (f := fun (p : Int × Int) => do
      let t ← blockTensor (.alibi H) [p.1.toNat] wq [p.2.toNat] wk
      some { t with heads := some (t.heads.getD 1) })
    (l := (lq.map Int.ofNat).zip (lk.map Int.ofNat)) (x := ((n : Int), (m : Int)))
    (by rw [List.zip_map, List.mem_map]; exact ⟨(n, m), hm, rfl⟩) (by simp [hblock])
  simp only [materialize, q1, q2, q3, k1, k2, k3, Bool.xor_self, Bool.false_eq_true, if_false,
    List.length_map, hp, hmap]
  split
  · rfl
  · split
    · rename_i h
      have := List.length_pos_of_mem hm'.1
      omega
    · rfl

example : ∃ Q, Layout.new [(([2, 4] : List Nat).length : Int), (4 : Int)] (some ([2, 4].map Int.ofNat))
    false = some Q ∧ (∃ p ∈ [2, 4].zip [2, 4], p.1 < 4 ∨ p.2 < 4) := ⟨_, rfl, by decide⟩

/-- **No bias.** If no bias tensor is used, no entry of it would hide a key or change a score: for the
identity bias always, for the full causal bias if the queries have one position and no key is padding.

Missing for the full property: causal biases with padded keys or a window, for which it is false
(`C52_padding_unmasked`). -/
theorem C52_no_bias_partial (b : BiasKind) (wq wk : Nat) (lq lk : List Nat) (Q K : Layout)
    (hQ : Layout.new [(lq.length : Int), (wq : Int)] (some (lq.map Int.ofNat)) false = some Q)
    (hK : Layout.new [(lk.length : Int), (wk : Int)] (some (lk.map Int.ofNat)) false = some K)
    (hn : lq.length = lk.length) (h0 : lq ≠ [])
    (hb : b = .identity ∨ (b = .causal none ∧ wq = 1 ∧ ∀ m ∈ lk, m = wk))
    (hnone : maybeGet b Q K = some none) :
    ∃ M, materialize b Q K = some M ∧
      ∀ r h i j, i < wq → j < wk → M.entry r h i j = .fin 0 := by
  obtain ⟨q1, q2, q3, q4, q5⟩ := padded_facts hQ
  obtain ⟨k1, k2, k3, k4, k5⟩ := padded_facts hK
  have hlen : ¬ lk.length = 0 := by rw [← hn]; simpa using h0
  have hmat : Q.padded = false → K.padded = false → ∀ s, b.create wq wk = some s →
      materialize b Q K = some (.one s) := by
    intro h1 h2 s hs
    have : ¬ lk = [] := by simpa using hlen
    simp [materialize, q1, q2, q3, k1, k2, k3, hn, h1, h2, hs, this]
  rcases hb with rfl | ⟨rfl, hw, hall⟩
  · have hfull : Q.padded = false ∧ K.padded = false := by
      by_contra hc
      have hget : maybeGet .identity Q K = (materialize .identity Q K).map some := by
        unfold maybeGet
        simp only
        rw [if_neg (by simp [q2, k2]; intro h; simpa [h] using hc)]
        rfl
      rw [hget] at hnone
      cases hm : materialize BiasKind.identity Q K with
      | none => rw [hm] at hnone; cases hnone
      | some x => rw [hm] at hnone; cases hnone
    exact ⟨_, hmat hfull.1 hfull.2 _ rfl, fun r h i j _ _ => rfl⟩
  · have hQp : Q.padded = false := by
      by_contra hc
      simp only [Bool.not_eq_false] at hc
      obtain ⟨n, hn1, hn2⟩ := q5.mp hc
      have := q4 n hn1
      omega
    have hKp : K.padded = false := by
      by_contra hc
      simp only [Bool.not_eq_false] at hc
      obtain ⟨n, hn1, hn2⟩ := k5.mp hc
      have := hall n hn1
      omega
    refine ⟨_, hmat hQp hKp _ rfl, ?_⟩
    intro r h i j hi hj
    simp only [Materialized.entry, causalTensor, Option.getD_none]
    rw [if_pos (by omega)]

/-- One query against three keys in each of two rows. -/
example : ∃ Q K, Layout.new [(([1, 1] : List Nat).length : Int), ((1 : Nat) : Int)]
      (some ([1, 1].map Int.ofNat)) false = some Q ∧
    Layout.new [(([3, 3] : List Nat).length : Int), ((3 : Nat) : Int)] (some ([3, 3].map Int.ofNat)) false =
      some K ∧ maybeGet (.causal none) Q K = some none :=
  ⟨_, _, rfl, rfl, rfl⟩

/-- **Unmasked padding.** One query against a row of two keys and one position of padding: with a causal
bias no bias at all is used, although the padding has to be hidden. -/
theorem C52_padding_unmasked : ∃ Q K, Layout.new [1, 1] (some [1]) false = some Q ∧
    Layout.new [1, 3] (some [2]) false = some K ∧
    maybeGet (.causal none) Q K = some none ∧
    ∃ M, materialize (.causal none) Q K = some M ∧ ¬ Sees (M.entry 0 0 0 2) := by
  refine ⟨_, _, rfl, rfl, rfl, ?_⟩
  obtain ⟨M, e, h⟩ := C52_padded (.causal none) (by simp) 1 3 [1] [2] _ _ rfl rfl rfl (by simp)
    (fun _ _ => ⟨_, rfl⟩)
  exact ⟨M, e, (h 0 0 1 2 rfl rfl).2 0 2 (by omega) (by omega) (by omega)⟩

/-- **Stale biases.** The cache of bias tensors does not know the layouts: asked for the same bias again
it returns the first tensor, for whatever other batch. -/
theorem C52_cache_stale (b : BiasKind) (Q K Q' K' : Layout) (cache cache' : BiasCache) (M : Materialized)
    (h : getCached b Q K cache = some (M, cache')) : getCached b Q' K' cache' = some (M, cache') := by
  unfold getCached at h
  split at h
  · rename_i e he
    simp only [Option.some.injEq, Prod.mk.injEq] at h
    obtain ⟨rfl, rfl⟩ := h
    simp [getCached, he]
  · cases hm : materialize b Q K with
    | none => rw [hm] at h; cases h
    | some x =>
      rw [hm] at h
      simp only [Option.map_some, Option.some.injEq, Prod.mk.injEq] at h
      obtain ⟨rfl, rfl⟩ := h
      simp [getCached]

example : ∃ Q M c, Layout.new [((2 : Nat) : Int)] (some ([2].map Int.ofNat)) true = some Q ∧
    getCached .identity Q Q [] = some (M, c) := by
  obtain ⟨Q, hQ⟩ : ∃ Q, Layout.new [((2 : Nat) : Int)] (some ([2].map Int.ofNat)) true = some Q := ⟨_, rfl⟩
  obtain ⟨T, e, -⟩ := C52_packed .identity (by simp) 2 2 [2] [2] _ _ hQ hQ rfl (by simp)
    (fun _ _ => ⟨_, rfl⟩)
  exact ⟨Q, .one T, [(.identity, .one T)], hQ, by simp only [getCached, List.find?_nil, e]; rfl⟩

/-- A forward pass: requests for bias tensors one after the other, all of them with one cache, which is
empty at first (encoder.py:147, decoder.py:165). -/
private noncomputable def forwardPass : List (BiasKind × Layout × Layout) → BiasCache →
    Option (List Materialized)
  | [], _ => some []
  | (b, Q, K) :: rest, cache => do
    let (M, cache) ← getCached b Q K cache
    some (M :: (← forwardPass rest cache))

private theorem getCached_sound (b : BiasKind) (Q K : Layout) (cache : BiasCache)
    (h : ∀ e ∈ cache, e.1 = b → materialize b Q K = some e.2) :
    (getCached b Q K cache).map Prod.fst = materialize b Q K ∧
      ∀ M c, getCached b Q K cache = some (M, c) → ∀ e ∈ c, e ∈ cache ∨ e = (b, M) := by
  unfold getCached
  cases hf : cache.find? (fun e => e.1 = b) with
  | some e =>
    have h1 := List.find?_some hf
    have h2 := List.mem_of_find?_eq_some hf
    simp only [decide_eq_true_eq] at h1
    refine ⟨by simpa using (h e h2 h1).symm, ?_⟩
    intro M c hc x hx
    simp only [Option.some.injEq, Prod.mk.injEq] at hc
    exact .inl (hc.2 ▸ hx)
  | none =>
    refine ⟨by cases materialize b Q K <;> rfl, ?_⟩
    intro M c hc x hx
    cases hm : materialize b Q K with
    | none => rw [hm] at hc; cases hc
    | some T =>
      rw [hm] at hc
      simp only [Option.map_some, Option.some.injEq, Prod.mk.injEq] at hc
      obtain ⟨rfl, rfl⟩ := hc
      rcases List.mem_cons.mp hx with hx | hx
      · exact .inr hx
      · exact .inl hx

/-- **Cached biases.** In a forward pass in which requests for the same bias come with the same layouts,
every layer gets the tensor that it would get without a cache; in particular no bias is served for
another one. -/
theorem C52_cache (reqs : List (BiasKind × Layout × Layout))
    (hsame : ∀ x ∈ reqs, ∀ y ∈ reqs, x.1 = y.1 → x.2 = y.2) :
    forwardPass reqs [] = reqs.mapM fun x => materialize x.1 x.2.1 x.2.2 := by
  have key : ∀ (done reqs : List (BiasKind × Layout × Layout)) (cache : BiasCache),
      (∀ x ∈ done ++ reqs, ∀ y ∈ done ++ reqs, x.1 = y.1 → x.2 = y.2) →
      (∀ e ∈ cache, ∃ x ∈ done, x.1 = e.1 ∧ materialize x.1 x.2.1 x.2.2 = some e.2) →
      forwardPass reqs cache = reqs.mapM fun x => materialize x.1 x.2.1 x.2.2 := by
    intro done reqs
    induction reqs generalizing done with
    | nil => intros; rfl
    | cons r rest ih =>
      obtain ⟨b, Q, K⟩ := r
      intro cache hs hc
      obtain ⟨h1, h2⟩ := getCached_sound b Q K cache (by
        intro e he heb
        obtain ⟨x, hx, hxe, hm⟩ := hc e he
        have := hs x (by simp [hx]) (b, Q, K) (by simp) (hxe.trans heb)
        obtain ⟨xb, xQ, xK⟩ := x
        simp only [Prod.mk.injEq] at this
        obtain ⟨rfl, rfl⟩ := this
        rw [← hm]; simp only at hxe; rw [← heb, ← hxe])
      simp only [List.mapM_cons]
      rw [forwardPass]
      cases hg : getCached b Q K cache with
      | none => rw [hg] at h1; simp only [Option.map_none] at h1; rw [← h1]; rfl
      | some r =>
        obtain ⟨M, c⟩ := r
        rw [hg] at h1
        simp only [Option.map_some] at h1
        rw [← h1]
        have := ih (done ++ [(b, Q, K)]) c (by simpa using hs) (by
          intro e he
          rcases h2 M c hg e he with h | h
          · obtain ⟨x, hx, hx'⟩ := hc e h
            exact ⟨x, by simp [hx], hx'⟩
          · subst h
            exact ⟨(b, Q, K), by simp, rfl, h1.symm⟩)
        simp only [Option.bind_eq_bind, Option.bind_some, this]
        rfl
  exact key [] reqs [] (by simpa using hsame) (by simp)

/-- Two decoder layers with a causal bias and an identity bias for the encoder output. -/
example (Q K : Layout) (reqs : List (BiasKind × Layout × Layout))
    (h : reqs = [(.causal none, Q, Q), (.identity, Q, K), (.causal none, Q, Q), (.identity, Q, K)]) :
    ∀ x ∈ reqs, ∀ y ∈ reqs, x.1 = y.1 → x.2 = y.2 := by
  subst h; simp

/-! ## C71: attention over a batch -/

/-- **Packed attention.** The attention output of a position of a sequence in a packed batch is the output
of that position when the sequence is attended to alone: the same queries, keys and values of that
sequence and its own bias. Nothing else in the batch has an influence. -/
theorem C71_packed (b : BiasKind) (hb : ∀ H, b ≠ .alibi H) (wq wk : Nat) (lq lk : List Nat) (Q K : Layout)
    (hQ : Layout.new [(wq : Int)] (some (lq.map Int.ofNat)) true = some Q)
    (hK : Layout.new [(wk : Int)] (some (lk.map Int.ofNat)) true = some K)
    (hn : lq.length = lk.length) (h0 : lq ≠ [])
    (hc : ∀ p ∈ lq.zip lk, ∃ s, b.create p.1 p.2 = some s) :
    ∃ T, materialize b Q K = some (.one T) ∧
      ∀ (scale : ℝ) (d : Nat) (q k v : Nat → Nat → ℝ) (a n m h i c : Nat),
        lq[a]? = some n → lk[a]? = some m → i < n →
        ∃ s, b.create n m = some s ∧
          attend scale d wk (q ((lq.take a).sum + i)) k v (T.at' h ((lq.take a).sum + i)) c =
          attend scale d m (q ((lq.take a).sum + i)) (fun j => k ((lk.take a).sum + j))
            (fun j => v ((lk.take a).sum + j)) (s.at' h i) c := by
  obtain ⟨T, e, -, -, -, hin, hpad, -⟩ := C52_packed b hb wq wk lq lk Q K hQ hK hn h0 hc
  refine ⟨T, e, ?_⟩
  intro scale d q k v a n m h i c ha hk hi
  obtain ⟨-, -, -, q4, q5⟩ := packed_facts hQ
  obtain ⟨-, -, -, k4, k5⟩ := packed_facts hK
  have sq := take_sum ha
  have sk := take_sum hk
  have hm := k4 m (List.mem_of_getElem? hk)
  obtain ⟨s, hs, -⟩ := (hin h a a n m i 0 ha hk hi (by omega)).2 rfl
  refine ⟨s, hs, ?_⟩
  rw [attend_stretch scale d wk _ k v _ c (lk.take a).sum m (by omega)]
  · apply attend_congr
    · intro j hj
      obtain ⟨s', hs', e'⟩ := (hin h a a n m i j ha hk hi hj).2 rfl
      rw [hs] at hs'
      cases hs'
      exact e'
    · intro j hj _
      exact ⟨fun _ => rfl, fun _ => rfl⟩
  · intro j hj hout
    by_cases hjs : lk.sum ≤ j
    · have := hpad h ((lq.take a).sum + i) j (by omega) hj (Or.inr ⟨by omega, hjs⟩)
      simpa [Sees] using this
    · -- the key belongs to another sequence
      have find : ∀ (l : List Nat) (j : Nat), j < l.sum →
          ∃ (c m j' : Nat), l[c]? = some m ∧ j' < m ∧ j = (l.take c).sum + j' := by
        intro l
        induction l with
        | nil => intro j hj; simp at hj
        | cons x l ih =>
          intro j hj
          by_cases hx : j < x
          · exact ⟨0, x, j, rfl, hx, by simp⟩
          · obtain ⟨c, m, j', h1, h2, h3⟩ := ih (j - x) (by simp only [List.sum_cons] at hj; omega)
            exact ⟨c + 1, m, j', by simpa using h1, h2, by
              simp only [List.take_succ_cons, List.sum_cons]; omega⟩
      obtain ⟨c', m', j', hc', hj', rfl⟩ := find lk j (by omega)
      have hne : a ≠ c' := by
        intro heq
        subst heq
        rw [hk] at hc'
        cases hc'
        omega
      have := (hin h a c' n m' i j' ha hc' hi hj').1 hne
      simpa [Sees] using this

example : ([2, 1] : List Nat)[1]? = some 1 ∧ ∃ Q, Layout.new [((4 : Nat) : Int)]
    (some ([2, 1].map Int.ofNat)) true = some Q := ⟨rfl, _, rfl⟩

/-- **Padded attention.** The same for every row of a padded batch. -/
theorem C71_padded (b : BiasKind) (hb : ∀ H, b ≠ .alibi H) (wq wk : Nat) (lq lk : List Nat) (Q K : Layout)
    (hQ : Layout.new [(lq.length : Int), (wq : Int)] (some (lq.map Int.ofNat)) false = some Q)
    (hK : Layout.new [(lk.length : Int), (wk : Int)] (some (lk.map Int.ofNat)) false = some K)
    (hn : lq.length = lk.length) (h0 : lq ≠ [])
    (hc : ∀ p ∈ lq.zip lk, ∃ s, b.create p.1 p.2 = some s) :
    ∃ M, materialize b Q K = some M ∧
      ∀ (scale : ℝ) (d : Nat) (x : Nat → ℝ) (k v : Nat → Nat → ℝ) (r n m h i c : Nat),
        lq[r]? = some n → lk[r]? = some m → i < n →
        ∃ s, b.create n m = some s ∧
          attend scale d wk x k v (M.entry r h i) c = attend scale d m x k v (s.at' h i) c := by
  obtain ⟨M, e, hin⟩ := C52_padded b hb wq wk lq lk Q K hQ hK hn h0 hc
  refine ⟨M, e, ?_⟩
  intro scale d x k v r n m h i c hr hk hi
  obtain ⟨-, -, -, q4, -⟩ := padded_facts hQ
  obtain ⟨-, -, -, k4, -⟩ := padded_facts hK
  have hm := k4 m (List.mem_of_getElem? hk)
  have hn' := q4 n (List.mem_of_getElem? hr)
  obtain ⟨s, hs, -⟩ := (hin h r n m hr hk).1 i 0 hi (by omega)
  refine ⟨s, hs, ?_⟩
  rw [attend_stretch scale d wk _ k v _ c 0 m (by omega)]
  · simp only [Nat.zero_add]
    apply attend_congr
    · intro j hj
      obtain ⟨s', hs', e'⟩ := (hin h r n m hr hk).1 i j hi hj
      rw [hs] at hs'
      cases hs'
      exact e'
    · intro j hj _
      exact ⟨fun _ => rfl, fun _ => rfl⟩
  · intro j hj hout
    have := (hin h r n m hr hk).2 i j (by omega) hj (Or.inr ⟨hi, by omega⟩)
    simpa [Sees] using this

example : ([2, 4] : List Nat)[0]? = some 2 ∧ ∃ Q, Layout.new [(([2, 4] : List Nat).length : Int),
    ((4 : Nat) : Int)] (some ([2, 4].map Int.ofNat)) false = some Q := ⟨rfl, _, rfl⟩

/-- **Causality.** With a causal bias the output of a position does not depend on the keys and values of
later positions. -/
theorem C71_causal (w : Option Int) (n m : Nat) (t : BiasTensor)
    (ht : (BiasKind.causal w).create n m = some t) (scale : ℝ) (d : Nat) (x : Nat → ℝ)
    (k v k' v' : Nat → Nat → ℝ) (h i c : Nat)
    (heq : ∀ j : Nat, (j : Int) ≤ i + ((m : Int) - n) → (∀ e, k j e = k' j e) ∧ ∀ e, v j e = v' j e) :
    attend scale d m x k v (t.at' h i) c = attend scale d m x k' v' (t.at' h i) c := by
  apply attend_congr
  · intro j _; rfl
  · intro j hj hv
    apply heq
    simp only [BiasKind.create, Option.some.injEq] at ht
    subst ht
    simp only [causalTensor] at hv
    split at hv
    · omega
    · exact absurd rfl hv

example : ∃ t, (BiasKind.causal none).create 3 5 = some t := ⟨_, rfl⟩

/-- **Weights.** As soon as one key is visible the output is a number, an average of the values: between
any bounds of the visible values. -/
theorem C71_average (scale : ℝ) (d n : Nat) (x : Nat → ℝ) (k v : Nat → Nat → ℝ) (bias : Nat → Entry)
    (c : Nat) (lo hi : ℝ) (hsee : ∃ j < n, Sees (bias j))
    (hv : ∀ j < n, Sees (bias j) → lo ≤ v j c ∧ v j c ≤ hi) :
    ∃ y, attend scale d n x k v bias c = some y ∧ lo ≤ y ∧ y ≤ hi := by
  have hw : ∀ j, 0 ≤ expBias (dot d x (k j) * scale) (bias j) := by
    intro j
    cases bias j with
    | negInf => exact le_refl _
    | fin y => exact (Real.exp_pos _).le
  have hpos : 0 < ∑ j ∈ Finset.range n, expBias (dot d x (k j) * scale) (bias j) := by
    obtain ⟨j, hj, hs⟩ := hsee
    apply Finset.sum_pos' (fun j _ => hw j)
    refine ⟨j, Finset.mem_range.mpr hj, ?_⟩
    cases hb : bias j with
    | negInf => exact absurd hb hs
    | fin y => exact Real.exp_pos _
  refine ⟨_, by simp only [attend]; rw [if_neg hpos.ne'], ?_, ?_⟩
  · have h1 : ∑ j ∈ Finset.range n, expBias (dot d x (k j) * scale) (bias j) /
        (∑ j ∈ Finset.range n, expBias (dot d x (k j) * scale) (bias j)) * lo = lo := by
      rw [← Finset.sum_mul, ← Finset.sum_div, div_self hpos.ne', one_mul]
    rw [← h1]
    apply Finset.sum_le_sum
    intro j hj
    have hj := Finset.mem_range.mp hj
    cases hb : bias j with
    | negInf => simp [expBias]
    | fin y =>
      have := (hv j hj (by simp [Sees, hb])).1
      have h2 := hw j
      rw [hb] at h2
      exact mul_le_mul_of_nonneg_left this (div_nonneg h2 hpos.le)
  · have h1 : ∑ j ∈ Finset.range n, expBias (dot d x (k j) * scale) (bias j) /
        (∑ j ∈ Finset.range n, expBias (dot d x (k j) * scale) (bias j)) * hi = hi := by
      rw [← Finset.sum_mul, ← Finset.sum_div, div_self hpos.ne', one_mul]
    conv => rhs; rw [← h1]
    apply Finset.sum_le_sum
    intro j hj
    have hj := Finset.mem_range.mp hj
    cases hb : bias j with
    | negInf => simp [expBias]
    | fin y =>
      have := (hv j hj (by simp [Sees, hb])).2
      have h2 := hw j
      rw [hb] at h2
      exact mul_le_mul_of_nonneg_left this (div_nonneg h2 hpos.le)

example : ∃ j < 2, Sees ((fun j => if j = 0 then Entry.negInf else .fin 0) j) :=
  ⟨1, by decide, by simp [Sees]⟩

end Fs2.Props
