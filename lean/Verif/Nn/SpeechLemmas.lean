import Verif.Nn.Speech
import Verif.Nn.SpeechSpec
import Verif.Props.Layout

/-!
# Lemmas about speech models
-/

namespace Fs2.Speech
open Fs2.Nn Fs2.Props

variable {V : Type}

theorem Carries.facts {W : Nat} {rows : List (List V)} {l : Layout} {S : List (List V)} (h : Carries W rows l S) :
    1 ≤ W ∧ (∀ s ∈ S, 1 ≤ s.length ∧ s.length ≤ W) ∧ l.packed = false ∧
      l.seqLens = (S.map fun s => (s.length : Int)) ∧ (l.padded = true ↔ ∃ s ∈ S, s.length < W) ∧
      l.positions.length = S.length ∧
      ∀ (r : Nat) s, S[r]? = some s → ∃ p, l.positions[r]? = some p ∧ p.length = W ∧
        ∀ q : Nat, q < W → p[q]? = some (if q < s.length then (q : Int) else -1) := by
  obtain ⟨w', e, h1, h2, d⟩ := (C47_padded _ _).1 l h.layout
  simp only [List.cons.injEq, and_true] at e
  have e := e.2
  subst e
  refine ⟨by omega, ?_, d.packed, d.seqLens, ?_, by rw [d.numRows, List.length_map], ?_⟩
  · intro s hs
    have := h2 (s.length : Int) (List.mem_map.2 ⟨s, hs, rfl⟩)
    omega
  · rw [d.padded]
    constructor
    · rintro ⟨n, hn, hlt⟩
      obtain ⟨s, hs, rfl⟩ := List.mem_map.1 hn
      exact ⟨s, hs, by omega⟩
    · rintro ⟨s, hs, hlt⟩
      exact ⟨_, List.mem_map.2 ⟨s, hs, rfl⟩, by omega⟩
  · intro r s hs
    obtain ⟨p, h3, h4, h5⟩ := d.positions r (s.length : Int) (by rw [List.getElem?_map, hs]; rfl)
    refine ⟨p, h3, by omega, ?_⟩
    intro q hq
    rw [h5 q (by omega)]
    congr 1
    by_cases h : q < s.length
    · rw [if_pos h, if_pos (by omega)]
    · rw [if_neg h, if_neg (by omega)]

theorem of_none (N W : Nat) : Layout.of [(N : Int), (W : Int)] none false =
    Layout.new [(N : Int), (W : Int)] (some (List.replicate N (W : Int))) false := by
  simp only [Layout.of, Layout.new, newPadded, Bool.false_eq_true, if_false, List.take]
  simp only [Option.getD_none, Option.getD_some, Int.toNat_natCast]

theorem of_some (N W : Nat) (lens : List Int) : Layout.of [(N : Int), (W : Int)] (some lens) false =
    Layout.new [(N : Int), (W : Int)] (some lens) false := by
  simp only [Layout.of, Bool.false_eq_true, if_false, List.take]

/-- An operation on batches does with each sequence what `g` says. -/
structure Acts (op : List (List V) → Layout → Option (List (List V) × Layout)) (g : List V → Option (List V)) : Prop where
  ok : ∀ {W rows l S}, S ≠ [] → Carries W rows l S → (∀ s ∈ S, g s ≠ none) →
    ∃ W' rows' l', op rows l = some (rows', l') ∧ Carries W' rows' l' (S.map fun s => (g s).getD []) ∧
      ∀ s ∈ S, s.length = W → ((g s).getD []).length = W'
  bad : ∀ {W rows l S}, Carries W rows l S → (∃ s ∈ S, g s = none) → op rows l = none

theorem Acts.comp {op op' : List (List V) → Layout → Option (List (List V) × Layout)} {g g' : List V → Option (List V)}
    (h : Acts op g) (h' : Acts op' g') :
    Acts (fun rows l => (op rows l).bind fun x => op' x.1 x.2) fun s => (g s).bind g' := by
  constructor
  · intro W rows l S hne hc hs
    have h1 : ∀ s ∈ S, g s ≠ none := by
      intro s hm e
      exact hs s hm (by rw [e]; rfl)
    obtain ⟨W1, rows1, l1, e1, c1, n1⟩ := h.ok hne hc h1
    have h2 : ∀ s ∈ S.map fun s => (g s).getD [], g' s ≠ none := by
      intro t ht
      obtain ⟨s, hm, rfl⟩ := List.mem_map.1 ht
      have := hs s hm
      cases e : g s with
      | none => exact absurd e (h1 s hm)
      | some t => rw [e] at this; exact this
    obtain ⟨W2, rows2, l2, e2, c2, n2⟩ := h'.ok (by simpa using hne) c1 h2
    have hval : ∀ s ∈ S, ((g s).bind g').getD [] = (g' ((g s).getD [])).getD [] := by
      intro s hm
      cases e : g s with
      | none => exact absurd e (h1 s hm)
      | some t => rfl
    refine ⟨W2, rows2, l2, by simp only [e1, Option.bind_some, e2], ?_, ?_⟩
    · rw [List.map_congr_left hval]
      rw [List.map_map] at c2
      exact c2
    · intro s hm hl
      rw [hval s hm]
      exact n2 _ (List.mem_map.2 ⟨s, hm, rfl⟩) (n1 s hm hl)
  · intro W rows l S hc ⟨s, hm, hs⟩
    by_cases hall : ∃ s ∈ S, g s = none
    · simp only [h.bad hc hall, Option.bind_none]
    · have h1 : ∀ s ∈ S, g s ≠ none := fun s hm e => hall ⟨s, hm, e⟩
      obtain ⟨W1, rows1, l1, e1, c1, n1⟩ := h.ok (by intro e; rw [e] at hm; cases hm) hc h1
      simp only [e1, Option.bind_some]
      refine h'.bad c1 ⟨(g s).getD [], List.mem_map.2 ⟨s, hm, rfl⟩, ?_⟩
      cases e : g s with
      | none => exact absurd e (h1 s hm)
      | some t => rw [e] at hs; exact hs

/-- What is done to each position on its own. -/
theorem acts_map (f : V → V) : Acts (fun rows l => some (rows.map (List.map f), l)) fun s => some (s.map f) := by
  constructor
  · intro W rows l S _ hc _
    refine ⟨W, _, l, rfl, ⟨by simp [hc.num], ?_, ?_, ?_⟩, ?_⟩
    · intro r t ht
      simp only [Option.getD_some, List.getElem?_map, Option.map_eq_some_iff] at ht
      obtain ⟨s, hs, rfl⟩ := ht
      obtain ⟨row, h1, h2⟩ := hc.begins r s hs
      exact ⟨row.map f, by simp [h1], by rw [List.length_map, ← List.map_take, h2]⟩
    · intro row hr
      obtain ⟨x, hx, rfl⟩ := List.mem_map.1 hr
      rw [List.length_map]
      exact hc.wide x hx
    · rw [List.length_map, List.map_map]
      have : (S.map ((fun t : List V => (t.length : Int)) ∘ fun s => (some (s.map f)).getD [])) =
          S.map fun s => (s.length : Int) := by
        apply List.map_congr_left
        intro s _
        simp
      rw [this]
      exact hc.layout
    · intro s _ hl
      simpa using hl
  · rintro W rows l S _ ⟨s, _, h⟩
    cases h

theorem acts_congr {op op' : List (List V) → Layout → Option (List (List V) × Layout)} {g : List V → Option (List V)}
    (h : Acts op g) (e : ∀ {W rows l S}, Carries W rows l S → op' rows l = op rows l) : Acts op' g := by
  constructor
  · intro W rows l S h1 h2 h3
    rw [e h2]
    exact h.ok h1 h2 h3
  · intro W rows l S h1 h2
    rw [e h1]
    exact h.bad h1 h2

theorem carries_one {s : List V} (h : 1 ≤ s.length) : ∃ l, Carries s.length [s] l [s] := by
  obtain ⟨l, hl⟩ := (C47_padded [(([s] : List (List V)).length : Int), (s.length : Int)]
    ([s].map fun s => (s.length : Int))).2 (s.length : Int) (by simp) (by omega) (by simp; omega)
  refine ⟨l, rfl, ?_, by simp, hl⟩
  intro r t ht
  exact ⟨t, ht, by simp⟩

theorem Acts.alone {op : List (List V) → Layout → Option (List (List V) × Layout)} {g : List V → Option (List V)}
    (h : Acts op g) {s : List V} (hs : 1 ≤ s.length) (t : List V) : Alone op s t ↔ g s = some t := by
  obtain ⟨l, hc⟩ := carries_one hs
  cases e : g s with
  | none =>
    refine ⟨?_, fun h => by cases h⟩
    rintro ⟨l', l'', hc', e', _⟩
    rw [h.bad hc' ⟨s, by simp, e⟩] at e'
    cases e'
  | some t' =>
    have key : ∀ l, Carries s.length [s] l [s] → ∃ l', op [s] l = some ([t'], l') ∧ Carries t'.length [t'] l' [t'] := by
      intro l hc
      obtain ⟨W', rows', l', e1, c1, n1⟩ := h.ok (by simp) hc (by simp [e])
      simp only [List.map_cons, List.map_nil, e, Option.getD_some] at c1
      have n1 := n1 s (by simp) rfl
      rw [e, Option.getD_some] at n1
      subst n1
      obtain ⟨row, g1, g2⟩ := c1.begins 0 t' rfl
      have hl := c1.num
      simp only [List.length_cons, List.length_nil] at hl
      obtain ⟨row', rfl⟩ := List.length_eq_one_iff.1 hl
      simp only [List.getElem?_cons_zero, Option.some.injEq] at g1
      subst g1
      rw [List.take_of_length_le (by rw [c1.wide row' (by simp)]; exact Nat.le_refl _)] at g2
      subst g2
      exact ⟨l', e1, c1⟩
    constructor
    · rintro ⟨l1, l1', hc1, e1, _⟩
      obtain ⟨l2, e2, _⟩ := key l1 hc1
      rw [e2] at e1
      simp only [Option.some.injEq, Prod.mk.injEq, List.cons.injEq, and_true] at e1
      rw [e1.1]
    · intro e'
      cases e'
      obtain ⟨l', e1, c1⟩ := key l hc
      exact ⟨l, l', hc, e1, c1⟩

/-- The results for a batch are the results for its sequences. -/
theorem Acts.batch {op : List (List V) → Layout → Option (List (List V) × Layout)} {g : List V → Option (List V)}
    (h : Acts op g) {W : Nat} {rows : List (List V)} {l : Layout} {S : List (List V)} (hne : S ≠ [])
    (hc : Carries W rows l S) :
    ((∀ s ∈ S, ∃ t, Alone op s t) → ∃ W' rows' l' T, op rows l = some (rows', l') ∧ Carries W' rows' l' T ∧
        T.length = S.length ∧ ∀ (r : Nat) s t, S[r]? = some s → T[r]? = some t → Alone op s t) ∧
    ((∃ s ∈ S, ∀ t, ¬ Alone op s t) → op rows l = none) := by
  obtain ⟨_, f2, _⟩ := hc.facts
  refine ⟨?_, ?_⟩
  · intro hs
    have hg : ∀ s ∈ S, g s ≠ none := by
      intro s hm
      obtain ⟨t, ht⟩ := hs s hm
      rw [(h.alone (f2 s hm).1 t).1 ht]
      simp
    obtain ⟨W', rows', l', e, c, _⟩ := h.ok hne hc hg
    refine ⟨W', rows', l', _, e, c, by simp, ?_⟩
    intro r s t h1 h2
    have hm := List.mem_of_getElem? h1
    rw [List.getElem?_map, h1] at h2
    simp only [Option.map_some, Option.some.injEq] at h2
    rw [h.alone (f2 s hm).1]
    cases e : g s with
    | none => exact absurd e (hg s hm)
    | some t' => rw [← h2, e]; rfl
  · rintro ⟨s, hm, hs⟩
    refine h.bad hc ⟨s, hm, ?_⟩
    cases e : g s with
    | none => rfl
    | some t => exact absurd ((h.alone (f2 s hm).1 t).2 e) (hs t)

/-! ## Convolutions without padding -/

theorem window_eq {row s : List V} {a k : Nat} (h : row.take s.length = s) (hk : a + k ≤ s.length) :
    (row.drop a).take k = (s.drop a).take k := by
  conv => rhs; rw [← h]
  rw [List.drop_take, List.take_take, Nat.min_eq_left (by omega)]

theorem conv_take {k st : Nat} {f : List V → V} {row s t : List V} (h : row.take s.length = s)
    (hl : s.length ≤ row.length) (e : conv1d k st f s = some t) :
    ∃ u, conv1d k st f row = some u ∧ u.take t.length = t ∧ u.length = (row.length - k) / st + 1 ∧
      t.length = (s.length - k) / st + 1 ∧ t.length ≤ u.length := by
  unfold conv1d at e ⊢
  split at e
  · cases e
  · next hn =>
    simp only [Option.some.injEq] at e
    have hst : 0 < st := by omega
    have hle : (s.length - k) / st ≤ (row.length - k) / st := Nat.div_le_div_right (by omega)
    rw [if_neg (by omega)]
    refine ⟨_, rfl, ?_, by simp, by rw [← e]; simp, by rw [← e]; simp; omega⟩
    rw [← e, List.length_map, List.length_range, ← List.map_take, List.take_range, Nat.min_eq_left (by omega)]
    apply List.map_congr_left
    intro i hi
    rw [List.mem_range] at hi
    have h1 : i * st ≤ s.length - k := by
      have : i ≤ (s.length - k) / st := by omega
      exact (Nat.le_div_iff_mul_le hst).1 this
    rw [window_eq h (by omega)]

/-- Layers without group norm. -/
def NoGroupNorm (layers : List (ConvLayer V)) : Prop := ∀ L ∈ layers, L.groupNorm = none

theorem layer_take {L : ConvLayer V} (hL : L.groupNorm = none) {row s t : List V} (h : row.take s.length = s)
    (hl : s.length ≤ row.length) (e : L.forward s = some t) :
    ∃ u, L.forward row = some u ∧ u.take t.length = t ∧ u.length = (row.length - L.kernel) / L.stride + 1 ∧
      t.length = (s.length - L.kernel) / L.stride + 1 ∧ t.length ≤ u.length := by
  unfold ConvLayer.forward at e ⊢
  rw [hL] at e ⊢
  simp only [Option.map_eq_some_iff] at e
  obtain ⟨t', e', rfl⟩ := e
  obtain ⟨u, h1, h2, h3, h4, h5⟩ := conv_take h hl e'
  refine ⟨u.map L.post, by rw [h1]; rfl, ?_, by simpa using h3, by simpa using h4, by simpa using h5⟩
  rw [List.length_map, ← List.map_take, h2]

/-- The number of outputs for an input of the given length. -/
def outLen : List (ConvLayer V) → Nat → Nat
  | [], n => n
  | L :: Ls, n => outLen Ls ((n - L.kernel) / L.stride + 1)

theorem stack_take : ∀ {layers : List (ConvLayer V)}, NoGroupNorm layers → ∀ {row s t : List V}, row.take s.length = s →
    s.length ≤ row.length → convStack layers s = some t →
    ∃ u, convStack layers row = some u ∧ u.take t.length = t ∧ u.length = outLen layers row.length ∧
      t.length = outLen layers s.length ∧ t.length ≤ u.length := by
  intro layers
  induction layers with
  | nil =>
    intro _ row s t h hl e
    simp only [convStack, Option.some.injEq] at e
    subst e
    exact ⟨row, rfl, h, rfl, rfl, hl⟩
  | cons L Ls ih =>
    intro hp row s t h hl e
    simp only [convStack, Option.bind_eq_some_iff] at e
    obtain ⟨y, e1, e2⟩ := e
    obtain ⟨u, h1, h2, h3, h4, h5⟩ := layer_take (hp L (by simp)) h hl e1
    obtain ⟨v, g1, g2, g3, g4, g5⟩ := ih (fun L' hL' => hp L' (by simp [hL'])) h2 h5 e2
    refine ⟨v, by simp only [convStack, h1, Option.bind_some, g1], g2, ?_, ?_, g5⟩
    · rw [g3, h3, outLen]
    · rw [g4, h4, outLen]

theorem layer_isSome {L : ConvLayer V} {xs : List V} :
    L.forward xs = none ↔ L.kernel = 0 ∨ L.stride = 0 ∨ xs.length < L.kernel := by
  unfold ConvLayer.forward conv1d
  have : ∀ a b c : Prop, (¬ a → ¬ b → c) ↔ a ∨ b ∨ c := by
    intro a b c
    by_cases a <;> by_cases b <;> simp_all
  split <;> simp_all

theorem contract_nonpos {layers : List (ConvLayer V)} (hk : ∀ L ∈ layers, 1 ≤ L.kernel ∧ 1 ≤ L.stride) :
    ∀ n : Int, n ≤ 0 → contractLen layers n ≤ 0 := by
  induction layers with
  | nil => intro n h; exact h
  | cons L Ls ih =>
    intro n h
    simp only [contractLen, List.foldl_cons]
    obtain ⟨h1, h2⟩ := hk L (by simp)
    refine ih (fun L' h => hk L' (by simp [h])) _ ?_
    have : (n - L.kernel) / (L.stride : Int) < 0 := Int.ediv_neg_of_neg_of_pos (by omega) (by omega)
    omega

theorem contract_eq : ∀ {layers : List (ConvLayer V)}, (∀ L ∈ layers, 1 ≤ L.kernel ∧ 1 ≤ L.stride) →
    ∀ (s : List V), 1 ≤ s.length →
      (∀ t, convStack layers s = some t → NoGroupNorm layers →
        contractLen layers (s.length : Int) = t.length ∧ 1 ≤ t.length) ∧
      (NoGroupNorm layers → convStack layers s = none → contractLen layers (s.length : Int) ≤ 0) := by
  intro layers
  induction layers with
  | nil =>
    intro _ s hs
    refine ⟨?_, ?_⟩
    · intro t e _
      simp only [convStack, Option.some.injEq] at e
      subst e
      exact ⟨rfl, hs⟩
    · intro _ e
      cases e
  | cons L Ls ih =>
    intro hk s hs
    obtain ⟨k1, k2⟩ := hk L (by simp)
    have ih := ih fun L' h => hk L' (by simp [h])
    cases e : L.forward s with
    | none =>
      have hshort := layer_isSome.1 e
      refine ⟨?_, ?_⟩
      · intro t e' _
        simp only [convStack, e, Option.bind_none] at e'
        cases e'
      · intro _ _
        simp only [contractLen, List.foldl_cons]
        refine contract_nonpos (fun L' h => hk L' (by simp [h])) _ ?_
        have : ((s.length : Int) - L.kernel) / (L.stride : Int) < 0 := Int.ediv_neg_of_neg_of_pos (by omega) (by omega)
        omega
    | some y =>
      have hfit : ¬ (L.kernel = 0 ∨ L.stride = 0 ∨ s.length < L.kernel) := by
        rw [← layer_isSome, e]; simp
      have hy : NoGroupNorm (L :: Ls) → y.length = (s.length - L.kernel) / L.stride + 1 := by
        intro hp
        obtain ⟨u, h1, _, _, h4, _⟩ := layer_take (hp L (by simp)) (row := s) (by simp) (Nat.le_refl _) e
        exact h4
      have hcast : NoGroupNorm (L :: Ls) → ((s.length : Int) - L.kernel) / (L.stride : Int) + 1 = y.length := by
        intro hp
        rw [hy hp]
        have : ((s.length : Int) - L.kernel) = ((s.length - L.kernel : Nat) : Int) := by omega
        rw [this]
        simp
      refine ⟨?_, ?_⟩
      · intro t e' hp
        simp only [convStack, e, Option.bind_some] at e'
        simp only [contractLen, List.foldl_cons, hcast hp]
        exact (ih y (by rw [hy hp]; exact Nat.le_add_left _ _)).1 t e' fun L' h => hp L' (by simp [h])
      · intro hp e'
        simp only [convStack, e, Option.bind_some] at e'
        simp only [contractLen, List.foldl_cons, hcast hp]
        exact (ih y (by rw [hy hp]; exact Nat.le_add_left _ _)).2 (fun L' h => hp L' (by simp [h])) e'

theorem stack_zero {layers : List (ConvLayer V)} (h : ∃ L ∈ layers, L.kernel = 0 ∨ L.stride = 0) (xs : List V) :
    convStack layers xs = none := by
  induction layers generalizing xs with
  | nil => obtain ⟨L, h, _⟩ := h; cases h
  | cons L Ls ih =>
    simp only [convStack]
    by_cases h0 : L.kernel = 0 ∨ L.stride = 0
    · rw [layer_isSome.2 (by rcases h0 with h | h <;> simp [h])]
      rfl
    · obtain ⟨L', h1, h2⟩ := h
      rcases List.mem_cons.1 h1 with rfl | h1
      · exact absurd h2 h0
      · have := ih ⟨L', h1, h2⟩
        cases e : L.forward xs with
        | none => rfl
        | some y => exact this y

theorem mapM_some_of {α β : Type} {f : α → Option β} {g : α → β} :
    ∀ {l : List α}, (∀ x ∈ l, f x = some (g x)) → l.mapM f = some (l.map g) := by
  intro l
  induction l with
  | nil => intro _; rfl
  | cons x l ih =>
    intro h
    simp [List.mapM_cons, h x (by simp), ih fun y hy => h y (by simp [hy])]

theorem mapM_none_of {α β : Type} {f : α → Option β} {l : List α} {x : α} (hx : x ∈ l) (h : f x = none) :
    l.mapM f = none := by
  induction l with
  | nil => cases hx
  | cons y l ih =>
    rcases List.mem_cons.1 hx with rfl | hx
    · simp [List.mapM_cons, h]
    · simp only [List.mapM_cons, ih hx]
      cases f y <;> rfl

theorem Carries.row {W : Nat} {rows : List (List V)} {l : Layout} {S : List (List V)} (h : Carries W rows l S)
    {row : List V} (hr : row ∈ rows) : ∃ s ∈ S, row.take s.length = s ∧ s.length ≤ row.length := by
  obtain ⟨i, hi, rfl⟩ := List.getElem_of_mem hr
  have hi' : i < S.length := by rw [← h.num]; exact hi
  obtain ⟨row, h1, h2⟩ := h.begins i S[i] (List.getElem?_eq_getElem hi')
  rw [List.getElem?_eq_getElem hi] at h1
  simp only [Option.some.injEq] at h1
  refine ⟨S[i], List.getElem_mem hi', by rw [h1]; exact h2, ?_⟩
  rw [h.wide _ hr]
  exact (h.facts.2.1 _ (List.getElem_mem hi')).2

/-- Without padding the rows are the sequences. -/
theorem Carries.eq {W : Nat} {rows : List (List V)} {l : Layout} {S : List (List V)} (h : Carries W rows l S)
    (hp : l.padded = false) : rows = S ∧ ∀ s ∈ S, s.length = W := by
  obtain ⟨_, h2, _, _, h5, _⟩ := h.facts
  have hW : ∀ s ∈ S, s.length = W := by
    intro s hs
    have := h2 s hs
    rcases Nat.lt_or_ge s.length W with hlt | hge
    · have := h5.2 ⟨s, hs, hlt⟩
      rw [hp] at this
      cases this
    · omega
  refine ⟨?_, hW⟩
  apply List.ext_getElem h.num
  intro i h1 h2
  obtain ⟨row, g1, g2⟩ := h.begins i S[i] (List.getElem?_eq_getElem h2)
  rw [List.getElem?_eq_getElem h1] at g1
  simp only [Option.some.injEq] at g1
  rw [hW _ (List.getElem_mem h2), List.take_of_length_le (by rw [← h.wide _ (List.getElem_mem h1), g1]; exact Nat.le_refl _)] at g2
  rw [g1, g2]

theorem lens_layout {N W : Nat} {lens : List Int} {padded : Bool} (hlen : lens.length = N)
    (hp : padded = false → ∀ n ∈ lens, n = (W : Int)) :
    Layout.of [(N : Int), (W : Int)] (if padded then some lens else none) false =
      Layout.new [(N : Int), (W : Int)] (some lens) false := by
  cases padded with
  | true => exact of_some N W lens
  | false =>
    simp only [Bool.false_eq_true, if_false]
    rw [of_none, List.eq_replicate_of_mem (hp rfl), hlen]

/-- The convolutions of `Wav2Vec2FeatureExtractor` without group norm. -/
theorem acts_conv {layers : List (ConvLayer V)} (hp : NoGroupNorm layers) :
    Acts (convExtract layers) (convStack layers) := by
  by_cases hk : ∀ L ∈ layers, 1 ≤ L.kernel ∧ 1 ≤ L.stride
  · constructor
    · intro W rows l S hne hc hs
      obtain ⟨f1, f2, f3, f4, f5, _⟩ := hc.facts
      have hlen : ∀ s ∈ S, contractLen layers (s.length : Int) = (((convStack layers s).getD []).length : Int) ∧
          1 ≤ ((convStack layers s).getD []).length := by
        intro s hm
        cases e : convStack layers s with
        | none => exact absurd e (hs s hm)
        | some t => exact ((contract_eq hk s (f2 s hm).1).1 t e hp)
      have hrow : ∀ row ∈ rows, convStack layers row = some ((convStack layers row).getD []) ∧
          ((convStack layers row).getD []).length = outLen layers W := by
        intro row hr
        obtain ⟨s, hm, h1, h2⟩ := hc.row hr
        cases e : convStack layers s with
        | none => exact absurd e (hs s hm)
        | some t =>
          obtain ⟨u, g1, _, g3, _⟩ := stack_take hp h1 h2 e
          rw [g1]
          exact ⟨rfl, by rw [Option.getD_some, g3, hc.wide _ hr]⟩
      have hN : 0 < rows.length := by rw [hc.num]; exact List.length_pos_iff.2 hne
      have hwid : width (rows.map fun row => (convStack layers row).getD []) = outLen layers W := by
        simp only [width, List.getElem?_map, List.getElem?_eq_getElem hN, Option.map_some, Option.getD_some]
        exact (hrow _ (List.getElem_mem hN)).2
      have hle : ∀ s ∈ S, ((convStack layers s).getD []).length ≤ outLen layers W ∧
          (s.length = W → ((convStack layers s).getD []).length = outLen layers W) := by
        intro s hm
        obtain ⟨i, hi, rfl⟩ := List.getElem_of_mem hm
        obtain ⟨row, g1, g2⟩ := hc.begins i S[i] (List.getElem?_eq_getElem hi)
        have hr := List.mem_of_getElem? g1
        cases e : convStack layers S[i] with
        | none => exact absurd e (hs _ hm)
        | some t =>
          obtain ⟨u, k1, _, k3, k4, k5⟩ := stack_take hp g2 (by rw [hc.wide _ hr]; exact (f2 _ hm).2) e
          rw [k3, hc.wide _ hr] at k5
          exact ⟨k5, fun h => by rw [Option.getD_some, k4, h]⟩
      have hlens : (l.seqLens.map (contractLen layers)) =
          ((S.map fun s => (convStack layers s).getD []).map fun t => (t.length : Int)) := by
        rw [f4, List.map_map, List.map_map]
        apply List.map_congr_left
        intro s hm
        exact (hlen s hm).1
      have hlay : ∃ l', Layout.new [((S.map fun s => (convStack layers s).getD []).length : Int),
          (outLen layers W : Int)] (some ((S.map fun s => (convStack layers s).getD []).map fun t => (t.length : Int)))
            false = some l' := by
        refine (C47_padded _ _).2 (outLen layers W : Int) (by simp) ?_ ?_
        · obtain ⟨s, hm⟩ := List.exists_mem_of_ne_nil S hne
          have := (hlen s hm).2
          have := (hle s hm).1
          omega
        · intro n hn
          simp only [List.map_map, List.mem_map, Function.comp_apply] at hn
          obtain ⟨s, hm, rfl⟩ := hn
          have := (hlen s hm).2
          have := (hle s hm).1
          omega
      obtain ⟨l', hl'⟩ := hlay
      refine ⟨outLen layers W, rows.map fun row => (convStack layers row).getD [], l', ?_, ⟨?_, ?_, ?_, hl'⟩, fun s hm => (hle s hm).2⟩
      · unfold convExtract
        rw [f3, mapM_some_of fun row hr => (hrow row hr).1]
        simp only [Bool.false_eq_true, if_false, Option.bind_some, hwid]
        rw [lens_layout (by rw [List.length_map, f4, List.length_map, List.length_map, hc.num]), hlens,
          List.length_map, hc.num]
        · rw [List.length_map] at hl'
          rw [hl']
          rfl
        · intro hpad n hn
          rw [hlens] at hn
          simp only [List.map_map, List.mem_map, Function.comp_apply] at hn
          obtain ⟨s, hm, rfl⟩ := hn
          rw [(hle s hm).2 ((hc.eq hpad).2 s hm)]
      · rw [List.length_map, List.length_map, hc.num]
      · intro r t ht
        simp only [List.getElem?_map, Option.map_eq_some_iff] at ht
        obtain ⟨s, hm, rfl⟩ := ht
        obtain ⟨row, g1, g2⟩ := hc.begins r s hm
        have hr := List.mem_of_getElem? g1
        have hsm := List.mem_of_getElem? hm
        refine ⟨(convStack layers row).getD [], by simp [g1], ?_⟩
        cases e : convStack layers s with
        | none => exact absurd e (hs s hsm)
        | some t =>
          obtain ⟨u, k1, k2, _⟩ := stack_take hp g2 (by rw [hc.wide _ hr]; exact (f2 s hsm).2) e
          rw [k1]
          exact k2
      · intro row hr
        obtain ⟨x, hx, rfl⟩ := List.mem_map.1 hr
        exact (hrow x hx).2
    · intro W rows l S hc ⟨s, hm, hs⟩
      obtain ⟨f1, f2, f3, f4, f5, _⟩ := hc.facts
      unfold convExtract
      rw [f3]
      simp only [Bool.false_eq_true, if_false]
      cases e : rows.mapM (convStack layers) with
      | none => rfl
      | some out =>
        simp only [Option.bind_some]
        cases hpad : l.padded with
        | false =>
          obtain ⟨rfl, _⟩ := hc.eq hpad
          rw [mapM_none_of hm hs] at e
          cases e
        | true =>
          simp only [if_true]
          rw [of_some]
          cases e' : Layout.new [(out.length : Int), (width out : Int)] (some (l.seqLens.map (contractLen layers))) false with
          | none => rfl
          | some l' =>
            obtain ⟨w, _, _, h3, _⟩ := (C47_padded _ _).1 l' e'
            have := h3 (contractLen layers (s.length : Int)) (by
              rw [f4, List.map_map]
              exact List.mem_map.2 ⟨s, hm, rfl⟩)
            have := (contract_eq hk s (f2 s hm).1).2 hp hs
            omega
  · have hz : ∃ L ∈ layers, L.kernel = 0 ∨ L.stride = 0 := by
      simp only [Classical.not_forall, Classical.not_and_iff_not_or_not] at hk
      obtain ⟨L, h1, h2⟩ := hk
      exact ⟨L, h1, by omega⟩
    constructor
    · intro W rows l S hne hc hs
      obtain ⟨s, hm⟩ := List.exists_mem_of_ne_nil S hne
      exact absurd (stack_zero hz s) (hs s hm)
    · intro W rows l S hc ⟨s, hm, _⟩
      have hN : 0 < rows.length := by
        rw [hc.num]
        exact List.length_pos_of_mem hm
      unfold convExtract
      rw [hc.facts.2.2.1, mapM_none_of (List.getElem_mem hN) (stack_zero hz _)]
      rfl

/-! ## Stacked frames -/

/-- The stacked frames of one sequence. -/
def fbankOne (stride : Nat) (stack : List V → V) (s : List V) : Option (List V) :=
  if stride = 0 ∨ s.length < stride then none
  else some ((List.range (s.length / stride)).map fun i => stack ((s.drop (i * stride)).take stride))

theorem acts_fbank (stride every : Nat) (he : every ≤ 1) (stack : List V → V) :
    Acts (fbankExtract stride every stack) (fbankOne stride stack) := by
  by_cases h0 : stride = 0
  · subst h0
    constructor
    · intro W rows l S hne hc hs
      obtain ⟨s, hm⟩ := List.exists_mem_of_ne_nil S hne
      exact absurd (by simp [fbankOne]) (hs s hm)
    · intro W rows l S hc _
      simp [fbankExtract]
  have hpos : 0 < stride := Nat.pos_of_ne_zero h0
  have hfr : ∀ W, (W - W % stride) / stride = W / stride := by
    intro W
    have := Nat.div_add_mod W stride
    rw [show W - W % stride = stride * (W / stride) by omega, Nat.mul_div_cancel_left _ hpos]
  have hmul : ∀ W, W - W % stride = stride * (W / stride) := by
    intro W
    have := Nat.div_add_mod W stride
    omega
  have hunf : ∀ {W rows l S}, S ≠ [] → Carries W rows l S → fbankExtract stride every stack rows l =
      (Layout.new [(S.length : Int), ((W / stride : Nat) : Int)] (some (S.map fun s => ((s.length / stride : Nat) : Int)))
        false).map fun l => (rows.map fun xs => (List.range (W / stride)).map fun i =>
          stack ((xs.drop (i * stride)).take stride), l) := by
    intro W rows l S hne hc
    obtain ⟨f1, f2, f3, f4, f5, _⟩ := hc.facts
    have hN : 0 < rows.length := by rw [hc.num]; exact List.length_pos_iff.2 hne
    have hw : width rows = W := by
      simp only [width, List.getElem?_eq_getElem hN, Option.getD_some]
      exact hc.wide _ (List.getElem_mem hN)
    unfold fbankExtract
    rw [f3, hw]
    simp only [h0, decide_false, Bool.or_self, Bool.false_eq_true, if_false, show ¬ 1 < every by omega, hfr, List.length_map, hc.num]
    have hlens : (l.seqLens.map fun n => min n ((W - W % stride : Nat) : Int) / (stride : Int)) =
        S.map fun s => ((s.length / stride : Nat) : Int) := by
      rw [f4, List.map_map]
      apply List.map_congr_left
      intro s hm
      have h1 := (f2 s hm).2
      simp only [Function.comp_apply]
      have : min (s.length : Int) ((W - W % stride : Nat) : Int) = ((min s.length (W - W % stride) : Nat) : Int) := by omega
      rw [this]
      have h2 : min s.length (W - W % stride) / stride = s.length / stride := by
        rw [hmul]
        have h3 : s.length / stride ≤ W / stride := Nat.div_le_div_right h1
        rcases Nat.le_total s.length (stride * (W / stride)) with h | h
        · rw [Nat.min_eq_left h]
        · rw [Nat.min_eq_right h, Nat.mul_div_cancel_left _ hpos]
          have : W / stride ≤ s.length / stride := by
            rw [Nat.le_div_iff_mul_le hpos, Nat.mul_comm]
            exact h
          omega
      exact_mod_cast congrArg (fun n : Nat => (n : Int)) h2
    rw [hlens, lens_layout (by simp)]
    · congr 1
      funext l'
      congr 1
      apply List.map_congr_left
      intro xs hxs
      apply List.map_congr_left
      intro i hi
      rw [List.mem_range] at hi
      congr 1
      rw [List.drop_take, List.take_take, Nat.min_eq_left]
      rw [hmul]
      have : stride * (i + 1) ≤ stride * (W / stride) := Nat.mul_le_mul_left _ (by omega)
      rw [Nat.mul_add, Nat.mul_one] at this
      rw [Nat.mul_comm i]
      omega
    · intro hpad n hn
      obtain ⟨s, hm, rfl⟩ := List.mem_map.1 hn
      rw [(hc.eq hpad).2 s hm]
  have hone : ∀ s, fbankOne stride stack s ≠ none → stride ≤ s.length ∧ (fbankOne stride stack s).getD [] =
      (List.range (s.length / stride)).map fun i => stack ((s.drop (i * stride)).take stride) := by
    intro s h
    unfold fbankOne at h ⊢
    split at h
    · exact absurd rfl h
    · next hn =>
      rw [if_neg hn]
      exact ⟨by omega, rfl⟩
  constructor
  · intro W rows l S hne hc hs
    obtain ⟨f1, f2, f3, f4, f5, _⟩ := hc.facts
    have hmap : (S.map fun s => ((s.length / stride : Nat) : Int)) =
        ((S.map fun s => (fbankOne stride stack s).getD []).map fun t => (t.length : Int)) := by
      rw [List.map_map]
      apply List.map_congr_left
      intro s hm
      simp only [Function.comp_apply, (hone s (hs s hm)).2, List.length_map, List.length_range]
    have hlay : ∃ l', Layout.new [(S.length : Int), ((W / stride : Nat) : Int)]
        (some (S.map fun s => ((s.length / stride : Nat) : Int))) false = some l' := by
      have key : ∀ s ∈ S, 1 ≤ s.length / stride ∧ s.length / stride ≤ W / stride := by
        intro s hm
        have := (hone s (hs s hm)).1
        exact ⟨by rw [Nat.le_div_iff_mul_le hpos]; omega, Nat.div_le_div_right (f2 s hm).2⟩
      refine (C47_padded _ _).2 ((W / stride : Nat) : Int) (by simp) ?_ ?_
      · obtain ⟨s, hm⟩ := List.exists_mem_of_ne_nil S hne
        have := key s hm
        exact_mod_cast Nat.le_trans this.1 this.2
      · intro n hn
        obtain ⟨s, hm, rfl⟩ := List.mem_map.1 hn
        have := key s hm
        exact ⟨by exact_mod_cast this.1, by exact_mod_cast this.2⟩
    obtain ⟨l', hl'⟩ := hlay
    refine ⟨W / stride, rows.map fun xs => (List.range (W / stride)).map fun i =>
          stack ((xs.drop (i * stride)).take stride), l', by rw [hunf hne hc, hl']; rfl, ⟨by simp [hc.num], ?_, ?_, ?_⟩, ?_⟩
    · intro r t ht
      simp only [List.getElem?_map, Option.map_eq_some_iff] at ht
      obtain ⟨s, hm, rfl⟩ := ht
      obtain ⟨row, g1, g2⟩ := hc.begins r s hm
      have hsm := List.mem_of_getElem? hm
      refine ⟨_, by rw [List.getElem?_map, g1]; rfl, ?_⟩
      rw [(hone s (hs s hsm)).2, List.length_map, List.length_range, ← List.map_take, List.take_range,
        Nat.min_eq_left (Nat.div_le_div_right (f2 s hsm).2)]
      apply List.map_congr_left
      intro i hi
      rw [List.mem_range] at hi
      rw [window_eq g2]
      have : stride * (i + 1) ≤ stride * (s.length / stride) := Nat.mul_le_mul_left _ (by omega)
      have := Nat.mul_div_le s.length stride
      rw [Nat.mul_add, Nat.mul_one] at *
      rw [Nat.mul_comm i]
      omega
    · intro row hr
      obtain ⟨x, _, rfl⟩ := List.mem_map.1 hr
      simp
    · rw [← hmap, List.length_map]
      exact hl'
    · intro s hm hl
      rw [(hone s (hs s hm)).2, hl]
      simp
  · intro W rows l S hc ⟨s, hm, hs⟩
    rw [hunf (by intro e; rw [e] at hm; cases hm) hc]
    cases e' : Layout.new [(S.length : Int), ((W / stride : Nat) : Int)]
        (some (S.map fun s => ((s.length / stride : Nat) : Int))) false with
    | none => rfl
    | some l' =>
      obtain ⟨w, _, _, h3, _⟩ := (C47_padded _ _).1 l' e'
      have h4 := h3 _ (List.mem_map.2 ⟨s, hm, rfl⟩)
      have : s.length < stride := by
        unfold fbankOne at hs
        split at hs
        · omega
        · cases hs
      rw [Nat.div_eq_of_lt this] at h4
      omega

/-! ## Convolutions with zeros on both sides -/

section
variable [Zero V]

theorem ext_nat (xs : List V) (i : Nat) : ext xs (i : Int) = (xs[i]?).getD 0 := by
  simp [ext]

theorem ext_zeros (xs : List V) (m : Nat) : ext (xs ++ List.replicate m 0) = ext xs := by
  funext j
  unfold ext
  split
  · rw [List.getElem?_append]
    split
    · rfl
    · next h =>
      rw [List.getElem?_eq_none (Nat.le_of_not_lt h), List.getElem?_replicate]
      split <;> rfl
  · rfl

theorem ext_map {f : V → V} (hf : f 0 = 0) (xs : List V) (j : Int) : ext (xs.map f) j = f (ext xs j) := by
  unfold ext
  split
  · rw [List.getElem?_map]
    cases xs[j.toNat]? <;> simp [hf]
  · exact hf.symm

theorem masked {W : Nat} {rows : List (List V)} {l : Layout} {S : List (List V)} (h : Carries W rows l S) :
    maskPadding l rows = S.map fun s => s ++ List.replicate (W - s.length) 0 := by
  unfold maskPadding
  obtain ⟨_, f2, _, _, f5, f6, f7⟩ := h.facts
  cases hp : l.padded with
  | false =>
    obtain ⟨rfl, hW⟩ := h.eq hp
    simp only [Bool.false_eq_true, if_false]
    have : ∀ s ∈ rows, s ++ List.replicate (W - s.length) 0 = id s := by
      intro s hs
      simp [hW s hs]
    rw [List.map_congr_left this, List.map_id]
  | true =>
    simp only [if_true]
    apply List.ext_getElem (by simp [f6, h.num])
    intro r h1 h2
    simp only [List.length_map] at h2
    obtain ⟨row, g1, g2⟩ := h.begins r S[r] (List.getElem?_eq_getElem h2)
    obtain ⟨p, p1, p2, p3⟩ := f7 r S[r] (List.getElem?_eq_getElem h2)
    have hrow := h.wide _ (List.mem_of_getElem? g1)
    obtain ⟨hr, g1⟩ := List.getElem?_eq_some_iff.1 g1
    obtain ⟨hr', p1⟩ := List.getElem?_eq_some_iff.1 p1
    have hle := (f2 _ (List.getElem_mem h2)).2
    rw [List.getElem_zipWith, List.getElem_map, g1, p1]
    apply List.ext_getElem (by simp; omega)
    intro q q1 q2
    have hq : q < W := by simp at q1; omega
    rw [List.getElem_zipWith]
    have h3 := p3 q hq
    rw [List.getElem?_eq_getElem (by omega)] at h3
    simp only [Option.some.injEq] at h3
    rw [h3, List.getElem_append]
    by_cases hlt : q < S[r].length
    · rw [dif_pos hlt, if_pos hlt, if_pos (by omega)]
      have : S[r] = row.take S[r].length := g2.symm
      conv => rhs; rw [List.getElem_of_eq this]
      rw [List.getElem_take]
    · rw [dif_neg hlt, if_neg hlt, if_neg (by omega), List.getElem_replicate]

/-- What is done to a row at one position depends on the position and on the row continued by zeros. -/
def Local (h : List V → List V) : Prop :=
  ∃ G : (Int → V) → Nat → V, ∀ xs, h xs = (List.range xs.length).map (G (ext xs))

theorem acts_local {h : List V → List V} (hl : Local h) :
    Acts (fun rows l => some ((maskPadding l rows).map h, l)) fun s => some (h s) := by
  obtain ⟨G, hG⟩ := hl
  have hlen : ∀ s, (h s).length = s.length := by
    intro s
    rw [hG, List.length_map, List.length_range]
  constructor
  · intro W rows l S _ hc _
    obtain ⟨_, f2, _⟩ := hc.facts
    refine ⟨W, _, l, rfl, ⟨by rw [masked hc]; simp, ?_, ?_, ?_⟩, ?_⟩
    · intro r t ht
      simp only [Option.getD_some, List.getElem?_map, Option.map_eq_some_iff] at ht
      obtain ⟨s, hs, rfl⟩ := ht
      have hsm := (f2 s (List.mem_of_getElem? hs)).2
      refine ⟨h (s ++ List.replicate (W - s.length) 0), by rw [masked hc]; simp [hs], ?_⟩
      rw [hlen, hG, hG, ext_zeros, ← List.map_take, List.take_range, List.length_append, List.length_replicate,
        Nat.min_eq_left (by omega)]
    · intro row hr
      rw [masked hc, List.map_map] at hr
      obtain ⟨s, hs, rfl⟩ := List.mem_map.1 hr
      have := (f2 s hs).2
      simp only [Function.comp_apply, hlen, List.length_append, List.length_replicate]
      omega
    · rw [List.length_map, List.map_map]
      have : (S.map ((fun t : List V => (t.length : Int)) ∘ fun s => (some (h s)).getD [])) =
          S.map fun s => (s.length : Int) := by
        apply List.map_congr_left
        intro s _
        simp [hlen]
      rw [this]
      exact hc.layout
    · intro s _ hl
      rw [Option.getD_some, hlen, hl]
  · rintro W rows l S _ ⟨s, _, h⟩
    cases h

theorem convSame_local (k : Nat) (hk : 0 < k) (f : List V → V) (xs : List V) : convSame k f xs =
    (List.range xs.length).map fun i => f ((List.range k).map fun j => ext xs (((i + j : Nat) : Int) - ((k - 1) / 2 : Nat))) := by
  unfold convSame convZ
  rw [show xs.length + (k - 1) / 2 + (k - 1 - (k - 1) / 2) + 1 - k = xs.length by omega]

theorem pos_local (k : Nat) (f : List V → V) (act : V → V) (add : V → V → V) :
    Local fun xs : List V =>
      List.zipWith add xs ((if k % 2 = 0 then (convZ k (k / 2) (k / 2) f xs).dropLast else convZ k (k / 2) (k / 2) f xs).map act) := by
  refine ⟨fun e i => add (e i) (act (f ((List.range k).map fun j => e (((i + j : Nat) : Int) - ((k / 2 : Nat) : Int))))), ?_⟩
  intro xs
  have hy : (if k % 2 = 0 then (convZ k (k / 2) (k / 2) f xs).dropLast else convZ k (k / 2) (k / 2) f xs) =
      (List.range xs.length).map fun i => f ((List.range k).map fun j => ext xs (((i + j : Nat) : Int) - ((k / 2 : Nat) : Int))) := by
    unfold convZ
    split
    · rw [show xs.length + k / 2 + k / 2 + 1 - k = xs.length + 1 by omega, ← List.map_dropLast]
      congr 1
      rw [List.dropLast_eq_take, List.length_range, List.take_range]
      congr 1
      omega
    · rw [show xs.length + k / 2 + k / 2 + 1 - k = xs.length by omega]
  simp only [hy]
  apply List.ext_getElem (by simp)
  intro i h1 h2
  simp only [List.length_map, List.length_range] at h2
  rw [List.getElem_zipWith]
  simp only [List.getElem_map, List.getElem_range]
  rw [ext_nat, List.getElem?_eq_getElem h2]
  rfl

theorem conformer_local (c : ConformerConv V) (hk : 0 < c.kernel) (h0 : c.first 0 = 0) :
    Local fun xs : List V => (if c.causal then convZ c.kernel (c.kernel - 1) 0 c.depthwise (xs.map c.first)
      else convSame c.kernel c.depthwise (xs.map c.first)).map c.last := by
  cases hc : c.causal with
  | true =>
    refine ⟨fun e i => c.last (c.depthwise ((List.range c.kernel).map fun j =>
      c.first (e (((i + j : Nat) : Int) - ((c.kernel - 1 : Nat) : Int))))), ?_⟩
    intro xs
    simp only [if_true, convZ, List.map_map, List.length_map]
    rw [show xs.length + (c.kernel - 1) + 0 + 1 - c.kernel = xs.length by omega]
    apply List.map_congr_left
    intro i _
    simp only [Function.comp_apply, ext_map h0]
  | false =>
    refine ⟨fun e i => c.last (c.depthwise ((List.range c.kernel).map fun j =>
      c.first (e (((i + j : Nat) : Int) - (((c.kernel - 1) / 2 : Nat) : Int))))), ?_⟩
    intro xs
    simp only [Bool.false_eq_true, if_false, convSame_local _ hk, List.map_map, List.length_map]
    apply List.map_congr_left
    intro i _
    simp only [Function.comp_apply, ext_map h0]

end

end Fs2.Speech
