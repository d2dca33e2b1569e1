import Verif.Tokenizer.Families
import Std.Data.String.ToNat

/-! # Lemmas about tokenizers -/

namespace Fs2.Tok

theorem swapBack_append (l r : List α) (a b : α) :
    swapBack (l ++ b :: a :: r) (l.length + 1) = l ++ a :: b :: r := by
  simp [swapBack]

theorem bubble_append (l r : List α) (a : α) :
    bubble (l ++ a :: r) l.length = a :: (l ++ r) := by
  induction hn : l.length generalizing l r with
  | zero =>
    cases l with
    | nil => rfl
    | cons b l => simp at hn
  | succ n ih =>
    obtain ⟨l', b, rfl⟩ : ∃ l' b, l = l' ++ [b] := by
      refine ⟨l.dropLast, l.getLast (by rintro rfl; simp at hn), ?_⟩
      exact (List.dropLast_concat_getLast _).symm
    have hl : l'.length = n := by simpa using hn
    rw [bubble]
    have := swapBack_append l' r a b
    rw [hl] at this
    simp only [List.append_assoc, List.singleton_append]
    rw [this]
    exact (ih l' (b :: r) hl).trans (by simp)

theorem bubble_last (l : List α) (a : α) :
    bubble (l ++ [a]) ((l ++ [a]).length - 1) = a :: l := by
  simpa using bubble_append l [] a

theorem writeUp_eq (xs : List Nat) (l r : List Nat) (h : xs.length ≤ r.length) :
    writeUp (l ++ r) l.length xs = (l ++ xs ++ r.drop xs.length, l.length + xs.length) := by
  induction xs generalizing l r with
  | nil => simp [writeUp]
  | cons x xs ih =>
    cases r with
    | nil => simp at h
    | cons y r =>
      have hs : (l ++ y :: r).set l.length x = (l ++ [x]) ++ r := by simp
      rw [writeUp, hs]
      have := ih (l ++ [x]) r (by simpa using h)
      simp only [List.length_append, List.length_cons, List.length_nil] at this
      rw [this]
      simp
      omega

theorem writeDown_eq (xs : List Nat) (l r : List Nat) (h : xs.length ≤ l.length) :
    writeDown (l ++ r) (l.length - 1) xs
      = (l.take (l.length - xs.length) ++ xs.reverse ++ r, l.length - xs.length - 1) := by
  induction xs generalizing l r with
  | nil => simp [writeDown]
  | cons x xs ih =>
    obtain ⟨l', b, rfl⟩ : ∃ l' b, l = l' ++ [b] := by
      refine ⟨l.dropLast, l.getLast (by rintro rfl; simp at h), ?_⟩
      exact (List.dropLast_concat_getLast _).symm
    have hs : (l' ++ [b] ++ r).set ((l' ++ [b]).length - 1) x = l' ++ (x :: r) := by
      simp
    rw [writeDown, hs]
    have h' : xs.length ≤ l'.length := by simpa using h
    have := ih l' (x :: r) h'
    have he : (l' ++ [b]).length - 1 - 1 = l'.length - 1 := by simp
    rw [he, this]
    have h1 : (l' ++ [b]).length - (x :: xs).length = l'.length - xs.length := by simp
    rw [h1]
    simp [List.take_append_of_le_length]

theorem spCall_eq (p : Proto) (lib : Lib) (e : SpEncoder) (draw : Nat) (text : String) :
    e.call p lib draw text =
      (fun l => if e.reverse then l.reverse else l)
        (e.prefixTokens.map p.tokenToIndex ++ (e.pieces lib draw text).map (·.id)
          ++ e.suffixTokens.map p.tokenToIndex) := by
  unfold SpEncoder.call
  generalize hp : e.prefixTokens.map p.tokenToIndex = pre
  generalize hs : e.suffixTokens.map p.tokenToIndex = suf
  generalize hi : (e.pieces lib draw text).map (·.id) = ids
  simp only
  split
  · have h1 := writeDown_eq pre (List.replicate (ids.length + pre.length + suf.length) 0) []
      (by simp; omega)
    simp only [List.append_nil, List.length_replicate, List.take_replicate] at h1
    rw [h1]
    simp only
    have e1 : min (ids.length + pre.length + suf.length - pre.length)
        (ids.length + pre.length + suf.length) = ids.length + suf.length := by omega
    have e2 : ids.length + pre.length + suf.length - pre.length - 1
        = (List.replicate (ids.length + suf.length) 0).length - 1 := by simp; omega
    rw [e1, e2, writeDown_eq ids _ _ (by simp)]
    simp only [List.length_replicate, List.take_replicate]
    have e3 : min (ids.length + suf.length - ids.length) (ids.length + suf.length)
        = suf.length := by omega
    have e4 : ids.length + suf.length - ids.length - 1
        = (List.replicate suf.length 0).length - 1 := by simp
    rw [e3, e4, List.append_assoc, writeDown_eq suf _ _ (by simp)]
    simp
  · have h1 := writeUp_eq pre [] (List.replicate (ids.length + pre.length + suf.length) 0)
      (by simp; omega)
    simp only [List.nil_append, List.length_nil, Nat.zero_add, List.drop_replicate] at h1
    rw [h1]
    simp only
    rw [writeUp_eq ids _ _ (by simp; omega)]
    simp only [List.drop_replicate]
    have e1 : pre.length + ids.length = (pre ++ ids).length := by simp
    rw [e1, writeUp_eq suf _ _ (by simp; omega)]
    simp
    omega

theorem mapOk_ok {f : α → Except Refusal β} {g : α → β} {l : List α}
    (h : ∀ a ∈ l, f a = .ok (g a)) : mapOk f l = .ok (l.map g) := by
  induction l with
  | nil => rfl
  | cons a l ih =>
    have h1 := h a (by simp)
    have h2 := ih (fun b hb => h b (by simp [hb]))
    simp [mapOk, h1, h2]

theorem mapOk_length {f : α → Except Refusal β} {l : List α} {r : List β}
    (h : mapOk f l = .ok r) : r.length = l.length := by
  induction l generalizing r with
  | nil => simp [mapOk] at h; subst h; rfl
  | cons a l ih =>
    simp only [mapOk] at h
    split at h
    · cases h
    · split at h
      · cases h
      · rename_i bs hbs
        cases h
        simp [ih hbs]

theorem mapOk_error_iff {f : α → Except Refusal β} {l : List α} :
    (∃ e, mapOk f l = .error e) ↔ ∃ a ∈ l, ∃ e, f a = .error e := by
  induction l with
  | nil => simp [mapOk]
  | cons a l ih =>
    simp only [mapOk]
    cases ha : f a with
    | error e => simp [ha]
    | ok b =>
      cases hl : mapOk f l with
      | error e =>
        have := ih.1 ⟨e, hl⟩
        obtain ⟨x, hx, e', he'⟩ := this
        simp only [List.mem_cons, exists_eq_or_imp]
        constructor
        · intro _; exact Or.inr ⟨x, hx, e', he'⟩
        · intro _; exact ⟨e, rfl⟩
      | ok bs =>
        simp only [List.mem_cons, exists_eq_or_imp, ha]
        constructor
        · rintro ⟨e, he⟩; cases he
        · rintro (⟨e, he⟩ | h)
          · cases he
          · obtain ⟨e, he⟩ := ih.2 h
            rw [hl] at he; cases he

/-- The texts of one map are distinct in a model that loads. -/
theorem loads_nodup {p : Proto} (h : p.loads) (r : Bool) :
    ((p.pieces.filter (·.kind.reserved == r)).map (·.text)).Nodup := by
  simp only [Proto.loads, Bool.and_eq_true, decide_eq_true_eq] at h
  cases r with
  | true => simpa using h.1.1.2
  | false => simpa using h.1.2

theorem filter_nodup_inj {l : List α} {c : α → Bool} {g : α → β}
    (h : ((l.filter c).map g).Nodup) {i j : Nat} {a b : α} (hi : l[i]? = some a)
    (hj : l[j]? = some b) (ha : c a) (hb : c b) (hg : g a = g b) : i = j := by
  induction l generalizing i j with
  | nil => simp at hi
  | cons x l ih =>
    have htail : ((l.filter c).map g).Nodup := by
      by_cases hx : c x
      · simp only [List.filter_cons, hx, if_true, List.map_cons, List.nodup_cons] at h; exact h.2
      · simpa [List.filter_cons, hx] using h
    cases i with
    | zero =>
      cases j with
      | zero => rfl
      | succ j =>
        simp only [List.getElem?_cons_zero, Option.some.injEq] at hi
        subst hi
        simp only [List.getElem?_cons_succ] at hj
        simp only [List.filter_cons, ha, if_true, List.map_cons, List.nodup_cons] at h
        exact absurd (List.mem_map.2 ⟨b, by simp [hb, List.mem_of_getElem? hj], hg.symm⟩) h.1
    | succ i =>
      cases j with
      | zero =>
        simp only [List.getElem?_cons_zero, Option.some.injEq] at hj
        subst hj
        simp only [List.getElem?_cons_succ] at hi
        simp only [List.filter_cons, hb, if_true, List.map_cons, List.nodup_cons] at h
        exact absurd (List.mem_map.2 ⟨a, by simp [ha, List.mem_of_getElem? hi], hg⟩) h.1
      | succ j =>
        simp only [List.getElem?_cons_succ] at hi hj
        rw [ih htail hi hj]

theorem lookup_of {p : Proto} (h : p.loads) {i : Nat} {q : Piece} (hi : p.pieces[i]? = some q)
    (r : Bool) (hr : q.kind.reserved = r) : p.lookup r q.text = some i := by
  unfold Proto.lookup
  have hlt : i < p.pieces.length := (List.getElem?_eq_some_iff.1 hi).1
  have hq : p.pieces[i] = q := (List.getElem?_eq_some_iff.1 hi).2
  rw [List.findIdx?_eq_some_iff_getElem]
  refine ⟨hlt, by simp [hq, hr], ?_⟩
  intro j hj
  intro hc
  simp only [Bool.and_eq_true, beq_iff_eq] at hc
  have hjlt : j < p.pieces.length := by omega
  have := filter_nodup_inj (loads_nodup h r) (i := j) (j := i) (a := p.pieces[j]) (b := q)
    (List.getElem?_eq_getElem hjlt) hi (by simp [hc.1]) (by simp [hr]) hc.2
  omega

theorem lookup_none {p : Proto} {r : Bool} {t : String}
    (h : ∀ q ∈ p.pieces, q.kind.reserved = r → q.text ≠ t) : p.lookup r t = none := by
  unfold Proto.lookup
  rw [List.findIdx?_eq_none_iff]
  intro q hq
  have := h q hq
  cases hr : (q.kind.reserved == r) with
  | false => rfl
  | true => simpa using this (by simpa using hr)

theorem tokenToIndex_reserved {p : Proto} (h : p.loads) {i : Nat} {q : Piece}
    (hi : p.pieces[i]? = some q) (hr : q.kind.reserved = true) : p.tokenToIndex q.text = i := by
  simp [Proto.tokenToIndex, lookup_of h hi true hr]

theorem tokenToIndex_plain {p : Proto} (h : p.loads) {i : Nat} {q : Piece}
    (hi : p.pieces[i]? = some q) (hr : q.kind.reserved = false)
    (hn : ∀ q' ∈ p.pieces, q'.kind.reserved = true → q'.text ≠ q.text) :
    p.tokenToIndex q.text = i := by
  simp [Proto.tokenToIndex, lookup_of h hi false hr, lookup_none hn]

theorem tokenToIndex_unknown {p : Proto} {t : String} (h : ∀ q ∈ p.pieces, q.text ≠ t) :
    p.tokenToIndex t = p.unk := by
  simp [Proto.tokenToIndex, lookup_none (r := true) fun q hq _ => h q hq,
    lookup_none (r := false) fun q hq _ => h q hq]

/-- Control symbols other than the padding symbols are appended. -/
theorem addSymbols_plain (symbols : List String) (p : Proto)
    (h : ∀ s ∈ symbols, s ≠ "" ∧ s ≠ "<pad>" ∧ s ≠ "<pad>@0") :
    p.addSymbols symbols = { p with pieces := p.pieces ++ symbols.map (⟨·, .control⟩) } := by
  unfold Proto.addSymbols
  induction symbols generalizing p with
  | nil => simp
  | cons s symbols ih =>
    have hs := h s (by simp)
    have h1 : p.addSymbol s = p.addPiece s := by simp [Proto.addSymbol, hs.1, hs.2.1, hs.2.2]
    rw [List.foldl_cons, h1, ih _ (fun t ht => h t (by simp [ht]))]
    simp [Proto.addPiece]

theorem addSymbols_append (a b : List String) (p : Proto) :
    p.addSymbols (a ++ b) = (p.addSymbols a).addSymbols b := by
  simp [Proto.addSymbols, List.foldl_append]

theorem addSymbol_pad0 (p : Proto) :
    p.addSymbol "<pad>@0"
      = { p with pieces := ⟨"<pad>", .control⟩ :: p.pieces, padPiece := "<pad>" } := by
  have h1 : ("<pad>@0" : String) ≠ "" := by decide
  simp only [Proto.addSymbol, h1, if_false, or_true, if_true, Proto.addPiece]
  rw [bubble_last]

theorem wrap32_nat {i : Nat} (h : i < 2147483648) : wrap32 (i : Int) = i := by
  unfold wrap32; omega

theorem mapOk_congr {f g : α → Except Refusal β} {l : List α} (h : ∀ a ∈ l, f a = g a) :
    mapOk f l = mapOk g l := by
  induction l with
  | nil => rfl
  | cons a l ih => simp [mapOk, h a (by simp), ih fun b hb => h b (by simp [hb])]

theorem mapOk_map {f : β → Except Refusal γ} {g : α → β} {l : List α} :
    mapOk f (l.map g) = mapOk (fun a => f (g a)) l := by
  induction l with
  | nil => rfl
  | cons a l ih => simp [mapOk, ih]

theorem range_getD (l : List Int) :
    (List.range l.length).map (fun j => l.getD j 0) = l := by
  apply List.ext_getElem <;> simp
  intro i h1 h2
  simp [h1]

theorem range_getD_reverse (l : List Int) :
    (List.range l.length).map (fun j => l.getD (l.length - 1 - j) 0) = l.reverse := by
  apply List.ext_getElem <;> simp
  intro i h1
  have : l.length - 1 - i < l.length := by omega
  simp [this]

/-- The decoder reads the indices from the right side. -/
theorem spDecode_eq (p : Proto) (lib : Lib) (reverse : Bool) (indices : List Int) :
    spDecode p lib reverse indices =
      match mapOk (fun i => p.indexToToken32 (wrap32 i))
        (if reverse then indices.reverse else indices) with
      | .ok tokens => .ok (lib.decode tokens)
      | .error e => .error e := by
  unfold spDecode
  cases reverse with
  | true =>
    simp only [if_true]
    have := mapOk_map (f := fun i => p.indexToToken32 (wrap32 i))
      (g := fun j => indices.getD (indices.length - 1 - j) 0) (l := List.range indices.length)
    rw [range_getD_reverse] at this
    rw [this]
    rfl
  | false =>
    simp only [Bool.false_eq_true, if_false]
    have := mapOk_map (f := fun i => p.indexToToken32 (wrap32 i))
      (g := fun j => indices.getD j 0) (l := List.range indices.length)
    rw [range_getD] at this
    rw [this]
    rfl

theorem indexToToken32_ok {p : Proto} {i : Nat} {q : Piece} (h : p.pieces[i]? = some q) :
    p.indexToToken32 (i : Int) = .ok q.text := by
  have : ¬ ((i : Int) < 0) := by omega
  simp [Proto.indexToToken32, this, h]

/-! ## tiktoken -/

theorem dictPut_new {d : List (String × Nat)} {k : String} {v : Nat}
    (h : ∀ q ∈ d, q.1 ≠ k) : dictPut d k v = d ++ [(k, v)] := by
  have : d.any (·.1 == k) = false := by
    rw [List.any_eq_false]
    intro q hq
    simpa using h q hq
  simp [dictPut, this]

theorem specialMap_eq (n : Nat) (ts : List String) (i : Nat) (d : List (String × Nat))
    (hn : ts.Nodup) (hd : ∀ q ∈ d, q.1 ∉ ts) :
    specialMap n i d ts = d ++ ts.mapIdx (fun j t => (t, n + i + j)) := by
  induction ts generalizing i d with
  | nil => simp [specialMap]
  | cons t ts ih =>
    rw [List.nodup_cons] at hn
    rw [specialMap, dictPut_new (fun q hq he => hd q hq (by simp [he])),
      ih _ _ hn.2]
    · simp only [List.mapIdx_cons, List.append_assoc, List.singleton_append, Nat.add_zero]
      congr 2
      apply List.ext_getElem <;> simp
      intros; omega
    · intro q hq
      rw [List.mem_append] at hq
      rcases hq with hq | hq
      · intro hm; exact hd q hq (by simp [hm])
      · simp only [List.mem_singleton] at hq
        subst hq; exact hn.1

theorem lookup_mapIdx (ts : List String) (f : Nat → Nat) (hn : ts.Nodup) {i : Nat} {t : String}
    (h : ts[i]? = some t) : (ts.mapIdx (fun j t => (t, f j))).lookup t = some (f i) := by
  induction ts generalizing i f with
  | nil => simp at h
  | cons x ts ih =>
    rw [List.nodup_cons] at hn
    rw [List.mapIdx_cons, List.lookup_cons]
    cases i with
    | zero =>
      simp only [List.getElem?_cons_zero, Option.some.injEq] at h
      subst h; simp
    | succ i =>
      simp only [List.getElem?_cons_succ] at h
      have hne : (t == x) = false := by
        simp only [beq_eq_false_iff_ne]
        rintro rfl
        exact hn.1 (List.mem_of_getElem? h)
      rw [hne]
      simpa using ih (fun j => f (j + 1)) hn.2 h

theorem foldl_max_le (l : List Nat) (a b : Nat) (ha : a ≤ b) (h : ∀ x ∈ l, x ≤ b) :
    l.foldl max a ≤ b := by
  induction l generalizing a with
  | nil => simpa
  | cons x l ih =>
    rw [List.foldl_cons]
    exact ih _ (Nat.max_le.2 ⟨ha, h x (by simp)⟩) (fun y hy => h y (by simp [hy]))

theorem le_foldl_max (l : List Nat) (a : Nat) : a ≤ l.foldl max a ∧ ∀ x ∈ l, x ≤ l.foldl max a := by
  induction l generalizing a with
  | nil => simp
  | cons x l ih =>
    rw [List.foldl_cons]
    have := ih (max a x)
    refine ⟨by omega, ?_⟩
    intro y hy
    rcases List.mem_cons.1 hy with rfl | hy
    · omega
    · exact this.2 y hy

/-- Text without special tokens is cut as ordinary text. -/
theorem scan_ordinary (E : Encoding) (text acc : List Char)
    (h : ∀ l, l ≠ [] → l <:+ text → E.startsWith l = none) :
    E.scan acc text = E.ordinary (acc ++ text) := by
  induction text generalizing acc with
  | nil => simp [Encoding.scan]
  | cons c cs ih =>
    rw [Encoding.scan, h _ (by simp) (List.suffix_refl _)]
    simp only
    rw [ih _ (fun l hl hs => h l hl (hs.trans (List.suffix_cons c cs)))]
    simp

/-- A special token inside a text is cut out of it. -/
theorem scan_special (E : Encoding) (a acc b : List Char) (s : String) (i : Nat)
    (hs : s.toList ≠ []) (hm : E.startsWith (s.toList ++ b) = some (s, i))
    (h : ∀ l, l ≠ [] → l <:+ a → E.startsWith (l ++ s.toList ++ b) = none) :
    E.scan acc (a ++ s.toList ++ b) = E.ordinary (acc ++ a) ++ i :: E.scan [] b := by
  induction a generalizing acc with
  | nil =>
    simp only [List.nil_append, List.append_nil]
    cases hl : s.toList with
    | nil => exact absurd hl hs
    | cons c cs =>
      rw [hl] at hm
      rw [List.cons_append, Encoding.scan, ← List.cons_append, hm]
      simp [hl]
  | cons c cs ih =>
    rw [List.cons_append, List.cons_append, Encoding.scan, ← List.cons_append, ← List.cons_append,
      h _ (by simp) (List.suffix_refl _)]
    simp only
    rw [ih _ (fun l hl hs => h l hl (hs.trans (List.suffix_cons c cs)))]
    simp

theorem between_inj {a b s t : String} (h : a ++ s ++ b = a ++ t ++ b) : s = t := by
  have := congrArg String.toList h
  simp only [String.toList_append] at this
  rw [List.append_cancel_right_eq, List.append_cancel_left_eq] at this
  exact String.toList_injective this

theorem reservedToken_inj {i j : Nat} (h : reservedToken i = reservedToken j) : i = j :=
  Nat.repr_injective (between_inj h)

end Fs2.Tok
