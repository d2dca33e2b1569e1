import Verif.Models.KeyMap

/-!
# Lemmas about key maps

First the small language in which the properties are stated: templates, their texts as patterns and as
replacements, and when a key fits a template.
-/

namespace Fs2.Interop

/-- The text with the number `d` in the place of `num`. -/
def written (d : List Char) (t : List Tok) : List Char :=
  t.flatMap fun
    | .ch c => [c]
    | .num => d

/-- The template as a regular expression. -/
def patternText (t : List Tok) : Key :=
  '^' :: t.flatMap fun
    | .ch c => if c = '.' then ['\\', '.'] else [c]
    | .num => ['(', '[', '0', '-', '9', ']', '+', ')']

/-- The template as a replacement. -/
def replText (t : List Tok) : Key :=
  t.flatMap fun
    | .ch c => [c]
    | .num => ['\\', '1']

/-- Characters without a meaning of their own in regular expressions, apart from the dot; a number is
followed by a character that is no digit. -/
def Plain : List Tok → Prop
  | [] => True
  | .ch c :: ts => (c = '.' ∨ special c = false) ∧ Plain ts
  | .num :: ts => (∃ c ts', ts = .ch c :: ts' ∧ c.isDigit = false) ∧ Plain ts

/-- A template of the key maps: plain, with at most one number. -/
def Clean (t : List Tok) : Prop := Plain t ∧ t.count .num ≤ 1

/-- A nonempty text of digits. -/
def Number (d : List Char) : Prop := d ≠ [] ∧ ∀ c ∈ d, c.isDigit = true

/-- The key is the template with the number `d`, followed by `rest`. -/
def Fits (t : List Tok) (d rest key : List Char) : Prop := Number d ∧ key = written d t ++ rest

/-! ## Reading the texts -/

theorem parse_plain {c : Char} (h : special c = false) (cs : List Char) :
    parseToks (c :: cs) = (parseToks cs).map (.ch c :: ·) := by
  rw [parseToks.eq_def]
  split
  · rename_i heq; cases heq; exact absurd h (by decide)
  · rename_i heq; cases heq; exact absurd h (by decide)
  · rename_i heq; cases heq; simp [h]
  · rename_i heq; cases heq

theorem parse_body : ∀ t : List Tok, Plain t →
    parseToks (t.flatMap fun
      | .ch c => if c = '.' then ['\\', '.'] else [c]
      | .num => ['(', '[', '0', '-', '9', ']', '+', ')']) = some t
  | [], _ => by simp [parseToks]
  | .ch c :: ts, h => by
    have ih := parse_body ts h.2
    rw [List.flatMap_cons]
    by_cases hc : c = '.'
    · subst hc
      simp only [if_true, List.cons_append, List.nil_append]
      rw [parseToks.eq_1, ih]
      rfl
    · simp only [if_neg hc, List.cons_append, List.nil_append]
      rw [parse_plain (h.1.resolve_left hc), ih]
      rfl
  | .num :: ts, h => by
    have ih := parse_body ts h.2
    rw [List.flatMap_cons]
    simp only [List.cons_append, List.nil_append]
    rw [parseToks.eq_2, ih]
    rfl

theorem parse_pattern {t : List Tok} (h : Plain t) : parsePattern (patternText t) = some t :=
  parse_body t h

theorem parse_repl : ∀ t : List Tok, Plain t → parseRepl (replText t) = some t
  | [], _ => by simp [replText, parseRepl]
  | .ch c :: ts, h => by
    have ih := parse_repl ts h.2
    have hc : c ≠ '\\' := by
      rintro rfl
      rcases h.1 with h | h
      · revert h; decide
      · revert h; decide
    have e : replText (.ch c :: ts) = c :: replText ts := rfl
    rw [e, parseRepl.eq_def]
    split
    · rename_i heq; exact absurd (List.cons.inj heq).1 hc
    · rename_i heq; exact absurd (List.cons.inj heq).1 hc
    · rename_i heq
      obtain ⟨rfl, rfl⟩ := List.cons.inj heq
      rw [if_neg (by simpa using hc), ih]
      rfl
    · rename_i heq; cases heq
  | .num :: ts, h => by
    have ih := parse_repl ts h.2
    obtain ⟨c, ts', rfl, hd⟩ := h.1
    have e : replText (.num :: .ch c :: ts') = '\\' :: '1' :: c :: replText ts' := rfl
    have e2 : replText (.ch c :: ts') = c :: replText ts' := rfl
    rw [e2] at ih
    rw [e, parseRepl.eq_1, if_neg (by simp [hd]), ih]
    rfl

/-! ## Replacing -/

theorem replaceFrom_skip (old new : List Char) : ∀ (l s : List Char),
    replaceFrom old new l.length (l ++ s) = replaceFrom old new 0 s
  | [], s => rfl
  | _ :: l, s => by
    simp only [List.length_cons, List.cons_append, replaceFrom]
    exact replaceFrom_skip old new l s

theorem replace_old {o : Char} {old : List Char} (new s : List Char) :
    replace (o :: old) new (o :: old ++ s) = new ++ replace (o :: old) new s := by
  simp only [replace, List.cons_append, replaceFrom]
  rw [if_pos (by simp [List.isPrefixOf_iff_prefix, List.prefix_append])]
  rw [List.length_cons, Nat.add_sub_cancel, replaceFrom_skip]

theorem replace_other {old new : List Char} {c : Char} {s : List Char}
    (h : old.isPrefixOf (c :: s) = false) : replace old new (c :: s) = c :: replace old new s := by
  simp [replace, replaceFrom, h]

theorem replace_absent (old new : List Char) : ∀ s : List Char, contains old s = false →
    replace old new s = s
  | [], _ => rfl
  | c :: s, h => by
    simp only [contains, Bool.or_eq_false_iff] at h
    rw [replace_other h.1, replace_absent old new s h.2]

private theorem prefix_head {o c : Char} {old s : List Char} (h : c ≠ o) :
    (o :: old).isPrefixOf (c :: s) = false := by
  simp [List.isPrefixOf, Ne.symm h]

theorem reverse_repl : ∀ r : List Tok, Plain r →
    replace backref group (replace dot escapedDot (replText r)) = (patternText r).tail
  | [], _ => rfl
  | .ch c :: ts, h => by
    have ih := reverse_repl ts h.2
    have e : replText (.ch c :: ts) = c :: replText ts := rfl
    by_cases hc : c = '.'
    · subst hc
      have e2 : (patternText (.ch '.' :: ts)).tail = '\\' :: '.' :: (patternText ts).tail := rfl
      have h1 : replace dot escapedDot ('.' :: replText ts) =
          '\\' :: '.' :: replace dot escapedDot (replText ts) :=
        replace_old (o := '.') (old := []) escapedDot (replText ts)
      rw [e, e2, h1, replace_other (by rfl), replace_other (by rfl)]
      exact congrArg _ (congrArg _ ih)
    · have e2 : (patternText (.ch c :: ts)).tail = c :: (patternText ts).tail := by
        simp [patternText, if_neg hc]
      have hb : c ≠ '\\' := by
        rintro rfl
        rcases h.1 with h | h
        · exact hc h
        · revert h; decide
      rw [e, e2, dot, replace_other (prefix_head hc), backref, replace_other (prefix_head hb)]
      exact congrArg _ ih
  | .num :: ts, h => by
    have ih := reverse_repl ts h.2
    have e : replText (.num :: ts) = '\\' :: '1' :: replText ts := rfl
    have e2 : (patternText (.num :: ts)).tail = group ++ (patternText ts).tail := rfl
    have h1 : replace dot escapedDot ('\\' :: '1' :: replText ts) =
        '\\' :: '1' :: replace dot escapedDot (replText ts) := by
      rw [replace_other (by rfl), replace_other (by rfl)]
    have h2 : replace backref group ('\\' :: '1' :: replace dot escapedDot (replText ts)) =
        group ++ replace backref group (replace dot escapedDot (replText ts)) :=
      replace_old (o := '\\') (old := ['1']) group _
    rw [e, e2, h1, h2, ih]

theorem reverse_pattern : ∀ t : List Tok, Plain t →
    replace escapedDot dot (replace group backref (patternText t).tail) = replText t
  | [], _ => rfl
  | .ch c :: ts, h => by
    have ih := reverse_pattern ts h.2
    have e : replText (.ch c :: ts) = c :: replText ts := rfl
    by_cases hc : c = '.'
    · subst hc
      have e2 : (patternText (.ch '.' :: ts)).tail = '\\' :: '.' :: (patternText ts).tail := rfl
      have h1 : replace group backref ('\\' :: '.' :: (patternText ts).tail) =
          '\\' :: '.' :: replace group backref (patternText ts).tail := by
        rw [replace_other (by rfl), replace_other (by rfl)]
      have h2 : replace escapedDot dot ('\\' :: '.' :: replace group backref (patternText ts).tail) =
          dot ++ replace escapedDot dot (replace group backref (patternText ts).tail) :=
        replace_old (o := '\\') (old := ['.']) dot _
      rw [e, e2, h1, h2, ih]
      rfl
    · have hs := h.1.resolve_left hc
      have e2 : (patternText (.ch c :: ts)).tail = c :: (patternText ts).tail := by
        simp [patternText, if_neg hc]
      have hb : c ≠ '\\' := by rintro rfl; revert hs; decide
      have hp : c ≠ '(' := by rintro rfl; revert hs; decide
      rw [e, e2, group, replace_other (prefix_head hp), escapedDot, replace_other (prefix_head hb)]
      exact congrArg _ ih
  | .num :: ts, h => by
    have ih := reverse_pattern ts h.2
    have e : replText (.num :: ts) = '\\' :: '1' :: replText ts := rfl
    have e2 : (patternText (.num :: ts)).tail = group ++ (patternText ts).tail := rfl
    have h1 : replace group backref (group ++ (patternText ts).tail) =
        '\\' :: '1' :: replace group backref (patternText ts).tail :=
      replace_old (o := '(') (old := ['[', '0', '-', '9', ']', '+', ')']) backref _
    rw [e, e2, h1, replace_other (by rfl), replace_other (by rfl), ih]

theorem reverseEntry_text {t r : List Tok} (ht : Plain t) (hr : Plain r) :
    reverseEntry (patternText t) (replText r) = (patternText r, replText t) := by
  have e : reverseEntry (patternText t) (replText r) =
      ('^' :: replace backref group (replace dot escapedDot (replText r)),
        if contains group (patternText t).tail then
          replace escapedDot dot (replace group backref (patternText t).tail)
        else replace escapedDot dot (patternText t).tail) := rfl
  rw [e, reverse_repl r hr]
  congr 1
  rw [← reverse_pattern t ht]
  split
  · rfl
  · rename_i h
    rw [replace_absent group backref _ (by simpa using h)]

/-! ## Matching -/

theorem takeWhile_digits {d s : List Char} (hd : ∀ c ∈ d, c.isDigit = true) {c : Char}
    (hc : c.isDigit = false) : (d ++ c :: s).takeWhile Char.isDigit = d := by
  rw [List.takeWhile_append_of_pos hd, List.takeWhile_cons, hc]
  simp

/-- A number in a pattern takes all digits, as the character after it is none. -/
theorem match_num {c : Char} (hc : c.isDigit = false) (ts : List Tok) (s : List Char) :
    matchToks (.num :: .ch c :: ts) s =
      if s.takeWhile Char.isDigit = [] then none
      else (matchToks (.ch c :: ts) (s.dropWhile Char.isDigit)).map fun r =>
        (s.takeWhile Char.isDigit :: r.1, r.2) := by
  have hsplit : s.takeWhile Char.isDigit ++ s.dropWhile Char.isDigit = s :=
    List.takeWhile_append_dropWhile
  have hall : ∀ x ∈ s.takeWhile Char.isDigit, x.isDigit = true := by
    intro x hx
    have := List.all_takeWhile (p := Char.isDigit) (l := s)
    exact List.all_eq_true.1 this x hx
  rw [matchToks.eq_4]
  generalize s.takeWhile Char.isDigit = d at hsplit hall
  generalize s.dropWhile Char.isDigit = e at hsplit
  subst hsplit
  by_cases hd : d = []
  · subst hd; simp
  · rw [if_neg hd]
    obtain ⟨k, hk⟩ : ∃ k, d.length = k + 1 :=
      ⟨d.length - 1, by have := List.length_pos_iff.2 hd; omega⟩
    rw [hk, List.range_succ_eq_map, List.findSome?_cons, Nat.sub_zero, ← hk, List.drop_left,
      List.take_left]
    cases hm : matchToks (.ch c :: ts) e with
    | some r => rfl
    | none =>
      simp only [Option.map_none]
      rw [List.findSome?_eq_none_iff]
      intro i hi
      simp only [List.mem_map, List.mem_range] at hi
      obtain ⟨j, hj, rfl⟩ := hi
      have hlt : d.length - (j + 1) < d.length := by omega
      rw [List.drop_append_of_le_length (by omega)]
      have hne : d.drop (d.length - (j + 1)) ≠ [] := by
        rw [Ne, List.drop_eq_nil_iff]; omega
      cases hdr : d.drop (d.length - (j + 1)) with
      | nil => exact absurd hdr hne
      | cons x xs =>
        have hx : x.isDigit = true := hall x (List.mem_of_mem_drop (by rw [hdr]; simp))
        simp only [Nat.succ_eq_add_one, List.cons_append, matchToks]
        rw [if_neg (by rintro rfl; rw [hc] at hx; cases hx)]
        rfl

theorem written_no_num (d d' : List Char) : ∀ t : List Tok, Tok.num ∉ t → written d t = written d' t
  | [], _ => rfl
  | .ch c :: ts, h => by
    have := written_no_num d d' ts (fun hm => h (by simp [hm]))
    simp only [written, List.flatMap_cons] at this ⊢
    rw [this]
  | .num :: ts, h => absurd (by simp) h

/-- Matching a clean template: it succeeds on exactly the keys that fit. -/
theorem match_fits : ∀ (t : List Tok), Plain t → t.count .num ≤ 1 → ∀ (d rest : List Char), Number d →
    matchToks t (written d t ++ rest) = some (if .num ∈ t then [d] else [], rest)
  | [], _, _, d, rest, _ => by simp [written, matchToks]
  | .ch c :: ts, hp, hn, d, rest, hd => by
    have ih := match_fits ts hp.2 (by simpa [List.count_cons] using hn) d rest hd
    have e : written d (.ch c :: ts) ++ rest = c :: (written d ts ++ rest) := rfl
    rw [e]
    simp only [matchToks, if_true, ih]
    simp
  | .num :: ts, hp, hn, d, rest, hd => by
    have hts : Tok.num ∉ ts := by
      intro hm
      have := List.count_pos_iff.2 hm
      simp only [List.count_cons_self] at hn
      omega
    have ih := match_fits ts hp.2 (by simp only [List.count_cons_self] at hn; omega) d rest hd
    obtain ⟨c, ts', rfl, hc⟩ := hp.1
    have e : written d (.num :: .ch c :: ts') ++ rest = d ++ (c :: (written d ts' ++ rest)) := by
      simp [written]
    have e2 : written d (.ch c :: ts') ++ rest = c :: (written d ts' ++ rest) := rfl
    rw [e2] at ih
    rw [match_num hc, e, takeWhile_digits hd.2 hc, if_neg hd.1,
      List.dropWhile_append_of_pos hd.2, List.dropWhile_cons, hc]
    simp only [Bool.false_eq_true, if_false, ih, if_neg hts]
    simp

theorem match_inv : ∀ (t : List Tok), Plain t → t.count .num ≤ 1 → ∀ (s : List Char) gs rest,
    matchToks t s = some (gs, rest) → ∃ d, Number d ∧ s = written d t ++ rest
  | [], _, _, s, gs, rest, h => by
    simp only [matchToks, Option.some.injEq, Prod.mk.injEq] at h
    exact ⟨['0'], ⟨by simp, by decide⟩, by simp [written, h.2]⟩
  | .ch c :: ts, hp, hn, s, gs, rest, h => by
    match s, h with
    | x :: s, h =>
      simp only [matchToks] at h
      split at h
      · rename_i hx
        subst hx
        obtain ⟨d, hd, rfl⟩ := match_inv ts hp.2 (by simpa [List.count_cons] using hn) s gs rest h
        exact ⟨d, hd, rfl⟩
      · cases h
    | [], h => simp [matchToks] at h
  | .num :: ts, hp, hn, s, gs, rest, h => by
    have hts : Tok.num ∉ ts := by
      intro hm
      have := List.count_pos_iff.2 hm
      simp only [List.count_cons_self] at hn
      omega
    obtain ⟨c, ts', rfl, hc⟩ := hp.1
    rw [match_num hc] at h
    split at h
    · cases h
    · rename_i hne
      simp only [Option.map_eq_some_iff] at h
      obtain ⟨r, hr, h2⟩ := h
      obtain ⟨d', hd', e⟩ := match_inv (.ch c :: ts') hp.2
        (by simp only [List.count_cons_self] at hn; omega) _ r.1 r.2 hr
      have hall : ∀ x ∈ s.takeWhile Char.isDigit, x.isDigit = true := fun x hx =>
        List.all_eq_true.1 (List.all_takeWhile (p := Char.isDigit) (l := s)) x hx
      refine ⟨s.takeWhile Char.isDigit, ⟨hne, hall⟩, ?_⟩
      have h3 : r.2 = rest := by cases h2; rfl
      have e2 : written (s.takeWhile Char.isDigit) (.num :: .ch c :: ts') =
          s.takeWhile Char.isDigit ++ written d' (.ch c :: ts') := by
        rw [written_no_num d' (s.takeWhile Char.isDigit) _ hts]; rfl
      rw [e2, List.append_assoc, ← h3, ← e, List.takeWhile_append_dropWhile]

theorem expand_eq (d : List Char) : ∀ (r : List Tok) (gs : List (List Char)),
    (Tok.num ∈ r → gs[0]? = some d) → expand gs r = some (written d r)
  | [], _, _ => rfl
  | .ch c :: ts, gs, h => by
    rw [expand, expand_eq d ts gs fun hm => h (by simp [hm])]
    rfl
  | .num :: ts, gs, h => by
    have := h (by simp)
    simp only [expand, this, Option.bind_eq_bind, Option.bind_some,
      expand_eq d ts gs fun hm => h (by simp [hm])]
    rfl

theorem sub_fits {t r : List Tok} (ht : Clean t) (hr : Tok.num ∈ r → Tok.num ∈ t)
    {d rest key : List Char} (h : Fits t d rest key) : sub t r key = some (written d r ++ rest) := by
  obtain ⟨hd, rfl⟩ := h
  simp only [sub, match_fits t ht.1 ht.2 d rest hd]
  rw [expand_eq d r _ fun hm => by rw [if_pos (hr hm)]; rfl]
  rfl

theorem sub_not {t r : List Tok} (ht : Clean t) {key : Key} (h : ∀ d rest, ¬ Fits t d rest key) :
    sub t r key = some key := by
  unfold sub
  cases hm : matchToks t key with
  | none => rfl
  | some g =>
    obtain ⟨d, hd, e⟩ := match_inv t ht.1 ht.2 key g.1 g.2 hm
    exact absurd ⟨hd, e⟩ (h d g.2)

/-- The number and the rest of a key are determined by the template. -/
theorem fits_unique {t : List Tok} (ht : Clean t) {d d' rest rest' key : List Char}
    (h : Fits t d rest key) (h' : Fits t d' rest' key) : rest = rest' ∧ written d t = written d' t ∧
      (Tok.num ∈ t → d = d') := by
  have h1 := match_fits t ht.1 ht.2 d rest h.1
  have h2 := match_fits t ht.1 ht.2 d' rest' h'.1
  rw [← h.2] at h1
  rw [← h'.2, h1] at h2
  simp only [Option.some.injEq, Prod.mk.injEq] at h2
  refine ⟨h2.2, ?_, ?_⟩
  · have e := h.2.symm.trans h'.2
    rw [h2.2] at e
    exact List.append_cancel_right e
  · intro hm
    have := h2.1
    rw [if_pos hm, if_pos hm] at this
    simpa using this

/-! ## When no key fits both of two templates -/

/-- A sufficient test. -/
def apart : List Tok → List Tok → Bool
  | .ch a :: ts, .ch b :: us => if a = b then apart ts us else true
  | .num :: ts, .num :: us => apart ts us
  | .ch a :: _, .num :: _ => !a.isDigit
  | .num :: _, .ch b :: _ => !b.isDigit
  | _, _ => false

theorem apart_spec : ∀ (t u : List Tok), Plain t → Plain u → t.count .num ≤ 1 → u.count .num ≤ 1 →
    apart t u = true → ∀ d d' rest rest', Number d → Number d' →
    written d t ++ rest ≠ written d' u ++ rest'
  | .ch a :: ts, .ch b :: us, ht, hu, ct, cu, h, d, d', rest, rest', hd, hd' => by
    intro e
    have e1 : a :: (written d ts ++ rest) = b :: (written d' us ++ rest') := e
    simp only [List.cons.injEq] at e1
    obtain ⟨rfl, e1⟩ := e1
    simp only [apart, if_true] at h
    exact apart_spec ts us ht.2 hu.2 (by simpa [List.count_cons] using ct)
      (by simpa [List.count_cons] using cu) h d d' rest rest' hd hd' e1
  | .num :: ts, .num :: us, ht, hu, ct, cu, h, d, d', rest, rest', hd, hd' => by
    intro e
    simp only [apart] at h
    simp only [List.count_cons_self] at ct cu
    obtain ⟨c, ts', rfl, hc⟩ := ht.1
    obtain ⟨c', us', rfl, hc'⟩ := hu.1
    have e1 : d ++ (written d (.ch c :: ts') ++ rest) = d' ++ (written d' (.ch c' :: us') ++ rest') := by
      rw [← List.append_assoc, ← List.append_assoc]; exact e
    have w1 : (d ++ (written d (.ch c :: ts') ++ rest)).takeWhile Char.isDigit = d :=
      takeWhile_digits hd.2 hc
    have w2 : (d' ++ (written d' (.ch c' :: us') ++ rest')).takeWhile Char.isDigit = d' :=
      takeWhile_digits hd'.2 hc'
    have hdd : d = d' := by rw [← w1, e1, w2]
    subst hdd
    exact apart_spec _ _ ht.2 hu.2 (by omega) (by omega) h d d rest rest' hd hd'
      (List.append_cancel_left e1)
  | .ch a :: ts, .num :: us, _, _, _, _, h, d, d', rest, rest', hd, hd' => by
    intro e
    simp only [apart, Bool.not_eq_true'] at h
    match d', hd' with
    | x :: d', hd' =>
      have e1 : a :: (written d ts ++ rest) = x :: (d' ++ written (x :: d') us ++ rest') := e
      simp only [List.cons.injEq] at e1
      have := hd'.2 x (by simp)
      rw [← e1.1, h] at this
      cases this
    | [], hd' => exact hd'.1 rfl
  | .num :: ts, .ch b :: us, _, _, _, _, h, d, d', rest, rest', hd, hd' => by
    intro e
    simp only [apart, Bool.not_eq_true'] at h
    match d, hd with
    | x :: d, hd =>
      have e1 : x :: (d ++ written (x :: d) ts ++ rest) = b :: (written d' us ++ rest') := e
      simp only [List.cons.injEq] at e1
      have := hd.2 x (by simp)
      rw [e1.1, h] at this
      cases this
    | [], hd => exact hd.1 rfl
  | [], _, _, _, _, _, h, _, _, _, _, _, _ => by simp [apart] at h
  | .ch _ :: _, [], _, _, _, _, h, _, _, _, _, _, _ => by simp [apart] at h
  | .num :: _, [], _, _, _, _, h, _, _, _, _, _, _ => by simp [apart] at h

end Fs2.Interop
