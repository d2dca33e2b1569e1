import Verif.Assets.Locations

/-!
# C127: which file an asset card names

The path in an asset card is the path that is opened, and so is the path of a `file` URI.
-/

namespace Fs2.Props

open Fs2.Loc

/-- The byte is a letter, a digit, or one of `_ . - ~ /`. -/
def PlainByte (c : Nat) : Prop :=
  (65 ≤ c ∧ c ≤ 90) ∨ (97 ≤ c ∧ c ≤ 122) ∨ (48 ≤ c ∧ c ≤ 57) ∨ c ∈ [95, 46, 45, 126, 47]

/-- The string `file://` and then `s`. -/
def fileUri (s : List Nat) : List Nat := "file://".toList.map Char.toNat ++ s

theorem kept_iff (c : Nat) : kept c = true ↔ PlainByte c := by
  simp [kept, isLetter, isDigit, PlainByte, or_assoc]

theorem quote_cons (c : Nat) (s : Str) :
    quote (c :: s) = (if kept c then [c] else [37, hexDigit (c / 16), hexDigit (c % 16)]) ++ quote s := by
  simp [quote]

theorem quote_length (s : Str) : s.length ≤ (quote s).length := by
  induction s with
  | nil => simp [quote]
  | cons c s ih =>
    rw [quote_cons]
    split <;> simp <;> omega

/-- Quoting keeps a string exactly if it is plain. -/
theorem quote_eq_iff (s : Str) : quote s = s ↔ ∀ c ∈ s, PlainByte c := by
  induction s with
  | nil => simp [quote]
  | cons c s ih =>
    rw [quote_cons]
    by_cases hk : kept c = true
    · rw [if_pos hk]
      simp [ih, (kept_iff c).1 hk]
    · rw [if_neg hk]
      have hn : ¬ PlainByte c := fun h => hk ((kept_iff c).2 h)
      constructor
      · intro h
        have := congrArg List.length h
        have hl := quote_length s
        simp at this
        omega
      · intro h
        exact absurd (h c (by simp)) hn

theorem hexDigit_ne (n : Nat) : hexDigit n ≠ 35 ∧ hexDigit n ≠ 63 := by
  unfold hexDigit
  by_cases h : n < 10
  · rw [if_pos h]; omega
  · rw [if_neg h]
    omega

/-- A quoted string has no `#` and no `?`. -/
theorem quote_no_mark (s : Str) : 35 ∉ quote s ∧ 63 ∉ quote s := by
  induction s with
  | nil => simp [quote]
  | cons c s ih =>
    rw [quote_cons]
    by_cases hk : kept c = true
    · rw [if_pos hk]
      have hp := (kept_iff c).1 hk
      have h1 : c ≠ 35 := by rintro rfl; simp [PlainByte] at hp
      have h2 : c ≠ 63 := by rintro rfl; simp [PlainByte] at hp
      simp [ih, h1.symm, h2.symm]
    · rw [if_neg hk]
      have a := hexDigit_ne (c / 16)
      have b := hexDigit_ne (c % 16)
      simp [ih, a.1.symm, a.2.symm, b.1.symm, b.2.symm]

theorem takeWhile_ne {c : Nat} {s : Str} (h : c ∉ s) : s.takeWhile (· ≠ c) = s := by
  induction s with
  | nil => rfl
  | cons a s ih =>
    have h1 : a ≠ c := by rintro rfl; simp at h
    have h2 : c ∉ s := by intro h'; exact h (by simp [h'])
    rw [List.takeWhile_cons, if_pos (by simpa using h1), ih h2]

theorem dropWhile_ne {c : Nat} {s : Str} (h : c ∉ s) : s.dropWhile (· ≠ c) = [] := by
  induction s with
  | nil => rfl
  | cons a s ih =>
    have h1 : a ≠ c := by rintro rfl; simp at h
    have h2 : c ∉ s := by intro h'; exact h (by simp [h'])
    rw [List.dropWhile_cons, if_pos (by simpa using h1), ih h2]

theorem splitAt_none {c : Nat} {s : Str} (h : c ∉ s) : Fs2.Loc.splitAt c s = (s, []) := by
  simp only [Fs2.Loc.splitAt, takeWhile_ne h, dropWhile_ne h]; rfl

theorem splitScheme_file (s : Str) : splitScheme (fileScheme ++ [58, 47, 47] ++ s) = some (fileScheme, 47 :: 47 :: s) := by
  simp [splitScheme, fileScheme, List.takeWhile, isLetter, lower]

theorem parse_file (t : Str) (h1 : 35 ∉ t) (h2 : 63 ∉ t) :
    parse (fileScheme ++ [58, 47, 47] ++ 47 :: t) = some ⟨fileScheme, [], 47 :: t, [], []⟩ := by
  have a : 35 ∉ 47 :: t := by simp [h1]
  have b : 63 ∉ 47 :: t := by simp [h2]
  unfold parse
  rw [splitScheme_file]
  simp [splitAt_none a, splitAt_none b]

theorem toPath_file (t : Str) : toPath ⟨fileScheme, [], 47 :: t, [], []⟩ = some (47 :: t) := by
  simp [toPath, fileStr, fileScheme]

theorem fileUri_eq (s : Str) : fileUri s = fileScheme ++ [58, 47, 47] ++ s := by
  unfold fileUri
  rfl

/-- **C127.** For a `file` URI of an absolute path without query and fragment, the path is opened as it is written. -/
theorem C127_file_uri (t : List Nat) (h1 : 35 ∉ t) (h2 : 63 ∉ t) : opened (fileUri (47 :: t)) = some (47 :: t) := by
  rw [fileUri_eq, opened, asUri, parse_file t h1 h2]
  exact toPath_file t

example : opened ("file:///data/m.pt".toList.map Char.toNat) = some ("/data/m.pt".toList.map Char.toNat) :=
  C127_file_uri ("data/m.pt".toList.map Char.toNat) (by decide) (by decide)

theorem parse_absolute (t : Str) : parse (47 :: t) = none := by
  have hs : splitScheme (47 :: t) = none := by
    simp [splitScheme, isLetter]
  unfold parse
  rw [hs]

theorem opened_absolute (t : Str) : opened (47 :: t) = some (quote (47 :: t)) := by
  have hq : quote (47 :: t) = 47 :: quote t := by
    rw [quote_cons]; rfl
  rw [opened, asUri, parse_absolute]
  simp only [fromPath]
  rw [hq, parse_file _ (quote_no_mark t).1 (quote_no_mark t).2]
  exact toPath_file _

/-- A letter of ASCII. -/
def LetterByte (c : Nat) : Prop := (65 ≤ c ∧ c ≤ 90) ∨ (97 ≤ c ∧ c ≤ 122)

/-- The name of a scheme: a letter, then letters, digits and `+ - .`. -/
def SchemeName (s : List Nat) : Prop :=
  (∃ c t, s = c :: t ∧ LetterByte c) ∧ ∀ c ∈ s, LetterByte c ∨ (48 ≤ c ∧ c ≤ 57) ∨ c ∈ [43, 45, 46]

theorem takeWhile_split (s : Str) : s.takeWhile (· ≠ 58) = s ∧ 58 ∉ s ∨ ∃ t, s = s.takeWhile (· ≠ 58) ++ 58 :: t := by
  induction s with
  | nil => simp
  | cons a s ih =>
    by_cases h : a = 58
    · right; exact ⟨s, by simp [h]⟩
    · rcases ih with ⟨h1, h2⟩ | ⟨t, h1⟩
      · left
        refine ⟨by rw [List.takeWhile_cons, if_pos (by simpa using h), h1], ?_⟩
        intro hm
        rcases List.mem_cons.1 hm with hm | hm
        · exact h hm.symm
        · exact h2 hm
      · right
        refine ⟨t, ?_⟩
        rw [List.takeWhile_cons, if_pos (by simpa using h), List.cons_append, ← h1]

theorem isLetter_iff (c : Nat) : isLetter c = true ↔ LetterByte c := by simp [isLetter, LetterByte]

theorem schemeName_iff (h : Str) :
    (h.head?.any isLetter = true ∧ h.all (fun c => isLetter c || isDigit c || c == 43 || c == 45 || c == 46) = true) ↔ SchemeName h := by
  unfold SchemeName
  refine and_congr ?_ ?_
  · cases h <;> simp [isLetter_iff]
  · simp [isLetter_iff, isDigit, or_assoc]

/-- **C127.** The string of a card is taken as a URI exactly if it begins with the name of a scheme and a colon; else it is a
path. -/
theorem C127_is_uri (s : List Nat) : (parse s).isSome = true ↔ ∃ h t, s = h ++ 58 :: t ∧ SchemeName h := by
  have hp : (parse s).isSome = (splitScheme s).isSome := by
    unfold parse
    cases splitScheme s <;> rfl
  rw [hp]
  have hss : (splitScheme s).isSome = true ↔
      (s.takeWhile (· ≠ 58)).length < s.length ∧ SchemeName (s.takeWhile (· ≠ 58)) := by
    rw [← schemeName_iff]
    unfold splitScheme
    simp only [Option.isSome_ite]
  rw [hss]
  constructor
  · rintro ⟨h1, h2⟩
    rcases takeWhile_split s with ⟨h3, -⟩ | ⟨t, h3⟩
    · rw [h3] at h1; omega
    · exact ⟨_, t, h3, h2⟩
  · rintro ⟨h, t, rfl, hn⟩
    have hc : 58 ∉ h := by
      intro hm
      have := hn.2 58 hm
      simp [LetterByte] at this
    have e : (h ++ 58 :: t).takeWhile (· ≠ 58) = h := by
      rw [List.takeWhile_append_of_pos (by
        intro a ha
        have : a ≠ 58 := by rintro rfl; exact hc ha
        simpa using this)]
      simp
    rw [e]
    exact ⟨by simp, hn⟩

example : (parse ("hg://org/model".toList.map Char.toNat)).isSome = true :=
  (C127_is_uri _).2 ⟨"hg".toList.map Char.toNat, "//org/model".toList.map Char.toNat, rfl,
    ⟨⟨104, [103], rfl, .inr ⟨by decide, by decide⟩⟩, by simp [LetterByte]⟩⟩

/-- **C127, for plain paths only.** The absolute path in a card is the path that is opened, if it consists of letters, digits and
`_ . - ~ /`. What is missing is the case of `C127_path_negation`. -/
theorem C127_path_partial (t : List Nat) (h : ∀ c ∈ t, PlainByte c) : opened (47 :: t) = some (47 :: t) := by
  rw [opened_absolute]
  congr 1
  rw [quote_eq_iff]
  intro c hc
  rcases List.mem_cons.1 hc with rfl | hc
  · simp [PlainByte]
  · exact h c hc

example : opened ("/data/my_model-1.pt".toList.map Char.toNat) = some ("/data/my_model-1.pt".toList.map Char.toNat) :=
  C127_path_partial ("data/my_model-1.pt".toList.map Char.toNat) (by simp [PlainByte])

/-- **C127 fails.** For every absolute path with any other byte, such as a space or a letter that is not in ASCII, another path is
opened, which is longer and has a `%`: the path is quoted, but not unquoted again. -/
theorem C127_path_negation (t : List Nat) (h : ∃ c ∈ t, ¬ PlainByte c) :
    ∃ p, opened (47 :: t) = some p ∧ p ≠ 47 :: t ∧ (47 :: t).length < p.length ∧ 37 ∈ p := by
  obtain ⟨c, hc, hn⟩ := h
  refine ⟨_, opened_absolute t, ?_, ?_, ?_⟩
  · intro he
    exact hn ((quote_eq_iff _).1 he c (by simp [hc]))
  · obtain ⟨a, b, rfl⟩ := List.append_of_mem hc
    have hk : kept c = false := by
      cases hk : kept c with
      | false => rfl
      | true => exact absurd ((kept_iff c).1 hk) hn
    have e : quote (47 :: (a ++ c :: b)) = 47 :: quote a ++ [37, hexDigit (c / 16), hexDigit (c % 16)] ++ quote b := by
      have : quote [c] = [37, hexDigit (c / 16), hexDigit (c % 16)] := by simp [quote, hk]
      rw [← this, quote_cons]
      simp [quote, kept]
    have ha := quote_length a
    have hb := quote_length b
    rw [e]
    simp
    omega
  · have hk : ¬ kept c = true := fun hk => hn ((kept_iff c).1 hk)
    unfold quote
    rw [List.mem_flatMap]
    exact ⟨c, by simp [hc], by simp [hk]⟩

example : opened ("/my models/m.pt".toList.map Char.toNat) = some ("/my%20models/m.pt".toList.map Char.toNat) := by
  decide +kernel

/-- **C127 fails** for the URIs that `Path.as_uri` gives, too: the URI of an absolute path is not opened as this path unless the
path is plain. -/
theorem C127_uri_negation (t : List Nat) (h : ∃ c ∈ t, ¬ PlainByte c) : opened (fileUri (47 :: quote t)) ≠ some (47 :: t) := by
  rw [C127_file_uri _ (quote_no_mark t).1 (quote_no_mark t).2]
  intro he
  injection he with he
  injection he with _ he
  obtain ⟨c, hc, hn⟩ := h
  exact hn ((quote_eq_iff t).1 he c hc)

example : opened ("file:///my%20models".toList.map Char.toNat) = some ("/my%20models".toList.map Char.toNat) := by
  decide +kernel

end Fs2.Props
