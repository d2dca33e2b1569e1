import Verif.Native.FileMapper

/-!
# The file cache and memory mapped files: C21, C25
-/

namespace Fs2.Props

open Fs2.Native

variable {K V : Type} [DecidableEq K]

/-! ## C21 -/

/-- A lookup returns the value most recently added for the key if the key is among the `cap` most recently used ones, and nothing
otherwise. -/
theorem C21_lookup {cap : Nat} {h : LruHist K V} {c : Lru K V} (hr : Lru.Ran cap h c) (k : K) (v : V) :
    (c.get k).1 = some v ↔ k ∈ (recent h).take cap ∧ lastAdded k h = some v := by
  have i := hr.inv
  cases hf : c.find k with
  | none =>
    have := i.find_none hf
    rw [i.keys] at this
    simp [Lru.get, hf, this]
  | some id =>
    obtain ⟨e, he, hk, hid, hsp, -⟩ := i.move hf
    have hmem : k ∈ (recent h).take cap := by
      rw [← i.keys, ← hk]; exact List.mem_map_of_mem he
    have hv := i.vals e he
    rw [hk] at hv
    simp [Lru.get, hf, hsp, hmem, hv]

/-- The cache holds as many entries as keys have been used, up to the capacity. -/
theorem C21_size {cap : Nat} {h : LruHist K V} {c : Lru K V} (hr : Lru.Ran cap h c) :
    c.size = min cap (recent h).length ∧ c.size ≤ cap := by
  have i := hr.inv
  have h1 := i.map.length_eq
  have h2 := congrArg List.length i.keys
  simp at h1 h2
  unfold Lru.size
  omega

/-- A cache of two entries after `add 1`, `add 2`, `get 1`, `add 3`: 2 has been dropped, 1 has not. -/
example : ∃ h : LruHist Nat String, ∃ c, Lru.Ran 2 h c ∧ recent h = [3, 1, 2] ∧ (c.get 1).1 = some "a" ∧ (c.get 2).1 = none := by
  refine ⟨_, _, .step (.add 3 "c") (.step (.get 1) (.step (.add 2 "b") (.step (.add 1 "a") .new))), ?_, ?_, ?_⟩ <;> decide

/-! ## C25 -/

/-- `t` is a decimal number that fits 64 bits. -/
def Numeral (t : List Char) (n : Nat) : Prop := t ≠ [] ∧ t.all Char.isDigit ∧ decimal t = n ∧ n < 2 ^ 64

theorem digit_not_space {c : Char} (h : c.isDigit) : isSpace c = false := by
  have h : '0'.toNat ≤ c.toNat ∧ c.toNat ≤ '9'.toNat := by
    simp only [Char.isDigit, Bool.and_eq_true, decide_eq_true_eq] at h
    exact h
  have h0 : '0'.toNat = 48 := rfl
  have hne : ∀ d : Char, d.toNat < 48 → c ≠ d := fun d hd he => by subst he; omega
  simp [isSpace, hne ' ' (by decide), hne '\t' (by decide), hne '\n' (by decide), hne '\x0b' (by decide), hne '\x0c' (by decide),
    hne '\r' (by decide)]

theorem digit_not_colon {c : Char} (h : c.isDigit) : c ≠ ':' := by
  rintro rfl; revert h; decide

theorem dropWhile_none {l : List Char} (h : ∀ c ∈ l, isSpace c = false) : l.dropWhile isSpace = l := by
  cases l with
  | nil => rfl
  | cons c l => simp [h c (by simp)]

theorem Numeral.trim {t : List Char} {n : Nat} (h : Numeral t n) : Native.trim t = t := by
  have hs : ∀ c ∈ t, isSpace c = false := fun c hc => digit_not_space (List.all_eq_true.mp h.2.1 c hc)
  unfold Native.trim ltrim rtrim
  rw [dropWhile_none hs, dropWhile_none (fun c hc => hs c (List.mem_reverse.mp hc)), List.reverse_reverse]

theorem Numeral.colon {t : List Char} {n : Nat} (h : Numeral t n) : ':' ∉ t :=
  fun hc => digit_not_colon (List.all_eq_true.mp h.2.1 _ hc) rfl

theorem Numeral.parse {t : List Char} {n : Nat} (h : Numeral t n) : parseSize t = .ok n := by
  have h4 := h.2.2.2
  simp [parseSize, h.1, h.2.1, h.2.2.1]
  omega

theorem spec3 {p o z : List Char} {off size : Nat} (hp : ':' ∉ p) (hp' : trim p ≠ []) (ho : Numeral o off) (hz : Numeral z size) :
    parseSpec (p ++ ':' :: (o ++ ':' :: z)) = .ok (trim p, some off, some size) := by
  have hf : Fields ':' (p ++ ':' :: (o ++ ':' :: z)) [p, o, z] := by
    refine ⟨by simp, by simp [List.intercalate, List.intersperse], ?_⟩
    intro f hf
    simp at hf
    rcases hf with rfl | rfl | rfl
    · exact hp
    · exact ho.colon
    · exact hz.colon
  rw [parseSpec_eq hf, if_pos]
  · simp [ho.trim, hz.trim, ho.parse, hz.parse]
  · refine ⟨by simp, ?_⟩
    intro f hf
    simp at hf
    rcases hf with rfl | rfl | rfl
    · exact hp'
    · rw [ho.trim]; exact ho.1
    · rw [hz.trim]; exact hz.1

theorem spec2 {p o : List Char} {off : Nat} (hp : ':' ∉ p) (hp' : trim p ≠ []) (ho : Numeral o off) :
    parseSpec (p ++ ':' :: o) = .ok (trim p, some off, none) := by
  have hf : Fields ':' (p ++ ':' :: o) [p, o] := by
    refine ⟨by simp, by simp [List.intercalate, List.intersperse], ?_⟩
    intro f hf
    simp at hf
    rcases hf with rfl | rfl
    · exact hp
    · exact ho.colon
  rw [parseSpec_eq hf, if_pos]
  · simp [ho.trim, ho.parse]
  · refine ⟨by simp, ?_⟩
    intro f hf
    simp at hf
    rcases hf with rfl | rfl
    · exact hp'
    · rw [ho.trim]; exact ho.1

/-- `pathname:offset:size` gives exactly that range of the file if it is inside the file and is rejected otherwise, whatever was
mapped before and is or is not cached.  The full claim has no condition on the sum of offset and size: see `C25_wraps`. -/
theorem C25_region_partial {disk : Disk} {cap : Nat} {c : Lru (List Char) Block} (hc : Mapped disk cap c) {p o z : List Char}
    {off size : Nat} (hp : ':' ∉ p) (hp' : trim p ≠ []) (ho : Numeral o off) (hz : Numeral z size) {file : Bytes}
    (hd : disk (trim p) = .ok file) (h64 : off + size < 2 ^ 64) :
    (off + size ≤ file.length → ∃ b, (mapFile disk c (p ++ ':' :: (o ++ ':' :: z))).1 = .ok b ∧ b.Inside ∧
      b.bytes = (file.drop off).take size ∧ b.bytes.length = size) ∧
    (file.length < off + size → ∃ e, (mapFile disk c (p ++ ':' :: (o ++ ':' :: z))).1 = .error e) := by
  rw [mapFile_eq hc, spec3 hp hp' ho hz]
  simp only [hd]
  constructor
  · intro h
    refine ⟨⟨file, 0 + off, size⟩, ?_, ?_, ?_, ?_⟩
    · have h1 : ¬ off > file.length := by omega
      have h2 : ¬ (off + size) % 2 ^ 64 > file.length := by rw [Nat.mod_eq_of_lt h64]; omega
      simp only [cut, h1, h2, if_false, Block.slice2]
    · simp [Block.Inside]; omega
    · simp [Block.bytes]
    · simp [Block.bytes]; omega
  · intro h
    by_cases h1 : off > file.length
    · exact ⟨_, by simp only [cut, h1, if_true]; rfl⟩
    · have h2 : (off + size) % 2 ^ 64 > file.length := by rw [Nat.mod_eq_of_lt h64]; omega
      exact ⟨_, by simp only [cut, h1, h2, if_false, if_true]; rfl⟩

/-- Bytes 2 to 4 of a file of five bytes; one more is rejected. -/
example : ∃ b, (mapFile (fun _ => .ok [10, 11, 12, 13, 14]) (.new 100) ("f".toList ++ ':' :: ("2".toList ++ ':' :: "3".toList))).1 =
    .ok b ∧ b.Inside ∧ b.bytes = [12, 13, 14] ∧ b.bytes.length = 3 :=
  (C25_region_partial (p := "f".toList) (o := "2".toList) (z := "3".toList) (file := [10, 11, 12, 13, 14]) .new (by decide) (by decide)
    (off := 2) (size := 3) ⟨by decide, by decide, by decide, by decide⟩
    ⟨by decide, by decide, by decide, by decide⟩ rfl (by decide)).1 (by decide)
example : ∃ e, (mapFile (fun _ => .ok [10, 11, 12, 13, 14]) (.new 100) ("f".toList ++ ':' :: ("2".toList ++ ':' :: "4".toList))).1 =
    .error e :=
  (C25_region_partial (p := "f".toList) (o := "2".toList) (z := "4".toList) (file := [10, 11, 12, 13, 14]) .new (by decide) (by decide)
    (off := 2) (size := 4) ⟨by decide, by decide, by decide, by decide⟩
    ⟨by decide, by decide, by decide, by decide⟩ rfl (by decide)).2 (by decide)

/-- `pathname:offset` gives the file from the offset on. -/
theorem C25_from {disk : Disk} {cap : Nat} {c : Lru (List Char) Block} (hc : Mapped disk cap c) {p o : List Char} {off : Nat}
    (hp : ':' ∉ p) (hp' : trim p ≠ []) (ho : Numeral o off) {file : Bytes} (hd : disk (trim p) = .ok file) :
    (off ≤ file.length → ∃ b, (mapFile disk c (p ++ ':' :: o)).1 = .ok b ∧ b.Inside ∧ b.bytes = file.drop off) ∧
    (file.length < off → ∃ e, (mapFile disk c (p ++ ':' :: o)).1 = .error e) := by
  rw [mapFile_eq hc, spec2 hp hp' ho]
  simp only [hd]
  constructor
  · intro h
    refine ⟨⟨file, 0 + off, file.length - off⟩, ?_, ?_, ?_⟩
    · have h1 : ¬ off > file.length := by omega
      simp only [cut, h1, if_false, Block.slice]
    · simp [Block.Inside]; omega
    · simp only [Block.bytes, Nat.zero_add]
      exact List.take_of_length_le (by simp)
  · intro h
    exact ⟨_, by simp only [cut, gt_iff_lt, h, if_true]; rfl⟩

/-- `pathname` alone gives the whole file. -/
theorem C25_whole {disk : Disk} {cap : Nat} {c : Lru (List Char) Block} (hc : Mapped disk cap c) {p : List Char} (hp : ':' ∉ p)
    (hp' : trim p ≠ []) {file : Bytes} (hd : disk (trim p) = .ok file) :
    ∃ b, (mapFile disk c p).1 = .ok b ∧ b.Inside ∧ b.bytes = file := by
  have hf : Fields ':' p [p] := ⟨by simp, by simp [List.intercalate], by simpa using hp⟩
  have : parseSpec p = .ok (trim p, none, none) := by
    rw [parseSpec_eq hf, if_pos]
    · rfl
    · exact ⟨by simp, by simpa using hp'⟩
  rw [mapFile_eq hc, this]
  simp only [hd]
  exact ⟨⟨file, 0, file.length⟩, rfl, by simp [Block.Inside], by simp [Block.bytes]⟩

/-- More than three parts, an empty part, or an offset or size that is not a number: rejected. -/
theorem C25_malformed {disk : Disk} {cap : Nat} {c : Lru (List Char) Block} (hc : Mapped disk cap c) {s : List Char}
    {fs : List (List Char)} (hs : Fields ':' s fs)
    (hbad : 3 < fs.length ∨ (∃ f ∈ fs, trim f = []) ∨ ∃ f ∈ fs.drop 1, ¬ (trim f).all Char.isDigit) :
    ∃ e, (mapFile disk c s).1 = .error e := by
  suffices h : ∃ e, parseSpec s = .error e by
    obtain ⟨e, h⟩ := h
    exact ⟨e, by rw [mapFile_eq hc, h]⟩
  rw [parseSpec_eq hs]
  split
  · next hok =>
    have hbad' : ∃ f ∈ fs.drop 1, ¬ (trim f).all Char.isDigit := by
      rcases hbad with h | ⟨f, hf, h⟩ | h
      · omega
      · exact absurd h (hok.2 f hf)
      · exact h
    have hnum : ∀ f : List Char, ¬ f.all Char.isDigit → ∃ e, parseSize f = .error e := by
      intro f hf
      exact ⟨_, by unfold parseSize; rw [if_neg (fun h => hf h.2)]⟩
    match fs, hbad', hok with
    | [], h, _ => simp at h
    | [p], h, _ => simp at h
    | [p, o], ⟨f, hf, h⟩, _ =>
      simp at hf
      subst hf
      obtain ⟨e, he⟩ := hnum _ h
      exact ⟨e, by simp only [List.map_cons, List.map_nil, he]⟩
    | [p, o, z], ⟨f, hf, h⟩, _ =>
      simp at hf
      obtain ⟨e, he⟩ := hnum _ h
      rcases hf with rfl | rfl
      · exact ⟨e, by simp only [List.map_cons, List.map_nil, he]⟩
      · simp only [List.map_cons, List.map_nil, he]
        cases parseSize (trim o) with
        | error e' => exact ⟨e', rfl⟩
        | ok n => exact ⟨e, rfl⟩
    | _ :: _ :: _ :: _ :: _, _, ⟨h, _⟩ => simp at h
  · exact ⟨badSpec, rfl⟩

example : ∃ e, (mapFile (fun _ => .ok []) (.new 1) "f:1:2:3".toList).1 = .error e :=
  C25_malformed .new (fs := ["f".toList, "1".toList, "2".toList, "3".toList]) ⟨by decide, by decide, by decide⟩ (.inl (by decide))

/-- The code disagrees with the claim where the sum does not fit 64 bits: offset 1 and size 2^64 - 1 are accepted for every file
that is not empty, and the block returned reaches far behind the end of the file (file_mapper.cc:113). -/
theorem C25_wraps {disk : Disk} {cap : Nat} {c : Lru (List Char) Block} (hc : Mapped disk cap c) {p : List Char} (hp : ':' ∉ p)
    (hp' : trim p ≠ []) {file : Bytes} (hd : disk (trim p) = .ok file) (hfile : 1 ≤ file.length) (hbig : file.length < 2 ^ 63) :
    ∃ b, (mapFile disk c (p ++ ':' :: ("1".toList ++ ':' :: "18446744073709551615".toList))).1 = .ok b ∧ ¬ b.Inside := by
  rw [mapFile_eq hc, spec3 (off := 1) (size := 2 ^ 64 - 1) hp hp' ⟨by decide, by decide, by decide, by decide⟩
    ⟨by decide, by decide, by decide, by decide⟩]
  simp only [hd]
  refine ⟨⟨file, 0 + 1, 2 ^ 64 - 1⟩, ?_, ?_⟩
  · have h1 : ¬ 1 > file.length := by omega
    have h2 : ¬ (1 + (2 ^ 64 - 1)) % 2 ^ 64 > file.length := by
      rw [show (1 + (2 ^ 64 - 1)) % 2 ^ 64 = 0 from by decide]; omega
    simp only [cut, h1, h2, if_false, Block.slice2]
  · simp [Block.Inside]; omega

example : ∃ b, (mapFile (fun _ => .ok [10, 11]) (.new 100)
    ("f".toList ++ ':' :: ("1".toList ++ ':' :: "18446744073709551615".toList))).1 = .ok b ∧ ¬ b.Inside :=
  C25_wraps .new (by decide) (by decide) rfl (by decide) (by decide)

end Fs2.Props
