import Verif.Native.Lines

/-!
# Reading text files and splitting lines: C22, C26
-/

namespace Fs2.Props

open Fs2.Native

/-! ## C22 -/

/-- `read_text` gives the lines of the text in order, each with its end, however the bytes are divided into chunks, if every line is
complete and, unless lines end with a line feed by request, no chunk boundary falls between a carriage return and a line feed.  The
full claim has neither condition: see `C22_unterminated` and `C22_split_crlf`. -/
theorem C22_lines_partial {f : TextFile} (hc : 0 < f.chunk) (o : TextOpts) {e : Ending} (hu : Uses o.ending f.bytes e)
    (hs : o.ending = .lf ∨ Unsplit f) {ls : List (List Char)} (hl : Lines (eol e) f.bytes ls []) :
    (textSource f o).Yields (textSource f o).init ((shown o e ls).map (lineData o)) := by
  have h := stand_init hu hs
  rw [show f.bytes = ls.flatten ++ [] from hl.text] at h
  obtain ⟨r', h1, h2, -⟩ := lines_read hc o hu.1 hl.line hl.rest h
  exact ⟨r', h1, h2 rfl⟩

/-- For the default options, line feeds as line ends and any chunk size: the examples are the lines, and joining them gives back the
text. -/
theorem C22_lf {bytes : List Char} (hend : bytes = [] ∨ ['\n'] <:+ bytes) :
    ∃ ls, Lines ['\n'] bytes ls [] ∧ ls.flatten = bytes ∧ ∀ mmap chunk, 0 < chunk →
      (textSource ⟨bytes, mmap, chunk⟩ { ending := .lf }).Yields (textSource ⟨bytes, mmap, chunk⟩ { ending := .lf }).init
        (ls.map fun l => .str (String.ofList l)) := by
  obtain ⟨ls, rest, h⟩ := lines_exist .lf bytes
  have h0 : rest = [] := by
    rcases List.eq_nil_or_concat rest with h0 | ⟨r, x, h0⟩
    · exact h0
    · exfalso
      apply h.rest
      rcases hend with hb | hb
      · have := h.text
        rw [hb, h0] at this
        simp at this
      · rw [h.text] at hb
        obtain ⟨w, hw⟩ := hb
        rw [h0, List.concat_eq_append, ← List.append_assoc] at hw
        have := (List.append_inj' hw rfl).2
        cases this
        exact ⟨r, [], by simp [h0, eol]⟩
  subst h0
  refine ⟨ls, h, by simpa using h.text.symm, fun mmap chunk hc => ?_⟩
  exact C22_lines_partial (f := ⟨bytes, mmap, chunk⟩) hc { ending := .lf } (e := .lf) ⟨by simp, .inl rfl⟩ (.inl rfl) h

/-- Two lines, read one byte at a time. -/
example : (textSource ⟨"ab\nc\n".toList, false, 1⟩ { ending := .lf }).Yields
    (textSource ⟨"ab\nc\n".toList, false, 1⟩ { ending := .lf }).init [.str "ab\n", .str "c\n"] := by
  have hl : Lines ['\n'] "ab\nc\n".toList ["ab\n".toList, "c\n".toList] [] := by
    refine ⟨by decide, ?_, by decide⟩
    intro l hl
    simp only [List.mem_cons, List.not_mem_nil, or_false] at hl
    rcases hl with rfl | rfl
    · refine ⟨⟨"ab".toList, by decide⟩, fun a b h => ?_⟩
      match a, h with
      | [], h => simp at h
      | [_], h => simp at h
      | [_, _], h => simp at h; exact h.2.2
      | _ :: _ :: _ :: _, h => simp at h
    · refine ⟨⟨"c".toList, by decide⟩, fun a b h => ?_⟩
      match a, h with
      | [], h => simp at h
      | [_], h => simp at h; exact h.2
      | _ :: _ :: _, h => simp at h
  exact C22_lines_partial (f := ⟨"ab\nc\n".toList, false, 1⟩) (by decide) { ending := .lf } (e := .lf) ⟨by simp, .inl rfl⟩ (.inl rfl) hl

/-- If the text does not end with a line end, the complete lines are read and then, instead of the last line, there is an error that
breaks the pipeline (record_reader.cc:96-98). -/
theorem C22_unterminated {f : TextFile} (hc : 0 < f.chunk) (o : TextOpts) {e : Ending} (hu : Uses o.ending f.bytes e)
    (hs : o.ending = .lf ∨ Unsplit f) {ls : List (List Char)} {rest : List Char} (hl : Lines (eol e) f.bytes ls rest)
    (hr : rest ≠ []) :
    ∃ r r' err, (textSource f o).Emits (textSource f o).init ((shown o e ls).map (lineData o)) r ∧
      (textSource f o).next r = some (.err err, r') ∧ err.recoverable = false := by
  have h := stand_init hu hs
  rw [show f.bytes = ls.flatten ++ rest from hl.text] at h
  obtain ⟨r, h1, -, h2⟩ := lines_read hc o hu.1 hl.line hl.rest h
  obtain ⟨r', err, h3, h4⟩ := h2 hr
  exact ⟨r, r', err, h1, h3, h4⟩

/-- A file with one character and no line end. -/
example : ∃ r r' err, (textSource ⟨['a'], false, 1024⟩ { ending := .lf }).Emits
    (textSource ⟨['a'], false, 1024⟩ { ending := .lf }).init [] r ∧
    (textSource ⟨['a'], false, 1024⟩ { ending := .lf }).next r = some (.err err, r') ∧ err.recoverable = false :=
  C22_unterminated (f := ⟨['a'], false, 1024⟩) (by decide) { ending := .lf } (e := .lf) ⟨by simp, .inl rfl⟩ (.inl rfl)
    (ls := []) (rest := ['a']) ⟨rfl, by simp, by decide⟩ (by simp)

/-- The code disagrees with the claim where a chunk ends between a carriage return and a line feed: with lines ending with CRLF by
request, two lines come out as one (text_line_reader.cc:33 forgets the carriage return). -/
theorem C22_split_crlf {xs ys : List Char} (hx : '\r' ∉ xs ∧ '\n' ∉ xs) (hy : '\r' ∉ ys ∧ '\n' ∉ ys) (hlen : ys.length + 2 ≤ xs.length) :
    ∃ r, (textSource ⟨xs ++ ['\r', '\n'] ++ ys ++ ['\r', '\n'], false, xs.length + 1⟩ { ending := .crlf }).Emits
      (textSource ⟨xs ++ ['\r', '\n'] ++ ys ++ ['\r', '\n'], false, xs.length + 1⟩ { ending := .crlf }).init
      [.str (String.ofList (xs ++ ['\r', '\n'] ++ ys ++ ['\r', '\n']))] r := by
  generalize hf : (⟨xs ++ ['\r', '\n'] ++ ys ++ ['\r', '\n'], false, xs.length + 1⟩ : TextFile) = f
  have hb : f.bytes = (xs ++ ['\r']) ++ ('\n' :: ys ++ ['\r', '\n']) := by rw [← hf]; simp
  have hm : f.mmap = false := by rw [← hf]
  have hch : f.chunk = xs.length + 1 := by rw [← hf]
  have hr1 : readChunk f 0 false = (xs ++ ['\r'], xs.length + 1, false) := by
    have : (f.bytes.drop 0).take f.chunk = xs ++ ['\r'] := by
      rw [List.drop_zero, hb, hch, List.take_append_of_le_length (by simp), List.take_of_length_le (by simp)]
    simp only [readChunk, hm, Bool.false_eq_true, if_false, this]
    simp [hch]
  have hd2 : f.bytes.drop (xs.length + 1) = '\n' :: ys ++ ['\r', '\n'] := by
    rw [hb, show xs.length + 1 = (xs ++ ['\r']).length from by simp, List.drop_left]
  have hr2 : ∃ p e, readChunk f (xs.length + 1) false = ('\n' :: (ys ++ ['\r', '\n']), p, e) := by
    have : (f.bytes.drop (xs.length + 1)).take f.chunk = '\n' :: (ys ++ ['\r', '\n']) := by
      rw [hd2, hch, List.take_of_length_le (by simp; omega)]; rfl
    refine ⟨xs.length + 1 + ('\n' :: (ys ++ ['\r', '\n'])).length, decide (('\n' :: (ys ++ ['\r', '\n'])).length < f.chunk), ?_⟩
    simp only [readChunk, hm, Bool.false_eq_true, if_false, this]
  obtain ⟨p2, e2, hr2⟩ := hr2
  have hf1 : findCrlf false (xs ++ ['\r']) = none := findCrlf_no (by simp [hx.2])
  have hf2 : findCrlf false ('\n' :: (ys ++ ['\r', '\n'])) = some (ys.length + 3) := by
    have hns : NoSplit ('\n' :: ys) ['\r', '\n'] := fun ⟨_, h⟩ => by simp at h
    have := findCrlf_append (cr := false) hns (fun h => by cases h)
    rw [List.cons_append] at this
    rw [this]
    have h0 : findCrlf false ('\n' :: ys) = none := by simp [findCrlf, findCrlf_no hy.2]
    rw [h0]
    simp [findCrlf]
    omega
  have hload : ∃ r', load f { ending := .crlf } = (.found (ys.length + 3), r') ∧ r'.prev = [[], xs ++ ['\r']] ∧
      r'.cur = '\n' :: (ys ++ ['\r', '\n']) := by
    rw [load]
    simp only [findEnd, findCrlf]
    split
    · next h => rw [hr1] at h; simp at h
    · next c cs p e h =>
      rw [hr1] at h
      simp only [Prod.mk.injEq] at h
      obtain ⟨hcs, rfl, rfl⟩ := h
      rw [load]
      simp only [findEnd, ← hcs, hf1]
      split
      · next h => rw [hr2] at h; simp at h
      · next c' cs' p' e' h' =>
        rw [hr2] at h'
        simp only [Prod.mk.injEq] at h'
        obtain ⟨hcs', rfl, rfl⟩ := h'
        rw [load]
        simp only [findEnd, ← hcs', hf2]
        exact ⟨_, rfl, by simp, rfl⟩
  obtain ⟨r', h1, h2, h3⟩ := hload
  have hrec : ∃ r'', nextRecord f { ending := .crlf } = (.ok (xs ++ ['\r', '\n'] ++ ys ++ ['\r', '\n']), r'') := by
    refine ⟨{ r' with cur := r'.cur.drop (ys.length + 3), chunkOff := r'.chunkOff + (ys.length + 3), prev := [] }, ?_⟩
    simp only [nextRecord, h1, h2, h3]
    rw [List.take_of_length_le (by simp)]
    simp
  obtain ⟨r'', h4⟩ := hrec
  have hne : xs ++ ['\r', '\n'] ++ ys ++ ['\r', '\n'] ≠ [] := by simp
  revert h4 hne
  generalize xs ++ ['\r', '\n'] ++ ys ++ ['\r', '\n'] = l
  intro h4 hne
  obtain ⟨c, cs, rfl⟩ := List.exists_cons_of_ne_nil hne
  have h5 : readLine f { ending := .crlf } { ending := .crlf } = some (.ok (c :: cs), r'') := by
    rw [readLine, h4]; simp
  refine ⟨r'', .cons (s' := r'') ?_ (.nil _)⟩
  show (match readLine f { ending := .crlf } { ending := .crlf } with
    | none => none
    | some (.error e, r) => some (Res.err e, r)
    | some (.ok [], r) => some (.eod, r)
    | some (.ok l, r) => some (.yield (lineData { ending := .crlf } l), r)) = _
  rw [h5]
  rfl

/-- The text of `C22_split_crlf` has two lines; the smallest chunk that the code uses has 1024 bytes. -/
example : '\r' ∉ List.replicate 1023 'x' ∧ '\n' ∉ List.replicate 1023 'x' ∧ ("abc".toList).length + 2 ≤ (List.replicate 1023 'x').length ∧
    (List.replicate 1023 'x').length + 1 = chunkSize (some 1) := by
  refine ⟨fun h => ?_, fun h => ?_, ?_, ?_⟩
  · exact absurd (List.eq_of_mem_replicate h) (by decide)
  · exact absurd (List.eq_of_mem_replicate h) (by decide)
  · rw [List.length_replicate]; decide
  · rw [List.length_replicate]; decide

/-! ### Saving and loading while reading a text -/

/-- A state saved after some lines, loaded into a new pipeline over the same file, gives the remaining lines, if the last line read
did not end where a chunk or the file ends.  The full claim (C01) has no such condition: see `C22_last_line`. -/
theorem C22_resume_partial {f : TextFile} (hc : 0 < f.chunk) (o : TextOpts) (ho : o.skipEmpty = false) (he : o.ending ≠ .infer)
    (hs : o.ending = .lf ∨ Unsplit f) {before after : List (List Char)} (hl : Lines (eol o.ending) f.bytes (before ++ after) [])
    (hb : before ≠ []) (hin : f.mmap = true ∨ ¬ f.chunk ∣ before.flatten.length) (ha : after ≠ []) :
    ∃ r tape r', (textSource f o).Emits (textSource f o).init (before.map (lineData o)) r ∧ (textSource f o).record true r = .ok tape ∧
      (textSource f o).reload true (textSource f o).init tape = .ok (r', []) ∧
      (textSource f o).Yields r (after.map (lineData o)) ∧ (textSource f o).Yields r' (after.map (lineData o)) := by
  have h := stand_init (f := f) (o := o) (e := o.ending) ⟨he, .inl rfl⟩ hs
  rw [show f.bytes = before.flatten ++ after.flatten from by simpa using hl.text] at h
  have hlb : ∀ l ∈ before, IsLine (eol o.ending) l := fun l h => hl.line l (List.mem_append_left _ h)
  have hla : ∀ l ∈ after, IsLine (eol o.ending) l := fun l h => hl.line l (List.mem_append_right _ h)
  obtain ⟨r, h1, h2, h3, h4⟩ := lines_saved hc o ho he hlb h (saved_init f o)
  have hco := h4 hb
  have hcur : r.cur ≠ [] := by
    intro h0
    have ht := h2.at_.text
    have hle := h2.at_.le
    rw [h0, List.nil_append] at ht
    have hlen := congrArg List.length ht
    have hlen' := congrArg List.length hl.text
    simp only [List.length_drop, List.length_append, List.flatten_append, List.append_nil] at hlen hlen'
    have hpos : 0 < after.flatten.length := by
      obtain ⟨a, as, rfl⟩ := List.exists_cons_of_ne_nil ha
      have := List.length_pos_iff.mpr ((hla a (by simp)).ne_nil (eol_ne _))
      simp; omega
    have hp : r.pos = before.flatten.length := by omega
    have hbpos : 0 < before.flatten.length := by
      obtain ⟨a, as, rfl⟩ := List.exists_cons_of_ne_nil hb
      have := List.length_pos_iff.mpr ((hlb a (by simp)).ne_nil (eol_ne _))
      simp; omega
    rcases h2.at_.grid with ⟨hm, hg | hg⟩ | ⟨hm, hg | hg⟩
    · omega
    · omega
    · rcases hin with hin | hin
      · rw [hm] at hin; cases hin
      · rw [hp] at hg; exact hin hg
    · omega
  have hrel := (reload_fresh (o := o) h3 hco).2 hcur
  have h2' : Stand f o.ending { r with ending := o.ending, prev := [] } (after.flatten) :=
    ⟨⟨h2.at_.text, h2.at_.le, h2.at_.eod, h2.at_.cur, h2.at_.grid⟩, rfl, rfl, hs⟩
  have hshown : shown o o.ending after = after := by simp [shown, ho]
  have hnil : ¬ eol o.ending <:+: [] := hl.rest
  obtain ⟨q, q1, q2, -⟩ := lines_read hc o he hla hnil (by simpa using h2)
  obtain ⟨q', q1', q2', -⟩ := lines_read hc o he hla hnil (by simpa using h2')
  rw [hshown] at q1 q1'
  exact ⟨r, _, _, h1, rfl, hrel, ⟨q, q1, q2 rfl⟩, ⟨q', q1', q2' rfl⟩⟩

/-- The code disagrees with C01: a state saved right after the last line of a text cannot be loaded into a new pipeline
(record_reader.cc:66: the offset within the chunk equals the size of the chunk). -/
theorem C22_last_line {f : TextFile} (hc : 0 < f.chunk) (o : TextOpts) (ho : o.skipEmpty = false) (he : o.ending ≠ .infer)
    (hs : o.ending = .lf ∨ Unsplit f) {ls : List (List Char)} (hl : Lines (eol o.ending) f.bytes ls []) (hne : ls ≠ []) :
    ∃ r tape, (textSource f o).Emits (textSource f o).init (ls.map (lineData o)) r ∧ (textSource f o).record true r = .ok tape ∧
      (textSource f o).reload true (textSource f o).init tape = .error corrupt := by
  have h := stand_init (f := f) (o := o) (e := o.ending) ⟨he, .inl rfl⟩ hs
  rw [show f.bytes = ls.flatten ++ [] from hl.text] at h
  obtain ⟨r, h1, h2, h3, h4⟩ := lines_saved hc o ho he hl.line h (saved_init f o)
  have hcur : r.cur = [] := (List.append_eq_nil_iff.mp h2.at_.text).1
  exact ⟨r, _, h1, rfl, (reload_fresh h3 (h4 hne)).1 hcur⟩

/-- The code disagrees with C01: once a line has been read from a file that is memory mapped or smaller than a chunk (128 MiB unless a
smaller size is asked for), no state saved between two lines of it can be loaded into that pipeline (file_stream.cc:64-68 does not
forget that the end has been reached, memory_stream.cc:17-24 seeks from where it is). -/
theorem C22_used_pipeline {f : TextFile} (hc : 0 < f.chunk) (o : TextOpts) (ho : o.skipEmpty = false) (he : o.ending ≠ .infer)
    (hs : o.ending = .lf ∨ Unsplit f) (hone : f.mmap = true ∨ f.bytes.length < f.chunk) {before after : List (List Char)}
    (hl : Lines (eol o.ending) f.bytes (before ++ after) []) (hb : before ≠ []) :
    ∃ r, (textSource f o).Emits (textSource f o).init (before.map (lineData o)) r ∧
      ∀ so co : Nat, 0 < co → (textSource f o).reload true r [.int so, .int co] = .error corrupt := by
  have h := stand_init (f := f) (o := o) (e := o.ending) ⟨he, .inl rfl⟩ hs
  rw [show f.bytes = before.flatten ++ after.flatten from by simpa using hl.text] at h
  have hlb : ∀ l ∈ before, IsLine (eol o.ending) l := fun l h => hl.line l (List.mem_append_left _ h)
  obtain ⟨r, h1, h2, h3, h4⟩ := lines_saved hc o ho he hlb h (saved_init f o)
  have hco := h4 hb
  refine ⟨r, h1, fun so co hp => ?_⟩
  have hread : ∃ p e, readChunk f (seek f r so).pos (seek f r so).eod = ([], p, e) := by
    rcases h3.at_ with ⟨_, h0, _⟩ | ⟨ch, hch, hr, _, _⟩
    · omega
    · cases hm : f.mmap with
      | true =>
        have hpos : r.pos = f.bytes.length := by
          simp only [readChunk, hm, if_true, Prod.mk.injEq] at hr
          exact hr.2.1.symm
        refine ⟨f.bytes.length, (seek f r so).eod, ?_⟩
        simp [readChunk, hm, seek, hpos]
      | false =>
        have hsm := hone.resolve_left (by rw [hm]; simp)
        have heod : r.eod = true := by
          simp only [readChunk, hm, Bool.false_eq_true, if_false, Prod.mk.injEq] at hr
          rw [← hr.2.2]
          simp
          omega
        exact ⟨so, true, by simp only [readChunk, hm, seek, Bool.false_eq_true, if_false, heod, if_true]⟩
  obtain ⟨p, e, hread⟩ := hread
  show (match readNat [.int so, .int co] with
    | .error e => Except.error e
    | .ok (so, t) =>
      match readNat t with
      | .error e => .error e
      | .ok (co, t) =>
        let r := { seek f r so with streamOff := so, chunkOff := co }
        if co > 0 then
          let (ch, pos, eod) := readChunk f r.pos r.eod
          if co ≥ ch.length then .error corrupt
          else .ok ({ r with cur := ch.drop co, pos := pos, eod := eod }, t)
        else .ok ({ r with cur := [] }, t)) = _
  have e1 : ∀ n : Nat, ∀ t, readNat (.int n :: t) = .ok (n, t) := fun n t => rfl
  simp only [e1, gt_iff_lt, hp, if_true, hread, List.length_nil, ge_iff_le, Nat.zero_le]
  rfl

/-- Two lines in a file of four bytes meet the conditions of the three theorems. -/
theorem two_lines : Lines (eol .lf) "a\nb\n".toList (["a\n".toList] ++ ["b\n".toList]) [] := by
  refine ⟨by decide, ?_, by decide⟩
  intro l hl
  simp only [List.cons_append, List.nil_append, List.mem_cons, List.not_mem_nil, or_false] at hl
  rcases hl with rfl | rfl
  all_goals
    refine ⟨⟨[_], rfl⟩, fun a b h => ?_⟩
    match a, h with
    | [], h => simp [eol] at h
    | [_], h => simp [eol] at h; exact h.2
    | _ :: _ :: _, h => simp [eol] at h

example := C22_resume_partial (f := ⟨"a\nb\n".toList, false, 1024⟩) (by decide) { ending := .lf } rfl (by simp) (.inl rfl) two_lines
  (by simp) (.inr (by decide)) (by simp)
example := C22_last_line (f := ⟨"a\nb\n".toList, false, 1024⟩) (by decide) { ending := .lf } rfl (by simp) (.inl rfl) two_lines (by simp)
example := C22_used_pipeline (f := ⟨"a\nb\n".toList, false, 1024⟩) (by decide) { ending := .lf } rfl (by simp) (.inl rfl)
  (.inr (by decide)) two_lines (by simp)

/-! ## C26 -/

theorem call_str (c : Splitter) (s : String) {fs : List (List Char)} (hf : Fields c.sep s.toList fs) :
    splitLoop c.sep c.handle ⟨c.indices, 0, []⟩ [] s.toList = feed c.handle ⟨c.indices, 0, []⟩ fs := by
  rw [splitLoop_eq, hf.unique]

/-- Every string has exactly one list of fields; joining them with the separator gives back the string. -/
theorem C26_fields (sep : Char) (s : List Char) :
    ∃ fs, Fields sep s fs ∧ [sep].intercalate fs = s ∧ ∀ fs', Fields sep s fs' → fs' = fs := by
  have h := parts_fields sep [] s (by simp)
  exact ⟨_, h, h.2.1, fun fs' h' => h'.unique⟩

/-- Without names and indices, the splitter returns all fields in order. -/
theorem C26_all {sep : Char} {c : Splitter} (hc : Splitter.new sep [] [] false false = .ok c) {s : String} {fs : List (List Char)}
    (hf : Fields sep s.toList fs) : c.call (.str s) = .ok (.list (fs.map asStr)) := by
  cases hc
  have key := (call_str ⟨sep, [], [], false, false⟩ s hf).trans (feed_all fs 0 [])
  simp [Splitter.call, key]

example : Fields ',' "a,,b".toList ["a".toList, [], "b".toList] := ⟨by decide, by decide, by decide⟩

/-- With names, the number of fields must be the number of names; then each name maps to the field in its place. -/
theorem C26_names {sep : Char} {names : List String} (hn : names ≠ []) (hd : names.Nodup) {c : Splitter}
    (hc : Splitter.new sep names [] false false = .ok c) {s : String} {fs : List (List Char)} (hf : Fields sep s.toList fs) :
    (names.length = fs.length → c.call (.str s) = .ok (.dict (names.zip (fs.map asStr)))) ∧
    (names.length ≠ fs.length → ∃ e, c.call (.str s) = .error e) := by
  cases hc
  have key : splitLoop sep (Splitter.handle ⟨sep, names, [], false, false⟩) ⟨[], 0, []⟩ [] s.toList = .ok ⟨[], 0 + fs.length, [] ++ fs⟩ := by
    rw [call_str ⟨sep, names, [], false, false⟩ s hf, feed_all]
  have hfold : ∀ (ns : List String) (gs : List (List Char)) (d : List (String × Data)), ns.Nodup → (∀ n ∈ ns, ∀ e ∈ d, e.1 ≠ n) →
      (ns.zip gs).foldl (fun d nf => emplace d nf.1 (asStr nf.2)) d = d ++ ns.zip (gs.map asStr) := by
    intro ns
    induction ns with
    | nil => simp
    | cons n ns ih =>
      intro gs d hnd hfresh
      cases gs with
      | nil => simp
      | cons g gs =>
        have hnot : d.any (fun e => decide (e.1 = n)) = false := by
          simp only [List.any_eq_false, decide_eq_true_eq]
          exact fun e he => hfresh n (by simp) e he
        simp only [List.zip_cons_cons, List.foldl_cons, List.map_cons]
        rw [show emplace d n (asStr g) = d ++ [(n, asStr g)] from by simp [emplace, hnot]]
        rw [ih gs _ (List.nodup_cons.mp hnd).2]
        · simp
        · intro m hm e he
          rcases List.mem_append.mp he with he | he
          · exact hfresh m (List.mem_cons_of_mem _ hm) e he
          · simp at he
            subst he
            rintro rfl
            exact (List.nodup_cons.mp hnd).1 hm
  constructor
  · intro h
    simp only [Splitter.call, key, ne_eq, not_true_eq_false, if_false, hn, List.nil_append, h]
    rw [hfold names fs [] hd (by simp)]
    rfl
  · intro h
    exact ⟨_, by simp only [Splitter.call, key, ne_eq, not_true_eq_false, if_false, hn, List.nil_append, h, not_false_eq_true, if_true]; rfl⟩

/-- With indices, the fields at these places are returned in the order of the places, and a place that does not exist (or is given
twice) is an error. -/
theorem C26_indices {sep : Char} {idx : List Nat} (hi : idx ≠ []) {c : Splitter} (hc : Splitter.new sep [] idx false false = .ok c)
    {s : String} {fs : List (List Char)} (hf : Fields sep s.toList fs) :
    (idx.Nodup ∧ (∀ i ∈ idx, i < fs.length) →
      ∃ sorted : List Nat, sorted.Perm idx ∧ sorted.Pairwise (· ≤ ·) ∧
        c.call (.str s) = .ok (.list ((sorted.filterMap fun i => fs[i]?).map asStr))) ∧
    (¬ (idx.Nodup ∧ ∀ i ∈ idx, i < fs.length) → ∃ e, c.call (.str s) = .error e) := by
  simp [Splitter.new, hi] at hc
  subst hc
  have hperm : idx.mergeSort.Perm idx := List.mergeSort_perm _ _
  have hsort : idx.mergeSort.Pairwise (· ≤ ·) :=
    (List.pairwise_mergeSort (fun _ _ _ h1 h2 => by simp at *; omega) (fun a b => by simp; omega) idx).imp (by simp)
  have hne : idx.mergeSort ≠ [] := fun h => hi (by rw [h] at hperm; exact List.nil_perm.mp hperm)
  obtain ⟨x, h1, h2, h3⟩ := feed_select (c := ⟨sep, [], idx.mergeSort, false, false⟩) rfl fs hne hsort 0 (by simp) []
  have key := (call_str ⟨sep, [], idx.mergeSort, false, false⟩ s hf).trans h1
  have hiff : x.rem = [] ↔ idx.Nodup ∧ ∀ i ∈ idx, i < fs.length := by
    rw [h2, hperm.nodup_iff]
    simp [hperm.mem_iff]
  constructor
  · intro h
    have h0 := hiff.mpr h
    refine ⟨idx.mergeSort, hperm, hsort, ?_⟩
    have := h3 h0
    simp only [Nat.sub_zero, List.nil_append] at this
    simp [Splitter.call, key, h0, this]
  · intro h
    have h0 : x.rem ≠ [] := fun h' => h (hiff.mp h')
    exact ⟨_, by simp only [Splitter.call, key, h0, ne_eq, not_false_eq_true, if_true]; rfl⟩

example : ∃ sorted : List Nat, sorted.Perm [2, 0] ∧ sorted.Pairwise (· ≤ ·) ∧ ∃ c, Splitter.new ',' [] [2, 0] false false = .ok c ∧
    c.call (.str "a,b,c") = .ok (.list ((sorted.filterMap fun i => (["a".toList, "b".toList, "c".toList] : List (List Char))[i]?).map asStr)) := by
  obtain ⟨l, h1, h2, h3⟩ := (C26_indices (idx := [2, 0]) (by simp) rfl (s := "a,b,c") (sep := ',') (fs := ["a".toList, "b".toList, "c".toList])
    ⟨by decide, by decide, by decide⟩).1 ⟨by decide, by decide⟩
  exact ⟨l, h1, h2, _, rfl, h3⟩

/-- With `exclude`, all other fields are returned. -/
theorem C26_exclude {sep : Char} {idx : List Nat} (hi : idx ≠ []) {c : Splitter} (hc : Splitter.new sep [] idx true false = .ok c)
    {s : String} {fs : List (List Char)} (hf : Fields sep s.toList fs) :
    (idx.Nodup ∧ (∀ i ∈ idx, i < fs.length) →
      c.call (.str s) = .ok (.list (((fs.zipIdx).filter fun p => p.2 ∉ idx).map fun p => asStr p.1))) ∧
    (¬ (idx.Nodup ∧ ∀ i ∈ idx, i < fs.length) → ∃ e, c.call (.str s) = .error e) := by
  simp [Splitter.new, hi] at hc
  subst hc
  have hperm : idx.mergeSort.Perm idx := List.mergeSort_perm _ _
  have hsort : idx.mergeSort.Pairwise (· ≤ ·) :=
    (List.pairwise_mergeSort (fun _ _ _ h1 h2 => by simp at *; omega) (fun a b => by simp; omega) idx).imp (by simp)
  obtain ⟨x, h1, h2, h3⟩ := feed_exclude (c := ⟨sep, [], idx.mergeSort, true, false⟩) rfl fs hsort 0 (by simp) []
  have key := (call_str ⟨sep, [], idx.mergeSort, true, false⟩ s hf).trans h1
  have hiff : x.rem = [] ↔ idx.Nodup ∧ ∀ i ∈ idx, i < fs.length := by
    rw [h2, hperm.nodup_iff]
    simp [hperm.mem_iff]
  have hwo : ∀ (ps : List (List Char)) k, without idx.mergeSort k ps = ((ps.zipIdx k).filter fun p => p.2 ∉ idx).map (·.1) := by
    intro ps
    induction ps with
    | nil => intro k; rfl
    | cons p ps ih =>
      intro k
      simp only [without, List.zipIdx_cons, List.filter_cons, ih, hperm.mem_iff]
      by_cases hk : k ∈ idx <;> simp [hk]
  constructor
  · intro h
    have h0 := hiff.mpr h
    have := h3 h0
    rw [hwo, List.nil_append] at this
    simp [Splitter.call, key, h0, this]
  · intro h
    have h0 : x.rem ≠ [] := fun h' => h (hiff.mp h')
    exact ⟨_, by simp only [Splitter.call, key, h0, ne_eq, not_false_eq_true, if_true]; rfl⟩

example : ∃ c, Splitter.new ',' [] [1] true false = .ok c ∧
    c.call (.str "a,b,c") = .ok (.list ((([("a".toList), "b".toList, "c".toList].zipIdx).filter fun p => p.2 ∉ [1]).map fun p => asStr p.1)) :=
  ⟨_, rfl, (C26_exclude (idx := [1]) (by simp) rfl ⟨by decide, by decide, by decide⟩).1 ⟨by decide, by decide⟩⟩

/-- With one index only, the field itself is returned. -/
theorem C26_single {sep : Char} {i : Nat} {c : Splitter} (hc : Splitter.new sep [] [i] false true = .ok c) {s : String}
    {fs : List (List Char)} (hf : Fields sep s.toList fs) :
    (∀ f, fs[i]? = some f → c.call (.str s) = .ok (asStr f)) ∧ (fs[i]? = none → ∃ e, c.call (.str s) = .error e) := by
  have : c = ⟨sep, [], [i], false, true⟩ := by simp [Splitter.new] at hc; exact hc.symm
  subst this
  obtain ⟨x, h1, h2, h3⟩ := feed_select (c := ⟨sep, [], [i], false, true⟩) rfl fs (rem := [i]) (by simp) (by simp) 0 (by simp) []
  have key := (call_str ⟨sep, [], [i], false, true⟩ s hf).trans h1
  constructor
  · intro f hfi
    have hlt : i < fs.length := (List.getElem?_eq_some_iff.mp hfi).1
    have h0 : x.rem = [] := h2.mpr ⟨by simp, by simpa using hlt⟩
    have := h3 h0
    simp [hfi] at this
    simp [Splitter.call, key, h0, this]
  · intro hfi
    have h0 : x.rem ≠ [] := fun h => by
      have := (h2.mp h).2 i (by simp)
      simp at hfi
      omega
    exact ⟨_, by simp only [Splitter.call, key, h0, ne_eq, not_false_eq_true, if_true]; rfl⟩

/-- The code disagrees with what names and indices together suggest: the indices are sorted, the names are not
(string_splitter.cc:49-58), so that with names `c`, `a` for the places 2, 0 the name `c` gets the field at place 0. -/
theorem C26_names_mixed : ∃ c, Splitter.new ',' ["c", "a"] [2, 0] false false = .ok c ∧
    c.call (.str "x,y,z") = .ok (.dict [("c", .str "x"), ("a", .str "z")]) := by
  refine ⟨⟨',', ["c", "a"], [2, 0].mergeSort, false, false⟩, rfl, ?_⟩
  have hs : ([2, 0] : List Nat).mergeSort = [0, 2] := by
    simp [List.mergeSort, List.MergeSort.Internal.splitInTwo]
  rw [hs]
  rfl

end Fs2.Props
