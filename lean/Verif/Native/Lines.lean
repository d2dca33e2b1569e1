import Verif.Native.Split
import Verif.Pipeline.Spec

/-!
# Reading text files line by line

Model of `text_data_source` (native/src/fairseq2n/data/text/text_data_source.cc:25-150), `text_line_reader`
(text/text_line_reader.cc:14-76), `record_reader` (record_reader.cc:22-161), `file_stream` (file_stream.cc:37-95) and `memory_stream`
(memory_stream.cc:11-45).  Simplifications: bytes are characters; the file does not change; opening and reading a file do not fail;
decoding of other encodings is switched off in the code (file.cc:86-89).
-/

namespace Fs2.Native

/-- `line_ending` (text/text_reader.h). -/
inductive Ending where
  | infer | lf | crlf
deriving DecidableEq

/-- The file and how it is delivered: memory mapped or in chunks of a fixed size. -/
structure TextFile where
  bytes : List Char
  mmap : Bool
  chunk : Nat

/-- `text_options`. -/
structure TextOpts where
  ending : Ending := .infer
  ltrim : Bool := false
  rtrim : Bool := false
  skipEmpty : Bool := false
  key : Option String := none

/-- The chunk size that `make_text_line_reader` chooses (text_data_source.cc:95-100). -/
def chunkSize (blockSize : Option Nat) : Nat := max (blockSize.getD 0x8000000) 0x400

/-- The members of `text_line_reader`, `record_reader` and the stream.  `pos` is the file offset or, for a memory mapped file, what
has been taken away from the block. -/
structure Rd where
  pos : Nat := 0
  eod : Bool := false
  cur : List Char := []
  prev : List (List Char) := []
  streamOff : Nat := 0
  chunkOff : Nat := 0
  ending : Ending

/-- `file_stream::read_chunk` (file_stream.cc:37-62) and `memory_stream::read_chunk` (memory_stream.cc:11-15): the chunk and the
stream afterwards. -/
def readChunk (f : TextFile) (pos : Nat) (eod : Bool) : List Char × Nat × Bool :=
  if f.mmap then (f.bytes.drop pos, f.bytes.length, eod)
  else if eod then ([], pos, eod)
  else
    ((f.bytes.drop pos).take f.chunk, pos + ((f.bytes.drop pos).take f.chunk).length,
      decide (((f.bytes.drop pos).take f.chunk).length < f.chunk))

/-- `seek` (file_stream.cc:64-68, memory_stream.cc:17-24). -/
def seek (f : TextFile) (r : Rd) (offset : Nat) : Rd :=
  if f.mmap then
    if offset ≥ f.bytes.length - r.pos then { r with pos := f.bytes.length } else { r with pos := r.pos + offset }
  else { r with pos := offset }

/-! ## Finding the end of a line -/

/-- text_line_reader.cc:25-31: the distance to the character behind the line feed. -/
def findLf : List Char → Option Nat
  | [] => none
  | c :: s => if c = '\n' then some 1 else (findLf s).map (· + 1)

/-- text_line_reader.cc:32-45. -/
def findCrlf : Bool → List Char → Option Nat
  | _, [] => none
  | cr, c :: s =>
    if c = '\n' then
      if cr then some 1 else (findCrlf cr s).map (· + 1)
    else (findCrlf (c = '\r') s).map (· + 1)

/-- `infer_line_ending` (text_line_reader.cc:57-76). -/
def inferEnding : Bool → List Char → Ending
  | _, [] => .infer
  | cr, c :: s =>
    if c = '\n' then if cr then .crlf else .lf
    else inferEnding (c = '\r') s

/-- `maybe_find_record_end` (text_line_reader.cc:14-55): the distance and the line ending afterwards. -/
def findEnd : Ending → List Char → Option Nat × Ending
  | .lf, s => (findLf s, .lf)
  | .crlf, s => (findCrlf false s, .crlf)
  | .infer, s =>
    match inferEnding false s with
    | .infer => (none, .infer)
    | .lf => (findLf s, .lf)
    | .crlf => (findCrlf false s, .crlf)

/-! ## The record reader -/

inductive Loaded where
  | found (n : Nat)
  | eod
  | incomplete
deriving DecidableEq

/-- `load_next_record` (record_reader.cc:75-121). -/
def load (f : TextFile) (r : Rd) : Loaded × Rd :=
  match findEnd r.ending r.cur with
  | (some n, e) => (.found n, { r with ending := e })
  | (none, e) =>
    match _hread : readChunk f r.pos r.eod with
    | ([], pos, eod) =>
      if r.cur = [] then (.eod, { r with ending := e, streamOff := r.pos, pos := pos, eod := eod, chunkOff := 0 })
      else (.incomplete, { r with ending := e, streamOff := r.pos, pos := pos, eod := eod })
    | (c :: cs, pos, eod) =>
      load f { r with
        ending := e, streamOff := r.pos, pos := pos, eod := eod, prev := r.prev ++ [r.cur], cur := c :: cs, chunkOff := 0 }
termination_by f.bytes.length - r.pos
decreasing_by
  have h := _hread
  simp only [readChunk] at h
  have hl : 0 < (f.bytes.drop r.pos).length ∧ r.pos < pos := by
    split at h
    · simp only [Prod.mk.injEq] at h
      have := congrArg List.length h.1
      simp at this ⊢
      omega
    · split at h
      · simp at h
      · simp only [Prod.mk.injEq] at h
        have := congrArg List.length h.1
        simp at this h ⊢
        omega
  simp at hl ⊢
  omega

/-- `record_reader::next` (record_reader.cc:22-33, 123-161). -/
def nextRecord (f : TextFile) (r : Rd) : Except Err (List Char) × Rd :=
  match load f r with
  | (.found n, r) => (.ok (r.prev.flatten ++ r.cur.take n), { r with cur := r.cur.drop n, chunkOff := r.chunkOff + n, prev := [] })
  | (.eod, r) => (.ok [], r)
  | (.incomplete, r) => (.error ⟨false, "The stream ends with a partial record."⟩, r)

/-! ## The data source -/

/-- `is_empty` (text_data_source.cc:119-133). -/
def isEmptyLine (e : Ending) (l : List Char) : Bool :=
  match e with
  | .lf => l.length = 1
  | .crlf => l.length = 2
  | .infer => false

/-- `read_next_line` (text_data_source.cc:107-117). -/
def readLine (f : TextFile) (o : TextOpts) (r : Rd) : Option (Except Err (List Char) × Rd) :=
  match nextRecord f r with
  | (.error e, r) => some (.error e, r)
  | (.ok [], r) => some (.ok [], r)
  | (.ok l, r) => if o.skipEmpty ∧ isEmptyLine r.ending l then readLine f o r else some (.ok l, r)
partial_fixpoint

/-- text_data_source.cc:49-61: what is made of a line. -/
def lineData (o : TextOpts) (l : List Char) : Data :=
  let l := if o.ltrim then ltrim l else l
  let l := if o.rtrim then rtrim l else l
  match o.key with
  | some k => .dict [(k, .str (String.ofList l))]
  | none => .str (String.ofList l)

/-- `text_data_source` (text_data_source.cc:36-86).  `reset` is record_reader.cc:35-45, `record` and `reload` are
record_reader.cc:47-73. -/
def textSource (f : TextFile) (o : TextOpts) : Source where
  σ := Rd
  init := { ending := o.ending }
  next r :=
    match readLine f o r with
    | none => none
    | some (.error e, r) => some (.err e, r)
    | some (.ok [], r) => some (.eod, r)
    | some (.ok l, r) => some (.yield (lineData o l), r)
  reset _ r := { r with pos := 0, eod := false, cur := [], streamOff := 0, chunkOff := 0 }
  record _ r := .ok [.int r.streamOff, .int r.chunkOff]
  reload _ r t :=
    match readNat t with
    | .error e => .error e
    | .ok (so, t) =>
      match readNat t with
      | .error e => .error e
      | .ok (co, t) =>
        let r := { seek f r so with streamOff := so, chunkOff := co }
        if co > 0 then
          let (ch, pos, eod) := readChunk f r.pos r.eod
          if co ≥ ch.length then .error corrupt
          else .ok ({ r with cur := ch.drop co, pos := pos, eod := eod }, t)
        else .ok ({ r with cur := [] }, t)
  finitude := .finite

/-! ## Specification -/

/-- The characters at the end of a line. -/
def eol : Ending → List Char
  | .crlf => ['\r', '\n']
  | _ => ['\n']

/-- A line: it ends with `eol` and contains it nowhere else. -/
def IsLine (nl l : List Char) : Prop := nl <:+ l ∧ ∀ a b, l = a ++ nl ++ b → b = []

/-- `ls` are the complete lines of the text, with their ends, and `rest` is what follows the last of them. -/
structure Lines (nl text : List Char) (ls : List (List Char)) (rest : List Char) : Prop where
  text : text = ls.flatten ++ rest
  line : ∀ l ∈ ls, IsLine nl l
  rest : ¬ nl <:+: rest

/-- The line ending with which the reader goes through the text: the given one or else that of the first line. -/
def Uses (o : Ending) (text : List Char) (e : Ending) : Prop :=
  e ≠ .infer ∧ (o = e ∨ o = .infer ∧ ∃ a b, text = a ++ '\n' :: b ∧ '\n' ∉ a ∧ (e = .crlf ↔ ['\r'] <:+ a))

/-- No chunk begins with a line feed whose carriage return is the last character of the chunk before. -/
def Unsplit (f : TextFile) : Prop :=
  f.mmap = true ∨ ∀ k, 0 < k * f.chunk → ¬ (f.bytes[k * f.chunk - 1]? = some '\r' ∧ f.bytes[k * f.chunk]? = some '\n')

/-! ## The search over chunks -/

def NoSplit (a b : List Char) : Prop := ¬ (['\r'] <:+ a ∧ ['\n'] <+: b)

theorem findLf_append (a b : List Char) :
    findLf (a ++ b) = match findLf a with
      | some n => some n
      | none => (findLf b).map (· + a.length) := by
  induction a with
  | nil => cases h : findLf b <;> simp [findLf, h]
  | cons c a ih =>
    simp only [List.cons_append, findLf]
    by_cases hc : c = '\n'
    · simp [hc]
    · simp only [hc, if_false, ih]
      cases findLf a <;> cases findLf b <;> simp <;> omega

theorem findCrlf_of_not {b : List Char} (h : ¬ ['\n'] <+: b) : findCrlf true b = findCrlf false b := by
  cases b with
  | nil => rfl
  | cons c b =>
    have : c ≠ '\n' := fun hc => h (by subst hc; exact ⟨b, rfl⟩)
    simp [findCrlf, this]

theorem NoSplit.tail {c : Char} {a b : List Char} (h : NoSplit (c :: a) b) : NoSplit a b :=
  fun ⟨h1, h2⟩ => h ⟨h1.trans ⟨[c], rfl⟩, h2⟩

theorem findCrlf_append {cr : Bool} {a b : List Char} (hs : NoSplit a b) (h0 : a = [] → cr = false) :
    findCrlf cr (a ++ b) = match findCrlf cr a with
      | some n => some n
      | none => (findCrlf false b).map (· + a.length) := by
  induction a generalizing cr with
  | nil => rw [h0 rfl]; cases h : findCrlf false b <;> simp [findCrlf, h]
  | cons c a ih =>
    simp only [List.cons_append, findCrlf]
    have key : ∀ cr', (cr' = true → c = '\r') → findCrlf cr' (a ++ b) = match findCrlf cr' a with
        | some n => some n
        | none => (findCrlf false b).map (· + a.length) := by
      intro cr' hcr
      by_cases ha : a = []
      · subst ha
        cases cr' with
        | false => exact ih hs.tail (fun _ => rfl)
        | true =>
          have hc := hcr rfl
          subst hc
          have hb : ¬ ['\n'] <+: b := fun hb => hs ⟨⟨[], rfl⟩, hb⟩
          simp only [List.nil_append, findCrlf_of_not hb]
          cases findCrlf false b <;> simp [findCrlf]
      · exact ih hs.tail (fun h => absurd h ha)
    by_cases hc : c = '\n'
    · subst hc
      simp only [if_true]
      cases cr with
      | true => simp
      | false =>
        have := key false (fun h => by cases h)
        simp only [Bool.false_eq_true, if_false, this]
        cases findCrlf false a <;> cases findCrlf false b <;> simp <;> omega
    · have := key (decide (c = '\r')) (fun h => by simpa using h)
      simp only [hc, if_false, this]
      cases findCrlf (decide (c = '\r')) a <;> cases findCrlf false b <;> simp <;> omega

theorem inferEnding_of_not {b : List Char} (h : ¬ ['\n'] <+: b) : inferEnding true b = inferEnding false b := by
  cases b with
  | nil => rfl
  | cons c b =>
    have : c ≠ '\n' := fun hc => h (by subst hc; exact ⟨b, rfl⟩)
    simp [inferEnding, this]

theorem inferEnding_append {cr : Bool} {a b : List Char} (hs : NoSplit a b) (h0 : a = [] → cr = false) :
    inferEnding cr (a ++ b) = if inferEnding cr a = .infer then inferEnding false b else inferEnding cr a := by
  induction a generalizing cr with
  | nil => rw [h0 rfl]; simp [inferEnding]
  | cons c a ih =>
    simp only [List.cons_append, inferEnding]
    by_cases hc : c = '\n'
    · cases cr <;> simp [hc]
    · simp only [hc, if_false]
      by_cases ha : a = []
      · subst ha
        by_cases hr : c = '\r'
        · subst hr
          have hb : ¬ ['\n'] <+: b := fun hb => hs ⟨⟨[], rfl⟩, hb⟩
          simp [inferEnding, inferEnding_of_not hb]
        · simp [inferEnding, hr]
      · exact ih hs.tail (fun h => absurd h ha)

theorem findLf_none {s : List Char} : findLf s = none ↔ '\n' ∉ s := by
  induction s with
  | nil => simp [findLf]
  | cons c s ih =>
    simp only [findLf]
    by_cases hc : c = '\n'
    · simp [hc]
    · simp [hc, ih, Ne.symm hc]

theorem inferEnding_infer {cr : Bool} {s : List Char} : inferEnding cr s = .infer ↔ '\n' ∉ s := by
  induction s generalizing cr with
  | nil => simp [inferEnding]
  | cons c s ih =>
    simp only [inferEnding]
    by_cases hc : c = '\n'
    · cases cr <;> simp [hc]
    · simp [hc, ih, Ne.symm hc]

theorem findCrlf_no {cr : Bool} {s : List Char} (h : '\n' ∉ s) : findCrlf cr s = none := by
  induction s generalizing cr with
  | nil => rfl
  | cons c s ih =>
    simp only [List.mem_cons, not_or] at h
    simp [findCrlf, Ne.symm h.1, ih h.2]

theorem findEnd_append {e : Ending} {a b : List Char} (hs : e = .lf ∨ NoSplit a b) :
    findEnd e (a ++ b) = match findEnd e a with
      | (some n, e') => (some n, e')
      | (none, e') => ((findEnd e' b).1.map (· + a.length), (findEnd e' b).2) := by
  cases e with
  | lf =>
    simp only [findEnd, findLf_append]
    cases findLf a <;> rfl
  | crlf =>
    have hs := hs.resolve_left (by simp)
    simp only [findEnd, findCrlf_append hs (fun _ => rfl)]
    cases findCrlf false a <;> rfl
  | infer =>
    have hs := hs.resolve_left (by simp)
    have h1 := inferEnding_append (cr := false) hs (fun _ => rfl)
    cases ha : inferEnding false a with
    | infer =>
      have hn := inferEnding_infer.mp ha
      rw [ha, if_pos rfl] at h1
      simp only [findEnd, h1, ha]
      cases inferEnding false b with
      | infer => rfl
      | lf => simp [findLf_append, findLf_none.mpr hn]
      | crlf => simp [findCrlf_append hs, findCrlf_no hn]
    | lf =>
      rw [ha, if_neg (by simp)] at h1
      simp only [findEnd, h1, ha, findLf_append]
      cases h : findLf a with
      | some n => rfl
      | none =>
        exact absurd (inferEnding_infer.mpr (findLf_none.mp h)) (by rw [ha]; simp)
    | crlf =>
      rw [ha, if_neg (by simp)] at h1
      simp only [findEnd, h1, ha, findCrlf_append hs (fun _ => rfl)]
      cases h : findCrlf false a <;> rfl

theorem findEnd_nil (e : Ending) : findEnd e [] = (none, e) := by cases e <;> rfl

theorem findEnd_pos {e : Ending} {s : List Char} {n : Nat} (h : (findEnd e s).1 = some n) : 0 < n ∧ n ≤ s.length := by
  have h1 : ∀ s n, findLf s = some n → 0 < n ∧ n ≤ s.length := by
    intro s
    induction s with
    | nil => intro n h; cases h
    | cons c s ih =>
      intro n h
      simp only [findLf] at h
      split at h
      · cases h; simp
      · cases hs : findLf s with
        | none => rw [hs] at h; cases h
        | some m => rw [hs] at h; cases h; have := ih m hs; simp; omega
  have h2 : ∀ s cr n, findCrlf cr s = some n → 0 < n ∧ n ≤ s.length := by
    intro s
    induction s with
    | nil => intro cr n h; cases h
    | cons c s ih =>
      intro cr n h
      have aux : ∀ cr', (findCrlf cr' s).map (· + 1) = some n → 0 < n ∧ n ≤ (c :: s).length := by
        intro cr' h
        cases hs : findCrlf cr' s with
        | none => rw [hs] at h; cases h
        | some m => rw [hs] at h; cases h; have := ih cr' m hs; simp; omega
      simp only [findCrlf] at h
      split at h
      · split at h
        · cases h; simp
        · exact aux _ h
      · exact aux _ h
  cases e with
  | lf => exact h1 _ _ h
  | crlf => exact h2 _ _ _ h
  | infer =>
    simp only [findEnd] at h
    split at h
    · cases h
    · exact h1 _ _ h
    · exact h2 _ _ _ h

/-! ## What one call reads -/

/-- The reader stands before the text `t`, which is the rest of the file. -/
structure At (f : TextFile) (r : Rd) (t : List Char) : Prop where
  text : r.cur ++ f.bytes.drop r.pos = t
  le : r.pos ≤ f.bytes.length
  eod : r.eod = true → r.pos = f.bytes.length
  cur : r.cur <:+ f.bytes.take r.pos
  grid : f.mmap = true ∧ (r.pos = 0 ∨ r.pos = f.bytes.length) ∨ f.mmap = false ∧ (f.chunk ∣ r.pos ∨ r.pos = f.bytes.length)

theorem At.noSplit {f : TextFile} {r : Rd} {t : List Char} (h : At f r t) (hu : Unsplit f) :
    NoSplit r.cur (f.bytes.drop r.pos) := by
  rintro ⟨h1, h2⟩
  have h3 := h1.trans h.cur
  have hp : f.bytes[r.pos]? = some '\n' := by
    obtain ⟨w, hw⟩ := h2
    have : (f.bytes.drop r.pos)[0]? = some '\n' := by rw [← hw]; rfl
    simpa using this
  have hlt : r.pos < f.bytes.length := by
    rcases Nat.lt_or_ge r.pos f.bytes.length with h | h
    · exact h
    · rw [List.getElem?_eq_none h] at hp; cases hp
  have hpos : 0 < r.pos := by
    rcases Nat.eq_zero_or_pos r.pos with h0 | h0
    · rw [h0] at h3
      have := h3.length_le
      simp at this
    · exact h0
  have hq : f.bytes[r.pos - 1]? = some '\r' := by
    obtain ⟨w, hw⟩ := h3
    have hl := congrArg List.length hw
    simp at hl
    have : (f.bytes.take r.pos)[r.pos - 1]? = some '\r' := by
      rw [← hw, show r.pos - 1 = w.length from by omega]
      simp
    rw [List.getElem?_take_of_lt (by omega)] at this
    exact this
  rcases h.grid with ⟨hm, h0 | h0⟩ | ⟨hm, h0 | h0⟩
  · omega
  · omega
  · rcases hu with hu | hu
    · rw [hm] at hu; cases hu
    · obtain ⟨k, hk⟩ := h0
      have := hu k (by rw [Nat.mul_comm]; omega)
      rw [Nat.mul_comm, ← hk] at this
      exact this ⟨hq, hp⟩
  · omega

/-- Reading a chunk. -/
theorem readChunk_spec {f : TextFile} (hc : 0 < f.chunk) {r : Rd} {t : List Char} (h : At f r t) :
    ∃ ch pos eod, readChunk f r.pos r.eod = (ch, pos, eod) ∧ ch ++ f.bytes.drop pos = f.bytes.drop r.pos ∧
      pos ≤ f.bytes.length ∧ (eod = true → pos = f.bytes.length) ∧ ch <:+ f.bytes.take pos ∧ pos = r.pos + ch.length ∧
      (f.mmap = true ∧ (pos = 0 ∨ pos = f.bytes.length) ∨ f.mmap = false ∧ (f.chunk ∣ pos ∨ pos = f.bytes.length)) ∧
      (ch = [] → r.pos = f.bytes.length) := by
  have hle := h.le
  cases hm : f.mmap with
  | true =>
    refine ⟨f.bytes.drop r.pos, f.bytes.length, r.eod, by simp [readChunk, hm], by simp, Nat.le_refl _, fun _ => rfl, ?_, ?_,
      .inl ⟨rfl, .inr rfl⟩, ?_⟩
    · rw [List.take_length]; exact List.drop_suffix _ _
    · simp; omega
    · intro h0; have := congrArg List.length h0; simp at this; omega
  | false =>
    cases he : r.eod with
    | true =>
      have hp := h.eod he
      refine ⟨[], r.pos, true, by simp [readChunk, hm], by simp, hle, fun _ => hp, List.nil_suffix, by simp,
        .inr ⟨rfl, .inr hp⟩, fun _ => hp⟩
    | false =>
      have hlen : ((f.bytes.drop r.pos).take f.chunk).length = min f.chunk (f.bytes.length - r.pos) := by simp
      have hg : f.chunk ∣ r.pos ∨ r.pos = f.bytes.length := by
        rcases h.grid with ⟨h1, _⟩ | ⟨_, h1⟩
        · rw [hm] at h1; cases h1
        · exact h1
      refine ⟨(f.bytes.drop r.pos).take f.chunk, _, _, by simp only [readChunk, hm, Bool.false_eq_true, if_false]; rfl,
        ?_, ?_, ?_, ?_, rfl, .inr ⟨rfl, ?_⟩, ?_⟩
      · rw [← List.drop_drop, hlen]
        rcases Nat.le_total f.chunk (f.bytes.length - r.pos) with h1 | h1
        · rw [Nat.min_eq_left h1]; exact List.take_append_drop _ _
        · rw [Nat.min_eq_right h1, List.take_of_length_le (by simpa using h1)]; simp; omega
      · rw [hlen]; omega
      · rw [hlen]; simp; omega
      · rw [List.take_add]
        have : (f.bytes.drop r.pos).take ((f.bytes.drop r.pos).take f.chunk).length = (f.bytes.drop r.pos).take f.chunk := by
          rw [hlen]
          rcases Nat.le_total f.chunk (f.bytes.length - r.pos) with h1 | h1
          · rw [Nat.min_eq_left h1]
          · rw [Nat.min_eq_right h1, List.take_of_length_le (by simp), List.take_of_length_le (by simpa using h1)]
        rw [this]
        exact List.suffix_append _ _
      · rw [hlen]
        rcases Nat.le_total f.chunk (f.bytes.length - r.pos) with h1 | h1
        · rw [Nat.min_eq_left h1]
          rcases hg with hg | hg
          · exact .inl (Nat.dvd_add hg (Nat.dvd_refl _))
          · omega
        · exact .inr (by rw [Nat.min_eq_right h1]; omega)
      · intro h0
        have := congrArg List.length h0
        rw [hlen] at this
        simp at this
        omega

theorem load_spec {f : TextFile} (hc : 0 < f.chunk) {r : Rd} {t : List Char} (h : At f r t)
    (hs : r.ending = .lf ∨ Unsplit f) :
    (∀ n, (findEnd r.ending t).1 = some n → ∃ m r', load f r = (.found m, r') ∧
      r'.prev.flatten ++ r'.cur.take m = r.prev.flatten ++ t.take n ∧ r'.ending = (findEnd r.ending t).2 ∧
      At f { r' with cur := r'.cur.drop m, chunkOff := r'.chunkOff + m, prev := [] } (t.drop n)) ∧
    ((findEnd r.ending t).1 = none → t = [] → ∃ r', load f r = (.eod, r') ∧ r'.prev = r.prev ∧ r'.ending = r.ending ∧ At f r' []) ∧
    ((findEnd r.ending t).1 = none → t ≠ [] → ∃ r', load f r = (.incomplete, r') ∧ r'.ending = (findEnd r.ending t).2 ∧
      At f r' r'.cur ∧ r'.cur ≠ [] ∧ (findEnd r'.ending r'.cur).1 = none) := by
  induction hm : f.bytes.length - r.pos using Nat.strongRecOn generalizing r t with
  | _ k ih =>
    have hsp : r.ending = .lf ∨ NoSplit r.cur (f.bytes.drop r.pos) := hs.imp id (fun hu => h.noSplit hu)
    have hap := findEnd_append hsp
    rw [h.text] at hap
    rw [load]
    split
    · next n e he =>
      rw [he] at hap
      simp only at hap
      have hn := findEnd_pos (e := r.ending) (s := r.cur) (n := n) (by rw [he])
      refine ⟨fun n' hn' => ?_, fun h0 => ?_, fun h0 => ?_⟩
      · rw [hap] at hn'
        cases hn'
        refine ⟨n, _, rfl, ?_, by rw [hap], ?_⟩
        · rw [← h.text, List.take_append_of_le_length hn.2]
        · refine ⟨?_, h.le, h.eod, (List.drop_suffix _ _).trans h.cur, h.grid⟩
          rw [← h.text, List.drop_append_of_le_length hn.2]
      · rw [hap] at h0; cases h0
      · rw [hap] at h0; cases h0
    · next e he =>
      rw [he] at hap
      simp only at hap
      obtain ⟨ch, pos, eod, hr, hch, hle, heod, hsuf, hpos, hgrid, hnil⟩ := readChunk_spec hc h
      have hend : e = r.ending ∨ r.ending = .infer := by
        cases hre : r.ending with
        | infer => exact .inr rfl
        | lf => rw [hre] at he; simp [findEnd] at he; exact .inl he.2.symm
        | crlf => rw [hre] at he; simp [findEnd] at he; exact .inl he.2.symm
      split
      · next p' e' hr' =>
        rw [hr] at hr'
        obtain ⟨rfl, rfl, rfl⟩ : ch = [] ∧ pos = p' ∧ eod = e' := by simpa using hr'
        have hp := hnil rfl
        have hpp : pos = f.bytes.length := by rw [hpos, ← hp]; rfl
        have ht : t = r.cur := by rw [← h.text, hp]; simp
        have hd : f.bytes.drop r.pos = [] := by rw [hp]; simp
        rw [hd, findEnd_nil] at hap
        simp only [Option.map_none] at hap
        split
        · next hcur =>
          refine ⟨fun n hn => ?_, fun _ _ => ⟨_, rfl, rfl, ?_, ?_⟩, fun _ h1 => absurd (ht.trans hcur) h1⟩
          · rw [hap] at hn; cases hn
          · rw [hcur, findEnd_nil] at he
            simp at he
            exact he.symm
          · refine ⟨by simp [hcur, hpp], hle, heod, by rw [hcur]; exact List.nil_suffix, hgrid⟩
        · next hcur =>
          refine ⟨fun n hn => ?_, fun _ h1 => absurd (ht.symm.trans h1) hcur, fun _ _ => ⟨_, rfl, by rw [hap], ?_, hcur, ?_⟩⟩
          · rw [hap] at hn; cases hn
          · refine ⟨by simp [hpp], hle, heod, ?_, hgrid⟩
            rw [hpp, ← hp]; exact h.cur
          · cases hre : r.ending with
            | lf => rw [hre] at he; simp [findEnd] at he; simp [findEnd, he.1, ← he.2]
            | crlf => rw [hre] at he; simp [findEnd] at he; simp [findEnd, he.1, ← he.2]
            | infer =>
              rw [hre] at he
              cases hi : inferEnding false r.cur with
              | infer => simp only [findEnd, hi] at he; cases he; simp [findEnd, hi]
              | lf => simp only [findEnd, hi, Prod.mk.injEq] at he; simp [findEnd, he.1, ← he.2]
              | crlf => simp only [findEnd, hi, Prod.mk.injEq] at he; simp [findEnd, he.1, ← he.2]
      · next c cs p' e' hr' =>
        rw [hr] at hr'
        obtain ⟨rfl, rfl, rfl⟩ : ch = c :: cs ∧ pos = p' ∧ eod = e' := by simpa using hr'
        have hlt : f.bytes.length - pos < k := by simp at hpos; omega
        have hA : At f { r with
            ending := e, streamOff := r.pos, pos := pos, eod := eod, prev := r.prev ++ [r.cur], cur := c :: cs, chunkOff := 0 }
            (f.bytes.drop r.pos) := ⟨hch, hle, heod, hsuf, hgrid⟩
        have hs' : e = .lf ∨ Unsplit f := by
          rcases hend with hend | hend
          · rw [hend]; exact hs
          · exact .inr (hs.resolve_left (by rw [hend]; simp))
        obtain ⟨h1, h2, h3⟩ := ih _ hlt hA hs' rfl
        have hlen : t = r.cur ++ f.bytes.drop r.pos := h.text.symm
        have hne : f.bytes.drop r.pos ≠ [] := by rw [← hch]; simp
        refine ⟨fun n hn => ?_, fun _ h0 => ?_, fun h0 _ => ?_⟩
        · rw [hap] at hn
          simp only [Option.map_eq_some_iff] at hn
          obtain ⟨n', hn', rfl⟩ := hn
          obtain ⟨m, r', e1, e2, e3, e4⟩ := h1 n' hn'
          refine ⟨m, r', e1, ?_, by rw [e3, hap], ?_⟩
          · rw [e2]
            simp only [List.flatten_append, List.flatten_cons, List.flatten_nil, List.append_nil, List.append_assoc]
            rw [hlen, Nat.add_comm, List.take_length_add_append]
          · rw [hlen, show n' + r.cur.length = r.cur.length + n' from Nat.add_comm _ _, List.drop_length_add_append]; exact e4
        · rw [hlen] at h0
          exact absurd (List.append_eq_nil_iff.mp h0).2 hne
        · rw [hap] at h0
          simp only [Option.map_eq_none_iff] at h0
          obtain ⟨r', e1, e2, e3⟩ := h3 h0 hne
          exact ⟨r', e1, by rw [e2, hap], e3⟩

/-! ## Lines -/

theorem IsLine.ne_nil {nl l : List Char} (h : IsLine nl l) (hn : nl ≠ []) : l ≠ [] := by
  rintro rfl
  exact hn (List.suffix_nil.mp h.1)

theorem findLf_line {l t : List Char} (h : IsLine ['\n'] l) : findLf (l ++ t) = some l.length := by
  induction l with
  | nil => exact absurd rfl (h.ne_nil (by simp))
  | cons c l ih =>
    simp only [List.cons_append, findLf]
    by_cases hc : c = '\n'
    · have := h.2 [] l (by simp [hc])
      subst this
      simp [hc]
    · have : IsLine ['\n'] l := by
        refine ⟨?_, fun a b hab => h.2 (c :: a) b (by simp [hab])⟩
        rcases List.suffix_cons_iff.mp h.1 with h1 | h1
        · simp at h1; exact absurd h1.1.symm hc
        · exact h1
      simp [hc, ih this]

def pre (cr : Bool) : List Char := if cr then ['\r'] else []

theorem findCrlf_line {cr : Bool} {l t : List Char} (h : IsLine ['\r', '\n'] (pre cr ++ l)) :
    findCrlf cr (l ++ t) = some l.length := by
  induction l generalizing cr with
  | nil =>
    have := h.1.length_le
    cases cr <;> simp [pre] at this
  | cons c l ih =>
    simp only [List.cons_append, findCrlf]
    by_cases hc : c = '\n'
    · subst hc
      cases cr with
      | true =>
        have := h.2 [] l (by simp [pre])
        subst this
        simp
      | false =>
        have : IsLine ['\r', '\n'] (pre false ++ l) := by
          refine ⟨?_, fun a b hab => h.2 ('\n' :: a) b (by simpa [pre] using hab)⟩
          rcases List.suffix_cons_iff.mp h.1 with h1 | h1
          · simp at h1
          · exact h1
        simp [ih this]
    · have : IsLine ['\r', '\n'] (pre (decide (c = '\r')) ++ l) := by
        by_cases hr : c = '\r'
        · subst hr
          simp only [decide_true, pre, if_true]
          cases cr with
          | false => exact h
          | true =>
            refine ⟨?_, fun a b hab => h.2 ('\r' :: a) b (by simpa [pre] using hab)⟩
            rcases List.suffix_cons_iff.mp h.1 with h1 | h1
            · simp at h1
            · exact h1
        · simp only [hr, decide_false, pre, Bool.false_eq_true, if_false, List.nil_append]
          cases cr with
          | false =>
            refine ⟨?_, fun a b hab => h.2 (c :: a) b (by simpa [pre] using hab)⟩
            rcases List.suffix_cons_iff.mp h.1 with h1 | h1
            · simp at h1; exact absurd h1.1.symm hr
            · exact h1
          | true =>
            refine ⟨?_, fun a b hab => h.2 ('\r' :: c :: a) b (by simpa [pre] using hab)⟩
            rcases List.suffix_cons_iff.mp h.1 with h1 | h1
            · simp at h1; exact absurd h1.1.symm hc
            · rcases List.suffix_cons_iff.mp h1 with h1 | h1
              · simp at h1; exact absurd h1.1.symm hr
              · exact h1
      simp [hc, ih this]

theorem findCrlf_rest {cr : Bool} {s : List Char} (h : ¬ ['\r', '\n'] <:+: (pre cr ++ s)) : findCrlf cr s = none := by
  induction s generalizing cr with
  | nil => rfl
  | cons c s ih =>
    simp only [findCrlf]
    by_cases hc : c = '\n'
    · subst hc
      cases cr with
      | true => exact absurd ⟨[], s, by simp [pre]⟩ h
      | false =>
        have := ih (cr := false) (fun ⟨a, b, hab⟩ => h ⟨'\n' :: a, b, by simp [pre] at hab ⊢; exact hab⟩)
        simp [this]
    · have := ih (cr := decide (c = '\r')) (fun ⟨a, b, hab⟩ => h (by
        by_cases hr : c = '\r'
        · subst hr
          refine ⟨pre cr ++ a, b, ?_⟩
          simp only [decide_true, pre, if_true] at hab
          rw [List.append_assoc, List.append_assoc, ← List.append_assoc a, hab]
          rfl
        · refine ⟨pre cr ++ c :: a, b, ?_⟩
          simp only [hr, decide_false, pre, Bool.false_eq_true, if_false, List.nil_append] at hab
          rw [← hab]
          simp))
      simp [hc, this]

theorem findEnd_line {e : Ending} (he : e ≠ .infer) {l : List Char} (h : IsLine (eol e) l) (t : List Char) :
    findEnd e (l ++ t) = (some l.length, e) := by
  cases e with
  | infer => exact absurd rfl he
  | lf => simp [findEnd, findLf_line h]
  | crlf => simp [findEnd, findCrlf_line (cr := false) h]

theorem findEnd_rest {e : Ending} (he : e ≠ .infer) {s : List Char} (h : ¬ eol e <:+: s) : findEnd e s = (none, e) := by
  cases e with
  | infer => exact absurd rfl he
  | lf =>
    have : '\n' ∉ s := fun hm => h (by
      obtain ⟨a, b, rfl⟩ := List.append_of_mem hm
      exact ⟨a, b, by simp [eol]⟩)
    simp [findEnd, findLf_none.mpr this]
  | crlf => simp [findEnd, findCrlf_rest (cr := false) h]

theorem inferEnding_first {a b : List Char} {cr : Bool} (ha : '\n' ∉ a) :
    inferEnding cr (a ++ '\n' :: b) = if a = [] then (if cr then .crlf else .lf) else if ['\r'] <:+ a then .crlf else .lf := by
  induction a generalizing cr with
  | nil => simp [inferEnding]
  | cons c a ih =>
    simp only [List.mem_cons, not_or] at ha
    simp only [List.cons_append, inferEnding, Ne.symm ha.1, if_false, ih ha.2, reduceCtorEq]
    by_cases h0 : a = []
    · subst h0
      by_cases hr : c = '\r'
      · subst hr; simp
      · have : ¬ ['\r'] <:+ [c] := by
          intro h
          rcases List.suffix_cons_iff.mp h with h | h
          · simp at h; exact hr h.symm
          · simp at h
        simp [hr, this]
    · simp only [h0, if_false]
      have : (['\r'] <:+ c :: a) ↔ ['\r'] <:+ a := by
        constructor
        · intro h
          rcases List.suffix_cons_iff.mp h with h | h
          · simp at h; exact absurd h.2 h0
          · exact h
        · exact fun h => h.trans ⟨[c], rfl⟩
      simp [this]

theorem findEnd_uses {o e : Ending} {t : List Char} (h : Uses o t e) : findEnd o t = findEnd e t := by
  obtain ⟨he, h | ⟨h, a, b, rfl, ha, hc⟩⟩ := h
  · rw [h]
  · subst h
    have := inferEnding_first (b := b) (cr := false) ha
    have hi : inferEnding false (a ++ '\n' :: b) = e := by
      rw [this]
      cases e with
      | infer => exact absurd rfl he
      | crlf =>
        have h1 := hc.mp rfl
        have h2 : a ≠ [] := by rintro rfl; simp at h1
        simp [h1, h2]
      | lf =>
        have h1 : ¬ ['\r'] <:+ a := fun h => by cases hc.mpr h
        by_cases h2 : a = [] <;> simp [h1, h2]
    cases e with
    | infer => exact absurd rfl he
    | lf => simp only [findEnd, hi]
    | crlf => simp only [findEnd, hi]

/-! ## All calls -/

/-- The reader is between two calls and has the text `t` before it. -/
structure Stand (f : TextFile) (e : Ending) (r : Rd) (t : List Char) : Prop where
  at_ : At f r t
  prev : r.prev = []
  uses : findEnd r.ending t = findEnd e t
  ok : r.ending = .lf ∨ Unsplit f

theorem nextRecord_line {f : TextFile} (hc : 0 < f.chunk) {e : Ending} (he : e ≠ .infer) {r : Rd} {l t : List Char}
    (h : Stand f e r (l ++ t)) (hl : IsLine (eol e) l) :
    ∃ r', nextRecord f r = (.ok l, r') ∧ Stand f e r' t ∧ r'.ending = e := by
  have hf : findEnd r.ending (l ++ t) = (some l.length, e) := h.uses.trans (findEnd_line he hl t)
  obtain ⟨m, r', h1, h2, h3, h4⟩ := (load_spec hc h.at_ h.ok).1 l.length (by rw [hf])
  rw [hf] at h3
  rw [h.prev] at h2
  simp at h2 h4
  have hnext : nextRecord f r = (.ok l, { r' with cur := r'.cur.drop m, chunkOff := r'.chunkOff + m, prev := [] }) := by
    simp [nextRecord, h1, h2]
  refine ⟨_, hnext, ⟨h4, rfl, by simp [h3], ?_⟩, h3⟩
  rcases h.ok with h0 | h0
  · left
    rw [h0] at hf
    simp [findEnd] at hf
    simp [h3, ← hf.2]
  · exact .inr h0

theorem nextRecord_nil {f : TextFile} (hc : 0 < f.chunk) {e : Ending} {r : Rd} (h : Stand f e r []) :
    ∃ r', nextRecord f r = (.ok [], r') ∧ Stand f e r' [] := by
  obtain ⟨r', h1, h2, h3, h4⟩ := (load_spec hc h.at_ h.ok).2.1 (by rw [findEnd_nil]) rfl
  exact ⟨r', by simp [nextRecord, h1], h4, h2.trans h.prev, by rw [h3]; exact h.uses, by rw [h3]; exact h.ok⟩

theorem nextRecord_rest {f : TextFile} (hc : 0 < f.chunk) {e : Ending} (he : e ≠ .infer) {r : Rd} {t : List Char}
    (h : Stand f e r t) (ht : t ≠ []) (hn : ¬ eol e <:+: t) :
    ∃ r', nextRecord f r = (.error ⟨false, "The stream ends with a partial record."⟩, r') := by
  have hf : findEnd r.ending t = (none, e) := h.uses.trans (findEnd_rest he hn)
  obtain ⟨r', h1, _⟩ := (load_spec hc h.at_ h.ok).2.2 (by rw [hf]) ht
  exact ⟨r', by simp [nextRecord, h1]⟩

/-- The lines that are not skipped. -/
def shown (o : TextOpts) (e : Ending) (ls : List (List Char)) : List (List Char) :=
  if o.skipEmpty then ls.filter (· ≠ eol e) else ls

theorem isEmptyLine_iff {e : Ending} (he : e ≠ .infer) {l : List Char} (h : IsLine (eol e) l) :
    isEmptyLine e l = true ↔ l = eol e := by
  cases e with
  | infer => exact absurd rfl he
  | lf => simp only [isEmptyLine, decide_eq_true_eq]; exact ⟨fun hl => (h.1.eq_of_length (by simp [eol, hl])).symm, fun hl => by simp [hl, eol]⟩
  | crlf => simp only [isEmptyLine, decide_eq_true_eq]; exact ⟨fun hl => (h.1.eq_of_length (by simp [eol, hl])).symm, fun hl => by simp [hl, eol]⟩

theorem eol_ne (e : Ending) : eol e ≠ [] := by cases e <;> simp [eol]

theorem readLine_spec {f : TextFile} (hc : 0 < f.chunk) (o : TextOpts) {e : Ending} (he : e ≠ .infer) {r : Rd}
    {ls : List (List Char)} {rest : List Char} (hl : ∀ l ∈ ls, IsLine (eol e) l) (hn : ¬ eol e <:+: rest)
    (h : Stand f e r (ls.flatten ++ rest)) :
    (shown o e ls = [] → rest = [] → ∃ r', readLine f o r = some (.ok [], r') ∧ Stand f e r' []) ∧
    (shown o e ls = [] → rest ≠ [] → ∃ r', readLine f o r = some (.error ⟨false, "The stream ends with a partial record."⟩, r')) ∧
    (∀ l more, shown o e ls = l :: more → ∃ ls' r', readLine f o r = some (.ok l, r') ∧ l ∈ ls ∧ shown o e ls' = more ∧
      (∀ l ∈ ls', IsLine (eol e) l) ∧ Stand f e r' (ls'.flatten ++ rest)) := by
  induction ls generalizing r with
  | nil =>
    simp only [List.flatten_nil, List.nil_append] at h
    rw [readLine]
    refine ⟨fun _ h0 => ?_, fun _ h0 => ?_, fun l more hs => ?_⟩
    · subst h0
      obtain ⟨r', h1, h2⟩ := nextRecord_nil hc h
      exact ⟨r', by simp [h1], h2⟩
    · obtain ⟨r', h1⟩ := nextRecord_rest hc he h h0 hn
      exact ⟨r', by simp [h1]⟩
    · simp [shown] at hs
  | cons a ls ih =>
    rw [List.flatten_cons, List.append_assoc] at h
    have ha := hl a (by simp)
    have hls : ∀ l ∈ ls, IsLine (eol e) l := fun l h => hl l (List.mem_cons_of_mem _ h)
    obtain ⟨r', h1, h2, h3⟩ := nextRecord_line hc he h ha
    have hane : a ≠ [] := ha.ne_nil (eol_ne e)
    obtain ⟨c, cs, rfl⟩ := List.exists_cons_of_ne_nil hane
    rw [readLine]
    simp only [h1, h3]
    by_cases hskip : o.skipEmpty = true ∧ isEmptyLine e (c :: cs) = true
    · have hsh : shown o e ((c :: cs) :: ls) = shown o e ls := by
        simp [shown, hskip.1, (isEmptyLine_iff he ha).mp hskip.2]
      rw [hsh, if_pos hskip]
      obtain ⟨i1, i2, i3⟩ := ih hls h2
      refine ⟨i1, i2, fun l more hs => ?_⟩
      obtain ⟨ls', r', j1, j2, j3⟩ := i3 l more hs
      exact ⟨ls', r', j1, List.mem_cons_of_mem _ j2, j3⟩
    · have hsh : shown o e ((c :: cs) :: ls) = (c :: cs) :: shown o e ls := by
        simp only [shown]
        by_cases hs : o.skipEmpty = true
        · have : (c :: cs) ≠ eol e := fun h => hskip ⟨hs, (isEmptyLine_iff he ha).mpr h⟩
          simp [hs, this]
        · simp [hs]
      rw [hsh, if_neg hskip]
      refine ⟨fun h => by simp at h, fun h => by simp at h, fun l more hs => ?_⟩
      cases hs
      exact ⟨ls, r', rfl, by simp, rfl, hls, h2⟩

theorem lines_read {f : TextFile} (hc : 0 < f.chunk) (o : TextOpts) {e : Ending} (he : e ≠ .infer) {r : Rd}
    {ls : List (List Char)} {rest : List Char} (hl : ∀ l ∈ ls, IsLine (eol e) l) (hn : ¬ eol e <:+: rest)
    (h : Stand f e r (ls.flatten ++ rest)) :
    ∃ r', (textSource f o).Emits r ((shown o e ls).map (lineData o)) r' ∧ (rest = [] → (textSource f o).Ended r') ∧
      (rest ≠ [] → ∃ r'' err, (textSource f o).next r' = some (.err err, r'') ∧ err.recoverable = false) := by
  generalize hsh : shown o e ls = xs
  induction xs generalizing r ls with
  | nil =>
    refine ⟨r, .nil _, fun h0 => ?_, fun h0 => ?_⟩
    · subst h0
      refine ⟨fun r => ∃ ls, shown o e ls = [] ∧ (∀ l ∈ ls, IsLine (eol e) l) ∧ Stand f e r (ls.flatten ++ []), ⟨ls, hsh, hl, h⟩, ?_⟩
      rintro r ⟨ls, hs, hl, h⟩
      obtain ⟨r', h1, h2⟩ := (readLine_spec hc o he hl hn h).1 hs rfl
      exact ⟨r', by simp [textSource, h1], [], by simp [shown], by simp, h2⟩
    · obtain ⟨r', h1⟩ := (readLine_spec hc o he hl hn h).2.1 hsh h0
      exact ⟨r', ⟨false, "The stream ends with a partial record."⟩, by simp only [textSource, h1], rfl⟩
  | cons l more ih =>
    obtain ⟨ls', r', h1, h2, h3, h4, h5⟩ := (readLine_spec hc o he hl hn h).2.2 l more hsh
    obtain ⟨r'', i1, i2⟩ := ih h4 h5 h3
    have hne : l ≠ [] := (hl l h2).ne_nil (eol_ne e)
    obtain ⟨c, cs, rfl⟩ := List.exists_cons_of_ne_nil hne
    refine ⟨r'', .cons ?_ i1, i2⟩
    simp [textSource, h1]

theorem stand_init {f : TextFile} {o : TextOpts} {e : Ending} (hu : Uses o.ending f.bytes e) (hs : o.ending = .lf ∨ Unsplit f) :
    Stand f e (textSource f o).init f.bytes := by
  refine ⟨⟨rfl, Nat.zero_le _, ?_, List.nil_suffix, ?_⟩, rfl, findEnd_uses hu, hs⟩
  · intro h; cases h
  · cases h : f.mmap
    · exact .inr ⟨rfl, .inl ⟨0, rfl⟩⟩
    · exact .inl ⟨rfl, .inl rfl⟩

/-- Every text has lines. -/
theorem lines_exist (e : Ending) (text : List Char) : ∃ ls rest, Lines (eol e) text ls rest := by
  induction hk : text.length using Nat.strongRecOn generalizing text with
  | _ k ih =>
    by_cases h : eol e <:+: text
    · -- the shortest prefix that contains the line ending
      have hex : ∃ n, eol e <:+: text.take n := ⟨text.length, by rw [List.take_length]; exact h⟩
      have hmin : ∃ n, eol e <:+: text.take n ∧ ∀ m, m < n → ¬ eol e <:+: text.take m := by
        obtain ⟨n, hn⟩ := hex
        induction n using Nat.strongRecOn with
        | _ n ih =>
          by_cases hm : ∃ m, m < n ∧ eol e <:+: text.take m
          · obtain ⟨m, hm, h⟩ := hm
            exact ih m hm h
          · exact ⟨n, hn, fun m h1 h2 => hm ⟨m, h1, h2⟩⟩
      obtain ⟨n, hn, hmin⟩ := hmin
      have hlen : n ≤ text.length := by
        rcases Nat.le_total n text.length with h | h
        · exact h
        · rcases Nat.lt_or_ge text.length n with h1 | h1
          · exact absurd (by rw [List.take_length]; rwa [List.take_of_length_le h] at hn) (hmin _ h1)
          · exact h1
      have hpos : 0 < n := by
        rcases Nat.eq_zero_or_pos n with h | h
        · subst h
          have := hn.length_le
          cases e <;> simp [eol] at this
        · exact h
      have hend : ∀ a b, text.take n = a ++ eol e ++ b → b = [] := by
        intro a b hab
        rcases List.eq_nil_or_concat b with h0 | ⟨b', x, rfl⟩
        · exact h0
        · exfalso
          apply hmin (n - 1) (by omega)
          refine ⟨a, b', ?_⟩
          have h2 : text.take (n - 1) = (text.take n).dropLast := by
            rw [List.dropLast_eq_take, List.take_take]
            simp
            rw [Nat.min_eq_left hlen]
            omega
          rw [h2, hab]
          simp [← List.append_assoc]
      obtain ⟨ls, rest, h1⟩ := ih (text.drop n).length (by simp; omega) (text.drop n) rfl
      refine ⟨text.take n :: ls, rest, ?_, ?_, h1.rest⟩
      · rw [List.flatten_cons, List.append_assoc, ← h1.text, List.take_append_drop]
      · intro l hl
        rcases List.mem_cons.mp hl with rfl | hl
        · obtain ⟨a, b, hab⟩ := hn
          have := hend a b hab.symm
          subst this
          exact ⟨⟨a, by simpa using hab⟩, hend⟩
        · exact h1.line l hl
    · exact ⟨[], text, rfl, by simp, h⟩

/-! ## Saving and loading -/

/-- What the recorded offsets say about the reader. -/
structure Saved (f : TextFile) (r : Rd) : Prop where
  mem : f.mmap = true → r.eod = false
  at_ : (r.cur = [] ∧ r.chunkOff = 0 ∧ r.pos = r.streamOff) ∨
    (∃ ch, ch ≠ [] ∧ readChunk f r.streamOff false = (ch, r.pos, r.eod) ∧ r.cur = ch.drop r.chunkOff ∧ r.chunkOff ≤ ch.length)

theorem Saved.load {f : TextFile} {r : Rd} (h : Saved f r) {n : Nat} {r' : Rd} (hl : load f r = (.found n, r')) :
    Saved f { r' with cur := r'.cur.drop n, chunkOff := r'.chunkOff + n, prev := [] } ∧ 0 < n := by
  induction hm : f.bytes.length - r.pos using Nat.strongRecOn generalizing r with
  | _ k ih =>
    rw [Native.load] at hl
    split at hl
    · next m e he =>
      cases hl
      have hn := findEnd_pos (e := r.ending) (s := r.cur) (n := n) (by rw [he])
      refine ⟨⟨h.mem, ?_⟩, hn.1⟩
      rcases h.at_ with ⟨h1, _, _⟩ | ⟨ch, h1, h2, h3, h4⟩
      · rw [h1] at hn; simp at hn; omega
      · refine .inr ⟨ch, h1, h2, by simp [h3, List.drop_drop], ?_⟩
        rw [h3] at hn
        simp at hn ⊢
        omega
    · next e he =>
      split at hl
      · split at hl <;> cases hl
      · next c cs p' e' hr =>
        have heod : r.eod = false := by
          cases hm : f.mmap with
          | true => exact h.mem hm
          | false =>
            cases hd : r.eod with
            | false => rfl
            | true => rw [hd] at hr; simp [readChunk, hm] at hr
        rw [heod] at hr
        have hlt : f.bytes.length - p' < k := by
          simp only [readChunk] at hr
          split at hr
          · simp at hr; have := congrArg List.length hr.1; simp at this; omega
          · simp at hr; have := congrArg List.length hr.1; simp at this; omega
        refine ih _ hlt ⟨?_, ?_⟩ hl rfl
        · intro hm
          simp only [readChunk, hm, if_true] at hr
          simp at hr
          exact hr.2.2
        · exact .inr ⟨c :: cs, by simp, hr, by simp, by simp⟩

theorem emits_nil {S : Source} {s s' : S.σ} (h : S.Emits s [] s') : s' = s := by
  cases h; rfl

theorem lines_saved {f : TextFile} (hc : 0 < f.chunk) (o : TextOpts) (ho : o.skipEmpty = false) {e : Ending} (he : e ≠ .infer) {r : Rd}
    {ls : List (List Char)} {t : List Char} (hl : ∀ l ∈ ls, IsLine (eol e) l) (h : Stand f e r (ls.flatten ++ t)) (hsv : Saved f r) :
    ∃ r', (textSource f o).Emits r (ls.map (lineData o)) r' ∧ Stand f e r' t ∧ Saved f r' ∧ (ls ≠ [] → 0 < r'.chunkOff) := by
  induction ls generalizing r with
  | nil => exact ⟨r, .nil _, by simpa using h, hsv, fun h => absurd rfl h⟩
  | cons l ls ih =>
    rw [List.flatten_cons, List.append_assoc] at h
    have hlin := hl l (by simp)
    have hf : findEnd r.ending (l ++ (ls.flatten ++ t)) = (some l.length, e) := h.uses.trans (findEnd_line he hlin _)
    obtain ⟨m, r₁, h1, -⟩ := (load_spec hc h.at_ h.ok).1 l.length (by rw [hf])
    obtain ⟨hsv', hm⟩ := hsv.load h1
    obtain ⟨r', h3, h4, h5⟩ := nextRecord_line hc he h hlin
    have hr' : r' = { r₁ with cur := r₁.cur.drop m, chunkOff := r₁.chunkOff + m, prev := [] } := by
      simp only [nextRecord, h1, Prod.mk.injEq] at h3
      exact h3.2.symm
    have hsv'' : Saved f r' := by rw [hr']; exact hsv'
    have hco : 0 < r'.chunkOff := by rw [hr']; simp; omega
    obtain ⟨r'', j1, j2, j3, j4⟩ := ih (fun l h => hl l (List.mem_cons_of_mem _ h)) h4 hsv''
    obtain ⟨c, cs, rfl⟩ := List.exists_cons_of_ne_nil (hlin.ne_nil (eol_ne e))
    refine ⟨r'', .cons ?_ j1, j2, j3, fun _ => ?_⟩
    · have : readLine f o r = some (.ok (c :: cs), r') := by rw [readLine, h3]; simp [ho]
      simp [textSource, this]
    · cases ls with
      | nil =>
        rw [emits_nil j1]; exact hco
      | cons => exact j4 (by simp)

theorem saved_init (f : TextFile) (o : TextOpts) : Saved f (textSource f o).init := ⟨fun _ => rfl, .inl ⟨rfl, rfl, rfl⟩⟩

/-- Loading the recorded offsets into a new reader. -/
theorem reload_fresh {f : TextFile} {o : TextOpts} {r : Rd} (h : Saved f r) (hc : 0 < r.chunkOff) :
    (r.cur = [] → (textSource f o).reload true (textSource f o).init [.int r.streamOff, .int r.chunkOff] = .error corrupt) ∧
    (r.cur ≠ [] → (textSource f o).reload true (textSource f o).init [.int r.streamOff, .int r.chunkOff] =
      .ok ({ r with ending := o.ending, prev := [] }, [])) := by
  rcases h.at_ with ⟨_, h1, _⟩ | ⟨ch, h1, h2, h3, h4⟩
  · omega
  · have hso : f.mmap = true → r.streamOff < f.bytes.length := by
      intro hm
      simp only [readChunk, hm, if_true, Prod.mk.injEq] at h2
      rcases Nat.lt_or_ge r.streamOff f.bytes.length with h | h
      · exact h
      · rw [List.drop_eq_nil_of_le h] at h2
        exact absurd h2.1.symm h1
    have hseek : seek f ({ ending := o.ending } : Rd) r.streamOff = { pos := r.streamOff, ending := o.ending } := by
      simp only [seek]
      cases hm : f.mmap with
      | false => rfl
      | true =>
        have := hso hm
        simp only [if_true, Nat.sub_zero, ge_iff_le, Nat.not_le.mpr this, if_false]
        rw [Nat.zero_add]
    have hread : ∀ t, (textSource f o).reload true (textSource f o).init (.int r.streamOff :: .int r.chunkOff :: t) =
        if r.chunkOff ≥ ch.length then .error corrupt
        else .ok ((⟨r.pos, r.eod, ch.drop r.chunkOff, [], r.streamOff, r.chunkOff, o.ending⟩ : Rd), t) := by
      intro t
      show (match readNat (.int r.streamOff :: .int r.chunkOff :: t) with
        | .error e => Except.error e
        | .ok (so, t) =>
          match readNat t with
          | .error e => .error e
          | .ok (co, t) =>
            let r := { seek f ({ ending := o.ending } : Rd) so with streamOff := so, chunkOff := co }
            if co > 0 then
              let (ch, pos, eod) := readChunk f r.pos r.eod
              if co ≥ ch.length then .error corrupt
              else .ok ({ r with cur := ch.drop co, pos := pos, eod := eod }, t)
            else .ok ({ r with cur := [] }, t)) = _
      have e1 : ∀ n : Nat, ∀ t, readNat (.int n :: t) = .ok (n, t) := fun n t => rfl
      simp only [e1, hseek, gt_iff_lt, hc, if_true, h2]
      rfl
    rw [hread]
    constructor
    · intro h0
      rw [if_pos]
      have := congrArg List.length (h3.symm.trans h0)
      simp at this
      omega
    · intro h0
      rw [if_neg, ← h3]
      intro hge
      exact h0 (by rw [h3, List.drop_eq_nil_of_le hge])

end Fs2.Native
