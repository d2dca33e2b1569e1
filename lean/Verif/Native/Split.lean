import Verif.Pipeline.Basic

/-!
# Splitting strings

Model of `immutable_string::split` (native/src/fairseq2n/data/immutable_string.cc:57-77), `string_splitter`
(native/src/fairseq2n/data/text/string_splitter.cc:20-121) and `trim` and `from_string` (native/src/fairseq2n/utils/string.h:20-101).
Simplification: a string is a list of characters; in C++ it is a sequence of bytes, of which UTF-8 characters are made up.  All
characters that are treated specially are ASCII.
-/

namespace Fs2.Native

/-- `immutable_string::split` (immutable_string.cc:57-77).  The handler is given what it has collected and the next part and
returns whether to go on; `cur` is what lies between `offset` and `char_idx`. -/
def splitLoop {β : Type} (sep : Char) (h : β → List Char → Except Err (β × Bool)) : β → List Char → List Char → Except Err β
  | b, cur, [] =>
    match h b cur with
    | .error e => .error e
    | .ok (b, _) => .ok b
  | b, cur, c :: s =>
    if c = sep then
      match h b cur with
      | .error e => .error e
      | .ok (b, false) => .ok b
      | .ok (b, true) => splitLoop sep h b [] s
    else splitLoop sep h b (cur ++ [c]) s

/-- immutable_string.cc:42-55. -/
def split (sep : Char) (s : List Char) : List (List Char) :=
  match splitLoop sep (fun ps p => .ok (ps ++ [p], true)) [] [] s with
  | .ok ps => ps
  | .error _ => []

/-- `std::isspace` in the C locale. -/
def isSpace (c : Char) : Bool :=
  c = ' ' || c = '\t' || c = '\n' || c = '\x0b' || c = '\x0c' || c = '\r'

/-- string.h:54-83. -/
def ltrim (s : List Char) : List Char := s.dropWhile isSpace
def rtrim (s : List Char) : List Char := (s.reverse.dropWhile isSpace).reverse
def trim (s : List Char) : List Char := rtrim (ltrim s)

def digitVal (c : Char) : Nat := c.toNat - '0'.toNat

/-- The number that a sequence of decimal digits stands for. -/
def decimal (s : List Char) : Nat := s.foldl (fun n c => 10 * n + digitVal c) 0

/-- `from_string<std::size_t>` (string.h:85-101). -/
def parseSize (s : List Char) : Except Err Nat :=
  if s ≠ [] ∧ s.all Char.isDigit then
    if decimal s < 2 ^ 64 then .ok (decimal s)
    else .error ⟨false, "`s` is out of range."⟩
  else .error ⟨false, "`s` does not represent a valid integer value."⟩

/-! ## string_splitter -/

structure Splitter where
  sep : Char
  names : List String
  /-- After `finalize_indices`. -/
  indices : List Nat
  exclude : Bool
  single : Bool

/-- The constructors (string_splitter.cc:20-58). -/
def Splitter.new (sep : Char) (names : List String) (indices : List Nat) (exclude single : Bool) : Except Err Splitter :=
  if indices = [] then .ok ⟨sep, names, [], exclude, single⟩
  else if names ≠ [] ∧ ¬ exclude ∧ names.length ≠ indices.length then
    .error ⟨false, "`names` and `indices` must have the same length."⟩
  else .ok ⟨sep, names, indices.mergeSort, exclude, single⟩

/-- `idx_pos` (as what is left of the indices), `idx` and `fields` in `operator()`. -/
structure SplitSt where
  rem : List Nat
  idx : Nat
  fields : List (List Char)

/-- The handler (string_splitter.cc:73-96). -/
def Splitter.handle (c : Splitter) (x : SplitSt) (s : List Char) : Except Err (SplitSt × Bool) :=
  match x.rem with
  | [] => .ok (⟨[], x.idx + 1, x.fields ++ [s]⟩, true)
  | i :: rem =>
    if c.exclude then
      if x.idx ≠ i then .ok (⟨i :: rem, x.idx + 1, x.fields ++ [s]⟩, true)
      else .ok (⟨rem, x.idx + 1, x.fields⟩, true)
    else if x.idx = i then
      if rem = [] then .ok (⟨[], x.idx, x.fields ++ [s]⟩, false)
      else .ok (⟨rem, x.idx + 1, x.fields ++ [s]⟩, true)
    else .ok (⟨i :: rem, x.idx + 1, x.fields⟩, true)

/-- `dict.emplace` does not replace an entry (string_splitter.cc:115-118). -/
def emplace (d : List (String × Data)) (k : String) (v : Data) : List (String × Data) :=
  if d.any (·.1 = k) then d else d ++ [(k, v)]

def asStr (s : List Char) : Data := .str (String.ofList s)

/-- `string_splitter::operator()` (string_splitter.cc:60-121). -/
def Splitter.call (c : Splitter) (d : Data) : Except Err Data :=
  match d with
  | .str s =>
    match splitLoop c.sep c.handle ⟨c.indices, 0, []⟩ [] s.toList with
    | .error e => .error e
    | .ok x =>
      if x.rem ≠ [] then .error ⟨false, "The input string must have at least so many fields."⟩
      else if c.names = [] then
        if c.single ∧ ¬ c.exclude then
          match x.fields with
          | f :: _ => .ok (asStr f)
          | [] => .error ⟨false, "undefined behaviour"⟩
        else .ok (.list (x.fields.map asStr))
      else if c.names.length ≠ x.fields.length then
        .error ⟨false, "The number of fields must match the number of names."⟩
      else .ok (.dict ((c.names.zip x.fields).foldl (fun d nf => emplace d nf.1 (asStr nf.2)) []))
  | _ => .error ⟨false, "The input data must be of type `string`."⟩

/-! ## Specification -/

/-- `fs` are the fields of `s`. -/
def Fields (sep : Char) (s : List Char) (fs : List (List Char)) : Prop :=
  fs ≠ [] ∧ [sep].intercalate fs = s ∧ ∀ f ∈ fs, sep ∉ f

/-! ## Lemmas -/

/-- The handler applied to a list of parts, until it asks to stop. -/
def feed {β : Type} (h : β → List Char → Except Err (β × Bool)) : β → List (List Char) → Except Err β
  | b, [] => .ok b
  | b, p :: ps =>
    match h b p with
    | .error e => .error e
    | .ok (b, false) => .ok b
    | .ok (b, true) => feed h b ps

/-- The parts between separators: `cur` is the beginning of the first. -/
def parts (sep : Char) : List Char → List Char → List (List Char)
  | cur, [] => [cur]
  | cur, c :: s => if c = sep then cur :: parts sep [] s else parts sep (cur ++ [c]) s

theorem splitLoop_eq {β : Type} (sep : Char) (h : β → List Char → Except Err (β × Bool)) (b : β) (cur s : List Char) :
    splitLoop sep h b cur s = feed h b (parts sep cur s) := by
  induction s generalizing b cur with
  | nil =>
    simp only [splitLoop, parts, feed]
    rcases h b cur with e | ⟨b', _ | _⟩ <;> rfl
  | cons c s ih =>
    simp only [splitLoop, parts]
    split
    · simp only [feed, ih]
    · exact ih _ _

theorem feed_collect (ps acc : List (List Char)) :
    feed (fun ps p => Except.ok (ps ++ [p], true)) acc ps = .ok (acc ++ ps) := by
  induction ps generalizing acc with
  | nil => simp [feed]
  | cons p ps ih => simp [feed, ih]

theorem split_eq (sep : Char) (s : List Char) : split sep s = parts sep [] s := by
  unfold split
  rw [splitLoop_eq, feed_collect]
  rfl

theorem parts_fields (sep : Char) (cur s : List Char) (h : sep ∉ cur) : Fields sep (cur ++ s) (parts sep cur s) := by
  induction s generalizing cur with
  | nil => exact ⟨by simp [parts], by simp [parts, List.intercalate], by simpa [parts] using h⟩
  | cons c s ih =>
    simp only [parts]
    split
    · next hc =>
      subst hc
      obtain ⟨h1, h2, h3⟩ := ih [] (by simp)
      refine ⟨by simp, ?_, ?_⟩
      · cases hp : parts c [] s with
        | nil => exact absurd hp h1
        | cons p ps =>
          rw [hp] at h2
          rw [List.intercalate_cons_cons, h2]
          simp
      · intro f hf
        rcases List.mem_cons.mp hf with rfl | hf
        · exact h
        · exact h3 f hf
    · next hc =>
      have := ih (cur ++ [c]) (by simp [h]; exact Ne.symm hc)
      simpa using this

theorem fields_parts {sep : Char} {fs : List (List Char)} (h : fs ≠ []) (hs : ∀ f ∈ fs, sep ∉ f) :
    parts sep [] ([sep].intercalate fs) = fs := by
  have plain : ∀ (f cur : List Char) (s : List Char), sep ∉ f → parts sep cur (f ++ s) = parts sep (cur ++ f) s := by
    intro f
    induction f with
    | nil => intro cur s _; simp
    | cons c f ih =>
      intro cur s hf
      simp only [List.mem_cons, not_or] at hf
      simp only [List.cons_append, parts, if_neg (Ne.symm hf.1)]
      rw [ih _ _ hf.2]
      simp
  induction fs with
  | nil => exact absurd rfl h
  | cons f fs ih =>
    have hf := hs f (by simp)
    cases fs with
    | nil =>
      have := plain f [] [] hf
      simp only [List.append_nil, List.nil_append] at this
      simpa [List.intercalate, parts] using this
    | cons g gs =>
      rw [List.intercalate_cons_cons, List.append_assoc, plain f [] _ hf]
      simp only [List.nil_append, List.cons_append, parts, if_true]
      rw [ih (by simp) fun f hf => hs f (List.mem_cons_of_mem _ hf)]

/-- The fields are determined by the string. -/
theorem Fields.unique {sep : Char} {s : List Char} {fs : List (List Char)} (h : Fields sep s fs) : fs = parts sep [] s := by
  obtain ⟨h1, rfl, h3⟩ := h
  exact (fields_parts h1 h3).symm

/-- Without indices every field is taken. -/
theorem feed_all {c : Splitter} (ps : List (List Char)) (k : Nat) (acc : List (List Char)) :
    feed c.handle ⟨[], k, acc⟩ ps = .ok ⟨[], k + ps.length, acc ++ ps⟩ := by
  induction ps generalizing k acc with
  | nil => simp [feed]
  | cons p ps ih =>
    simp only [feed, Splitter.handle, ih]
    simp; omega

/-- An index that has been passed is never met. -/
theorem feed_passed {c : Splitter} (ps : List (List Char)) {i : Nat} (rem : List Nat) (k : Nat) (hk : i < k) (acc : List (List Char)) :
    ∃ x, feed c.handle ⟨i :: rem, k, acc⟩ ps = .ok x ∧ x.rem = i :: rem := by
  induction ps generalizing k acc with
  | nil => exact ⟨_, rfl, rfl⟩
  | cons p ps ih =>
    have hne : k ≠ i := by omega
    cases hx : c.exclude with
    | true =>
      have : feed c.handle ⟨i :: rem, k, acc⟩ (p :: ps) = feed c.handle ⟨i :: rem, k + 1, acc ++ [p]⟩ ps := by
        simp [feed, Splitter.handle, hx, hne]
      rw [this]
      exact ih (k + 1) (by omega) _
    | false =>
      have : feed c.handle ⟨i :: rem, k, acc⟩ (p :: ps) = feed c.handle ⟨i :: rem, k + 1, acc⟩ ps := by
        simp [feed, Splitter.handle, hx, hne]
      rw [this]
      exact ih (k + 1) (by omega) _

theorem filterMap_shift (p : List Char) (ps : List (List Char)) (k : Nat) (rem : List Nat) (hk : ∀ i ∈ rem, k + 1 ≤ i) :
    rem.filterMap (fun i => (p :: ps)[i - k]?) = rem.filterMap fun i => ps[i - (k + 1)]? := by
  induction rem with
  | nil => rfl
  | cons i rem ih =>
    have hi := hk i (by simp)
    have : (p :: ps)[i - k]? = ps[i - (k + 1)]? := by
      rw [show i - k = (i - (k + 1)) + 1 from by omega, List.getElem?_cons_succ]
    simp only [List.filterMap_cons, this]
    rw [ih fun j hj => hk j (List.mem_cons_of_mem _ hj)]

/-- With indices: strictly increasing ones that all exist select their fields, anything else leaves some unmet. -/
theorem feed_select {c : Splitter} (hx : c.exclude = false) (ps : List (List Char)) {rem : List Nat} (hr : rem ≠ [])
    (hs : rem.Pairwise (· ≤ ·)) (k : Nat) (hk : ∀ i ∈ rem, k ≤ i) (acc : List (List Char)) :
    ∃ x, feed c.handle ⟨rem, k, acc⟩ ps = .ok x ∧
      (x.rem = [] ↔ rem.Nodup ∧ ∀ i ∈ rem, i < k + ps.length) ∧
      (x.rem = [] → x.fields = acc ++ rem.filterMap fun i => ps[i - k]?) := by
  induction ps generalizing rem k acc with
  | nil =>
    refine ⟨_, rfl, ?_, fun h => absurd h hr⟩
    simp only [List.length_nil, Nat.add_zero]
    constructor
    · intro h; exact absurd h hr
    · rintro ⟨-, h⟩
      cases rem with
      | nil => exact absurd rfl hr
      | cons i rem =>
        have := h i (by simp)
        have := hk i (by simp)
        omega
  | cons p ps ih =>
    cases rem with
    | nil => exact absurd rfl hr
    | cons i rem =>
      have hle : ∀ j ∈ rem, i ≤ j := (List.pairwise_cons.mp hs).1
      have hki := hk i (by simp)
      by_cases hi : k = i
      · subst hi
        by_cases h0 : rem = []
        · subst h0
          refine ⟨⟨[], k, acc ++ [p]⟩, ?_, ?_, ?_⟩
          · simp [feed, Splitter.handle, hx]
          · simp
          · simp
        · have hf : feed c.handle ⟨k :: rem, k, acc⟩ (p :: ps) = feed c.handle ⟨rem, k + 1, acc ++ [p]⟩ ps := by
            simp [feed, Splitter.handle, hx, h0]
          rw [hf]
          by_cases hk' : k ∈ rem
          · -- a duplicate
            obtain ⟨r, rfl⟩ : ∃ r, rem = k :: r := by
              cases rem with
              | nil => cases hk'
              | cons j r =>
                have h1 := hle j (by simp)
                have h2 : j ≤ k := by
                  rcases List.mem_cons.mp hk' with e | e
                  · omega
                  · exact (List.pairwise_cons.mp (List.pairwise_cons.mp hs).2).1 k e
                exact ⟨r, by rw [Nat.le_antisymm h1 h2]⟩
            obtain ⟨x, h1, h2⟩ := feed_passed (c := c) ps (i := k) r (k + 1) (by omega) (acc ++ [p])
            refine ⟨x, h1, ?_, fun h => by rw [h2] at h; cases h⟩
            rw [h2]
            simp
          · have hk'' : ∀ j ∈ rem, k + 1 ≤ j := by
              intro j hj
              have := hle j hj
              have : j ≠ k := fun h => hk' (h ▸ hj)
              omega
            obtain ⟨x, h1, h2, h3⟩ := ih h0 (List.pairwise_cons.mp hs).2 (k + 1) hk'' (acc ++ [p])
            refine ⟨x, h1, ?_, ?_⟩
            · rw [h2, List.nodup_cons]
              simp only [List.mem_cons, forall_eq_or_imp, List.length_cons]
              constructor
              · rintro ⟨a, b⟩; exact ⟨⟨hk', a⟩, by omega, fun j hj => by have := b j hj; omega⟩
              · rintro ⟨⟨-, a⟩, -, b⟩; exact ⟨a, fun j hj => by have := b j hj; omega⟩
            · intro hx
              rw [h3 hx, List.filterMap_cons]
              simp only [Nat.sub_self, List.getElem?_cons_zero]
              rw [filterMap_shift p ps k rem hk'']
              simp
      · have hf : feed c.handle ⟨i :: rem, k, acc⟩ (p :: ps) = feed c.handle ⟨i :: rem, k + 1, acc⟩ ps := by
          simp [feed, Splitter.handle, hx, hi]
        have hk' : ∀ j ∈ i :: rem, k + 1 ≤ j := by
          intro j hj
          rcases List.mem_cons.mp hj with rfl | hj
          · omega
          · have := hle j hj; omega
        rw [hf]
        obtain ⟨x, h1, h2, h3⟩ := ih hr hs (k + 1) hk' acc
        refine ⟨x, h1, ?_, ?_⟩
        · rw [h2]
          simp only [List.length_cons]
          rw [show k + 1 + ps.length = k + (ps.length + 1) from by omega]
        · intro hx
          rw [h3 hx, filterMap_shift p ps k _ hk']

/-- The fields whose position (counted from `k`) is not in `rem`. -/
def without (rem : List Nat) : Nat → List (List Char) → List (List Char)
  | _, [] => []
  | k, p :: ps => if k ∈ rem then without rem (k + 1) ps else p :: without rem (k + 1) ps

theorem without_tail {i k : Nat} (rem : List Nat) (h : i < k) (ps : List (List Char)) : without (i :: rem) k ps = without rem k ps := by
  induction ps generalizing k with
  | nil => rfl
  | cons p ps ih =>
    have : k ≠ i := by omega
    simp only [without, List.mem_cons, this, false_or, ih (Nat.lt_succ_of_lt h)]

theorem without_nil (k : Nat) (ps : List (List Char)) : without [] k ps = ps := by
  induction ps generalizing k with
  | nil => rfl
  | cons p ps ih => simp [without, ih]

theorem feed_exclude {c : Splitter} (hx : c.exclude = true) (ps : List (List Char)) {rem : List Nat}
    (hs : rem.Pairwise (· ≤ ·)) (k : Nat) (hk : ∀ i ∈ rem, k ≤ i) (acc : List (List Char)) :
    ∃ x, feed c.handle ⟨rem, k, acc⟩ ps = .ok x ∧
      (x.rem = [] ↔ rem.Nodup ∧ ∀ i ∈ rem, i < k + ps.length) ∧
      (x.rem = [] → x.fields = acc ++ without rem k ps) := by
  induction ps generalizing rem k acc with
  | nil =>
    refine ⟨_, rfl, ?_, fun h => by simp [without]⟩
    simp only [List.length_nil, Nat.add_zero]
    constructor
    · intro h
      subst h
      simp
    · rintro ⟨-, h⟩
      cases rem with
      | nil => rfl
      | cons i rem =>
        have := h i (by simp)
        have := hk i (by simp)
        omega
  | cons p ps ih =>
    cases rem with
    | nil =>
      rw [feed_all]
      refine ⟨_, rfl, by simp, fun _ => ?_⟩
      rw [without_nil]
    | cons i rem =>
      have hle : ∀ j ∈ rem, i ≤ j := (List.pairwise_cons.mp hs).1
      have hki := hk i (by simp)
      by_cases hi : k = i
      · subst hi
        have hf : feed c.handle ⟨k :: rem, k, acc⟩ (p :: ps) = feed c.handle ⟨rem, k + 1, acc⟩ ps := by
          simp [feed, Splitter.handle, hx]
        rw [hf]
        by_cases hk' : k ∈ rem
        · obtain ⟨r, rfl⟩ : ∃ r, rem = k :: r := by
            cases rem with
            | nil => cases hk'
            | cons j r =>
              have h1 := hle j (by simp)
              have h2 : j ≤ k := by
                rcases List.mem_cons.mp hk' with e | e
                · omega
                · exact (List.pairwise_cons.mp (List.pairwise_cons.mp hs).2).1 k e
              exact ⟨r, by rw [Nat.le_antisymm h1 h2]⟩
          obtain ⟨x, h1, h2⟩ := feed_passed (c := c) ps (i := k) r (k + 1) (by omega) acc
          refine ⟨x, h1, ?_, fun h => by rw [h2] at h; cases h⟩
          rw [h2]
          simp
        · have hk'' : ∀ j ∈ rem, k + 1 ≤ j := by
            intro j hj
            have := hle j hj
            have : j ≠ k := fun h => hk' (h ▸ hj)
            omega
          obtain ⟨x, h1, h2, h3⟩ := ih (List.pairwise_cons.mp hs).2 (k + 1) hk'' acc
          refine ⟨x, h1, ?_, ?_⟩
          · rw [h2, List.nodup_cons]
            simp only [List.mem_cons, forall_eq_or_imp, List.length_cons]
            constructor
            · rintro ⟨a, b⟩; exact ⟨⟨hk', a⟩, by omega, fun j hj => by have := b j hj; omega⟩
            · rintro ⟨⟨-, a⟩, -, b⟩; exact ⟨a, fun j hj => by have := b j hj; omega⟩
          · intro hx
            rw [h3 hx]
            simp only [without, List.mem_cons, true_or, if_true]
            rw [without_tail rem (Nat.lt_succ_self k)]
      · have hf : feed c.handle ⟨i :: rem, k, acc⟩ (p :: ps) = feed c.handle ⟨i :: rem, k + 1, acc ++ [p]⟩ ps := by
          simp [feed, Splitter.handle, hx, hi]
        have hk' : ∀ j ∈ i :: rem, k + 1 ≤ j := by
          intro j hj
          rcases List.mem_cons.mp hj with rfl | hj
          · omega
          · have := hle j hj; omega
        rw [hf]
        obtain ⟨x, h1, h2, h3⟩ := ih hs (k + 1) hk' (acc ++ [p])
        refine ⟨x, h1, ?_, ?_⟩
        · rw [h2]
          simp only [List.length_cons]
          rw [show k + 1 + ps.length = k + (ps.length + 1) from by omega]
        · intro hx
          rw [h3 hx]
          have : k ∉ i :: rem := fun h => by have := hk' k h; omega
          simp [without, this]

end Fs2.Native
