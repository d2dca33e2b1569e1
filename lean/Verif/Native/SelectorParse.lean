import Verif.Native.Selector

/-!
# Which strings are selectors, and what they mean
-/

namespace Fs2.Native

/-! ## Specification -/

/-- A segment as it is written: a key, or what stands in brackets. -/
inductive Item where
  | key (k : List Char)
  | index (t : List Char)

/-- How a path is written: keys after the first segment follow a dot. -/
def pathTextFrom : Bool → List Item → List Char
  | _, [] => []
  | first, .key k :: is => (if first then k else '.' :: k) ++ pathTextFrom false is
  | _, .index t :: is => '[' :: t ++ ']' :: pathTextFrom false is

def pathText (is : List Item) : List Char := pathTextFrom true is

/-- A character of a key. -/
def plain (c : Char) : Bool := c ≠ '.' && c ≠ '[' && !isSpace c

/-- Keys are not empty; indices are decimal numbers or `*`. -/
def Item.Good : Item → Prop
  | .key k => k ≠ [] ∧ k.all plain
  | .index t => t = ['*'] ∨ t ≠ [] ∧ t.all Char.isDigit ∧ decimal t < wildcard

/-- What a segment means. -/
def Item.seg : Item → Seg
  | .key k => .key k
  | .index t => if t = ['*'] then .idx wildcard else .idx (decimal t)

/-- What is accepted at all: indices are made of digits and asterisks. -/
def Item.Shaped : Item → Prop
  | .key k => k ≠ [] ∧ k.all plain
  | .index t => t ≠ [] ∧ t.all fun c => c.isDigit || c = '*'

/-! ## Accepting well-formed paths -/

theorem parseChars_append (first : Bool) (s t : List Char) (st : PState) (out : Path) :
    parseChars first (s ++ t) st out = match parseChars first s st out with
      | none => none
      | some (st, out) => parseChars (first && s.isEmpty) t st out := by
  induction s generalizing first st out with
  | nil => simp [parseChars]
  | cons c s ih =>
    simp only [List.cons_append, parseChars]
    cases parseChar first c st out with
    | none => rfl
    | some r => simp [ih]

theorem parseChars_key {k : List Char} (hk : k.all plain) (first : Bool) (cur : List Char) (out : Path) :
    parseChars first k (.key cur) out = some (.key (cur ++ k), out) := by
  induction k generalizing first cur with
  | nil => simp [parseChars]
  | cons c k ih =>
    simp only [List.all_cons, Bool.and_eq_true] at hk
    obtain ⟨hc, hk⟩ := hk
    have hc' : c ≠ '.' ∧ c ≠ '[' ∧ isSpace c = false := by simpa [plain, and_assoc] using hc
    simp only [parseChars, parseChar, if_neg hc'.1, if_neg hc'.2.1, hc'.2.2, Bool.false_eq_true, if_false]
    rw [ih hk]
    simp

theorem decimal_snoc (s : List Char) (c : Char) : decimal (s ++ [c]) = 10 * decimal s + digitVal c := by
  simp [decimal]

theorem foldl_decimal_mono (s : List Char) (n : Nat) : n ≤ s.foldl (fun n c => 10 * n + digitVal c) n := by
  induction s generalizing n with
  | nil => exact Nat.le_refl _
  | cons c s ih =>
    simp only [List.foldl_cons]
    exact Nat.le_trans (by omega) (ih _)

theorem parseChars_digits {t : List Char} (ht : t.all Char.isDigit) (first : Bool) (cur : List Char) (n : Nat) (out : Path)
    (hn : t.foldl (fun n c => 10 * n + digitVal c) n < 2 ^ 64) :
    parseChars first t (.index cur n) out = some (.index (cur ++ t) (t.foldl (fun n c => 10 * n + digitVal c) n), out) := by
  induction t generalizing first cur n with
  | nil => simp [parseChars]
  | cons c t ih =>
    simp only [List.all_cons, Bool.and_eq_true] at ht
    simp only [List.foldl_cons] at hn ⊢
    have h1 := foldl_decimal_mono t (10 * n + digitVal c)
    have hc : c ≠ ']' := by rintro rfl; exact absurd ht.1 (by decide)
    have hmod : (10 * n + digitVal c) % 2 ^ 64 = 10 * n + digitVal c := Nat.mod_eq_of_lt (by omega)
    simp only [parseChars, parseChar, if_neg hc, ht.1, if_true, hmod]
    rw [if_neg (by omega)]
    simp only
    rw [ih ht.2 _ _ _ hn]
    simp

/-- The segments recorded once the segment in progress is complete. -/
def flush : PState → Path → Path
  | .key cur, out => if cur = [] then out else out ++ [.key cur]
  | _, out => out

/-- Between two segments. -/
def Settled : PState → Prop
  | .key cur => cur ≠ []
  | .parsed => True
  | .index .. => False

theorem parse_index {t : List Char} (h : (Item.index t).Good) (first : Bool) (out : Path) :
    parseChars first (t ++ [']']) (.index [] 0) out = some (.parsed, out ++ [(Item.index t).seg]) := by
  rcases h with rfl | ⟨h1, h2, h3⟩
  · simp [parseChars, parseChar, Item.seg]
  · rw [parseChars_append, parseChars_digits h2 _ _ _ _ (by unfold decimal wildcard at h3; omega)]
    have : t ≠ ['*'] := by rintro rfl; exact absurd h2 (by decide)
    simp [parseChars, parseChar, h1, Item.seg, this, decimal]

theorem parse_item {it : Item} (hg : it.Good) {st : PState} {out : Path} (hs : Settled st) :
    ∃ st' out', parseChars false (pathTextFrom false [it]) st out = some (st', out') ∧ Settled st' ∧
      flush st' out' = flush st out ++ [it.seg] := by
  cases it with
  | key k =>
    obtain ⟨h1, h2⟩ := hg
    simp only [pathTextFrom, Bool.false_eq_true, if_false, List.append_nil]
    have step : parseChar false '.' st out = some (.key [], flush st out) := by
      cases st with
      | key cur =>
        have hs' : cur ≠ [] := hs
        simp only [parseChar, if_true, if_neg hs', flush]
      | parsed => rfl
      | index => exact hs.elim
    refine ⟨.key k, flush st out, ?_, h1, ?_⟩
    · simp only [parseChars, step, parseChars_key h2, List.nil_append]
    · simp only [flush, if_neg h1, Item.seg]
  | index t =>
    simp only [pathTextFrom]
    have step : parseChar false '[' st out = some (.index [] 0, flush st out) := by
      cases st with
      | key cur =>
        have hs' : cur ≠ [] := hs
        simp only [parseChar, if_neg hs', flush]
        rfl
      | parsed => rfl
      | index => exact hs.elim
    refine ⟨.parsed, flush st out ++ [(Item.index t).seg], ?_, trivial, rfl⟩
    simp only [List.cons_append, parseChars, step]
    exact parse_index hg false _

theorem pathTextFrom_cons (b : Bool) (it : Item) (is : List Item) :
    pathTextFrom b (it :: is) = pathTextFrom b [it] ++ pathTextFrom false is := by
  cases it <;> simp [pathTextFrom]

theorem parse_items {is : List Item} (hg : ∀ it ∈ is, it.Good) {st : PState} {out : Path} (hs : Settled st) :
    ∃ st' out', parseChars false (pathTextFrom false is) st out = some (st', out') ∧ Settled st' ∧
      flush st' out' = flush st out ++ is.map Item.seg := by
  induction is generalizing st out with
  | nil => exact ⟨st, out, rfl, hs, by simp⟩
  | cons it is ih =>
    obtain ⟨st1, out1, h1, h2, h3⟩ := parse_item (hg it (by simp)) (out := out) hs
    obtain ⟨st2, out2, h4, h5, h6⟩ := ih (fun i hi => hg i (List.mem_cons_of_mem _ hi)) (out := out1) h2
    refine ⟨st2, out2, ?_, h5, ?_⟩
    · rw [pathTextFrom_cons, parseChars_append, h1]
      exact h4
    · rw [h6, h3]; simp

theorem parse_good {is : List Item} (h0 : is ≠ []) (hg : ∀ it ∈ is, it.Good) :
    ∃ st out, parseChars true (pathText is) (.key []) [] = some (st, out) ∧ Settled st ∧ flush st out = is.map Item.seg := by
  cases is with
  | nil => exact absurd rfl h0
  | cons it is =>
    have first : ∃ st out, parseChars true (pathTextFrom true [it]) (.key []) [] = some (st, out) ∧ Settled st ∧
        flush st out = [it.seg] := by
      have hgi := hg it (by simp)
      cases it with
      | key k =>
        refine ⟨.key k, [], ?_, hgi.1, ?_⟩
        · simp only [pathTextFrom, if_true, List.append_nil]
          rw [parseChars_key hgi.2]
          rfl
        · simp [flush, hgi.1, Item.seg]
      | index t =>
        refine ⟨.parsed, [(Item.index t).seg], ?_, trivial, rfl⟩
        simp only [pathTextFrom, List.cons_append, parseChars]
        exact parse_index hgi false []
    obtain ⟨st, out, h1, h2, h3⟩ := first
    obtain ⟨st', out', h4, h5, h6⟩ := parse_items (fun i hi => hg i (List.mem_cons_of_mem _ hi)) (out := out) h2
    refine ⟨st', out', ?_, h5, ?_⟩
    · have hne : (pathTextFrom true [it]).isEmpty = false := by
        have hgi := hg it (by simp)
        cases it with
        | key k =>
          obtain ⟨hk, -⟩ := hgi
          cases k with
          | nil => exact absurd rfl hk
          | cons => rfl
        | index t => rfl
      unfold pathText
      rw [pathTextFrom_cons, parseChars_append, h1, hne]
      exact h4
    · rw [h6, h3]; simp

theorem parsePath_good {is : List Item} (h0 : is ≠ []) (hg : ∀ it ∈ is, it.Good) {s : List Char} (hs : trim s = pathText is) :
    parsePath s = some (is.map Item.seg) := by
  obtain ⟨st, out, h1, h2, h3⟩ := parse_good h0 hg
  have hne : pathText is ≠ [] := by
    intro h
    rw [h] at h1
    cases h1
    exact h2 rfl
  unfold parsePath
  simp only [hs, if_neg hne, h1]
  cases st with
  | key cur =>
    have h2' : cur ≠ [] := h2
    simp only [flush, if_neg h2'] at h3
    simp only [if_neg h2', h3]
  | parsed => simp only [flush] at h3; simp only [h3]
  | index => exact h2.elim

/-! ## Rejecting the rest -/

/-- A written segment and what it was taken for. -/
inductive Fits : List Item → Path → Prop where
  | nil : Fits [] []
  | key {is p} (k : List Char) : Fits is p → k ≠ [] → k.all plain → Fits (is ++ [.key k]) (p ++ [.key k])
  | index {is p} (t : List Char) (n : Nat) : Fits is p → t ≠ [] → (t.all fun c => c.isDigit || c = '*') →
      Fits (is ++ [.index t]) (p ++ [.idx n])

theorem pathTextFrom_append (b : Bool) (is js : List Item) :
    pathTextFrom b (is ++ js) = pathTextFrom b is ++ pathTextFrom (b && is.isEmpty) js := by
  induction is generalizing b with
  | nil => simp [pathTextFrom]
  | cons it is ih =>
    rw [List.cons_append, pathTextFrom_cons, ih, pathTextFrom_cons b it is]
    simp

/-- The state of the parser describes what has been read. -/
def Rep (pre : List Char) (out : Path) : PState → Prop
  | .key cur => cur.all plain ∧ ∃ is, Fits is out ∧ (is = [] ∧ pre = cur ∨ is ≠ [] ∧ pre = pathText is ++ '.' :: cur)
  | .index cur _ => (cur.all fun c => c.isDigit || c = '*') ∧ ∃ is, Fits is out ∧ pre = pathText is ++ '[' :: cur
  | .parsed => ∃ is, is ≠ [] ∧ Fits is out ∧ pre = pathText is

theorem Rep.step {pre : List Char} {out : Path} {st : PState} (h : Rep pre out st) {c : Char} {st' : PState} {out' : Path}
    (hp : parseChar pre.isEmpty c st out = some (st', out')) : Rep (pre ++ [c]) out' st' := by
  -- the segment in progress, completed
  have done : ∀ cur is, cur ≠ [] → cur.all plain → Fits is out →
      (is = [] ∧ pre = cur ∨ is ≠ [] ∧ pre = pathText is ++ '.' :: cur) →
      Fits (is ++ [.key cur]) (out ++ [.key cur]) ∧ pre = pathText (is ++ [.key cur]) := by
    intro cur is h0 hc hf hpre
    refine ⟨.key cur hf h0 hc, ?_⟩
    unfold pathText
    rw [pathTextFrom_append]
    rcases hpre with ⟨rfl, rfl⟩ | ⟨hne, rfl⟩
    · simp [pathTextFrom]
    · have : is.isEmpty = false := by cases is with | nil => exact absurd rfl hne | cons => rfl
      simp [pathTextFrom, this, pathText]
  cases st with
  | key cur =>
    obtain ⟨hc, is, hf, hpre⟩ := h
    simp only [parseChar] at hp
    split at hp
    · next hdot =>
      subst hdot
      split at hp
      · cases hp
      · next h0 =>
        cases hp
        obtain ⟨h1, h2⟩ := done cur is h0 hc hf hpre
        exact ⟨rfl, _, h1, .inr ⟨by simp, by rw [h2]⟩⟩
    · split at hp
      · next hbr =>
        subst hbr
        split at hp
        · next h0 =>
          split at hp
          · next he =>
            cases hp
            have hnil : pre = [] := by simpa using he
            refine ⟨rfl, is, hf, ?_⟩
            rcases hpre with ⟨rfl, h2⟩ | ⟨-, h2⟩
            · rw [hnil]; rfl
            · rw [hnil] at h2; simp at h2
          · cases hp
        · next h0 =>
          cases hp
          obtain ⟨h1, h2⟩ := done cur is h0 hc hf hpre
          exact ⟨rfl, _, h1, by rw [h2]⟩
      · next hd hb =>
        split at hp
        · cases hp
        · next hsp =>
          cases hp
          refine ⟨by simp [hc, plain, hd, hb]; simpa using hsp, is, hf, ?_⟩
          rcases hpre with ⟨rfl, rfl⟩ | ⟨hne, rfl⟩
          · exact .inl ⟨rfl, rfl⟩
          · exact .inr ⟨hne, by simp⟩
  | index cur n =>
    obtain ⟨hc, is, hf, rfl⟩ := h
    simp only [parseChar] at hp
    split at hp
    · next he =>
      subst he
      split at hp
      · cases hp
      · next h0 =>
        cases hp
        refine ⟨is ++ [.index cur], by simp, .index cur n hf h0 hc, ?_⟩
        unfold pathText
        rw [pathTextFrom_append]
        simp [pathTextFrom]
    · split at hp
      · next hd =>
        split at hp
        · cases hp
        · cases hp
          exact ⟨by simp [hc, hd], is, hf, by simp⟩
      · split at hp
        · next hs =>
          cases hp
          exact ⟨by simp [hc, hs], is, hf, by simp⟩
        · cases hp
  | parsed =>
    obtain ⟨is, h0, hf, rfl⟩ := h
    simp only [parseChar] at hp
    split at hp
    · next he => subst he; cases hp; exact ⟨rfl, is, hf, rfl⟩
    · split at hp
      · next he => subst he; cases hp; exact ⟨rfl, is, hf, .inr ⟨h0, rfl⟩⟩
      · cases hp

theorem Rep.run {s pre : List Char} {out : Path} {st : PState} (h : Rep pre out st) {st' : PState} {out' : Path}
    (hp : parseChars pre.isEmpty s st out = some (st', out')) : Rep (pre ++ s) out' st' := by
  induction s generalizing pre st out with
  | nil => cases hp; simpa using h
  | cons c s ih =>
    simp only [parseChars] at hp
    split at hp
    · cases hp
    · next st1 out1 h1 =>
      have he : (pre ++ [c]).isEmpty = false := by cases pre <;> rfl
      have := ih (h.step h1) (by rw [he]; exact hp)
      simpa using this

theorem parsePath_sound {s : List Char} {p : Path} (h : parsePath s = some p) :
    ∃ is, is ≠ [] ∧ Fits is p ∧ trim s = pathText is := by
  unfold parsePath at h
  simp only at h
  split at h
  · cases h
  · next h0 =>
    have start : Rep [] [] (.key []) := ⟨rfl, [], .nil, .inl ⟨rfl, rfl⟩⟩
    split at h
    · cases h
    · next cur out hp =>
      have hr := start.run hp
      simp only [List.nil_append] at hr
      obtain ⟨hc, is, hf, hpre⟩ := hr
      split at h
      · cases h
      · next hcur =>
        cases h
        refine ⟨is ++ [.key cur], by simp, .key cur hf hcur hc, ?_⟩
        unfold pathText
        rw [pathTextFrom_append]
        rcases hpre with ⟨rfl, h2⟩ | ⟨hne, h2⟩
        · simpa [pathTextFrom] using h2
        · have : is.isEmpty = false := by cases is with | nil => exact absurd rfl hne | cons => rfl
          rw [h2]
          simp [pathTextFrom, this, pathText]
    · next out hp =>
      cases h
      have hr := start.run hp
      simp only [List.nil_append] at hr
      exact hr
    · cases h

end Fs2.Native
