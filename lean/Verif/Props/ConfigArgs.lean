import Verif.Utils.ConfigArgs
import Verif.Props.ConfigMerge

/-!
Property C81: configuration overrides on the command line.
-/

namespace Fs2.Props

open Fs2.Config

/-! ### Specification -/

/-- The path of an item. -/
def itemPath (it : Item) : List String := it.init ++ [it.last]

/-- The value an item gives to a path. -/
def givesValue (path : List String) (it : Item) : Option Val :=
  if itemPath it = path then
    match it.what with
    | .set v => some v
    | .del => none
  else none

/-- The value that the items give last for a path. -/
def lastGiven (items : List Item) (path : List String) : Option Val :=
  (items.filterMap (givesValue path)).getLast?

/-- Some item deletes the path. -/
def deletesPath (items : List Item) (path : List String) : Prop :=
  ∃ it ∈ items, itemPath it = path ∧ it.what = .del

/-- No key of a path is one of the two that mean something to the merge, and values read from YAML have
every key once. -/
structure FineItem (it : Item) : Prop where
  keys : "_set_" ∉ itemPath it ∧ "_del_" ∉ itemPath it
  value : ∀ v, it.what = .set v → ProperVal v

/-- Keys of a configuration. -/
def asKeys (path : List String) : List Key := path.map .str

/-- Keys with dots between them. -/
def dotted : List Str → Str
  | [] => []
  | [k] => k
  | k :: ks => k ++ '.' :: dotted ks

/-- A path as one writes it: keys without dots, and no space and no equals sign anywhere. -/
structure PathText (keys : List Str) (text : Str) : Prop where
  joined : text = dotted keys
  dots : ∀ k ∈ keys, '.' ∉ k
  nonempty : keys ≠ [] ∧ text ≠ []
  clean : ∀ c ∈ text, c.isWhitespace = false ∧ c ≠ '='

/-- Spaces. -/
def Blank (s : Str) : Prop := ∀ c ∈ s, c.isWhitespace = true

/-- Text without spaces at its ends. -/
def Bare (s : Str) : Prop :=
  (∀ c, s.head? = some c → c.isWhitespace = false) ∧ ∀ c, s.getLast? = some c → c.isWhitespace = false

/-! ### Lemmas -/

private theorem lstrip_blank {w s : Str} (h : Blank w) : lstrip (w ++ s) = lstrip s := by
  induction w with
  | nil => rfl
  | cons c w ih =>
    rw [List.cons_append, lstrip, List.dropWhile_cons, if_pos (h c (by simp))]
    exact ih fun x hx => h x (by simp [hx])

private theorem lstrip_bare {s : Str} (h : ∀ c, s.head? = some c → c.isWhitespace = false) : lstrip s = s := by
  cases s with
  | nil => rfl
  | cons c s => rw [lstrip, List.dropWhile_cons, if_neg]; simp [h c rfl]

private theorem rstrip_lstrip (s : Str) : rstrip s = (lstrip s.reverse).reverse := rfl

private theorem rstrip_blank {w s : Str} (h : Blank w) : rstrip (s ++ w) = rstrip s := by
  rw [rstrip_lstrip, List.reverse_append, lstrip_blank, rstrip_lstrip]
  intro c hc; exact h c (List.mem_reverse.1 hc)

private theorem rstrip_bare {s : Str} (h : ∀ c, s.getLast? = some c → c.isWhitespace = false) : rstrip s = s := by
  rw [rstrip_lstrip, lstrip_bare, List.reverse_reverse]
  intro c hc; rw [List.head?_reverse] at hc; exact h c hc

private theorem mem_lstrip {s : Str} {c : Char} (h : c ∈ s) (hc : c.isWhitespace = false) : c ∈ lstrip s := by
  induction s with
  | nil => cases h
  | cons x s ih =>
    rw [lstrip, List.dropWhile_cons]
    split
    · rename_i hx
      rcases List.mem_cons.1 h with rfl | h
      · rw [hc] at hx; cases hx
      · exact ih h
    · exact h

private theorem mem_rstrip {s : Str} {c : Char} (h : c ∈ s) (hc : c.isWhitespace = false) : c ∈ rstrip s := by
  rw [rstrip_lstrip, List.mem_reverse]
  exact mem_lstrip (List.mem_reverse.2 h) hc

private theorem lstrip_append {s t : Str} (h : lstrip s ≠ []) : lstrip (s ++ t) = lstrip s ++ t := by
  induction s with
  | nil => exact (h rfl).elim
  | cons x s ih =>
    rw [lstrip, List.dropWhile_cons] at h
    rw [List.cons_append, lstrip, List.dropWhile_cons, lstrip, List.dropWhile_cons]
    split
    · rename_i hx
      rw [if_pos hx] at h
      exact ih h
    · rfl

private theorem rstrip_append {s t : Str} (h : rstrip s ≠ []) : rstrip (t ++ s) = t ++ rstrip s := by
  rw [rstrip_lstrip, List.reverse_append, lstrip_append, rstrip_lstrip]
  · simp
  · intro e; exact h (by rw [rstrip_lstrip, e]; rfl)

private theorem splitFirst_eq (sep : Char) (p s : Str) (h : sep ∉ p) :
    splitFirst sep (p ++ sep :: s) = some (p, s) := by
  induction p with
  | nil => simp [splitFirst]
  | cons c p ih =>
    simp only [List.mem_cons, not_or] at h
    rw [List.cons_append, splitFirst, if_neg (fun e => h.1 e.symm), ih h.2]
    rfl

private theorem splitFirst_none (sep : Char) (s : Str) (h : sep ∉ s) : splitFirst sep s = none := by
  induction s with
  | nil => rfl
  | cons c s ih =>
    simp only [List.mem_cons, not_or] at h
    rw [splitFirst, if_neg (fun e => h.1 e.symm), ih h.2]
    rfl

private theorem splitOn_word (sep : Char) (k : Str) (h : sep ∉ k) : splitOn sep k = [k] := by
  induction k with
  | nil => rfl
  | cons c k ih =>
    simp only [List.mem_cons, not_or] at h
    rw [splitOn, if_neg (fun e => h.1 e.symm), ih h.2]

private theorem splitOn_cons (sep : Char) (k s : Str) (h : sep ∉ k) :
    splitOn sep (k ++ sep :: s) = k :: splitOn sep s := by
  induction k with
  | nil => simp [splitOn]
  | cons c k ih =>
    simp only [List.mem_cons, not_or] at h
    rw [List.cons_append, splitOn, if_neg (fun e => h.1 e.symm), ih h.2]

private theorem splitOn_dotted (keys : List Str) (h : ∀ k ∈ keys, '.' ∉ k) (hne : keys ≠ []) :
    splitOn '.' (dotted keys) = keys := by
  induction keys with
  | nil => exact (hne rfl).elim
  | cons k ks ih =>
    cases ks with
    | nil => exact splitOn_word _ _ (h k (by simp))
    | cons a ks =>
      show splitOn '.' (k ++ '.' :: dotted (a :: ks)) = _
      rw [splitOn_cons _ _ _ (h k (by simp)), ih (fun x hx => h x (by simp [hx])) (by simp)]

private theorem prefix_of_append {l p s : Str} {c : Char} (hc : c ∉ l) (h : l <+: p ++ c :: s) : l <+: p := by
  induction p generalizing l with
  | nil =>
    cases l with
    | nil => exact List.prefix_rfl
    | cons a l =>
      rw [List.nil_append, List.cons_prefix_cons] at h
      exact (hc (by simp [h.1])).elim
  | cons x p ih =>
    cases l with
    | nil => exact List.nil_prefix
    | cons a l =>
      rw [List.cons_append, List.cons_prefix_cons] at h
      rw [List.cons_prefix_cons]
      simp only [List.mem_cons, not_or] at hc
      exact ⟨h.1, ih hc.2 h.2⟩

private theorem isPrefixOf_false {l s : Str} (h : ¬ l <+: s) : l.isPrefixOf s = false := by
  cases hb : l.isPrefixOf s with
  | false => rfl
  | true => exact (h (List.isPrefixOf_iff_prefix.1 hb)).elim

private theorem isPrefixOf_true {l s : Str} (h : l <+: s) : l.isPrefixOf s = true :=
  List.isPrefixOf_iff_prefix.2 h

private theorem head_clean {s : Str} (h : ∀ c ∈ s, c.isWhitespace = false ∧ c ≠ '=') :
    ∀ c, s.head? = some c → c.isWhitespace = false :=
  fun c hc => (h c (List.mem_of_head? hc)).1

private theorem last_clean {s : Str} (h : ∀ c ∈ s, c.isWhitespace = false ∧ c ≠ '=') :
    ∀ c, s.getLast? = some c → c.isWhitespace = false :=
  fun c hc => (h c (List.mem_of_getLast? hc)).1

private theorem pathKeys_text {ks : List Str} {l text : Str} (h : PathText (ks ++ [l]) text) :
    pathKeys text = (ks.map String.ofList, String.ofList l) := by
  unfold pathKeys
  rw [h.joined, splitOn_dotted _ h.dots h.nonempty.1]
  simp

/-- An assignment with spaces around its parts. -/
private theorem parse_set (yaml : Str → Option Val) {a path w1 w2 w3 w4 v : Str}
    (h1 : Blank w1) (h2 : Blank w2) (h3 : Blank w3) (h4 : Blank w4) (hv : Bare v)
    (hne : path ≠ []) (hclean : ∀ c ∈ path, c.isWhitespace = false ∧ c ≠ '=')
    (hdel : ¬ "del:".toList <+: path)
    (ha : a = if "set:".toList.isPrefixOf path then path.drop 4 else path) :
    parseItem yaml (w1 ++ path ++ w2 ++ '=' :: (w3 ++ v ++ w4)) =
      (yaml v).map fun x => ⟨(pathKeys a).1, (pathKeys a).2, .set x⟩ := by
  have hblank0 : Blank ([] : Str) := fun c hc => by cases hc
  -- without the spaces at the ends
  have hstrip : ∃ w3', Blank w3' ∧
      lstrip (rstrip (w1 ++ path ++ w2 ++ '=' :: (w3 ++ v ++ w4))) = path ++ w2 ++ '=' :: (w3' ++ v) := by
    have hl : ∀ s : Str, lstrip (w1 ++ path ++ s) = path ++ s := by
      intro s
      rw [List.append_assoc, lstrip_blank h1, lstrip_bare]
      intro c hc
      cases path with
      | nil => exact (hne rfl).elim
      | cons x path => exact (hclean c (by simp at hc; simp [hc])).1
    by_cases hv0 : v = []
    · refine ⟨[], hblank0, ?_⟩
      have : w1 ++ path ++ w2 ++ '=' :: (w3 ++ v ++ w4) = (w1 ++ path ++ w2 ++ ['=']) ++ (w3 ++ w4) := by
        simp [hv0]
      rw [this, rstrip_blank, rstrip_bare, hv0]
      · rw [List.append_assoc (w1 ++ path), hl]; simp
      · intro c hc; simp at hc; subst hc; decide
      · intro c hc
        rcases List.mem_append.1 hc with hc | hc
        · exact h3 c hc
        · exact h4 c hc
    · refine ⟨w3, h3, ?_⟩
      have : w1 ++ path ++ w2 ++ '=' :: (w3 ++ v ++ w4) = (w1 ++ path ++ w2 ++ '=' :: (w3 ++ v)) ++ w4 := by
        simp
      rw [this, rstrip_blank h4, rstrip_bare]
      · rw [List.append_assoc (w1 ++ path), hl]; simp
      · intro c hc
        refine hv.2 c ?_
        obtain ⟨v', x, rfl⟩ : ∃ v' x, v = v' ++ [x] :=
          ⟨v.dropLast, v.getLast hv0, (List.dropLast_concat_getLast hv0).symm⟩
        have e : w1 ++ path ++ w2 ++ '=' :: (w3 ++ (v' ++ [x])) = (w1 ++ path ++ w2 ++ '=' :: (w3 ++ v')) ++ [x] := by
          simp
        rw [e, List.getLast?_append] at hc
        rw [List.getLast?_append]
        exact hc
  obtain ⟨w3', hw3', hstrip⟩ := hstrip
  have hblankeq : ∀ c ∈ w2, c ≠ '=' := by
    intro c hc e; subst e; exact absurd (h2 _ hc) (by decide)
  have hno : '=' ∉ path ++ w2 := by
    intro hc
    rcases List.mem_append.1 hc with hc | hc
    · exact (hclean _ hc).2 rfl
    · exact hblankeq _ hc rfl
  have hnodel : "del:".toList.isPrefixOf (path ++ w2 ++ '=' :: (w3' ++ v)) = false := by
    refine isPrefixOf_false fun hc => hdel ?_
    have hc := prefix_of_append (c := '=') (by decide) hc
    cases w2 with
    | nil => rwa [List.append_nil] at hc
    | cons c w2 =>
      refine prefix_of_append (c := c) ?_ hc
      have hw := h2 c (by simp)
      intro hm
      have : ∀ c ∈ "del:".toList, c.isWhitespace = false := by decide
      rw [this c hm] at hw; cases hw
  unfold parseItem
  simp only [hstrip, hnodel, splitFirst_eq '=' _ _ hno]
  have hlv : lstrip (w3' ++ v) = v := by rw [lstrip_blank hw3', lstrip_bare hv.1]
  have hrp : rstrip (path ++ w2) = path := by rw [rstrip_blank h2, rstrip_bare (last_clean hclean)]
  simp only [Option.bind_eq_bind, Option.bind_some, hlv, hrp, ← ha]
  cases yaml v <;> rfl


private theorem lookup_put (k key : Key) (v : Val) (es : Entries) :
    lookup k (put key v es) = if k = key then some v else lookup k es := by
  induction es with
  | nil =>
    simp only [put, lookup]
    by_cases h : key = k
    · rw [if_pos h, if_pos h.symm]
    · rw [if_neg h, if_neg (fun e => h e.symm)]
  | cons e es ih =>
    obtain ⟨a, b⟩ := e
    rw [put]
    by_cases ha : a = key
    · subst ha
      rw [if_pos rfl]
      simp only [lookup]
      by_cases h : a = k
      · simp [h]
      · rw [if_neg h, if_neg h, if_neg (fun e => h e.symm)]
    · rw [if_neg ha]
      simp only [lookup]
      by_cases h : a = k
      · subst h; rw [if_pos rfl, if_pos rfl, if_neg ha]
      · rw [if_neg h, if_neg h, ih]

private theorem put_keys (k : Key) (v : Val) (es : Entries) (h : (es.map (·.1)).Nodup) :
    ((put k v es).map (·.1)).Nodup ∧ ∀ x, x ∈ (put k v es).map (·.1) ↔ x = k ∨ x ∈ es.map (·.1) := by
  induction es with
  | nil => simp [put]
  | cons e es ih =>
    obtain ⟨a, b⟩ := e
    simp only [List.map_cons, List.nodup_cons] at h
    obtain ⟨h1, h2⟩ := ih h.2
    rw [put]
    by_cases ha : a = k
    · subst ha
      rw [if_pos rfl]
      simp only [List.map_cons, List.nodup_cons]
      exact ⟨h, by simp⟩
    · rw [if_neg ha]
      simp only [List.map_cons, List.nodup_cons, List.mem_cons, h2]
      refine ⟨⟨?_, h1⟩, ?_⟩
      · rintro (hc | hc)
        · exact ha hc
        · exact h.1 hc
      · intro x
        constructor
        · rintro (h | h | h)
          · exact .inr (.inl h)
          · exact .inl h
          · exact .inr (.inr h)
        · rintro (h | h | h)
          · exact .inr (.inl h)
          · exact .inl h
          · exact .inr (.inr h)

private theorem put_mem (k : Key) (v : Val) (es : Entries) (e : Key × Val) (h : e ∈ put k v es) :
    e = (k, v) ∨ e ∈ es := by
  induction es with
  | nil => simp only [put, List.mem_singleton] at h; exact .inl h
  | cons x es ih =>
    obtain ⟨a, b⟩ := x
    rw [put] at h
    split at h
    · rename_i ha
      rcases List.mem_cons.1 h with h | h
      · exact .inl (by rw [h, ha])
      · exact .inr (by simp [h])
    · rcases List.mem_cons.1 h with h | h
      · exact .inr (by simp [h])
      · rcases ih h with h | h
        · exact .inl h
        · exact .inr (by simp [h])

private theorem proper_put {k : Key} {v : Val} {es : Entries} (h : ProperVal (.map es)) (hv : ProperVal v) :
    ProperVal (.map (put k v es)) := by
  cases h with
  | map _ hn hm =>
    refine .map _ (put_keys k v es hn).1 fun e he => ?_
    rcases put_mem k v es e he with h | h
    · rw [h]; exact hv
    · exact hm e h

private theorem lookup_mem {k : Key} {v : Val} {es : Entries} (h : lookup k es = some v) : (k, v) ∈ es := by
  induction es with
  | nil => cases h
  | cons e es ih =>
    obtain ⟨a, b⟩ := e
    simp only [lookup] at h
    split at h
    · rename_i ha; cases h; simp [ha]
    · simp [ih h]

private theorem proper_entries {k : Key} {es : Entries} (h : ProperVal (.map es)) :
    ProperVal (.map (entriesOf (lookup k es))) := by
  cases hl : lookup k es with
  | none => exact .map _ (by simp [entriesOf]) (by simp [entriesOf])
  | some v =>
    cases h with
    | map _ _ hm =>
      have := hm _ (lookup_mem hl)
      cases v with
      | map _ => exact this
      | _ => exact .map _ (by simp [entriesOf]) (by simp [entriesOf])

private theorem proper_touch (it : Item) (hv : ∀ v, it.what = .set v → ProperVal v) (es : Entries)
    (h : ProperVal (.map es)) : ProperVal (.map (touch it es)) := by
  unfold touch
  cases hw : it.what with
  | del =>
    refine proper_put h (.list _ fun v hv => ?_)
    rcases List.mem_append.1 hv with hv | hv
    · unfold delList at hv
      cases hl : lookup delKey es with
      | none => rw [hl] at hv; cases hv
      | some x =>
        rw [hl] at hv
        cases x with
        | list l =>
          cases h with
          | map _ _ hm =>
            have := hm _ (lookup_mem hl)
            cases this with
            | list _ hl => exact hl v hv
        | _ => cases hv
    · rw [List.mem_singleton] at hv; subst hv; exact .str _
  | set v => exact proper_put h (proper_put (proper_entries h) (hv v hw))

private theorem proper_within (f : Entries → Entries)
    (hf : ∀ es, ProperVal (.map es) → ProperVal (.map (f es))) (ks : List String) :
    ∀ es, ProperVal (.map es) → ProperVal (.map (within f ks es)) := by
  induction ks with
  | nil => intro es h; exact hf es h
  | cons k ks ih => intro es h; exact proper_put h (ih _ (proper_entries h))

private theorem data_snoc (l : List Item) (it : Item) : itemsData (l ++ [it]) = addItem (itemsData l) it := by
  unfold itemsData; rw [List.foldl_append]; rfl

private theorem snocInd {α : Type} {P : List α → Prop} (h0 : P []) (h1 : ∀ l x, P l → P (l ++ [x])) :
    ∀ l, P l := by
  intro l
  have : ∀ l : List α, P l.reverse := by
    intro l
    induction l with
    | nil => exact h0
    | cons x l ih => rw [List.reverse_cons]; exact h1 _ _ ih
  have := this l.reverse
  rwa [List.reverse_reverse] at this

private theorem proper_data (items : List Item) (h : ∀ it ∈ items, FineItem it) :
    ProperVal (.map (itemsData items)) := by
  revert h
  refine snocInd (P := fun items => (∀ it ∈ items, FineItem it) → ProperVal (.map (itemsData items))) ?_ ?_ items
  · intro _; exact .map _ (by simp [itemsData]) (by simp [itemsData])
  · intro l x ih h
    rw [data_snoc]
    exact proper_within _ (proper_touch x (h x (by simp)).value) _ _ (ih fun it hit => h it (by simp [hit]))

/-- The items below a key, seen from there. -/
private def below' (k : String) (items : List Item) : List Item :=
  items.filterMap fun it =>
    match it.init with
    | [] => none
    | k' :: r => if k' = k then some ⟨r, it.last, it.what⟩ else none

private theorem below_snoc (k : String) (l : List Item) (x : Item) :
    below' k (l ++ [x]) = below' k l ++ below' k [x] := by
  unfold below'; rw [List.filterMap_append]

private theorem fine_below {k : String} {items : List Item} (h : ∀ it ∈ items, FineItem it) :
    ∀ it ∈ below' k items, FineItem it := by
  intro it hit
  obtain ⟨x, hx, hxe⟩ := List.mem_filterMap.1 hit
  obtain ⟨init, last, what⟩ := x
  cases init with
  | nil => cases hxe
  | cons k' r =>
    simp only at hxe
    split at hxe
    · cases hxe
      have := h _ hx
      refine ⟨?_, this.value⟩
      have hk := this.keys
      simp only [itemPath, List.cons_append, List.mem_cons, not_or] at hk ⊢
      exact ⟨hk.1.2, hk.2.2⟩
    · cases hxe

private theorem touch_other (it : Item) (es : Entries) (k : String) (h1 : k ≠ "_set_") (h2 : k ≠ "_del_") :
    lookup (.str k) (touch it es) = lookup (.str k) es := by
  unfold touch
  split
  · rw [lookup_put, if_neg]; intro h; exact h2 (Key.str.inj h)
  · rw [lookup_put, if_neg]; intro h; exact h1 (Key.str.inj h)

/-- Below a key. -/
private theorem data_key (items : List Item) (h : ∀ it ∈ items, FineItem it) (k : String)
    (h1 : k ≠ "_set_") (h2 : k ≠ "_del_") :
    lookup (.str k) (itemsData items) =
      if below' k items = [] then none else some (.map (itemsData (below' k items))) := by
  revert h
  refine snocInd (P := fun items => (∀ it ∈ items, FineItem it) → lookup (.str k) (itemsData items) =
      if below' k items = [] then none else some (.map (itemsData (below' k items)))) ?_ ?_ items
  · intro _; rfl
  · intro l x ih h
    have ih := ih fun it hit => h it (by simp [hit])
    rw [data_snoc, below_snoc]
    obtain ⟨init, last, what⟩ := x
    cases init with
    | nil =>
      have : below' k [(⟨[], last, what⟩ : Item)] = [] := rfl
      rw [this, List.append_nil]
      rw [addItem, within, touch_other _ _ _ h1 h2, ih]
    | cons k' r =>
      rw [addItem, within, lookup_put]
      by_cases hk : k' = k
      · subst hk
        have hb : below' k' [(⟨k' :: r, last, what⟩ : Item)] = [⟨r, last, what⟩] := by
          simp [below']
        rw [if_pos rfl, hb, if_neg (by simp), data_snoc, ih]
        have : entriesOf (if below' k' l = [] then none else some (.map (itemsData (below' k' l)))) =
            itemsData (below' k' l) := by
          split
          · rename_i he; rw [he]; rfl
          · rfl
        rw [this]
        rfl
      · have hb : below' k [(⟨k' :: r, last, what⟩ : Item)] = [] := by
          simp [below', hk]
        rw [if_neg (fun e => hk (Key.str.inj e).symm), hb, List.append_nil, ih]

/-- What an item says about one key of this node. -/
private theorem data_set (items : List Item) (h : ∀ it ∈ items, FineItem it) :
    (∀ k, lookup (.str k) (entriesOf (lookup setKey (itemsData items))) = lastGiven items [k]) ∧
    ((∃ v, lookup setKey (itemsData items) = some v) →
      ∃ es, lookup setKey (itemsData items) = some (.map es) ∧ ∀ e ∈ es, ∃ x, e.1 = .str x) ∧
    (lookup setKey (itemsData items) = none → ∀ k, lastGiven items [k] = none) := by
  revert h
  refine snocInd (P := fun items => (∀ it ∈ items, FineItem it) →
    (∀ k, lookup (.str k) (entriesOf (lookup setKey (itemsData items))) = lastGiven items [k]) ∧
    ((∃ v, lookup setKey (itemsData items) = some v) →
      ∃ es, lookup setKey (itemsData items) = some (.map es) ∧ ∀ e ∈ es, ∃ x, e.1 = .str x) ∧
    (lookup setKey (itemsData items) = none → ∀ k, lastGiven items [k] = none)) ?_ ?_ items
  · intro _
    refine ⟨fun k => rfl, ?_, fun _ k => rfl⟩
    rintro ⟨v, hv⟩; cases hv
  · intro l x ih h
    obtain ⟨i1, i2, i3⟩ := ih fun it hit => h it (by simp [hit])
    have hx := h x (by simp)
    rw [data_snoc]
    obtain ⟨init, last, what⟩ := x
    have hlast : ∀ k, lastGiven (l ++ [(⟨init, last, what⟩ : Item)]) [k] =
        ((givesValue [k] ⟨init, last, what⟩).or (lastGiven l [k])) := by
      intro k
      unfold lastGiven
      rw [List.filterMap_append]
      cases hg : givesValue [k] (⟨init, last, what⟩ : Item) with
      | none => simp [hg]
      | some v => simp [hg]
    cases init with
    | cons k' r =>
      have hk' : k' ≠ "_set_" := by
        intro e; exact hx.keys.1 (by simp [itemPath, e])
      have hno : ∀ k, givesValue [k] (⟨k' :: r, last, what⟩ : Item) = none := by
        intro k
        unfold givesValue
        rw [if_neg]
        simp [itemPath]
      have : lookup setKey (addItem (itemsData l) ⟨k' :: r, last, what⟩) = lookup setKey (itemsData l) := by
        rw [addItem, within, lookup_put, if_neg]
        intro e
        exact hk' (Key.str.inj e).symm
      rw [this]
      simp only [hlast, hno, Option.none_or]
      exact ⟨i1, i2, i3⟩
    | nil =>
      cases what with
      | del =>
        have hno : ∀ k, givesValue [k] (⟨[], last, .del⟩ : Item) = none := by
          intro k; unfold givesValue; split <;> rfl
        have : lookup setKey (addItem (itemsData l) ⟨[], last, .del⟩) = lookup setKey (itemsData l) := by
          rw [addItem, within, touch, lookup_put, if_neg]
          decide
        rw [this]
        simp only [hlast, hno, Option.none_or]
        exact ⟨i1, i2, i3⟩
      | set v =>
        have : lookup setKey (addItem (itemsData l) ⟨[], last, .set v⟩) =
            some (.map (put (.str last) v (entriesOf (lookup setKey (itemsData l))))) := by
          rw [addItem, within, touch, lookup_put, if_pos rfl]
        rw [this]
        refine ⟨fun k => ?_, fun _ => ⟨_, rfl, ?_⟩, fun hc => by cases hc⟩
        · rw [hlast]
          show lookup (.str k) (put (.str last) v _) = _
          rw [lookup_put]
          unfold givesValue
          by_cases hk : k = last
          · subst hk; simp [itemPath]
          · rw [if_neg (fun e => hk (Key.str.inj e)), i1 k, if_neg]
            · rfl
            · simp only [itemPath, List.nil_append, List.cons.injEq, and_true]
              exact fun e => hk e.symm
        · intro e he
          rcases put_mem _ _ _ _ he with he | he
          · exact ⟨last, by rw [he]⟩
          · cases hl : lookup setKey (itemsData l) with
            | none => rw [hl] at he; cases he
            | some y =>
              obtain ⟨es, hes, hkeys⟩ := i2 ⟨y, hl⟩
              rw [hes] at he
              exact hkeys e he

private theorem data_del (items : List Item) (h : ∀ it ∈ items, FineItem it) :
    lookup delKey (itemsData items) = none ∧ (∀ k, ¬ deletesPath items [k]) ∨
    ∃ names : List String, lookup delKey (itemsData items) = some (.list (names.map .str)) ∧
      ∀ k, k ∈ names ↔ deletesPath items [k] := by
  revert h
  refine snocInd (P := fun items => (∀ it ∈ items, FineItem it) →
    lookup delKey (itemsData items) = none ∧ (∀ k, ¬ deletesPath items [k]) ∨
    ∃ names : List String, lookup delKey (itemsData items) = some (.list (names.map .str)) ∧
      ∀ k, k ∈ names ↔ deletesPath items [k]) ?_ ?_ items
  · intro _
    refine .inl ⟨rfl, ?_⟩
    rintro k ⟨it, hit, -⟩; cases hit
  · intro l x ih h
    have ih := ih fun it hit => h it (by simp [hit])
    have hx := h x (by simp)
    rw [data_snoc]
    have hdel : ∀ k, deletesPath (l ++ [x]) [k] ↔
        deletesPath l [k] ∨ (itemPath x = [k] ∧ x.what = .del) := by
      intro k
      unfold deletesPath
      constructor
      · rintro ⟨it, hit, hp⟩
        rcases List.mem_append.1 hit with hit | hit
        · exact .inl ⟨it, hit, hp⟩
        · rw [List.mem_singleton] at hit; subst hit; exact .inr hp
      · rintro (⟨it, hit, hp⟩ | hp)
        · exact ⟨it, by simp [hit], hp⟩
        · exact ⟨x, by simp, hp⟩
    obtain ⟨init, last, what⟩ := x
    have hsame : lookup delKey (addItem (itemsData l) ⟨init, last, what⟩) = lookup delKey (itemsData l) →
        (∀ k, ¬ (itemPath ⟨init, last, what⟩ = [k] ∧ what = .del)) →
        lookup delKey (addItem (itemsData l) ⟨init, last, what⟩) = none ∧
          (∀ k, ¬ deletesPath (l ++ [⟨init, last, what⟩]) [k]) ∨
        ∃ names : List String, lookup delKey (addItem (itemsData l) ⟨init, last, what⟩) =
          some (.list (names.map .str)) ∧ ∀ k, k ∈ names ↔ deletesPath (l ++ [⟨init, last, what⟩]) [k] := by
      intro he hn
      rw [he]
      rcases ih with ⟨i1, i2⟩ | ⟨names, i1, i2⟩
      · refine .inl ⟨i1, fun k => ?_⟩
        rw [hdel]
        rintro (hc | hc)
        · exact i2 k hc
        · exact hn k hc
      · refine .inr ⟨names, i1, fun k => ?_⟩
        rw [hdel, i2]
        exact ⟨.inl, fun hc => hc.elim id fun hc => (hn k hc).elim⟩
    cases init with
    | cons k' r =>
      refine hsame ?_ ?_
      · rw [addItem, within, lookup_put, if_neg]
        intro e
        exact hx.keys.2 (by simp [itemPath, Key.str.inj e])
      · rintro k ⟨hc, -⟩
        simp [itemPath] at hc
    | nil =>
      cases what with
      | set v =>
        refine hsame ?_ ?_
        · rw [addItem, within, touch, lookup_put, if_neg]
          decide
        · rintro k ⟨-, hc⟩
          cases hc
      | del =>
        have he : lookup delKey (addItem (itemsData l) ⟨[], last, .del⟩) =
            some (.list (delList (itemsData l) ++ [.str last])) := by
          rw [addItem, within, touch, lookup_put, if_pos rfl]
        rcases ih with ⟨i1, i2⟩ | ⟨names, i1, i2⟩
        · refine .inr ⟨[last], ?_, fun k => ?_⟩
          · rw [he]; unfold delList; rw [i1]; rfl
          · rw [hdel]
            simp only [List.mem_singleton, itemPath, List.nil_append, List.cons.injEq, and_true]
            constructor
            · intro hk; exact .inr hk.symm
            · rintro (hc | hc)
              · exact (i2 k hc).elim
              · exact hc.symm
        · refine .inr ⟨names ++ [last], ?_, fun k => ?_⟩
          · rw [he]; unfold delList; rw [i1]; simp
          · rw [hdel, List.mem_append, i2]
            simp only [List.mem_singleton, itemPath, List.nil_append, List.cons.injEq, and_true]
            constructor
            · rintro (hk | hk)
              · exact .inl hk
              · exact .inr hk.symm
            · rintro (hc | hc)
              · exact .inl hc
              · exact .inr hc.symm

private theorem sets_iff (items : List Item) (h : ∀ it ∈ items, FineItem it) (k : String) (v : Val) :
    Sets (itemsData items) (.str k) v ↔ lastGiven items [k] = some v := by
  obtain ⟨h1, h2, h3⟩ := data_set items h
  constructor
  · rintro ⟨es, he, hl⟩
    rw [← h1 k]
    have : lookup setKey (itemsData items) = some (.map es) := he
    rw [this]; exact hl
  · intro hl
    cases hs : lookup setKey (itemsData items) with
    | none => rw [h3 hs k] at hl; cases hl
    | some y =>
      obtain ⟨es, hes, -⟩ := h2 ⟨y, hs⟩
      refine ⟨es, hes, ?_⟩
      have := h1 k
      rw [hes, hl] at this
      exact this

private theorem deletes_iff (items : List Item) (h : ∀ it ∈ items, FineItem it) (k : String) :
    Deletes (itemsData items) (.str k) ↔ deletesPath items [k] := by
  rcases data_del items h with ⟨h1, h2⟩ | ⟨names, h1, h2⟩
  · constructor
    · rintro ⟨l, x, hl, -⟩
      have : lookup delKey (itemsData items) = some (.list l) := hl
      rw [h1] at this; cases this
    · intro hc; exact (h2 k hc).elim
  · constructor
    · rintro ⟨l, x, hl, hx, hk⟩
      have : lookup delKey (itemsData items) = some (.list l) := hl
      rw [h1] at this
      cases this
      obtain ⟨y, hy, hyx⟩ := List.mem_map.1 hx
      cases hyx
      cases hk
      exact (h2 k).1 hy
    · intro hc
      exact ⟨_, k, h1, List.mem_map.2 ⟨k, (h2 k).2 hc, rfl⟩, rfl⟩

private theorem overrides_iff (items : List Item) (h : ∀ it ∈ items, FineItem it) (k : String)
    (h1 : k ≠ "_set_") (h2 : k ≠ "_del_") (v : Val) :
    Overrides (itemsData items) (.str k) v ↔
      below' k items ≠ [] ∧ v = .map (itemsData (below' k items)) := by
  unfold Overrides
  rw [data_key items h k h1 h2]
  constructor
  · rintro ⟨-, -, h⟩
    split at h
    · cases h
    · rename_i hne; cases h; exact ⟨hne, rfl⟩
  · rintro ⟨hne, rfl⟩
    refine ⟨fun e => h2 (Key.str.inj e), fun e => h1 (Key.str.inj e), ?_⟩
    rw [if_neg hne]

private theorem gives_below (k : String) (p : List String) (hp : p ≠ []) (items : List Item) :
    lastGiven items (k :: p) = lastGiven (below' k items) p := by
  unfold lastGiven below'
  rw [List.filterMap_filterMap]
  congr 1
  refine congrArg (fun f => items.filterMap f) (funext fun it => ?_)
  obtain ⟨init, last, what⟩ := it
  cases init with
  | nil =>
    unfold givesValue
    rw [if_neg]
    · rfl
    · simp only [itemPath, List.nil_append, List.cons.injEq, not_and]
      intro _ e; exact hp e.symm
  | cons k' r =>
    simp only
    by_cases hk : k' = k
    · subst hk
      simp only [if_true, Option.bind_some]
      unfold givesValue itemPath
      simp
    · rw [if_neg hk]
      unfold givesValue itemPath
      rw [if_neg (by simp [hk])]
      rfl

private theorem mem_below {k : String} {items : List Item} {it : Item} :
    it ∈ below' k items ↔ (⟨k :: it.init, it.last, it.what⟩ : Item) ∈ items := by
  unfold below'
  rw [List.mem_filterMap]
  constructor
  · rintro ⟨x, hx, hxe⟩
    obtain ⟨init, last, what⟩ := x
    cases init with
    | nil => cases hxe
    | cons k' r =>
      simp only at hxe
      split at hxe
      · rename_i hk; subst hk; cases hxe; exact hx
      · cases hxe
  · intro hx
    exact ⟨_, hx, by simp⟩

private theorem deletes_below (k : String) (p : List String) (hp : p ≠ []) (items : List Item) :
    deletesPath items (k :: p) ↔ deletesPath (below' k items) p := by
  constructor
  · rintro ⟨⟨init, last, what⟩, hit, hpath, hw⟩
    cases init with
    | nil =>
      simp only [itemPath, List.nil_append, List.cons.injEq] at hpath
      exact (hp hpath.2.symm).elim
    | cons k' r =>
      simp only [itemPath, List.cons_append, List.cons.injEq] at hpath
      obtain ⟨rfl, hr⟩ := hpath
      exact ⟨⟨r, last, what⟩, mem_below.2 hit, hr, hw⟩
  · rintro ⟨it, hit, hpath, hw⟩
    refine ⟨_, mem_below.1 hit, ?_, hw⟩
    simp only [itemPath, List.cons_append]
    exact congrArg _ hpath

private theorem data_wellformed : ∀ (n : Nat) (items : List Item), (∀ it ∈ items, it.init.length < n) →
    (∀ it ∈ items, FineItem it) → ¬ Malformed (.map (itemsData items)) := by
  intro n
  induction n with
  | zero =>
    intro items hn _ hm
    cases items with
    | nil =>
      cases hm with
      | del _ v h => cases h
      | set _ v h => cases h
      | nested _ k v h => cases h.2.2
    | cons it items => exact absurd (hn it (by simp)) (by omega)
  | succ n ih =>
    intro items hn hf hm
    cases hm with
    | del _ v h hv hbad =>
      rcases data_del items hf with ⟨h1, -⟩ | ⟨names, h1, -⟩
      · have h : lookup delKey (itemsData items) = some v := h
        rw [h1] at h; cases h
      · have h : lookup delKey (itemsData items) = some v := h
        rw [h1] at h; cases h
        exact hbad ⟨names, rfl⟩
    | set _ v h hv hbad =>
      obtain ⟨es, hes, hk⟩ := (data_set items hf).2.1 ⟨v, h⟩
      have h : lookup setKey (itemsData items) = some v := h
      rw [hes] at h; cases h
      exact hbad ⟨es, rfl, hk⟩
    | nested _ k v h hm =>
      cases k with
      | str k =>
        by_cases h1 : k = "_set_"
        · exact h.2.1 (by rw [h1])
        by_cases h2 : k = "_del_"
        · exact h.1 (by rw [h2])
        obtain ⟨-, rfl⟩ := (overrides_iff items hf k h1 h2 v).1 h
        refine ih _ (fun it hit => ?_) (fine_below hf) hm
        have := hn _ (mem_below.1 hit)
        simp only [List.length_cons] at this
        omega
      | other m =>
        -- keys of the dictionary that is built are strings
        have : ∀ items : List Item, ∀ m, lookup (.other m) (itemsData items) = none := by
          intro items m
          refine snocInd (P := fun items => lookup (.other m) (itemsData items) = none) rfl ?_ items
          intro l x ih
          rw [data_snoc]
          obtain ⟨init, last, what⟩ := x
          cases init with
          | nil =>
            rw [addItem, within, touch]
            cases what <;> (simp only; rw [lookup_put, if_neg (by intro e; cases e)]; exact ih)
          | cons k' r =>
            rw [addItem, within, lookup_put, if_neg (by intro e; cases e)]; exact ih
        have h := h.2.2
        rw [this] at h; cases h

private theorem le_sum {items : List Item} {it : Item} (h : it ∈ items) :
    it.init.length ≤ (items.map (·.init.length)).sum := by
  induction items with
  | nil => cases h
  | cons x items ih =>
    rw [List.map_cons, List.sum_cons]
    rcases List.mem_cons.1 h with rfl | h
    · omega
    · have := ih h; omega

/-! ### C81 -/

/-- **Assignments are read as written.** `path=value`, with `set:` before it or not and with spaces around
its parts, gives the value that YAML reads to the keys between the dots. It is refused if YAML refuses the
value. -/
theorem C81_assignment (yaml : Str → Option Val) (ks : List Str) (l path : Str) (hpath : PathText (ks ++ [l]) path)
    (hdel : ¬ "del:".toList <+: path) (hset : ¬ "set:".toList <+: path) (pre : Str)
    (hpre : pre = [] ∨ pre = "set:".toList) (w1 w2 w3 w4 v : Str)
    (h1 : Blank w1) (h2 : Blank w2) (h3 : Blank w3) (h4 : Blank w4) (hv : Bare v) :
    parseItem yaml (w1 ++ (pre ++ path) ++ w2 ++ '=' :: (w3 ++ v ++ w4)) =
      (yaml v).map fun x => ⟨ks.map String.ofList, String.ofList l, .set x⟩ := by
  have hk := pathKeys_text hpath
  rcases hpre with rfl | rfl
  · rw [List.nil_append, parse_set (a := path) yaml h1 h2 h3 h4 hv hpath.nonempty.2 hpath.clean hdel
      (by rw [isPrefixOf_false hset]; rfl), hk]
  · rw [parse_set (a := path) yaml h1 h2 h3 h4 hv (by simp) ?_ ?_ ?_, hk]
    · intro c hc
      rcases List.mem_append.1 hc with hc | hc
      · have : ∀ c ∈ "set:".toList, c.isWhitespace = false ∧ c ≠ '=' := by decide
        exact this c hc
      · exact hpath.clean c hc
    · intro hc
      have : "set:".toList ++ path = 's' :: ("et:".toList ++ path) := rfl
      rw [this] at hc
      have hc : 'd' :: "el:".toList <+: 's' :: ("et:".toList ++ path) := hc
      rw [List.cons_prefix_cons] at hc
      exact absurd hc.1 (by decide)
    · rw [isPrefixOf_true (List.prefix_append _ _)]
      rfl

/-- ` set:ab.c = 3`. -/
example : PathText ["ab".toList, "c".toList] "ab.c".toList ∧ ¬ "del:".toList <+: "ab.c".toList ∧
    ¬ "set:".toList <+: "ab.c".toList ∧ Blank " ".toList ∧ Bare "3".toList :=
  ⟨⟨by decide, by decide, by decide, by decide⟩, by decide, by decide, by simp [Blank], by simp [Bare]⟩

/-- **Deletions are read as written**; with an equals sign they are refused. -/
theorem C81_deletion (yaml : Str → Option Val) (ks : List Str) (l path : Str) (hpath : PathText (ks ++ [l]) path)
    (w1 w2 : Str) (h1 : Blank w1) (h2 : Blank w2) :
    parseItem yaml (w1 ++ ("del:".toList ++ path) ++ w2) =
      some ⟨ks.map String.ofList, String.ofList l, .del⟩ ∧
    ∀ s : Str, '=' ∈ s → parseItem yaml ("del:".toList ++ s) = none := by
  have hk := pathKeys_text hpath
  constructor
  · have hclean : ∀ c ∈ "del:".toList ++ path, c.isWhitespace = false ∧ c ≠ '=' := by
      intro c hc
      rcases List.mem_append.1 hc with hc | hc
      · have : ∀ c ∈ "del:".toList, c.isWhitespace = false ∧ c ≠ '=' := by decide
        exact this c hc
      · exact hpath.clean c hc
    have hs : lstrip (rstrip (w1 ++ ("del:".toList ++ path) ++ w2)) = "del:".toList ++ path := by
      rw [rstrip_blank h2, rstrip_bare, lstrip_blank h1, lstrip_bare (head_clean hclean)]
      intro c hc
      rw [List.getLast?_append] at hc
      cases hl : ("del:".toList ++ path).getLast? with
      | none => simp at hl
      | some x =>
        rw [hl] at hc; cases hc
        exact last_clean hclean c hl
    unfold parseItem
    simp only [hs, isPrefixOf_true (List.prefix_append _ _), if_true]
    have hd : ("del:".toList ++ path).drop 4 = path := rfl
    rw [hd, if_neg, hk]
    intro hc
    exact (hpath.clean '=' (by simpa using hc)).2 rfl
  · intro s hmem
    have hmem := mem_rstrip hmem (by decide)
    have hs : lstrip (rstrip ("del:".toList ++ s)) = "del:".toList ++ rstrip s := by
      rw [rstrip_append (by intro e; rw [e] at hmem; cases hmem), lstrip_bare]
      intro c hc; cases hc; decide
    unfold parseItem
    simp only [hs, isPrefixOf_true (List.prefix_append _ _), if_true]
    have hd : ("del:".toList ++ rstrip s).drop 4 = rstrip s := rfl
    rw [hd, if_pos]
    simpa using hmem

/-- **Anything without an equals sign that is no deletion is refused**, and one bad item is enough to
refuse the option. -/
theorem C81_refused (yaml : Str → Option Val) (item : Str) (h : '=' ∉ item)
    (hdel : ¬ "del:".toList <+: lstrip (rstrip item)) (values : List Str) (hmem : item ∈ values) :
    parseItem yaml item = none ∧ parseOption yaml values = none := by
  have hno : '=' ∉ lstrip (rstrip item) := by
    intro hc
    have := (List.dropWhile_sublist _).subset hc
    unfold rstrip at this
    have := (List.dropWhile_sublist _).subset (List.mem_reverse.1 this)
    exact h (List.mem_reverse.1 this)
  have hp : parseItem yaml item = none := by
    unfold parseItem
    simp only [isPrefixOf_false hdel, splitFirst_none _ _ hno]
    rfl
  refine ⟨hp, ?_⟩
  unfold parseOption
  have : values.mapM (parseItem yaml) = none := by
    induction values with
    | nil => cases hmem
    | cons x xs ih =>
      rw [List.mapM_cons]
      rcases List.mem_cons.1 hmem with rfl | hm
      · rw [hp]; rfl
      · rw [ih hm]
        cases parseItem yaml x <;> rfl
  rw [this]; rfl

example : '=' ∉ "a.b".toList ∧ ¬ "del:".toList <+: lstrip (rstrip "a.b".toList) := by decide


/-- **Overrides on the command line never fail.** Whatever items are given, they can be merged into any
configuration. -/
theorem C81_merges (items : List Item) (h : ∀ it ∈ items, FineItem it) (c : Val) :
    ∃ m, merge c (.map (itemsData items)) = some m := by
  cases hm : merge c (.map (itemsData items)) with
  | some m => exact ⟨m, rfl⟩
  | none =>
    have := (C64_error c _ (proper_data items h)).1 hm
    exact (data_wellformed ((items.map (·.init.length)).sum + 1) items (fun it hit => by
      have : it.init.length ≤ (items.map (·.init.length)).sum :=
        le_sum hit
      omega) h this).elim

/-- **What is given is there.** The value given last for a path is at that path afterwards, unless an item
of the same option gives a value to a shorter path on the way. -/
theorem C81_given (items : List Item) (h : ∀ it ∈ items, FineItem it) (c m : Val)
    (hm : merge c (.map (itemsData items)) = some m) (path : List String) (v : Val)
    (hv : lastGiven items path = some v)
    (hshort : ∀ q r, path = q ++ r → r ≠ [] → lastGiven items q = none) :
    at? (asKeys path) m = some v := by
  refine C64_asked c _ m (proper_data items h) hm _ v ?_
  clear hm
  induction path generalizing items with
  | nil =>
    exfalso
    unfold lastGiven at hv
    have : items.filterMap (givesValue []) = [] := by
      rw [List.filterMap_eq_nil_iff]
      intro it _
      unfold givesValue
      rw [if_neg (by simp [itemPath])]
    rw [this] at hv; cases hv
  | cons k p ih =>
    by_cases hp : p = []
    · subst hp
      exact .inl ⟨v, (sets_iff items h k v).2 hv, rfl⟩
    · have hk : k ≠ "_set_" ∧ k ≠ "_del_" := by
        unfold lastGiven at hv
        have := List.mem_of_getLast? hv
        obtain ⟨it, hit, hg⟩ := List.mem_filterMap.1 this
        have hf := (h it hit).keys
        unfold givesValue at hg
        split at hg
        · rename_i hpath
          rw [hpath] at hf
          exact ⟨fun e => hf.1 (by simp [e]), fun e => hf.2 (by simp [e])⟩
        · cases hg
      refine .inr ⟨?_, ?_⟩
      · rintro ⟨x, hx⟩
        have := hshort [k] p rfl hp
        rw [(sets_iff items h k x).1 hx] at this
        cases this
      · rw [gives_below k p hp] at hv
        refine ⟨_, (overrides_iff items h k hk.1 hk.2 _).2 ⟨?_, rfl⟩, ih (below' k items) (fine_below h) hv ?_⟩
        · intro he
          rw [he] at hv; cases hv
        · intro q r hqr hr
          cases q with
          | nil =>
            unfold lastGiven
            have : (below' k items).filterMap (givesValue []) = [] := by
              rw [List.filterMap_eq_nil_iff]
              intro it _
              unfold givesValue
              rw [if_neg (by simp [itemPath])]
            rw [this]; rfl
          | cons a q =>
            rw [← gives_below k (a :: q) (by simp)]
            exact hshort (k :: a :: q) r (by rw [hqr]; rfl) hr

private def num (p : List String) (l : String) (n : Int) : Item := ⟨p, l, .set (.num n)⟩

private theorem fine_num (p : List String) (l : String) (n : Int)
    (h : "_set_" ∉ p ++ [l] ∧ "_del_" ∉ p ++ [l]) : FineItem (num p l n) :=
  ⟨h, fun v hv => by cases hv; exact .num n⟩

/-- `--config a.b=1 c=5 a.b=2`. -/
example : let items := [num ["a"] "b" 1, num [] "c" 5, num ["a"] "b" 2]
    (∀ it ∈ items, FineItem it) ∧ lastGiven items ["a", "b"] = some (.num 2) ∧
    ∀ q r, ["a", "b"] = q ++ r → r ≠ [] → lastGiven items q = none := by
  intro items
  refine ⟨?_, by simp [items, lastGiven, givesValue, itemPath, num], ?_⟩
  · intro it hit
    simp only [items, List.mem_cons, List.not_mem_nil, or_false] at hit
    rcases hit with h | h | h <;> subst h <;> exact fine_num _ _ _ (by simp)
  · intro q r h hr
    match q, h with
    | [], _ => simp [items, lastGiven, givesValue, itemPath, num]
    | [x], h =>
      simp only [List.cons_append, List.cons.injEq] at h
      obtain ⟨rfl, -⟩ := h
      simp [items, lastGiven, givesValue, itemPath, num]
    | [x, y], h =>
      simp only [List.cons_append, List.nil_append, List.cons.injEq] at h
      exact (hr h.2.2.symm).elim
    | x :: y :: z :: q, h => simp at h

/-- **What is deleted is gone**, unless an item of the same option gives a value to the path or something
on the way, or mentions something below it. -/
theorem C81_deleted (items : List Item) (h : ∀ it ∈ items, FineItem it) (c m : Val)
    (hm : merge c (.map (itemsData items)) = some m) (path : List String)
    (hd : deletesPath items path)
    (hshort : ∀ q r, path = q ++ r → lastGiven items q = none)
    (hlong : ∀ it ∈ items, ∀ r, itemPath it = path ++ r → r = []) :
    at? (asKeys path) m = none := by
  refine C64_removed c _ m (proper_data items h) hm _ ?_
  clear hm
  induction path generalizing items with
  | nil =>
    obtain ⟨it, -, hp, -⟩ := hd
    simp [itemPath] at hp
  | cons k p ih =>
    have hk : k ≠ "_set_" ∧ k ≠ "_del_" := by
      obtain ⟨it, hit, hpath, -⟩ := hd
      have hf := (h it hit).keys
      rw [hpath] at hf
      exact ⟨fun e => hf.1 (by simp [e]), fun e => hf.2 (by simp [e])⟩
    have hns : ¬ ∃ x, Sets (itemsData items) (.str k) x := by
      rintro ⟨x, hx⟩
      have := hshort [k] p rfl
      rw [(sets_iff items h k x).1 hx] at this
      cases this
    by_cases hp : p = []
    · subst hp
      refine ⟨hns, .inl ⟨(deletes_iff items h k).2 hd, ?_⟩⟩
      rintro ⟨x, hx⟩
      obtain ⟨hne, -⟩ := (overrides_iff items h k hk.1 hk.2 x).1 hx
      obtain ⟨it, hit⟩ := List.exists_mem_of_ne_nil _ hne
      have := hlong _ (mem_below.1 hit) (itemPath it) rfl
      simp [itemPath] at this
    · rw [deletes_below k p hp] at hd
      refine ⟨hns, .inr ⟨_, (overrides_iff items h k hk.1 hk.2 _).2 ⟨?_, rfl⟩,
        ih (below' k items) (fine_below h) hd ?_ ?_⟩⟩
      · obtain ⟨it, hit, -⟩ := hd
        intro he
        rw [he] at hit; cases hit
      · intro q r hqr
        cases q with
        | nil =>
          unfold lastGiven
          have : (below' k items).filterMap (givesValue []) = [] := by
            rw [List.filterMap_eq_nil_iff]
            intro it _
            unfold givesValue
            rw [if_neg (by simp [itemPath])]
          rw [this]; rfl
        | cons a q =>
          rw [← gives_below k (a :: q) (by simp)]
          exact hshort (k :: a :: q) r (by rw [hqr]; rfl)
      · intro it hit r hr
        refine hlong _ (mem_below.1 hit) r ?_
        simp only [itemPath, List.cons_append]
        exact congrArg _ hr

/-- `--config del:a.b c=5`. -/
example : deletesPath [⟨["a"], "b", .del⟩, num [] "c" 5] ["a", "b"] :=
  ⟨⟨["a"], "b", .del⟩, by simp, rfl, rfl⟩

/-- **Nothing else changes.** A path stays as it is if no item's path leads to it, through it or is on the
way to it. -/
theorem C81_untouched (items : List Item) (h : ∀ it ∈ items, FineItem it) (c m : Val)
    (hm : merge c (.map (itemsData items)) = some m) (path : List String) (hne : path ≠ [])
    (hres : "_set_" ∉ path ∧ "_del_" ∉ path)
    (hno : ∀ it ∈ items, ¬ itemPath it <+: path ∧ ¬ path <+: itemPath it) :
    at? (asKeys path) m = at? (asKeys path) c := by
  refine C64_untouched c _ m (proper_data items h) hm _ ?_
  clear hm
  induction path generalizing items with
  | nil => exact (hne rfl).elim
  | cons k p ih =>
    simp only [List.mem_cons, not_or] at hres
    rintro (⟨v, hv⟩ | hd | ⟨v, hv, ht⟩)
    · have := (sets_iff items h k v).1 hv
      obtain ⟨it, hit, hg⟩ := List.mem_filterMap.1 (List.mem_of_getLast? this)
      unfold givesValue at hg
      split at hg
      · rename_i hpath
        exact (hno it hit).1 (by rw [hpath]; exact ⟨p, rfl⟩)
      · cases hg
    · obtain ⟨it, hit, hpath, -⟩ := (deletes_iff items h k).1 hd
      exact (hno it hit).1 (by rw [hpath]; exact ⟨p, rfl⟩)
    · obtain ⟨hb, rfl⟩ := (overrides_iff items h k (fun e => hres.1.1 e.symm) (fun e => hres.2.1 e.symm) v).1 hv
      obtain ⟨it, hit⟩ := List.exists_mem_of_ne_nil _ hb
      cases p with
      | nil =>
        exact (hno _ (mem_below.1 hit)).2 ⟨itemPath it, rfl⟩
      | cons a p =>
        refine ih (below' k items) (fine_below h) (by simp) ⟨hres.1.2, hres.2.2⟩ ?_ ht
        intro it hit
        have := hno _ (mem_below.1 hit)
        simp only [itemPath, List.cons_append] at this
        constructor
        · intro hc
          exact this.1 (List.cons_prefix_cons.2 ⟨rfl, hc⟩)
        · intro hc
          exact this.2 (List.cons_prefix_cons.2 ⟨rfl, hc⟩)

/-- **One after the other.** Several options are applied in the order given, and none of them fails. -/
theorem C81_options (opts : List (List Item)) (h : ∀ o ∈ opts, ∀ it ∈ o, FineItem it) (last : List Item)
    (hl : ∀ it ∈ last, FineItem it) (c : Val) :
    ∃ c' m, applyOptions c (opts.map fun o => .map (itemsData o)) = some c' ∧
      merge c' (.map (itemsData last)) = some m ∧
      applyOptions c ((opts ++ [last]).map fun o => .map (itemsData o)) = some m := by
  induction opts generalizing c with
  | nil =>
    obtain ⟨m, hm⟩ := C81_merges last hl c
    refine ⟨c, m, rfl, hm, ?_⟩
    simp only [List.nil_append, List.map_cons, List.map_nil, applyOptions, hm]
    rfl
  | cons o opts ih =>
    obtain ⟨c1, hc1⟩ := C81_merges o (h o (by simp)) c
    obtain ⟨c', m, h1, h2, h3⟩ := ih (fun o ho => h o (by simp [ho])) c1
    refine ⟨c', m, ?_, h2, ?_⟩
    · simp only [List.map_cons, applyOptions, hc1]; exact h1
    · simp only [List.cons_append, List.map_cons, applyOptions, hc1]; exact h3

/-- **Violation.** Within one option the order of the items does not count: a value for a whole section
given first still replaces a value inside the section given after it, and a deletion given after a value
has no effect. -/
theorem C81_order_negation :
    (∃ m, merge (.map []) (.map (itemsData
        [⟨[], "a", .set (.map [(.str "b", .num 1)])⟩, num ["a"] "b" 2])) = some m ∧
      at? (asKeys ["a", "b"]) m = some (.num 1)) ∧
    (∃ m, merge (.map []) (.map (itemsData [num [] "a" 1, ⟨[], "a", .del⟩])) = some m ∧
      at? (asKeys ["a"]) m = some (.num 1)) := by
  constructor
  · have hf : ∀ it ∈ [⟨[], "a", .set (.map [(.str "b", .num 1)])⟩, num ["a"] "b" 2], FineItem it := by
      intro it hit
      simp only [List.mem_cons, List.not_mem_nil, or_false] at hit
      rcases hit with rfl | rfl
      · refine ⟨by simp [itemPath], fun v hv => ?_⟩
        cases hv
        refine .map _ (by simp) ?_
        intro e he
        rw [List.mem_singleton] at he
        subst he
        exact .num 1
      · exact fine_num _ _ _ (by simp)
    obtain ⟨m, hm⟩ := C81_merges _ hf (.map [])
    refine ⟨m, hm, ?_⟩
    have := C81_given _ hf _ m hm ["a"] (.map [(.str "b", .num 1)])
      (by simp [lastGiven, givesValue, itemPath, num]) (by
        intro q r h hr
        match q, h with
        | [], _ => simp [lastGiven, givesValue, itemPath, num]
        | [x], h =>
          simp only [List.cons_append, List.nil_append, List.cons.injEq] at h
          exact (hr h.2.symm).elim
        | x :: y :: q, h => simp at h)
    cases m with
    | map es =>
      simp only [asKeys, List.map_cons, List.map_nil, at?] at this ⊢
      cases hl : lookup (.str "a") es with
      | none => rw [hl] at this; cases this
      | some x =>
        rw [hl] at this
        simp only [Option.bind_some] at this ⊢
        cases this
        rfl
    | _ => cases this
  · have hf : ∀ it ∈ [num [] "a" 1, ⟨[], "a", .del⟩], FineItem it := by
      intro it hit
      simp only [List.mem_cons, List.not_mem_nil, or_false] at hit
      rcases hit with rfl | rfl
      · exact fine_num _ _ _ (by simp)
      · exact ⟨by simp [itemPath], fun v hv => by cases hv⟩
    obtain ⟨m, hm⟩ := C81_merges _ hf (.map [])
    refine ⟨m, hm, C81_given _ hf _ m hm ["a"] (.num 1) ?_ ?_⟩
    · simp [lastGiven, givesValue, itemPath, num]
    · intro q r h hr
      match q, h with
      | [], _ => simp [lastGiven, givesValue, itemPath, num]
      | [x], h =>
        simp only [List.cons_append, List.nil_append, List.cons.injEq] at h
        exact (hr h.2.symm).elim
      | x :: y :: q, h => simp at h

end Fs2.Props
