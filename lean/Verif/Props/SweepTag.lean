import Verif.Recipe.SweepTag

/-!
C67: the tags of configurations.

Specification. `leaves cfg path`: the scalars of a configuration with their paths. `TagText`: the text for a
scalar. `HasTag`: the text for a path, where `world_size` is the number of processes unless the configuration
has a value of this name. `HashText`: keys and texts in the order of the keys. `Reordered`: the same
configuration up to the order of the keys of dictionaries. `Piece`: formats as sequences of pieces.
-/

namespace Fs2.Props

open Fs2.Sweep

/-- A scalar of a configuration. -/
inductive Scalar where
  | null
  | str (s : Str)
  | bool (b : Bool)
  | num (text : Str)

mutual

/-- The scalars of a configuration, with their paths: `a.b` for keys and `a[0]` for positions. -/
def leaves : Cfg → Str → List (Str × Scalar)
  | .null, path => [(path, .null)]
  | .str s, path => [(path, .str s)]
  | .bool b, path => [(path, .bool b)]
  | .num text, path => [(path, .num text)]
  | .list es, path => leavesList es 0 path
  | .dict es, path => leavesDict es path

/-- The scalars of the elements of a list, from this position on. -/
def leavesList : List Cfg → Nat → Str → List (Str × Scalar)
  | [], _, _ => []
  | e :: es, i, path => leaves e (path ++ ("[" ++ toString i ++ "]").toList) ++ leavesList es (i + 1) path

/-- The scalars of the values of a dictionary. -/
def leavesDict : List (Str × Cfg) → Str → List (Str × Scalar)
  | [], _ => []
  | e :: es, path => leavesItem e path ++ leavesDict es path

/-- The scalars of one item of a dictionary. -/
def leavesItem : Str × Cfg → Str → List (Str × Scalar)
  | (key, v), path => leaves v (if path.isEmpty then key else path ++ ['.'] ++ key)

end

/-- No two scalars have the same path. -/
def DistinctPaths (cfg : Cfg) : Prop := ((leaves cfg []).map (·.1)).Nodup

/-- The text for a scalar; a string without the characters that are not part of words, or the hash of that if
there are sixteen or more. -/
inductive TagText (L : Lib) : Scalar → Str → Prop
  | null : TagText L .null "none".toList
  | true : TagText L (.bool true) "t".toList
  | false : TagText L (.bool false) "f".toList
  | num {text} : TagText L (.num text) text
  | short {s t} (h : t = s.filter fun c => c == '-' || c == '_' || L.word c) (hl : t.length < 16) :
      TagText L (.str s) t
  | long {s t} (h : t = s.filter fun c => c == '-' || c == '_' || L.word c) (hl : 16 ≤ t.length) :
      TagText L (.str s) (L.sha t)

/-- The text for a path. -/
inductive HasTag (L : Lib) (worldSize : Nat) (cfg : Cfg) : Str → Str → Prop
  | leaf {path x t} (h : (path, x) ∈ leaves cfg []) (ht : TagText L x t) : HasTag L worldSize cfg path t
  | world (h : ∀ x, ("world_size".toList, x) ∉ leaves cfg []) :
      HasTag L worldSize cfg "world_size".toList (toString worldSize).toList

/-- The text that is hashed: all paths and their texts in the order of the paths. -/
def HashText (L : Lib) (worldSize : Nat) (cfg : Cfg) (text : Str) : Prop :=
  ∃ l : List (Str × Str), l.Pairwise (fun a b => a.1 < b.1) ∧
    (∀ k v, (k, v) ∈ l ↔ HasTag L worldSize cfg k v) ∧ text = (l.map fun e => e.1 ++ e.2).flatten

/-- The value of a placeholder: the hash for `hash`, and the text for a path. -/
inductive Value (L : Lib) (worldSize : Nat) (cfg : Cfg) : Str → Str → Prop
  | hash {text} (h : HashText L worldSize cfg text) : Value L worldSize cfg "hash".toList (L.sha text)
  | tag {k v} (hk : k ≠ "hash".toList) (h : HasTag L worldSize cfg k v) : Value L worldSize cfg k v

mutual

/-- The same configuration up to the order of the keys of dictionaries. -/
inductive Reordered : Cfg → Cfg → Prop
  | refl {c} : Reordered c c
  | list {es es'} (h : ReorderedList es es') : Reordered (.list es) (.list es')
  | dict {es es' es''} (h : ReorderedDict es es') (hp : es'.Perm es'') : Reordered (.dict es) (.dict es'')

inductive ReorderedList : List Cfg → List Cfg → Prop
  | nil : ReorderedList [] []
  | cons {e e' es es'} (h : Reordered e e') (t : ReorderedList es es') : ReorderedList (e :: es) (e' :: es')

inductive ReorderedDict : List (Str × Cfg) → List (Str × Cfg) → Prop
  | nil : ReorderedDict [] []
  | cons {k e e' es es'} (h : Reordered e e') (t : ReorderedDict es es') :
      ReorderedDict ((k, e) :: es) ((k, e') :: es')

end

/-- A piece of a format: a character, an escaped brace, a placeholder, or a single closing brace followed by
another character. -/
inductive Piece where
  | char (c : Char)
  | opening
  | closing
  | key (k : Str)
  | stray (c : Char)

/-- The characters of a piece. -/
def Piece.text : Piece → Str
  | .char c => [c]
  | .opening => ['{', '{']
  | .closing => ['}', '}']
  | .key k => '{' :: (k ++ ['}'])
  | .stray c => ['}', c]

/-- Characters are not braces; placeholders are not empty, have no closing brace in them and do not begin with
an opening brace. -/
def Piece.Proper : Piece → Prop
  | .char c => c ≠ '{' ∧ c ≠ '}'
  | .key k => k ≠ [] ∧ '}' ∉ k ∧ k.head? ≠ some '{'
  | .stray c => c ≠ '}'
  | _ => True

/-- What a piece becomes. -/
inductive Becomes (V : Str → Str → Prop) : Piece → Str → Prop
  | char {c} : Becomes V (.char c) [c]
  | opening : Becomes V .opening ['{']
  | closing : Becomes V .closing ['}']
  | key {k v} (h : V k v) : Becomes V (.key k) v
  | stray {c} : Becomes V (.stray c) [c]

/-- What a sequence of pieces becomes. -/
inductive BecomesAll (V : Str → Str → Prop) : List Piece → Str → Prop
  | nil : BecomesAll V [] []
  | cons {p ps a b} (h : Becomes V p a) (t : BecomesAll V ps b) : BecomesAll V (p :: ps) (a ++ b)

/-- The format with white space around it removed. -/
def Stripped (a s : Str) : Prop :=
  ∃ l r, s = l ++ a ++ r ∧ (∀ c ∈ l, c.isWhitespace) ∧ (∀ c ∈ r, c.isWhitespace) ∧
    (∀ c, a.head? = some c → ¬ c.isWhitespace) ∧ ∀ c, a.getLast? = some c → ¬ c.isWhitespace

/-! ### Lemmas on dictionaries -/

private theorem lookup_put (key k v : Str) (m : Tags) :
    lookup key (put k v m) = if k = key then some v else lookup key m := by
  induction m with
  | nil => simp [put, lookup]
  | cons e m ih =>
    obtain ⟨k', x⟩ := e
    rw [put]
    split
    · rename_i h
      subst h
      simp only [lookup]
      split <;> rfl
    · rename_i h
      simp only [lookup, ih]
      split
      · rename_i h'
        rw [if_neg (fun e => h (by rw [e, h']))]
      · rfl

private theorem put_keys (k v : Str) (m : Tags) : ∀ x ∈ (put k v m).map (·.1), x = k ∨ x ∈ m.map (·.1) := by
  induction m with
  | nil => simp [put]
  | cons e m ih =>
    obtain ⟨k', x⟩ := e
    intro y hy
    rw [put] at hy
    split at hy
    · exact .inr hy
    · simp only [List.map_cons, List.mem_cons] at hy ⊢
      rcases hy with rfl | hy
      · exact .inr (.inl rfl)
      · exact (ih y hy).imp_right .inr

private theorem put_nodup (k v : Str) (m : Tags) (h : (m.map (·.1)).Nodup) : ((put k v m).map (·.1)).Nodup := by
  induction m with
  | nil => simp [put]
  | cons e m ih =>
    obtain ⟨k', x⟩ := e
    have h := List.nodup_cons.1 h
    rw [put]
    split
    · exact List.nodup_cons.2 h
    · rename_i hk
      refine List.nodup_cons.2 ⟨fun hm => ?_, ih h.2⟩
      rcases put_keys k v m k' hm with rfl | hm
      · exact hk rfl
      · exact h.1 hm

private theorem mem_iff_lookup (m : Tags) (h : (m.map (·.1)).Nodup) (k v : Str) :
    (k, v) ∈ m ↔ lookup k m = some v := by
  induction m with
  | nil => simp [lookup]
  | cons e m ih =>
    obtain ⟨k', x⟩ := e
    have h := List.nodup_cons.1 h
    rw [lookup]
    split
    · rename_i hk
      subst hk
      simp only [List.mem_cons, Prod.mk.injEq, true_and, Option.some.injEq]
      constructor
      · rintro (rfl | hm)
        · rfl
        · exact absurd (List.mem_map_of_mem (f := (·.1)) hm) h.1
      · rintro rfl; exact .inl rfl
    · rename_i hk
      simp only [List.mem_cons, Prod.mk.injEq]
      rw [← ih h.2]
      constructor
      · rintro (⟨rfl, _⟩ | hm)
        · exact absurd rfl hk
        · exact hm
      · exact .inr

/-! ### Lemmas on the tags -/

/-- The text for a scalar, as a function. -/
private def textOf (L : Lib) : Scalar → Str
  | .null => "none".toList
  | .str s => strTag L s
  | .bool b => if b then "t".toList else "f".toList
  | .num text => text

private theorem tagText_iff (L : Lib) (x : Scalar) (t : Str) : TagText L x t ↔ t = textOf L x := by
  constructor
  · intro h
    cases h with
    | null => rfl
    | true => rfl
    | false => rfl
    | num => rfl
    | short h hl =>
      rename_i s
      have : removeNonWord L s = t := by rw [h]; rfl
      simp only [textOf, strTag, this]
      rw [if_neg (by omega)]
    | long h hl =>
      rename_i s t
      have : removeNonWord L s = t := by rw [h]; rfl
      simp only [textOf, strTag, this]
      rw [if_pos hl]
  · rintro rfl
    cases x with
    | null => exact .null
    | bool b => cases b <;> constructor
    | num => exact .num
    | str s =>
      have : removeNonWord L s = s.filter fun c => c == '-' || c == '_' || L.word c := rfl
      rw [textOf, strTag]
      split
      · exact .long this (by assumption)
      · exact .short this (by omega)

private theorem subpath_eq (path key : Str) :
    subpath path key = if path.isEmpty then key else path ++ ['.'] ++ key := by
  unfold subpath
  cases path <;> simp

private theorem subindex_eq (path : Str) (i : Nat) :
    subindex path i = path ++ ("[" ++ toString i ++ "]").toList := by
  unfold subindex
  simp [String.toList_append]

mutual

private theorem collect_eq (L : Lib) : ∀ (c : Cfg) (path : Str) (tags : Tags),
    collect L c path tags = (leaves c path).foldl (fun m e => put e.1 (textOf L e.2) m) tags
  | .null, _, _ => by rw [collect, leaves]; rfl
  | .str s, _, _ => by rw [collect, leaves]; rfl
  | .bool b, _, _ => by rw [collect, leaves]; rfl
  | .num t, _, _ => by rw [collect, leaves]; rfl
  | .list es, path, tags => by rw [collect, leaves, collectList_eq L es 0 path tags]
  | .dict es, path, tags => by rw [collect, leaves, collectDict_eq L es path tags]

private theorem collectList_eq (L : Lib) : ∀ (es : List Cfg) (i : Nat) (path : Str) (tags : Tags),
    collectList L es i path tags = (leavesList es i path).foldl (fun m e => put e.1 (textOf L e.2) m) tags
  | [], _, _, _ => by rw [collectList, leavesList]; rfl
  | e :: es, i, path, tags => by
    rw [collectList, leavesList, List.foldl_append, subindex_eq, collect_eq L e, collectList_eq L es]

private theorem collectDict_eq (L : Lib) : ∀ (es : List (Str × Cfg)) (path : Str) (tags : Tags),
    collectDict L es path tags = (leavesDict es path).foldl (fun m e => put e.1 (textOf L e.2) m) tags
  | [], _, _ => by rw [collectDict, leavesDict]; rfl
  | e :: es, path, tags => by
    rw [collectDict, leavesDict, List.foldl_append, collectItem_eq L e, collectDict_eq L es]

private theorem collectItem_eq (L : Lib) : ∀ (e : Str × Cfg) (path : Str) (tags : Tags),
    collectItem L e path tags = (leavesItem e path).foldl (fun m e => put e.1 (textOf L e.2) m) tags
  | (k, v), path, tags => by rw [collectItem, leavesItem, subpath_eq, collect_eq L v]

end

private theorem foldl_put_lookup (L : Lib) (ls : List (Str × Scalar)) (hn : (ls.map (·.1)).Nodup) (m : Tags)
    (k v : Str) :
    lookup k (ls.foldl (fun m e => put e.1 (textOf L e.2) m) m) = some v ↔
      (∃ x, (k, x) ∈ ls ∧ v = textOf L x) ∨ (∀ x, (k, x) ∉ ls) ∧ lookup k m = some v := by
  induction ls generalizing m with
  | nil => simp
  | cons e ls ih =>
    obtain ⟨k', x⟩ := e
    have hn := List.nodup_cons.1 hn
    have hno : ∀ y, (k', y) ∉ ls := fun y hy => hn.1 (List.mem_map_of_mem (f := (·.1)) hy)
    rw [List.foldl_cons, ih hn.2, lookup_put]
    by_cases hk : k' = k
    · subst hk
      rw [if_pos rfl]
      constructor
      · rintro (⟨y, hy, _⟩ | ⟨_, h⟩)
        · exact absurd hy (hno y)
        · exact .inl ⟨x, by simp, (Option.some.inj h).symm⟩
      · rintro (⟨y, hy, rfl⟩ | ⟨h, _⟩)
        · rcases List.mem_cons.1 hy with h | h
          · cases h
            exact .inr ⟨hno, rfl⟩
          · exact absurd h (hno y)
        · exact absurd (List.mem_cons_self) (h x)
    · rw [if_neg hk]
      have hm : ∀ y, (k, y) ∈ (k', x) :: ls ↔ (k, y) ∈ ls := fun y =>
        ⟨fun h => (List.mem_cons.1 h).resolve_left fun e => hk (by cases e; rfl), List.mem_cons_of_mem _⟩
      simp only [hm]

private theorem foldl_put_nodup (L : Lib) (ls : List (Str × Scalar)) (m : Tags) (h : (m.map (·.1)).Nodup) :
    ((ls.foldl (fun m e => put e.1 (textOf L e.2) m) m).map (·.1)).Nodup := by
  induction ls generalizing m with
  | nil => exact h
  | cons e ls ih => exact ih _ (put_nodup _ _ _ h)

/-- The tags before the hash. -/
private def base (L : Lib) (ws : Nat) (c : Cfg) : Tags :=
  collect L c [] [("world_size".toList, (toString ws).toList)]

private theorem base_nodup (L : Lib) (ws : Nat) (c : Cfg) : ((base L ws c).map (·.1)).Nodup := by
  rw [base, collect_eq]
  exact foldl_put_nodup L _ _ (by simp)

private theorem base_lookup (L : Lib) (ws : Nat) (c : Cfg) (hd : DistinctPaths c) (k v : Str) :
    lookup k (base L ws c) = some v ↔ HasTag L ws c k v := by
  rw [base, collect_eq, foldl_put_lookup L _ hd]
  constructor
  · rintro (⟨x, hx, rfl⟩ | ⟨hno, h⟩)
    · exact .leaf hx ((tagText_iff L x _).2 rfl)
    · rw [lookup] at h
      split at h
      · rename_i hk
        cases h
        subst hk
        exact .world hno
      · cases h
  · intro h
    cases h with
    | leaf hx ht => exact .inl ⟨_, hx, (tagText_iff L _ _).1 ht⟩
    | world hno => exact .inr ⟨hno, by rw [lookup, if_pos rfl]⟩

/-! ### Lemmas on sorting -/

private theorem insertTag_perm (t : Str × Str) (ts : Tags) : (insertTag t ts).Perm (t :: ts) := by
  induction ts with
  | nil => exact .refl _
  | cons u ts ih =>
    rw [insertTag]
    split
    · exact .refl _
    · exact (ih.cons u).trans (.swap t u ts)

private theorem sortTags_perm (ts : Tags) : (sortTags ts).Perm ts := by
  induction ts with
  | nil => exact .refl _
  | cons t ts ih => exact (insertTag_perm t _).trans (ih.cons t)

private theorem insertTag_sorted (t : Str × Str) (ts : Tags) (h : ts.Pairwise fun a b => a.1 < b.1)
    (hn : t.1 ∉ ts.map (·.1)) : (insertTag t ts).Pairwise fun a b => a.1 < b.1 := by
  induction ts with
  | nil => simp [insertTag]
  | cons u ts ih =>
    have h := List.pairwise_cons.1 h
    simp only [List.map_cons, List.mem_cons, not_or] at hn
    rw [insertTag]
    split
    · rename_i hle
      have hlt : t.1 < u.1 := by
        rcases Std.le_iff_lt_or_eq.1 hle with h | h
        · exact h
        · exact absurd h hn.1
      refine List.pairwise_cons.2 ⟨fun b hb => ?_, List.pairwise_cons.2 h⟩
      rcases List.mem_cons.1 hb with rfl | hb
      · exact hlt
      · exact List.lt_trans hlt (h.1 b hb)
    · rename_i hle
      have hlt : u.1 < t.1 := List.not_le.1 hle
      refine List.pairwise_cons.2 ⟨fun b hb => ?_, ih h.2 hn.2⟩
      rcases List.mem_cons.1 ((insertTag_perm t ts).mem_iff.1 hb) with rfl | hb
      · exact hlt
      · exact h.1 b hb

private theorem sortTags_sorted (ts : Tags) (hn : (ts.map (·.1)).Nodup) :
    (sortTags ts).Pairwise fun a b => a.1 < b.1 := by
  induction ts with
  | nil => exact .nil
  | cons t ts ih =>
    have hn := List.nodup_cons.1 hn
    refine insertTag_sorted t _ (ih hn.2) ?_
    rw [((sortTags_perm ts).map _).mem_iff]
    exact hn.1

private theorem sorted_unique (l l' : Tags) (h : l.Pairwise fun a b => a.1 < b.1)
    (h' : l'.Pairwise fun a b => a.1 < b.1) (hm : ∀ e, e ∈ l ↔ e ∈ l') : l = l' := by
  induction l generalizing l' with
  | nil =>
    cases l' with
    | nil => rfl
    | cons e l' => exact absurd ((hm e).2 (by simp)) List.not_mem_nil
  | cons e l ih =>
    cases l' with
    | nil => exact absurd ((hm e).1 (by simp)) List.not_mem_nil
    | cons e' l' =>
      have h := List.pairwise_cons.1 h
      have h' := List.pairwise_cons.1 h'
      have he : e = e' := by
        rcases List.mem_cons.1 ((hm e).1 (by simp)) with he | he
        · exact he
        · rcases List.mem_cons.1 ((hm e').2 (by simp)) with he' | he'
          · exact he'.symm
          · exact absurd (List.lt_trans (h'.1 e he) (h.1 e' he')) (List.lt_irrefl _)
      subst he
      rw [ih l' h.2 h'.2 fun x => ?_]
      constructor
      · intro hx
        rcases List.mem_cons.1 ((hm x).1 (by simp [hx])) with rfl | hx'
        · exact absurd (h.1 x hx) (List.lt_irrefl _)
        · exact hx'
      · intro hx
        rcases List.mem_cons.1 ((hm x).2 (by simp [hx])) with rfl | hx'
        · exact absurd (h'.1 x hx) (List.lt_irrefl _)
        · exact hx'

private theorem hashText_iff (L : Lib) (ws : Nat) (c : Cfg) (hd : DistinctPaths c) (text : Str) :
    HashText L ws c text ↔ text = hashInput (sortTags (base L ws c)) := by
  have hs := sortTags_sorted _ (base_nodup L ws c)
  have hm : ∀ k v, (k, v) ∈ sortTags (base L ws c) ↔ HasTag L ws c k v := fun k v => by
    rw [(sortTags_perm _).mem_iff, mem_iff_lookup _ (base_nodup L ws c), base_lookup L ws c hd]
  constructor
  · rintro ⟨l, h1, h2, rfl⟩
    rw [sorted_unique l _ h1 hs fun e => by rw [h2, hm], hashInput, List.flatMap_def]
  · rintro rfl
    exact ⟨_, hs, hm, by rw [hashInput, List.flatMap_def]⟩

private theorem allTags_lookup (L : Lib) (ws : Nat) (c : Cfg) (hd : DistinctPaths c) (k v : Str) :
    lookup k (allTags L ws c) = some v ↔ Value L ws c k v := by
  have he : allTags L ws c = put "hash".toList (generateHash L (base L ws c)) (base L ws c) := rfl
  rw [he, lookup_put]
  split
  · rename_i hk
    subst hk
    rw [generateHash]
    constructor
    · rintro ⟨⟩
      exact .hash ((hashText_iff L ws c hd _).2 rfl)
    · intro h
      cases h with
      | hash h => rw [(hashText_iff L ws c hd _).1 h]
      | tag hk _ => exact absurd rfl hk
  · rename_i hk
    rw [base_lookup L ws c hd]
    constructor
    · exact fun h => .tag (fun e => hk e.symm) h
    · intro h
      cases h with
      | hash h => exact absurd rfl hk
      | tag _ h => exact h

/-! ### Lemmas on formats -/

/-- What a piece becomes, as a function; unknown placeholders become themselves. -/
private def out (tags : Tags) : Piece → Str
  | .char c => [c]
  | .opening => ['{']
  | .closing => ['}']
  | .key k => (lookup k tags).getD k
  | .stray c => [c]

private def unk (tags : Tags) : Piece → List Str
  | .key k => if (lookup k tags).isSome then [] else [k]
  | _ => []

private theorem run_append (tags : Tags) (a b : Str) (f : Fmt) :
    run tags (a ++ b) f = match run tags a f with
      | .error e => .error e
      | .ok f => run tags b f := by
  induction a generalizing f with
  | nil => rfl
  | cons c a ih =>
    rw [List.cons_append, run, run]
    cases step tags f c with
    | error e => rfl
    | ok f => exact ih f

private theorem run_key (tags : Tags) (k : Str) (h : '}' ∉ k) (o p : Str) (u : List Str) :
    run tags k ⟨o, p, u, .placeholder⟩ = .ok ⟨o, p ++ k, u, .placeholder⟩ := by
  induction k generalizing p with
  | nil => rw [run, List.append_nil]
  | cons c k ih =>
    simp only [List.mem_cons, not_or] at h
    rw [run]
    have : step tags ⟨o, p, u, .placeholder⟩ c = .ok ⟨o, p ++ [c], u, .placeholder⟩ := by
      simp only [step]
      rw [if_neg (fun e => h.1 e.symm)]
    rw [this]
    simp only
    rw [ih h.2, List.append_assoc]
    rfl

private theorem run_piece (tags : Tags) (p : Piece) (hp : p.Proper) (o : Str) (u : List Str) :
    run tags p.text ⟨o, [], u, .literal⟩ = .ok ⟨o ++ out tags p, [], u ++ unk tags p, .literal⟩ := by
  cases p with
  | char c => simp [Piece.text, run, step, hp.1, hp.2, out, unk]
  | opening => simp [Piece.text, run, step, out, unk]
  | closing => simp [Piece.text, run, step, out, unk]
  | stray c =>
    have hp : c ≠ '}' := hp
    simp [Piece.text, run, step, out, unk, hp]
  | key k =>
    obtain ⟨h1, h2, h3⟩ := hp
    cases k with
    | nil => exact absurd rfl h1
    | cons c k =>
      simp only [List.mem_cons, not_or] at h2
      have hc : c ≠ '{' := fun e => h3 (by rw [e]; rfl)
      have hc' : c ≠ '}' := fun e => h2.1 e.symm
      show run tags ('{' :: c :: (k ++ ['}'])) _ = _
      rw [run]
      simp only [step, if_true]
      rw [run]
      simp only [step, if_neg hc, if_neg hc']
      rw [run_append, run_key _ _ h2.2]
      simp only [run, step, if_true, List.nil_append, List.singleton_append, out, unk]
      cases lookup (c :: k) tags <;> simp

private theorem run_pieces (tags : Tags) (ps : List Piece) (hp : ∀ p ∈ ps, p.Proper) (o : Str)
    (u : List Str) :
    run tags (ps.flatMap Piece.text) ⟨o, [], u, .literal⟩ =
      .ok ⟨o ++ ps.flatMap (out tags), [], u ++ ps.flatMap (unk tags), .literal⟩ := by
  induction ps generalizing o u with
  | nil => simp [run]
  | cons p ps ih =>
    rw [List.flatMap_cons, run_append, run_piece tags p (hp p (by simp))]
    simp only
    rw [ih fun q hq => hp q (by simp [hq])]
    simp

/-- What has been read of the current piece. -/
private def pending (f : Fmt) : Str :=
  match f.state with
  | .literal => []
  | .openingBrace => ['{']
  | .closingBrace => ['}']
  | .placeholder => '{' :: f.placeholder

private def Coherent (f : Fmt) : Prop :=
  match f.state with
  | .placeholder => f.placeholder ≠ [] ∧ '}' ∉ f.placeholder ∧ f.placeholder.head? ≠ some '{'
  | _ => f.placeholder = []

private theorem run_parse (tags : Tags) (s : Str) (f f' : Fmt) (h : run tags s f = .ok f') (hf : Coherent f)
    (hl : f'.state = .literal) :
    ∃ ps : List Piece, (∀ p ∈ ps, p.Proper) ∧ pending f ++ s = ps.flatMap Piece.text := by
  induction s generalizing f with
  | nil =>
    cases h
    refine ⟨[], by simp, ?_⟩
    rw [pending, hl]
    rfl
  | cons c s ih =>
    obtain ⟨o, p, u, st⟩ := f
    rw [run] at h
    cases hs : step tags ⟨o, p, u, st⟩ c with
    | error e => rw [hs] at h; cases h
    | ok g =>
    rw [hs] at h
    change run tags s g = .ok f' at h
    cases st with
    | literal =>
      have hp : p = [] := hf
      subst hp
      simp only [step] at hs
      split at hs
      · rename_i hc
        subst hc
        cases hs
        obtain ⟨ps, h1, h2⟩ := ih _ h rfl
        exact ⟨ps, h1, h2⟩
      · split at hs
        · rename_i hc
          subst hc
          cases hs
          obtain ⟨ps, h1, h2⟩ := ih _ h rfl
          exact ⟨ps, h1, h2⟩
        · rename_i hc hc'
          cases hs
          obtain ⟨ps, h1, h2⟩ := ih _ h rfl
          refine ⟨.char c :: ps, ?_, ?_⟩
          · intro q hq
            rcases List.mem_cons.1 hq with rfl | hq
            · exact ⟨hc, hc'⟩
            · exact h1 q hq
          · rw [List.flatMap_cons, ← h2]; rfl
    | openingBrace =>
      have hp : p = [] := hf
      subst hp
      simp only [step] at hs
      split at hs
      · rename_i hc
        subst hc
        cases hs
        obtain ⟨ps, h1, h2⟩ := ih _ h rfl
        refine ⟨.opening :: ps, ?_, ?_⟩
        · intro q hq
          rcases List.mem_cons.1 hq with rfl | hq
          · trivial
          · exact h1 q hq
        · rw [List.flatMap_cons, ← h2]; rfl
      · split at hs
        · cases hs
        · rename_i hc hc'
          cases hs
          obtain ⟨ps, h1, h2⟩ := ih _ h ⟨by simp, by simpa using fun e => hc' e.symm, by simpa using hc⟩
          exact ⟨ps, h1, h2⟩
    | closingBrace =>
      have hp : p = [] := hf
      subst hp
      simp only [step] at hs
      split at hs
      · rename_i hc
        subst hc
        cases hs
        obtain ⟨ps, h1, h2⟩ := ih _ h rfl
        refine ⟨.closing :: ps, ?_, ?_⟩
        · intro q hq
          rcases List.mem_cons.1 hq with rfl | hq
          · trivial
          · exact h1 q hq
        · rw [List.flatMap_cons, ← h2]; rfl
      · rename_i hc
        cases hs
        obtain ⟨ps, h1, h2⟩ := ih _ h rfl
        refine ⟨.stray c :: ps, ?_, ?_⟩
        · intro q hq
          rcases List.mem_cons.1 hq with rfl | hq
          · exact hc
          · exact h1 q hq
        · rw [List.flatMap_cons, ← h2]; rfl
    | placeholder =>
      obtain ⟨hp1, hp2, hp3⟩ := hf
      simp only [step] at hs
      split at hs
      · rename_i hc
        subst hc
        have hend : ∃ ps : List Piece, (∀ p ∈ ps, p.Proper) ∧ s = ps.flatMap Piece.text := by
          split at hs
          · cases hs
            obtain ⟨ps, h1, h2⟩ := ih _ h rfl
            exact ⟨ps, h1, h2⟩
          · cases hs
            obtain ⟨ps, h1, h2⟩ := ih _ h rfl
            exact ⟨ps, h1, h2⟩
        obtain ⟨ps, h1, h2⟩ := hend
        refine ⟨.key p :: ps, ?_, ?_⟩
        · intro q hq
          rcases List.mem_cons.1 hq with rfl | hq
          · exact ⟨hp1, hp2, hp3⟩
          · exact h1 q hq
        · rw [List.flatMap_cons, ← h2]
          simp [pending, Piece.text]
      · rename_i hc
        cases hs
        obtain ⟨ps, h1, h2⟩ := ih _ h ⟨by simp, by
          simp only [List.mem_append, List.mem_singleton, not_or]
          exact ⟨hp2, fun e => hc e.symm⟩, by
          cases p with
          | nil => exact absurd rfl hp1
          | cons x p => exact hp3⟩
        refine ⟨ps, h1, ?_⟩
        rw [← h2]
        simp [pending]

private theorem becomesAll_iff (V : Str → Str → Prop) (tags : Tags)
    (hV : ∀ k v, lookup k tags = some v ↔ V k v) (ps : List Piece) (o : Str) :
    BecomesAll V ps o ↔ ps.flatMap (unk tags) = [] ∧ o = ps.flatMap (out tags) := by
  have hone : ∀ p a, Becomes V p a ↔ unk tags p = [] ∧ a = out tags p := by
    intro p a
    constructor
    · intro h
      cases h with
      | key h => simp [unk, out, (hV _ _).2 h]
      | _ => exact ⟨rfl, rfl⟩
    · rintro ⟨h1, rfl⟩
      cases p with
      | key k =>
        cases hl : lookup k tags with
        | none => simp [unk, hl] at h1
        | some v => simp only [out, hl, Option.getD_some]; exact .key ((hV _ _).1 hl)
      | _ => constructor
  induction ps generalizing o with
  | nil =>
    constructor
    · rintro ⟨⟩; exact ⟨rfl, rfl⟩
    · rintro ⟨_, rfl⟩; exact .nil
  | cons p ps ih =>
    rw [List.flatMap_cons, List.flatMap_cons, List.append_eq_nil_iff]
    constructor
    · intro h
      cases h with
      | cons h t =>
        obtain ⟨h1, rfl⟩ := (hone _ _).1 h
        obtain ⟨h2, rfl⟩ := (ih _).1 t
        exact ⟨⟨h1, h2⟩, rfl⟩
    · rintro ⟨⟨h1, h2⟩, rfl⟩
      exact .cons ((hone _ _).2 ⟨h1, rfl⟩) ((ih _).2 ⟨h2, rfl⟩)

private theorem safeFormat_ok (V : Str → Str → Prop) (tags : Tags)
    (hV : ∀ k v, lookup k tags = some v ↔ V k v) (fmt o : Str) :
    safeFormat fmt tags = .ok o ↔
      ∃ ps : List Piece, (∀ p ∈ ps, p.Proper) ∧ fmt = (ps.map Piece.text).flatten ∧ BecomesAll V ps o := by
  constructor
  · intro h
    rw [safeFormat] at h
    cases hr : run tags fmt ⟨[], [], [], .literal⟩ with
    | error e => rw [hr] at h; cases h
    | ok f =>
      rw [hr] at h
      change finish f = .ok o at h
      rw [finish] at h
      split at h
      · cases h
      · rename_i hl
        split at h
        · cases h
        · rename_i hu
          cases h
          obtain ⟨ps, h1, h2⟩ := run_parse tags fmt ⟨[], [], [], .literal⟩ f hr rfl (Decidable.not_not.1 hl)
          have h2 : fmt = ps.flatMap Piece.text := h2
          subst h2
          rw [run_pieces tags ps h1] at hr
          cases hr
          exact ⟨ps, h1, by rw [List.flatMap_def],
            (becomesAll_iff V tags hV ps _).2 ⟨by simpa using hu, by simp⟩⟩
  · rintro ⟨ps, h1, rfl, h2⟩
    obtain ⟨h3, rfl⟩ := (becomesAll_iff V tags hV ps _).1 h2
    rw [← List.flatMap_def, safeFormat, run_pieces tags ps h1]
    simp [finish, h3]

private theorem dropWhile_all {p : Char → Bool} (l s : Str) (h : ∀ c ∈ l, p c) :
    (l ++ s).dropWhile p = s.dropWhile p := by
  induction l with
  | nil => rfl
  | cons c l ih =>
    rw [List.cons_append, List.dropWhile_cons, if_pos (h c (by simp)), ih fun c hc => h c (by simp [hc])]

private theorem dropWhile_head {p : Char → Bool} (s : Str) (h : ∀ c, s.head? = some c → ¬ p c) :
    s.dropWhile p = s := by
  cases s with
  | nil => rfl
  | cons c s => rw [List.dropWhile_cons, if_neg (h c rfl)]

private theorem strip_eq {a s : Str} (h : Stripped a s) : strip s = a := by
  obtain ⟨l, r, rfl, hl, hr, h1, h2⟩ := h
  unfold strip
  rw [List.append_assoc, dropWhile_all l _ hl]
  cases a with
  | nil =>
    have : (([] : Str) ++ r).dropWhile Char.isWhitespace = [] := by
      have := dropWhile_all (p := Char.isWhitespace) r [] hr
      simpa using this
    rw [this]
    rfl
  | cons c a =>
    rw [dropWhile_head (c :: a ++ r) (fun x hx => h1 x hx), List.reverse_append,
      dropWhile_all _ _ (fun c hc => hr c (List.mem_reverse.1 hc)), dropWhile_head, List.reverse_reverse]
    intro x hx
    rw [List.head?_reverse] at hx
    exact h2 x hx

/-! ### Lemmas on reordering -/

private theorem leavesDict_perm (path : Str) (es es' : List (Str × Cfg)) (h : es.Perm es') :
    (leavesDict es path).Perm (leavesDict es' path) := by
  induction h with
  | nil => exact .refl _
  | cons e _ ih => rw [leavesDict, leavesDict]; exact ih.append_left _
  | swap e e' es =>
    simp only [leavesDict, ← List.append_assoc]
    exact List.perm_append_comm.append_right _
  | trans _ _ h1 h2 => exact h1.trans h2

mutual

private theorem leaves_perm : ∀ {c c' : Cfg}, Reordered c c' → ∀ path, (leaves c path).Perm (leaves c' path)
  | _, _, .refl, _ => .refl _
  | _, _, .list h, path => by rw [leaves, leaves]; exact leavesList_perm h 0 path
  | _, _, .dict h hp, path => by
    rw [leaves, leaves]
    exact (leavesDict_perm' h path).trans (leavesDict_perm path _ _ hp)

private theorem leavesList_perm : ∀ {es es' : List Cfg}, ReorderedList es es' → ∀ i path,
    (leavesList es i path).Perm (leavesList es' i path)
  | _, _, .nil, _, _ => .refl _
  | _, _, .cons h t, i, path => by
    rw [leavesList, leavesList]
    exact (leaves_perm h _).append (leavesList_perm t _ _)

private theorem leavesDict_perm' : ∀ {es es' : List (Str × Cfg)}, ReorderedDict es es' → ∀ path,
    (leavesDict es path).Perm (leavesDict es' path)
  | _, _, .nil, _ => .refl _
  | _, _, .cons h t, path => by
    rw [leavesDict, leavesDict, leavesItem, leavesItem]
    exact (leaves_perm h _).append (leavesDict_perm' t _)

end

private theorem hasTag_congr (L : Lib) (ws : Nat) (c c' : Cfg) (h : ∀ e, e ∈ leaves c [] ↔ e ∈ leaves c' [])
    (k v : Str) : HasTag L ws c k v ↔ HasTag L ws c' k v := by
  constructor
  · intro hk
    cases hk with
    | leaf hx ht => exact .leaf ((h _).1 hx) ht
    | world hn => exact .world fun x hx => hn x ((h _).2 hx)
  · intro hk
    cases hk with
    | leaf hx ht => exact .leaf ((h _).2 hx) ht
    | world hn => exact .world fun x hx => hn x ((h _).1 hx)

private theorem step_congr (t t' : Tags) (h : ∀ k, lookup k t = lookup k t') (f : Fmt) (c : Char) :
    step t f c = step t' f c := by
  unfold step
  rw [h]

private theorem safeFormat_congr (t t' : Tags) (h : ∀ k, lookup k t = lookup k t') (fmt : Str) :
    safeFormat fmt t = safeFormat fmt t' := by
  have : ∀ (s : Str) (f : Fmt), run t s f = run t' s f := by
    intro s
    induction s with
    | nil => intro f; rfl
    | cons c s ih =>
      intro f
      rw [run, run, step_congr t t' h]
      split
      · rfl
      · exact ih _
  unfold safeFormat
  rw [this]

/-! ### Lemmas on the text that is hashed -/

private theorem hashText_exists (L : Lib) (ws : Nat) (c : Cfg) (hd : DistinctPaths c) :
    ∃ x, HashText L ws c x := ⟨_, (hashText_iff L ws c hd _).2 rfl⟩

/-- A sorted list has one value for a key. -/
private theorem sorted_value {l : Tags} (h : l.Pairwise fun a b => a.1 < b.1) {k v v' : Str} (h1 : (k, v) ∈ l)
    (h2 : (k, v') ∈ l) : v = v' := by
  induction l with
  | nil => cases h1
  | cons e l ih =>
    have h := List.pairwise_cons.1 h
    rcases List.mem_cons.1 h1 with e1 | m1 <;> rcases List.mem_cons.1 h2 with e2 | m2
    · rw [← e1] at e2; cases e2; rfl
    · subst e1; exact absurd (h.1 _ m2) (List.lt_irrefl _)
    · subst e2; exact absurd (h.1 _ m1) (List.lt_irrefl _)
    · exact ih h.2 m1 m2

private theorem flatten_one {l l' : Tags} (hs : l.Pairwise fun a b => a.1 < b.1)
    (hs' : l'.Pairwise fun a b => a.1 < b.1) {k v v' : Str} (hv : (k, v) ∈ l) (hv' : (k, v') ∈ l')
    (hne : v ≠ v') (hr : ∀ k2, k2 ≠ k → ∀ w, (k2, w) ∈ l ↔ (k2, w) ∈ l') :
    (l.map fun e => e.1 ++ e.2).flatten ≠ (l'.map fun e => e.1 ++ e.2).flatten := by
  obtain ⟨a, b, rfl⟩ := List.append_of_mem hv
  have hl' : l' = a ++ (k, v') :: b := by
    rw [List.pairwise_append, List.pairwise_cons] at hs
    obtain ⟨h1, ⟨h2, h3⟩, h4⟩ := hs
    refine sorted_unique _ _ hs' ?_ ?_
    · rw [List.pairwise_append, List.pairwise_cons]
      refine ⟨h1, ⟨h2, h3⟩, fun x hx y hy => ?_⟩
      rcases List.mem_cons.1 hy with rfl | hy
      · exact h4 x hx (k, v) (by simp)
      · exact h4 x hx y (by simp [hy])
    · rintro ⟨k2, w⟩
      by_cases hk : k2 = k
      · subst hk
        have ha : ∀ w, (k2, w) ∉ a := fun w hw => absurd (h4 _ hw (k2, v) (by simp)) (List.lt_irrefl _)
        have hb : ∀ w, (k2, w) ∉ b := fun w hw => absurd (h2 _ hw) (List.lt_irrefl _)
        simp only [List.mem_append, List.mem_cons, ha w, hb w, or_false, false_or, Prod.mk.injEq, true_and]
        exact ⟨fun h => sorted_value hs' h hv', fun h => h ▸ hv'⟩
      · rw [← hr k2 hk w]
        simp [hk]
  subst hl'
  simp only [List.map_append, List.map_cons, List.flatten_append, List.flatten_cons]
  intro h
  have h := List.append_cancel_left h
  have h := List.append_cancel_right h
  exact hne (List.append_cancel_left h)

private theorem flatten_lengths (l l' : Tags) (hk : l.map (·.1) = l'.map (·.1))
    (hl : ∀ k v v', (k, v) ∈ l → (k, v') ∈ l' → v.length = v'.length)
    (h : (l.map fun e => e.1 ++ e.2).flatten = (l'.map fun e => e.1 ++ e.2).flatten) : l = l' := by
  induction l generalizing l' with
  | nil => cases l' with
    | nil => rfl
    | cons => cases hk
  | cons e l ih =>
    cases l' with
    | nil => cases hk
    | cons e' l' =>
      obtain ⟨k, v⟩ := e
      obtain ⟨k', v'⟩ := e'
      simp only [List.map_cons, List.cons.injEq] at hk
      obtain ⟨rfl, hk⟩ := hk
      simp only [List.map_cons, List.flatten_cons] at h
      have hlen := hl k v v' (by simp) (by simp)
      obtain ⟨h1, h2⟩ := List.append_inj h (by simp [hlen])
      rw [List.append_cancel_left h1, ih l' hk (fun k v v' h h' => hl k v v' (by simp [h]) (by simp [h'])) h2]

private theorem sorted_keys (l l' : Tags) (h : l.Pairwise fun a b => a.1 < b.1)
    (h' : l'.Pairwise fun a b => a.1 < b.1) (hm : ∀ k, (∃ v, (k, v) ∈ l) ↔ ∃ v, (k, v) ∈ l') :
    l.map (·.1) = l'.map (·.1) := by
  have key : ∀ l : Tags, l.map (·.1) = (l.map fun e => (e.1, ([] : Str))).map (·.1) := by
    intro l; simp
  rw [key l, key l', sorted_unique (l.map fun e => (e.1, ([] : Str))) (l'.map fun e => (e.1, ([] : Str)))]
  · exact List.pairwise_map.2 h
  · exact List.pairwise_map.2 h'
  · rintro ⟨k, w⟩
    simp only [List.mem_map, Prod.exists, Prod.mk.injEq]
    have := hm k
    constructor
    · rintro ⟨k2, v, hv, rfl, rfl⟩
      obtain ⟨v', hv'⟩ := this.1 ⟨v, hv⟩
      exact ⟨k2, v', hv', rfl, rfl⟩
    · rintro ⟨k2, v, hv, rfl, rfl⟩
      obtain ⟨v', hv'⟩ := this.2 ⟨v, hv⟩
      exact ⟨k2, v', hv', rfl, rfl⟩

/-- With the hash at the end of the format, equal tags have equal hashes. -/
private theorem same_hash (L : Lib) (h8 : ∀ s, (L.sha s).length = 8) (ws : Nat) (c c' : Cfg)
    (hd : DistinctPaths c) (hd' : DistinctPaths c') {ps : List Piece} (hp : ∀ p ∈ ps, p.Proper) {fmt : Str}
    (hf : Stripped ((ps.map Piece.text).flatten ++ "{hash}".toList) fmt) {o : Str}
    (h : generate L ws fmt c = .ok o) (h' : generate L ws fmt c' = .ok o) {x x' : Str}
    (hx : HashText L ws c x) (hx' : HashText L ws c' x') : L.sha x = L.sha x' := by
  have hne : (ps.map Piece.text).flatten ++ "{hash}".toList ≠ [] := by
    intro h
    exact absurd (List.append_eq_nil_iff.1 h).2 (by decide)
  have hall : ∀ p ∈ ps ++ [.key "hash".toList], Piece.Proper p := by
    intro p hpm
    rcases List.mem_append.1 hpm with h | h
    · exact hp p h
    · rw [List.mem_singleton] at h
      subst h
      exact ⟨by decide, by decide, by decide⟩
  have htext : (ps.map Piece.text).flatten ++ "{hash}".toList =
      (ps ++ [Piece.key "hash".toList]).flatMap Piece.text := by
    rw [List.flatMap_append, List.flatMap_def]
    rfl
  have hend : ∀ (c : Cfg), DistinctPaths c → ∀ x, HashText L ws c x → generate L ws fmt c = .ok o →
      ∃ a, o = a ++ L.sha x := by
    intro c hd x hx h
    rw [generate, strip_eq hf, if_neg hne, htext, safeFormat, run_pieces _ _ hall] at h
    simp only [finish, ne_eq, not_true_eq_false, if_false, List.nil_append] at h
    split at h
    · cases h
    · cases h
      refine ⟨ps.flatMap (out (allTags L ws c)), ?_⟩
      have hl : lookup "hash".toList (allTags L ws c) = some (L.sha x) :=
        (allTags_lookup L ws c hd _ _).2 (.hash hx)
      rw [List.flatMap_append]
      simp only [List.flatMap_cons, List.flatMap_nil, List.append_nil, out, hl, Option.getD_some]
  obtain ⟨a, ha⟩ := hend c hd x hx h
  obtain ⟨a', ha'⟩ := hend c' hd' x' hx' h'
  rw [ha] at ha'
  exact (List.append_inj' ha' (by rw [h8, h8])).2

/-! ### The properties -/

/-- The tag is the format with its placeholders replaced by the texts for the paths and by the hash, and there
is one exactly if the format is a sequence of pieces and all its placeholders have values. -/
theorem C67_format {L : Lib} {ws : Nat} {c : Cfg} (hd : DistinctPaths c) {fmt f : Str} (hf : Stripped f fmt)
    (hne : f ≠ []) (o : Str) :
    generate L ws fmt c = .ok o ↔
      ∃ ps : List Piece, (∀ p ∈ ps, p.Proper) ∧ f = (ps.map Piece.text).flatten ∧
        BecomesAll (Value L ws c) ps o := by
  rw [generate, strip_eq hf, if_neg hne]
  exact safeFormat_ok _ _ (allTags_lookup L ws c hd) f o

/-- The tag does not depend on the order of keys, provided that different values have different paths. -/
theorem C67_key_order_partial (L : Lib) (ws : Nat) (fmt : Str) {c c' : Cfg} (hd : DistinctPaths c)
    (h : Reordered c c') : generate L ws fmt c = generate L ws fmt c' := by
  have hp := leaves_perm h []
  have hd' : DistinctPaths c' := (hp.map _).nodup_iff.1 hd
  have ht := hasTag_congr L ws c c' (fun e => hp.mem_iff)
  have hv : ∀ k v, Value L ws c k v ↔ Value L ws c' k v := by
    have hx : ∀ x, HashText L ws c x ↔ HashText L ws c' x := by
      intro x
      unfold HashText
      simp only [ht]
    intro k v
    constructor
    · intro h
      cases h with
      | hash h => exact .hash ((hx _).1 h)
      | tag hk h => exact .tag hk ((ht _ _).1 h)
    · intro h
      cases h with
      | hash h => exact .hash ((hx _).2 h)
      | tag hk h => exact .tag hk ((ht _ _).2 h)
  unfold generate
  rw [safeFormat_congr]
  intro k
  apply Option.ext
  intro v
  rw [allTags_lookup L ws c hd, allTags_lookup L ws c' hd', hv]

/-- Two configurations whose texts differ for exactly one path hash different texts. Hence, with a format that
ends with the hash, they have different tags unless the truncated hash of these two texts is the same. -/
theorem C67_one_change_partial {L : Lib} (h8 : ∀ s, (L.sha s).length = 8) {ws : Nat} {c c' : Cfg}
    (hd : DistinctPaths c) (hd' : DistinctPaths c') {k v v' : Str} (hv : HasTag L ws c k v)
    (hv' : HasTag L ws c' k v') (hne : v ≠ v')
    (hr : ∀ k2, k2 ≠ k → ∀ w, HasTag L ws c k2 w ↔ HasTag L ws c' k2 w) :
    ∃ x x', HashText L ws c x ∧ HashText L ws c' x' ∧ x ≠ x' ∧
      ∀ (ps : List Piece) (fmt o : Str), (∀ p ∈ ps, p.Proper) →
        Stripped ((ps.map Piece.text).flatten ++ "{hash}".toList) fmt →
        generate L ws fmt c = .ok o → generate L ws fmt c' = .ok o → L.sha x = L.sha x' := by
  obtain ⟨x, hx⟩ := hashText_exists L ws c hd
  obtain ⟨x', hx'⟩ := hashText_exists L ws c' hd'
  refine ⟨x, x', hx, hx', ?_, fun ps fmt o hp hf h h' => same_hash L h8 ws c c' hd hd' hp hf h h' hx hx'⟩
  obtain ⟨l, h1, h2, rfl⟩ := hx
  obtain ⟨l', h1', h2', rfl⟩ := hx'
  exact flatten_one h1 h1' ((h2 _ _).2 hv) ((h2' _ _).2 hv') hne fun k2 hk w => by rw [h2, h2', hr k2 hk]

/-- The same for two configurations that have the same paths, with texts of the same lengths, and whose texts
differ for some path. -/
theorem C67_same_lengths_partial {L : Lib} (h8 : ∀ s, (L.sha s).length = 8) {ws : Nat} {c c' : Cfg}
    (hd : DistinctPaths c) (hd' : DistinctPaths c')
    (hk : ∀ k, (∃ v, HasTag L ws c k v) ↔ ∃ v, HasTag L ws c' k v)
    (hl : ∀ k v v', HasTag L ws c k v → HasTag L ws c' k v' → v.length = v'.length)
    {k v v' : Str} (hv : HasTag L ws c k v) (hv' : HasTag L ws c' k v') (hne : v ≠ v') :
    ∃ x x', HashText L ws c x ∧ HashText L ws c' x' ∧ x ≠ x' ∧
      ∀ (ps : List Piece) (fmt o : Str), (∀ p ∈ ps, p.Proper) →
        Stripped ((ps.map Piece.text).flatten ++ "{hash}".toList) fmt →
        generate L ws fmt c = .ok o → generate L ws fmt c' = .ok o → L.sha x = L.sha x' := by
  obtain ⟨x, hx⟩ := hashText_exists L ws c hd
  obtain ⟨x', hx'⟩ := hashText_exists L ws c' hd'
  refine ⟨x, x', hx, hx', ?_, fun ps fmt o hp hf h h' => same_hash L h8 ws c c' hd hd' hp hf h h' hx hx'⟩
  obtain ⟨l, h1, h2, rfl⟩ := hx
  obtain ⟨l', h1', h2', rfl⟩ := hx'
  intro he
  have hkeys := sorted_keys l l' h1 h1' fun k => by simp only [h2, h2', hk]
  have := flatten_lengths l l' hkeys (fun k v v' h h' => hl k v v' ((h2 _ _).1 h) ((h2' _ _).1 h')) he
  subst this
  exact hne (sorted_value h1 ((h2 _ _).2 hv) ((h2' _ _).2 hv'))

/-! ### Examples -/

private def st (x : String) : Str := x.toList

/-- A library for the examples: every character is part of words, and hashes are the first eight characters. -/
private def lib8 : Lib := ⟨fun c => c.isAlphanum, fun s => (s ++ List.replicate 8 '0').take 8⟩

private def two' (a b : Cfg) : Cfg := .dict [(st "lr", a), (st "model", .dict [(st "depth", b)])]

private theorem stripped_self (a : Str) (h1 : ∀ c, a.head? = some c → ¬ c.isWhitespace)
    (h2 : ∀ c, a.getLast? = some c → ¬ c.isWhitespace) : Stripped a a :=
  ⟨[], [], by simp, by simp, by simp, h1, h2⟩

private theorem two'_distinct (a b : Str) : DistinctPaths (two' (.num a) (.num b)) := by
  show [st "lr", st "model.depth"].Nodup
  decide

example : ∃ ps : List Piece, (∀ p ∈ ps, p.Proper) ∧ st "d{model.depth}" = (ps.map Piece.text).flatten ∧
    BecomesAll (Value lib8 4 (two' (.num (st "0.1")) (.num (st "2")))) ps (st "d2") :=
  (C67_format (two'_distinct _ _) (stripped_self _ (by decide) (by decide)) (by decide) _).1 (by rfl)

example : generate lib8 4 (st "{hash}") (two' (.num (st "0.1")) (.num (st "2"))) =
    generate lib8 4 (st "{hash}")
      (.dict [(st "model", .dict [(st "depth", .num (st "2"))]), (st "lr", .num (st "0.1"))]) :=
  C67_key_order_partial lib8 4 _ (two'_distinct _ _) (.dict (.cons .refl (.cons .refl .nil)) (.swap _ _ _))

private theorem two'_hasTag (a b k v : Str) (h : HasTag lib8 4 (two' (.num a) (.num b)) k v) :
    k = st "lr" ∧ v = a ∨ k = st "model.depth" ∧ v = b ∨ k = st "world_size" ∧ v = st "4" := by
  cases h with
  | leaf h ht =>
    have h : _ ∈ [(st "lr", Scalar.num a), (st "model.depth", Scalar.num b)] := h
    simp only [List.mem_cons, List.not_mem_nil, or_false, Prod.mk.injEq] at h
    rcases h with ⟨rfl, rfl⟩ | ⟨rfl, rfl⟩ <;> cases ht
    · exact .inl ⟨rfl, rfl⟩
    · exact .inr (.inl ⟨rfl, rfl⟩)
  | world h => exact .inr (.inr ⟨rfl, rfl⟩)

private theorem two'_tags (a b : Str) : HasTag lib8 4 (two' (.num a) (.num b)) (st "lr") a ∧
    HasTag lib8 4 (two' (.num a) (.num b)) (st "model.depth") b ∧
    HasTag lib8 4 (two' (.num a) (.num b)) (st "world_size") (st "4") := by
  have hl : leaves (two' (.num a) (.num b)) [] = [(st "lr", .num a), (st "model.depth", .num b)] := rfl
  refine ⟨.leaf (by rw [hl]; simp) .num, .leaf (by rw [hl]; simp) .num, .world fun x hx => ?_⟩
  rw [hl] at hx
  simp only [List.mem_cons, List.not_mem_nil, or_false, Prod.mk.injEq] at hx
  rcases hx with ⟨h, _⟩ | ⟨h, _⟩ <;> exact absurd h (by decide)

example := C67_one_change_partial (L := lib8) (by intro s; simp [lib8]) (two'_distinct (st "1") (st "2"))
  (two'_distinct (st "10") (st "2")) (two'_tags (st "1") (st "2")).1 (two'_tags (st "10") (st "2")).1 (by decide)
  (fun k hk w => by
    constructor
    · intro h
      rcases two'_hasTag _ _ _ _ h with ⟨rfl, rfl⟩ | ⟨rfl, rfl⟩ | ⟨rfl, rfl⟩
      · exact absurd rfl hk
      · exact (two'_tags _ _).2.1
      · exact (two'_tags _ _).2.2
    · intro h
      rcases two'_hasTag _ _ _ _ h with ⟨rfl, rfl⟩ | ⟨rfl, rfl⟩ | ⟨rfl, rfl⟩
      · exact absurd rfl hk
      · exact (two'_tags _ _).2.1
      · exact (two'_tags _ _).2.2)

example := C67_same_lengths_partial (L := lib8) (by intro s; simp [lib8]) (two'_distinct (st "1") (st "2"))
  (two'_distinct (st "3") (st "4"))
  (fun k => by
    constructor
    · rintro ⟨v, h⟩
      rcases two'_hasTag _ _ _ _ h with ⟨rfl, rfl⟩ | ⟨rfl, rfl⟩ | ⟨rfl, rfl⟩
      · exact ⟨_, (two'_tags _ _).1⟩
      · exact ⟨_, (two'_tags _ _).2.1⟩
      · exact ⟨_, (two'_tags _ _).2.2⟩
    · rintro ⟨v, h⟩
      rcases two'_hasTag _ _ _ _ h with ⟨rfl, rfl⟩ | ⟨rfl, rfl⟩ | ⟨rfl, rfl⟩
      · exact ⟨_, (two'_tags _ _).1⟩
      · exact ⟨_, (two'_tags _ _).2.1⟩
      · exact ⟨_, (two'_tags _ _).2.2⟩)
  (fun k v v' h h' => by
    rcases two'_hasTag _ _ _ _ h with ⟨rfl, rfl⟩ | ⟨rfl, rfl⟩ | ⟨rfl, rfl⟩ <;>
      rcases two'_hasTag _ _ _ _ h' with ⟨h', rfl⟩ | ⟨h', rfl⟩ | ⟨h', rfl⟩ <;>
      first
        | rfl
        | exact absurd h' (by decide))
  (two'_tags (st "1") (st "2")).1 (two'_tags (st "3") (st "4")).1 (by decide)

/-! ### Disagreements -/

/-- The order of keys decides when two values have the same path. -/
theorem C67_order :
    ∃ (L : Lib) (fmt : Str) (c c' : Cfg), Reordered c c' ∧ generate L 1 fmt c = .ok (st "2") ∧
      generate L 1 fmt c' = .ok (st "1") :=
  ⟨lib8, st "{a.b}", .dict [(st "a.b", .num (st "1")), (st "a", .dict [(st "b", .num (st "2"))])],
    .dict [(st "a", .dict [(st "b", .num (st "2"))]), (st "a.b", .num (st "1"))],
    .dict (.cons .refl (.cons .refl .nil)) (.swap _ _ _), by rfl, by rfl⟩

/-- Strings that differ only in characters that are not part of words give the same tag with every format. -/
theorem C67_removed_characters (L : Lib) (hw : L.word ' ' = false) (ws : Nat) (fmt : Str) :
    generate L ws fmt (.dict [(st "a", .str (st "x y"))]) = generate L ws fmt (.dict [(st "a", .str (st "xy"))]) := by
  have : strTag L (st "x y") = strTag L (st "xy") := by
    have : removeNonWord L (st "x y") = removeNonWord L (st "xy") := by
      simp [removeNonWord, st, List.filter_cons, hw]
    unfold strTag
    rw [this]
  unfold generate allTags
  simp only [collect, collectDict, collectItem, this]

/-- Values of different types give the same tag with every format: `None` and `"none"`, `True` and `"t"`, `1`
and `"1"`. -/
theorem C67_types (L : Lib) (hw : ∀ c, c.isAlphanum → L.word c) (ws : Nat) (fmt : Str) :
    generate L ws fmt (.dict [(st "a", .null)]) = generate L ws fmt (.dict [(st "a", .str (st "none"))]) ∧
    generate L ws fmt (.dict [(st "a", .bool true)]) = generate L ws fmt (.dict [(st "a", .str (st "t"))]) ∧
    generate L ws fmt (.dict [(st "a", .num (st "1"))]) = generate L ws fmt (.dict [(st "a", .str (st "1"))]) := by
  have h1 : strTag L (st "none") = st "none" := by
    have : removeNonWord L (st "none") = st "none" := by
      simp [removeNonWord, st, hw 'n' rfl, hw 'o' rfl, hw 'e' rfl]
    unfold strTag; rw [this]; rfl
  have h2 : strTag L (st "t") = st "t" := by
    have : removeNonWord L (st "t") = st "t" := by simp [removeNonWord, st, hw 't' rfl]
    unfold strTag; rw [this]; rfl
  have h3 : strTag L (st "1") = st "1" := by
    have : removeNonWord L (st "1") = st "1" := by simp [removeNonWord, st, hw '1' rfl]
    unfold strTag; rw [this]; rfl
  unfold generate allTags
  simp only [collect, collectDict, collectItem, h1, h2, h3]
  exact ⟨rfl, rfl, trivial⟩

/-- Empty lists and dictionaries leave no trace in the tag. -/
theorem C67_empty (L : Lib) (ws : Nat) (fmt : Str) :
    generate L ws fmt (.dict [(st "a", .list [])]) = generate L ws fmt (.dict []) ∧
    generate L ws fmt (.dict [(st "a", .dict [])]) = generate L ws fmt (.dict []) := ⟨rfl, rfl⟩

/-- Paths and texts are hashed one after the other without anything between them, so that configurations with
different texts for the same paths hash the same text: they share the directory of the default format. -/
theorem C67_hash_text (L : Lib) (hw : ∀ c, c.isAlphanum → L.word c) (ws : Nat) :
    ∃ c c' : Cfg, HasTag L ws c (st "a") (st "x") ∧ HasTag L ws c' (st "a") (st "xby") ∧
      generate L ws (st "ws_{world_size}.{hash}") c = generate L ws (st "ws_{world_size}.{hash}") c' := by
  have hx : ∀ s : Str, (∀ c ∈ s, c.isAlphanum) → s.length < 16 → strTag L s = s := by
    intro s hs hl
    have : removeNonWord L s = s := by
      unfold removeNonWord
      rw [List.filter_eq_self]
      intro c hc
      simp [hw c (hs c hc)]
    unfold strTag
    rw [this, if_neg (by omega)]
  have h1 := hx (st "x") (by decide) (by decide)
  have h2 := hx (st "yb") (by decide) (by decide)
  have h3 := hx (st "xby") (by decide) (by decide)
  have h4 := hx [] (by decide) (by decide)
  have hl : ∀ a b : Str, leaves (.dict [(st "a", .str a), (st "b", .str b)]) [] =
      [(st "a", .str a), (st "b", .str b)] := fun _ _ => rfl
  refine ⟨.dict [(st "a", .str (st "x")), (st "b", .str (st "yb"))],
    .dict [(st "a", .str (st "xby")), (st "b", .str [])], .leaf (x := .str (st "x")) (by rw [hl]; simp) ((tagText_iff L _ _).2 h1.symm),
    .leaf (x := .str (st "xby")) (by rw [hl]; simp) ((tagText_iff L _ _).2 h3.symm), ?_⟩
  unfold generate allTags
  simp only [collect, collectDict, collectItem, h1, h2, h3, h4]
  have key : ∀ (a b w : Str), sortTags (put (subpath [] (st "b")) b (put (subpath [] (st "a")) a
      [("world_size".toList, w)])) = [(st "a", a), (st "b", b), (st "world_size", w)] := fun _ _ _ => rfl
  have hh : ∀ w, generateHash L (put (subpath [] (st "b")) (st "yb") (put (subpath [] (st "a")) (st "x")
      [("world_size".toList, w)])) = generateHash L (put (subpath [] (st "b")) [] (put (subpath [] (st "a"))
      (st "xby") [("world_size".toList, w)])) := by
    intro w
    rw [generateHash, generateHash, key, key]
    rfl
  rw [hh]
  rfl

/-- A value of the name `world_size` in the configuration hides the number of processes. -/
theorem C67_world_size (L : Lib) (ws ws' : Nat) (fmt text : Str) :
    generate L ws fmt (.dict [(st "world_size", .num text)]) =
      generate L ws' fmt (.dict [(st "world_size", .num text)]) := rfl

/-- A single closing brace is dropped silently. -/
theorem C67_stray_brace (L : Lib) (ws : Nat) (c : Cfg) :
    generate L ws (st "a}b") c = .ok (st "ab") := rfl

end Fs2.Props
