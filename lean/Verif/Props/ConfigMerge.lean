import Verif.Utils.Config

/-!
Property C64: merging overrides into a configuration.
-/

namespace Fs2.Props

open Fs2.Config

/-! ### Specification -/

/-- Dictionaries have every key once, at all levels. -/
inductive ProperVal : Val → Prop where
  | null : ProperVal .null
  | str (s : String) : ProperVal (.str s)
  | num (n : Int) : ProperVal (.num n)
  | list (l : List Val) : (∀ v ∈ l, ProperVal v) → ProperVal (.list l)
  | map (es : Entries) : (es.map (·.1)).Nodup → (∀ e ∈ es, ProperVal e.2) → ProperVal (.map es)

/-- The value is a dictionary. -/
def IsMap : Val → Prop
  | .map _ => True
  | _ => False

/-- The overrides set a key through `_set_`. -/
def Sets (s : Entries) (k : Key) (v : Val) : Prop := ∃ es, lookup (.str "_set_") s = some (.map es) ∧ lookup k es = some v

/-- The overrides delete a key through `_del_`. -/
def Deletes (s : Entries) (k : Key) : Prop :=
  ∃ l x, lookup (.str "_del_") s = some (.list l) ∧ Val.str x ∈ l ∧ k = .str x

/-- The overrides have a value for a key. -/
def Overrides (s : Entries) (k : Key) (v : Val) : Prop :=
  k ≠ .str "_del_" ∧ k ≠ .str "_set_" ∧ lookup k s = some v

/-- The value at a path of keys. -/
def at? : List Key → Val → Option Val
  | [], v => some v
  | k :: p, .map es => (lookup k es).bind (at? p)
  | _ :: _, _ => none

/-- The overrides mention something on the way to the path, or at it. -/
def Touches : Val → List Key → Prop
  | .map s, k :: p => (∃ v, Sets s k v) ∨ Deletes s k ∨ ∃ v, Overrides s k v ∧ Touches v p
  | _, _ => True

/-- The overrides ask for a value at a path. -/
def Asks : Val → List Key → Val → Prop
  | o, [], v => ¬ IsMap o ∧ o = v
  | .map s, k :: p, v =>
    (∃ x, Sets s k x ∧ at? p x = some v) ∨ (¬ (∃ x, Sets s k x) ∧ ∃ x, Overrides s k x ∧ Asks x p v)
  | _, _ :: _, _ => False

/-- The overrides delete what is at a path, and put nothing in its place. -/
def Removes : Val → List Key → Prop
  | .map s, k :: p =>
    ¬ (∃ x, Sets s k x) ∧ ((Deletes s k ∧ ¬ ∃ x, Overrides s k x) ∨ ∃ x, Overrides s k x ∧ Removes x p)
  | _, _ => False

/-- The overrides are malformed: a `_del_` that is not a list of strings, or a `_set_` that is not a mapping
of strings, at some level. -/
inductive Malformed : Val → Prop where
  | del (s : Entries) (v : Val) : lookup (.str "_del_") s = some v → v ≠ .null →
      (¬ ∃ names : List String, v = .list (names.map .str)) → Malformed (.map s)
  | set (s : Entries) (v : Val) : lookup (.str "_set_") s = some v → v ≠ .null →
      (¬ ∃ es : Entries, v = .map es ∧ ∀ e ∈ es, ∃ x, e.1 = .str x) → Malformed (.map s)
  | nested (s : Entries) (k : Key) (v : Val) : Overrides s k v → Malformed v → Malformed (.map s)

/-- What can be seen of a value without the order of keys: a dictionary shows only that it is one. -/
def view : Option Val → Option Val
  | some (.map _) => some (.map [])
  | v => v

/-! ### Lemmas -/

private theorem get_put (k key : Key) (v : Val) (es : Entries) :
    lookup k (put key v es) = if key = k then some v else lookup k es := by
  induction es with
  | nil => rfl
  | cons e es ih =>
    obtain ⟨a, b⟩ := e
    unfold put
    by_cases h : a = key
    · subst h
      simp only [if_true, lookup]
      by_cases h2 : a = k <;> simp [h2]
    · simp only [h, if_false, lookup]
      by_cases h2 : a = k
      · subst h2
        simp [Ne.symm h]
      · simp [h2, ih]

private theorem get_mem {k : Key} {v : Val} {es : Entries} (h : lookup k es = some v) : (k, v) ∈ es := by
  induction es with
  | nil => cases h
  | cons e es ih =>
    obtain ⟨a, b⟩ := e
    unfold lookup at h
    split at h
    · rename_i hk
      cases h
      subst hk
      simp
    · exact List.mem_cons_of_mem _ (ih h)

private theorem get_of_mem {k : Key} {v : Val} {es : Entries} (hnd : (es.map (·.1)).Nodup) (h : (k, v) ∈ es) :
    lookup k es = some v := by
  induction es with
  | nil => cases h
  | cons e es ih =>
    obtain ⟨a, b⟩ := e
    rw [List.map_cons, List.nodup_cons] at hnd
    unfold lookup
    rcases List.mem_cons.mp h with h | h
    · cases h
      simp
    · split
      · rename_i hk
        subst hk
        exact absurd (List.mem_map_of_mem (f := (·.1)) h) hnd.1
      · exact ih hnd.2 h

private theorem get_filter (k : Key) (l : List Key) (es : Entries) :
    lookup k (es.filter fun e => e.1 ∉ l) = if k ∈ l then none else lookup k es := by
  induction es with
  | nil => simp [lookup]
  | cons e es ih =>
    obtain ⟨a, b⟩ := e
    rw [List.filter_cons]
    by_cases h : a ∈ l
    · simp only [h, not_true_eq_false, decide_false, Bool.false_eq_true, if_false]
      rw [ih]
      by_cases hk : k ∈ l
      · simp [hk]
      · have : a ≠ k := fun he => hk (he ▸ h)
        simp [hk, lookup, this]
    · simp only [h, not_false_eq_true, decide_true, if_true, lookup]
      by_cases hak : a = k
      · subst hak
        simp [h]
      · simp only [hak, if_false]; exact ih

private theorem entries_spec (es : Entries) (hnd : (es.map (·.1)).Nodup) (out m : Entries)
    (h : mergeEntries out es = some m) (k : Key) :
    (¬ (∃ v, Overrides es k v) → lookup k m = lookup k out) ∧
    ∀ v, Overrides es k v → ∃ x, mergeVal (lookup k out) v = some x ∧ lookup k m = some x := by
  induction es generalizing out with
  | nil =>
    rw [mergeEntries] at h
    cases h
    refine ⟨fun _ => rfl, ?_⟩
    rintro v ⟨-, -, hv⟩
    cases hv
  | cons e es ih =>
    obtain ⟨a, b⟩ := e
    rw [List.map_cons, List.nodup_cons] at hnd
    rw [mergeEntries] at h
    obtain ⟨out1, h1, h2⟩ := Option.bind_eq_some_iff.mp h
    obtain ⟨i1, i2⟩ := ih hnd.2 out1 h2
    rw [mergeEntry] at h1
    have hshift : ∀ v, a ≠ k → (Overrides ((a, b) :: es) k v ↔ Overrides es k v) := by
      intro v hak
      unfold Overrides
      rw [lookup, if_neg hak]
    have hnot : a = k → ¬ ∃ v, Overrides es k v := by
      rintro rfl ⟨v, -, -, hv⟩
      exact hnd.1 (List.mem_map_of_mem (f := (·.1)) (get_mem hv))
    split at h1
    · rename_i hsp
      cases h1
      by_cases hak : a = k
      · have := hnot hak
        refine ⟨fun _ => i1 this, ?_⟩
        rintro v ⟨n1, n2, -⟩
        subst hak
        rcases hsp with hsp | hsp
        · exact absurd hsp n1
        · exact absurd hsp n2
      · refine ⟨fun hn => i1 ?_, fun v hv => i2 v ((hshift v hak).mp hv)⟩
        rintro ⟨v, hv⟩
        exact hn ⟨v, (hshift v hak).mpr hv⟩
    · rename_i hsp
      obtain ⟨x, hx, hput⟩ := Option.bind_eq_some_iff.mp h1
      cases hput
      by_cases hak : a = k
      · have hno := hnot hak
        subst hak
        have hget := i1 hno
        rw [get_put, if_pos rfl] at hget
        refine ⟨fun hn => ?_, ?_⟩
        · exact absurd ⟨b, fun he => hsp (Or.inl he), fun he => hsp (Or.inr he), by simp [lookup]⟩ hn
        · rintro v ⟨-, -, hv⟩
          rw [lookup, if_pos rfl] at hv
          cases hv
          exact ⟨x, hx, hget⟩
      · rw [get_put, if_neg hak] at i1 i2
        refine ⟨fun hn => i1 ?_, fun v hv => i2 v ((hshift v hak).mp hv)⟩
        rintro ⟨v, hv⟩
        exact hn ⟨v, (hshift v hak).mpr hv⟩

private theorem set_spec (source out m : Entries)
    (hnd : ∀ es, lookup setKey source = some (.map es) → (es.map (·.1)).Nodup)
    (h : applySet source out = some m) (k : Key) :
    (¬ (∃ v, Sets source k v) → lookup k m = lookup k out) ∧ ∀ v, Sets source k v → lookup k m = some v := by
  unfold applySet at h
  have none_case : (∀ es, lookup setKey source ≠ some (.map es)) → m = out →
      (¬ (∃ v, Sets source k v) → lookup k m = lookup k out) ∧ ∀ v, Sets source k v → lookup k m = some v := by
    intro hn he
    subst he
    refine ⟨fun _ => rfl, ?_⟩
    rintro v ⟨es, hes, -⟩
    exact absurd hes (hn es)
  split at h
  · rename_i hg
    exact none_case (by rw [hg]; simp) (Option.some.inj h).symm
  · rename_i hg
    exact none_case (by rw [hg]; simp) (Option.some.inj h).symm
  · rename_i es hg
    have hnd := hnd es hg
    have key : ∀ (es out m : Entries), (es.map (·.1)).Nodup →
        es.foldlM setOne out = some m →
        (lookup k es = none → lookup k m = lookup k out) ∧ ∀ v, lookup k es = some v → lookup k m = some v := by
      intro es
      induction es with
      | nil =>
        intro out m _ h
        rw [List.foldlM_nil] at h
        cases h
        exact ⟨fun _ => rfl, fun v hv => by cases hv⟩
      | cons e es ih =>
        intro out m hnd h
        obtain ⟨a, b⟩ := e
        rw [List.map_cons, List.nodup_cons] at hnd
        rw [List.foldlM_cons] at h
        obtain ⟨out1, h1, h2⟩ := Option.bind_eq_some_iff.mp h
        obtain ⟨i1, i2⟩ := ih out1 m hnd.2 h2
        have hout : out1 = put a b out := by
          cases a with
          | str s => exact (Option.some.inj h1).symm
          | other n => cases h1
        subst hout
        by_cases hak : a = k
        · subst hak
          have hnone : lookup a es = none := by
            cases hg : lookup a es with
            | none => rfl
            | some v => exact absurd (List.mem_map_of_mem (f := (·.1)) (get_mem hg)) hnd.1
          have := i1 hnone
          rw [get_put, if_pos rfl] at this
          refine ⟨fun hn => (by simp [lookup] at hn), fun v hv => ?_⟩
          rw [lookup, if_pos rfl] at hv
          rw [this, hv]
        · rw [get_put, if_neg hak] at i1
          rw [lookup, if_neg hak]
          exact ⟨i1, i2⟩
    obtain ⟨k1, k2⟩ := key es out m hnd h
    refine ⟨fun hn => k1 ?_, ?_⟩
    · cases hg' : lookup k es with
      | none => rfl
      | some v => exact absurd ⟨v, es, hg, hg'⟩ hn
    · rintro v ⟨es', hes', hv⟩
      have he : lookup setKey source = some (.map es') := hes'
      rw [hg] at he
      cases he
      exact k2 v hv
  · cases h

private theorem mapM_asKey (l : List Val) (ks : List Key) (h : l.mapM asKey = some ks) :
    ∃ names : List String, l = names.map .str ∧ ks = names.map .str := by
  induction l generalizing ks with
  | nil =>
    rw [List.mapM_nil] at h
    cases h
    exact ⟨[], rfl, rfl⟩
  | cons v l ih =>
    rw [List.mapM_cons] at h
    obtain ⟨k, hk, h⟩ := Option.bind_eq_some_iff.mp h
    obtain ⟨ks', hks, h⟩ := Option.bind_eq_some_iff.mp h
    cases h
    obtain ⟨names, rfl, rfl⟩ := ih ks' hks
    cases v with
    | str s =>
      cases hk
      exact ⟨s :: names, rfl, rfl⟩
    | null => cases hk
    | num n => cases hk
    | list l => cases hk
    | map es => cases hk

private theorem mapM_strs (names : List String) :
    (names.map Val.str).mapM asKey = some (names.map Key.str) := by
  induction names with
  | nil => rfl
  | cons n names ih =>
    rw [List.map_cons, List.mapM_cons, ih]
    rfl

private theorem del_spec (s : Entries) (ks : List Key) (h : delKeys s = some ks) (k : Key) :
    k ∈ ks ↔ Deletes s k := by
  unfold delKeys at h
  have none_case : (∀ l, lookup delKey s ≠ some (.list l)) → ks = [] → (k ∈ ks ↔ Deletes s k) := by
    intro hn he
    subst he
    refine ⟨fun h => (by cases h), ?_⟩
    rintro ⟨l, x, hl, -⟩
    exact absurd hl (hn l)
  split at h
  · rename_i hg
    exact none_case (by rw [hg]; simp) (Option.some.inj h).symm
  · rename_i hg
    exact none_case (by rw [hg]; simp) (Option.some.inj h).symm
  · rename_i l hg
    obtain ⟨names, rfl, rfl⟩ := mapM_asKey l ks h
    constructor
    · intro hk
      obtain ⟨x, hx, rfl⟩ := List.mem_map.mp hk
      exact ⟨_, x, hg, List.mem_map_of_mem hx, rfl⟩
    · rintro ⟨l', x, hl', hx, rfl⟩
      have he : lookup delKey s = some (.list l') := hl'
      rw [hg] at he
      cases he
      obtain ⟨y, hy, he⟩ := List.mem_map.mp hx
      cases he
      exact List.mem_map_of_mem hy
  · cases h

private theorem map_parts {target : Option Val} {s : Entries} {m : Val} (h : mergeVal target (.map s) = some m) :
    ∃ ks out m', delKeys s = some ks ∧
      mergeEntries ((entriesOf target).filter fun e => e.1 ∉ ks) s = some out ∧
      applySet s out = some m' ∧ m = .map m' := by
  rw [mergeVal] at h
  obtain ⟨ks, h1, h⟩ := Option.bind_eq_some_iff.mp h
  obtain ⟨out, h2, h⟩ := Option.bind_eq_some_iff.mp h
  obtain ⟨m', h3, h⟩ := Option.bind_eq_some_iff.mp h
  cases h
  exact ⟨ks, out, m', h1, h2, h3, rfl⟩

private theorem proper_set {s : Entries} (hp : ProperVal (.map s)) (es : Entries)
    (h : lookup setKey s = some (.map es)) : (es.map (·.1)).Nodup := by
  cases hp with
  | map _ _ hb =>
    have := hb _ (get_mem h)
    cases this with
    | map _ hn _ => exact hn

private theorem proper_get {s : Entries} {k : Key} {v : Val} (hp : ProperVal (.map s)) (h : lookup k s = some v) :
    ProperVal v := by
  cases hp with
  | map _ _ hb => exact hb _ (get_mem h)

/-- The key-wise description of a merge of dictionaries. -/
private theorem keys_spec (target : Option Val) (s : Entries) (m : Val) (hp : ProperVal (.map s))
    (h : mergeVal target (.map s) = some m) : ∃ m', m = .map m' ∧ ∀ k,
    (∀ v, Sets s k v → lookup k m' = some v) ∧
    (¬ (∃ v, Sets s k v) → ∀ v, Overrides s k v → ∃ base x,
      mergeVal base v = some x ∧ lookup k m' = some x ∧
      (Deletes s k → base = none) ∧ (¬ Deletes s k → base = lookup k (entriesOf target))) ∧
    (¬ (∃ v, Sets s k v) → ¬ (∃ v, Overrides s k v) → Deletes s k → lookup k m' = none) ∧
    (¬ (∃ v, Sets s k v) → ¬ (∃ v, Overrides s k v) → ¬ Deletes s k → lookup k m' = lookup k (entriesOf target)) := by
  obtain ⟨ks, out, m', h1, h2, h3, rfl⟩ := map_parts h
  have hnd : (s.map (·.1)).Nodup := by
    cases hp with
    | map _ hn _ => exact hn
  refine ⟨m', rfl, fun k => ?_⟩
  obtain ⟨s1, s2⟩ := set_spec s out m' (proper_set hp) h3 k
  obtain ⟨e1, e2⟩ := entries_spec s hnd _ out h2 k
  have hd := del_spec s ks h1 k
  rw [get_filter] at e1 e2
  refine ⟨s2, fun hs v hv => ?_, fun hs ho hdel => ?_, fun hs ho hdel => ?_⟩
  · obtain ⟨x, hx, hg⟩ := e2 v hv
    refine ⟨_, x, hx, (s1 hs).trans hg, fun hdel => ?_, fun hdel => ?_⟩
    · rw [if_pos (hd.mpr hdel)]
    · rw [if_neg (fun hc => hdel (hd.mp hc))]
  · rw [s1 hs, e1 ho, if_pos (hd.mpr hdel)]
  · rw [s1 hs, e1 ho, if_neg (fun hc => hdel (hd.mp hc))]

/-! ### C64 -/

/-- **Key by key.** What merging dictionaries does with a key: `_set_` wins and replaces; otherwise a value
of the overrides that is not a dictionary replaces, and one that is a dictionary is merged into what is there
(into nothing, if the key is deleted or holds no dictionary); otherwise `_del_` removes; and otherwise the
key stays as it is. -/
theorem C64_keys (t s : Entries) (m : Val) (hp : ProperVal (.map s)) (h : merge (.map t) (.map s) = some m) :
    ∃ m', m = .map m' ∧ ∀ k,
    (∀ v, Sets s k v → lookup k m' = some v) ∧
    (∀ v, Overrides s k v → ¬ (∃ v, Sets s k v) → ¬ IsMap v → lookup k m' = some v) ∧
    (∀ v, Overrides s k v → ¬ (∃ v, Sets s k v) → IsMap v → ∃ x, lookup k m' = some x ∧
      ((Deletes s k ∨ ¬ (∃ y, lookup k t = some y ∧ IsMap y)) → merge (.map []) v = some x) ∧
      (¬ Deletes s k → ∀ y, lookup k t = some y → IsMap y → merge y v = some x)) ∧
    (Deletes s k → ¬ (∃ v, Sets s k v) → ¬ (∃ v, Overrides s k v) → lookup k m' = none) ∧
    (¬ Deletes s k → ¬ (∃ v, Sets s k v) → ¬ (∃ v, Overrides s k v) → lookup k m' = lookup k t) := by
  obtain ⟨m', rfl, hk⟩ := keys_spec (some (.map t)) s m hp h
  refine ⟨m', rfl, fun k => ?_⟩
  obtain ⟨k1, k2, k3, k4⟩ := hk k
  refine ⟨k1, fun v hv hs hm => ?_, fun v hv hs hm => ?_, fun hd hs ho => k3 hs ho hd,
    fun hd hs ho => k4 hs ho hd⟩
  · obtain ⟨base, x, hx, hg, -⟩ := k2 hs v hv
    cases v with
    | null => rw [mergeVal] at hx; cases hx; exact hg
    | str a => rw [mergeVal] at hx; cases hx; exact hg
    | num a => rw [mergeVal] at hx; cases hx; exact hg
    | list a => rw [mergeVal] at hx; cases hx; exact hg
    | map a => exact absurd trivial hm
  · obtain ⟨base, x, hx, hg, hb1, hb2⟩ := k2 hs v hv
    refine ⟨x, hg, fun hc => ?_, fun hd y hy _ => ?_⟩
    · cases v with
      | map es =>
        have hbase : entriesOf base = [] := by
          by_cases hd : Deletes s k
          · rw [hb1 hd]
            rfl
          · have := hc.resolve_left hd
            rw [hb2 hd]
            simp only [entriesOf]
            cases hg : lookup k t with
            | none => rfl
            | some y =>
              cases y with
              | map z => exact absurd ⟨_, hg, trivial⟩ this
              | null => rfl
              | str z => rfl
              | num z => rfl
              | list z => rfl
        unfold merge
        rw [mergeVal] at hx ⊢
        rw [hbase] at hx
        exact hx
      | null => exact hm.elim
      | str a => exact hm.elim
      | num a => exact hm.elim
      | list a => exact hm.elim
    · unfold merge
      rw [← hy]
      rw [hb2 hd] at hx
      exact hx

/-- **Nothing else changes.** Along a path that the overrides do not mention, the configuration is as it
was. -/
theorem C64_untouched (c o m : Val) (hp : ProperVal o) (h : merge c o = some m) (p : List Key)
    (ht : ¬ Touches o p) : at? p m = at? p c := by
  suffices ∀ (p : List Key) (o m : Val) (c : Option Val), ProperVal o → mergeVal c o = some m → ¬ Touches o p →
      at? p m = c.bind (at? p) from this p o m (some c) hp h ht
  clear hp h ht p m o c
  intro p
  induction p with
  | nil =>
    intro o m c _ _ ht
    cases o <;> exact absurd trivial ht
  | cons k p ih =>
    intro o m c hp h ht
    cases o with
    | map s =>
      obtain ⟨m', rfl, hk⟩ := keys_spec c s m hp h
      obtain ⟨-, k2, -, k4⟩ := hk k
      simp only [Touches, not_or] at ht
      obtain ⟨t1, t2, t3⟩ := ht
      have hc : c.bind (at? (k :: p)) = (lookup k (entriesOf c)).bind (at? p) := by
        cases c with
        | none => rfl
        | some v => cases v <;> rfl
      rw [hc, at?]
      by_cases ho : ∃ v, Overrides s k v
      · obtain ⟨v, hv⟩ := ho
        obtain ⟨base, x, hx, hg, -, hb⟩ := k2 t1 v hv
        rw [hb t2] at hx
        rw [hg]
        exact ih v x _ (proper_get hp hv.2.2) hx fun hc => t3 ⟨v, hv, hc⟩
      · rw [k4 t1 ho t2]
    | null => exact absurd trivial ht
    | str a => exact absurd trivial ht
    | num a => exact absurd trivial ht
    | list a => exact absurd trivial ht

/-- **What is asked for is there.** A value that the overrides give for a path, directly or through `_set_`,
is at that path afterwards. -/
theorem C64_asked (c o m : Val) (hp : ProperVal o) (h : merge c o = some m) (p : List Key) (v : Val)
    (ha : Asks o p v) : at? p m = some v := by
  suffices ∀ (p : List Key) (o m : Val) (c : Option Val), ProperVal o → mergeVal c o = some m → Asks o p v →
      at? p m = some v from this p o m (some c) hp h ha
  clear hp h ha p m o c
  intro p
  induction p with
  | nil =>
    intro o m c hp h ha
    cases o with
    | map s => exact absurd trivial ha.1
    | null => rw [mergeVal] at h; cases h; exact congrArg some ha.2
    | str a => rw [mergeVal] at h; cases h; exact congrArg some ha.2
    | num a => rw [mergeVal] at h; cases h; exact congrArg some ha.2
    | list a => rw [mergeVal] at h; cases h; exact congrArg some ha.2
  | cons k p ih =>
    intro o m c hp h ha
    cases o with
    | map s =>
      obtain ⟨m', rfl, hk⟩ := keys_spec c s m hp h
      obtain ⟨k1, k2, -, -⟩ := hk k
      rcases ha with ⟨x, hx, hat⟩ | ⟨hs, x, hx, hat⟩
      · rw [at?, k1 x hx]
        exact hat
      · obtain ⟨base, y, hy, hg, -⟩ := k2 hs x hx
        rw [at?, hg]
        exact ih x y base (proper_get hp hx.2.2) hy hat
    | null => exact ha.elim
    | str a => exact ha.elim
    | num a => exact ha.elim
    | list a => exact ha.elim

/-- **What is deleted is gone.** -/
theorem C64_removed (c o m : Val) (hp : ProperVal o) (h : merge c o = some m) (p : List Key)
    (hr : Removes o p) : at? p m = none := by
  suffices ∀ (p : List Key) (o m : Val) (c : Option Val), ProperVal o → mergeVal c o = some m → Removes o p →
      at? p m = none from this p o m (some c) hp h hr
  clear hp h hr p m o c
  intro p
  induction p with
  | nil =>
    intro o m c hp h hr
    cases o <;> exact hr.elim
  | cons k p ih =>
    intro o m c hp h hr
    cases o with
    | map s =>
      obtain ⟨m', rfl, hk⟩ := keys_spec c s m hp h
      obtain ⟨-, k2, k3, -⟩ := hk k
      obtain ⟨hs, ⟨hd, ho⟩ | ⟨x, hx, hrem⟩⟩ := hr
      · rw [at?, k3 hs ho hd]
        rfl
      · obtain ⟨base, y, hy, hg, -⟩ := k2 hs x hx
        rw [at?, hg]
        exact ih x y base (proper_get hp hx.2.2) hy hrem
    | null => exact hr.elim
    | str a => exact hr.elim
    | num a => exact hr.elim
    | list a => exact hr.elim

/-- **Nothing merged.** Empty overrides leave a dictionary exactly as it is. -/
theorem C64_identity (t : Entries) : merge (.map t) (.map []) = some (.map t) := by
  have hf : (entriesOf (some (.map t))).filter (fun e => e.1 ∉ ([] : List Key)) = t := by
    simp [entriesOf]
  unfold merge
  rw [mergeVal]
  have h1 : delKeys [] = some [] := rfl
  rw [h1]
  simp only [Option.bind_eq_bind, Option.bind_some]
  rw [hf, mergeEntries]
  rfl

/-- **Twice is once.** Merging the same overrides again succeeds and changes nothing that can be seen at any
path (the order of keys may change). -/
theorem C64_idempotent (c o m : Val) (hp : ProperVal o) (h : merge c o = some m) :
    ∃ m', merge m o = some m' ∧ ∀ p, view (at? p m') = view (at? p m) := by
  -- whether a merge succeeds does not depend on the target
  have total : ∀ (o : Val) (c c' : Option Val) (m : Val), mergeVal c o = some m → ∃ m', mergeVal c' o = some m' := by
    intro o
    suffices ∀ n, ∀ o : Val, sizeOf o ≤ n → ∀ (c c' : Option Val) (m : Val), mergeVal c o = some m →
        ∃ m', mergeVal c' o = some m' from this _ o (Nat.le_refl _)
    intro n
    induction n with
    | zero =>
      intro o ho
      cases o <;> simp at ho
    | succ n ih =>
      intro o ho c c' m h
      cases o with
      | map s =>
        obtain ⟨ks, out, m', h1, h2, h3, -⟩ := map_parts h
        have loop : ∀ (es out out' m : Entries), (∀ e ∈ es, sizeOf e.2 ≤ n) → mergeEntries out es = some m →
            ∃ m', mergeEntries out' es = some m' := by
          intro es
          induction es with
          | nil =>
            intro out out' m _ _
            exact ⟨out', by rw [mergeEntries]⟩
          | cons e es ihe =>
            intro out out' m hsz h
            obtain ⟨a, b⟩ := e
            rw [mergeEntries] at h
            obtain ⟨o1, g1, g2⟩ := Option.bind_eq_some_iff.mp h
            have : ∃ o2, mergeEntry out' (a, b) = some o2 := by
              rw [mergeEntry] at g1 ⊢
              split
              · exact ⟨_, rfl⟩
              · rename_i hsp
                rw [if_neg hsp] at g1
                obtain ⟨x, hx, -⟩ := Option.bind_eq_some_iff.mp g1
                obtain ⟨y, hy⟩ := ih b (hsz (a, b) (by simp)) _ (lookup a out') _ hx
                exact ⟨put a y out', by rw [hy]; rfl⟩
            obtain ⟨o2, ho2⟩ := this
            obtain ⟨m', hm'⟩ := ihe o1 o2 m (fun e he => hsz e (List.mem_cons_of_mem _ he)) g2
            exact ⟨m', by rw [mergeEntries, ho2]; exact hm'⟩
        have hsz : ∀ e ∈ s, sizeOf e.2 ≤ n := by
          intro e he
          have h1 := List.sizeOf_lt_of_mem he
          have h2 : sizeOf e.2 < sizeOf e := by
            obtain ⟨a, b⟩ := e
            simp
            omega
          simp at ho
          omega
        obtain ⟨out', ho'⟩ := loop s _ ((entriesOf c').filter fun e => e.1 ∉ ks) _ hsz h2
        have hset : ∃ m2, applySet s out' = some m2 := by
          unfold applySet at h3 ⊢
          split
          · exact ⟨_, rfl⟩
          · exact ⟨_, rfl⟩
          · rename_i es hes
            rw [hes] at h3
            simp only at h3
            have : ∀ (es a b m : Entries), es.foldlM setOne a = some m → ∃ m2, es.foldlM setOne b = some m2 := by
              intro es
              induction es with
              | nil => exact fun _ b _ _ => ⟨b, rfl⟩
              | cons e es ihe =>
                intro a b m h
                obtain ⟨x, y⟩ := e
                rw [List.foldlM_cons] at h ⊢
                obtain ⟨o1, g1, g2⟩ := Option.bind_eq_some_iff.mp h
                cases x with
                | str q => exact ihe o1 (put (.str q) y b) m g2
                | other q => cases g1
            exact this es out out' m' h3
          · rename_i v hn1 hn2 hg
            rw [hg] at h3
            split at h3
            · rename_i he
              cases he
            · rename_i he
              exact absurd (Option.some.inj he) hn1
            · rename_i es he
              exact absurd (Option.some.inj he) (hn2 es)
            · cases h3
        obtain ⟨m2, hm2⟩ := hset
        refine ⟨.map m2, ?_⟩
        rw [mergeVal, h1]
        simp only [Option.bind_eq_bind, Option.bind_some]
        rw [ho']
        simp only [Option.bind_some]
        rw [hm2]
        rfl
      | null => exact ⟨_, by rw [mergeVal]⟩
      | str a => exact ⟨_, by rw [mergeVal]⟩
      | num a => exact ⟨_, by rw [mergeVal]⟩
      | list a => exact ⟨_, by rw [mergeVal]⟩
  obtain ⟨m', hm'⟩ := total o (some c) (some m) m h
  refine ⟨m', hm', ?_⟩
  -- the values along a path
  suffices ∀ (p : List Key) (o : Val) (c : Option Val) (m m' : Val), ProperVal o → mergeVal c o = some m →
      mergeVal (some m) o = some m' → view (at? p m') = view (at? p m) from
    fun p => this p o (some c) m m' hp h hm'
  clear hm' total h hp m' m o c
  intro p
  induction p with
  | nil =>
    intro o c m m' hp h h'
    cases o with
    | map s =>
      obtain ⟨m1, rfl, -⟩ := keys_spec c s m hp h
      obtain ⟨m2, rfl, -⟩ := keys_spec _ s m' hp h'
      rfl
    | null => rw [mergeVal] at h h'; cases h; cases h'; rfl
    | str a => rw [mergeVal] at h h'; cases h; cases h'; rfl
    | num a => rw [mergeVal] at h h'; cases h; cases h'; rfl
    | list a => rw [mergeVal] at h h'; cases h; cases h'; rfl
  | cons k p ih =>
    intro o c m m' hp h h'
    cases o with
    | map s =>
      obtain ⟨m1, rfl, hk⟩ := keys_spec c s m hp h
      obtain ⟨m2, rfl, hk'⟩ := keys_spec _ s m' hp h'
      obtain ⟨a1, a2, a3, a4⟩ := hk k
      obtain ⟨b1, b2, b3, b4⟩ := hk' k
      simp only [at?]
      by_cases hs : ∃ v, Sets s k v
      · obtain ⟨v, hv⟩ := hs
        rw [a1 v hv, b1 v hv]
      · by_cases ho : ∃ v, Overrides s k v
        · obtain ⟨v, hv⟩ := ho
          obtain ⟨base, x, hx, hg, hb1, hb2⟩ := a2 hs v hv
          obtain ⟨base', y, hy, hg', hb1', hb2'⟩ := b2 hs v hv
          rw [hg, hg']
          by_cases hd : Deletes s k
          · rw [hb1 hd] at hx
            rw [hb1' hd] at hy
            rw [hx] at hy
            cases hy
            rfl
          · have : base' = some x := by
              rw [hb2' hd]
              exact hg
            rw [this] at hy
            exact ih v base x y (proper_get hp hv.2.2) hx hy
        · by_cases hd : Deletes s k
          · rw [a3 hs ho hd, b3 hs ho hd]
          · rw [b4 hs ho hd]
            rfl
    | null => rw [mergeVal] at h h'; cases h; cases h'; rfl
    | str a => rw [mergeVal] at h h'; cases h; cases h'; rfl
    | num a => rw [mergeVal] at h h'; cases h; cases h'; rfl
    | list a => rw [mergeVal] at h h'; cases h; cases h'; rfl

private theorem entries_fail (es : Entries) (out : Entries) (h : mergeEntries out es = none) :
    ∃ e ∈ es, ∃ t, e.1 ≠ .str "_del_" ∧ e.1 ≠ .str "_set_" ∧ mergeVal t e.2 = none := by
  induction es generalizing out with
  | nil =>
    rw [mergeEntries] at h
    cases h
  | cons e es ih =>
    obtain ⟨a, b⟩ := e
    rw [mergeEntries] at h
    cases h1 : mergeEntry out (a, b) with
    | none =>
      rw [mergeEntry] at h1
      split at h1
      · cases h1
      · rename_i hsp
        refine ⟨(a, b), by simp, lookup a out, fun hc => hsp (Or.inl hc), fun hc => hsp (Or.inr hc), ?_⟩
        cases hm : mergeVal (lookup a out) b with
        | none => rfl
        | some x =>
          rw [hm] at h1
          cases h1
    | some o1 =>
      rw [h1] at h
      obtain ⟨e, he, rest⟩ := ih o1 h
      exact ⟨e, List.mem_cons_of_mem _ he, rest⟩

/-- **Malformed overrides.** A merge raises exactly if the overrides are malformed at some level, whatever
the configuration is. -/
theorem C64_error (c o : Val) (hp : ProperVal o) : merge c o = none ↔ Malformed o := by
  constructor
  · unfold merge
    generalize some c = c
    suffices ∀ n, ∀ o : Val, sizeOf o ≤ n → ProperVal o → ∀ c : Option Val, mergeVal c o = none → Malformed o from
      this _ o (Nat.le_refl _) hp c
    intro n
    induction n with
    | zero =>
      intro o ho
      cases o <;> simp at ho
    | succ n ih =>
      intro o ho hp c h
      cases o with
      | map s =>
        rw [mergeVal] at h
        cases hd : delKeys s with
        | none =>
          unfold delKeys at hd
          split at hd
          · cases hd
          · cases hd
          · rename_i l hg
            refine .del s _ hg (by simp) ?_
            rintro ⟨names, he⟩
            cases he
            rw [mapM_strs] at hd
            cases hd
          · rename_i v hn1 hn2 hg
            refine .del s v hg hn1 ?_
            rintro ⟨names, he⟩
            exact hn2 _ he
        | some ks =>
          rw [hd] at h
          simp only [Option.bind_eq_bind, Option.bind_some] at h
          cases hl : mergeEntries ((entriesOf c).filter fun e => e.1 ∉ ks) s with
          | none =>
            obtain ⟨e, he, t, n1, n2, hf⟩ := entries_fail s _ hl
            have hsz : sizeOf e.2 ≤ n := by
              have h1 := List.sizeOf_lt_of_mem he
              have h2 : sizeOf e.2 < sizeOf e := by
                obtain ⟨a, b⟩ := e
                simp
                omega
              simp at ho
              omega
            cases hp with
            | map _ hn hb =>
              exact .nested s e.1 e.2 ⟨n1, n2, get_of_mem hn he⟩ (ih e.2 hsz (hb e he) t hf)
          | some out =>
            rw [hl] at h
            simp only [Option.bind_some] at h
            cases hs : applySet s out with
            | some m =>
              rw [hs] at h
              cases h
            | none =>
              unfold applySet at hs
              split at hs
              · cases hs
              · cases hs
              · rename_i es hg
                refine .set s _ hg (by simp) ?_
                rintro ⟨es', he, hall⟩
                cases he
                have : ∀ (es a : Entries), (∀ e ∈ es, ∃ x, e.1 = Key.str x) →
                    ∃ m, es.foldlM setOne a = some m := by
                  intro es
                  induction es with
                  | nil => exact fun a _ => ⟨a, rfl⟩
                  | cons e es ihe =>
                    intro a hall
                    obtain ⟨x, hx⟩ := hall e (by simp)
                    obtain ⟨e1, e2⟩ := e
                    simp only at hx
                    subst hx
                    rw [List.foldlM_cons]
                    exact ihe _ fun e he => hall e (List.mem_cons_of_mem _ he)
                obtain ⟨m, hm⟩ := this es out hall
                rw [hm] at hs
                cases hs
              · rename_i v hn1 hn2 hg
                refine .set s v hg hn1 ?_
                rintro ⟨es, he, -⟩
                exact hn2 _ he
      | null => rw [mergeVal] at h; cases h
      | str a => rw [mergeVal] at h; cases h
      | num a => rw [mergeVal] at h; cases h
      | list a => rw [mergeVal] at h; cases h
  · intro hm
    unfold merge
    generalize some c = c
    cases hr : mergeVal c o with
    | none => rfl
    | some m =>
      exfalso
      induction hm generalizing c m with
      | del s v hg hn hbad =>
        obtain ⟨ks, -, -, h1, -⟩ := map_parts hr
        unfold delKeys at h1
        have hg : lookup delKey s = some v := hg
        rw [hg] at h1
        split at h1
        · rename_i he
          cases he
        · rename_i he
          cases he
          exact hn rfl
        · rename_i l he
          cases he
          obtain ⟨names, rfl, -⟩ := mapM_asKey l ks h1
          exact hbad ⟨names, rfl⟩
        · cases h1
      | set s v hg hn hbad =>
        obtain ⟨-, out, m', -, -, h3, -⟩ := map_parts hr
        unfold applySet at h3
        have hg : lookup setKey s = some v := hg
        rw [hg] at h3
        split at h3
        · rename_i he
          cases he
        · rename_i he
          cases he
          exact hn rfl
        · rename_i es he
          cases he
          apply hbad
          refine ⟨es, rfl, ?_⟩
          have : ∀ (es a m : Entries), es.foldlM setOne a = some m → ∀ e ∈ es, ∃ x, e.1 = Key.str x := by
            intro es
            induction es with
            | nil => simp
            | cons e es ihe =>
              intro a m h x hx
              obtain ⟨e1, e2⟩ := e
              rw [List.foldlM_cons] at h
              obtain ⟨o1, g1, g2⟩ := Option.bind_eq_some_iff.mp h
              rcases List.mem_cons.mp hx with rfl | hx
              · cases e1 with
                | str q => exact ⟨q, rfl⟩
                | other q => cases g1
              · exact ihe o1 m g2 x hx
          exact this es out m' h3
        · cases h3
      | nested s k v hov _ ih =>
        obtain ⟨ks, out, m1, -, h2, -⟩ := map_parts hr
        cases hp with
        | map _ hn hb =>
          obtain ⟨-, e2⟩ := entries_spec s hn _ out h2 k
          obtain ⟨x, hx, -⟩ := e2 v hov
          exact ih (hb _ (get_mem hov.2.2)) _ x hx

/-- A configuration of two levels. -/
private def sample : Val :=
  .map [(.str "model", .map [(.str "dim", .num 512), (.str "layers", .num 6)]), (.str "seed", .num 2),
    (.str "tags", .list [.str "a"])]

/-- Overrides of all kinds. -/
private def changes : Val :=
  .map [(.str "model", .map [(.str "dim", .num 1024)]), (.str "_del_", .list [.str "seed"]),
    (.str "_set_", .map [(.str "tags", .map [])]), (.str "lr", .num 1)]

/-- Non-vacuity: a merge with all kinds of overrides. -/
example : merge sample changes = some (.map [
    (.str "model", .map [(.str "dim", .num 1024), (.str "layers", .num 6)]), (.str "tags", .map []),
    (.str "lr", .num 1)]) := by rfl

/-- Non-vacuity: the overrides are proper, mention a path and not another, ask for values, and delete. -/
example : ProperVal changes ∧ ¬ Touches changes [.str "model", .str "layers"] ∧
    Asks changes [.str "model", .str "dim"] (.num 1024) ∧ Removes changes [.str "seed"] := by
  refine ⟨?_, ?_, ?_, ?_⟩
  · unfold changes
    refine .map _ (by decide) ?_
    intro e he
    simp only [List.mem_cons, List.not_mem_nil, or_false] at he
    rcases he with rfl | rfl | rfl | rfl
    · exact .map _ (by decide) (by simp; exact .num _)
    · exact .list _ (by simp; exact .str _)
    · exact .map _ (by decide) (by simp; exact .map _ (by decide) (by simp))
    · exact .num _
  · simp [changes, Touches, Sets, Deletes, Overrides, lookup]
  · simp [changes, Asks, Sets, Overrides, lookup, IsMap]
  · simp [changes, Removes, Sets, Deletes, Overrides, lookup]

/-- Non-vacuity: malformed overrides below the top level. -/
example : Malformed (.map [(.str "model", .map [(.str "_del_", .str "dim")])]) :=
  .nested _ (.str "model") _ ⟨by decide, by decide, rfl⟩ (.del _ _ rfl (by simp) (by simp))

/-- **Nothing is not always nothing.** Overrides that are not a dictionary, `null` among them, replace the
whole configuration; and empty overrides turn a configuration that is not a dictionary into an empty one, and
a value that is not a dictionary, if they name it, into an empty dictionary. -/
theorem C64_null_overrides (c : Val) (n : Int) : merge c .null = some .null ∧
    merge (.num n) (.map []) = some (.map []) ∧
    merge (.map [(.str "a", .num n)]) (.map [(.str "a", .map [])]) = some (.map [(.str "a", .map [])]) :=
  ⟨by unfold merge; rw [mergeVal], rfl, rfl⟩

end Fs2.Props
