import Verif.Assets.Store

/-!
C66: fields of asset cards.

Specification, in terms of the metadata that the providers hold. `HasEntry ps key m`: some provider holds the
metadata `m` under the full name `key` (`name@` or `name@env`). `Shows ps envs name f v`: the asset's own
metadata, the first of the given environments that has an entry before the general entry, give the field `f`
the value `v`. `Gets ps envs name f v`: `v` is the value of the field by inheritance along the base names.
-/

namespace Fs2.Props

open Fs2.Asset

/-- Some provider holds this metadata under the full name. -/
def HasEntry (ps : List Provider) (key : Str) (m : Meta) : Prop := ∃ p ∈ ps, lookup key p.metadata = some m

/-- `env` is the first of the environments for which the asset has an entry, namely `m`. -/
def FirstEnv (ps : List Provider) (envs : List Str) (name env : Str) (m : Meta) : Prop :=
  ∃ pre post, envs = pre ++ env :: post ∧ (∀ e ∈ pre, ¬ ∃ m', HasEntry ps (name ++ '@' :: e) m') ∧
    HasEntry ps (name ++ '@' :: env) m

/-- The asset's own metadata give the field this value. -/
inductive Shows (ps : List Provider) (envs : List Str) (name f : Str) (v : Val) : Prop
  | env {e m g} (hg : HasEntry ps (name ++ ['@']) g) (he : FirstEnv ps envs name e m)
      (h : lookup f m = some v) : Shows ps envs name f v
  | general {g} (hg : HasEntry ps (name ++ ['@']) g)
      (he : ∀ e m, FirstEnv ps envs name e m → lookup f m = none) (h : lookup f g = some v) :
      Shows ps envs name f v

/-- The field has this value, possibly inherited. -/
inductive Gets (ps : List Provider) (envs : List Str) : Str → Str → Val → Prop
  | own {name f v} (h : Shows ps envs name f v) : Gets ps envs name f v
  | inherited {name f v b} (hn : ¬ ∃ v', Shows ps envs name f v')
      (hb : Shows ps envs name "base".toList (.str b)) (h : Gets ps envs b f v) : Gets ps envs name f v

/-- Dictionaries have no key twice. -/
def GoodProvider (p : Provider) : Prop :=
  (p.metadata.map (·.1)).Nodup ∧ ∀ e ∈ p.metadata, (e.2.map (·.1)).Nodup

/-- `b` is the base name of the asset `a`. -/
def BaseOf (ps : List Provider) (envs : List Str) (b a : Str) : Prop :=
  Shows ps envs a "base".toList (.str b)

/-- `a` is `s` without the white space around it. -/
def Trimmed (a s : Str) : Prop :=
  ∃ l r, s = l ++ a ++ r ∧ (∀ c ∈ l, c.isWhitespace) ∧ (∀ c ∈ r, c.isWhitespace) ∧
    (∀ c, a.head? = some c → ¬ c.isWhitespace) ∧ ∀ c, a.getLast? = some c → ¬ c.isWhitespace

/-- A name asks for this asset in these environments: without `@` in the environment `user` and then in the
default environment of the store, with `@env` only in `env`, and with `@` and nothing behind it in none. -/
inductive AsksFor (default : Option Str) : Str → Str → List Str → Prop
  | bare {name a} (h : '@' ∉ name) (ha : Trimmed a name)
      (hd : ∀ d, default = some d → Trimmed [] d) : AsksFor default name a ["user".toList]
  | default {name a d e} (h : '@' ∉ name) (ha : Trimmed a name) (hd : default = some d) (hde : Trimmed e d)
      (hne : e ≠ []) : AsksFor default name a ["user".toList, e]
  | env {n a x e} (h : '@' ∉ n) (ha : Trimmed a n) (he : Trimmed e x) (hne : e ≠ []) :
      AsksFor default (n ++ '@' :: x) a [e]
  | none {n a x} (h : '@' ∉ n) (ha : Trimmed a n) (he : Trimmed [] x) : AsksFor default (n ++ '@' :: x) a []

/-- The base names lead from `a` to `b`. -/
inductive Ancestor (ps : List Provider) (envs : List Str) : Str → Str → Prop
  | refl {a} : Ancestor ps envs a a
  | step {a b c} (h : BaseOf ps envs b a) (t : Ancestor ps envs b c) : Ancestor ps envs a c

/-! ### Lemmas -/

private theorem lookup_put (key k : Str) (v : Val) (m : Meta) :
    lookup key (put k v m) = if k = key then some v else lookup key m := by
  induction m with
  | nil => simp [put, lookup]
  | cons e m ih =>
    obtain ⟨k', x⟩ := e
    rw [put]
    split
    · rename_i h
      subst h
      simp only [lookup]
      split <;> rfl
    · rename_i h
      simp only [lookup, ih]
      split
      · rename_i h'
        rw [if_neg (fun e => h (by rw [e, h']))]
      · rfl

private theorem lookup_none_of_not_mem {α : Type} (key : Str) (m : List (Str × α)) (h : key ∉ m.map (·.1)) :
    lookup key m = none := by
  induction m with
  | nil => rfl
  | cons e m ih =>
    obtain ⟨k, v⟩ := e
    simp only [List.map_cons, List.mem_cons, not_or] at h
    rw [lookup, if_neg (fun e => h.1 e.symm), ih h.2]

private theorem mem_of_lookup {α : Type} (key : Str) (v : α) (m : List (Str × α)) (h : lookup key m = some v) :
    (key, v) ∈ m := by
  induction m with
  | nil => cases h
  | cons e m ih =>
    obtain ⟨k, x⟩ := e
    rw [lookup] at h
    split at h
    · rename_i hk; cases h; rw [hk]; simp
    · exact List.mem_cons_of_mem _ (ih h)

private theorem lookup_update (key : Str) (m other : Meta) (hn : (other.map (·.1)).Nodup) :
    lookup key (update m other) = (lookup key other).or (lookup key m) := by
  unfold update
  induction other generalizing m with
  | nil => rfl
  | cons e other ih =>
    obtain ⟨k, v⟩ := e
    have hn := List.nodup_cons.1 hn
    rw [List.foldl_cons, ih _ hn.2, lookup_put, lookup]
    by_cases h : k = key
    · subst h
      rw [lookup_none_of_not_mem _ _ hn.1]
      simp
    · simp [h]

private theorem put_nodup (k : Str) (v : Val) (m : Meta) (h : (m.map (·.1)).Nodup) :
    ((put k v m).map (·.1)).Nodup := by
  have keys : ∀ m : Meta, ∀ x ∈ (put k v m).map (·.1), x = k ∨ x ∈ m.map (·.1) := by
    intro m
    induction m with
    | nil => simp [put]
    | cons e m ih =>
      obtain ⟨k', x⟩ := e
      intro y hy
      rw [put] at hy
      split at hy
      · exact .inr hy
      · simp only [List.map_cons, List.mem_cons] at hy ⊢
        rcases hy with rfl | hy
        · exact .inr (.inl rfl)
        · exact (ih y hy).imp_right .inr
  induction m with
  | nil => simp [put]
  | cons e m ih =>
    obtain ⟨k', x⟩ := e
    have h := List.nodup_cons.1 h
    rw [put]
    split
    · exact List.nodup_cons.2 h
    · rename_i hk
      refine List.nodup_cons.2 ⟨fun hm => ?_, ih h.2⟩
      rcases keys m k' hm with rfl | hm
      · exact hk rfl
      · exact h.1 hm

private theorem getMeta_none (key : Str) (ps : List Provider) :
    getMeta key ps = none ↔ ¬ ∃ m, HasEntry ps key m := by
  induction ps with
  | nil => simp [getMeta, HasEntry]
  | cons p ps ih =>
    rw [getMeta]
    cases h : lookup key p.metadata with
    | some m =>
      simp only [reduceCtorEq, false_iff]
      exact fun hn => hn ⟨m, p, by simp, h⟩
    | none =>
      simp only [ih]
      constructor
      · rintro hn ⟨m, q, hq, hm⟩
        rcases List.mem_cons.1 hq with rfl | hq
        · rw [h] at hm; cases hm
        · exact hn ⟨m, q, hq, hm⟩
      · rintro hn ⟨m, q, hq, hm⟩
        exact hn ⟨m, q, by simp [hq], hm⟩

private theorem getMeta_some (key : Str) (ps : List Provider) (m' : Meta) (h : getMeta key ps = some m') :
    ∃ p ∈ ps, ∃ m, lookup key p.metadata = some m ∧ m' = put sourceKey (.str p.source) m := by
  induction ps with
  | nil => cases h
  | cons p ps ih =>
    rw [getMeta] at h
    cases hl : lookup key p.metadata with
    | some m => rw [hl] at h; cases h; exact ⟨p, by simp, m, hl, rfl⟩
    | none =>
      rw [hl] at h
      obtain ⟨q, hq, m, h1, h2⟩ := ih h
      exact ⟨q, by simp [hq], m, h1, h2⟩

/-- No name is held twice. -/
private def Unique (ps : List Provider) : Prop := ∀ key m m', HasEntry ps key m → HasEntry ps key m' → m = m'

private theorem checkNames_ok (before : List Provider) (p : Provider) (es : List (Str × Meta))
    (h : checkNames before p es = .ok ()) : ∀ e ∈ es, ∀ q ∈ before, lookup e.1 q.metadata = none := by
  induction es with
  | nil => simp
  | cons e es ih =>
    obtain ⟨n, m⟩ := e
    rw [checkNames] at h
    split at h
    · cases h
    · split at h
      · cases h
      · rename_i hb
        intro x hx q hq
        rcases List.mem_cons.1 hx with rfl | hx
        · cases hl : lookup n q.metadata with
          | none => rfl
          | some m => exact absurd (List.any_eq_true.2 ⟨q, hq, by rw [hl]; rfl⟩) hb
        · exact ih h x hx q hq

private theorem addProviders_ok (before ps r : List Provider) (h : addProviders before ps = .ok r)
    (hu : Unique before) : r = before ++ ps ∧ Unique r := by
  induction ps generalizing before with
  | nil => rw [addProviders] at h; cases h; exact ⟨by simp, hu⟩
  | cons p ps ih =>
    rw [addProviders] at h
    cases hc : checkNames before p p.metadata with
    | error e => rw [hc] at h; cases h
    | ok _ =>
      rw [hc] at h
      change addProviders (before ++ [p]) ps = .ok r at h
      have hnew : Unique (before ++ [p]) := by
        rintro key m m' ⟨q, hq, hm⟩ ⟨q', hq', hm'⟩
        simp only [List.mem_append, List.mem_singleton] at hq hq'
        rcases hq with hq | rfl <;> rcases hq' with hq' | rfl
        · exact hu key m m' ⟨q, hq, hm⟩ ⟨q', hq', hm'⟩
        · have := checkNames_ok before q' _ hc _ (mem_of_lookup _ _ _ hm') q hq
          rw [this] at hm; cases hm
        · have := checkNames_ok before q _ hc _ (mem_of_lookup _ _ _ hm) q' hq'
          rw [this] at hm'; cases hm'
        · rw [hm] at hm'; exact Option.some.inj hm'
      obtain ⟨h1, h2⟩ := ih _ h hnew
      exact ⟨by rw [h1]; simp, h2⟩

private theorem entry_nodup {ps : List Provider} (hg : ∀ p ∈ ps, GoodProvider p) {p : Provider} (hp : p ∈ ps)
    {key : Str} {m : Meta} (h : lookup key p.metadata = some m) : (m.map (·.1)).Nodup :=
  (hg p hp).2 _ (mem_of_lookup _ _ _ h)

private theorem getMeta_lookup {ps : List Provider} {key : Str} {m' : Meta} (h : getMeta key ps = some m') :
    ∃ m, HasEntry ps key m ∧ ∀ f, f ≠ sourceKey → lookup f m' = lookup f m := by
  obtain ⟨p, hp, m, h1, rfl⟩ := getMeta_some key ps m' h
  exact ⟨m, ⟨p, hp, h1⟩, fun f hf => by rw [lookup_put, if_neg (fun e => hf e.symm)]⟩

/-- What is in the metadata after the loop over the environments. -/
private theorem applyEnvs_lookup {ps : List Provider} (hg : ∀ p ∈ ps, GoodProvider p)
    (name : Str) (envs : List Str) (g : Meta) (f : Str) (hf : f ≠ sourceKey) :
    (∃ e m, FirstEnv ps envs name e m ∧ lookup f (applyEnvs ps name envs g) = (lookup f m).or (lookup f g)) ∨
      (¬ ∃ e m, FirstEnv ps envs name e m) ∧ lookup f (applyEnvs ps name envs g) = lookup f g := by
  induction envs with
  | nil =>
    right
    refine ⟨?_, rfl⟩
    rintro ⟨e, m, pre, post, h, -⟩
    cases pre <;> cases h
  | cons env envs ih =>
    rw [applyEnvs]
    cases hm : getMeta (tagged name env) ps with
    | some em =>
      left
      obtain ⟨p, hp, m, h1, rfl⟩ := getMeta_some _ _ _ hm
      refine ⟨env, m, ⟨[], envs, rfl, by simp, p, hp, h1⟩, ?_⟩
      show lookup f (update g _) = _
      rw [lookup_update _ _ _ (put_nodup _ _ _ (entry_nodup hg hp h1)), lookup_put,
        if_neg (fun e => hf e.symm)]
    | none =>
      have hno := (getMeta_none _ _).1 hm
      have hstep : ∀ e m, FirstEnv ps (env :: envs) name e m ↔ FirstEnv ps envs name e m := by
        intro e m
        constructor
        · rintro ⟨pre, post, h1, h2, h3⟩
          cases pre with
          | nil => cases h1; exact absurd ⟨m, h3⟩ hno
          | cons x pre =>
            cases h1
            exact ⟨pre, post, rfl, fun e he => h2 e (by simp [he]), h3⟩
        · rintro ⟨pre, post, rfl, h2, h3⟩
          refine ⟨env :: pre, post, rfl, ?_, h3⟩
          intro e he
          rcases List.mem_cons.1 he with rfl | he
          · exact hno
          · exact h2 e he
      simp only [hstep]
      exact ih

private theorem firstEnv_unique {ps : List Provider} (hu : Unique ps) {envs : List Str} {name e e' : Str}
    {m m' : Meta} (h : FirstEnv ps envs name e m) (h' : FirstEnv ps envs name e' m') : m = m' := by
  obtain ⟨pre, post, rfl, h2, h3⟩ := h
  obtain ⟨pre', post', h1', h2', h3'⟩ := h'
  rcases List.append_eq_append_iff.1 h1' with ⟨l, h4, h5⟩ | ⟨l, h4, h5⟩
  · cases l with
    | nil =>
      cases h5
      exact hu _ _ _ h3 h3'
    | cons x l =>
      cases h5
      exact absurd ⟨m, h3⟩ (h2' _ (by rw [h4]; simp))
  · cases l with
    | nil =>
      cases h5
      exact hu _ _ _ h3 h3'
    | cons x l =>
      cases h5
      exact absurd ⟨m', h3'⟩ (h2 _ (by rw [h4]; simp))

/-- The metadata of a card, in terms of what the providers hold. -/
private theorem shows_iff {ps : List Provider} (hu : Unique ps) (hg : ∀ p ∈ ps, GoodProvider p) (name : Str)
    (envs : List Str) (g' : Meta) (h : getMeta (tagged name []) ps = some g') (f : Str) (hf : f ≠ sourceKey)
    (v : Val) : lookup f (applyEnvs ps name envs g') = some v ↔ Shows ps envs name f v := by
  obtain ⟨g, hg1, hg2⟩ := getMeta_lookup h
  rcases applyEnvs_lookup hg name envs g' f hf with ⟨e, m, h1, h2⟩ | ⟨h1, h2⟩
  · rw [h2, hg2 f hf]
    constructor
    · intro hv
      cases hm : lookup f m with
      | some x =>
        rw [hm] at hv
        exact .env hg1 h1 (hm.trans hv)
      | none =>
        rw [hm] at hv
        exact .general hg1 (fun e' m' h' => by rw [firstEnv_unique hu h' h1, hm]) hv
    · rintro (⟨hg3, he, hv⟩ | ⟨hg3, he, hv⟩)
      · rw [firstEnv_unique hu h1 he, hv]; rfl
      · rw [he e m h1, hu _ _ _ hg1 hg3, hv]; rfl
  · rw [h2, hg2 f hf]
    constructor
    · intro hv
      exact .general hg1 (fun e m h' => absurd ⟨e, m, h'⟩ h1) hv
    · rintro (⟨hg3, he, hv⟩ | ⟨hg3, he, hv⟩)
      · exact absurd ⟨_, _, he⟩ h1
      · rw [hu _ _ _ hg1 hg3, hv]

private theorem base_ne : "base".toList ≠ sourceKey := by decide

private theorem baseName_iff {ps : List Provider} (hu : Unique ps) (hg : ∀ p ∈ ps, GoodProvider p) (name : Str)
    (envs : List Str) (g' : Meta) (h : getMeta (tagged name []) ps = some g') (b : Str) :
    baseName (applyEnvs ps name envs g') = some b ↔ Shows ps envs name "base".toList (.str b) := by
  rw [← shows_iff hu hg name envs g' h _ base_ne]
  unfold baseName
  split
  · rename_i b' hb
    rw [hb]
    simp
  · rename_i hb
    constructor
    · intro h; cases h
    · intro h'; exact absurd h' (hb b)

private theorem maybeField_mk (f name : Str) (m : Meta) (base : Option Card) :
    (Card.mk name m base).maybeField f = (lookup f m).or (base.bind (Card.maybeField f)) := by
  cases base with
  | none => rw [Card.maybeField]; simp
  | some c => rw [Card.maybeField]; cases lookup f m <;> rfl

/-- An asset that has a field has a general entry. -/
private theorem shows_general {ps : List Provider} {envs : List Str} {name f : Str} {v : Val}
    (h : Shows ps envs name f v) : ∃ g, HasEntry ps (name ++ ['@']) g := by
  cases h with
  | env hg _ _ => exact ⟨_, hg⟩
  | general hg _ _ => exact ⟨_, hg⟩

private theorem gets_general {ps : List Provider} {envs : List Str} {name f : Str} {v : Val}
    (h : Gets ps envs name f v) : ∃ g, HasEntry ps (name ++ ['@']) g := by
  cases h with
  | own h => exact shows_general h
  | inherited _ hb _ => exact shows_general hb

private theorem shows_unique {ps : List Provider} (hu : Unique ps) {envs : List Str} {name f : Str} {v v' : Val}
    (h : Shows ps envs name f v) (h' : Shows ps envs name f v') : v = v' := by
  rcases h with ⟨hg, he, hv⟩ | ⟨hg, he, hv⟩ <;> rcases h' with ⟨hg', he', hv'⟩ | ⟨hg', he', hv'⟩
  · rw [firstEnv_unique hu he he', hv'] at hv; exact (Option.some.inj hv).symm
  · rw [he' _ _ he] at hv; cases hv
  · rw [he _ _ he'] at hv'; cases hv'
  · rw [hu _ _ _ hg hg', hv'] at hv; exact (Option.some.inj hv).symm

/-- What a retrieval that ends gives. -/
private theorem doRetrieve_spec {ps : List Provider} (hu : Unique ps) (hg : ∀ p ∈ ps, GoodProvider p)
    (leaf : Str) (envs : List Str) (name : Str) (r : Except Err (Option Card))
    (h : doRetrieve ps name leaf envs = some r) :
    (∀ c, r = .ok (some c) → c.name = name ∧
      ∀ f, f ≠ sourceKey → ∀ v, c.maybeField f = some v ↔ Gets ps envs name f v) ∧
    (r = .ok none → ¬ ∃ g, HasEntry ps (name ++ ['@']) g) := by
  refine doRetrieve.partial_correctness ps leaf envs
    (fun name r => (∀ c, r = .ok (some c) → c.name = name ∧
      ∀ f, f ≠ sourceKey → ∀ v, c.maybeField f = some v ↔ Gets ps envs name f v) ∧
      (r = .ok none → ¬ ∃ g, HasEntry ps (name ++ ['@']) g)) ?_ name _ h
  intro rec ih name r h
  split at h
  · rename_i hn
    have hno := (getMeta_none _ _).1 hn
    split at h <;> cases h
    · exact ⟨fun c hc => (nomatch hc), fun hc => (nomatch hc)⟩
    · exact ⟨fun c hc => (nomatch hc), fun _ => hno⟩
  rename_i g' hg'
  refine ⟨?_, ?_⟩
  rotate_left
  · intro hr
    subst hr
    split at h
    · cases h
    · cases hr : rec ‹_› with
      | none => rw [hr] at h; cases h
      | some r => rw [hr] at h; cases r <;> cases h
  intro c hc
  subst hc
  · split at h
    · rename_i hb
      cases h
      refine ⟨rfl, fun f hf v => ?_⟩
      rw [maybeField_mk, Option.bind_none, Option.or_none, shows_iff hu hg name envs g' hg' f hf]
      refine ⟨.own, fun h => ?_⟩
      cases h with
      | own h => exact h
      | inherited hn hb' h =>
        rw [(baseName_iff hu hg name envs g' hg' _).2 hb'] at hb
        cases hb
    · rename_i b hb
      have hbase := (baseName_iff hu hg name envs g' hg' b).1 hb
      cases hr : rec b with
      | none => rw [hr] at h; cases h
      | some r =>
        rw [hr] at h
        cases r with
        | error e => cases h
        | ok base =>
          cases h
          refine ⟨rfl, fun f hf v => ?_⟩
          rw [maybeField_mk]
          cases hl : lookup f (applyEnvs ps name envs g') with
          | some x =>
            have hx := (shows_iff hu hg name envs g' hg' f hf x).1 hl
            constructor
            · rintro ⟨⟩; exact .own hx
            · intro h
              cases h with
              | own h => rw [shows_unique hu h hx]; rfl
              | inherited hn _ _ => exact absurd ⟨x, hx⟩ hn
          | none =>
            have hno : ¬ ∃ v', Shows ps envs name f v' := by
              rintro ⟨v', hv'⟩
              rw [(shows_iff hu hg name envs g' hg' f hf v').2 hv'] at hl
              cases hl
            cases base with
            | none =>
              have ih' := (ih b _ hr).2 rfl
              constructor
              · intro h; cases h
              · intro h
                cases h with
                | own h => exact absurd ⟨v, h⟩ hno
                | inherited _ hb' h =>
                  have := shows_unique hu hb' hbase
                  cases this
                  exact absurd (gets_general h) ih'
            | some bc =>
              have ih' := (ih b _ hr).1 bc rfl
              show (none : Option Val).or (bc.maybeField f) = some v ↔ _
              rw [Option.none_or, ih'.2 f hf v]
              constructor
              · intro h; exact .inherited hno hbase h
              · intro h
                cases h with
                | own h => exact absurd ⟨v, h⟩ hno
                | inherited _ hb' h =>
                  have := shows_unique hu hb' hbase
                  cases this
                  exact h

private theorem dropWhile_all {p : Char → Bool} (l s : Str) (h : ∀ c ∈ l, p c) :
    (l ++ s).dropWhile p = s.dropWhile p := by
  induction l with
  | nil => rfl
  | cons c l ih =>
    rw [List.cons_append, List.dropWhile_cons, if_pos (h c (by simp)), ih fun c hc => h c (by simp [hc])]

private theorem dropWhile_head {p : Char → Bool} (s : Str) (h : ∀ c, s.head? = some c → ¬ p c) :
    s.dropWhile p = s := by
  cases s with
  | nil => rfl
  | cons c s => rw [List.dropWhile_cons, if_neg (h c rfl)]

private theorem strip_eq {a s : Str} (h : Trimmed a s) : strip s = a := by
  obtain ⟨l, r, rfl, hl, hr, h1, h2⟩ := h
  unfold strip
  rw [List.append_assoc, dropWhile_all l _ hl]
  cases a with
  | nil =>
    have : (([] : Str) ++ r).dropWhile Char.isWhitespace = [] := by
      have := dropWhile_all (p := Char.isWhitespace) r [] hr
      simpa using this
    rw [this]
    rfl
  | cons c a =>
    rw [dropWhile_head (c :: a ++ r) (fun x hx => h1 x hx), List.reverse_append,
      dropWhile_all _ _ (fun c hc => hr c (List.mem_reverse.1 hc)), dropWhile_head, List.reverse_reverse]
    intro x hx
    rw [List.head?_reverse] at hx
    exact h2 x hx

private theorem splitName_bare (n : Str) (h : '@' ∉ n) : splitName n = (n, none) := by
  induction n with
  | nil => rfl
  | cons c n ih =>
    simp only [List.mem_cons, not_or] at h
    rw [splitName, if_neg (fun e => h.1 e.symm), ih h.2]

private theorem splitName_env (n x : Str) (h : '@' ∉ n) : splitName (n ++ '@' :: x) = (n, some x) := by
  induction n with
  | nil => simp [splitName]
  | cons c n ih =>
    simp only [List.mem_cons, not_or] at h
    rw [List.cons_append, splitName, if_neg (fun e => h.1 e.symm), ih h.2]

/-- What the store looks for. -/
private theorem maybeRetrieve_eq {ps : List Provider} {default : Option Str} {S : Store}
    (h : create ps default = .ok S) {name a : Str} {envs : List Str} (ha : AsksFor default name a envs) :
    Unique ps ∧ S.providers = ps ∧
    maybeRetrieve S name = if a = [] then some (.ok none) else doRetrieve ps a a envs := by
  unfold create at h
  cases hp : addProviders [] ps with
  | error e => rw [hp] at h; cases h
  | ok r =>
    rw [hp] at h
    cases h
    obtain ⟨h1, h2⟩ := addProviders_ok [] ps r hp (fun _ _ _ h => by obtain ⟨_, h, _⟩ := h; cases h)
    rw [List.nil_append] at h1
    subst h1
    refine ⟨h2, rfl, ?_⟩
    unfold maybeRetrieve
    cases ha with
    | bare hn ha hd =>
      rw [splitName_bare _ hn]
      simp only [strip_eq ha, askedEnvs, storeEnvs]
      cases default with
      | none => rfl
      | some d => simp [strip_eq (hd d rfl)]
    | default hn ha hd he hne =>
      rw [splitName_bare _ hn]
      subst hd
      simp only [strip_eq ha, askedEnvs, storeEnvs, strip_eq he, if_neg hne]
    | env hn ha he hne =>
      rw [splitName_env _ _ hn]
      simp only [strip_eq ha, askedEnvs, strip_eq he, if_neg hne]
    | none hn ha he =>
      rw [splitName_env _ _ hn]
      simp only [strip_eq ha, askedEnvs, strip_eq he, if_true]

private theorem hasField_eq (f : Str) : ∀ c : Card, c.hasField f = (c.maybeField f).isSome
  | .mk _ m none => by rw [Card.hasField, Card.maybeField]
  | .mk _ m (some b) => by
    rw [Card.hasField, Card.maybeField, hasField_eq f b]
    cases lookup f m <;> rfl

private theorem retrieve_ok {S : Store} {name : Str} {c : Card} (h : retrieve S name = some (.ok c)) :
    maybeRetrieve S name = some (.ok (some c)) := by
  unfold retrieve at h
  cases hm : maybeRetrieve S name with
  | none => rw [hm] at h; cases h
  | some r =>
    rw [hm] at h
    rcases r with e | (_ | c')
    · cases h
    · cases h
    · cases h; rfl

private theorem doRetrieve_acc {ps : List Provider} (hu : Unique ps) (hg : ∀ p ∈ ps, GoodProvider p)
    (leaf : Str) (envs : List Str) (name : Str) :
    (doRetrieve ps name leaf envs).isSome ↔ Acc (BaseOf ps envs) name := by
  constructor
  · intro h
    obtain ⟨r, hr⟩ := Option.isSome_iff_exists.1 h
    refine doRetrieve.partial_correctness ps leaf envs (fun name _ => Acc (BaseOf ps envs) name) ?_ name _ hr
    intro rec ih name r h
    split at h
    · rename_i hn
      have hno := (getMeta_none _ _).1 hn
      exact .intro _ fun b hb => absurd (shows_general hb) hno
    · rename_i g' hg'
      split at h
      · rename_i hb
        refine .intro _ fun b hb' => ?_
        rw [(baseName_iff hu hg name envs g' hg' _).2 hb'] at hb
        cases hb
      · rename_i b hb
        refine .intro _ fun b' hb' => ?_
        rw [(baseName_iff hu hg name envs g' hg' _).2 hb'] at hb
        cases hb
        cases hr : rec b with
        | none => rw [hr] at h; cases h
        | some r => exact ih b r hr
  · intro h
    induction h with
    | intro name _ ih =>
      rw [doRetrieve]
      split
      · split <;> rfl
      · rename_i g' hg'
        split
        · rfl
        · rename_i b hb
          obtain ⟨r, hr⟩ := Option.isSome_iff_exists.1 (ih b ((baseName_iff hu hg name envs g' hg' b).1 hb))
          rw [hr]
          rfl

/-- Which errors a retrieval that ends gives. -/
private theorem doRetrieve_err {ps : List Provider} (hu : Unique ps) (hg : ∀ p ∈ ps, GoodProvider p)
    (leaf : Str) (envs : List Str) (name : Str) (r : Except Err (Option Card))
    (h : doRetrieve ps name leaf envs = some r) :
    ∃ root, Ancestor ps envs name root ∧ (∀ b, ¬ BaseOf ps envs b root) ∧
      (r = .error (.noBase root leaf) ∧ root ≠ leaf ∧ (¬ ∃ g, HasEntry ps (root ++ ['@']) g) ∨
        (∃ o, r = .ok o) ∧ (root = leaf ∨ ∃ g, HasEntry ps (root ++ ['@']) g)) := by
  refine doRetrieve.partial_correctness ps leaf envs (fun name r =>
    ∃ root, Ancestor ps envs name root ∧ (∀ b, ¬ BaseOf ps envs b root) ∧
      (r = .error (.noBase root leaf) ∧ root ≠ leaf ∧ (¬ ∃ g, HasEntry ps (root ++ ['@']) g) ∨
        (∃ o, r = .ok o) ∧ (root = leaf ∨ ∃ g, HasEntry ps (root ++ ['@']) g))) ?_ name _ h
  intro rec ih name r h
  split at h
  · rename_i hn
    have hno := (getMeta_none _ _).1 hn
    refine ⟨name, .refl, fun b hb => hno (shows_general hb), ?_⟩
    split at h
    · rename_i hl
      cases h
      exact .inl ⟨rfl, hl, hno⟩
    · rename_i hl
      cases h
      exact .inr ⟨⟨_, rfl⟩, .inl (Decidable.not_not.1 hl)⟩
  · rename_i g' hg'
    split at h
    · rename_i hb
      cases h
      refine ⟨name, .refl, fun b hb' => ?_, .inr ⟨⟨_, rfl⟩, .inr ?_⟩⟩
      · rw [(baseName_iff hu hg name envs g' hg' _).2 hb'] at hb
        cases hb
      · obtain ⟨m, hm, _⟩ := getMeta_lookup hg'
        exact ⟨m, hm⟩
    · rename_i b hb
      have hbase := (baseName_iff hu hg name envs g' hg' b).1 hb
      cases hr : rec b with
      | none => rw [hr] at h; cases h
      | some r' =>
        rw [hr] at h
        cases h
        obtain ⟨root, h1, h2, h3⟩ := ih b r' hr
        refine ⟨root, .step hbase h1, h2, ?_⟩
        rcases h3 with ⟨rfl, h4, h5⟩ | ⟨⟨o, rfl⟩, h4⟩
        · exact .inl ⟨rfl, h4, h5⟩
        · exact .inr ⟨⟨_, rfl⟩, h4⟩

private theorem root_unique {ps : List Provider} (hu : Unique ps) {envs : List Str} {a r r' : Str}
    (h : Ancestor ps envs a r) (hr : ∀ b, ¬ BaseOf ps envs b r) (h' : Ancestor ps envs a r')
    (hr' : ∀ b, ¬ BaseOf ps envs b r') : r = r' := by
  induction h with
  | refl =>
    cases h' with
    | refl => rfl
    | step h _ => exact absurd h (hr _)
  | step h1 t ih =>
    cases h' with
    | refl => exact absurd h1 (hr' _)
    | step h2 t' =>
      have := shows_unique hu h1 h2
      cases this
      exact ih hr t'

/-! ### The properties -/

/-- A field of a retrieved card (other than the source, which the store writes itself) has exactly the value
that the specification gives it: that of the first environment with an entry of the asset, else that of the
general entry, else that of the base asset, and so on. -/
theorem C66_precedence {ps : List Provider} {default : Option Str} {S : Store} (hg : ∀ p ∈ ps, GoodProvider p)
    (h : create ps default = .ok S) {name a : Str} {envs : List Str} (ha : AsksFor default name a envs)
    {c : Card} (hc : retrieve S name = some (.ok c)) {f : Str} (hf : f ≠ "__source__".toList) (v : Val) :
    c.field f = .ok v ↔ Gets ps envs a f v := by
  obtain ⟨hu, _, hm⟩ := maybeRetrieve_eq h ha
  rw [retrieve_ok hc] at hm
  split at hm
  · cases hm
  · rw [← ((doRetrieve_spec hu hg a envs a _ hm.symm).1 c rfl).2 f hf v, Card.field]
    cases c.maybeField f <;> simp

/-- A field that the asset and its bases do not have is an error that names the asset and the field, and
`has_field` says whether there is that error. -/
theorem C66_missing_field {ps : List Provider} {default : Option Str} {S : Store}
    (hg : ∀ p ∈ ps, GoodProvider p) (h : create ps default = .ok S) {name a : Str} {envs : List Str}
    (ha : AsksFor default name a envs) {c : Card} (hc : retrieve S name = some (.ok c)) {f : Str}
    (hf : f ≠ "__source__".toList) :
    (c.field f = .error (.noField a f) ↔ ¬ ∃ v, Gets ps envs a f v) ∧
      (c.hasField f = true ↔ ∃ v, Gets ps envs a f v) := by
  obtain ⟨hu, _, hm⟩ := maybeRetrieve_eq h ha
  rw [retrieve_ok hc] at hm
  split at hm
  · cases hm
  · have hs := (doRetrieve_spec hu hg a envs a _ hm.symm).1 c rfl
    have hv := hs.2 f hf
    rw [Card.field, hasField_eq, hs.1]
    cases hl : c.maybeField f with
    | none =>
      have : ¬ ∃ v, Gets ps envs a f v := fun ⟨v, h⟩ => by
        rw [(hv v).2 h] at hl; cases hl
      simp [this]
    | some v =>
      have : ∃ v, Gets ps envs a f v := ⟨v, (hv v).1 hl⟩
      refine ⟨⟨fun h => (nomatch h), fun hn => absurd this hn⟩, fun _ => this, fun _ => rfl⟩

/-- A retrieval ends exactly if the base names of the asset do not go on for ever. -/
theorem C66_ends_partial {ps : List Provider} {default : Option Str} {S : Store}
    (hg : ∀ p ∈ ps, GoodProvider p) (h : create ps default = .ok S) {name a : Str} {envs : List Str}
    (ha : AsksFor default name a envs) (hne : a ≠ []) :
    (retrieve S name).isSome ↔ Acc (BaseOf ps envs) a := by
  obtain ⟨hu, _, hm⟩ := maybeRetrieve_eq h ha
  rw [if_neg hne] at hm
  rw [retrieve, Option.isSome_map, hm]
  exact doRetrieve_acc hu hg a envs a

/-- A retrieval that ends gives a card with the name of the asset if the asset has a general entry and the last
of its bases has one, "not found" with the name that was asked for if the asset has no general entry, and
otherwise an error that names the missing base and the asset. -/
theorem C66_result {ps : List Provider} {default : Option Str} {S : Store}
    (hg : ∀ p ∈ ps, GoodProvider p) (h : create ps default = .ok S) {name a : Str} {envs : List Str}
    (ha : AsksFor default name a envs) (hne : a ≠ []) {r : Except Err Card} (hr : retrieve S name = some r) :
    ((∃ c, r = .ok c ∧ c.name = a) ↔ (∃ g, HasEntry ps (a ++ ['@']) g) ∧
        ∀ b, Ancestor ps envs a b → ∃ g, HasEntry ps (b ++ ['@']) g) ∧
      (r = .error (.notFound name) ↔ ¬ ∃ g, HasEntry ps (a ++ ['@']) g) ∧
      ∀ b leaf, r = .error (.noBase b leaf) ↔
        leaf = a ∧ b ≠ a ∧ Ancestor ps envs a b ∧ ¬ ∃ g, HasEntry ps (b ++ ['@']) g := by
  obtain ⟨hu, _, hm⟩ := maybeRetrieve_eq h ha
  rw [if_neg hne] at hm
  rw [retrieve, hm] at hr
  cases hd : doRetrieve ps a a envs with
  | none => rw [hd] at hr; cases hr
  | some q =>
    rw [hd] at hr
    obtain ⟨root, h1, h2, h3⟩ := doRetrieve_err hu hg a envs a q hd
    have hspec := doRetrieve_spec hu hg a envs a q hd
    have hwithout : ∀ b, (¬ ∃ g, HasEntry ps (b ++ ['@']) g) → ∀ x, ¬ BaseOf ps envs x b :=
      fun b hb x hx => hb (shows_general hx)
    rcases h3 with ⟨rfl, h4, h5⟩ | ⟨⟨o, rfl⟩, h4⟩
    · cases hr
      have hgen : ∃ g, HasEntry ps (a ++ ['@']) g := by
        cases h1 with
        | refl => exact absurd rfl h4
        | step hb _ => exact shows_general hb
      refine ⟨⟨fun ⟨c, hc, _⟩ => (nomatch hc), fun ⟨_, hall⟩ => absurd (hall root h1) h5⟩,
        ⟨fun hc => (nomatch hc), fun hn => absurd hgen hn⟩, fun b leaf => ⟨?_, ?_⟩⟩
      · intro hb
        cases hb
        exact ⟨rfl, h4, h1, h5⟩
      · rintro ⟨rfl, hb1, hb2, hb3⟩
        rw [root_unique hu h1 h2 hb2 (hwithout b hb3)]
    · cases o with
      | none =>
        cases hr
        have hno := hspec.2 rfl
        refine ⟨⟨fun ⟨c, hc, _⟩ => (nomatch hc), fun ⟨hgen, _⟩ => absurd hgen hno⟩,
          ⟨fun _ => hno, fun _ => rfl⟩, fun b leaf => ⟨fun hc => (nomatch hc), ?_⟩⟩
        rintro ⟨rfl, hb1, hb2, hb3⟩
        cases hb2 with
        | refl => exact absurd rfl hb1
        | step hb _ => exact absurd (shows_general hb) hno
      | some c =>
        cases hr
        have hgen : ∃ g, HasEntry ps (a ++ ['@']) g := by
          rw [doRetrieve] at hd
          cases hgm : getMeta (tagged a []) ps with
          | none => rw [hgm] at hd; simp at hd
          | some g' =>
            obtain ⟨m, hm, _⟩ := getMeta_lookup hgm
            exact ⟨m, hm⟩
        have hroot : ∃ g, HasEntry ps (root ++ ['@']) g := by
          rcases h4 with h4 | h4
          · rw [h4]; exact hgen
          · exact h4
        have hall : ∀ b, Ancestor ps envs a b → ∃ g, HasEntry ps (b ++ ['@']) g := by
          intro b hb
          by_cases hx : ∃ g, HasEntry ps (b ++ ['@']) g
          · exact hx
          · rw [← root_unique hu h1 h2 hb (hwithout b hx)]
            exact hroot
        refine ⟨⟨fun _ => ⟨hgen, hall⟩, fun _ => ⟨c, rfl, (hspec.1 c rfl).1⟩⟩,
          ⟨fun hc => (nomatch hc), fun hn => absurd hgen hn⟩, fun b leaf => ⟨fun hc => (nomatch hc), ?_⟩⟩
        rintro ⟨rfl, hb1, hb2, hb3⟩
        exact absurd (hall b hb2) hb3

/-- A store can be made exactly if no name is empty and no name is held by two providers. -/
theorem C66_names (ps : List Provider) (default : Option Str) :
    (∃ S, create ps default = .ok S) ↔
      (∀ p ∈ ps, ∀ e ∈ p.metadata, e.1 ≠ []) ∧
      ps.Pairwise fun p q => ∀ e ∈ q.metadata, ∀ e' ∈ p.metadata, e.1 ≠ e'.1 := by
  have hck : ∀ (before : List Provider) (p : Provider) (es : List (Str × Meta)),
      checkNames before p es = .ok () ↔
        ∀ e ∈ es, e.1 ≠ [] ∧ ∀ q ∈ before, ∀ e' ∈ q.metadata, e.1 ≠ e'.1 := by
    intro before p es
    induction es with
    | nil => simp [checkNames]
    | cons e es ih =>
      obtain ⟨n, m⟩ := e
      rw [checkNames]
      split
      · rename_i hn
        simp [hn]
      · rename_i hn
        split
        · rename_i hb
          obtain ⟨q, hq, hl⟩ := List.any_eq_true.1 hb
          obtain ⟨m', hm'⟩ := Option.isSome_iff_exists.1 hl
          constructor
          · intro h; cases h
          · intro h
            exact absurd rfl ((h (n, m) (by simp)).2 q hq (n, m') (mem_of_lookup _ _ _ hm'))
        · rename_i hb
          rw [ih]
          simp only [List.forall_mem_cons]
          refine ⟨fun h => ⟨⟨hn, fun q hq e' he' hne => hb ?_⟩, h⟩, fun h => h.2⟩
          refine List.any_eq_true.2 ⟨q, hq, ?_⟩
          cases hl : lookup n q.metadata with
          | some _ => rfl
          | none =>
            exfalso
            have : ∀ es : List (Str × Meta), e' ∈ es → lookup n es ≠ none := by
              intro es
              induction es with
              | nil => exact fun h => absurd h List.not_mem_nil
              | cons x es ih =>
                obtain ⟨k, v⟩ := x
                intro hm
                rw [lookup]
                split
                · exact Option.some_ne_none _
                · rename_i hk
                  rcases List.mem_cons.1 hm with rfl | hm
                  · exact absurd hne.symm hk
                  · exact ih hm
            exact this _ he' hl
  have hadd : ∀ (ps before : List Provider), (∃ r, addProviders before ps = .ok r) ↔
      (∀ p ∈ ps, ∀ e ∈ p.metadata, e.1 ≠ []) ∧
      (∀ p ∈ ps, ∀ q ∈ before, ∀ e ∈ p.metadata, ∀ e' ∈ q.metadata, e.1 ≠ e'.1) ∧
      ps.Pairwise fun p q => ∀ e ∈ q.metadata, ∀ e' ∈ p.metadata, e.1 ≠ e'.1 := by
    intro ps
    induction ps with
    | nil => intro before; simp [addProviders]
    | cons p ps ih =>
      intro before
      have hstep : (∃ r, addProviders before (p :: ps) = .ok r) ↔
          checkNames before p p.metadata = .ok () ∧ ∃ r, addProviders (before ++ [p]) ps = .ok r := by
        rw [addProviders]
        cases hc : checkNames before p p.metadata with
        | error e =>
          constructor
          · rintro ⟨r, hr⟩; cases hr
          · rintro ⟨h, _⟩; cases h
        | ok _ => exact ⟨fun h => ⟨rfl, h⟩, fun h => h.2⟩
      rw [hstep, hck, ih]
      simp only [List.forall_mem_cons, List.pairwise_cons, List.forall_mem_append]
      constructor
      · rintro ⟨h1, h2, h3, h4⟩
        exact ⟨⟨fun e he => (h1 e he).1, h2⟩, ⟨fun q hq e he => (h1 e he).2 q hq, fun p' hp' => (h3 p' hp').1⟩,
          fun q hq => (h3 q hq).2.1, h4⟩
      · rintro ⟨⟨h1, h2⟩, ⟨h3, h4⟩, h5, h6⟩
        exact ⟨fun e he => ⟨h1 e he, fun q hq => h3 q hq e he⟩, h2,
          fun q hq => ⟨h4 q hq, h5 q hq, fun _ h => absurd h List.not_mem_nil⟩, h6⟩
  have := hadd ps []
  simp only [List.not_mem_nil, false_implies, implies_true, true_and] at this
  rw [← this]
  unfold create
  constructor
  · rintro ⟨S, h⟩
    cases hp : addProviders [] ps with
    | error e => rw [hp] at h; cases h
    | ok r => exact ⟨r, rfl⟩
  · rintro ⟨r, hr⟩
    rw [hr]
    exact ⟨_, rfl⟩

/-! ### A store for the examples and witnesses -/

private def s (x : String) : Str := x.toList

/-- `tiny` has `llama` as its base; the user has an entry of their own for `llama`. -/
private def shop : List Provider :=
  [⟨s "pkg", [(s "llama@", [(s "arch", .str (s "big")), (s "lr", .other 1)]),
    (s "tiny@", [(s "base", .str (s "llama")), (s "arch", .str (s "small"))])]⟩,
   ⟨s "home", [(s "llama@user", [(s "lr", .other 2)])]⟩]

private theorem shop_good : ∀ p ∈ shop, GoodProvider p := by
  unfold GoodProvider
  decide

private theorem shop_store : create shop none = .ok ⟨[s "user"], shop⟩ := by rfl

private theorem trimmed_self (a : Str) (h1 : ∀ c, a.head? = some c → ¬ c.isWhitespace)
    (h2 : ∀ c, a.getLast? = some c → ¬ c.isWhitespace) : Trimmed a a :=
  ⟨[], [], by simp, by simp, by simp, h1, h2⟩

private theorem asks_tiny : AsksFor none (s " tiny") (s "tiny") [s "user"] :=
  .bare (by decide) ⟨[' '], [], by decide, by decide, by simp, by decide, by decide⟩ (fun _ h => nomatch h)

private theorem tiny_card : retrieve ⟨[s "user"], shop⟩ (s " tiny") =
    some (.ok (.mk (s "tiny")
      [(s "base", .str (s "llama")), (s "arch", .str (s "small")), (s "__source__", .str (s "pkg"))]
      (some (.mk (s "llama") [(s "arch", .str (s "big")), (s "lr", .other 2), (s "__source__", .str (s "home"))]
        none)))) := by
  rw [retrieve, maybeRetrieve]
  show Option.map _ (doRetrieve shop (s "tiny") (s "tiny") [s "user"]) = _
  rw [doRetrieve]
  show Option.map _ (do
    let r ← doRetrieve shop (s "llama") (s "tiny") [s "user"]
    some (r.map fun base => some (Card.mk (s "tiny") _ base))) = _
  rw [doRetrieve]
  rfl

/-- The hypotheses are met: the learning rate of `tiny` is that of the user's entry of its base. -/
example : Gets shop [s "user"] (s "tiny") (s "lr") (.other 2) :=
  (C66_precedence shop_good shop_store asks_tiny tiny_card (by decide) (.other 2)).1 rfl

example : ¬ ∃ v, Gets shop [s "user"] (s "tiny") (s "seed") v :=
  (C66_missing_field shop_good shop_store asks_tiny tiny_card (f := s "seed") (by decide)).1.1 rfl

example : Acc (BaseOf shop [s "user"]) (s "tiny") :=
  (C66_ends_partial shop_good shop_store asks_tiny (by decide)).1 (by rw [tiny_card]; rfl)

example : ∀ b, Ancestor shop [s "user"] (s "tiny") b → ∃ g, HasEntry shop (b ++ ['@']) g :=
  ((C66_result shop_good shop_store asks_tiny (by decide) tiny_card).1.1 ⟨_, rfl, rfl⟩).2

/-! ### Disagreements -/

/-- Not every lookup terminates: with a card that is its own base, a store can be made, and retrieving the card
does not end (in Python: `RecursionError`). -/
theorem C66_cycle :
    ∃ (ps : List Provider) (S : Store) (name : Str), (∀ p ∈ ps, GoodProvider p) ∧ create ps none = .ok S ∧
      retrieve S name = none := by
  refine ⟨[⟨[], [(s "a@", [(s "base", .str (s "b"))]), (s "b@", [(s "base", .str (s "a"))])]⟩], _, s "a", ?_, rfl, ?_⟩
  · unfold GoodProvider
    decide
  · have hps : ∀ p ∈ [(⟨[], [(s "a@", [(s "base", .str (s "b"))]), (s "b@", [(s "base", .str (s "a"))])]⟩ :
        Provider)], GoodProvider p := by unfold GoodProvider; decide
    have hask : AsksFor none (s "a") (s "a") [s "user"] :=
      .bare (by decide) (trimmed_self _ (by decide) (by decide)) (fun _ h => nomatch h)
    have he := C66_ends_partial hps rfl hask (by decide)
    rw [← Option.not_isSome_iff_eq_none, he]
    have hbase : ∀ x y : Char, ∀ m, HasEntry [(⟨[], [(s "a@", [(s "base", .str (s "b"))]),
        (s "b@", [(s "base", .str (s "a"))])]⟩ : Provider)] [x, '@'] m → lookup (s "base") m = some (.str [y]) →
        (¬ ∃ m, HasEntry [(⟨[], [(s "a@", [(s "base", .str (s "b"))]),
        (s "b@", [(s "base", .str (s "a"))])]⟩ : Provider)] ([x] ++ '@' :: s "user") m) →
        BaseOf [(⟨[], [(s "a@", [(s "base", .str (s "b"))]),
        (s "b@", [(s "base", .str (s "a"))])]⟩ : Provider)] [s "user"] [y] [x] := by
      intro x y m h1 h2 h3
      refine .general h1 ?_ h2
      rintro e m' ⟨pre, post, hp, _, he⟩
      cases pre with
      | nil => cases hp; exact absurd ⟨m', he⟩ h3
      | cons z pre => cases pre <;> cases hp
    have hcyc : ∀ a, Acc (BaseOf [(⟨[], [(s "a@", [(s "base", .str (s "b"))]),
        (s "b@", [(s "base", .str (s "a"))])]⟩ : Provider)] [s "user"]) a → a ≠ s "a" ∧ a ≠ s "b" := by
      intro a ha
      induction ha with
      | intro a _ ih =>
        constructor
        · rintro rfl
          refine (ih (s "b") (hbase 'a' 'b' _ ⟨_, List.mem_singleton.2 rfl, rfl⟩ rfl ?_)).2 rfl
          rintro ⟨m, p, hp, hm⟩
          rw [List.mem_singleton] at hp
          subst hp
          cases hm
        · rintro rfl
          refine (ih (s "a") (hbase 'b' 'a' _ ⟨_, List.mem_singleton.2 rfl, rfl⟩ rfl ?_)).1 rfl
          rintro ⟨m, p, hp, hm⟩
          rw [List.mem_singleton] at hp
          subst hp
          cases hm
    exact fun h => (hcyc _ h).1 rfl

/-- An asset that has an entry for the environment that is asked for, but no general entry, is not found. -/
theorem C66_environment_only :
    ∃ (ps : List Provider) (S : Store), create ps none = .ok S ∧
      (∃ m, HasEntry ps (s "a@user") m) ∧ retrieve S (s "a") = some (.error (.notFound (s "a"))) := by
  refine ⟨[⟨[], [(s "a@user", [(s "x", .null)])]⟩], _, rfl, ⟨_, _, List.mem_singleton.2 rfl, rfl⟩, ?_⟩
  rw [retrieve, maybeRetrieve]
  show Option.map _ (doRetrieve _ (s "a") (s "a") [s "user"]) = _
  rw [doRetrieve]
  rfl

/-- A relative path that is inherited is taken relative to the directory of the card that inherits it, not of
the card that has the field. -/
theorem C66_relative_path (P : Paths) (dir dir' rel : Str) (hu : P.isUri rel = false)
    (ha : P.isAbsolute rel = false) :
    ∃ base card : Card, base.field (s "checkpoint") = .ok (.str rel) ∧
      card.field (s "checkpoint") = .ok (.str rel) ∧ lookup (s "checkpoint") card.metadata = none ∧
      lookup (s "__base_path__") base.metadata = some (.path dir) ∧
      asUri P base (s "checkpoint") (.str rel) = .ok (.file (P.join dir rel)) ∧
      asUri P card (s "checkpoint") (.str rel) = .ok (.file (P.join dir' rel)) := by
  refine ⟨.mk (s "b") [(s "__base_path__", .path dir), (s "checkpoint", .str rel)] none,
    .mk (s "a") [(s "__base_path__", .path dir')]
      (some (.mk (s "b") [(s "__base_path__", .path dir), (s "checkpoint", .str rel)] none)),
    rfl, rfl, rfl, rfl, ?_, ?_⟩
  · rw [asUri, hu, ha]; rfl
  · rw [asUri, hu, ha]; rfl

/-- Metadata in memory whose base name has white space around it are accepted, although the base asset is then
not found; in a file the same base name is found. -/
theorem C66_in_memory_base :
    ∃ (entries : List (Str × Meta)) (p : Provider) (S : Store), loadInMemory [] entries [] = .ok p ∧
      create [p] none = .ok S ∧ treatBase true [] [(s "base", .str (s " b"))] = .ok [(s "base", .str (s "b"))] ∧
      (s "a", [(s "base", .str (s " b"))]) ∈ entries ∧ (∃ m, HasEntry [p] (s "b@") m) ∧
      retrieve S (s "a") = some (.error (.noBase (s " b") (s "a"))) := by
  refine ⟨[(s "a", [(s "base", .str (s " b"))]), (s "b", [])], _, _, rfl, rfl, by rfl, by simp,
    ⟨_, _, List.mem_singleton.2 rfl, rfl⟩, ?_⟩
  rw [retrieve, maybeRetrieve]
  show Option.map _ (doRetrieve _ (s "a") (s "a") [s "user"]) = _
  rw [doRetrieve]
  show Option.map _ (do
    let r ← doRetrieve _ (s " b") (s "a") [s "user"]
    some (r.map fun base => some (Card.mk (s "a") _ base))) = _
  rw [doRetrieve]
  rfl

end Fs2.Props
