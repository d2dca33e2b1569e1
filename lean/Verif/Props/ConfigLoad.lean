import Verif.Props.Directives
import Verif.Props.ConfigArgs

/-!
Property C83: configurations of assets and recipes.
-/

namespace Fs2.Props

open Fs2.Config

/-! ### Specification -/

/-- Directives leave every string in a value as it is. -/
inductive Settled (ds : List Directive) : Val → Prop where
  | null : Settled ds .null
  | num (n : Int) : Settled ds (.num n)
  | str (s : String) : (∀ d ∈ ds, d s = some (.str s)) → Settled ds (.str s)
  | list (l : List Val) : (∀ v ∈ l, Settled ds v) → Settled ds (.list l)
  | map (es : Entries) : (∀ e ∈ es, Settled ds e.2) → Settled ds (.map es)

/-! ### Lemmas -/

private theorem run_settled {ds : List Directive} {s : String} (h : ∀ d ∈ ds, d s = some (.str s)) :
    runDirectives ds s = some (.str s) := by
  induction ds with
  | nil => rfl
  | cons d ds ih =>
    rw [runDirectives, h d (by simp)]
    exact ih fun d hd => h d (by simp [hd])

private theorem list_settled {ds : List Directive} {l : List Val} (h : ∀ v ∈ l, processVal ds v = some v) :
    processList ds l = some l := by
  induction l with
  | nil => rw [processList]
  | cons v l ih => rw [processList, h v (by simp), ih fun v hv => h v (by simp [hv])]; rfl

private theorem entries_settled {ds : List Directive} {es : Entries} (h : ∀ e ∈ es, processVal ds e.2 = some e.2) :
    processEntries ds es = some es := by
  induction es with
  | nil => rw [processEntries]
  | cons e es ih =>
    obtain ⟨k, v⟩ := e
    rw [processEntries, h (k, v) (by simp), ih fun e he => h e (by simp [he])]
    rfl

private theorem val_settled {ds : List Directive} {v : Val} (h : Settled ds v) : processVal ds v = some v := by
  induction h with
  | null => rw [processVal]
  | num n => rw [processVal]
  | str s hs => rw [processVal]; exact run_settled hs
  | list l _ ih => rw [processVal, list_settled ih]; rfl
  | map es _ ih => rw [processVal, entries_settled ih]; rfl

private theorem at_placed (p : List Key) (v : Val) : at? p v = placed (p.map .key) v := by
  induction p generalizing v with
  | nil => rfl
  | cons k p ih =>
    cases v with
    | map es =>
      simp only [at?, List.map_cons, placed]
      cases lookup k es with
      | none => rfl
      | some x => exact ih x
    | _ => rfl

/-- What processing makes of the value at a path. -/
private theorem at_process {defaults ds : List Directive} (ht : TextOnly (defaults ++ ds)) {c c' v : Val}
    {p : List Key} (h : process defaults ds c = some c') (hv : at? p c = some v) :
    ∃ v', at? p c' = some v' ∧ processVal (defaults ++ ds) v = some v' := by
  obtain ⟨c'', h1, h2⟩ := process_some defaults ds ht c
  rw [h] at h1; cases h1
  rw [at_placed] at hv ⊢
  rcases placed_process _ (p.map .key) c c' ht h2 with ⟨e1, -⟩ | ⟨x, x', e1, e2, e3⟩
  · rw [e1] at hv; cases hv
  · rw [e1] at hv; cases hv; exact ⟨x', e2, e3⟩

private theorem at_settled {defaults ds : List Directive} (ht : TextOnly (defaults ++ ds)) {c c' v : Val}
    {p : List Key} (h : process defaults ds c = some c') (hv : at? p c = some v) (hs : Settled (defaults ++ ds) v) :
    at? p c' = some v := by
  obtain ⟨v', h1, h2⟩ := at_process ht h hv
  rw [val_settled hs] at h2; cases h2
  exact h1

private theorem loop_append (defaults : List Directive) (c : Val) (xs ys : List (String × Val)) :
    assetLoop defaults c (xs ++ ys) =
      match assetLoop defaults c xs with
      | .ok c => assetLoop defaults c ys
      | .error n => .error n := by
  induction xs generalizing c with
  | nil => rfl
  | cons x xs ih =>
    obtain ⟨n, o⟩ := x
    rw [List.cons_append, assetLoop, assetLoop]
    cases merge c o with
    | none => rfl
    | some c1 =>
      simp only
      cases process defaults [] c1 with
      | none => rfl
      | some c2 => exact ih c2

private theorem loop_kept {defaults : List Directive} (ht : TextOnly defaults) {p : List Key} {v : Val}
    (hs : Settled defaults v) (os : List (String × Val)) (ho : ∀ e ∈ os, ProperVal e.2 ∧ ¬ Touches e.2 p) :
    ∀ c m, assetLoop defaults c os = .ok m → at? p c = some v → at? p m = some v := by
  induction os with
  | nil => intro c m h hv; cases h; exact hv
  | cons e os ih =>
    intro c m h hv
    obtain ⟨n, o⟩ := e
    rw [assetLoop] at h
    cases hm : merge c o with
    | none => rw [hm] at h; cases h
    | some c1 =>
      rw [hm] at h
      simp only at h
      cases hp : process defaults [] c1 with
      | none => rw [hp] at h; cases h
      | some c2 =>
        rw [hp] at h
        have h1 := ho (n, o) (by simp)
        have hu := C64_untouched c o c1 h1.1 hm p h1.2
        rw [hv] at hu
        exact ih (fun e he => ho e (by simp [he])) c2 m h
          (at_settled (ds := []) (by rwa [List.append_nil]) hp hu (by rwa [List.append_nil]))

private theorem overrides_split (derived bases : List (String × Option Val)) (n : String) (o : Val) :
    cardOverrides (derived ++ (n, some o) :: bases) =
      cardOverrides bases ++ (n, o) :: cardOverrides derived := by
  unfold cardOverrides
  rw [List.filterMap_append, List.filterMap_cons]
  simp

private theorem mem_overrides {cards : List (String × Option Val)} {n : String} {o : Val} :
    (n, o) ∈ cardOverrides cards ↔ (n, some o) ∈ cards := by
  unfold cardOverrides
  rw [List.mem_reverse, List.mem_filterMap]
  constructor
  · rintro ⟨⟨a, b⟩, hc, h⟩
    cases b with
    | none => cases h
    | some b => cases h; exact hc
  · intro h; exact ⟨_, h, rfl⟩

private theorem loop_total {defaults : List Directive} (ht : TextOnly defaults) (os : List (String × Val))
    (ho : ∀ e ∈ os, ProperVal e.2 ∧ ¬ Malformed e.2) (c : Val) : ∃ m, assetLoop defaults c os = .ok m := by
  induction os generalizing c with
  | nil => exact ⟨c, rfl⟩
  | cons e os ih =>
    obtain ⟨n, o⟩ := e
    have h1 := ho (n, o) (by simp)
    rw [assetLoop]
    cases hm : merge c o with
    | none => exact (h1.2 ((C64_error c o h1.1).1 hm)).elim
    | some c1 =>
      obtain ⟨c2, h2, -⟩ := process_some defaults [] (by rwa [List.append_nil]) c1
      simp only [h2]
      exact ih (fun e he => ho e (by simp [he])) c2

private theorem load_ok {C : Type} {defaults : List Directive} {unstructure : C → Option Val}
    {structure' : Val → Option C} {name : String} {cards : List (String × Option Val)} {base r : C}
    (h : assetLoad defaults unstructure structure' name cards base = .ok r) (hne : cardOverrides cards ≠ []) :
    ∃ c m, unstructure base = some c ∧ assetLoop defaults c (cardOverrides cards) = .ok m ∧ structure' m = some r := by
  unfold assetLoad at h
  rw [if_neg (by simpa using hne)] at h
  cases hu : unstructure base with
  | none => rw [hu] at h; cases h
  | some c =>
    rw [hu] at h
    simp only at h
    cases hl : assetLoop defaults c (cardOverrides cards) with
    | error n => rw [hl] at h; cases h
    | ok m =>
      rw [hl] at h
      simp only at h
      cases hs : structure' m with
      | none => rw [hs] at h; cases h
      | some r' => rw [hs] at h; cases h; exact ⟨c, m, rfl, hl, hs⟩

/-! ### C83: assets -/

/-- **The card nearest to the asset decides.** A value that a card asks for is in the configuration, unless a card
derived from it mentions the path. `derived` are the cards from the asset's own up to this one, `bases` those that this
one is derived from. Values with directives in them are excepted: see `C83_reexpanded_negation`. -/
theorem C83_asset_given_partial {C : Type} (defaults : List Directive) (ht : TextOnly defaults)
    (unstructure : C → Option Val) (structure' : Val → Option C) (name : String)
    (derived bases : List (String × Option Val)) (n : String) (o : Val) (base r : C)
    (h : assetLoad defaults unstructure structure' name (derived ++ (n, some o) :: bases) base = .ok r)
    (hproper : ProperVal o ∧ ∀ n' o', (n', some o') ∈ derived → ProperVal o') (p : List Key) (v : Val)
    (hasks : Asks o p v) (hs : Settled defaults v)
    (hder : ∀ n' o', (n', some o') ∈ derived → ¬ Touches o' p) :
    ∃ m, structure' m = some r ∧ at? p m = some v := by
  obtain ⟨c, m, -, hl, hr⟩ := load_ok h (by rw [overrides_split]; simp)
  refine ⟨m, hr, ?_⟩
  rw [overrides_split, loop_append] at hl
  cases hb : assetLoop defaults c (cardOverrides bases) with
  | error e => rw [hb] at hl; cases hl
  | ok c0 =>
    rw [hb] at hl
    simp only at hl
    rw [assetLoop] at hl
    cases hm : merge c0 o with
    | none => rw [hm] at hl; cases hl
    | some c1 =>
      rw [hm] at hl
      simp only at hl
      cases hp : process defaults [] c1 with
      | none => rw [hp] at hl; cases hl
      | some c2 =>
        rw [hp] at hl
        have h1 := C64_asked c0 o c1 hproper.1 hm p v hasks
        refine loop_kept ht hs _ ?_ c2 m hl
          (at_settled (ds := []) (by rwa [List.append_nil]) hp h1 (by rwa [List.append_nil]))
        rintro ⟨n', o'⟩ he
        have := mem_overrides.1 he
        exact ⟨hproper.2 n' o' this, hder n' o' this⟩

/-- A card that asks for `model.layers = 4`, and one derived from it that asks for something else. -/
example : let o := Val.map [(.str "model", .map [(.str "layers", .num 4)])]
    let o' := Val.map [(.str "model", .map [(.str "heads", .num 2)])]
    ProperVal o ∧ ProperVal o' ∧ Asks o [.str "model", .str "layers"] (.num 4) ∧ Settled [] (.num 4) ∧
    ¬ Touches o' [.str "model", .str "layers"] := by
  refine ⟨?_, ?_, ?_, .num 4, ?_⟩
  · exact .map _ (by simp) (by simp; exact .map _ (by simp) (by simp; exact .num 4))
  · exact .map _ (by simp) (by simp; exact .map _ (by simp) (by simp; exact .num 2))
  · simp [Asks, Sets, Overrides, lookup, IsMap]
  · simp [Touches, Sets, Deletes, Overrides, lookup]

/-- **What no card mentions stays as in the base configuration**, and with no overrides at all the base
configuration itself is given. Values with directives in them are excepted. -/
theorem C83_asset_kept_partial {C : Type} (defaults : List Directive) (ht : TextOnly defaults)
    (unstructure : C → Option Val) (structure' : Val → Option C) (name : String)
    (cards : List (String × Option Val)) (base : C) :
    ((∀ n o, (n, some o) ∉ cards) → assetLoad defaults unstructure structure' name cards base = .ok base) ∧
    ∀ (r : C) (c : Val) (p : List Key) (v : Val),
      assetLoad defaults unstructure structure' name cards base = .ok r →
      (∃ n o, (n, some o) ∈ cards) → (∀ n o, (n, some o) ∈ cards → ProperVal o ∧ ¬ Touches o p) →
      unstructure base = some c → at? p c = some v → Settled defaults v →
      ∃ m, structure' m = some r ∧ at? p m = some v := by
  constructor
  · intro h
    have : cardOverrides cards = [] := by
      rw [List.eq_nil_iff_forall_not_mem]
      rintro ⟨n, o⟩ hc
      exact h n o (mem_overrides.1 hc)
    unfold assetLoad
    rw [this]; rfl
  · rintro r c p v h ⟨n, o, hno⟩ hall hu hv hs
    have hne : cardOverrides cards ≠ [] := by
      intro he
      have := mem_overrides.2 hno
      rw [he] at this; cases this
    obtain ⟨c', m, hu', hl, hr⟩ := load_ok h hne
    rw [hu] at hu'; cases hu'
    refine ⟨m, hr, loop_kept ht hs _ ?_ c m hl hv⟩
    rintro ⟨n', o'⟩ he
    exact hall n' o' (mem_overrides.1 he)

/-- **Errors name the card at fault.** With malformed overrides somewhere in the chain, loading fails with the name of
the card nearest to the end of the chain that has them; otherwise it fails only if the configuration cannot be taken
apart or the result cannot be put together, with the name of the asset. -/
theorem C83_asset_error {C : Type} (defaults : List Directive) (ht : TextOnly defaults)
    (unstructure : C → Option Val) (structure' : Val → Option C) (name : String)
    (cards : List (String × Option Val)) (hproper : ∀ n o, (n, some o) ∈ cards → ProperVal o) (base : C) (c : Val)
    (hu : unstructure base = some c) :
    (∀ derived bases n o, cards = derived ++ (n, some o) :: bases → Malformed o →
      (∀ n' o', (n', some o') ∈ bases → ¬ Malformed o') →
      assetLoad defaults unstructure structure' name cards base = .error n) ∧
    ((∀ n o, (n, some o) ∈ cards → ¬ Malformed o) →
      (∃ r, assetLoad defaults unstructure structure' name cards base = .ok r) ∨
      (∃ m, structure' m = none) ∧ assetLoad defaults unstructure structure' name cards base = .error name) := by
  constructor
  · intro derived bases n o hc hm hb
    subst hc
    obtain ⟨c0, h0⟩ := loop_total ht (cardOverrides bases) (by
      rintro ⟨n', o'⟩ he
      have := mem_overrides.1 he
      exact ⟨hproper n' o' (by simp [this]), hb n' o' this⟩) c
    have hl : assetLoop defaults c (cardOverrides (derived ++ (n, some o) :: bases)) = .error n := by
      rw [overrides_split, loop_append, h0]
      simp only
      rw [assetLoop, (C64_error c0 o (hproper n o (by simp))).2 hm]
    unfold assetLoad
    rw [if_neg (by rw [overrides_split]; simp), hu]
    simp only [hl]
  · intro hno
    by_cases he : cardOverrides cards = []
    · refine .inl ⟨base, ?_⟩
      unfold assetLoad
      rw [he]; rfl
    · obtain ⟨m, hm⟩ := loop_total ht (cardOverrides cards) (by
        rintro ⟨n', o'⟩ he
        have := mem_overrides.1 he
        exact ⟨hproper n' o' this, hno n' o' this⟩) c
      unfold assetLoad
      rw [if_neg (by simpa using he), hu]
      simp only [hm]
      cases hs : structure' m with
      | none => exact .inr ⟨⟨m, hs⟩, rfl⟩
      | some r => exact .inl ⟨r, rfl⟩

/-- A `_del_` that is no list. -/
example : Malformed (.map [(.str "_del_", .num 1)]) :=
  .del _ (.num 1) (by simp [lookup]) (by simp) (by simp)

/-- **Violation.** The whole configuration is processed once for every card, so that a value taken from the environment
is searched for references again if, and only if, another card is derived from this one: with `A` set to `${env:B}` and
`B` set to `x`, the value `${env:A}` becomes `${env:B}` in the base card's own configuration, and `x` in that of a card
derived from it which only sets something else. -/
theorem C83_reexpanded_negation :
    let env : Str → Option Str := fun n =>
      if n = "A".toList then some "${env:B}".toList else if n = "B".toList then some "x".toList else none
    let baseCard : String × Option Val := ("base", some (.map [(.str "path", .str "${env:A}")]))
    let derivedCard : String × Option Val := ("derived", some (.map [(.str "size", .num 2)]))
    let load := fun name cards => assetLoad [envDirective env] some some name cards (.map [])
    load "base" [baseCard] = .ok (.map [(.str "path", .str "${env:B}")]) ∧
    load "derived" [derivedCard, baseCard] = .ok (.map [(.str "path", .str "x"), (.str "size", .num 2)]) := by
  intro env baseCard derivedCard load
  have e1 : replaceEnv env "${env:A}".toList = "${env:B}".toList := by
    rw [← C82_env]
    have h : EnvRef "${env:A}".toList "A".toList none := .plain ['A'] ⟨'A', [], rfl, by decide, by simp⟩
    have := Expands.ref (env := env) _ _ _ _ "${env:B}".toList none h (.inl (by decide)) .nil
    simpa using this
  have e2 : replaceEnv env "${env:B}".toList = "x".toList := by
    rw [← C82_env]
    have h : EnvRef "${env:B}".toList "B".toList none := .plain ['B'] ⟨'B', [], rfl, by decide, by simp⟩
    have := Expands.ref (env := env) _ _ _ _ "x".toList none h (.inl (by decide)) .nil
    simpa using this
  have d1 : envDirective env "${env:A}" = some (.str "${env:B}") := by
    unfold envDirective; rw [e1]; rfl
  have d2 : envDirective env "${env:B}" = some (.str "x") := by
    unfold envDirective; rw [e2]; rfl
  have m1 : merge (.map []) (.map [(.str "path", .str "${env:A}")]) =
      some (.map [(.str "path", .str "${env:A}")]) := by
    simp [merge, mergeVal, delKeys, lookup, delKey, setKey, entriesOf, mergeEntries, mergeEntry, put, applySet]
  have m2 : merge (.map [(.str "path", .str "${env:B}")]) (.map [(.str "size", .num 2)]) =
      some (.map [(.str "path", .str "${env:B}"), (.str "size", .num 2)]) := by
    simp [merge, mergeVal, delKeys, lookup, delKey, setKey, entriesOf, mergeEntries, mergeEntry, put, applySet]
  have p1 : process [envDirective env] [] (.map [(.str "path", .str "${env:A}")]) =
      some (.map [(.str "path", .str "${env:B}")]) := by
    simp [process, processVal, processEntries, runDirectives, d1]
  have p2 : process [envDirective env] [] (.map [(.str "path", .str "${env:B}"), (.str "size", .num 2)]) =
      some (.map [(.str "path", .str "x"), (.str "size", .num 2)]) := by
    simp [process, processVal, processEntries, runDirectives, d2]
  constructor
  · simp [load, assetLoad, cardOverrides, baseCard, assetLoop, m1, p1]
  · simp [load, assetLoad, cardOverrides, baseCard, derivedCard, assetLoop, m1, p1, m2, p2]

/-! ### C83: recipes -/

private theorem options_kept {p : List Key} (os : List Val) (ho : ∀ o ∈ os, ProperVal o ∧ ¬ Touches o p) :
    ∀ c m, applyOptions c os = some m → at? p m = at? p c := by
  induction os with
  | nil => intro c m h; cases h; rfl
  | cons o os ih =>
    intro c m h
    rw [applyOptions] at h
    cases hm : merge c o with
    | none => rw [hm] at h; cases h
    | some c1 =>
      rw [hm] at h
      have h1 := ho o (by simp)
      rw [ih (fun o ho' => ho o (by simp [ho'])) c1 m h, C64_untouched c o c1 h1.1 hm p h1.2]

private theorem options_append (xs ys : List Val) (c : Val) :
    applyOptions c (xs ++ ys) = (applyOptions c xs).bind fun c => applyOptions c ys := by
  induction xs generalizing c with
  | nil => rfl
  | cons x xs ih =>
    rw [List.cons_append, applyOptions, applyOptions]
    cases merge c x with
    | none => rfl
    | some c1 => exact ih c1

/-- **The command line has the last word**: what an option asks for is in the configuration, exactly as written, unless
a later option mentions the path. -/
theorem C83_recipe_option (defaults : List Directive) (config : Val) (file : Option (Str × List Val))
    (before after : List Val) (o m : Val) (h : recipeLoad defaults config file (before ++ o :: after) = some m)
    (hproper : ProperVal o ∧ ∀ o' ∈ after, ProperVal o') (p : List Key) (v : Val) (hasks : Asks o p v)
    (hlater : ∀ o' ∈ after, ¬ Touches o' p) : at? p m = some v := by
  unfold recipeLoad at h
  rw [Option.bind_eq_some_iff] at h
  obtain ⟨c, -, h⟩ := h
  rw [options_append, Option.bind_eq_some_iff] at h
  obtain ⟨c1, -, h⟩ := h
  rw [applyOptions, Option.bind_eq_bind, Option.bind_eq_some_iff] at h
  obtain ⟨c2, hm, h⟩ := h
  rw [options_kept after (fun o' ho' => ⟨hproper.2 o' ho', hlater o' ho'⟩) c2 m h]
  exact C64_asked c1 o c2 hproper.1 hm p v hasks

/-- **Then the file**: what it asks for is in the configuration unless an option mentions the path. Strings have their
directives carried out once, first the default ones and then that for the file's directory; other values that hold no
directives are as written. -/
theorem C83_recipe_file (defaults : List Directive) (config doc : Val) (docs : List Val) (dir : Str)
    (ht : TextOnly (defaults ++ [pathDirective dir])) (options : List Val) (m : Val)
    (h : recipeLoad defaults config (some (dir, doc :: docs)) options = some m)
    (hproper : ProperVal doc ∧ ∀ o ∈ options, ProperVal o) (p : List Key) (v : Val)
    (hasks : Asks doc p v ∨ ¬ Touches doc p ∧ at? p config = some v)
    (hopt : ∀ o ∈ options, ¬ Touches o p) :
    (∀ s, v = .str s → ∃ s', at? p m = some (.str s') ∧ Chain (defaults ++ [pathDirective dir]) s s') ∧
    (Settled (defaults ++ [pathDirective dir]) v → at? p m = some v) := by
  unfold recipeLoad at h
  rw [Option.bind_eq_some_iff] at h
  obtain ⟨c, h1, h⟩ := h
  rw [fileConfig, Option.bind_eq_some_iff] at h1
  obtain ⟨c0, hm, hp⟩ := h1
  rw [options_kept options (fun o' ho' => ⟨hproper.2 o' ho', hopt o' ho'⟩) c m h]
  have hv : at? p c0 = some v := by
    rcases hasks with ha | ⟨hn, ha⟩
    · exact C64_asked config doc c0 hproper.1 hm p v ha
    · rw [C64_untouched config doc c0 hproper.1 hm p hn, ha]
  refine ⟨fun s hs => ?_, fun hs => at_settled ht hp hv hs⟩
  subst hs
  obtain ⟨v', h1, h2⟩ := at_process ht hp hv
  rw [processVal] at h2
  obtain ⟨s', hs'⟩ := run_text _ ht s
  rw [hs'] at h2; cases h2
  exact ⟨s', h1, (run_chain _ ht s s').1 hs'⟩

example : let doc := Val.map [(.str "dir", .str "${dir}/data")]
    ProperVal doc ∧ Asks doc [.str "dir"] (.str "${dir}/data") ∧
    ¬ Touches (.map [(.str "_set_", .map [(.str "steps", .num 9)])]) [.str "dir"] := by
  refine ⟨.map _ (by simp) (by simp; exact .str _), ?_, ?_⟩
  · simp [Asks, Sets, Overrides, lookup, IsMap]
  · simp [Touches, Sets, Deletes, Overrides, lookup]

/-- **Then the defaults of the recipe**: without a file they are as they are wherever no option mentions them. -/
theorem C83_recipe_default (defaults : List Directive) (config : Val) (options : List Val) (m : Val)
    (h : recipeLoad defaults config none options = some m) (hproper : ∀ o ∈ options, ProperVal o) (p : List Key)
    (hopt : ∀ o ∈ options, ¬ Touches o p) : at? p m = at? p config := by
  unfold recipeLoad fileConfig at h
  rw [Option.bind_some] at h
  exact options_kept options (fun o' ho' => ⟨hproper o' ho', hopt o' ho'⟩) config m h

/-- **It fails only for malformed overrides or a file without a document.** -/
theorem C83_recipe_error (defaults : List Directive) (config : Val) (file : Option (Str × List Val))
    (options : List Val) (ht : ∀ dir, TextOnly (defaults ++ [pathDirective dir]))
    (hproper : (∀ dir doc docs, file = some (dir, doc :: docs) → ProperVal doc) ∧ ∀ o ∈ options, ProperVal o) :
    recipeLoad defaults config file options = none ↔
      (∃ dir, file = some (dir, [])) ∨ (∃ dir doc docs, file = some (dir, doc :: docs) ∧ Malformed doc) ∨
      ∃ o ∈ options, Malformed o := by
  have hopts : ∀ (os : List Val) (c : Val), (∀ o ∈ os, ProperVal o) →
      (applyOptions c os = none ↔ ∃ o ∈ os, Malformed o) := by
    intro os
    induction os with
    | nil => intro c _; simp [applyOptions]
    | cons o os ih =>
      intro c hp
      rw [applyOptions]
      have he := C64_error c o (hp o (by simp))
      cases hm : merge c o with
      | none =>
        exact ⟨fun _ => ⟨o, by simp, he.1 hm⟩, fun _ => rfl⟩
      | some c1 =>
        have : ¬ Malformed o := fun hc => by rw [he.2 hc] at hm; cases hm
        show applyOptions c1 os = none ↔ _
        rw [ih c1 fun o ho => hp o (by simp [ho])]
        simp [this]
  unfold recipeLoad
  cases file with
  | none =>
    rw [fileConfig, Option.bind_some]
    rw [hopts options config hproper.2]
    simp
  | some f =>
    obtain ⟨dir, docs⟩ := f
    cases docs with
    | nil => simp [fileConfig]
    | cons doc docs =>
      have he := C64_error config doc (hproper.1 dir doc docs rfl)
      rw [fileConfig]
      cases hm : merge config doc with
      | none => exact ⟨fun _ => .inr (.inl ⟨dir, doc, docs, rfl, he.1 hm⟩), fun _ => rfl⟩
      | some c0 =>
        have hnm : ¬ Malformed doc := fun hc => by rw [he.2 hc] at hm; cases hm
        obtain ⟨c1, hp, -⟩ := process_some defaults [pathDirective dir] (ht dir) c0
        simp only [Option.bind_some, hp]
        rw [hopts options c1 hproper.2]
        simp [hnm]

/-- **Violation.** Directives are carried out only if there is a file: with an empty mapping in the file, a reference in
the recipe's defaults is replaced; with no file it is not, and one given on the command line never is. -/
theorem C83_unexpanded_negation :
    let env : Str → Option Str := fun n => if n = "A".toList then some "x".toList else none
    let config := Val.map [(.str "path", .str "${env:A}")]
    recipeLoad [envDirective env] config (some ([], [.map []])) [] = some (.map [(.str "path", .str "x")]) ∧
    recipeLoad [envDirective env] config none [] = some (.map [(.str "path", .str "${env:A}")]) ∧
    recipeLoad [envDirective env] (.map []) (some ([], [.map []]))
      [.map [(.str "_set_", .map [(.str "path", .str "${env:A}")])]] =
        some (.map [(.str "path", .str "${env:A}")]) := by
  intro env config
  have e1 : replaceEnv env "${env:A}".toList = "x".toList := by
    rw [← C82_env]
    have h : EnvRef "${env:A}".toList "A".toList none := .plain ['A'] ⟨'A', [], rfl, by decide, by simp⟩
    have := Expands.ref (env := env) _ _ _ _ "x".toList none h (.inl (by decide)) .nil
    simpa using this
  have d1 : envDirective env "${env:A}" = some (.str "x") := by
    unfold envDirective; rw [e1]; rfl
  have d2 : pathDirective [] "x" = some (.str "x") := by
    unfold pathDirective
    have : replaceAll "${dir}".toList [] "x".toList = "x".toList := by
      rw [← C82_dir]
      exact .char 'x' [] [] (by decide) .nil
    rw [this]; rfl
  refine ⟨?_, ?_, ?_⟩
  · have m1 : merge config (.map []) = some config := by
      simp [config, merge, mergeVal, delKeys, lookup, entriesOf, mergeEntries, applySet]
    have p1 : process [envDirective env] [pathDirective []] config = some (.map [(.str "path", .str "x")]) := by
      simp [config, process, processVal, processEntries, runDirectives, d1, d2]
    simp [recipeLoad, fileConfig, m1, p1, applyOptions]
  · simp [recipeLoad, fileConfig, applyOptions, config]
  · have m1 : merge (.map []) (.map []) = some (.map []) := by
      simp [merge, mergeVal, delKeys, lookup, entriesOf, mergeEntries, applySet]
    have m2 : merge (.map []) (.map [(.str "_set_", .map [(.str "path", .str "${env:A}")])]) =
        some (.map [(.str "path", .str "${env:A}")]) := by
      simp [merge, mergeVal, delKeys, lookup, entriesOf, mergeEntries, mergeEntry, applySet, delKey, setKey, setOne, put]
    have p1 : process [envDirective env] [pathDirective []] (.map []) = some (.map []) := by
      simp [process, processVal, processEntries]
    simp [recipeLoad, fileConfig, m1, p1, applyOptions, m2]

end Fs2.Props
