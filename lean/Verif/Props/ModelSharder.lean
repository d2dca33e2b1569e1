import Verif.Shard.ModelSharder

/-!
# The model sharder

C116.
-/

namespace Fs2.Props

open Fs2.Sharder

/-! ### Specification -/

/-- `s` is the module at `path` below `m`. -/
inductive SitsAt : Mod → List String → Mod → Prop
  | here (m : Mod) : SitsAt m [] m
  | under (m : Mod) (name : String) (k : Mod) (path : List String) (s : Mod) (hk : (name, k) ∈ m.kids.toList)
      (h : SitsAt k path s) : SitsAt m (name :: path) s

/-- No pattern matches the path. -/
def Passed (specs : List Entry) (path : List String) : Prop := ∀ e ∈ specs, e.hits path = false

/-- `spec` is the specification of the first pattern that matches the path. -/
def Picked (specs : List Entry) (path : List String) (spec : Spec) : Prop :=
  ∃ before e after, specs = before ++ e :: after ∧ Passed before path ∧ e.hits path = true ∧ e.spec = spec

/-- No pattern matches a module on the way from `base` to `base ++ path`, the end included. -/
def Reached (specs : List Entry) (base path : List String) : Prop :=
  ∀ q, q ≠ [] → q <+: path → Passed specs (base ++ q)

/-- No module has one module as a child under two names. -/
def OneName (m : Mod) : Prop := ∀ path s, SitsAt m path s → (s.kids.toList.map fun k => k.2.id).Nodup

/-! ### Proofs -/

theorem picked_find {specs : List Entry} {path : List String} :
    (∃ e, specs.find? (fun e => e.hits path) = some e ∧ Picked specs path e.spec) ∨
    (specs.find? (fun e => e.hits path) = none ∧ Passed specs path) := by
  cases h : specs.find? (fun e => e.hits path) with
  | none =>
    refine .inr ⟨rfl, fun e he => ?_⟩
    simpa using List.find?_eq_none.1 h e he
  | some e =>
    obtain ⟨h1, as, bs, h2, h3⟩ := List.find?_eq_some_iff_append.1 h
    exact .inl ⟨e, rfl, as, e, bs, h2, fun a ha => by simpa using h3 a ha, h1, rfl⟩

theorem picked_unique {specs : List Entry} {path : List String} {spec : Spec} (h : Picked specs path spec) :
    ∃ e, specs.find? (fun e => e.hits path) = some e ∧ e.spec = spec := by
  obtain ⟨as, e, bs, rfl, h1, h2, h3⟩ := h
  exact ⟨e, List.find?_eq_some_iff_append.2 ⟨h2, as, bs, rfl, fun a ha => by simp [h1 a ha]⟩, h3⟩

theorem picked_not_passed {specs : List Entry} {path : List String} {spec : Spec} (h : Picked specs path spec)
    (h' : Passed specs path) : False := by
  obtain ⟨as, e, bs, rfl, h1, h2, h3⟩ := h
  rw [h' e (by simp)] at h2; cases h2

/-- What happens to a child of a module at `path`. -/
inductive Child (S : Sharders) (specs : List Entry) (path : List String) (name : String) (k : Mod) :
    Except Err Mod → Prop
  | sharded (spec f k') (hp : Picked specs (path ++ [name]) spec) (hS : S k.cls = some f) (hf : f spec k = some k') :
      Child S specs path name k (.ok k')
  | refused (spec e) (hp : Picked specs (path ++ [name]) spec)
      (hS : S k.cls = none ∨ ∃ f, S k.cls = some f ∧ f spec k = none) : Child S specs path name k (.error e)
  | walked (hp : Passed specs (path ++ [name])) : Child S specs path name k (shardMod S specs (path ++ [name]) k)

/-- Pairs the children of a module with what they become. -/
inductive Zip (S : Sharders) (specs : List Entry) (path : List String) : Kids → Kids → Prop
  | nil : Zip S specs path .nil .nil
  | kid (name k k' rest rest') (h : Child S specs path name k (.ok k')) (hr : Zip S specs path rest rest') :
      Zip S specs path (.kid name k rest) (.kid name k' rest')

theorem lookup_fresh (memo : List (Nat × Mod)) (i : Nat) (h : i ∉ memo.map (·.1)) : memo.lookup i = none := by
  induction memo with
  | nil => rfl
  | cons x xs ih =>
    obtain ⟨a, b⟩ := x
    simp only [List.map_cons, List.mem_cons, not_or] at h
    rw [List.lookup_cons, show (i == a) = false by simpa using h.1]
    exact ih h.2

/-- The loop over the children: either all become what they should, or one of them is refused. -/
theorem kids_cases (S : Sharders) (specs : List Entry) (path : List String) (ks : Kids) (memo : List (Nat × Mod))
    (hnd : (ks.toList.map fun k => k.2.id).Nodup) (hm : ∀ k ∈ ks.toList, k.2.id ∉ memo.map (·.1)) :
    (∃ ks', shardKids S specs path memo ks = .ok ks' ∧ Zip S specs path ks ks') ∨
    (∃ e, shardKids S specs path memo ks = .error e ∧ ∃ name k e', (name, k) ∈ ks.toList ∧
      Child S specs path name k (.error e')) := by
  match ks with
  | .nil => exact .inl ⟨.nil, rfl, .nil⟩
  | .kid name k rest =>
    simp only [Kids.toList, List.map_cons, List.nodup_cons] at hnd
    have hfresh := lookup_fresh memo k.id (hm (name, k) (by simp [Kids.toList]))
    have hrest : ∀ x : Mod, ∀ y ∈ rest.toList, y.2.id ∉ ((k.id, x) :: memo).map (·.1) := by
      intro x y hy
      simp only [List.map_cons, List.mem_cons, not_or]
      exact ⟨fun hc => hnd.1 (hc ▸ List.mem_map.2 ⟨y, hy, rfl⟩), hm y (by simp [Kids.toList, hy])⟩
    have ih := fun x => kids_cases S specs path rest ((k.id, x) :: memo) hnd.2 (hrest x)
    have finish : ∀ (x k' : Mod), Child S specs path name k (.ok k') →
        (∃ ks', (match shardKids S specs path ((k.id, x) :: memo) rest with
          | .ok rest => Except.ok (Kids.kid name k' rest)
          | .error e => Except.error e) = .ok ks' ∧ Zip S specs path (.kid name k rest) ks') ∨
        (∃ e, (match shardKids S specs path ((k.id, x) :: memo) rest with
          | .ok rest => Except.ok (Kids.kid name k' rest)
          | .error e => .error e) = .error e ∧ ∃ name' k₁ e', (name', k₁) ∈ (Kids.kid name k rest).toList ∧
            Child S specs path name' k₁ (.error e')) := by
      intro x k' hc
      rcases ih x with ⟨ks', h1, h2⟩ | ⟨e, h1, n, k₁, e', h2, h3⟩
      · rw [h1]; exact .inl ⟨_, rfl, .kid _ _ _ _ _ hc h2⟩
      · rw [h1]; exact .inr ⟨e, rfl, n, k₁, e', by simp [Kids.toList, h2], h3⟩
    unfold shardKids
    rw [hfresh]
    rcases picked_find (specs := specs) (path := path ++ [name]) with ⟨e, he, hp⟩ | ⟨hn, hp⟩
    · simp only [he]
      cases hS : S k.cls with
      | none => exact .inr ⟨_, rfl, name, k, .notShardable [], by simp [Kids.toList], .refused _ _ hp (.inl hS)⟩
      | some f =>
        cases hf : f e.spec k with
        | none =>
          exact .inr ⟨.notValid (path ++ [name]), by simp only [hf], name, k, .notShardable [], by simp [Kids.toList],
            .refused _ _ hp (.inr ⟨f, hS, hf⟩)⟩
        | some k' =>
          simp only [hf]
          exact finish k k' (.sharded _ f k' hp hS hf)
    · simp only [hn]
      have hc := Child.walked (S := S) (k := k) hp
      cases hw : shardMod S specs (path ++ [name]) k with
      | error e =>
        rw [hw] at hc
        exact .inr ⟨e, rfl, name, k, e, by simp [Kids.toList], hc⟩
      | ok k' =>
        rw [hw] at hc
        exact finish k' k' hc

theorem zip_keeps {S : Sharders} {specs : List Entry} {path : List String} {ks ks' : Kids}
    (h : Zip S specs path ks ks') : ks'.toList.map (·.1) = ks.toList.map (·.1) := by
  induction h with
  | nil => rfl
  | kid name k k' rest rest' h hr ih => simp only [Kids.toList, List.map_cons, ih]

theorem zip_kid {S : Sharders} {specs : List Entry} {path : List String} {ks ks' : Kids}
    (h : Zip S specs path ks ks') {name : String} {k : Mod} (hk : (name, k) ∈ ks.toList) :
    ∃ k', (name, k') ∈ ks'.toList ∧ Child S specs path name k (.ok k') := by
  induction h with
  | nil => cases hk
  | kid n k₁ k' rest rest' h hr ih =>
    rcases List.mem_cons.1 hk with he | hk
    · cases he; exact ⟨k', by simp [Kids.toList], h⟩
    · obtain ⟨x, h1, h2⟩ := ih hk
      exact ⟨x, by simp [Kids.toList, h1], h2⟩

theorem zip_kid' {S : Sharders} {specs : List Entry} {path : List String} {ks ks' : Kids}
    (h : Zip S specs path ks ks') {name : String} {k' : Mod} (hk : (name, k') ∈ ks'.toList) :
    ∃ k, (name, k) ∈ ks.toList ∧ Child S specs path name k (.ok k') := by
  induction h with
  | nil => cases hk
  | kid n k₁ k₂ rest rest' h hr ih =>
    rcases List.mem_cons.1 hk with he | hk
    · cases he; exact ⟨k₁, by simp [Kids.toList], h⟩
    · obtain ⟨x, h1, h2⟩ := ih hk
      exact ⟨x, by simp [Kids.toList, h1], h2⟩

theorem oneName_kid {m : Mod} (h : OneName m) {name : String} {k : Mod} (hk : (name, k) ∈ m.kids.toList) : OneName k :=
  fun path s hs => h (name :: path) s (.under m name k path s hk hs)

theorem mod_cases (S : Sharders) (specs : List Entry) (path : List String) (m : Mod) (hm : OneName m) :
    (∃ ks', shardMod S specs path m = .ok (.node m.cls m.id ks') ∧ Zip S specs path m.kids ks') ∨
    (∃ e, shardMod S specs path m = .error e ∧ ∃ name k e', (name, k) ∈ m.kids.toList ∧
      Child S specs path name k (.error e')) := by
  match m with
  | .node c i ks =>
    unfold shardMod
    rcases kids_cases S specs path ks [] (hm [] _ (.here _)) (by simp) with ⟨ks', h1, h2⟩ | ⟨e, h1, h2⟩
    · rw [h1]; exact .inl ⟨ks', rfl, h2⟩
    · rw [h1]; exact .inr ⟨e, rfl, h2⟩

theorem reached_nil (specs : List Entry) (base : List String) : Reached specs base [] := by
  intro q hq hp
  exact absurd (List.prefix_nil.1 hp) hq

theorem reached_cons {specs : List Entry} {base : List String} {name : String} {path : List String} :
    Reached specs base (name :: path) ↔ Passed specs (base ++ [name]) ∧ Reached specs (base ++ [name]) path := by
  constructor
  · intro h
    refine ⟨h [name] (by simp) ⟨path, rfl⟩, fun q hq hp => ?_⟩
    have := h (name :: q) (by simp) ((List.prefix_cons_inj name).2 hp)
    simpa using this
  · rintro ⟨h1, h2⟩ q hq hp
    match q, hq with
    | a :: q, _ =>
      obtain ⟨t, ht⟩ := hp
      simp only [List.cons_append, List.cons.injEq] at ht
      obtain ⟨rfl, ht⟩ := ht
      match q with
      | [] => exact h1
      | b :: q =>
        have := h2 (b :: q) (by simp) ⟨t, ht⟩
        simpa using this

theorem result_walk {S : Sharders} {specs : List Entry} {base : List String} {m m' : Mod} (hm : OneName m)
    (h : shardMod S specs base m = .ok m') :
    m'.cls = m.cls ∧ m'.id = m.id ∧ Zip S specs base m.kids m'.kids := by
  rcases mod_cases S specs base m hm with ⟨ks', h1, h2⟩ | ⟨e, h1, -⟩
  · rw [h1] at h; cases h; exact ⟨rfl, rfl, h2⟩
  · rw [h1] at h; cases h

theorem kept_of {S : Sharders} {specs : List Entry} {m s : Mod} {path : List String} (hs : SitsAt m path s) :
    ∀ {base : List String} {m' : Mod}, OneName m → shardMod S specs base m = .ok m' → Reached specs base path →
    ∃ s', SitsAt m' path s' ∧ s'.cls = s.cls ∧ s'.id = s.id ∧ Zip S specs (base ++ path) s.kids s'.kids := by
  induction hs with
  | here m =>
    intro base m' hm h _
    obtain ⟨h1, h2, h3⟩ := result_walk hm h
    exact ⟨m', .here _, h1, h2, by simpa using h3⟩
  | under m name k path s hk hs ih =>
    intro base m' hm h hr
    obtain ⟨-, -, h3⟩ := result_walk hm h
    obtain ⟨hp, hr⟩ := reached_cons.1 hr
    obtain ⟨k', hk', hc⟩ := zip_kid h3 hk
    generalize hx : Except.ok k' = x at hc
    cases hc with
    | sharded spec f k₁ hp' _ _ => exact absurd hp (fun hp => picked_not_passed hp' hp)
    | refused spec e hp' _ => cases hx
    | walked _ =>
      obtain ⟨s', h1, h2, h3, h4⟩ := ih (oneName_kid hm hk) hx.symm hr
      exact ⟨s', .under _ _ _ _ _ hk' h1, h2, h3, by simpa using h4⟩

theorem came_from {S : Sharders} {specs : List Entry} {m' s' : Mod} {path : List String} (hs : SitsAt m' path s') :
    ∀ {base : List String} {m : Mod}, OneName m → shardMod S specs base m = .ok m' →
    (∃ s, SitsAt m path s ∧ Reached specs base path ∧ s'.cls = s.cls ∧ s'.id = s.id) ∨
    (∃ q name r s t spec f, path = q ++ name :: r ∧ SitsAt m (q ++ [name]) s ∧ Reached specs base q ∧
      Picked specs (base ++ q ++ [name]) spec ∧ S s.cls = some f ∧ f spec s = some t ∧ SitsAt t r s') := by
  induction hs with
  | here m' =>
    intro base m hm h
    obtain ⟨h1, h2, -⟩ := result_walk hm h
    exact .inl ⟨m, .here _, reached_nil _ _, h1, h2⟩
  | under m' name k' path s' hk' hs ih =>
    intro base m hm h
    obtain ⟨-, -, h3⟩ := result_walk hm h
    obtain ⟨k, hk, hc⟩ := zip_kid' h3 hk'
    generalize hx : Except.ok k' = x at hc
    cases hc with
    | sharded spec f k₁ hp hS hf =>
      cases hx
      exact .inr ⟨[], name, path, k, k', spec, f, rfl, .under _ _ _ _ _ hk (.here _), reached_nil _ _, by simpa using hp,
        hS, hf, hs⟩
    | refused spec e hp' _ => cases hx
    | walked hp =>
      rcases ih (oneName_kid hm hk) hx.symm with ⟨s, h1, h2, h4⟩ | ⟨q, n, r, s, t, spec, f, h1, h2, h4, h5, h6⟩
      · exact .inl ⟨s, .under _ _ _ _ _ hk h1, reached_cons.2 ⟨hp, h2⟩, h4⟩
      · exact .inr ⟨name :: q, n, r, s, t, spec, f, by rw [h1]; rfl, .under _ _ _ _ _ hk h2, reached_cons.2 ⟨hp, h4⟩,
          by simpa using h5, h6⟩

theorem kid_size {ks : Kids} {name : String} {k : Mod} (h : (name, k) ∈ ks.toList) : sizeOf k < sizeOf ks := by
  match ks with
  | .nil => cases h
  | .kid n m rest =>
    rw [Kids.kid.sizeOf_spec]
    rcases List.mem_cons.1 h with h | h
    · cases h; omega
    · have := kid_size h
      omega

theorem refused_at {S : Sharders} {specs : List Entry} (m : Mod) : ∀ {base : List String} {e : Err}, OneName m →
    shardMod S specs base m = .error e →
    ∃ q name s spec, SitsAt m (q ++ [name]) s ∧ Reached specs base q ∧ Picked specs (base ++ q ++ [name]) spec ∧
      (S s.cls = none ∨ ∃ f, S s.cls = some f ∧ f spec s = none) := by
  intro base e hm h
  rcases mod_cases S specs base m hm with ⟨ks', h1, -⟩ | ⟨e', h1, name, k, e'', hk, hc⟩
  · rw [h1] at h; cases h
  · generalize hx : (Except.error e'' : Except Err Mod) = x at hc
    cases hc with
    | sharded spec f k₁ hp hS hf => cases hx
    | refused spec e hp hS =>
      exact ⟨[], name, k, spec, .under _ _ _ _ _ hk (.here _), reached_nil _ _, by simpa using hp, hS⟩
    | walked hp =>
      obtain ⟨q, n, s, spec, h1, h2, h3, h4⟩ := refused_at k (oneName_kid hm hk) hx.symm
      exact ⟨name :: q, n, s, spec, .under _ _ _ _ _ hk h1, reached_cons.2 ⟨hp, h2⟩, by simpa using h3, h4⟩
termination_by sizeOf m
decreasing_by
  have := kid_size hk
  cases m
  simp only [Mod.kids, Mod.node.sizeOf_spec] at this ⊢
  omega

theorem parent_of {m s : Mod} {path : List String} (hs : SitsAt m path s) : ∀ {q : List String} {name : String},
    path = q ++ [name] → ∃ p, SitsAt m q p ∧ (name, s) ∈ p.kids.toList := by
  induction hs with
  | here m => intro q name h; simp at h
  | under m n k path s hk hs ih =>
    intro q name h
    match q with
    | [] =>
      simp only [List.nil_append, List.cons.injEq] at h
      obtain ⟨rfl, rfl⟩ := h
      cases hs
      exact ⟨m, .here _, hk⟩
    | a :: q =>
      simp only [List.cons_append, List.cons.injEq] at h
      obtain ⟨rfl, h⟩ := h
      obtain ⟨p, h1, h2⟩ := ih h
      exact ⟨p, .under _ _ _ _ _ hk h1, h2⟩

theorem sits_snoc {m p k : Mod} {q : List String} {name : String} (hs : SitsAt m q p) (hk : (name, k) ∈ p.kids.toList) :
    SitsAt m (q ++ [name]) k := by
  induction hs with
  | here m => exact .under _ _ _ _ _ hk (.here _)
  | under m n k₁ path s hk₁ hs ih => exact .under _ _ _ _ _ hk₁ (ih hk)

/-! ### C116 -/

/-- **What is sharded.** If the sharder accepts a model, a module that a pattern matches, while none matches a module that
it is part of, is replaced by what the sharder of its class makes of it with the specification of the first such
pattern. A module that no pattern matches, and that is not part of one, stays and keeps the names of its children. -/
theorem C116_sharded (S : Sharders) (specs : List Entry) (tpSize : Nat) (m m' : Mod) (htp : tpSize ≠ 1) (hm : OneName m)
    (h : shardModel S specs tpSize m = .ok m') :
    (∀ q name s spec, SitsAt m (q ++ [name]) s → Reached specs [] q → Picked specs (q ++ [name]) spec →
      ∃ f s', S s.cls = some f ∧ f spec s = some s' ∧ SitsAt m' (q ++ [name]) s') ∧
    (∀ path s, SitsAt m path s → Reached specs [] path →
      ∃ s', SitsAt m' path s' ∧ s'.cls = s.cls ∧ s'.id = s.id ∧
        s'.kids.toList.map (·.1) = s.kids.toList.map (·.1)) := by
  rw [shardModel, if_neg htp] at h
  constructor
  · intro q name s spec hs hr hp
    obtain ⟨p, hp1, hp2⟩ := parent_of hs rfl
    obtain ⟨p', h1, -, -, h4⟩ := kept_of hp1 hm h hr
    obtain ⟨k', hk', hc⟩ := zip_kid h4 hp2
    simp only [List.nil_append] at hc
    generalize hx : Except.ok k' = x at hc
    cases hc with
    | sharded spec' f k₁ hp' hS hf =>
      cases hx
      obtain ⟨e, he, rfl⟩ := picked_unique hp
      obtain ⟨e', he', rfl⟩ := picked_unique hp'
      rw [he] at he'; cases he'
      exact ⟨f, k', hS, hf, sits_snoc h1 hk'⟩
    | refused _ _ _ _ => cases hx
    | walked hp' => exact absurd hp' (picked_not_passed hp)
  · intro path s hs hr
    obtain ⟨s', h1, h2, h3, h4⟩ := kept_of hs hm h hr
    exact ⟨s', h1, h2, h3, zip_keeps h4⟩

/-- **Nothing else.** Each module of the sharded model is one that stays, or it is, or is part of, what a sharder has made
of a module that a pattern matches. -/
theorem C116_nothing_else (S : Sharders) (specs : List Entry) (tpSize : Nat) (m m' : Mod) (htp : tpSize ≠ 1)
    (hm : OneName m) (h : shardModel S specs tpSize m = .ok m') (path : List String) (s' : Mod) (hs : SitsAt m' path s') :
    (∃ s, SitsAt m path s ∧ Reached specs [] path ∧ s'.cls = s.cls ∧ s'.id = s.id) ∨
    (∃ q name r s t spec f, path = q ++ name :: r ∧ SitsAt m (q ++ [name]) s ∧ Reached specs [] q ∧
      Picked specs (q ++ [name]) spec ∧ S s.cls = some f ∧ f spec s = some t ∧ SitsAt t r s') := by
  rw [shardModel, if_neg htp] at h
  simpa using came_from hs hm h

/-- **Refusal.** The sharder refuses a model if and only if a pattern matches a module, none matches a module that it is
part of, and its class has no sharder or the sharder does not take the specification of the first such pattern. -/
theorem C116_refused (S : Sharders) (specs : List Entry) (tpSize : Nat) (m : Mod) (htp : tpSize ≠ 1) (hm : OneName m) :
    (∃ e, shardModel S specs tpSize m = .error e) ↔
    ∃ q name s spec, SitsAt m (q ++ [name]) s ∧ Reached specs [] q ∧ Picked specs (q ++ [name]) spec ∧
      (S s.cls = none ∨ ∃ f, S s.cls = some f ∧ f spec s = none) := by
  constructor
  · rintro ⟨e, h⟩
    rw [shardModel, if_neg htp] at h
    simpa using refused_at m hm h
  · rintro ⟨q, name, s, spec, h1, h2, h3, h4⟩
    cases h : shardModel S specs tpSize m with
    | error e => exact ⟨e, rfl⟩
    | ok m' =>
      obtain ⟨f, s', h5, h6, -⟩ := (C116_sharded S specs tpSize m m' htp hm h).1 q name s spec h1 h2 h3
      rcases h4 with h4 | ⟨g, h4, h7⟩
      · rw [h4] at h5; cases h5
      · rw [h4] at h5; cases h5; rw [h7] at h6; cases h6

/-- **The registered sharders.** A `Linear` becomes column sharded for dimension 0 and row sharded for dimension 1, and
inside of a region neither gathers its output nor scatters its input; a `StandardEmbedding` becomes sharded over the
vocabulary for dimension 0 and over the embedding dimension for dimension 1, but cannot be at the boundary of a region.
Other dimensions are refused, and so are all other classes, those of sharded modules included. -/
theorem C116_registered (moe : Spec → Mod → Option Mod) (c : Cls) (spec : Spec) (i : Nat) (ks : Kids) :
    match standardSharders moe c with
    | none => c ≠ .linear ∧ c ≠ .standardEmbedding ∧ c ≠ .moe
    | some f =>
      (c = .linear ∧ ((f spec (.node c i ks)).map Mod.cls =
        if spec.dim = 0 then some (.columnSharded (!spec.regionBoundary))
        else if spec.dim = 1 then some (.rowSharded (!spec.regionBoundary)) else none)) ∨
      (c = .standardEmbedding ∧ ((f spec (.node c i ks)).map Mod.cls =
        if spec.regionBoundary = false ∧ spec.dim = 0 then some .vocabSharded
        else if spec.regionBoundary = false ∧ spec.dim = 1 then some .dimSharded else none)) ∨
      (c = .moe ∧ f = moe) := by
  cases c with
  | linear =>
    refine .inl ⟨rfl, ?_⟩
    simp only [shardLinear]
    split
    · rfl
    · split <;> rfl
  | standardEmbedding =>
    refine .inr (.inl ⟨rfl, ?_⟩)
    simp only [shardEmbedding]
    cases spec.regionBoundary with
    | true => rfl
    | false =>
      simp only [true_and]
      rw [if_neg (by decide)]
      split
      · rfl
      · split <;> rfl
  | moe => exact .inr (.inr ⟨rfl, rfl⟩)
  | _ => exact ⟨by simp, by simp, by simp⟩

/-- **No tensor parallelism.** Without tensor parallelism, and for a family without specifications, a model is created as
its factory has made it, whatever the specifications match. -/
theorem C116_single (S : Sharders) (specs : Option (List Entry)) (rootSize dpSize tpSize : Nat) (m : Mod)
    (h : tpSize = 1 ∨ rootSize = dpSize ∨ specs = none) : createModel S specs rootSize dpSize tpSize m = .ok m := by
  unfold createModel shardModel
  rcases h with h | h | h
  · cases specs <;> simp [h]
  · simp [h]
  · simp [h]

/-- The hypothesis of `C116_single` can be met although a pattern matches everything. -/
example : createModel (standardSharders fun _ m => some m) (some [⟨"", fun _ => true, ⟨0, false⟩⟩]) 2 2 1
    (.node (.other "Model") 0 (.kid "proj" (.node .linear 1 .nil) .nil)) =
    .ok (.node (.other "Model") 0 (.kid "proj" (.node .linear 1 .nil) .nil)) := C116_single _ _ _ _ _ _ (.inl rfl)

/-- A frontend, a layer with attention and a feed-forward network, and a final projection. -/
def smallModel : Mod :=
  .node (.other "Model") 0
    (.kid "frontend" (.node (.other "Frontend") 1 (.kid "embed" (.node .standardEmbedding 2 .nil) .nil))
      (.kid "layer" (.node (.other "Layer") 3
        (.kid "self_attn" (.node (.other "Attention") 4
          (.kid "q_proj" (.node .linear 5 .nil) (.kid "output_proj" (.node .linear 6 .nil) .nil)))
        (.kid "ffn" (.node .moe 7 (.kid "gate_proj" (.node .linear 8 .nil) .nil)) .nil)))
      (.kid "final_proj" (.node .linear 9 .nil) .nil)))

/-- What the sharder makes of it with the specifications of Llama 4. -/
example : shardModel (standardSharders fun _ m => some m) (llama4Specs false) 2 smallModel = .ok
    (.node (.other "Model") 0
      (.kid "frontend" (.node (.other "Frontend") 1 (.kid "embed" (.node .vocabSharded 2 .nil) .nil))
        (.kid "layer" (.node (.other "Layer") 3
          (.kid "self_attn" (.node (.other "Attention") 4
            (.kid "q_proj" (.node (.columnSharded false) 5 .nil)
              (.kid "output_proj" (.node (.rowSharded false) 6 .nil) .nil)))
          (.kid "ffn" (.node .moe 7 (.kid "gate_proj" (.node .linear 8 .nil) .nil)) .nil)))
        (.kid "final_proj" (.node (.columnSharded true) 9 .nil) .nil)))) := by
  rfl

theorem kids_oneName {c : Cls} {i : Nat} {ks : Kids} (h1 : (ks.toList.map fun k => k.2.id).Nodup)
    (h2 : ∀ k ∈ ks.toList, OneName k.2) : OneName (.node c i ks) := by
  intro path s hs
  cases hs with
  | here => exact h1
  | under _ name k path _ hk h => exact h2 _ hk path s h

/-- The hypotheses of the theorems about the sharder can be met. -/
example : OneName smallModel := by
  have leaf : ∀ c i, OneName (.node c i .nil) := fun c i => kids_oneName (by simp [Kids.toList]) (by simp [Kids.toList])
  refine kids_oneName (by decide) ?_
  simp only [Kids.toList, List.mem_cons, List.not_mem_nil, or_false, forall_eq_or_imp, forall_eq]
  refine ⟨kids_oneName (by decide) ?_, kids_oneName (by decide) ?_, leaf _ _⟩
  · simp only [Kids.toList, List.mem_cons, List.not_mem_nil, or_false, forall_eq]
    exact leaf _ _
  · simp only [Kids.toList, List.mem_cons, List.not_mem_nil, or_false, forall_eq_or_imp, forall_eq]
    refine ⟨kids_oneName (by decide) ?_, kids_oneName (by decide) ?_⟩
    · simp only [Kids.toList, List.mem_cons, List.not_mem_nil, or_false, forall_eq_or_imp, forall_eq]
      exact ⟨leaf _ _, leaf _ _⟩
    · simp only [Kids.toList, List.mem_cons, List.not_mem_nil, or_false, forall_eq]
      exact leaf _ _

/-- **A second name.** A module that is there under two names is replaced under the first one only: under the second name
the whole module stays, and the two no longer share their parameters. -/
theorem C116_second_name : ∃ specs : List Entry, ∃ m : Mod, ∃ m', Passed specs [] ∧ (∀ name, ¬ Passed specs [name]) ∧
    shardModel (standardSharders fun _ m => some m) specs 2 m = .ok m' ∧
    (∃ s, SitsAt m ["a"] s ∧ SitsAt m ["b"] s) ∧
    SitsAt m' ["a"] (.node (.columnSharded true) 1 .nil) ∧ SitsAt m' ["b"] (.node .linear 1 .nil) := by
  refine ⟨[⟨"[ab]", fun p => !p.isEmpty, ⟨0, false⟩⟩],
    .node (.other "Model") 0 (.kid "a" (.node .linear 1 .nil) (.kid "b" (.node .linear 1 .nil) .nil)),
    .node (.other "Model") 0 (.kid "a" (.node (.columnSharded true) 1 .nil) (.kid "b" (.node .linear 1 .nil) .nil)),
    ?_, ?_, rfl, ⟨.node .linear 1 .nil, ?_, ?_⟩, ?_, ?_⟩
  · intro e he; simp only [List.mem_singleton] at he; subst he; rfl
  · intro name h; have := h _ (List.mem_singleton.2 rfl); cases this
  all_goals exact .under _ _ _ _ _ (by simp [Mod.kids, Kids.toList]) (.here _)

/-- **Llama 4.** No Llama 4 model can be created for tensor parallelism, whatever its layers and its configuration are:
its factory makes an embedding that is already sharded, which the first of its specifications matches, and which no
sharder takes. -/
theorem C116_llama4_negation (moe : Spec → Mod → Option Mod) (shardEmbedDim : Bool) (frontend : Kids)
    (decoder finalProj : Mod) (rootSize dpSize tpSize : Nat) (hroot : rootSize ≠ dpSize) (htp : tpSize ≠ 1) :
    createModel (standardSharders moe) (some (llama4Specs shardEmbedDim)) rootSize dpSize tpSize
      (llama4Model shardEmbedDim frontend decoder finalProj) =
      .error (.notShardable ["decoder_frontend", "embed"]) := by
  rw [createModel, if_pos hroot]
  simp only [shardModel, if_neg htp]
  cases shardEmbedDim <;> rfl

/-- The hypotheses of `C116_llama4_negation` can be met: four processes, two for tensor parallelism. -/
example : (4 : Nat) ≠ 2 ∧ (2 : Nat) ≠ 1 := by decide

/-- **Checkpoints of other sizes.** A family with specifications looks for the dimension of a parameter among the texts
of the patterns. A name that is no such text counts as not sharded: from a checkpoint that was written by another number
of tensor parallel ranks every process gets what the first of them has written, and nothing else. -/
theorem C116_dims_negation {α : Type} (specs : List Entry) (key : String) (hkey : ∀ e ∈ specs, e.text ≠ key)
    (first : Shard.Mat α) (rest : List (List (Shard.Mat α))) (sourceTp targetTp targetRank : Nat)
    (h : sourceTp ≠ targetTp) :
    Shard.reshard ([first] :: rest) sourceTp 1 targetTp targetRank (specDims specs key) = some first := by
  have hn : specDims specs key = none := by
    have : (specs.find? fun e => e.text == key) = none := by
      rw [List.find?_eq_none]
      intro e he
      simpa using hkey e he
    rw [specDims, this]; rfl
  rw [hn, Shard.reshard, if_neg h]
  rfl

/-- The hypothesis of `C116_dims_negation` is met by the final projection of Llama 4: with the dimension 0, which its
specification has, one process would get all of the rows that two have written; it gets the half of the first. -/
example : (∀ e ∈ llama4Specs true, e.text ≠ "final_proj.weight") ∧
    Shard.reshard [[⟨1, [[1]]⟩], [⟨1, [[2]]⟩]] 2 1 1 0 (some 0) = some (⟨1, [[1], [2]]⟩ : Shard.Mat Nat) := by
  refine ⟨?_, rfl⟩
  intro e he
  simp only [llama4Specs, List.mem_cons, List.not_mem_nil, or_false] at he
  rcases he with rfl | rfl | rfl | rfl | rfl | rfl | rfl | rfl | rfl | rfl <;> simp

end Fs2.Props
