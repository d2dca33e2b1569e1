import Verif.Shard.FsdpWrap

/-!
# Properties of models wrapped with FSDP

C122. Wrapping a model with FSDP shards every part once, in the way that the configuration asks for, and initializes every module
at most once.

C123. A process that loads the local state that it saved has the state that it saved.
-/

namespace Fs2.Props

open Fs2.Fsdp

/-- Shall the gathered parameters of a part be freed after the forward pass? Not those of the last layer of a stack and of the
root, which are needed at once in the backward pass; those of other parts if the configuration says so. -/
def FreedAfterForward (stacks : List Nat) (flag : Bool) : Part → Bool
  | .layer s idx => if stacks[s]? = some (idx + 1) then false else flag
  | .stack _ => flag
  | .root => false

/-- The parts that a granularity names. -/
def IsPart (stacks : List Nat) : Granularity → Part → Prop
  | .layer, .layer s idx => ∃ n, stacks[s]? = some n ∧ idx < n
  | .stack, .stack s => s < stacks.length
  | _, .root => True
  | _, _ => False

private theorem mem_layerwise {s n : Nat} {c : Call} (h : c ∈ applyLayerwise s n) :
    ∃ idx < n, c.part = .layer s idx ∧ c.reshard = if idx < n - 1 then none else some false := by
  simp only [applyLayerwise, List.mem_map, List.mem_range] at h
  obtain ⟨idx, hi, rfl⟩ := h
  exact ⟨idx, hi, rfl, rfl⟩

private theorem getD_some {l : List Nat} {s : Nat} (h : s < l.length) : l[s]? = some (l.getD s 0) := by
  simp [List.getD, h]

/-- The calls for a granularity, by part. -/
private theorem mem_calls {stacks : List Nat} {g : Granularity} {calls : List Call} (h : wrapCalls stacks g = .ok calls)
    {c : Call} (hc : c ∈ calls) : IsPart stacks g c.part ∧
      ((∃ s idx n, c.part = .layer s idx ∧ stacks[s]? = some n ∧ idx < n ∧
          c.reshard = if idx < n - 1 then none else some false) ∨
       (∃ s, c.part = .stack s ∧ c.reshard = none) ∨ (c.part = .root ∧ c.reshard = some false)) := by
  cases g with
  | model =>
    simp only [wrapCalls, applierCalls, if_true, Except.ok.injEq] at h
    subst h
    simp only [List.mem_singleton] at hc
    subst hc
    exact ⟨trivial, .inr (.inr ⟨rfl, rfl⟩)⟩
  | layer =>
    simp only [wrapCalls, applierCalls, reduceCtorEq, if_false, Except.ok.injEq] at h
    subst h
    rcases List.mem_append.1 hc with h | h
    · obtain ⟨s, hs, h⟩ := List.mem_flatMap.1 h
      rw [List.mem_range] at hs
      obtain ⟨idx, hi, h1, h2⟩ := mem_layerwise h
      refine ⟨?_, .inl ⟨s, idx, _, h1, getD_some hs, hi, h2⟩⟩
      rw [h1]
      exact ⟨_, getD_some hs, hi⟩
    · simp only [List.mem_singleton] at h
      subst h
      exact ⟨trivial, .inr (.inr ⟨rfl, rfl⟩)⟩
  | stack =>
    simp only [wrapCalls, applierCalls, reduceCtorEq, if_false, Except.ok.injEq] at h
    subst h
    rcases List.mem_append.1 hc with h | h
    · simp only [List.mem_map, List.mem_range] at h
      obtain ⟨s, hs, rfl⟩ := h
      exact ⟨hs, .inr (.inl ⟨s, rfl, rfl⟩)⟩
    · simp only [List.mem_singleton] at h
      subst h
      exact ⟨trivial, .inr (.inr ⟨rfl, rfl⟩)⟩
  | other => simp [wrapCalls, applierCalls] at h

/-- What a run that is wrapped has been given: the calls and, per part, what is kept of it. -/
private theorem wrapped_by {c : RunConfig} {stacks : List Nat} {ws : List Wrapped} (h : wrapModel c stacks = .ok ws) :
    ∃ calls init e, wrapCalls stacks c.granularity = .ok calls ∧ initializerOf e = .ok init ∧
      e = ⟨c.sdpSize, c.rdpSize, c.dpRank, c.held, c.reshardAfterForward, !c.hasCheckpoint, false⟩ ∧ c.sdpSize ≠ 1 ∧
      ws = calls.map fun k =>
        if c.version = .v1 then
          ⟨k.part, (partStrategy e k.reshard).reshards k.part, (partStrategy e k.reshard).replicates, init, e.broadcastState⟩
        else ⟨k.part, k.reshard.getD e.reshardAfterForward, decide (e.rdpSize > 1), init, e.broadcastState⟩ := by
  unfold wrapModel at h
  by_cases hv : c.version = .v1
  · rw [if_pos hv] at h
    simp only [toFsdp, toFsdp1] at h
    split at h
    · cases h
    · rename_i hs
      split at h
      · cases h
      · rename_i init hi
        split at h
        · cases h
        · rename_i calls hc
          injection h with h
          refine ⟨calls, init, _, hc, hi, rfl, hs, ?_⟩
          rw [← h]
          simp only [if_pos hv]
  · rw [if_neg hv] at h
    simp only [toFsdp, toFsdp2] at h
    split at h
    · cases h
    · rename_i hs
      split at h
      · cases h
      · rename_i init hi
        split at h
        · cases h
        · rename_i calls hc
          injection h with h
          refine ⟨calls, init, _, hc, hi, rfl, hs, ?_⟩
          rw [← h]
          simp only [if_neg hv]

/-- **C122.** With version 2, every wrapped part frees its gathered parameters after the forward pass as it should. -/
theorem C122_v2 (c : RunConfig) (stacks : List Nat) (ws : List Wrapped) (hv : c.version = .v2)
    (h : wrapModel c stacks = .ok ws) (w : Wrapped) (hw : w ∈ ws) :
    w.reshards = FreedAfterForward stacks c.reshardAfterForward w.part := by
  obtain ⟨calls, init, e, hc, _, he, _, hws⟩ := wrapped_by h
  have hv1 : ¬ c.version = .v1 := by rw [hv]; decide
  rw [hws] at hw
  simp only [if_neg hv1, List.mem_map] at hw
  obtain ⟨k, hk, rfl⟩ := hw
  have hr : e.reshardAfterForward = c.reshardAfterForward := by rw [he]
  rcases (mem_calls hc hk).2 with ⟨s, idx, n, h1, h2, h3, h4⟩ | ⟨s, h1, h2⟩ | ⟨h1, h2⟩
  · simp only [h1, h4, FreedAfterForward, h2, Option.some.injEq]
    by_cases hl : idx < n - 1
    · rw [if_pos hl, if_neg (by omega)]
      exact hr
    · rw [if_neg hl, if_pos (by omega)]
      rfl
  · simp only [h1, h2, FreedAfterForward]
    exact hr
  · simp only [h1, h2, FreedAfterForward]
    rfl

private theorem strategy_default (e : Env) (p : Part) (hp : p ≠ .root) :
    (partStrategy e none).reshards p = e.reshardAfterForward := by
  cases p with
  | root => exact absurd rfl hp
  | layer s i =>
    simp only [partStrategy, defaultStrategy]
    cases e.reshardAfterForward <;> split <;> rfl
  | stack s =>
    simp only [partStrategy, defaultStrategy]
    cases e.reshardAfterForward <;> split <;> rfl

private theorem strategy_given (e : Env) (b : Bool) (p : Part) (hp : p ≠ .root) :
    (partStrategy e (some b)).reshards p = !b := by
  cases p with
  | root => exact absurd rfl hp
  | layer s i =>
    simp only [partStrategy]
    cases b <;> simp <;> split <;> rfl
  | stack s =>
    simp only [partStrategy]
    cases b <;> simp <;> split <;> rfl

/-- **C122, for version 1.** Every wrapped part other than the last layer of a stack frees its gathered parameters as it should.
What is missing is in `C122_v1_negation`. -/
theorem C122_v1_partial (c : RunConfig) (stacks : List Nat) (ws : List Wrapped) (hv : c.version = .v1)
    (h : wrapModel c stacks = .ok ws) (w : Wrapped) (hw : w ∈ ws) (hl : ∀ s idx, w.part = .layer s idx → stacks[s]? ≠ some (idx + 1)) :
    w.reshards = FreedAfterForward stacks c.reshardAfterForward w.part := by
  obtain ⟨calls, init, e, hc, _, he, _, hws⟩ := wrapped_by h
  rw [hws] at hw
  simp only [if_pos hv, List.mem_map] at hw
  obtain ⟨k, hk, rfl⟩ := hw
  have hr : e.reshardAfterForward = c.reshardAfterForward := by rw [he]
  rcases (mem_calls hc hk).2 with ⟨s, idx, n, h1, h2, h3, h4⟩ | ⟨s, h1, h2⟩ | ⟨h1, h2⟩
  · have hne := hl s idx h1
    have hlt : idx < n - 1 := by
      rw [h2] at hne
      have : n ≠ idx + 1 := fun h => hne (by rw [h])
      omega
    simp only [h1, h4, if_pos hlt, FreedAfterForward, if_neg hne]
    rw [strategy_default _ _ (by intro h; cases h), hr]
  · simp only [h1, h2, FreedAfterForward]
    rw [strategy_default _ _ (by intro h; cases h), hr]
  · simp only [h1, FreedAfterForward, Strategy.reshards]

/-- **C122, violated for version 1.** Whatever the configuration is, the last layer of a stack is freed after the forward pass
and gathered again at once; it is even the only part freed if the configuration says that none shall be. -/
theorem C122_v1_negation (c : RunConfig) (stacks : List Nat) (ws : List Wrapped) (hv : c.version = .v1)
    (h : wrapModel c stacks = .ok ws) (w : Wrapped) (hw : w ∈ ws) (s idx : Nat) (hp : w.part = .layer s idx)
    (hl : stacks[s]? = some (idx + 1)) :
    w.reshards = true ∧ FreedAfterForward stacks c.reshardAfterForward w.part = false := by
  refine ⟨?_, by rw [hp]; simp [FreedAfterForward, hl]⟩
  obtain ⟨calls, init, e, hc, _, he, _, hws⟩ := wrapped_by h
  rw [hws] at hw
  simp only [if_pos hv, List.mem_map] at hw
  obtain ⟨k, hk, rfl⟩ := hw
  simp only at hp
  rcases (mem_calls hc hk).2 with ⟨s', idx', n, h1, h2, h3, h4⟩ | ⟨s', h1, h2⟩ | ⟨h1, h2⟩
  · rw [h1] at hp
    injection hp with hs hi
    subst hs; subst hi
    have hn : n = idx' + 1 := by rw [h2] at hl; exact Option.some.inj hl
    simp only [h4, if_neg (show ¬ idx' < n - 1 by omega)]
    rw [strategy_given _ _ _ (by rw [h1]; intro h; cases h)]
    rfl
  · rw [h1] at hp; cases hp
  · rw [h1] at hp; cases hp

/-- **C122, violated for version 1.** The wrapper reads a flag for one part in the opposite way to the same flag for the model. -/
theorem C122_v1_flag_negation (e : Env) (p : Part) (hp : p ≠ .root) :
    (partStrategy e (some e.reshardAfterForward)).reshards p = !(partStrategy e none).reshards p := by
  rw [strategy_given _ _ _ hp, strategy_default _ _ hp]

/-- The hypotheses are met: an encoder of two layers and a decoder of three, in version 1 and 2, with and without replicas. -/
def someRun (v : Version) (rdp : Nat) : RunConfig := ⟨v, .layer, true, 4, rdp, 1, .onMeta, false⟩

example : (wrapModel (someRun .v1 1) [2, 3]).toOption.map (·.map fun w => (w.part, w.reshards)) =
    some [(.layer 0 0, true), (.layer 0 1, true), (.layer 1 0, true), (.layer 1 1, true), (.layer 1 2, true), (.root, false)] := by
  decide +kernel

example : (wrapModel (someRun .v2 2) [2, 3]).toOption.map (·.map fun w => (w.part, w.reshards)) =
    some [(.layer 0 0, true), (.layer 0 1, false), (.layer 1 0, true), (.layer 1 1, true), (.layer 1 2, false), (.root, false)] := by
  decide +kernel

/-- **C122.** In either version the shards are replicated exactly when there is more than one replica, and when the run has no
checkpoint every part takes the state of rank 0. -/
theorem C122_replicas (c : RunConfig) (stacks : List Nat) (ws : List Wrapped) (hr : 0 < c.rdpSize)
    (h : wrapModel c stacks = .ok ws) (w : Wrapped) (hw : w ∈ ws) :
    (w.replicated = true ↔ 1 < c.rdpSize) ∧ (w.broadcast = true ↔ c.hasCheckpoint = false) := by
  obtain ⟨calls, init, e, hc, _, he, _, hws⟩ := wrapped_by h
  rw [hws] at hw
  simp only [List.mem_map] at hw
  obtain ⟨k, hk, rfl⟩ := hw
  subst he
  by_cases hv : c.version = .v1
  · rw [if_pos hv]
    refine ⟨?_, by cases c.hasCheckpoint <;> simp⟩
    cases k.reshard with
    | none =>
      simp only [partStrategy, defaultStrategy]
      by_cases h1 : c.rdpSize > 1
      · rw [if_pos h1]
        cases c.reshardAfterForward <;> simpa [Strategy.replicates] using h1
      · rw [if_neg h1]
        cases c.reshardAfterForward <;> simpa [Strategy.replicates] using h1
    | some b =>
      simp only [partStrategy]
      by_cases h1 : c.rdpSize = 1
      · cases b <;> simp [h1, Strategy.replicates]
      · cases b <;> simp [h1, Strategy.replicates] <;> omega
  · rw [if_neg hv]
    exact ⟨by simp, by cases c.hasCheckpoint <;> simp⟩

/-- **C122.** Every part that the granularity names is wrapped, and nothing else. -/
theorem C122_parts (c : RunConfig) (stacks : List Nat) (ws : List Wrapped) (h : wrapModel c stacks = .ok ws) (p : Part) :
    (∃ w ∈ ws, w.part = p) ↔ IsPart stacks c.granularity p := by
  obtain ⟨calls, init, e, hc, _, _, _, hws⟩ := wrapped_by h
  have hparts : (∃ w ∈ ws, w.part = p) ↔ ∃ k ∈ calls, k.part = p := by
    rw [hws]
    simp only [List.mem_map]
    constructor
    · rintro ⟨w, ⟨k, hk, rfl⟩, hp⟩
      exact ⟨k, hk, by rw [← hp]; split <;> rfl⟩
    · rintro ⟨k, hk, hp⟩
      exact ⟨_, ⟨k, hk, rfl⟩, by rw [← hp]; split <;> rfl⟩
  rw [hparts]
  constructor
  · rintro ⟨k, hk, rfl⟩
    exact (mem_calls hc hk).1
  · intro hp
    cases hg : c.granularity with
    | model =>
      rw [hg] at hc hp
      simp only [wrapCalls, applierCalls, if_true, Except.ok.injEq] at hc
      subst hc
      cases p with
      | root => exact ⟨_, List.mem_singleton_self _, rfl⟩
      | layer _ _ => exact absurd hp (by simp [IsPart])
      | stack _ => exact absurd hp (by simp [IsPart])
    | layer =>
      rw [hg] at hc hp
      simp only [wrapCalls, applierCalls, reduceCtorEq, if_false, Except.ok.injEq] at hc
      subst hc
      cases p with
      | root => exact ⟨_, List.mem_append_right _ (List.mem_singleton_self _), rfl⟩
      | layer s idx =>
        obtain ⟨n, hn, hi⟩ := hp
        have hs : s < stacks.length := (List.getElem?_eq_some_iff.1 hn).1
        have hd : stacks.getD s 0 = n := by
          have := getD_some hs
          rw [hn] at this
          exact (Option.some.inj this).symm
        refine ⟨⟨.layer s idx, if idx < n - 1 then none else some false⟩, List.mem_append_left _ ?_, rfl⟩
        refine List.mem_flatMap.2 ⟨s, List.mem_range.2 hs, ?_⟩
        rw [hd]
        exact List.mem_map.2 ⟨idx, List.mem_range.2 hi, rfl⟩
      | stack _ => exact absurd hp (by simp [IsPart])
    | stack =>
      rw [hg] at hc hp
      simp only [wrapCalls, applierCalls, reduceCtorEq, if_false, Except.ok.injEq] at hc
      subst hc
      cases p with
      | root => exact ⟨_, List.mem_append_right _ (List.mem_singleton_self _), rfl⟩
      | layer _ _ => exact absurd hp (by simp [IsPart])
      | stack s => exact ⟨⟨.stack s, none⟩, List.mem_append_left _ (List.mem_map.2 ⟨s, List.mem_range.2 hp, rfl⟩), rfl⟩
    | other =>
      rw [hg] at hc
      simp [wrapCalls, applierCalls] at hc

/-- **C122.** No part is wrapped twice. -/
theorem C122_distinct (c : RunConfig) (stacks : List Nat) (ws : List Wrapped) (h : wrapModel c stacks = .ok ws) :
    (ws.map Wrapped.part).Nodup := by
  obtain ⟨calls, init, e, hc, _, _, _, hws⟩ := wrapped_by h
  have hparts : ws.map Wrapped.part = calls.map Call.part := by
    rw [hws, List.map_map]
    apply List.map_congr_left
    intro k _
    simp only [Function.comp_apply]
    split <;> rfl
  rw [hparts]
  have hinj : ∀ (f : Nat → Part) (n : Nat), (∀ i j, f i = f j → i = j) → ((List.range n).map f).Nodup := by
    intro f n hf
    rw [List.Nodup, List.pairwise_map]
    exact List.nodup_range.imp fun hne he => hne (hf _ _ he)
  cases hg : c.granularity with
  | model =>
    rw [hg] at hc
    simp only [wrapCalls, applierCalls, if_true, Except.ok.injEq] at hc
    subst hc
    simp
  | layer =>
    rw [hg] at hc
    simp only [wrapCalls, applierCalls, reduceCtorEq, if_false, Except.ok.injEq] at hc
    subst hc
    rw [List.map_append, List.nodup_append]
    refine ⟨?_, by simp, ?_⟩
    · rw [List.map_flatMap, List.Nodup, List.pairwise_flatMap]
      refine ⟨?_, ?_⟩
      · intro s _
        rw [applyLayerwise, List.map_map]
        exact hinj _ _ fun i j he => by injection he
      · refine List.nodup_range.imp ?_
        intro s t hne x hx y hy he
        obtain ⟨k, hk, rfl⟩ := List.mem_map.1 hx
        obtain ⟨k', hk', rfl⟩ := List.mem_map.1 hy
        obtain ⟨i, _, h1, _⟩ := mem_layerwise hk
        obtain ⟨j, _, h2, _⟩ := mem_layerwise hk'
        rw [h1, h2] at he
        injection he with he
        exact hne he
    · intro a ha b hb
      obtain ⟨k, hk, rfl⟩ := List.mem_map.1 ha
      obtain ⟨s, _, hk⟩ := List.mem_flatMap.1 hk
      obtain ⟨i, _, h1, _⟩ := mem_layerwise hk
      simp only [List.map_cons, List.map_nil, List.mem_singleton] at hb
      rw [h1, hb]
      intro he
      cases he
  | stack =>
    rw [hg] at hc
    simp only [wrapCalls, applierCalls, reduceCtorEq, if_false, Except.ok.injEq] at hc
    subst hc
    rw [List.map_append, List.map_map, List.nodup_append]
    refine ⟨hinj _ _ fun i j he => by injection he, by simp, ?_⟩
    intro a ha b hb
    obtain ⟨s, _, rfl⟩ := List.mem_map.1 ha
    simp only [List.map_cons, List.map_nil, List.mem_singleton] at hb
    rw [hb]
    intro he
    cases he
  | other =>
    rw [hg] at hc
    simp [wrapCalls, applierCalls] at hc

/-- **C122.** A model is wrapped exactly if the shards have more than one process, the granularity is known, the parameters are
on one device, and rank 0 has them when they are to be taken from it. -/
theorem C122_accepted (c : RunConfig) (stacks : List Nat) : (∃ ws, wrapModel c stacks = .ok ws) ↔
    c.sdpSize ≠ 1 ∧ c.granularity ≠ .other ∧ c.held ≠ .mixed ∧
      ¬ (c.held = .onMeta ∧ c.hasCheckpoint = false ∧ c.dpRank = 0) := by
  obtain ⟨v, g, r, sdp, rdp, rank, held, ck⟩ := c
  by_cases h1 : sdp = 1
  · cases v <;> simp [wrapModel, toFsdp, toFsdp1, toFsdp2, h1]
  · by_cases h2 : rank = 0
    · cases v <;> cases g <;> cases held <;> cases ck <;>
        simp [wrapModel, toFsdp, toFsdp1, toFsdp2, h1, h2, initializerOf, wrapCalls, applierCalls]
    · cases v <;> cases g <;> cases held <;> cases ck <;>
        simp [wrapModel, toFsdp, toFsdp1, toFsdp2, h1, h2, initializerOf, wrapCalls, applierCalls]

/-- **C122, violated.** A run that goes on from a checkpoint asks not to initialize the parameters, which the checkpoint will
replace. They are initialized for every configuration, since `to_fsdp` does not pass the request on. -/
theorem C122_skip_negation (c : RunConfig) (stacks : List Nat) (ws : List Wrapped) (hm : c.held = .onMeta)
    (hck : c.hasCheckpoint = true) (h : wrapModel c stacks = .ok ws) (w : Wrapped) (hw : w ∈ ws) :
    w.initializer = some false := by
  obtain ⟨calls, init, e, _, hi, he, _, hws⟩ := wrapped_by h
  subst he
  simp only [initializerOf, hm, hck, Bool.not_true, Bool.false_eq_true, if_false, Except.ok.injEq] at hi
  rw [hws] at hw
  simp only [List.mem_map] at hw
  obtain ⟨k, _, rfl⟩ := hw
  split <;> exact hi.symm

/-- The versions by themselves do what is asked. -/
theorem C122_skip_versions (e : Env) (hm : e.held = .onMeta) (hs : e.skipInit = true) (stacks : List Nat) (g : Granularity)
    (ws : List Wrapped) (h : toFsdp1 e stacks g = .ok ws ∨ toFsdp2 e stacks g = .ok ws) (w : Wrapped) (hw : w ∈ ws) :
    w.initializer = some true := by
  have hi : ∀ init, initializerOf e = .ok init → init = some true := by
    intro init hi
    simp only [initializerOf, hm, hs] at hi
    split at hi
    · split at hi
      · cases hi
      · injection hi with hi; exact hi.symm
    · injection hi with hi; exact hi.symm
  rcases h with h | h
  · unfold toFsdp1 at h
    split at h
    · cases h
    · split at h
      · cases h
      · rename_i init hinit
        split at h
        · cases h
        · injection h with h
          rw [← h] at hw
          obtain ⟨k, _, rfl⟩ := List.mem_map.1 hw
          exact hi _ hinit
  · unfold toFsdp2 at h
    split at h
    · cases h
    · split at h
      · cases h
      · rename_i init hinit
        split at h
        · cases h
        · injection h with h
          rw [← h] at hw
          obtain ⟨k, _, rfl⟩ := List.mem_map.1 hw
          exact hi _ hinit

/-! ## The initializer -/

/-- `x` is the module `m` or a module inside it. -/
inductive Inside (n : Net) : Nat → Nat → Prop
  | self (m : Nat) : Inside n m m
  | down {m c x : Nat} : c ∈ n.kids m → Inside n c x → Inside n m x

private theorem inside_le {n : Net} {m x : Nat} (h : Inside n m x) : x ≤ m := by
  induction h with
  | self _ => exact Nat.le_refl _
  | down hc _ ih => exact Nat.le_trans ih (Nat.le_of_lt (n.lower _ _ hc))

/-- What has been done is closed: with a module all modules inside it. -/
private def Closed (n : Net) (done : List Nat) : Prop := ∀ m ∈ done, ∀ x, Inside n m x → x ∈ done

private theorem init_spec (n : Net) : ∀ m done, Closed n done → done.Nodup →
    Closed n (n.initialize m done) ∧ (n.initialize m done).Nodup ∧
      ∀ x, x ∈ n.initialize m done ↔ x ∈ done ∨ Inside n m x := by
  intro m
  induction m using Nat.strongRecOn with
  | ind m ih =>
    intro done hcl hnd
    by_cases hm : m ∈ done
    · rw [Net.initialize, if_pos hm]
      exact ⟨hcl, hnd, fun x => ⟨.inl, fun h => h.elim id fun h => hcl m hm x h⟩⟩
    · have hfold : ∀ (l : List {c // c ∈ n.kids m}) (acc : List Nat), Closed n acc → acc.Nodup →
          Closed n (l.foldl (fun acc c => n.initialize c.1 acc) acc) ∧
          (l.foldl (fun acc c => n.initialize c.1 acc) acc).Nodup ∧
          ∀ x, x ∈ l.foldl (fun acc c => n.initialize c.1 acc) acc ↔ x ∈ acc ∨ ∃ c ∈ l, Inside n c.1 x := by
        intro l
        induction l with
        | nil => intro acc h1 h2; exact ⟨h1, h2, fun x => by simp⟩
        | cons c cs ihl =>
          intro acc h1 h2
          obtain ⟨a1, a2, a3⟩ := ih c.1 (n.lower m c.1 c.2) acc h1 h2
          obtain ⟨b1, b2, b3⟩ := ihl _ a1 a2
          refine ⟨b1, b2, fun x => ?_⟩
          rw [List.foldl_cons, b3, a3]
          constructor
          · rintro ((h | h) | ⟨c', hc', h⟩)
            · exact .inl h
            · exact .inr ⟨c, List.mem_cons_self, h⟩
            · exact .inr ⟨c', List.mem_cons_of_mem _ hc', h⟩
          · rintro (h | ⟨c', hc', h⟩)
            · exact .inl (.inl h)
            · rcases List.mem_cons.1 hc' with rfl | hc'
              · exact .inl (.inr h)
              · exact .inr ⟨c', hc', h⟩
      obtain ⟨f1, f2, f3⟩ := hfold (n.kids m).attach done hcl hnd
      rw [Net.initialize, if_neg hm]
      generalize (n.kids m).attach.foldl (fun acc c => n.initialize c.1 acc) done = F at f1 f2 f3
      have hmem : ∀ x, x ∈ F ++ [m] ↔ x ∈ done ∨ Inside n m x := by
        intro x
        rw [List.mem_append, List.mem_singleton, f3]
        constructor
        · rintro ((h | ⟨c, _, h⟩) | rfl)
          · exact .inl h
          · exact .inr (.down c.2 h)
          · exact .inr (.self _)
        · rintro (h | h)
          · exact .inl (.inl h)
          · cases h with
            | self => exact .inr rfl
            | down hc h => exact .inl (.inr ⟨⟨_, hc⟩, List.mem_attach _ _, h⟩)
      have hnot : m ∉ F := by
        intro h
        rcases (f3 m).1 h with h | ⟨c, _, h⟩
        · exact hm h
        · have := inside_le h
          have := n.lower m c.1 c.2
          omega
      refine ⟨?_, ?_, hmem⟩
      · intro y hy x hx
        rcases List.mem_append.1 hy with hy | hy
        · exact List.mem_append_left _ (f1 y hy x hx)
        · rw [List.mem_singleton] at hy
          subst hy
          exact (hmem x).2 (.inr hx)
      · rw [List.nodup_append]
        refine ⟨f2, by simp, ?_⟩
        intro a ha b hb hab
        rw [List.mem_singleton] at hb
        subst hab; subst hb
        exact hnot ha

/-- **C122.** However the parts are wrapped one after the other, and whichever modules they share, the initializer handles every
module inside one of them exactly once, and no other. -/
theorem C122_once (n : Net) (parts : List Nat) :
    (n.initializeAll parts []).Nodup ∧ ∀ x, x ∈ n.initializeAll parts [] ↔ ∃ p ∈ parts, Inside n p x := by
  have hall : ∀ (parts done : List Nat), Closed n done → done.Nodup →
      (n.initializeAll parts done).Nodup ∧
        ∀ x, x ∈ n.initializeAll parts done ↔ x ∈ done ∨ ∃ p ∈ parts, Inside n p x := by
    intro parts
    induction parts with
    | nil => intro done _ h; exact ⟨h, fun x => by simp [Net.initializeAll]⟩
    | cons p ps ih =>
      intro done h1 h2
      obtain ⟨a1, a2, a3⟩ := init_spec n p done h1 h2
      obtain ⟨b1, b2⟩ := ih _ a1 a2
      refine ⟨b1, fun x => ?_⟩
      rw [Net.initializeAll, b2, a3]
      simp only [List.mem_cons, exists_eq_or_imp, or_assoc]
  obtain ⟨h1, h2⟩ := hall parts [] (fun m h => absurd h (by simp)) List.nodup_nil
  exact ⟨h1, fun x => by rw [h2]; simp⟩

/-- A model of two layers that share a module: the layers are wrapped first, then the root. -/
def sharingNet : Net := ⟨fun m => if m = 3 then [1, 2] else if m = 1 ∨ m = 2 then [0] else [], by
  intro m c hc
  by_cases h3 : m = 3
  · subst h3; simp at hc; omega
  · by_cases h12 : m = 1 ∨ m = 2
    · simp [h3, h12] at hc; omega
    · simp [h3, h12] at hc⟩

example : (sharingNet.initializeAll [1, 2, 3] []).Nodup ∧ 0 ∈ sharingNet.initializeAll [1, 2, 3] [] ∧
    Inside sharingNet 1 0 ∧ Inside sharingNet 2 0 := by
  have h1 : Inside sharingNet 1 0 := .down (by simp [sharingNet]) (.self 0)
  exact ⟨(C122_once _ _).1, ((C122_once _ _).2 0).2 ⟨1, by simp, h1⟩, h1, .down (by simp [sharingNet]) (.self 0)⟩

/-! ## Local state -/

/-- Two modules with the same names and the same entries sharded in the same way: those of one model in one process before and
after a restart. -/
inductive SameLayout {α : Type} : State α → State α → Prop
  | nil : SameLayout [] []
  | part {k : String} {a b : α} {s t : State α} : SameLayout s t →
      SameLayout ((k, .sharded (some a)) :: s) ((k, .sharded (some b)) :: t)
  | empty {k : String} {s t : State α} : SameLayout s t → SameLayout ((k, .sharded none) :: s) ((k, .sharded none) :: t)
  | whole {k : String} {a b : α} {s t : State α} : SameLayout s t → SameLayout ((k, .whole a) :: s) ((k, .whole b) :: t)

private theorem layout_names {α : Type} {s t : State α} (h : SameLayout s t) : s.map Prod.fst = t.map Prod.fst := by
  induction h with
  | nil => rfl
  | part _ ih => simp [ih]
  | empty _ ih => simp [ih]
  | whole _ ih => simp [ih]

private theorem localState_names {α : Type} (s : State α) : (localState s).map Prod.fst = s.map Prod.fst := by
  induction s with
  | nil => rfl
  | cons kv s ih =>
    simp only [localState, List.map_cons] at ih ⊢
    rw [ih]
    congr 1
    split <;> rfl

private theorem find_skip {β : Type} {pre : List (String × β)} {k : String} {v : β} {post : List (String × β)}
    (h : k ∉ pre.map Prod.fst) : find k (pre ++ (k, v) :: post) = some v := by
  induction pre with
  | nil => simp [find]
  | cons kv pre ih =>
    simp only [List.map_cons, List.mem_cons, not_or] at h
    have := ih h.2
    simp only [find, List.cons_append, List.find?_cons] at this ⊢
    have hne : (kv.1 == k) = false := by
      rw [beq_eq_false_iff_ne]
      exact fun he => h.1 he.symm
    rw [hne]
    exact this

private theorem load_all {α : Type} {s t : State α} (h : SameLayout s t) :
    ∀ pre : List (String × LocalEntry α), (pre.map Prod.fst ++ s.map Prod.fst).Nodup →
      t.mapM (loadEntry (pre ++ localState s)) = some s := by
  induction h with
  | nil => intro pre _; rfl
  | @part k a b s t _ ih =>
    intro pre hnd
    have hk : k ∉ pre.map Prod.fst := by
      intro hk
      rw [List.nodup_append] at hnd
      exact hnd.2.2 k hk k (by simp) rfl
    have e : pre ++ localState ((k, .sharded (some a)) :: s) = pre ++ (k, some a) :: localState s := rfl
    have e2 : pre ++ (k, some a) :: localState s = (pre ++ [(k, some a)]) ++ localState s := by simp
    have hi := ih (pre ++ [(k, some a)]) (by simpa using hnd)
    have h1 : loadEntry (pre ++ (k, some a) :: localState s) (k, .sharded (some b)) = some (k, .sharded (some a)) := by
      simp only [loadEntry, find_skip hk]
    rw [e, List.mapM_cons, h1]
    rw [e2, hi]
    rfl
  | @empty k s t _ ih =>
    intro pre hnd
    have e : pre ++ localState ((k, .sharded none) :: s) = (pre ++ [(k, none)]) ++ localState s := by simp [localState]
    have hi := ih (pre ++ [(k, none)]) (by simpa using hnd)
    rw [e, List.mapM_cons, hi]
    rfl
  | @whole k a b s t _ ih =>
    intro pre hnd
    have hk : k ∉ pre.map Prod.fst := by
      intro hk
      rw [List.nodup_append] at hnd
      exact hnd.2.2 k hk k (by simp) rfl
    have e : pre ++ localState ((k, .whole a) :: s) = pre ++ (k, some a) :: localState s := rfl
    have e2 : pre ++ (k, some a) :: localState s = (pre ++ [(k, some a)]) ++ localState s := by simp
    have hi := ih (pre ++ [(k, some a)]) (by simpa using hnd)
    have h1 : loadEntry (pre ++ (k, some a) :: localState s) (k, .whole b) = some (k, .whole a) := by
      simp only [loadEntry, find_skip hk]
    rw [e, List.mapM_cons, h1]
    rw [e2, hi]
    rfl

private theorem load_saved {α : Type} {s t : State α} (h : SameLayout s t) (hk : (s.map Prod.fst).Nodup) :
    loadLocal t (localState s) = some s := by
  have hall : ((localState s).all fun kv => (t.map Prod.fst).contains kv.1) = true := by
    rw [List.all_eq_true]
    intro kv hkv
    rw [List.contains_iff_mem, ← layout_names h, ← localState_names]
    exact List.mem_map_of_mem hkv
  unfold loadLocal
  rw [if_pos hall]
  exact load_all h [] (by simpa using hk)

/-- **C123.** The facade of a wrapped module loads the local state that the same process saved: the call returns and the module
has the state of the module saved, also where this process has no part of a tensor. -/
theorem C123_facade {α : Type} (s t : State α) (h : SameLayout s t) (hk : (s.map Prod.fst).Nodup) :
    facadeLoad t (localState s) = (s, .returned) := by
  simp only [facadeLoad, load_saved h hk]

/-- Its hypotheses are met. -/
example : SameLayout [("w", .sharded (some 1)), ("b", .sharded none), ("r", .whole 3)]
    [("w", .sharded (some 0)), ("b", .sharded none), ("r", .whole 0)] := .part (.empty (.whole .nil))

/-- **C123.** A state with a key that the module does not have is refused, and so is one without a part that the process has. -/
theorem C123_refused {α : Type} (t : State α) (d : List (String × LocalEntry α)) :
    (∀ k, k ∈ d.map Prod.fst → k ∉ t.map Prod.fst → facadeLoad t d = (t, .loadError)) ∧
    (∀ k v, (k, .sharded (some v)) ∈ t ∨ (k, .whole v) ∈ t → k ∉ d.map Prod.fst → facadeLoad t d = (t, .loadError)) := by
  constructor
  · intro k hk hn
    have hall : (d.all fun kv => (t.map Prod.fst).contains kv.1) = false := by
      rw [← Bool.not_eq_true, List.all_eq_true]
      intro h
      obtain ⟨kv, hkv, rfl⟩ := List.mem_map.1 hk
      exact hn (List.contains_iff_mem.1 (h kv hkv))
    have hl : loadLocal t d = none := by
      unfold loadLocal
      rw [hall]
      rfl
    simp only [facadeLoad, hl]
  · intro k v hm hn
    have hfind : find k d = none := by
      simp only [find, Option.map_eq_none_iff, List.find?_eq_none]
      intro kv hkv he
      exact hn (List.mem_map.2 ⟨kv, hkv, eq_of_beq he⟩)
    have hmap : ∀ (l : State α), (∃ kv ∈ l, loadEntry d kv = none) → l.mapM (loadEntry d) = none := by
      intro l
      induction l with
      | nil => rintro ⟨kv, h, _⟩; cases h
      | cons x l ih =>
        rintro ⟨kv, h, hnone⟩
        rw [List.mapM_cons]
        rcases List.mem_cons.1 h with rfl | h
        · rw [hnone]; rfl
        · rw [ih ⟨kv, h, hnone⟩]
          cases loadEntry d x <;> rfl
    have : t.mapM (loadEntry d) = none := by
      apply hmap
      rcases hm with hm | hm
      · exact ⟨_, hm, by simp only [loadEntry, hfind]⟩
      · exact ⟨_, hm, by simp only [loadEntry, hfind]⟩
    have hl : loadLocal t d = none := by
      unfold loadLocal
      rw [this, ite_self]
    simp only [facadeLoad, hl]

/-- **C123, violated.** `fsdp_load_local_state_dict` never returns, for no module and no state. With a state that the module saved
it has loaded the state when it says that the module is not wrapped with FSDP. -/
theorem C123_unified_negation {α : Type} :
    (∀ (kind : Kind) (t : State α) (d : List (String × LocalEntry α)), (fsdpLoad kind t d).2 ≠ .returned) ∧
    (∀ (kind : Kind) (s t : State α), kind ≠ .plain → SameLayout s t → (s.map Prod.fst).Nodup →
      fsdpLoad kind t (localState s) = (s, .typeError)) := by
  constructor
  · intro kind t d
    cases kind with
    | plain => simp [fsdpLoad]
    | fsdp1 => simp only [fsdpLoad]; split <;> simp
    | fsdp2 => simp only [fsdpLoad]; split <;> simp
  · intro kind s t hp h hk
    cases kind with
    | plain => exact absurd rfl hp
    | fsdp1 => simp only [fsdpLoad, load_saved h hk]
    | fsdp2 => simp only [fsdpLoad, load_saved h hk]

end Fs2.Props
