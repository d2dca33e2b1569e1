import Verif.Parquet.Streaming

/-!
# C74, C75: streaming a Parquet dataset

C74: every epoch delivers every fragment once, in windows shuffled one by one.
C75: a pickled iterator continues with exactly the fragments that were left.
-/

namespace Fs2.Props
open Fs2.Parquet

variable {File G R : Type}

/-! ## Specification -/

/-- The fragments of the dataset: the row groups of all files, or the files. -/
def dataset (c : StreamCfg File G R) : List G :=
  if c.split then (c.files.map c.rows).flatten else c.files.map c.whole

/-- `a` consists of the windows of `b`, each with its elements rearranged. -/
inductive Rearranged : List (List G) → List (List G) → Prop where
  | nil : Rearranged [] []
  | cons {a b : List G} {as bs : List (List G)} : a.Perm b → Rearranged as bs →
      Rearranged (a :: as) (b :: bs)

/-- The passes over the dataset: `passes k` is the order of epoch `k`, a
rearrangement of the dataset. -/
def IsPasses (c : StreamCfg File G R) (passes : Nat → List G) : Prop :=
  ∀ k, (passes k).Perm (dataset c)

/-- The first `n` passes, one after the other. -/
def firstPasses (passes : Nat → List G) (n : Nat) : List G :=
  ((List.range n).map passes).flatten

/-! ## Helpers -/

private theorem rearranged_all (rd : Rand R) (ws : List (List G)) :
    ∀ r, Rearranged (shuffleAll rd r ws).1 ws := by
  induction ws with
  | nil => intro r; exact .nil
  | cons w ws ih => intro r; exact .cons (shuffle_perm rd r w) (ih _)

private theorem Rearranged.flatten {a b : List (List G)} (h : Rearranged a b) :
    a.flatten.Perm b.flatten := by
  induction h with
  | nil => exact .refl _
  | cons h _ ih => simpa using h.append ih

private theorem flatten_perm' {α : Type} {a b : List (List α)} (h : a.Perm b) :
    a.flatten.Perm b.flatten := by
  induction h with
  | nil => exact .refl _
  | cons x _ ih => simpa using ih.append_left x
  | swap x y l =>
    simp only [List.flatten_cons, ← List.append_assoc]
    exact (List.perm_append_comm).append_right _
  | trans _ _ h1 h2 => exact h1.trans h2

private theorem rotate_perm {α : Type} (xs : List α) (k : Nat) :
    (circularShiftLeft xs k).Perm xs := by
  unfold circularShiftLeft
  split
  · exact .refl _
  · exact List.perm_append_comm.trans (List.Perm.of_eq (List.take_append_drop _ _))

private theorem epoch_perm (c : StreamCfg File G R) (e : Nat) :
    (fragmentsOf c (epochFiles c e)).Perm (dataset c) := by
  have hf : (epochFiles c e).Perm c.files := by
    unfold epochFiles
    have h1 : (match c.shuffle, c.seed with
        | true, some k => (c.rand.shuffle (c.rand.ofSeed (k + e)) c.files).1
        | _, _ => c.files).Perm c.files := by
      split
      · exact shuffle_perm _ _ _
      · exact .refl _
    cases c.shift with
    | none => exact h1
    | some k => exact (rotate_perm _ _).trans h1
  unfold fragmentsOf dataset
  cases c.split with
  | true => exact flatten_perm' (hf.map _)
  | false => exact hf.map _

private theorem toBatches_full {α : Type} (n : Nat) (hn : 0 < n) (xs : List α) :
    ∃ ws last, toBatches n xs = ws ++ (if last = [] then [] else [last]) ∧
      (∀ w ∈ ws, w.length = n) ∧ last.length < n ∧ xs = ws.flatten ++ last := by
  fun_induction toBatches n xs with
  | case1 xs h =>
    rcases h with h | h
    · exact ⟨[], [], rfl, by simp, hn, by simp [h]⟩
    · omega
  | case2 xs h ih =>
    by_cases hlt : xs.length < n
    · refine ⟨[], xs, ?_, by simp, hlt, by simp⟩
      have hne : xs ≠ [] := fun e => h (.inl e)
      rw [List.drop_eq_nil_of_le (by omega), List.take_of_length_le (by omega), if_neg hne]
      unfold toBatches
      simp
    · obtain ⟨ws, last, h1, h2, h3, h4⟩ := ih
      refine ⟨xs.take n :: ws, last, by rw [h1]; rfl, ?_, h3, ?_⟩
      · intro w hw
        rcases List.mem_cons.1 hw with rfl | hw
        · simp; omega
        · exact h2 w hw
      · rw [List.flatten_cons, List.append_assoc, ← h4, List.take_append_drop]

/-- A run that was shorter than it could be is complete. -/
private theorem nexts_over (c : StreamCfg File G R) (k : Nat) :
    ∀ (j : Nat), k ≤ j → ∀ (s : St File G R) (q : List G × St File G R),
      nexts c k s = some q → q.1.length < k → nexts c j s = some q := by
  induction k with
  | zero => intro j _ s q _ h; omega
  | succ k ih =>
    intro j hj s q h hl
    obtain ⟨j, rfl⟩ : ∃ i, j = i + 1 := ⟨j - 1, by omega⟩
    simp only [nexts, Option.bind_eq_bind] at h ⊢
    cases hn : next c s with
    | none => rw [hn] at h; cases h
    | some a =>
      rw [hn] at h
      simp only [Option.bind_some] at h ⊢
      cases ho : a.1 with
      | none => rw [ho] at h; exact h
      | some x =>
        rw [ho] at h
        simp only at h ⊢
        cases hq : nexts c k a.2 with
        | none => rw [hq] at h; cases h
        | some t =>
          rw [hq] at h
          simp only [Option.bind_some, Option.some.injEq] at h
          rw [ih j (by omega) a.2 t hq (by rw [← h] at hl; simpa using hl)]
          simpa using h

private theorem stop_forever {c : StreamCfg File G R} (hc : Fixed c) (hW : 0 < c.window)
    {m : Nat} (hm : c.nbEpochs = some m) (k : Nat) :
    ∀ {s : St File G R}, Ready c s → pending s = [] → future c s m = [] →
      ∃ s', nexts c k s = some ([], s') := by
  intro s hr hp hf
  cases k with
  | zero => exact ⟨s, rfl⟩
  | succ k =>
    obtain ⟨s', h1, _⟩ := next_stop hc hr hW hp hm hf
    exact ⟨s', by simp only [nexts, h1, Option.bind_eq_bind, Option.bind_some]⟩

/-! ## C74 -/

/-- With a number of epochs: for a seeded or unshuffled stream there are passes
over the dataset, one per epoch, and the stream is their concatenation cut into
windows, every window rearranged on its own; then it ends, and it stays
ended. -/
theorem C74_epochs (c : StreamCfg File G R) (hc : c.shuffle = true → ∃ k, c.seed = some k)
    (hW : 0 < c.window) (n : Nat) (hn : c.nbEpochs = some n) :
    ∃ passes windows, IsPasses c passes ∧
      Rearranged windows (toBatches c.window (firstPasses passes n)) ∧
      ∀ k, ∃ s, nexts c (windows.flatten.length + k) (init c) = some (windows.flatten, s) := by
  have hm : c.nbEpochs.all (fun k => n ≤ k) = true := by
    rw [hn]
    simp
  refine ⟨fun e => fragmentsOf c (epochFiles c e), _, epoch_perm c, rearranged_all c.rand _
    (init c).rng, ?_⟩
  intro k
  obtain ⟨ws, last, h1, h2, h3, h4⟩ := toBatches_full c.window hW
    (firstPasses (fun e => fragmentsOf c (epochFiles c e)) n)
  have hf : future c (init c) n = ws.flatten ++ last := by
    rw [future_init, ← h4]
    rfl
  obtain ⟨s1, k1, k2, k3, k4, k5⟩ := nexts_windows hc hW n hm ws (ready_init c) rfl h2 hf
  have hlen : ∀ ws' : List (List G), (shuffleAll c.rand (init c).rng ws').1.flatten.length =
      ws'.flatten.length := fun ws' => (rearranged_all c.rand ws' _).flatten.length_eq
  rw [hlen, h1]
  by_cases hl : last = []
  · subst hl
    rw [if_pos rfl, List.append_nil]
    obtain ⟨s2, hs2⟩ := stop_forever hc hW hn k k3 k2 k5
    refine ⟨s2, ?_⟩
    rw [nexts_append _ k _ _ _ k1 (hlen ws), hs2]
    simp
  · rw [if_neg hl]
    have hb := batch_short hc n hn last c.window { s1 with live := true, gen := .idle } (genOf s1)
      h3 k3.seeded k3.sync k5
    obtain ⟨s2, j1, j2, j3, j4, j5⟩ := nexts_one k2 hl hb
    obtain ⟨s3, hs3⟩ := stop_forever hc hW hn k j3 j2 j5
    refine ⟨s3, ?_⟩
    rw [List.flatten_append, List.length_append, Nat.add_assoc,
      nexts_append _ _ _ _ _ k1 (hlen ws)]
    have : [last].flatten = last := by simp
    rw [this, nexts_append _ k _ _ _ j1 (shuffle_length _ _ _), hs3, shuffleAll_append, k4]
    simp [shuffleAll]

/-- Every fragment is delivered exactly once per epoch. -/
theorem C74_counts [DecidableEq G] (c : StreamCfg File G R)
    (hc : c.shuffle = true → ∃ k, c.seed = some k)
    (hW : 0 < c.window) (n : Nat) (hn : c.nbEpochs = some n) :
    ∃ out, (∀ k, ∃ s, nexts c (out.length + k) (init c) = some (out, s)) ∧
      ∀ x, out.count x = n * (dataset c).count x := by
  obtain ⟨passes, windows, h1, h2, h3⟩ := C74_epochs c hc hW n hn
  refine ⟨windows.flatten, h3, fun x => ?_⟩
  rw [h2.flatten.count_eq, toBatches_flatten _ hW, firstPasses]
  clear h3 h2 hn
  induction n with
  | zero => simp
  | succ n ih =>
    rw [List.range_succ, List.map_append, List.flatten_append, List.count_append, ih]
    simp [(h1 n).count_eq, Nat.succ_mul]

/-- Without a number of epochs, or before the last one: the stream begins with
the windows of the passes, as far as they are full. -/
theorem C74_prefix (c : StreamCfg File G R) (hc : c.shuffle = true → ∃ k, c.seed = some k)
    (hW : 0 < c.window) :
    ∃ passes, IsPasses c passes ∧
      ∀ m, (∀ n, c.nbEpochs = some n → m ≤ n) →
      ∀ ws rest, firstPasses passes m = ws.flatten ++ rest →
        (∀ w ∈ ws, w.length = c.window) →
        ∃ windows s, Rearranged windows ws ∧
          nexts c ws.flatten.length (init c) = some (windows.flatten, s) := by
  refine ⟨fun e => fragmentsOf c (epochFiles c e), epoch_perm c, ?_⟩
  intro m hm ws rest hws hlen
  have hm' : c.nbEpochs.all (fun n => m ≤ n) = true := by
    cases hk : c.nbEpochs with
    | none => rfl
    | some k => simpa using hm k hk
  obtain ⟨s, h1, _⟩ := nexts_windows hc hW m hm' ws (ready_init c) rfl hlen
    (by rw [future_init]; exact hws)
  exact ⟨_, s, rearranged_all c.rand ws _, h1⟩

/-- `files_circular_shift`: each rank streams the files starting elsewhere and
keeps the fragments whose hash belongs to it. Over all ranks every fragment is
delivered once per epoch, and only by the rank of its hash. -/
theorem C74_hash_sharding [DecidableEq G] (c : StreamCfg File G R)
    (hc : c.shuffle = true → ∃ k, c.seed = some k) (hW : 0 < c.window) (n : Nat)
    (hn : c.nbEpochs = some n) (hash : G → Nat) (world : Nat) (hw : 0 < world)
    (shifts : Nat → Option Nat) :
    ∃ outs : Nat → List G,
      (∀ rank k, ∃ s, nexts { c with shift := shifts rank } ((outs rank).length + k)
        (init { c with shift := shifts rank }) = some (outs rank, s)) ∧
      (∀ x rank, ((outs rank).filter fun y => hash y % world == rank).count x =
        if hash x % world = rank then n * (dataset c).count x else 0) ∧
      ∀ x, (((List.range world).map fun rank =>
          (outs rank).filter fun y => hash y % world == rank).flatten).count x =
        n * (dataset c).count x := by
  have h : ∀ rank, ∃ out, (∀ k, ∃ s, nexts { c with shift := shifts rank } (out.length + k)
      (init { c with shift := shifts rank }) = some (out, s)) ∧
      ∀ x, out.count x = n * (dataset c).count x :=
    fun rank => C74_counts { c with shift := shifts rank } hc hW n hn
  refine ⟨fun rank => Classical.choose (h rank), fun rank => (Classical.choose_spec (h rank)).1,
    ?_, ?_⟩
  · intro x rank
    by_cases hx : hash x % world = rank
    · rw [if_pos hx, List.count_filter (by simpa using hx)]
      exact (Classical.choose_spec (h rank)).2 x
    · rw [if_neg hx, List.count_eq_zero]
      intro hm
      exact hx (by simpa using (List.mem_filter.1 hm).2)
  · intro x
    have hone : ∀ rank, ((Classical.choose (h rank)).filter
        fun y => hash y % world == rank).count x =
        if hash x % world = rank then n * (dataset c).count x else 0 := by
      intro rank
      by_cases hx : hash x % world = rank
      · rw [if_pos hx, List.count_filter (by simpa using hx)]
        exact (Classical.choose_spec (h rank)).2 x
      · rw [if_neg hx, List.count_eq_zero]
        intro hm
        exact hx (by simpa using (List.mem_filter.1 hm).2)
    have hsum : ∀ w, (((List.range w).map fun rank =>
          (Classical.choose (h rank)).filter fun y => hash y % world == rank).flatten).count x =
        if hash x % world < w then n * (dataset c).count x else 0 := by
      intro w
      induction w with
      | zero => simp
      | succ w ih =>
        rw [List.range_succ, List.map_append, List.flatten_append, List.count_append, ih]
        simp only [List.map_cons, List.map_nil, List.flatten_cons, List.flatten_nil,
          List.append_nil, hone]
        by_cases h1 : hash x % world < w
        · rw [if_pos h1, if_neg (by omega), if_pos (by omega)]
          rfl
        · by_cases h2 : hash x % world = w
          · rw [if_neg h1, if_pos h2, if_pos (by omega)]
            omega
          · rw [if_neg h1, if_neg h2, if_neg (by omega)]
    rw [hsum world, if_pos (Nat.mod_lt _ hw)]

/-! ## C75 -/

/-- The states an iterator goes through: created, asked for an element, pickled
and loaded, reset. -/
inductive Streamed (c : StreamCfg File G R) : St File G R → Prop where
  | new : Streamed c (init c)
  | next {s s' : St File G R} {o : Option G} : Streamed c s → next c s = some (o, s') →
      Streamed c s'
  | pickled {s : St File G R} : Streamed c s → Streamed c (repickle s)
  | reset {s : St File G R} : Streamed c s → Streamed c (resetState c s)

private theorem reset_seeded (c : StreamCfg File G R) (s : St File G R) (h : Seeded c s) :
    Seeded c (resetState c s) := by
  unfold Seeded at h ⊢
  unfold resetState resetInner
  cases hk : c.seed with
  | none => rw [hk] at h; simpa using h
  | some k => simp

private theorem streamed_ready {c : StreamCfg File G R}
    (hc : c.shuffle = true → ∃ k, c.seed = some k) (hW : 0 < c.window) {s : St File G R}
    (h : Streamed c s) : Ready c s ∧ ((∃ k, c.seed = some k) → s.draws = 1) := by
  induction h with
  | new => exact ⟨ready_init c, fun _ => rfl⟩
  | next _ hn ih =>
    have := next_ready hc hW ih.1 hn
    exact ⟨this.1, fun hk => this.2.trans (ih.2 hk)⟩
  | pickled _ ih => exact ⟨⟨ih.1.seeded, trivial⟩, ih.2⟩
  | @reset s _ ih =>
    refine ⟨⟨reset_seeded c s ih.1.seeded, trivial⟩, fun hk => ?_⟩
    rw [← ih.2 hk]
    obtain ⟨k, hk⟩ := hk
    unfold resetState resetInner
    rw [hk]

/-- A seeded or unshuffled stream that is pickled at any time and loaded again
delivers what the original would have delivered, however often it was pickled or
reset before. -/
theorem C75_pickle (c : StreamCfg File G R) (hc : c.shuffle = true → ∃ k, c.seed = some k)
    (hW : 0 < c.window) (s : St File G R) (h : Streamed c s) (k : Nat) :
    (nexts c k (repickle s)).map Prod.fst = (nexts c k s).map Prod.fst :=
  (nexts_alike hc hW k (alike_repickle (streamed_ready hc hW h).1)).symm

/-- A seeded stream that is reset at any time starts over. -/
theorem C75_reset (c : StreamCfg File G R) (seed : Nat) (hseed : c.seed = some seed)
    (hW : 0 < c.window) (s : St File G R) (h : Streamed c s) (k : Nat) :
    (nexts c k (resetState c s)).map Prod.fst = (nexts c k (init c)).map Prod.fst := by
  have hr := (streamed_ready (fun _ => ⟨seed, hseed⟩) hW (.reset h)).1
  have hd := (streamed_ready (fun _ => ⟨seed, hseed⟩) hW h).2 ⟨seed, hseed⟩
  refine nexts_alike (fun _ => ⟨seed, hseed⟩) hW k ⟨hr, ready_init c, ?_⟩
  unfold resetState resetInner repickle init
  simp [hseed, hd]

/-! ## What goes wrong without a seed -/

/-- A generator that leaves arrays of other lengths than two alone. The first
unseeded generator leaves those of length two alone as well; every second one
after it swaps them. -/
private def flipper : Rand Nat where
  ofSeed k := k
  fresh i := i
  perm r n := (if n = 2 ∧ r % 2 = 0 then [1, 0] else List.range n, r)
  law r n := by
    by_cases h : n = 2 ∧ r % 2 = 0
    · rw [if_pos h, h.1]
      exact (by decide : [1, 0].Perm (List.range 2))
    · rw [if_neg h]

private def noSeed : StreamCfg (List Char) Char Nat :=
  { rand := flipper, files := [['a'], ['b']], rows := id, whole := fun _ => 'x',
    nbEpochs := some 2, shufflingWindow := 3 }

/-- The example of the positive theorems: the same stream with a seed. -/
private def withSeed : StreamCfg (List Char) Char Nat := { noSeed with seed := some 0 }

example : (withSeed.shuffle = true → ∃ k, withSeed.seed = some k) ∧ 0 < withSeed.window ∧
    withSeed.nbEpochs = some 2 ∧ dataset withSeed = ['a', 'b'] :=
  ⟨fun _ => ⟨0, rfl⟩, by decide, rfl, rfl⟩

private theorem noSeed_run :
    (nexts noSeed 5 (init noSeed)).map Prod.fst = some ['a', 'b', 'b', 'b'] := by
  simp [nexts, next, batch, pull, listFiles, endEpoch, resetInner, init, noSeed, flipper,
    Rand.shuffle, StreamCfg.window, List.range, List.range.loop]

/-- Without a seed the statement of C74 fails: a window that reaches over the
end of an epoch drops the generator that has begun the next one, and the
generator made for the following window shuffles the files anew but skips as
many as were read in the old order. Here 'a' is delivered once and 'b' three
times in two epochs over two files. -/
theorem C74_unseeded_negation :
    ¬ ∀ (c : StreamCfg (List Char) Char Nat), 0 < c.window → ∀ n, c.nbEpochs = some n →
      ∃ out, (∀ k, ∃ s, nexts c (out.length + k) (init c) = some (out, s)) ∧
        ∀ x, out.count x = n * (dataset c).count x := by
  intro h
  obtain ⟨out, h1, h2⟩ := h noSeed (by decide) 2 rfl
  have hrun := noSeed_run
  have hlen : out.length = 4 := by
    have ha := h2 'a'
    have hb := h2 'b'
    obtain ⟨s, hs⟩ := h1 1
    apply Decidable.byContradiction
    intro hne
    by_cases hlt : out.length < 4
    · -- a complete run is at least as long as any other
      obtain ⟨s', hs'⟩ := h1 (5 - out.length)
      rw [show out.length + (5 - out.length) = 5 by omega] at hs'
      rw [hs'] at hrun
      simp only [Option.map_some, Option.some.injEq] at hrun
      rw [hrun] at hne
      exact hne rfl
    · obtain ⟨s0, hs0⟩ := h1 0
      cases hq : nexts noSeed 5 (init noSeed) with
      | none => rw [hq] at hrun; cases hrun
      | some q =>
        rw [hq] at hrun
        have hq1 : q.1 = ['a', 'b', 'b', 'b'] := by simpa using hrun
        have : nexts noSeed (out.length + 0) (init noSeed) = some q := by
          rw [Nat.add_zero]
          exact nexts_over noSeed 5 (out.length) (by omega) _ q hq (by rw [hq1]; decide)
        rw [this] at hs0
        have := congrArg Prod.fst (Option.some.inj hs0)
        simp only at this
        rw [← this, hq1] at hne
        exact hne rfl
  obtain ⟨s, hs⟩ := h1 1
  rw [hlen] at hs
  rw [hs] at hrun
  simp only [Option.map_some, Option.some.injEq] at hrun
  have := h2 'a'
  rw [hrun] at this
  exact absurd this (by decide)

/-- Without a seed the statement of C75 fails as well: the loaded iterator
shuffles the files anew and skips as many as were read in the old order. -/
theorem C75_unseeded_negation :
    ¬ ∀ (c : StreamCfg (List Char) Char Nat), 0 < c.window → ∀ s, Streamed c s → ∀ k,
      (nexts c k (repickle s)).map Prod.fst = (nexts c k s).map Prod.fst := by
  intro h
  let c : StreamCfg (List Char) Char Nat :=
    { noSeed with shufflingWindow := 1, nbEpochs := some 1 }
  obtain ⟨s, hs, h1, h2⟩ : ∃ s, next c (init c) = some (some 'a', s) ∧
      (nexts c 2 s).map Prod.fst = some ['b'] ∧
      (nexts c 2 (repickle s)).map Prod.fst = some ['a'] := by
    refine ⟨⟨0, ['a'], 1, 0, none, 0, 1, true, .within [] [['b']], 2⟩, ?_, ?_, ?_⟩
    · simp [next, batch, pull, listFiles, init, c, noSeed, flipper,
        Rand.shuffle, StreamCfg.window, List.range, List.range.loop]
    · simp [nexts, next, batch, pull, endEpoch, resetInner, c, noSeed, flipper,
        Rand.shuffle, StreamCfg.window, List.range, List.range.loop]
    · simp [nexts, next, batch, pull, listFiles, endEpoch, resetInner, c, noSeed, flipper,
        Rand.shuffle, StreamCfg.window, List.range, List.range.loop, repickle]
  have := h c (by decide) s (.next .new hs) 2
  rw [h1, h2] at this
  exact absurd this (by decide)

end Fs2.Props
