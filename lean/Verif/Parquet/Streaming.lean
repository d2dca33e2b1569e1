import Verif.Parquet.LengthSplits

/-!
# Streaming the fragments of a Parquet dataset

Models src/fairseq2/data/parquet/fragment_streaming/primitives.py:290-541: the
`ParquetFragmentStreamer` (an iterable over files or row groups that counts what
it has yielded) under a `ShuffledIterator` (epochs, shuffled windows).

Left out: what a fragment is (`G`), the listing of the files (`files` is the
list `truncate_files` returns), the `NotImplementedError` for limits on
fragments or rows (361-366), logging. The generators of Python are modelled as
data: `Gen` says where the running `repeat_iterator()` is suspended.
-/

namespace Fs2.Parquet

/-- `np.random.RandomState`: `ofSeed k` is `RandomState(k)`, `fresh i` the `i`-th
`RandomState(None)` of the process, and `perm r n` what `r.shuffle` does to an
array of `n` elements together with the state it leaves. -/
structure Rand (R : Type) where
  ofSeed : Nat → R
  fresh : Nat → R
  perm : R → Nat → List Nat × R
  law : ∀ r n, (perm r n).1.Perm (List.range n)

/-- `r.shuffle(xs)`. -/
def Rand.shuffle {R α : Type} (rd : Rand R) (r : R) (xs : List α) : List α × R :=
  let p := rd.perm r xs.length
  (p.1.filterMap fun i => xs[i]?, p.2)

/-- `circular_shift_left` (parquet/utils.py:32-37). -/
def circularShiftLeft {α : Type} (xs : List α) (k : Nat) : List α :=
  if xs.length ≤ 1 then xs
  else xs.drop (k % xs.length) ++ xs.take (k % xs.length)

/-- The arguments of `stream_parquet_fragments` (505-541). `rows f` are the row
groups of a file, `whole f` the file as one fragment. `shift` is
`int(relative_files_circular_shift * len(files))`, none if the ratio is 0 or
1. -/
structure StreamCfg (File G R : Type) where
  rand : Rand R
  files : List File
  rows : File → List G
  whole : File → G
  split : Bool := true
  shuffle : Bool := true
  seed : Option Nat := none
  nbEpochs : Option Nat := none
  shufflingWindow : Nat := 200
  shift : Option Nat := none

/-- `window_size=shuffling_window if shuffle else 1` (533). -/
def StreamCfg.window {File G R : Type} (c : StreamCfg File G R) : Nat :=
  if c.shuffle then c.shufflingWindow else 1

/-- Where a running `repeat_iterator()` is suspended: not started or at the
`while`; in the loop over the files; in the loop over the row groups of one
file; finished. -/
inductive Gen (File G : Type) where
  | idle
  | files (fs : List File)
  | within (xs : List G) (fs : List File)
  | done

/-- `ShuffledIteratorState` (epoch, window, index, rng), the `seed` and
`PFSState` of the streamer (full, cur), the generator behind `window_iterator`
(`live` is `window_iterator is not None`), and how many unseeded `RandomState`s
were made. -/
structure St (File G R : Type) where
  epoch : Nat
  window : List G
  index : Nat
  rng : R
  seed : Option Nat
  full : Nat
  cur : Nat
  live : Bool
  gen : Gen File G
  draws : Nat

variable {File G R : Type}

/-- The head of `ParquetFragmentStreamer.__iter__` (371-385): the files in the
order of this pass. -/
def listFiles (c : StreamCfg File G R) (s : St File G R) : List File × St File G R :=
  let shift (fs : List File) : List File :=
    match c.shift with
    | some k => circularShiftLeft fs k
    | none => fs
  if c.shuffle then
    match s.seed with
    | some k => (shift (c.rand.shuffle (c.rand.ofSeed k) c.files).1, s)
    | none =>
      (shift (c.rand.shuffle (c.rand.fresh s.draws) c.files).1, { s with draws := s.draws + 1 })
  else (shift c.files, s)

/-- `_reset_inner` (464-468) with `ParquetFragmentStreamer.reset_state`
(318-321). -/
def resetInner (s : St File G R) (seed : Option Nat) : St File G R :=
  { s with full := 0, cur := 0, seed := seed.or s.seed, index := 0, window := [], live := false }

/-- What `repeat_iterator` does once the streamer is exhausted (478-484). -/
def endEpoch (c : StreamCfg File G R) (s : St File G R) : St File G R :=
  let s := { s with epoch := s.epoch + 1 }
  resetInner s (c.seed.map (· + s.epoch))

/-- Resumes `repeat_iterator()` (473-484), which runs the streamer's `__iter__`
(394-412), until it yields (`some`) or finishes (`none`). An outer `none`: it
does neither. -/
def pull (c : StreamCfg File G R) (s : St File G R) (g : Gen File G) :
    Option (Option G × St File G R × Gen File G) :=
  match g with
  | .done => some (none, s, .done)
  | .idle =>
    if c.nbEpochs.all (fun n => s.epoch < n) then do
      let r := listFiles c s
      pull c r.2 (.files (r.1.drop s.full))
    else some (none, s, .done)
  | .files [] => do pull c (endEpoch c s) .idle
  | .files (f :: fs) =>
    if c.split then do pull c s (.within ((c.rows f).drop s.cur) fs)
    else some (some (c.whole f), { s with full := s.full + 1 }, .files fs)
  | .within [] fs => do pull c { s with full := s.full + 1, cur := 0 } (.files fs)
  | .within (x :: xs) fs => some (some x, { s with cur := s.cur + 1 }, .within xs fs)
partial_fixpoint

/-- `tuple(islice(it, n))` in `batched` (34-44). -/
def batch (c : StreamCfg File G R) :
    Nat → St File G R → Gen File G → Option (List G × St File G R × Gen File G)
  | 0, s, g => some ([], s, g)
  | n + 1, s, g => do
    let r ← pull c s g
    match r.1 with
    | none => some ([], r.2)
    | some x =>
      let q ← batch c n r.2.1 r.2.2
      some (x :: q.1, q.2)

/-- `ShuffledIterator.__next__` (486-502); the inner `none` is `StopIteration`.
The generator is taken out of the state while it runs. If `_reset_inner` ran
while the window was collected, `window_iterator` is `None` afterwards (`live`
is false) and the generator is dropped. -/
def next (c : StreamCfg File G R) (s : St File G R) : Option (Option G × St File G R) :=
  let g := if s.live then s.gen else .idle
  let s := { s with live := true, gen := .idle }
  if s.window.length ≤ s.index then do
    let r ← batch c c.window s g
    let s := { r.2.1 with gen := r.2.2 }
    if r.1.isEmpty then some (none, s)
    else
      let w := c.rand.shuffle s.rng r.1
      some (w.1[0]?, { s with rng := w.2, window := w.1, index := 1 })
  else some (s.window[s.index]?, { s with gen := g, index := s.index + 1 })

/-- A new `ShuffledIterator` over a new streamer. -/
def init (c : StreamCfg File G R) : St File G R :=
  { epoch := 0, window := [], index := 0,
    rng := match c.seed with
      | some k => c.rand.ofSeed k
      | none => c.rand.fresh 0
    seed := c.seed, full := 0, cur := 0, live := false, gen := .idle, draws := 1 }

/-- `pickle.loads(pickle.dumps(it))` by way of the two `__reduce__` methods
(323-335, 452-462): everything but the running generator. -/
def repickle (s : St File G R) : St File G R := { s with live := false, gen := .idle }

/-- `ShuffledIterator.reset_state` (447-450). -/
def resetState (c : StreamCfg File G R) (s : St File G R) : St File G R :=
  let s := match c.seed with
    | some k => { s with rng := c.rand.ofSeed k }
    | none => { s with rng := c.rand.fresh s.draws, draws := s.draws + 1 }
  resetInner { s with epoch := 0 } c.seed

/-- Calls `__next__` up to `k` times, stopping at `StopIteration`. -/
def nexts (c : StreamCfg File G R) : Nat → St File G R → Option (List G × St File G R)
  | 0, s => some ([], s)
  | k + 1, s => do
    let r ← next c s
    match r.1 with
    | none => some ([], r.2)
    | some x =>
      let q ← nexts c k r.2
      some (x :: q.1, q.2)

/-! ## Facts about passes whose order is fixed -/

/-- The order of the files does not depend on an unseeded generator. -/
def Fixed (c : StreamCfg File G R) : Prop := c.shuffle = true → ∃ k, c.seed = some k

/-- The files in the order of epoch `e`. -/
def epochFiles (c : StreamCfg File G R) (e : Nat) : List File :=
  let fs := match c.shuffle, c.seed with
    | true, some k => (c.rand.shuffle (c.rand.ofSeed (k + e)) c.files).1
    | _, _ => c.files
  match c.shift with
  | some k => circularShiftLeft fs k
  | none => fs

/-- The fragments of files `fs`. -/
def fragmentsOf (c : StreamCfg File G R) (fs : List File) : List G :=
  if c.split then (fs.map c.rows).flatten else fs.map c.whole

/-- What the current epoch has left. -/
def leftOf (c : StreamCfg File G R) (s : St File G R) : List G :=
  if c.split then
    match (epochFiles c s.epoch).drop s.full with
    | [] => []
    | f :: fs => (c.rows f).drop s.cur ++ fragmentsOf c fs
  else ((epochFiles c s.epoch).drop s.full).map c.whole

/-- The seed of the streamer is the one of the current epoch. -/
def Seeded (c : StreamCfg File G R) (s : St File G R) : Prop :=
  s.seed = c.seed.map (· + s.epoch)

/-- The generator stands where the counters say. -/
def Sync (c : StreamCfg File G R) (s : St File G R) : Gen File G → Prop
  | .idle => True
  | .files fs => c.nbEpochs.all (fun n => s.epoch < n) = true ∧
      fs = (epochFiles c s.epoch).drop s.full
  | .within xs fs => c.nbEpochs.all (fun n => s.epoch < n) = true ∧ c.split = true ∧
      ∃ f, (epochFiles c s.epoch).drop s.full = f :: fs ∧ xs = (c.rows f).drop s.cur
  | .done => ¬ c.nbEpochs.all (fun n => s.epoch < n) = true

theorem listFiles_fixed {c : StreamCfg File G R} (hc : Fixed c) {s : St File G R}
    (hs : Seeded c s) : listFiles c s = (epochFiles c s.epoch, s) := by
  unfold listFiles epochFiles
  cases hsh : c.shuffle with
  | false => simp
  | true =>
    obtain ⟨k, hk⟩ := hc hsh
    rw [Seeded, hk] at hs
    simp only [if_true, hk]
    rw [hs]
    rfl

theorem pull_done (c : StreamCfg File G R) (s : St File G R) :
    pull c s .done = some (none, s, .done) := by
  unfold pull
  rfl

theorem pull_start {c : StreamCfg File G R} {s : St File G R}
    (h : c.nbEpochs.all (fun n => s.epoch < n) = true) :
    pull c s .idle = pull c (listFiles c s).2 (.files ((listFiles c s).1.drop s.full)) := by
  rw [pull.eq_def]
  simp only [h, if_true]

theorem pull_over {c : StreamCfg File G R} {s : St File G R}
    (h : ¬ c.nbEpochs.all (fun n => s.epoch < n) = true) :
    pull c s .idle = some (none, s, .done) := by
  rw [pull.eq_def]
  simp only [h]
  rfl

theorem pull_end (c : StreamCfg File G R) (s : St File G R) :
    pull c s (.files []) = pull c (endEpoch c s) .idle := by
  rw [pull.eq_def]

theorem pull_split {c : StreamCfg File G R} (s : St File G R) (f : File) (fs : List File)
    (h : c.split = true) :
    pull c s (.files (f :: fs)) = pull c s (.within ((c.rows f).drop s.cur) fs) := by
  rw [pull.eq_def]
  simp only [h, if_true]

theorem pull_whole {c : StreamCfg File G R} (s : St File G R) (f : File) (fs : List File)
    (h : c.split = false) :
    pull c s (.files (f :: fs)) =
      some (some (c.whole f), { s with full := s.full + 1 }, .files fs) := by
  rw [pull.eq_def]
  simp [h]

theorem pull_file_end (c : StreamCfg File G R) (s : St File G R) (fs : List File) :
    pull c s (.within [] fs) = pull c { s with full := s.full + 1, cur := 0 } (.files fs) := by
  rw [pull.eq_def]

theorem pull_row (c : StreamCfg File G R) (s : St File G R) (x : G) (xs : List G)
    (fs : List File) :
    pull c s (.within (x :: xs) fs) =
      some (some x, { s with cur := s.cur + 1 }, .within xs fs) := by
  rw [pull.eq_def]

/-- Starting over from the counters is the same as resuming. -/
theorem pull_idle {c : StreamCfg File G R} (hc : Fixed c) {s : St File G R}
    (hs : Seeded c s) {g : Gen File G} (hg : Sync c s g) : pull c s .idle = pull c s g := by
  cases g with
  | idle => rfl
  | done => rw [pull_over hg, pull_done]
  | files fs => rw [pull_start hg.1, listFiles_fixed hc hs, ← hg.2]
  | within xs fs =>
    obtain ⟨h1, h2, f, h3, h4⟩ := hg
    rw [pull_start h1, listFiles_fixed hc hs]
    simp only [h3]
    rw [pull_split _ _ _ h2, ← h4]

/-- What does not change in one `pull` that stays in the epoch. -/
def Steps (s s' : St File G R) : Prop :=
  s'.epoch = s.epoch ∧ s'.rng = s.rng ∧ s'.seed = s.seed ∧ s'.live = s.live ∧
    s'.draws = s.draws ∧ s'.window = s.window ∧ s'.index = s.index ∧ s'.gen = s.gen

theorem endEpoch_steps (c : StreamCfg File G R) {s s' : St File G R} (h : Steps s s') :
    endEpoch c s' = endEpoch c s := by
  obtain ⟨h1, h2, h3, h4, h5, h6, h7, h8⟩ := h
  cases s
  cases s'
  simp only at h1 h2 h3 h4 h5 h6 h7 h8
  subst h1 h2 h3 h4 h5 h6 h7 h8
  rfl

theorem pull_files {c : StreamCfg File G R} (fs : List File) :
    ∀ (s : St File G R), c.nbEpochs.all (fun n => s.epoch < n) = true →
      fs = (epochFiles c s.epoch).drop s.full →
      match leftOf c s with
      | [] => ∃ s', Steps s s' ∧ pull c s (.files fs) = pull c (endEpoch c s') .idle
      | x :: xs => ∃ s' g, pull c s (.files fs) = some (some x, s', g) ∧
          Sync c s' g ∧ leftOf c s' = xs ∧ Steps s s' := by
  induction fs with
  | nil =>
    intro s hal hfs
    have : leftOf c s = [] := by
      unfold leftOf
      rw [← hfs]
      split <;> rfl
    rw [this]
    refine ⟨s, ⟨rfl, rfl, rfl, rfl, rfl, rfl, rfl, rfl⟩, pull_end c s⟩
  | cons f fs ih =>
    intro s hal hfs
    have hnext : fs = (epochFiles c s.epoch).drop (s.full + 1) := by
      rw [← List.drop_drop, ← hfs]
      rfl
    cases hsp : c.split with
    | false =>
      have : leftOf c s = c.whole f :: fs.map c.whole := by
        unfold leftOf
        rw [hsp, ← hfs]
        rfl
      rw [this]
      refine ⟨_, _, pull_whole s f fs hsp, ⟨hal, hnext⟩, ?_,
        ⟨rfl, rfl, rfl, rfl, rfl, rfl, rfl, rfl⟩⟩
      unfold leftOf
      rw [hsp]
      simp only [Bool.false_eq_true, if_false, ← hnext]
    | true =>
      have hleft : leftOf c s = (c.rows f).drop s.cur ++ fragmentsOf c fs := by
        unfold leftOf
        rw [hsp, ← hfs]
        rfl
      rw [hleft, pull_split _ _ _ hsp]
      cases hrows : (c.rows f).drop s.cur with
      | cons x xs =>
        refine ⟨_, _, pull_row c s x xs fs, ⟨hal, hsp, f, hfs.symm, ?_⟩, ?_,
          ⟨rfl, rfl, rfl, rfl, rfl, rfl, rfl, rfl⟩⟩
        · rw [← List.drop_drop, hrows]
          rfl
        · unfold leftOf
          simp only [hsp, if_true, ← hfs]
          rw [← List.drop_drop, hrows]
          rfl
      | nil =>
        have h2 := ih { s with full := s.full + 1, cur := 0 } hal hnext
        have hl2 : leftOf c { s with full := s.full + 1, cur := 0 } = fragmentsOf c fs := by
          unfold leftOf
          simp only [hsp, if_true, ← hnext]
          cases fs with
          | nil => simp [fragmentsOf]
          | cons a l => simp [fragmentsOf, hsp]
        rw [hl2] at h2
        rw [List.nil_append]
        rw [pull_file_end]
        exact h2

/-- The elements up to the end of epoch `m`. -/
def future (c : StreamCfg File G R) (s : St File G R) (m : Nat) : List G :=
  if s.epoch < m then
    leftOf c s ++ ((List.range' (s.epoch + 1) (m - (s.epoch + 1))).map
      fun e => fragmentsOf c (epochFiles c e)).flatten
  else []

theorem leftOf_new (c : StreamCfg File G R) (s : St File G R) :
    leftOf c (endEpoch c s) = fragmentsOf c (epochFiles c (s.epoch + 1)) := by
  unfold leftOf endEpoch resetInner fragmentsOf
  simp only
  cases hsp : c.split with
  | false => simp
  | true =>
    simp only [if_true, List.drop_zero]
    cases epochFiles c (s.epoch + 1) with
    | nil => simp
    | cons f fs => simp

theorem future_endEpoch (c : StreamCfg File G R) (s : St File G R) (m : Nat)
    (hs : s.epoch < m) (hl : leftOf c s = []) : future c (endEpoch c s) m = future c s m := by
  unfold future
  rw [if_pos hs, hl, List.nil_append, leftOf_new]
  have he : (endEpoch c s).epoch = s.epoch + 1 := rfl
  rw [he]
  by_cases h : s.epoch + 1 < m
  · rw [if_pos h]
    rw [show m - (s.epoch + 1) = (m - (s.epoch + 1 + 1)) + 1 by omega, List.range'_succ]
    simp
  · rw [if_neg h, show m - (s.epoch + 1) = 0 by omega]
    simp

theorem endEpoch_seeded {c : StreamCfg File G R} {s : St File G R} (hs : Seeded c s) :
    Seeded c (endEpoch c s) := by
  unfold Seeded endEpoch resetInner
  simp only
  cases hk : c.seed with
  | none => rw [Seeded, hk] at hs; simpa using hs
  | some k => simp

/-- Pulling yields the elements of `future` one after the other, whatever the
generator. -/
theorem pull_future {c : StreamCfg File G R} (hc : Fixed c) (m : Nat)
    (hm : c.nbEpochs.all (fun n => m ≤ n) = true) (n : Nat) :
    ∀ (s : St File G R) (g : Gen File G), m - s.epoch ≤ n → Seeded c s → Sync c s g →
      ∀ x xs, future c s m = x :: xs →
        ∃ s' g', pull c s g = some (some x, s', g') ∧ Sync c s' g' ∧ Seeded c s' ∧
          future c s' m = xs ∧ s'.rng = s.rng ∧ s'.draws = s.draws := by
  induction n with
  | zero =>
    intro s g hn _ _ x xs hf
    unfold future at hf
    rw [if_neg (by omega)] at hf
    cases hf
  | succ n ih =>
    intro s g hn hs hg x xs hf
    have hlt : s.epoch < m := by
      apply Decidable.byContradiction
      intro h
      unfold future at hf
      rw [if_neg h] at hf
      cases hf
    have hal : c.nbEpochs.all (fun n => s.epoch < n) = true := by
      cases hk : c.nbEpochs with
      | none => rfl
      | some k =>
        rw [hk] at hm
        simp only [Option.all_some, decide_eq_true_eq] at hm ⊢
        omega
    rw [← pull_idle hc hs hg, pull_start hal, listFiles_fixed hc hs]
    have hp := pull_files (c := c) ((epochFiles c s.epoch).drop s.full) s hal rfl
    cases hl : leftOf c s with
    | nil =>
      rw [hl] at hp
      obtain ⟨s', hst, hp⟩ := hp
      have he := endEpoch_steps c hst
      simp only [hp, he]
      have := future_endEpoch c s m hlt hl
      obtain ⟨t, g', h1, h2, h3, h4, h5, h6⟩ := ih (endEpoch c s) .idle
        (by show m - (s.epoch + 1) ≤ n; omega) (endEpoch_seeded hs) trivial x xs (by rw [this, hf])
      exact ⟨t, g', h1, h2, h3, h4, h5, h6⟩
    | cons y ys =>
      rw [hl] at hp
      obtain ⟨s', g', h1, h2, h3, h4⟩ := hp
      unfold future at hf
      rw [if_pos hlt, hl, List.cons_append] at hf
      injection hf with hx hxs
      subst hx
      refine ⟨s', g', h1, h2, ?_, ?_, h4.2.1, h4.2.2.2.2.1⟩
      · unfold Seeded
        rw [h4.2.2.1, h4.1]
        exact hs
      · unfold future
        rw [h4.1, if_pos hlt, h3, hxs]

/-- The part of the current window that was not returned yet. -/
def pending (s : St File G R) : List G := s.window.drop s.index

/-- Once nothing is left, pulling finishes. -/
theorem pull_finish {c : StreamCfg File G R} (hc : Fixed c) (m : Nat)
    (hm : c.nbEpochs = some m) (n : Nat) :
    ∀ (s : St File G R) (g : Gen File G), m - s.epoch ≤ n → Seeded c s → Sync c s g →
      future c s m = [] →
        ∃ s' g', pull c s g = some (none, s', g') ∧ Sync c s' g' ∧ Seeded c s' ∧
          future c s' m = [] ∧ s'.rng = s.rng ∧ (pending s = [] → pending s' = []) := by
  induction n with
  | zero =>
    intro s g hn hs hg hf
    have hno : ¬ c.nbEpochs.all (fun n => s.epoch < n) = true := by
      rw [hm]
      simp only [Option.all_some, decide_eq_true_eq]
      omega
    rw [← pull_idle hc hs hg, pull_over hno]
    exact ⟨s, .done, rfl, hno, hs, hf, rfl, id⟩
  | succ n ih =>
    intro s g hn hs hg hf
    by_cases hlt : s.epoch < m
    · have hal : c.nbEpochs.all (fun n => s.epoch < n) = true := by
        rw [hm]
        simpa using hlt
      rw [← pull_idle hc hs hg, pull_start hal, listFiles_fixed hc hs]
      have hp := pull_files (c := c) ((epochFiles c s.epoch).drop s.full) s hal rfl
      have hl : leftOf c s = [] := by
        unfold future at hf
        rw [if_pos hlt] at hf
        exact (List.append_eq_nil_iff.1 hf).1
      rw [hl] at hp
      obtain ⟨s', hst, hp⟩ := hp
      have he := endEpoch_steps c hst
      simp only [hp, he]
      have := future_endEpoch c s m hlt hl
      obtain ⟨t, g', h1, h2, h3, h4, h5, h6⟩ := ih (endEpoch c s) .idle
        (by show m - (s.epoch + 1) ≤ n; omega) (endEpoch_seeded hs) trivial (by rw [this, hf])
      exact ⟨t, g', h1, h2, h3, h4, h5, fun _ => h6 rfl⟩
    · have hno : ¬ c.nbEpochs.all (fun n => s.epoch < n) = true := by
        rw [hm]
        simpa using hlt
      rw [← pull_idle hc hs hg, pull_over hno]
      exact ⟨s, .done, rfl, hno, hs, hf, rfl, id⟩

theorem batch_future {c : StreamCfg File G R} (hc : Fixed c) (m : Nat)
    (hm : c.nbEpochs.all (fun n => m ≤ n) = true) (xs : List G) :
    ∀ (s : St File G R) (g : Gen File G) (ys : List G), Seeded c s → Sync c s g →
      future c s m = xs ++ ys →
        ∃ s' g', batch c xs.length s g = some (xs, s', g') ∧ Sync c s' g' ∧ Seeded c s' ∧
          future c s' m = ys ∧ s'.rng = s.rng := by
  induction xs with
  | nil =>
    intro s g ys hs hg hf
    exact ⟨s, g, rfl, hg, hs, hf, rfl⟩
  | cons x xs ih =>
    intro s g ys hs hg hf
    obtain ⟨s1, g1, h1, h2, h3, h4, h5, _⟩ :=
      pull_future hc m hm _ s g (Nat.le_refl _) hs hg x (xs ++ ys) hf
    obtain ⟨s2, g2, k1, k2, k3, k4, k5⟩ := ih s1 g1 ys h3 h2 h4
    refine ⟨s2, g2, ?_, k2, k3, k4, k5.trans h5⟩
    simp only [List.length_cons, batch, h1, Option.bind_eq_bind, Option.bind_some, k1]

theorem batch_short {c : StreamCfg File G R} (hc : Fixed c) (m : Nat)
    (hm : c.nbEpochs = some m) (xs : List G) :
    ∀ (k : Nat) (s : St File G R) (g : Gen File G), xs.length < k → Seeded c s → Sync c s g →
      future c s m = xs →
        ∃ s' g', batch c k s g = some (xs, s', g') ∧ Sync c s' g' ∧ Seeded c s' ∧
          future c s' m = [] ∧ s'.rng = s.rng := by
  have hm' : c.nbEpochs.all (fun n => m ≤ n) = true := by
    rw [hm]
    simp
  induction xs with
  | nil =>
    intro k s g hk hs hg hf
    cases k with
    | zero => simp at hk
    | succ k =>
      obtain ⟨s1, g1, h1, h2, h3, h4, h5, _⟩ := pull_finish hc m hm _ s g (Nat.le_refl _) hs hg hf
      refine ⟨s1, g1, ?_, h2, h3, h4, h5⟩
      simp only [batch, h1, Option.bind_eq_bind, Option.bind_some]
  | cons x xs ih =>
    intro k s g hk hs hg hf
    cases k with
    | zero => simp at hk
    | succ k =>
      obtain ⟨s1, g1, h1, h2, h3, h4, h5, _⟩ :=
        pull_future hc m hm' _ s g (Nat.le_refl _) hs hg x xs hf
      obtain ⟨s2, g2, k1, k2, k3, k4, k5⟩ := ih k s1 g1 (by simpa using hk) h3 h2 h4
      refine ⟨s2, g2, ?_, k2, k3, k4, k5.trans h5⟩
      simp only [batch, h1, Option.bind_eq_bind, Option.bind_some, k1]

/-! ## `__next__` -/

/-- The generator a call of `__next__` would use. -/
def genOf (s : St File G R) : Gen File G := if s.live then s.gen else .idle

/-- What holds between two calls. -/
structure Ready (c : StreamCfg File G R) (s : St File G R) : Prop where
  seeded : Seeded c s
  sync : Sync c s (genOf s)

theorem Ready.of {c : StreamCfg File G R} {s : St File G R} (h1 : Seeded c s)
    (h2 : Sync c s s.gen) : Ready c s := by
  refine ⟨h1, ?_⟩
  unfold genOf
  cases s.live with
  | true => exact h2
  | false => trivial

theorem shuffle_perm {α : Type} (rd : Rand R) (r : R) (xs : List α) :
    (rd.shuffle r xs).1.Perm xs := by
  have h := (rd.law r xs.length).filterMap fun i => xs[i]?
  refine h.trans (List.Perm.of_eq ?_)
  generalize hn : xs.length = n
  have : ∀ n, n ≤ xs.length → (List.range n).filterMap (fun i => xs[i]?) = xs.take n := by
    intro n
    induction n with
    | zero => intro _; rfl
    | succ n ih =>
      intro hle
      rw [List.range_succ, List.filterMap_append, ih (by omega), List.take_add_one]
      simp [List.getElem?_eq_getElem (show n < xs.length by omega)]
  rw [this n (by omega), List.take_of_length_le (by omega)]

theorem shuffle_length {α : Type} (rd : Rand R) (r : R) (xs : List α) :
    (rd.shuffle r xs).1.length = xs.length := (shuffle_perm rd r xs).length_eq

theorem next_pending {c : StreamCfg File G R} {s : St File G R} (hr : Ready c s) {x : G}
    {rest : List G} (h : pending s = x :: rest) :
    ∃ s', next c s = some (some x, s') ∧ pending s' = rest ∧ Ready c s' ∧ s'.rng = s.rng ∧
      ∀ m, future c s' m = future c s m := by
  have hlt : s.index < s.window.length := by
    apply Decidable.byContradiction
    intro hn
    unfold pending at h
    rw [List.drop_eq_nil_of_le (by omega)] at h
    cases h
  have hx : s.window[s.index]? = some x := by
    have := congrArg List.head? h
    simpa [pending] using this
  refine ⟨_, ?_, ?_, Ready.of (s := { s with live := true, gen := genOf s, index := s.index + 1 })
    hr.seeded hr.sync, rfl, fun _ => rfl⟩
  · unfold next
    simp only
    rw [if_neg (by omega), hx]
    rfl
  · unfold pending at h ⊢
    simp only
    rw [← List.drop_drop, h]
    rfl

theorem next_window {c : StreamCfg File G R} {s : St File G R}
    (hp : pending s = []) {xs : List G} (hx : xs ≠ []) {m : Nat} {ys : List G}
    (hb : ∃ s' g', batch c c.window { s with live := true, gen := .idle } (genOf s) =
        some (xs, s', g') ∧ Sync c s' g' ∧ Seeded c s' ∧ future c s' m = ys ∧ s'.rng = s.rng) :
    ∃ x s', next c s = some (some x, s') ∧
      x :: pending s' = (c.rand.shuffle s.rng xs).1 ∧ Ready c s' ∧
      s'.rng = (c.rand.shuffle s.rng xs).2 ∧ future c s' m = ys := by
  obtain ⟨s1, g1, h1, h2, h3, h4, h5⟩ := hb
  have hge : s.window.length ≤ s.index := by
    unfold pending at hp
    exact List.drop_eq_nil_iff.1 hp
  have hne : (c.rand.shuffle s.rng xs).1 ≠ [] := by
    intro e
    have := shuffle_length c.rand s.rng xs
    rw [e] at this
    exact hx (List.eq_nil_of_length_eq_zero this.symm)
  cases hw : (c.rand.shuffle s.rng xs).1 with
  | nil => exact absurd hw hne
  | cons x rest =>
    let s2 : St File G R :=
      { s1 with gen := g1, rng := (c.rand.shuffle s.rng xs).2, window := x :: rest, index := 1 }
    refine ⟨x, s2, ?_, rfl, Ready.of h3 h2, rfl, h4⟩
    unfold next
    simp only
    rw [if_pos hge]
    have hg : (if s.live = true then s.gen else .idle) = genOf s := rfl
    rw [hg, h1]
    have hem : xs.isEmpty = false := by
      cases xs with
      | nil => exact absurd rfl hx
      | cons => rfl
    simp only [Option.bind_eq_bind, Option.bind_some, hem, Bool.false_eq_true, if_false, h5, hw]
    rfl

theorem next_stop {c : StreamCfg File G R} (hc : Fixed c) {s : St File G R} (hr : Ready c s)
    (hW : 0 < c.window) (hp : pending s = []) {m : Nat} (hm : c.nbEpochs = some m)
    (hf : future c s m = []) :
    ∃ s', next c s = some (none, s') ∧ Ready c s' ∧ future c s' m = [] ∧
      pending s' = [] := by
  obtain ⟨s1, g1, h1, h2, h3, h4, _, h6⟩ := pull_finish hc m hm _
    { s with live := true, gen := .idle } (genOf s) (Nat.le_refl _) hr.seeded hr.sync hf
  have hge : s.window.length ≤ s.index := by
    unfold pending at hp
    exact List.drop_eq_nil_iff.1 hp
  refine ⟨{ s1 with gen := g1 }, ?_, Ready.of h3 h2, h4, h6 hp⟩
  unfold next
  simp only
  rw [if_pos hge]
  have hg : (if s.live = true then s.gen else .idle) = genOf s := rfl
  obtain ⟨k, hk⟩ : ∃ k, c.window = k + 1 := ⟨c.window - 1, by omega⟩
  rw [hg, hk]
  simp only [batch, h1, Option.bind_eq_bind, Option.bind_some, List.isEmpty_nil, if_true]

/-! ## Sequences of calls -/

theorem nexts_append {c : StreamCfg File G R} (a b : Nat) :
    ∀ (s s' : St File G R) (xs : List G), nexts c a s = some (xs, s') → xs.length = a →
      nexts c (a + b) s = (nexts c b s').map fun r => (xs ++ r.1, r.2) := by
  induction a with
  | zero =>
    intro s s' xs h hl
    simp only [nexts, Option.some.injEq, Prod.mk.injEq] at h
    obtain ⟨rfl, rfl⟩ := h
    rw [Nat.zero_add]
    simp
  | succ a ih =>
    intro s s' xs h hl
    rw [show a + 1 + b = (a + b) + 1 by omega]
    simp only [nexts, Option.bind_eq_bind] at h ⊢
    cases hn : next c s with
    | none =>
      rw [hn] at h
      simp at h
    | some r =>
      rw [hn] at h
      simp only [Option.bind_some] at h ⊢
      cases ho : r.1 with
      | none =>
        rw [ho] at h
        simp only [Option.some.injEq, Prod.mk.injEq] at h
        rw [← h.1] at hl
        simp at hl
      | some x =>
        rw [ho] at h
        simp only at h ⊢
        cases hq : nexts c a r.2 with
        | none =>
          rw [hq] at h
          simp at h
        | some q =>
          rw [hq] at h
          simp only [Option.bind_some, Option.some.injEq, Prod.mk.injEq] at h
          obtain ⟨h1, h2⟩ := h
          have := ih r.2 s' q.1 (by rw [hq, ← h2]) (by
            rw [← h1] at hl
            simpa using hl)
          rw [this, ← h1]
          cases nexts c b s' <;> simp

theorem nexts_pending {c : StreamCfg File G R} (p : List G) :
    ∀ {s : St File G R}, Ready c s → pending s = p →
      ∃ s', nexts c p.length s = some (p, s') ∧ pending s' = [] ∧ Ready c s' ∧
        s'.rng = s.rng ∧ ∀ m, future c s' m = future c s m := by
  induction p with
  | nil =>
    intro s hr hp
    exact ⟨s, rfl, hp, hr, rfl, fun _ => rfl⟩
  | cons x p ih =>
    intro s hr hp
    obtain ⟨s1, h1, h2, h3, h4, h5⟩ := next_pending hr hp
    obtain ⟨s2, k1, k2, k3, k4, k5⟩ := ih h3 h2
    refine ⟨s2, ?_, k2, k3, k4.trans h4, fun m => (k5 m).trans (h5 m)⟩
    simp only [List.length_cons, nexts, h1, Option.bind_eq_bind, Option.bind_some, k1]

/-- Shuffles windows one after the other. -/
def shuffleAll (rd : Rand R) : R → List (List G) → List (List G) × R
  | r, [] => ([], r)
  | r, w :: ws =>
    let a := rd.shuffle r w
    let b := shuffleAll rd a.2 ws
    (a.1 :: b.1, b.2)

theorem nexts_one {c : StreamCfg File G R} {s : St File G R}
    (hp : pending s = []) {xs : List G} (hx : xs ≠ []) {m : Nat} {ys : List G}
    (hb : ∃ s' g', batch c c.window { s with live := true, gen := .idle } (genOf s) =
        some (xs, s', g') ∧ Sync c s' g' ∧ Seeded c s' ∧ future c s' m = ys ∧ s'.rng = s.rng) :
    ∃ s', nexts c xs.length s = some ((c.rand.shuffle s.rng xs).1, s') ∧ pending s' = [] ∧
      Ready c s' ∧ s'.rng = (c.rand.shuffle s.rng xs).2 ∧ future c s' m = ys := by
  obtain ⟨x, s1, h1, h2, h3, h4, h5⟩ := next_window hp hx hb
  obtain ⟨s2, k1, k2, k3, k4, k5⟩ := nexts_pending _ h3 rfl
  have hl : xs.length = (pending s1).length + 1 := by
    rw [← shuffle_length c.rand s.rng xs, ← h2]
    simp
  refine ⟨s2, ?_, k2, k3, k4.trans h4, (k5 m).trans h5⟩
  rw [hl]
  simp only [nexts, h1, Option.bind_eq_bind, Option.bind_some, k1, h2]

theorem nexts_windows {c : StreamCfg File G R} (hc : Fixed c) (hW : 0 < c.window) (m : Nat)
    (hm : c.nbEpochs.all (fun n => m ≤ n) = true) (ws : List (List G)) :
    ∀ {s : St File G R} {ys : List G}, Ready c s → pending s = [] →
      (∀ w ∈ ws, w.length = c.window) → future c s m = ws.flatten ++ ys →
      ∃ s', nexts c ws.flatten.length s = some ((shuffleAll c.rand s.rng ws).1.flatten, s') ∧
        pending s' = [] ∧ Ready c s' ∧ s'.rng = (shuffleAll c.rand s.rng ws).2 ∧
        future c s' m = ys := by
  induction ws with
  | nil =>
    intro s ys hr hp _ hf
    exact ⟨s, rfl, hp, hr, rfl, hf⟩
  | cons w ws ih =>
    intro s ys hr hp hw hf
    have hwl := hw w (by simp)
    rw [List.flatten_cons, List.append_assoc] at hf
    have hb := batch_future hc m hm w { s with live := true, gen := .idle } (genOf s)
      (ws.flatten ++ ys) hr.seeded hr.sync hf
    rw [hwl] at hb
    have hne : w ≠ [] := by
      intro e
      rw [e] at hwl
      simp at hwl
      omega
    obtain ⟨s1, h1, h2, h3, h4, h5⟩ := nexts_one hp hne hb
    obtain ⟨s2, k1, k2, k3, k4, k5⟩ := ih h3 h2 (fun v hv => hw v (by simp [hv])) h5
    refine ⟨s2, ?_, k2, k3, ?_, k5⟩
    · rw [List.flatten_cons, List.length_append,
        nexts_append _ _ s s1 _ h1 (shuffle_length _ _ _), k1, h4]
      simp [shuffleAll]
    · rw [k4, h4]
      rfl

theorem shuffleAll_append (rd : Rand R) (a b : List (List G)) :
    ∀ r, shuffleAll rd r (a ++ b) =
      ((shuffleAll rd r a).1 ++ (shuffleAll rd (shuffleAll rd r a).2 b).1,
        (shuffleAll rd (shuffleAll rd r a).2 b).2) := by
  induction a with
  | nil => intro r; rfl
  | cons w ws ih =>
    intro r
    simp only [List.cons_append, shuffleAll, ih]

theorem ready_init (c : StreamCfg File G R) : Ready c (init c) := by
  refine ⟨?_, trivial⟩
  unfold Seeded init
  simp

/-- The elements of epochs `0` to `m - 1`. -/
def stream (c : StreamCfg File G R) (m : Nat) : List G :=
  ((List.range m).map fun e => fragmentsOf c (epochFiles c e)).flatten

theorem future_init (c : StreamCfg File G R) (m : Nat) : future c (init c) m = stream c m := by
  unfold future stream
  have he : (init c).epoch = 0 := rfl
  rw [he]
  cases m with
  | zero => rfl
  | succ m =>
    rw [if_pos (by omega), List.range_eq_range', List.range'_succ]
    simp only [List.map_cons, List.flatten_cons]
    congr 1
    unfold leftOf
    rw [he]
    have hf : (init c).full = 0 := rfl
    have hk : (init c).cur = 0 := rfl
    rw [hf, hk]
    unfold fragmentsOf
    cases c.split with
    | false => simp
    | true =>
      simp only [if_true, List.drop_zero]
      cases epochFiles c 0 <;> simp

/-! ## Pickling -/

theorem pull_inv {c : StreamCfg File G R} (hc : Fixed c) {s : St File G R} {g : Gen File G}
    {r : Option G × St File G R × Gen File G} (h : pull c s g = some r) :
    Seeded c s → Sync c s g → Seeded c r.2.1 ∧ Sync c r.2.1 r.2.2 ∧ r.2.1.draws = s.draws := by
  refine pull.partial_correctness c
    (fun s g r => Seeded c s → Sync c s g → Seeded c r.2.1 ∧ Sync c r.2.1 r.2.2 ∧ r.2.1.draws = s.draws)
    ?_ s g r h
  intro pull' ih s g r h hs hg
  split at h
  · cases h
    exact ⟨hs, hg, rfl⟩
  · split at h
    · rename_i hal
      simp only [listFiles_fixed hc hs] at h
      exact ih _ _ _ h hs ⟨hal, rfl⟩
    · rename_i hno
      cases h
      exact ⟨hs, hno, rfl⟩
  · have := ih _ _ _ h (endEpoch_seeded hs) trivial
    exact this
  · rename_i f fs
    split at h
    · rename_i hsp
      exact ih _ _ _ h hs ⟨hg.1, hsp, f, hg.2.symm, rfl⟩
    · cases h
      refine ⟨hs, ⟨hg.1, ?_⟩, rfl⟩
      show fs = (epochFiles c s.epoch).drop (s.full + 1)
      rw [← List.drop_drop, ← hg.2]
      rfl
  · rename_i fs
    obtain ⟨h1, _, f, h3, _⟩ := hg
    have h0 : Sync c { s with full := s.full + 1, cur := 0 } (.files fs) := ⟨h1, ?_⟩
    · have := ih _ _ _ h hs h0
      exact this
    show fs = (epochFiles c s.epoch).drop (s.full + 1)
    rw [← List.drop_drop, h3]
    rfl
  · rename_i x xs fs
    cases h
    obtain ⟨h1, h2, f, h3, h4⟩ := hg
    refine ⟨hs, ⟨h1, h2, f, h3, ?_⟩, rfl⟩
    show xs = (c.rows f).drop (s.cur + 1)
    rw [← List.drop_drop, ← h4]
    rfl

theorem batch_inv {c : StreamCfg File G R} (hc : Fixed c) (n : Nat) :
    ∀ {s : St File G R} {g : Gen File G} {r : List G × St File G R × Gen File G},
      batch c n s g = some r → Seeded c s → Sync c s g → Seeded c r.2.1 ∧ Sync c r.2.1 r.2.2 ∧ r.2.1.draws = s.draws := by
  induction n with
  | zero =>
    intro s g r h hs hg
    cases h
    exact ⟨hs, hg, rfl⟩
  | succ n ih =>
    intro s g r h hs hg
    simp only [batch, Option.bind_eq_bind] at h
    cases hp : pull c s g with
    | none =>
      rw [hp] at h
      cases h
    | some q =>
      rw [hp] at h
      have hq := pull_inv hc hp hs hg
      simp only [Option.bind_some] at h
      cases ho : q.1 with
      | none =>
        rw [ho] at h
        cases h
        exact hq
      | some x =>
        rw [ho] at h
        simp only at h
        cases hb : batch c n q.2.1 q.2.2 with
        | none =>
          rw [hb] at h
          cases h
        | some t =>
          rw [hb] at h
          simp only [Option.bind_some, Option.some.injEq] at h
          rw [← h]
          have := ih hb hq.1 hq.2.1
          exact ⟨this.1, this.2.1, this.2.2.trans hq.2.2⟩

theorem batch_idle {c : StreamCfg File G R} (hc : Fixed c) {s : St File G R} (hs : Seeded c s)
    {g : Gen File G} (hg : Sync c s g) (n : Nat) (hn : 0 < n) :
    batch c n s .idle = batch c n s g := by
  cases n with
  | zero => omega
  | succ n => simp only [batch, pull_idle hc hs hg]

/-- Two states that only differ in the running generator. -/
structure SameRest (c : StreamCfg File G R) (s t : St File G R) : Prop where
  left : Ready c s
  right : Ready c t
  same : repickle s = repickle t

theorem next_alike {c : StreamCfg File G R} (hc : Fixed c) (hW : 0 < c.window)
    {s t : St File G R} (h : SameRest c s t) :
    match next c s, next c t with
    | none, none => True
    | some a, some b => a.1 = b.1 ∧ SameRest c a.2 b.2 ∧ a.2.draws = s.draws
    | _, _ => False := by
  obtain ⟨hl, hr, hst⟩ := h
  have hgs : (if s.live = true then s.gen else .idle) = genOf s := rfl
  have hgt : (if t.live = true then t.gen else .idle) = genOf t := rfl
  unfold next
  simp only
  rw [hgs, hgt]
  obtain ⟨hsl, hss⟩ := hl
  obtain ⟨hrl, hrs⟩ := hr
  generalize genOf s = gs at *
  generalize genOf t = gt at *
  clear hgs hgt
  obtain ⟨e, w, i, rg, sd, f, cu, l1, g1, d⟩ := s
  obtain ⟨e', w', i', rg', sd', f', cu', l2, g2, d'⟩ := t
  simp only [repickle, St.mk.injEq, true_and] at hst
  obtain ⟨rfl, rfl, rfl, rfl, rfl, rfl, rfl, rfl⟩ := hst
  simp only
  by_cases hge : w.length ≤ i
  · rw [if_pos hge, if_pos hge]
    have h1 := batch_idle hc (s := ⟨e, w, i, rg, sd, f, cu, true, .idle, d⟩) hsl
      (g := gs) hss c.window hW
    have h2 := batch_idle hc (s := ⟨e, w, i, rg, sd, f, cu, true, .idle, d⟩) hrl
      (g := gt) hrs c.window hW
    rw [← h1, ← h2]
    cases hb : batch c c.window ⟨e, w, i, rg, sd, f, cu, true, .idle, d⟩ .idle with
    | none => trivial
    | some r =>
      have hi := batch_inv hc _ hb hsl trivial
      have hr : Ready c { r.2.1 with gen := r.2.2 } := Ready.of hi.1 hi.2.1
      simp only [Option.bind_eq_bind, Option.bind_some]
      cases r.1.isEmpty with
      | true => exact ⟨rfl, ⟨hr, hr, rfl⟩, hi.2.2⟩
      | false => exact ⟨rfl, ⟨Ready.of hi.1 hi.2.1, Ready.of hi.1 hi.2.1, rfl⟩, hi.2.2⟩
  · rw [if_neg hge, if_neg hge]
    exact ⟨rfl, ⟨Ready.of hsl hss, Ready.of hrl hrs, rfl⟩, rfl⟩

theorem nexts_alike {c : StreamCfg File G R} (hc : Fixed c) (hW : 0 < c.window) (k : Nat) :
    ∀ {s t : St File G R}, SameRest c s t →
      (nexts c k s).map Prod.fst = (nexts c k t).map Prod.fst := by
  induction k with
  | zero => intro s t _; rfl
  | succ k ih =>
    intro s t h
    have hn := next_alike hc hW h
    simp only [nexts, Option.bind_eq_bind]
    cases hs : next c s with
    | none =>
      cases ht : next c t with
      | none => rfl
      | some b => rw [hs, ht] at hn; exact hn.elim
    | some a =>
      cases ht : next c t with
      | none => rw [hs, ht] at hn; exact hn.elim
      | some b =>
        rw [hs, ht] at hn
        simp only at hn
        obtain ⟨h1, h2, _⟩ := hn
        simp only [Option.bind_some, h1]
        cases b.1 with
        | none => rfl
        | some x =>
          simp only
          have := ih h2
          cases ha : nexts c k a.2 with
          | none =>
            cases hb : nexts c k b.2 with
            | none => rfl
            | some q => rw [ha, hb] at this; cases this
          | some p =>
            cases hb : nexts c k b.2 with
            | none => rw [ha, hb] at this; cases this
            | some q =>
              rw [ha, hb] at this
              simp only [Option.map_some, Option.some.injEq] at this
              simp [this]

theorem next_ready {c : StreamCfg File G R} (hc : Fixed c) (hW : 0 < c.window)
    {s : St File G R} {r : Option G × St File G R} (hr : Ready c s) (h : next c s = some r) :
    Ready c r.2 ∧ r.2.draws = s.draws := by
  have hn := next_alike hc hW (s := s) (t := s) ⟨hr, hr, rfl⟩
  rw [h] at hn
  exact ⟨hn.2.1.left, hn.2.2⟩

theorem alike_repickle {c : StreamCfg File G R} {s : St File G R} (h : Ready c s) :
    SameRest c s (repickle s) := ⟨h, ⟨h.seeded, trivial⟩, rfl⟩

end Fs2.Parquet
