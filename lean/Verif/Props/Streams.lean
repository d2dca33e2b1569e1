import Verif.Pipeline.RoundRobinStreams
import Verif.Pipeline.RepeatMore
import Verif.Pipeline.Passes

/-!
# What the operators produce: C05, C06, C07, C11, C13, C14

Vocabulary (`Verif/Pipeline/Spec.lean`): `S.Yields s xs` -- calling `next()` from
state `s` on returns the examples `xs` in order and then end of data for ever;
`S.Emits s xs s'` -- the next calls return `xs` and lead to `s'`; `S.Streams s f` --
the examples `f 0, f 1, …` without end; `S.Cycles s xs` -- every reading gives `xs`,
however often the source is reset in between; `S.Passes s es` -- the readings give
`es 0`, `es 1`, …, with `reset(false)` after each.  `S` ranges over *all* sources, so
the statements hold whatever is upstream.
-/

namespace Fs2.Props
open Fs2 Source

/-- Example upstream: `read_sequence([1, ..., n])`. -/
def ints (n : Nat) : List Data := (List.range n).map fun k : Nat => .int (k + 1 : Nat)

/-! ## C05 -/

/-- `read_sequence(xs)` returns `xs`. -/
theorem C05_read_sequence (xs : List Data) : (listSource xs).Yields (listSource xs).init xs := by
  have := listSource_yields_from xs 0 (Nat.zero_le _)
  rw [List.drop_zero] at this
  exact this

/-- `count(start, step)` returns `start, start + step, …`. -/
theorem C05_count (start step : Int) :
    (countSource start step none).Streams start (fun k => .int (start + step * k)) :=
  fun n => ⟨_, countSource_emits start step none start n⟩

/-- `constant(x)` returns `x` for ever. -/
theorem C05_constant (x : Data) : (constantSource x none).Streams () (fun _ => x) := by
  intro n
  have := constantSource_emits x none n ()
  rw [List.map_const', List.length_range]
  exact ⟨_, this⟩

/-- `take(n)`: the first `n` examples, or all if there are fewer. -/
theorem C05_take (S : Source) (n : Nat) (xs : List Data) (h : S.Yields S.init xs) :
    (take n S).Yields (take n S).init (xs.take n) := take_yields h

/-- `take(n)` of an upstream with at least `n` examples, possibly infinite: those
examples and then end of data. -/
theorem C05_take_long (S : Source) (xs : List Data) (s' : S.σ) (h : S.Emits S.init xs s') :
    (take xs.length S).Yields (take xs.length S).init xs := take_yields_of_emits h

/-- `skip(n)`: all but the first `n` examples. -/
theorem C05_skip (S : Source) (n : Nat) (xs : List Data) (h : S.Yields S.init xs) :
    (skip n S).Yields (skip n S).init (xs.drop n) := skip_yields h

/-- `filter(p)`: the examples satisfying `p`, in order. -/
theorem C05_filter (S : Source) (p : Data → Bool) (xs : List Data) (h : S.Yields S.init xs) :
    (filter (fun x => .ok (p x)) S).Yields (filter (fun x => .ok (p x)) S).init (xs.filter p) :=
  filter_yields h

/-- `map(f)`, sequential: `f` of each example, in order.  (Parallel: C18.) -/
theorem C05_map (S : Source) (f : Data → Data) (xs : List Data) (h : S.Yields S.init xs) :
    (map (fun x => .ok (f x)) S).Yields (map (fun x => .ok (f x)) S).init (xs.map f) :=
  map_yields h

/-- `concat`: the examples of the first pipeline, then those of the second, … -/
theorem C05_concat {n : Nat} (Ss : Fin n → Source) (xs : Fin n → List Data)
    (h : ∀ i, (Ss i).Yields (Ss i).init (xs i)) :
    (concat Ss).Yields (concat Ss).init ((List.finRange n).flatMap xs) :=
  concat_yields h

/-- A built pipeline returns what its last operator returns. -/
theorem C05_pipeline (S : Source) (lazy : Bool) (max : Nat) (xs : List Data)
    (h : S.Yields S.init xs) :
    (pipeline lazy max S).Yields (pipeline lazy max S).init xs := pipeline_yields_init h

example : (take 2 (skip 1 (listSource (ints 5)))).Yields (0, false, (0 : Nat))
    [.int 2, .int 3] :=
  C05_take _ 2 _ (C05_skip _ 1 _ (C05_read_sequence (ints 5)))

example : (take 3 (countSource 7 2 none)).Yields (0, (7 : Int)) [.int 7, .int 9, .int 11] := by
  obtain ⟨s', h⟩ := C05_count 7 2 3
  exact C05_take_long (countSource 7 2 none) _ s' h

/-- Two upstreams. -/
def two (A B : Source) : Fin 2 → Source
  | 0 => A
  | 1 => B

def pipe (xs : List Data) : Source := pipeline false 0 (listSource xs)

theorem pipe_yields (xs : List Data) : (pipe xs).Yields (pipe xs).init xs :=
  C05_pipeline _ _ _ _ (C05_read_sequence xs)

theorem pipe_cycles (xs : List Data) : (pipe xs).Cycles (pipe xs).init xs :=
  pipeline_cycles (listSource_cycles xs)

example : (concat (two (pipe (ints 2)) (pipe (ints 1)))).Yields
    (concat (two (pipe (ints 2)) (pipe (ints 1)))).init [.int 1, .int 2, .int 1] :=
  C05_concat (two (pipe (ints 2)) (pipe (ints 1)))
    (fun | 0 => ints 2 | 1 => ints 1)
    (fun | 0 => pipe_yields _ | 1 => pipe_yields _)

/-! ## C06 -/

/-- One shard: shard `idx` of `n` returns the examples at positions `idx`,
`idx + n`, `idx + 2n`, …; without `allow_uneven` only those from complete groups
of `n`. -/
theorem C06_shard (S : Source) (idx n : Nat) (uneven : Bool) (xs : List Data) (hi : idx < n)
    (h : S.Yields S.init xs) :
    ∃ ys, (shard idx n uneven S).Yields (shard idx n uneven S).init ys ∧
      ∀ k, ys[k]? = if uneven = true ∨ (k + 1) * n ≤ xs.length then xs[k * n + idx]? else none :=
  shard_yields hi h

/-- Together the `n` shards return every example exactly once: the example at
position `p` is example number `p / n` of shard `p % n`, and there are no others
(the shards have as many examples as the upstream). -/
theorem C06_partition (S : Source) (n : Nat) (xs : List Data) (h : S.Yields S.init xs)
    (ys : Nat → List Data)
    (hy : ∀ i, i < n → (shard i n true S).Yields (shard i n true S).init (ys i)) (hn : 0 < n) :
    (∀ p, p < xs.length → (ys (p % n))[p / n]? = xs[p]?) ∧
    (∀ i k x, i < n → (ys i)[k]? = some x → xs[k * n + i]? = some x) := by
  have key : ∀ i, i < n → ∀ k, (ys i)[k]? = xs[k * n + i]? := by
    intro i hi k
    obtain ⟨zs, h1, h2⟩ := C06_shard S i n true xs hi h
    rw [h1.det (hy i hi)] at h2
    simpa using h2 k
  refine ⟨fun p _ => ?_, fun i k x hi hx => by rw [← key i hi]; exact hx⟩
  rw [key _ (Nat.mod_lt p hn)]
  congr 1
  rw [Nat.mul_comm]
  exact Nat.div_add_mod p n

/-- Without `allow_uneven` every shard returns the same number of examples: the
number of complete groups. -/
theorem C06_even (S : Source) (idx n : Nat) (xs ys : List Data) (hi : idx < n)
    (h : S.Yields S.init xs)
    (hy : (shard idx n false S).Yields (shard idx n false S).init ys) :
    ys.length = xs.length / n := by
  obtain ⟨zs, h1, h2⟩ := C06_shard S idx n false xs hi h
  rw [h1.det hy] at h2
  have hn : 0 < n := by omega
  apply Nat.le_antisymm
  · apply Nat.le_of_not_lt
    intro hlt
    have h3 := h2 (xs.length / n)
    rw [List.getElem?_eq_getElem hlt, if_neg] at h3
    · cases h3
    · simp only [Bool.false_eq_true, false_or, Nat.not_le]
      have := Nat.lt_mul_div_succ xs.length hn
      rw [Nat.mul_comm] at this
      exact this
  · apply Nat.le_of_not_lt
    intro hlt
    have h3 := h2 ys.length
    rw [List.getElem?_eq_none (Nat.le_refl _), if_pos, List.getElem?_eq_getElem] at h3
    · cases h3
    · have h4 : (ys.length + 1) * n ≤ xs.length / n * n := Nat.mul_le_mul_right n hlt
      have h5 := Nat.div_mul_le_self xs.length n
      rw [Nat.add_mul] at h4
      omega
    · right
      have h4 : (ys.length + 1) * n ≤ xs.length / n * n := Nat.mul_le_mul_right n hlt
      have h5 := Nat.div_mul_le_self xs.length n
      omega

/-- Seven examples on three shards: shard 1 gets the second and fifth; uneven
sharding gives shard 0 a third one. -/
example : (shard 1 3 false (listSource (ints 7))).Yields (0 : Nat) [.int 2, .int 5] ∧
    (shard 0 3 true (listSource (ints 7))).Yields (0 : Nat) [.int 1, .int 4, .int 7] := by
  refine ⟨?_, ?_⟩
  · obtain ⟨ys, h1, h2⟩ := C06_shard _ 1 3 false (ints 7) (by decide) (C05_read_sequence _)
    have : ys = [.int 2, .int 5] := by
      apply List.ext_getElem?
      intro k
      rw [h2 k]
      match k with
      | 0 => rfl
      | 1 => rfl
      | k + 2 =>
        rw [if_neg (by simp [ints]; omega)]
        rfl
    rw [← this]
    exact h1
  · obtain ⟨ys, h1, h2⟩ := C06_shard _ 0 3 true (ints 7) (by decide) (C05_read_sequence _)
    have : ys = [.int 1, .int 4, .int 7] := by
      apply List.ext_getElem?
      intro k
      rw [h2 k, if_pos (.inl rfl)]
      match k with
      | 0 => rfl
      | 1 => rfl
      | 2 => rfl
      | k + 3 =>
        rw [List.getElem?_eq_none (by simp [ints]; omega)]
        rfl
    rw [← this]
    exact h1

/-! ## C07 -/

/-- `bucket(n)`: the buckets in order contain the upstream in order; every bucket
has between 1 and `n` examples, every one but the last exactly `n`; with
`drop_remainder` all have exactly `n` and only the incomplete rest is missing. -/
theorem C07_bucket (S : Source) (n : Nat) (drop : Bool) (xs : List Data) (hn : 0 < n)
    (h : S.Yields S.init xs) :
    ∃ bs : List (List Data),
      (bucket n drop S).Yields (bucket n drop S).init (bs.map .list) ∧
      bs.flatten = (if drop then xs.take (xs.length / n * n) else xs) ∧
      (∀ b ∈ bs, b ≠ [] ∧ b.length ≤ n) ∧
      (∀ k b, bs[k]? = some b → (drop = true ∨ k + 1 < bs.length) → b.length = n) :=
  bucket_yields hn h

example : ∃ bs : List (List Data),
    (bucket 2 true (listSource (ints 5))).Yields (0 : Nat) (bs.map .list) ∧
    bs.flatten = ints 4 ∧ ∀ (k : Nat) (b : List Data), bs[k]? = some b → b.length = 2 := by
  obtain ⟨bs, h1, h2, _, h3⟩ := C07_bucket _ 2 true (ints 5) (by decide) (C05_read_sequence _)
  exact ⟨bs, h1, h2, fun k b hk => h3 k b hk (.inl rfl)⟩

/-! ## C14 -/

/-- `repeat(n)` plays `n` readings of its upstream one after the other, whatever
each reading gives (an upstream `shuffle` may order each differently), provided the
first is not empty. -/
theorem C14_repeat (S : Source) (rr : Bool) (e : List Data) (es : List (List Data))
    (h : S.Epochs rr S.init (e :: es)) (he : e ≠ []) :
    (repeatSrc (some (es.length + 1)) rr S).Yields
      (repeatSrc (some (es.length + 1)) rr S).init (e :: es).flatten :=
  repeat_yields h he rfl

/-- Over an upstream that always gives `xs`, `repeat(n)` gives `n` copies of `xs`. -/
theorem C14_copies (S : Source) (n : Nat) (xs : List Data) (h : S.Cycles S.init xs) (hn : 0 < n) :
    (repeatSrc (some n) false S).Yields (repeatSrc (some n) false S).init
      (List.replicate n xs).flatten := by
  obtain ⟨m, rfl⟩ : ∃ m, n = m + 1 := ⟨n - 1, by omega⟩
  by_cases hx : xs = []
  · subst hx
    have : (List.replicate (m + 1) ([] : List Data)).flatten = [] := by simp
    rw [this]
    exact repeat_empty h.yields
  · have := C14_repeat S false xs (List.replicate m xs) (h.epochs m) hx
    rw [List.length_replicate, ← List.replicate_succ] at this
    exact this

/-- `repeat(0)` is empty. -/
theorem C14_zero (S : Source) (rr : Bool) :
    (repeatSrc (some 0) rr S).Yields (repeatSrc (some 0) rr S).init [] :=
  ⟨_, .nil _, .coind (fun _ => True) trivial
    (fun s _ => ⟨s, by simp [repeatSrc], trivial⟩)⟩

/-- `repeat()` over a non-empty upstream plays it for ever. -/
theorem C14_forever (S : Source) (xs : List Data) (h : S.Cycles S.init xs) (hx : xs ≠ []) :
    (repeatSrc none false S).Streams (repeatSrc none false S).init
      (fun k => (xs[k % xs.length]?).getD default) :=
  repeat_streams hx h

/-- `repeat`, with or without a number, over an empty upstream ends at once. -/
theorem C14_empty (S : Source) (num : Option Nat) (rr : Bool) (h : S.Yields S.init []) :
    (repeatSrc num rr S).Yields (repeatSrc num rr S).init [] := repeat_empty h

example : (repeatSrc (some 2) false (listSource (ints 2))).Yields
    (repeatSrc (some 2) false (listSource (ints 2))).init [.int 1, .int 2, .int 1, .int 2] :=
  C14_copies _ 2 (ints 2) (listSource_cycles _) (by decide)

/-! ## C13 -/

/-- What one zipped pipeline has to give: `some l` -- `l` examples `f 0, …, f (l-1)`
and then end of data; `none` -- `f 0, f 1, …` without end. -/
def Gives (S : Source) (f : Nat → Data) : Option Nat → Prop
  | none => S.Streams S.init f
  | some l => S.Yields S.init ((List.range l).map f)

theorem Gives.offers {S : Source} {f : Nat → Data} {l : Option Nat} (h : Gives S f l) :
    S.Offers S.init f l := by
  cases l <;> exact h

/-- `zip` of pipelines that end together after `m` examples, beside endless ones:
example `k` is the list of the `k`-th examples of all pipelines, and the stream ends
after `m`.  (`names = []`, `flatten = False`.)  With `zip_to_shortest` the pipelines
need not end together and `m` is the length of the shortest. -/
theorem C13_zip {n : Nat} (Ss : Fin n → Source) (shortest : Bool) (f : Fin n → Nat → Data)
    (len : Fin n → Option Nat) (m : Nat) (h : ∀ i, Gives (Ss i) (f i) (len i))
    (hp : ∀ i, (Ss i).finitude = .pseudoInfinite → len i = none)
    (hm : ∃ i, len i = some m) (hle : ∀ i k, len i = some k → m ≤ k)
    (hsh : shortest = true ∨ ∀ i, (Ss i).finitude ≠ .pseudoInfinite → len i = some m) :
    (zip Ss [] shortest false).Yields (zip Ss [] shortest false).init
      ((List.range m).map fun k => .list ((List.finRange n).map fun i => f i k)) :=
  zip_yields (fun i => (h i).offers) hp hm hle hsh (fun _ _ => rfl)

/-- The same with `names`: example `k` is the dict from the names to the `k`-th
examples. -/
theorem C13_zip_names {n : Nat} (Ss : Fin n → Source) (names : List String) (shortest : Bool)
    (hlen : names.length = n) (hn0 : 0 < n) (hnd : names.Nodup)
    (f : Fin n → Nat → Data)
    (len : Fin n → Option Nat) (m : Nat) (h : ∀ i, Gives (Ss i) (f i) (len i))
    (hp : ∀ i, (Ss i).finitude = .pseudoInfinite → len i = none)
    (hm : ∃ i, len i = some m) (hle : ∀ i k, len i = some k → m ≤ k)
    (hsh : shortest = true ∨ ∀ i, (Ss i).finitude ≠ .pseudoInfinite → len i = some m) :
    (zip Ss names shortest false).Yields (zip Ss names shortest false).init
      ((List.range m).map fun k =>
        .dict (names.zip ((List.finRange n).map fun i => f i k))) := by
  refine zip_yields (fun i => (h i).offers) hp hm hle hsh (fun k _ => ?_)
  have hne : names ≠ [] := by rintro rfl; simp at hlen; omega
  have hfold : ∀ (l acc : List (String × Data)), ((acc ++ l).map Prod.fst).Nodup →
      l.foldl (fun d kv => dictEmplace d kv.1 kv.2) acc = acc ++ l := by
    intro l
    induction l with
    | nil => intro acc _; simp
    | cons kv l ih =>
      intro acc hnd
      have h1 : dictEmplace acc kv.1 kv.2 = acc ++ [kv] := by
        simp only [dictEmplace]
        rw [if_neg]
        intro hany
        obtain ⟨kv', h2, h3⟩ := List.any_eq_true.mp hany
        rw [List.map_append, List.map_cons, List.nodup_append] at hnd
        exact hnd.2.2 kv'.1 (List.mem_map_of_mem h2) kv.1 (by simp) (by simpa using h3)
      rw [List.foldl_cons, h1, ih _ (by simpa using hnd)]
      simp
  simp only [zipCombine, Bool.false_eq_true, if_false, hne]
  rw [hfold _ [] ?_]
  · rfl
  · rw [List.nil_append, List.map_fst_zip (by simp [hlen])]
    exact hnd

/-- Without `zip_to_shortest` pipelines of unequal length are an error: exactly as
many aligned examples as the shortest has, then the exception. -/
theorem C13_unequal {n : Nat} (Ss : Fin n → Source) (f : Fin n → Nat → Data)
    (len : Fin n → Option Nat) (m : Nat) (h : ∀ i, Gives (Ss i) (f i) (len i))
    (hm : ∃ i, len i = some m) (hle : ∀ i k, len i = some k → m ≤ k)
    (hne : ∃ j, (Ss j).finitude ≠ .pseudoInfinite ∧ len j ≠ some m) :
    ∃ s₁ s₂ e, (zip Ss [] false false).Emits (zip Ss [] false false).init
        ((List.range m).map fun k => .list ((List.finRange n).map fun i => f i k)) s₁ ∧
      (zip Ss [] false false).next s₁ = some (.err e, s₂) := by
  obtain ⟨s₁, s₂, h1, h2⟩ := zip_length_error (names := []) (fl := false)
    (fun i => (h i).offers) hm hle hne (c := fun k => .list ((List.finRange n).map fun i => f i k))
    (fun _ _ => rfl)
  exact ⟨s₁, s₂, _, h1, h2⟩

theorem gives_pipe (xs : List Data) :
    Gives (pipe xs) (fun k => (xs[k]?).getD default) (some xs.length) := by
  have : (List.range xs.length).map (fun k => (xs[k]?).getD default) = xs := by
    apply List.ext_getElem?
    intro k
    rw [List.getElem?_map]
    by_cases hk : k < xs.length
    · simp [hk]
    · rw [List.getElem?_eq_none (by simp; omega), List.getElem?_eq_none (by omega)]
      rfl
  simp only [Gives, this]
  exact pipe_yields xs

/-- `[1, 2]` zipped with `[1, 2, 3]` to the shortest. -/
example : (zip (two (pipe (ints 2)) (pipe (ints 3))) [] true false).Yields
    (zip (two (pipe (ints 2)) (pipe (ints 3))) [] true false).init
    [.list [.int 1, .int 1], .list [.int 2, .int 2]] :=
  C13_zip (two (pipe (ints 2)) (pipe (ints 3))) true
    (fun | 0 => fun k => ((ints 2)[k]?).getD default | 1 => fun k => ((ints 3)[k]?).getD default)
    (fun | 0 => some 2 | 1 => some 3) 2
    (fun | 0 => gives_pipe (ints 2) | 1 => gives_pipe (ints 3))
    (fun | 0 => by intro h; cases h | 1 => by intro h; cases h)
    ⟨0, rfl⟩ (fun | 0 => by simp | 1 => by simp) (.inl rfl)

/-- The same without `zip_to_shortest` raises. -/
example : ∃ s₁ s₂ e, (zip (two (pipe (ints 2)) (pipe (ints 3))) [] false false).Emits
    (zip (two (pipe (ints 2)) (pipe (ints 3))) [] false false).init
    [.list [.int 1, .int 1], .list [.int 2, .int 2]] s₁ ∧
    (zip (two (pipe (ints 2)) (pipe (ints 3))) [] false false).next s₁ = some (.err e, s₂) :=
  C13_unequal (two (pipe (ints 2)) (pipe (ints 3)))
    (fun | 0 => fun k => ((ints 2)[k]?).getD default | 1 => fun k => ((ints 3)[k]?).getD default)
    (fun | 0 => some 2 | 1 => some 3) 2
    (fun | 0 => gives_pipe (ints 2) | 1 => gives_pipe (ints 3))
    ⟨0, rfl⟩ (fun | 0 => by simp | 1 => by simp)
    ⟨1, by simp [two, pipe, pipeline, listSource], by simp⟩

/-- **Disagreement.** A zip of finite pipelines declares itself infinite, so that
`yield_from` refuses it ("cannot be infinite", yield_from_data_source.cc:93-96),
although it ends. -/
theorem C13_finitude_wrong :
    zipFinitude (two (pipe (ints 2)) (pipe (ints 2))) = .ok .infinite := by
  have h : ∀ i, (two (pipe (ints 2)) (pipe (ints 2)) i).finitude = .finite := by
    intro i; match i with | 0 => rfl | 1 => rfl
  simp [zipFinitude, h]

/-! ## C11 -/

/-- `f` lists the examples of one pass after the other. -/
def ListsPasses (es : Nat → List Data) (f : Nat → Option Data) : Prop :=
  ∀ k, (List.range ((List.range k).flatMap es).length).map f = ((List.range k).flatMap es).map some

/-- What one pipeline of `round_robin` has to give in round `r`, and its length:
a finite pipeline restarts with `allow_repeats` and is skipped without; a
pseudo-infinite one (`count`, `constant`) counts as having length 0.  A pipeline
that shuffles gives its examples in another order each time; its length is that of
the first pass. -/
def Turn (S : Source) (repeats : Bool) (f : Nat → Option Data) (len : Nat) : Prop :=
  (S.finitude ≠ .pseudoInfinite ∧ ∃ xs : List Data, xs.length = len ∧
    if repeats then S.Cycles S.init xs ∧ ∀ r, f r = xs[r % xs.length]?
    else S.Yields S.init xs ∧ ∀ r, f r = xs[r]?) ∨
  (S.finitude = .pseudoInfinite ∧ len = 0 ∧ ∃ g, S.Streams S.init g ∧ ∀ r, f r = some (g r)) ∨
  (S.finitude ≠ .pseudoInfinite ∧ repeats = true ∧ ∃ es, S.Passes S.init es ∧ (∀ k, es k ≠ []) ∧
    (es 0).length = len ∧ ListsPasses es f)

theorem Turn.feeds {S : Source} {repeats : Bool} {f : Nat → Option Data} {len : Nat}
    (h : Turn S repeats f len) :
    ∃ d P, P 0 S.init ∧ Feeds S repeats f d P ∧ ∀ r, doneBy d (r + 1) = decide (len ≤ r) := by
  rcases h with ⟨hf, xs, rfl, h⟩ | ⟨hf, rfl, g, h, hg⟩ | ⟨hf, rfl, es, h, hne, rfl, hs⟩
  · cases repeats with
    | true =>
      simp only [if_true] at h
      obtain ⟨P, h1, h2⟩ := feeds_cycles hf h.1
      obtain rfl : f = _ := funext h.2
      exact ⟨_, P, h1, h2, fun r => doneBy_cycles⟩
    | false =>
      simp only [Bool.false_eq_true, if_false] at h
      obtain ⟨P, h1, h2⟩ := feeds_yields hf h.1
      obtain rfl : f = _ := funext h.2
      exact ⟨_, P, h1, h2, fun r => doneBy_yields⟩
  · obtain ⟨P, h1, h2⟩ := feeds_pseudo (rp := repeats) hf h
    obtain rfl : f = _ := funext hg
    exact ⟨_, P, h1, h2, fun r => by rw [doneBy_pseudo]; simp⟩
  · obtain ⟨P, h1, h2⟩ := feeds_passes hf hne h
    obtain rfl := eq_passStream hne hs
    exact ⟨_, P, h1, h2, doneBy_passes hne⟩

/-- `round_robin` returns whole rounds: in round `r` the `r`-th example of every
pipeline that has one, in order.  It ends after `R` rounds, `R` the length of the
longest pipeline (at least one round), or of the shortest with `stop_at_shortest`.

Missing for the full C11 (hence `_partial`): the *last* pipeline must have an
example in every round; `C11_early_end` shows that otherwise the end is reported
too early. -/
theorem C11_round_robin_partial {n : Nat} (Ss : Fin n → Source) (shortest repeats : Bool)
    (f : Fin n → Nat → Option Data) (len : Fin n → Nat) (R : Nat)
    (h : ∀ i, Turn (Ss i) repeats (f i) (len i)) (hR : 0 < R)
    (hlen : if shortest then (∀ i, R ≤ max 1 (len i)) ∧ ∃ i, R = max 1 (len i)
      else (∀ i, max 1 (len i) ≤ R) ∧ ∃ i, R = max 1 (len i))
    (hlast : ∀ r, r < R → ∀ i : Fin n, i.1 + 1 = n → f i r ≠ none) :
    (roundRobin Ss shortest repeats).Yields (roundRobin Ss shortest repeats).init
      ((List.range R).flatMap fun r => (List.finRange n).filterMap fun i => f i r) := by
  have hn : 0 < n := by
    cases shortest <;> simp at hlen <;> obtain ⟨_, i, _⟩ := hlen <;> exact Nat.lt_of_le_of_lt (Nat.zero_le _) i.2
  have h1 : ∀ i, ∃ x : (Nat → Bool) × (Nat → (Ss i).σ → Prop), x.2 0 (Ss i).init ∧
      Feeds (Ss i) repeats (f i) x.1 x.2 ∧ ∀ r, doneBy x.1 (r + 1) = decide (len i ≤ r) := by
    intro i
    obtain ⟨d, P, h⟩ := (h i).feeds
    exact ⟨(d, P), h⟩
  obtain ⟨g, h2⟩ := Classical.axiomOfChoice h1
  refine rr_yields (d := fun i => (g i).1) (P := fun i => (g i).2) hn (fun i => (h2 i).2.1) rfl rfl
    rfl rfl (fun i => (h2 i).1) hR ?_ ?_ hlast
  · intro r hr0 hr
    simp only [fun i => (h2 i).2.2 r]
    cases shortest with
    | true =>
      simp only [if_true] at hlen
      simp only [rrAllDone, if_true, List.any_map, List.any_eq_false]
      intro i _
      have := hlen.1 i
      simp
      omega
    | false =>
      simp only [Bool.false_eq_true, if_false] at hlen
      obtain ⟨_, i, hi⟩ := hlen
      simp only [rrAllDone, Bool.false_eq_true, if_false, List.all_map, List.all_eq_false]
      refine ⟨i, List.mem_finRange i, ?_⟩
      simp
      omega
  · simp only [fun i => (h2 i).2.2 R]
    cases shortest with
    | true =>
      simp only [if_true] at hlen
      obtain ⟨_, i, hi⟩ := hlen
      simp only [rrAllDone, if_true, List.any_map, List.any_eq_true]
      refine ⟨i, List.mem_finRange i, ?_⟩
      simp
      omega
    | false =>
      simp only [Bool.false_eq_true, if_false] at hlen
      simp only [rrAllDone, Bool.false_eq_true, if_false, List.all_map, List.all_eq_true]
      intro i _
      have := hlen.1 i
      simp
      omega

/-- A finite pipeline, with repeats. -/
theorem turn_pipe (xs : List Data) :
    Turn (pipe xs) true (fun r => xs[r % xs.length]?) xs.length :=
  .inl ⟨by simp [pipe, pipeline, listSource], xs, rfl, by simpa using pipe_cycles xs⟩

/-- A pipeline that shuffles, with repeats: another order in every pass. -/
theorem turn_shuffled (R : Rng) (max w seed : Nat) (xs : List Data) (hx : xs ≠ []) :
    ∃ es f, (∀ k, (es k).Perm xs) ∧ ListsPasses es f ∧
      Turn (pipeline false max (shuffle R w seed (listSource xs))) true f xs.length := by
  have h1 : (listSource xs).Rereads (fun _ => True) (List.Perm · xs) :=
    ⟨fun h => by obtain ⟨ys, rfl, h⟩ := (rereads_list xs).again h; exact ⟨_, .refl _, h⟩, fun _ _ _ => trivial, fun _ => trivial⟩
  have h2 := rereads_pipeline (max := max) (rereads_shuffle R w seed h1)
  obtain ⟨ys, hp, hy⟩ : ∃ ys, List.Perm ys xs ∧ (shuffle R w seed (listSource xs)).Yields (shuffle R w seed (listSource xs)).init ys := by
    by_cases hw : shuffleWindow w = 1
    · exact ⟨xs, .refl _, shuffle_one_yields hw (C05_read_sequence xs)⟩
    · obtain ⟨ys, h3, h4⟩ := shuffle_yields (R := R) (w := w) (seed := seed) (S := listSource xs)
        (s := (shuffle R w seed (listSource xs)).init) hw rfl rfl (C05_read_sequence xs)
      exact ⟨ys, h3.perm, h4⟩
  obtain ⟨es, h3, h4, h5⟩ := h2.passes ⟨_, _, rfl⟩ (pipeline_yields_init (lazy := false) (max := max) hy)
  have hperm : ∀ k, (es k).Perm xs := by
    intro k
    cases k with
    | zero => rw [h3]; exact hp
    | succ k => exact h4 k
  have hne : ∀ k, es k ≠ [] := fun k h => hx (by have := hperm k; rw [h] at this; exact this.nil_eq.symm)
  have hs : ListsPasses es (passStream es) := by
    intro k
    rw [← passStream_spec hne]
    congr 2
    have := congrArg List.length (passStream_spec hne k)
    simpa using this.symm
  exact ⟨es, _, hperm, hs, .inr (.inr ⟨by simp [pipeline, shuffle, listSource], rfl, es, h5, hne, (hperm 0).length_eq, hs⟩)⟩

/-- `[1]` and `[1, 2]`: the first is restarted. -/
example : (roundRobin (two (pipe (ints 1)) (pipe (ints 2))) false true).Yields
    (roundRobin (two (pipe (ints 1)) (pipe (ints 2))) false true).init
    [.int 1, .int 1, .int 1, .int 2] := by
  have h := C11_round_robin_partial (two (pipe (ints 1)) (pipe (ints 2))) false true
    (fun | 0 => fun r => (ints 1)[r % 1]? | 1 => fun r => (ints 2)[r % 2]?)
    (fun | 0 => 1 | 1 => 2) 2
    (fun | 0 => turn_pipe (ints 1) | 1 => turn_pipe (ints 2)) (by decide)
    ⟨fun | 0 => by simp | 1 => by simp, 1, rfl⟩
    (by
      intro r hr i hi
      match i with
      | 0 => simp at hi
      | 1 => match r with
        | 0 => simp [ints]
        | 1 => simp [ints]
        | r + 2 => omega)
  exact h

/-- **Disagreement.** With `allow_repeats=False` and the pipelines `[1, 2, 3]` and
`[1]` the fourth call reports end of data although 3 has not been returned; a fifth
call returns it.  So the end is reported too early, and end of data is not
final. -/
theorem C11_early_end :
    (roundRobin (two (pipe (ints 3)) (pipe (ints 1))) false false).run
      [.next, .next, .next, .next, .next, .next]
      (roundRobin (two (pipe (ints 3)) (pipe (ints 1))) false false).init
    = [some (.yield (.int 1)), some (.yield (.int 1)), some (.yield (.int 2)), some .eod,
       some (.yield (.int 3)), some .eod] := rfl

/-- **Disagreement.** The same with `allow_repeats=True` and an empty pipeline at the
end. -/
theorem C11_early_end_repeats :
    (roundRobin (two (pipe (ints 2)) (pipe [])) false true).run
      [.next, .next, .next, .next]
      (roundRobin (two (pipe (ints 2)) (pipe [])) false true).init
    = [some (.yield (.int 1)), some .eod, some (.yield (.int 2)), some .eod] := rfl

/-- **Disagreement.** With `stop_at_shortest` a pseudo-infinite pipeline counts as
the shortest: `[1, 2, 3]` with `constant(0)` ends after one round. -/
theorem C11_pseudo_infinite_is_shortest :
    (roundRobin (two (pipe (ints 3)) (pipeline false 0 (constantSource (.int 0) none))) true true).run
      [.next, .next, .next]
      (roundRobin (two (pipe (ints 3)) (pipeline false 0 (constantSource (.int 0) none))) true true).init
    = [some (.yield (.int 1)), some (.yield (.int 0)), some .eod] := rfl

end Fs2.Props
