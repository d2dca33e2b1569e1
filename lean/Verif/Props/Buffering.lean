import Verif.Props.Streams
import Verif.Pipeline.ShuffleLaws
import Verif.Pipeline.BblLaws

/-!
# What the buffering operators produce: C08, C10

Vocabulary: `Verif/Pipeline/Spec.lean`.
-/

namespace Fs2.Props
open Fs2 Source

/-! ## C10

`R : Rng` is any random number generator, so the theorems hold for every sequence
of random numbers. -/

/-- A random number generator for the examples. -/
def lcg : Rng where
  G := Nat
  seed n := n
  draw64 g := (g, g * 5 + 3)
  draw32 g := (g, g * 5 + 3)
  enc g := [(g : Int)]
  dec xs := match xs with
    | [.ofNat g] => some g
    | _ => none
  dec_enc _ := rfl

/-- One pass of a finite upstream: what `shuffle(w)` returns is a rearrangement of
the upstream examples, in which each consecutive block of `w` examples is
rearranged separately.  (`w = 0` stands for the largest window.) -/
theorem C10_blocks (R : Rng) (S : Source) (w seed : Nat) (xs : List Data)
    (h : S.Yields S.init xs) :
    ∃ ys, BlockPerm (if w = 0 then 2 ^ 64 - 1 else w) ys xs ∧
      (shuffle R w seed S).Yields (shuffle R w seed S).init ys := by
  by_cases hw : shuffleWindow w = 1
  · refine ⟨xs, ?_, shuffle_one_yields (s := (shuffle R w seed S).init) hw h⟩
    have : (if w = 0 then 2 ^ 64 - 1 else w) = 1 := hw
    rw [this]
    clear h
    induction xs with
    | nil => exact .last (.refl _) (by simp)
    | cons x xs ih => exact .block (b := [x]) (.refl _) rfl ih
  · exact shuffle_yields (s := (shuffle R w seed S).init) hw rfl rfl h

/-- Nothing is lost, repeated or made up. -/
theorem C10_permutation (R : Rng) (S : Source) (w seed : Nat) (xs ys : List Data)
    (h : S.Yields S.init xs) (hy : (shuffle R w seed S).Yields (shuffle R w seed S).init ys) :
    ys.Perm xs := by
  obtain ⟨zs, h1, h2⟩ := C10_blocks R S w seed xs h
  rw [← h2.det hy]
  exact h1.perm

/-- Window size 1 leaves the order unchanged. -/
theorem C10_window_one (R : Rng) (S : Source) (seed : Nat) (xs : List Data)
    (h : S.Yields S.init xs) : (shuffle R 1 seed S).Yields (shuffle R 1 seed S).init xs :=
  shuffle_one_yields (s := (shuffle R 1 seed S).init) rfl h

/-- The first `k` examples returned are among the first `k + w - 1` of the
upstream: no example moves forward by `w` or more. -/
theorem C10_not_early (R : Rng) (S : Source) (w seed k : Nat) (xs ys : List Data) (hw : 0 < w)
    (h : S.Yields S.init xs) (hy : (shuffle R w seed S).Yields (shuffle R w seed S).init ys) :
    ∃ rest, (ys.take k ++ rest).Perm (xs.take (k + w - 1)) := by
  obtain ⟨zs, h1, h2⟩ := C10_blocks R S w seed xs h
  rw [← h2.det hy]
  rw [if_neg (by omega)] at h1
  exact h1.among hw k

/-- The first `k` examples of the upstream have been returned after `k + w - 1`
calls: no example is held back for long. -/
theorem C10_not_late (R : Rng) (S : Source) (w seed k : Nat) (xs ys : List Data) (hw : 0 < w)
    (h : S.Yields S.init xs) (hy : (shuffle R w seed S).Yields (shuffle R w seed S).init ys) :
    ∃ rest, (xs.take k ++ rest).Perm (ys.take (k + w - 1)) := by
  obtain ⟨zs, h1, h2⟩ := C10_blocks R S w seed xs h
  rw [← h2.det hy]
  rw [if_neg (by omega)] at h1
  exact h1.symm.among hw k

/-- The same for an upstream that need not end: once `m + 1` windows of examples are
available, the first `m` windows are returned, each rearranged. -/
theorem C10_endless (R : Rng) (S : Source) (w seed m : Nat) (xs : List Data) (s' : S.σ)
    (hw : 1 < w) (h : S.Emits S.init xs s') (hl : xs.length = (m + 1) * w) :
    ∃ ys t, ys.length = m * w ∧ BlockPerm w ys (xs.take (m * w)) ∧
      (shuffle R w seed S).Emits (shuffle R w seed S).init ys t := by
  have e : shuffleWindow w = w := by simp only [shuffleWindow]; rw [if_neg (by omega)]
  have := shuffle_emits (R := R) (w := w) (seed := seed) (m := m)
    (s := (shuffle R w seed S).init) (by rw [e]; omega) rfl rfl h (by rw [e]; exact hl)
  rw [e] at this
  exact this

example : ∃ ys : List Data, BlockPerm 2 ys (ints 5) ∧
    (shuffle lcg 2 7 (listSource (ints 5))).Yields (shuffle lcg 2 7 (listSource (ints 5))).init ys :=
  C10_blocks lcg (listSource (ints 5)) 2 7 _ (C05_read_sequence _)

/-- The order does change: with this generator window 2 swaps the first block and
the last one. -/
example : (shuffle lcg 2 0 (listSource (ints 3))).run [.next, .next, .next, .next]
      (shuffle lcg 2 0 (listSource (ints 3))).init
    = [some (.yield (.int 2)), some (.yield (.int 1)), some (.yield (.int 3)), some .eod] := by
  rfl

example : ∃ ys t, ys.length = 4 ∧
    BlockPerm 2 ys (((List.range 6).map fun k : Nat => Data.int (7 + 1 * k)).take 4) ∧
    (shuffle lcg 2 0 (countSource 7 1 none)).Emits (shuffle lcg 2 0 (countSource 7 1 none)).init ys t := by
  obtain ⟨s', h⟩ := C05_count 7 1 6
  exact C10_endless lcg (countSource 7 1 none) 2 0 2 _ s' (by decide) h (by simp)

/-! ## C08 -/

/-- The length of an example is from `lo` to `hi`. -/
def LenIn (len : Data → Except Err Nat) (lo hi : Nat) (x : Data) : Prop :=
  ∃ k, len x = .ok k ∧ lo ≤ k ∧ k ≤ hi

/-- The largest bucket length. -/
def longest (c : BblCfg) : Nat := (c.sizes.map (·.2)).foldr max 0

theorem longest_spec (c : BblCfg) (hv : c.Valid) : longest c = c.maxLen := by
  obtain ⟨_, sorted⟩ := hv
  unfold longest BblCfg.maxLen
  generalize c.sizes = zs at sorted
  induction zs with
  | nil => rfl
  | cons z zs ih =>
    obtain ⟨h1, h2⟩ := List.pairwise_cons.mp sorted
    cases zs with
    | nil => simp
    | cons z' zs =>
      rw [List.map_cons, List.foldr_cons, ih h2, List.getLast?_cons_cons]
      rw [List.getLast?_eq_some_getLast (by simp)]
      simp only [Option.map_some, Option.getD_some]
      have := h1 _ (List.getLast_mem (l := z' :: zs) (by simp))
      omega

open Classical in
/-- Conservation, limits and reporting over one pass of a finite upstream.

`rs` are the results of successive calls until end of data.  The examples among
them are buckets `outs`; each bucket has a size `(n, l)` from `bucket_sizes` such
that it holds between 1 and `n` examples (exactly `n` with `drop_remainder`), all of
length from `min_data_len` to `l`.  Buckets together are a rearrangement of the
upstream examples whose length is from `min_data_len` to the largest bucket length
(with `drop_remainder` except for fewer than `n` dropped ones for some `n`).  The
exceptions are, in order: those of the length function, and one for each example
that is too short or too long and not to be skipped. -/
theorem C08_bucket_by_length (S : Source) (c : BblCfg) (xs : List Data) (hv : c.Valid)
    (hpos : ∀ z ∈ c.sizes, 0 < z.1) (h : S.Yields S.init xs) :
    ∃ (rs : List Res) (outs : List (List Data)) (dropped : List Data),
      (bucketByLength c S).Trace (bucketByLength c S).init rs ∧
      (∀ r ∈ rs, r ≠ .eod) ∧
      yielded rs = outs.map .list ∧
      (∀ b ∈ outs, ∃ z ∈ c.sizes, b ≠ [] ∧ b.length ≤ z.1 ∧ (c.drop = true → b.length = z.1) ∧
        ∀ x ∈ b, LenIn c.len c.minLen z.2 x) ∧
      (outs.flatten ++ dropped).Perm
        (xs.filter fun x => decide (LenIn c.len c.minLen (longest c) x)) ∧
      (dropped = [] ∨ c.drop = true ∧ ∃ z ∈ c.sizes, dropped.length < z.1) ∧
      raised rs = xs.filterMap (fun x => match c.len x with
        | .error e => some e
        | .ok k =>
          if k < c.minLen ∧ c.skipBelow = false then some bblShortErr
          else if c.minLen ≤ k ∧ longest c < k ∧ c.skipAbove = false then some bblLongErr
          else none) := by
  obtain ⟨rs, outs, dropped, h1, h2⟩ := bbl_trace (s := (bucketByLength c S).init) hv (all2_empty _) h
  rw [longest_spec c hv]
  refine ⟨rs, outs, dropped, h1, h2.noEod, h2.yields, ?_, ?_, h2.dropped, ?_⟩
  · intro b hb
    obtain ⟨z, hz, a1, a2, a3, a4⟩ := h2.batch b hb
    have := hpos z hz
    exact ⟨z, hz, a1, by omega, fun hd => by have := a3 hd; omega, a4⟩
  · have e : ((bucketByLength c S).init : BblSt S.σ).bs.flatten = [] := by
      show (c.sizes.map fun _ => ([] : List Data)).flatten = []
      simp
    have := h2.perm
    rw [e, List.nil_append] at this
    refine this.trans (.of_eq (List.filter_congr ?_))
    intro x _
    simp only [BblCfg.accepts, LenIn]
    split
    · next he => simp [he]
    · next k he => simp [he]
  · rw [h2.raises]
    congr 1
    funext x
    simp only [BblCfg.rejects]
    cases c.len x with
    | error e => rfl
    | ok k =>
      simp only
      by_cases h1 : k < c.minLen
      · have : ¬ c.minLen ≤ k := by omega
        cases c.skipBelow <;> simp [h1, this]
      · have : c.minLen ≤ k := by omega
        by_cases h3 : c.maxLen < k
        · cases c.skipAbove <;> simp [h1, h3, this]
        · simp [h1, h3]

/-- Two examples of length up to 2, one of length up to 5; too long ones are
reported. -/
def bblExample : BblCfg where
  sizes := [(2, 2), (1, 5)]
  len x := match x with
    | .list xs => .ok xs.length
    | _ => .error ⟨false, "not a list"⟩
  minLen := 1
  skipBelow := true
  skipAbove := false
  drop := false

example : bblExample.Valid ∧ ∀ z ∈ bblExample.sizes, 0 < z.1 :=
  ⟨⟨by simp [bblExample], by simp [bblExample]⟩, by simp [bblExample]⟩

/-- Without the hypothesis that sizes are positive the limit fails: the builder
accepts the size 0 (data_pipeline.cc:371-406 checks only that the list is not
empty), and such a bucket is emitted with one example. -/
theorem C08_size_zero (xs : List Data) (hx : xs.length = 1) :
    ∃ s', (bucketByLength { bblExample with sizes := [(0, 2)] } (listSource [.list xs])).Emits
      (bucketByLength { bblExample with sizes := [(0, 2)] } (listSource [.list xs])).init
      [.list [.list xs]] s' := by
  refine ⟨⟨[[]], (1 : Nat)⟩, .cons (s' := (⟨[[]], (1 : Nat)⟩ : BblSt Nat)) ?_ (.nil _)⟩
  show bblNext (listSource [.list xs]).next { bblExample with sizes := [(0, 2)] }
    ⟨[[]], (0 : Nat)⟩ = _
  rw [bblNext]
  simp [bucketByLength, listSource, bblExample, BblCfg.maxLen, bblPlace, hx]

end Fs2.Props
