import Verif.Nn.Incremental
import Verif.Props.Layout

/-!
# C48: incremental decoding never overruns and its positions agree with full decoding
-/

namespace Fs2.Props
open Fs2.Nn

/-- **The step counter.** Whatever increments are made, those that raise included, the step number is
the sum of the accepted ones and stays below the maximum; an increment is accepted exactly if the new
number is below the maximum. -/
theorem C48_counter {maxSteps : Int} {inc : Option Int} {b : Bag} (hnew : Bag.new maxSteps inc = some b)
    (hmax : 0 < maxSteps) (values : List Int) :
    let b' := values.foldl (fun (b : Bag) v => (b.increment v).getD b) b
    b'.stepNr < maxSteps ∧ b'.maxNumSteps = maxSteps ∧
    ∀ v, (b'.stepNr + v < maxSteps → b'.increment v = some { b' with stepNr := b'.stepNr + v }) ∧
      (maxSteps ≤ b'.stepNr + v → b'.increment v = none) := by
  have hb : b.stepNr < maxSteps ∧ b.maxNumSteps = maxSteps := by
    unfold Bag.new at hnew
    split at hnew
    · split at hnew
      · cases hnew
      · cases hnew; exact ⟨hmax, rfl⟩
    · cases hnew; exact ⟨hmax, rfl⟩
  clear hnew
  have hinv : ∀ b : Bag, b.stepNr < maxSteps ∧ b.maxNumSteps = maxSteps →
      (values.foldl (fun (b : Bag) v => (b.increment v).getD b) b).stepNr < maxSteps ∧
      (values.foldl (fun (b : Bag) v => (b.increment v).getD b) b).maxNumSteps = maxSteps := by
    induction values with
    | nil => intro b h; exact h
    | cons v values ih =>
      intro b h
      simp only [List.foldl_cons]
      apply ih
      simp only [Bag.increment]
      split
      · exact h
      · simp only [Option.getD_some]; omega
  intro b'
  have h1 : b'.stepNr < maxSteps := (hinv b hb).1
  have h2 : b'.maxNumSteps = maxSteps := (hinv b hb).2
  refine ⟨h1, h2, ?_⟩
  intro v
  constructor
  · intro h
    simp only [Bag.increment]
    rw [if_neg (by show ¬ b'.stepNr + v ≥ b'.maxNumSteps; omega)]
  · intro h
    simp only [Bag.increment]
    rw [if_pos (by show b'.stepNr + v ≥ b'.maxNumSteps; omega)]

/-- The counter cannot reach `max_num_steps` itself, although the error message (incremental_state.py:
93-95) says that it must be less than or equal to it. -/
theorem C48_last_step (maxSteps : Int) : ∀ b, Bag.new maxSteps none = some b →
    b.increment maxSteps = none := by
  intro b h
  cases h
  simp [Bag.increment]

/-- The position at which an element of a batch should be encoded: its number in the whole sequence,
`start` elements of which were fed before. -/
def rowsFrom (start width : Nat) : List Int := (List.range width).map fun j => ((start + j : Nat) : Int) + 1

theorem rowSlice_eq {M : Int} {a n : Nat} (h : (a : Int) + n ≤ M) :
    rowSlice (M + 1) (1 + a) n = rowsFrom a n := by
  apply List.ext_getElem?
  intro j
  simp only [rowSlice, rowsFrom, arange, List.getElem?_take, List.getElem?_drop, List.getElem?_map]
  have h1 : (1 + (a : Int)).toNat = a + 1 := by omega
  rw [h1]
  simp only [Int.toNat_natCast]
  by_cases hj : j < n
  · rw [if_pos hj, List.getElem?_range hj, List.getElem?_range (by omega)]
    simp only [Option.map_some, Option.some.injEq]
    show ((a + 1 + j : Nat) : Int) = _
    omega
  · rw [if_neg hj, List.getElem?_eq_none (by simp; omega)]
    rfl

theorem full_positions {N n : Nat} (hn : 1 ≤ n) :
    ∃ l, Layout.new [(N : Int), (n : Int)] none false = some l ∧ l.packed = false ∧
      l.padded = false ∧ l.width = n ∧ (0 < N → l.maxSeqLen = n) ∧
      l.positions = List.replicate N ((List.range n).map Int.ofNat) := by
  obtain ⟨-, l, hl, hd, hp⟩ := C47_default (N : Int) (n : Int) (by omega) (by omega)
  refine ⟨l, hl, hd.packed, hp, hd.width, ?_, ?_⟩
  · intro hN
    have hne : List.replicate (N : Int).toNat (n : Int) ≠ [] := by
      intro h
      have := congrArg List.length h
      simp at this
      omega
    exact List.eq_of_mem_replicate (hd.largest hne).1
  · apply List.ext_getElem?
    intro i
    by_cases hi : i < N
    · have hlen : (List.replicate (N : Int).toNat (n : Int))[i]? = some (n : Int) := by
        simp [hi]
      obtain ⟨row, hr, hrl, hq⟩ := hd.positions i n hlen
      rw [hr]
      simp only [List.getElem?_replicate, hi, if_true, Option.some.injEq]
      apply List.ext_getElem?
      intro q
      by_cases hqn : q < n
      · rw [hq q (by omega), if_pos (by omega)]
        simp [List.getElem?_range hqn]
      · rw [List.getElem?_eq_none (by omega), List.getElem?_eq_none (by simp; omega)]
    · rw [List.getElem?_eq_none (by rw [hd.numRows]; simp; omega),
        List.getElem?_eq_none (by simp; omega)]

/-- **Both ways of choosing the table rows** give element `j` of every row the row of position
`step_nr + j`. -/
theorem rows_full {N n : Nat} {M : Int} {a : Nat} {b : Bag} (hN : 0 < N) (hn : 1 ≤ n)
    (hb : b.stepNr = a) (h : (a : Int) + n ≤ M) {l : Layout}
    (hl : Layout.new [(N : Int), (n : Int)] none false = some l) :
    l.tableRows M false (some b) = some (List.replicate N (rowsFrom a n)) ∧
    l.learnedRows M false (some b) = some (List.replicate N (rowsFrom a n)) := by
  obtain ⟨l', hl', h1, h2, h3, h4, h5⟩ := full_positions (N := N) hn
  rw [hl] at hl'
  cases hl'
  have h4 := h4 hN
  constructor
  · simp only [Layout.tableRows, Bool.not_false, Bool.true_and, Option.isSome_some, if_true,
      Option.map_some, Option.getD_some, hb, h4, h1, h2, h3, Bool.or_self, Bool.false_eq_true,
      if_false]
    rw [if_neg (by omega), rowSlice_eq h, h5, List.map_replicate]
  · simp only [Layout.learnedRows, Bool.not_false, Bool.true_and, Option.isSome_some, if_true,
      Option.map_some, Option.getD_some, hb, h4]
    rw [if_neg (by omega), h5]
    simp only [List.map_replicate, List.map_map]
    congr 2

private theorem rowsFrom_append (a n m : Nat) :
    rowsFrom a n ++ rowsFrom (a + n) m = rowsFrom a (n + m) := by
  unfold rowsFrom
  rw [List.range_add, List.map_append, List.map_map]
  congr 1
  apply List.map_congr_left
  intro j _
  simp only [Function.comp]
  omega

/-- **Pieces and whole.** A batch of `N` sequences of `pieces.sum` elements is fed in pieces of any
sizes, with the encoder's maximum length and the number of steps of the bag large enough. Then no piece
raises, and gluing together the table rows used for the pieces gives, for every sequence, the rows used
when everything is fed at once without a bag; those are the rows of the positions 0, 1, 2, … -/
theorem C48_pieces {N : Nat} {M maxSteps : Int} {b : Bag} (pieces : List Nat) (hN : 0 < N)
    (hb : Bag.new maxSteps none = some b) (hp : ∀ n ∈ pieces, 1 ≤ n) (hne : pieces ≠ [])
    (hM : (pieces.sum : Int) ≤ M) (hs : (pieces.sum : Int) < maxSteps) :
    ∃ rs b', feed (fun bag l => l.tableRows M false bag) N b (pieces.map Int.ofNat) = some (rs, b') ∧
      feed (fun bag l => l.learnedRows M false bag) N b (pieces.map Int.ofNat) = some (rs, b') ∧
      b'.stepNr = (pieces.sum : Int) ∧
      rs.foldl (fun acc r => List.zipWith (· ++ ·) acc r) (List.replicate N []) =
        List.replicate N (rowsFrom 0 pieces.sum) ∧
      ∃ l, Layout.new [(N : Int), (pieces.sum : Int)] none false = some l ∧
        l.tableRows M false none = some (List.replicate N (rowsFrom 0 pieces.sum)) ∧
        l.learnedRows M false none = some (List.replicate N (rowsFrom 0 pieces.sum)) := by
  have main : ∀ (pieces : List Nat) (a : Nat) (b : Bag), b.stepNr = a → b.maxNumSteps = maxSteps →
      (∀ n ∈ pieces, 1 ≤ n) → (a : Int) + (pieces.sum : Int) ≤ M →
      (a : Int) + (pieces.sum : Int) < maxSteps →
      ∃ rs b', feed (fun bag l => l.tableRows M false bag) N b (pieces.map Int.ofNat) = some (rs, b') ∧
        feed (fun bag l => l.learnedRows M false bag) N b (pieces.map Int.ofNat) = some (rs, b') ∧
        b'.stepNr = ((a + pieces.sum : Nat) : Int) ∧
        ∀ acc : List Int, rs.foldl (fun acc r => List.zipWith (· ++ ·) acc r) (List.replicate N acc) =
          List.replicate N (acc ++ rowsFrom a pieces.sum) := by
    intro pieces
    induction pieces with
    | nil =>
      intro a b h1 h2 _ _ _
      exact ⟨[], b, rfl, rfl, by simpa using h1, fun acc => by simp [rowsFrom]⟩
    | cons n pieces ih =>
      intro a b h1 h2 h3 h4 h5
      simp only [List.sum_cons] at h4 h5
      have hn := h3 n (by simp)
      obtain ⟨l, hl, -⟩ := full_positions (N := N) hn
      obtain ⟨hr, hr'⟩ := rows_full hN hn h1 (M := M) (by omega) hl
      have hinc : b.increment n = some { b with stepNr := b.stepNr + n } := by
        simp only [Bag.increment]
        rw [if_neg (by omega)]
      obtain ⟨rs, b', e1, e2, e3, e4⟩ := ih (a + n) { b with stepNr := b.stepNr + n }
        (by simp [h1]) h2 (fun k hk => h3 k (by simp [hk])) (by omega) (by omega)
      refine ⟨List.replicate N (rowsFrom a n) :: rs, b', ?_, ?_, ?_, ?_⟩
      · simp only [List.map_cons, feed, Int.ofNat_eq_natCast, hl, Option.bind_eq_bind,
          Option.bind_some, hr, hinc, e1]
      · simp only [List.map_cons, feed, Int.ofNat_eq_natCast, hl, Option.bind_eq_bind,
          Option.bind_some, hr', hinc, e2]
      · rw [e3]; simp only [List.sum_cons]; omega
      · intro acc
        simp only [List.foldl_cons, List.zipWith_replicate, Nat.min_self]
        rw [e4, List.append_assoc, rowsFrom_append, List.sum_cons]
  have hb' : b.stepNr = ((0 : Nat) : Int) ∧ b.maxNumSteps = maxSteps := by cases hb; exact ⟨rfl, rfl⟩
  obtain ⟨rs, b', e1, e2, e3, e4⟩ := main pieces 0 b hb'.1 hb'.2 hp (by omega) (by omega)
  refine ⟨rs, b', e1, e2, by simpa using e3, by simpa using e4 [], ?_⟩
  have hpos : 1 ≤ pieces.sum := by
    cases pieces with
    | nil => exact absurd rfl hne
    | cons n pieces =>
      have := hp n (by simp)
      simp only [List.sum_cons]; omega
  obtain ⟨l, hl, h1, h2, h3, h4, h5⟩ := full_positions (N := N) hpos
  refine ⟨l, hl, ?_, ?_⟩
  · simp only [Layout.tableRows, Bool.not_false, Bool.true_and, Option.isSome_none,
      Bool.false_eq_true, if_false, h4 hN, h1, h2, h3, Bool.or_self]
    have := rowSlice_eq (M := M) (a := 0) (n := pieces.sum) (by omega)
    rw [if_neg (by omega), h5]
    simp only [List.map_replicate]
    rw [← this]
    rfl
  · simp only [Layout.learnedRows, Bool.not_false, Bool.true_and, Option.isSome_none,
      Bool.false_eq_true, if_false, h4 hN]
    rw [if_neg (by omega), h5]
    simp only [List.map_replicate, List.map_map]
    congr 2
    apply List.map_congr_left
    intro j _
    simp only [Function.comp]
    show (j : Int) + 1 = _
    omega

/-- Three elements and then two, in a batch of two. -/
example : (feed (fun bag l => l.tableRows 8 false bag) 2 ⟨0, 9, none⟩ [3, 2]).map (·.1) =
    some [[[1, 2, 3], [1, 2, 3]], [[4, 5], [4, 5]]] := by decide

/-- **Too long.** An element beyond the encoder's maximum length is refused, with and without a bag. -/
theorem C48_too_long (l : Layout) (M : Int) (b : Bag) (h : M < b.stepNr + l.maxSeqLen) :
    l.tableRows M false (some b) = none ∧ l.learnedRows M false (some b) = none := by
  constructor
  · simp only [Layout.tableRows, Bool.not_false, Bool.true_and, Option.isSome_some, if_true,
      Option.map_some, Option.getD_some]
    rw [if_pos (by omega)]
  · simp only [Layout.learnedRows, Bool.not_false, Bool.true_and, Option.isSome_some, if_true,
      Option.map_some, Option.getD_some]
    rw [if_pos (by omega)]

example : (8 : Int) < (⟨6, 9, none⟩ : Bag).stepNr + 3 := by decide

/-- **Padding in later pieces.** In a padded piece fed after `step_nr > 0` steps the padding elements
are not given the padding row 0 but row `step_nr`, the one of position `step_nr - 1`: the offset is
added to the position -1 as well (position_encoder.py:156-159, 277, 400-403, 567-570). -/
theorem C48_padding : ∃ l, Layout.new [2, 2] (some [2, 1]) false = some l ∧
    l.tableRows 8 false (some ⟨3, 9, none⟩) = some [[4, 5], [4, 3]] ∧
    l.tableRows 8 false none = some [[1, 2], [1, 0]] := ⟨_, rfl, rfl, rfl⟩

end Fs2.Props
