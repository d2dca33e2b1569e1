import Verif.Nn.BatchLayoutLemmas

/-!
# C47: a batch layout describes its batch
-/

namespace Fs2.Props
open Fs2.Nn

/-- `m` is the smallest of the numbers. -/
def Smallest (m : Int) (l : List Int) : Prop := m ∈ l ∧ ∀ n ∈ l, m ≤ n
/-- `m` is the largest of the numbers. -/
def Largest (m : Int) (l : List Int) : Prop := m ∈ l ∧ ∀ n ∈ l, n ≤ m

/-- What it means for a layout to describe a packed batch: the sequences of the given lengths lie one
after the other in a row of `w` elements, the rest of which is padding. -/
structure DescribesPacked (L : Layout) (w : Int) (lens : List Int) : Prop where
  width : L.width = w
  packed : L.packed = true
  seqLens : L.seqLens = lens
  numBegins : L.beginIndices.length = lens.length + 1
  /-- the start indices are the prefix sums -/
  begins : ∀ i ≤ lens.length, L.beginIndices[i]? = some (lens.take i).sum
  /-- positions restart at 0 at every sequence start, and padding has position -1 -/
  positions : ∃ row, L.positions = [row] ∧ (row.length : Int) = w ∧
    (∀ (i : Nat) (n : Int), lens[i]? = some n → ∀ j : Nat, (j : Int) < n →
      ∃ q : Nat, (q : Int) = (lens.take i).sum + j ∧ row[q]? = some (j : Int)) ∧
    (∀ q : Nat, lens.sum ≤ q → (q : Int) < w → row[q]? = some (-1))
  padded : L.padded = true ↔ lens.sum < w
  smallest : lens ≠ [] → Smallest L.minSeqLen lens
  largest : lens ≠ [] → Largest L.maxSeqLen lens

/-- What it means for a layout to describe a padded batch: every row of `w` elements begins with a
sequence of the given length, the rest of which is padding. -/
structure DescribesPadded (L : Layout) (w : Int) (lens : List Int) : Prop where
  width : L.width = w
  packed : L.packed = false
  seqLens : L.seqLens = lens
  numBegins : L.beginIndices.length = lens.length + 1
  begins : ∀ i ≤ lens.length, L.beginIndices[i]? = some (i * w)
  numRows : L.positions.length = lens.length
  /-- row `i` has the positions `0 … len - 1`, then -1 -/
  positions : ∀ (i : Nat) (n : Int), lens[i]? = some n →
    ∃ row, L.positions[i]? = some row ∧ (row.length : Int) = w ∧
      ∀ q : Nat, (q : Int) < w → row[q]? = some (if (q : Int) < n then (q : Int) else -1)
  padded : L.padded = true ↔ ∃ n ∈ lens, n < w
  smallest : lens ≠ [] → Smallest L.minSeqLen lens
  largest : lens ≠ [] → Largest L.maxSeqLen lens

/-- **Packed batches.** The constructor accepts exactly a one-dimensional shape of at least one
element and lengths of at least one that fit together into it, and then describes the batch. -/
theorem C47_packed (shape lens : List Int) :
    (∀ L, Layout.new shape (some lens) true = some L →
      ∃ w, shape = [w] ∧ 1 ≤ w ∧ (∀ n ∈ lens, 1 ≤ n) ∧ lens.sum ≤ w ∧ DescribesPacked L w lens) ∧
    (∀ w, shape = [w] → 1 ≤ w → (∀ n ∈ lens, 1 ≤ n) → lens.sum ≤ w →
      ∃ L, Layout.new shape (some lens) true = some L) := by
  have key : ∀ w, 1 ≤ w → (∀ n ∈ lens, 1 ≤ n) → lens.sum ≤ w →
      ∃ L, Layout.new [w] (some lens) true = some L ∧ DescribesPacked L w lens := by
    intro w hw h1 h2
    obtain ⟨s, e, hi⟩ := packed_loop lens (packed_init hw) h1 (by simpa using h2)
    simp only [List.nil_append] at hi
    refine ⟨{ width := w, beginIndices := s.beginIndices, seqLens := s.seqLens,
              positions := s.positions.map (padFrom s.seqEnd), minSeqLen := s.minSeqLen,
              maxSeqLen := s.maxSeqLen, packed := true, padded := s.seqEnd < w }, ?_, ?_⟩
    · simp only [Layout.new, if_true, newPacked, show ¬ w < 1 by omega, if_false, Option.getD_some,
        e]
      rfl
    · refine ⟨rfl, rfl, hi.lens, ?_, ?_, ?_, ?_, ?_, ?_⟩
      · simp [hi.begins]
      · intro i hle
        have : i < lens.length + 1 := by omega
        simp [hi.begins, List.getElem?_map, List.getElem?_range this, offset]
      · obtain ⟨row, hp, hl, hb, ht⟩ := hi.row
        refine ⟨padFrom s.seqEnd row, by simp [hp], by simp [padFrom, hl]; omega, ?_, ?_⟩
        · intro i n hin j hj
          have h3 := offset_nonneg hi.ones i
          have h4 := offset_le hi.ones hin
          refine ⟨(offset lens i + j).toNat, by unfold offset at *; omega, ?_⟩
          simp only [padFrom, List.getElem?_mapIdx, hb i n hin j hj, Option.map_some, hi.fin]
          rw [if_neg (by omega)]
        · intro q hq1 hq2
          simp only [padFrom, List.getElem?_mapIdx, ht q hq1 hq2, Option.map_some, hi.fin]
          rw [if_pos (by omega)]
      · simp [hi.fin]
      · intro h; exact ⟨hi.ext.mMem h, hi.ext.mLe⟩
      · intro h; exact ⟨hi.ext.MMem h, hi.ext.MLe⟩
  constructor
  · intro L hL
    have hL0 := hL
    simp only [Layout.new, if_true] at hL
    unfold newPacked at hL
    split at hL
    next w =>
      split at hL
      · cases hL
      next hw =>
      simp only [Option.bind_eq_bind, Option.bind_eq_some_iff, Option.getD_some] at hL
      obtain ⟨s, e, -⟩ := hL
      obtain ⟨h1, h2⟩ := packed_valid lens (packed_init (w := w) (by omega)) e
      simp only [List.nil_append] at h2
      obtain ⟨L', e', hd⟩ := key w (by omega) h1 h2
      rw [hL0] at e'
      cases e'
      exact ⟨w, rfl, by omega, h1, h2, hd⟩
    · cases hL
  · rintro w rfl hw h1 h2
    obtain ⟨L, e, -⟩ := key w hw h1 h2
    exact ⟨L, e⟩

example : (Layout.new [7] (some [2, 3]) true).map (·.positions) = some [[0, 1, 0, 1, 2, -1, -1]] := by
  decide

/-- **Padded batches.** The constructor accepts exactly a two-dimensional shape of at least one
column with one length between one and the number of columns for each row, and then describes the
batch. -/
theorem C47_padded (shape lens : List Int) :
    (∀ L, Layout.new shape (some lens) false = some L →
      ∃ w, shape = [(lens.length : Int), w] ∧ 1 ≤ w ∧ (∀ n ∈ lens, 1 ≤ n ∧ n ≤ w) ∧
        DescribesPadded L w lens) ∧
    (∀ w, shape = [(lens.length : Int), w] → 1 ≤ w → (∀ n ∈ lens, 1 ≤ n ∧ n ≤ w) →
      ∃ L, Layout.new shape (some lens) false = some L) := by
  have key : ∀ w, 1 ≤ w → (∀ n ∈ lens, 1 ≤ n ∧ n ≤ w) →
      ∃ L, Layout.new [(lens.length : Int), w] (some lens) false = some L ∧
        DescribesPadded L w lens := by
    intro w hw h1
    have hinit : PaddedInv w lens.length [] (rangeStep ((lens.length : Int) * w + 1) w) {
        beginIndices := rangeStep ((lens.length : Int) * w + 1) w, seqLens := []
        positions := List.replicate lens.length (arange w), minSeqLen := w
        maxSeqLen := 0 } :=
      { begins := rfl, lens := rfl
        ext := ⟨by simp, by simp, by simp, by simp, by simp⟩
        pad := by simp
        rows := by simp
        row := fun i hi => by simp [hi] }
    obtain ⟨s, e, hi⟩ := padded_loop lens hinit h1
    simp only [List.nil_append, List.length_nil] at hi e
    refine ⟨{ width := w, beginIndices := s.beginIndices, seqLens := s.seqLens,
              positions := s.positions, minSeqLen := s.minSeqLen,
              maxSeqLen := s.maxSeqLen, packed := false, padded := s.padded }, ?_, ?_⟩
    · simp only [Layout.new, Bool.false_eq_true, if_false, newPadded, show ¬ w < 1 by omega,
        Option.getD_some, ne_eq, not_true, Int.toNat_natCast, e]
      rfl
    · refine ⟨rfl, rfl, hi.lens, ?_, ?_, hi.rows, ?_, hi.pad, ?_, ?_⟩
      · simp [hi.begins, rangeStep_eq hw]
      · intro i hle
        have : i < lens.length + 1 := by omega
        simp [hi.begins, rangeStep_eq hw, List.getElem?_map, List.getElem?_range this]
      · intro i n hin
        have hlt : i < lens.length := by
          rcases Nat.lt_or_ge i lens.length with h | h
          · exact h
          · rw [List.getElem?_eq_none h] at hin; cases hin
        have hr := hi.row i hlt
        simp only [hin] at hr
        refine ⟨_, hr, by simp [padFrom, arange_length]; omega, ?_⟩
        intro q hq
        simp only [padFrom, List.getElem?_mapIdx, arange_get w q hq, Option.map_some]
        by_cases h3 : (q : Int) < n
        · rw [if_neg (by omega), if_pos h3]
        · rw [if_pos (by omega), if_neg h3]
      · intro h; exact ⟨hi.ext.mMem h, hi.ext.mLe⟩
      · intro h; exact ⟨hi.ext.MMem h, hi.ext.MLe⟩
  constructor
  · intro L hL
    have hL0 := hL
    simp only [Layout.new, Bool.false_eq_true, if_false] at hL
    unfold newPadded at hL
    split at hL
    next N w =>
      split at hL
      · cases hL
      next hw =>
      simp only [Option.getD_some] at hL
      split at hL
      · cases hL
      next hN =>
      have hN : (lens.length : Int) = N := Decidable.not_not.mp hN
      subst hN
      simp only [Option.bind_eq_bind, Option.bind_eq_some_iff] at hL
      obtain ⟨s, e, -⟩ := hL
      have h1 := padded_valid lens e
      obtain ⟨L', e', hd⟩ := key w (by omega) h1
      rw [hL0] at e'
      cases e'
      exact ⟨w, rfl, by omega, h1, hd⟩
    · cases hL
  · rintro w rfl hw h1
    obtain ⟨L, e, -⟩ := key w hw h1
    exact ⟨L, e⟩

example : (Layout.new [2, 3] (some [2, 3]) false).map (·.positions) =
    some [[0, 1, -1], [0, 1, 2]] := by decide

/-- **No lengths given.** A packed batch is then one sequence, and every row of a padded batch is full;
neither is padded. -/
theorem C47_default (N w : Int) (hN : 0 ≤ N) (hw : 1 ≤ w) :
    (∃ L, Layout.new [w] none true = some L ∧ DescribesPacked L w [w] ∧ L.padded = false) ∧
    (∃ L, Layout.new [N, w] none false = some L ∧
      DescribesPadded L w (List.replicate N.toNat w) ∧ L.padded = false) := by
  constructor
  · have e : Layout.new [w] none true = Layout.new [w] (some [w]) true := rfl
    obtain ⟨L, hL⟩ := (C47_packed [w] [w]).2 w rfl hw (by simp; omega) (by simp)
    obtain ⟨w', hw', -, -, -, hd⟩ := (C47_packed [w] [w]).1 L hL
    cases hw'
    refine ⟨L, e.trans hL, hd, ?_⟩
    have := hd.padded
    cases h : L.padded with
    | false => rfl
    | true => simp [h] at this
  · have e : Layout.new [N, w] none false =
      Layout.new [N, w] (some (List.replicate N.toNat w)) false := rfl
    have hs : [N, w] = [((List.replicate N.toNat w).length : Int), w] := by
      simp; omega
    obtain ⟨L, hL⟩ := (C47_padded [N, w] (List.replicate N.toNat w)).2 w hs hw (by
      intro n hn; rw [List.eq_of_mem_replicate hn]; omega)
    obtain ⟨w', hw', -, -, hd⟩ := (C47_padded [N, w] (List.replicate N.toNat w)).1 L hL
    have : w' = w := by
      simp only [List.cons.injEq, and_true] at hw'; exact hw'.2.symm
    subst this
    refine ⟨L, e.trans hL, hd, ?_⟩
    have hp := hd.padded
    cases h : L.padded with
    | false => rfl
    | true =>
      obtain ⟨n, hn, hlt⟩ := hp.mp h
      rw [List.eq_of_mem_replicate hn] at hlt
      omega

end Fs2.Props
