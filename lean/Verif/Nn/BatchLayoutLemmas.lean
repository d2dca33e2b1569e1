import Verif.Nn.BatchLayout

/-! Helper lemmas about batch layouts. -/

namespace Fs2.Nn

/-- `m` is the least and `M` the greatest of the lengths; with no lengths they are the width and 0. -/
structure Extremes (w : Int) (lens : List Int) (m M : Int) : Prop where
  empty : lens = [] → m = w ∧ M = 0
  mMem : lens ≠ [] → m ∈ lens
  mLe : ∀ n ∈ lens, m ≤ n
  MMem : lens ≠ [] → M ∈ lens
  MLe : ∀ n ∈ lens, n ≤ M

theorem Extremes.step {w : Int} {lens : List Int} {m M n : Int} (h : Extremes w lens m M)
    (h1 : 1 ≤ n) (h2 : n ≤ w) : Extremes w (lens ++ [n]) (min m n) (max M n) := by
  by_cases he : lens = []
  · subst he
    obtain ⟨rfl, rfl⟩ := h.empty rfl
    have e1 : min m n = n := by omega
    have e2 : max 0 n = n := by omega
    rw [e1, e2]
    exact ⟨by simp, by simp, by simp, by simp, by simp⟩
  · have hm := h.mMem he
    have hM := h.MMem he
    refine ⟨by simp, fun _ => ?_, ?_, fun _ => ?_, ?_⟩
    · rw [List.mem_append]
      by_cases h3 : m ≤ n
      · left; rw [show min m n = m by omega]; exact hm
      · right; rw [show min m n = n by omega]; simp
    · intro k hk
      rcases List.mem_append.mp hk with hk | hk
      · have := h.mLe k hk; omega
      · simp at hk; omega
    · rw [List.mem_append]
      by_cases h3 : n ≤ M
      · left; rw [show max M n = M by omega]; exact hM
      · right; rw [show max M n = n by omega]; simp
    · intro k hk
      rcases List.mem_append.mp hk with hk | hk
      · have := h.MLe k hk; omega
      · simp at hk; omega

theorem arange_get (w : Int) (p : Nat) (h : (p : Int) < w) : (arange w)[p]? = some (p : Int) := by
  have h1 : p < w.toNat := by omega
  simp [arange, h1]

theorem arange_length (w : Int) : (arange w).length = w.toNat := by simp [arange]

/-- The prefix sum of the first `i` lengths. -/
def offset (lens : List Int) (i : Nat) : Int := (lens.take i).sum

theorem offset_append {pre : List Int} {n : Int} {i : Nat} (h : i ≤ pre.length) :
    offset (pre ++ [n]) i = offset pre i := by
  simp [offset, List.take_append_of_le_length h]

theorem offset_full {pre suf : List Int} : offset (pre ++ suf) pre.length = pre.sum := by
  simp [offset]

theorem sum_nonneg {l : List Int} (h : ∀ n ∈ l, 1 ≤ n) : 0 ≤ l.sum := by
  induction l with
  | nil => simp
  | cons a l ih =>
    have h1 := h a (by simp)
    have h2 := ih (fun n hn => h n (by simp [hn]))
    simp only [List.sum_cons]
    omega

theorem offset_nonneg {l : List Int} (h : ∀ n ∈ l, 1 ≤ n) (i : Nat) : 0 ≤ offset l i :=
  sum_nonneg (fun n hn => h n (List.mem_of_mem_take hn))

/-- A block of a list of lengths ends at or before the sum. -/
theorem offset_le {l : List Int} (h : ∀ n ∈ l, 1 ≤ n) {i : Nat} {n : Int} (hi : l[i]? = some n) :
    offset l i + n ≤ l.sum := by
  have hlt : i < l.length := by
    rcases Nat.lt_or_ge i l.length with h | h
    · exact h
    · rw [List.getElem?_eq_none h] at hi; cases hi
  have e : l = l.take i ++ n :: l.drop (i + 1) := by
    rw [List.getElem?_eq_getElem hlt] at hi
    cases hi
    rw [← List.drop_eq_getElem_cons hlt, List.take_append_drop]
  have hd : 0 ≤ (l.drop (i + 1)).sum := sum_nonneg (fun n hn => h n (List.mem_of_mem_drop hn))
  have hs : l.sum = (l.take i).sum + (n + (l.drop (i + 1)).sum) := by
    conv => lhs; rw [e]
    simp
  unfold offset
  omega

/-- What the loop over the lengths of a packed batch keeps. -/
structure PackedInv (w : Int) (pre : List Int) (s : LoopState) : Prop where
  ones : ∀ n ∈ pre, 1 ≤ n
  beg : s.seqBeg = pre.sum
  fin : s.seqEnd = pre.sum
  le : pre.sum ≤ w
  begins : s.beginIndices = (List.range (pre.length + 1)).map (offset pre)
  lens : s.seqLens = pre
  ext : Extremes w pre s.minSeqLen s.maxSeqLen
  row : ∃ row, s.positions = [row] ∧ row.length = w.toNat ∧
    (∀ i n, pre[i]? = some n → ∀ j : Nat, (j : Int) < n →
      row[(offset pre i + j).toNat]? = some (j : Int)) ∧
    (∀ p : Nat, pre.sum ≤ p → (p : Int) < w → row[p]? = some (p : Int))

theorem packed_step {w : Int} {pre : List Int} {s : LoopState} {n : Int} (h : PackedInv w pre s)
    (h1 : 1 ≤ n) (h2 : pre.sum + n ≤ w) :
    ∃ s', packedStep w s n = some s' ∧ PackedInv w (pre ++ [n]) s' := by
  refine ⟨{ s with
        beginIndices := s.beginIndices ++ [s.seqBeg + n]
        seqLens := s.seqLens ++ [n]
        positions := s.positions.map (subSlice s.seqBeg (s.seqBeg + n))
        minSeqLen := min s.minSeqLen n
        maxSeqLen := max s.maxSeqLen n
        seqBeg := s.seqBeg + n
        seqEnd := s.seqBeg + n }, ?_, ?_⟩
  · have e1 : ¬ n < 1 := by omega
    have e2 : ¬ s.seqBeg + n > w := by rw [h.beg]; omega
    simp only [packedStep, e1, e2, if_false]
  · have hnn := sum_nonneg h.ones
    have hones : ∀ k ∈ pre ++ [n], 1 ≤ k := by
      intro k hk
      rcases List.mem_append.mp hk with hk | hk
      · exact h.ones k hk
      · simp at hk; omega
    have hsum : (pre ++ [n]).sum = pre.sum + n := by simp
    refine ⟨hones, by rw [hsum, ← h.beg], by rw [hsum, ← h.beg], by omega, ?_, ?_, ?_, ?_⟩
    · simp only [h.begins, h.beg, List.length_append, List.length_singleton]
      rw [List.range_succ (n := pre.length + 1), List.map_append]
      congr 1
      · apply List.map_congr_left
        intro i hi
        rw [offset_append (by simp at hi; omega)]
      · simp only [List.map_cons, List.map_nil]
        rw [← hsum]
        have : offset (pre ++ [n]) (pre.length + 1) = (pre ++ [n]).sum := by
          unfold offset
          rw [List.take_of_length_le (by simp)]
        rw [this]
    · simp [h.lens]
    · exact h.ext.step h1 (by omega)
    · obtain ⟨row, hp, hl, hb, ht⟩ := h.row
      refine ⟨subSlice s.seqBeg (s.seqBeg + n) row, by simp [hp], by simp [subSlice, hl], ?_, ?_⟩
      · intro i k hik j hj
        rw [h.beg]
        simp only [subSlice, List.getElem?_mapIdx]
        by_cases hi : i < pre.length
        · rw [List.getElem?_append_left hi] at hik
          rw [offset_append (by omega), hb i k hik j hj]
          have h3 := offset_le h.ones hik
          have h4 := offset_nonneg h.ones i
          simp only [Option.map_some]
          rw [if_neg (by omega)]
        · have hi' : i = pre.length := by
            rcases Nat.lt_or_ge pre.length i with h' | h'
            · rw [List.getElem?_eq_none (by simp; omega)] at hik; cases hik
            · omega
          subst hi'
          rw [List.getElem?_concat_length] at hik
          cases hik
          rw [offset_full]
          have h5 : ((pre.sum + (j : Int)).toNat : Int) = pre.sum + j := by omega
          rw [ht _ (by omega) (by omega)]
          simp only [Option.map_some]
          rw [if_pos (by omega), h5]
          congr 1
          omega
      · intro p hp1 hp2
        rw [hsum] at hp1
        rw [h.beg]
        simp only [subSlice, List.getElem?_mapIdx]
        rw [ht p (by omega) hp2]
        simp only [Option.map_some]
        rw [if_neg (by omega)]

theorem packed_loop {w : Int} (suf : List Int) {pre : List Int} {s : LoopState}
    (h : PackedInv w pre s) (h1 : ∀ n ∈ suf, 1 ≤ n) (h2 : (pre ++ suf).sum ≤ w) :
    ∃ s', suf.foldlM (packedStep w) s = some s' ∧ PackedInv w (pre ++ suf) s' := by
  induction suf generalizing pre s with
  | nil => exact ⟨s, rfl, by simpa using h⟩
  | cons n suf ih =>
    have hsum : (pre ++ n :: suf).sum = pre.sum + (n + suf.sum) := by simp
    have hs : 0 ≤ suf.sum := sum_nonneg (fun k hk => h1 k (by simp [hk]))
    obtain ⟨s1, e1, hi⟩ := packed_step h (h1 n (by simp)) (by omega)
    obtain ⟨s2, e2, hi2⟩ := ih hi (fun k hk => h1 k (by simp [hk])) (by
      simp; omega)
    refine ⟨s2, ?_, by simpa using hi2⟩
    simp [List.foldlM_cons, e1, e2]

theorem packed_valid {w : Int} (suf : List Int) {pre : List Int} {s s' : LoopState}
    (h : PackedInv w pre s) (hr : suf.foldlM (packedStep w) s = some s') :
    (∀ n ∈ suf, 1 ≤ n) ∧ (pre ++ suf).sum ≤ w := by
  induction suf generalizing pre s with
  | nil => exact ⟨by simp, by simpa using h.le⟩
  | cons n suf ih =>
    simp only [List.foldlM_cons, Option.bind_eq_bind, Option.bind_eq_some_iff] at hr
    obtain ⟨s1, e1, e2⟩ := hr
    have hv : 1 ≤ n ∧ pre.sum + n ≤ w := by
      simp only [packedStep] at e1
      split at e1
      · cases e1
      · split at e1
        · cases e1
        · next h3 => rw [h.beg] at h3; omega
    obtain ⟨s1', e1', hi⟩ := packed_step h hv.1 hv.2
    rw [e1] at e1'
    cases e1'
    obtain ⟨h3, h4⟩ := ih hi e2
    refine ⟨?_, by simpa using h4⟩
    intro k hk
    rcases List.mem_cons.mp hk with rfl | hk
    · exact hv.1
    · exact h3 k hk

theorem packed_init {w : Int} (hw : 1 ≤ w) :
    PackedInv w [] {
      beginIndices := [0], seqLens := [], positions := [arange w], minSeqLen := w
      maxSeqLen := 0 } :=
  { ones := by simp
    beg := by simp
    fin := by simp
    le := by simp; omega
    begins := by simp [offset, List.range_succ]
    lens := rfl
    ext := ⟨by simp, by simp, by simp, by simp, by simp⟩
    row := ⟨_, rfl, arange_length w, by simp, fun p _ hp => arange_get w p hp⟩ }

/-- What the loop over the lengths of a padded batch of `N` rows keeps. -/
structure PaddedInv (w : Int) (N : Nat) (pre : List Int) (b : List Int) (s : LoopState) : Prop where
  begins : s.beginIndices = b
  lens : s.seqLens = pre
  ext : Extremes w pre s.minSeqLen s.maxSeqLen
  pad : s.padded = true ↔ ∃ n ∈ pre, n < w
  rows : s.positions.length = N
  row : ∀ i, i < N → s.positions[i]? = some
    (match pre[i]? with | some n => padFrom n (arange w) | none => arange w)

theorem padded_step {w : Int} {N : Nat} {pre b : List Int} {s : LoopState} {n : Int}
    (h : PaddedInv w N pre b s) (h1 : 1 ≤ n) (h2 : n ≤ w) :
    ∃ s', paddedStep w s (n, pre.length) = some s' ∧ PaddedInv w N (pre ++ [n]) b s' := by
  refine ⟨{ s with
      seqLens := s.seqLens ++ [n]
      padded := if n < w then true else s.padded
      positions := s.positions.modify pre.length (padFrom n)
      minSeqLen := min s.minSeqLen n
      maxSeqLen := max s.maxSeqLen n }, ?_, ?_⟩
  · have e1 : ¬ n < 1 := by omega
    have e2 : ¬ n > w := by omega
    simp only [paddedStep, e1, e2, if_false]
  · refine ⟨h.begins, by simp [h.lens], h.ext.step h1 h2, ?_, by simp [h.rows], ?_⟩
    · simp only
      by_cases h3 : n < w
      · simp only [h3, if_true, true_iff]
        exact ⟨n, by simp, h3⟩
      · simp only [h3, if_false, h.pad]
        constructor
        · rintro ⟨k, hk, hkw⟩; exact ⟨k, by simp [hk], hkw⟩
        · rintro ⟨k, hk, hkw⟩
          rcases List.mem_append.mp hk with hk | hk
          · exact ⟨k, hk, hkw⟩
          · simp at hk; omega
    · intro i hi
      rw [List.getElem?_modify, h.row i hi]
      simp only [Option.map_eq_map, Option.map_some, Option.some.injEq]
      by_cases h3 : pre.length = i
      · subst h3
        simp
      · rw [if_neg h3]
        by_cases h4 : i < pre.length
        · rw [List.getElem?_append_left h4]
        · rw [List.getElem?_eq_none (by omega), List.getElem?_eq_none (by simp; omega)]

theorem padded_loop {w : Int} {N : Nat} {b : List Int} (suf : List Int) {pre : List Int}
    {s : LoopState} (h : PaddedInv w N pre b s) (h1 : ∀ n ∈ suf, 1 ≤ n ∧ n ≤ w) :
    ∃ s', (suf.zipIdx pre.length).foldlM (paddedStep w) s = some s' ∧
      PaddedInv w N (pre ++ suf) b s' := by
  induction suf generalizing pre s with
  | nil => exact ⟨s, rfl, by simpa using h⟩
  | cons n suf ih =>
    obtain ⟨s1, e1, hi⟩ := padded_step h (h1 n (by simp)).1 (h1 n (by simp)).2
    obtain ⟨s2, e2, hi2⟩ := ih hi (fun k hk => h1 k (by simp [hk]))
    refine ⟨s2, ?_, by simpa using hi2⟩
    simp only [List.length_append, List.length_singleton] at e2
    simp [List.zipIdx_cons, List.foldlM_cons, e1, e2]

theorem padded_valid {w : Int} (suf : List Int) {k : Nat} {s s' : LoopState}
    (hr : (suf.zipIdx k).foldlM (paddedStep w) s = some s') : ∀ n ∈ suf, 1 ≤ n ∧ n ≤ w := by
  induction suf generalizing k s with
  | nil => simp
  | cons n suf ih =>
    simp only [List.zipIdx_cons, List.foldlM_cons, Option.bind_eq_bind,
      Option.bind_eq_some_iff] at hr
    obtain ⟨s1, e1, e2⟩ := hr
    intro m hm
    rcases List.mem_cons.mp hm with rfl | hm
    · simp only [paddedStep] at e1
      split at e1
      · cases e1
      · split at e1
        · cases e1
        · omega
    · exact ih e2 m hm

theorem rangeStep_eq {N : Nat} {w : Int} (hw : 1 ≤ w) :
    rangeStep ((N : Int) * w + 1) w = (List.range (N + 1)).map fun (k : Nat) => (k : Int) * w := by
  unfold rangeStep
  have : ((N : Int) * w + 1 + w - 1) / w = N + 1 := by
    rw [show (N : Int) * w + 1 + w - 1 = ((N : Int) + 1) * w by rw [Int.add_mul]; omega]
    exact Int.mul_ediv_cancel _ (by omega)
  rw [this]
  rfl

end Fs2.Nn
