import Verif.Pipeline.BucketSizesLemmas
import Verif.Props.Buffering

/-!
# Bucket sizes: C101

`Sizes.create num maxLen minLen multiple` is `create_bucket_sizes(max_num_elements=num, max_seq_len=maxLen, min_seq_len=minLen,
num_seqs_multiple_of=multiple)`; a result lists the buckets as pairs (number of sequences, sequence length).
-/

namespace Fs2.Props
open Fs2.Sizes

/-- The arguments that `create_bucket_sizes` accepts. -/
structure GoodLimits (num maxLen minLen multiple : Nat) : Prop where
  min : 1 ≤ minLen
  max : minLen ≤ maxLen
  room : maxLen ≤ num
  divides : maxLen ∣ num
  multiple : 1 ≤ multiple

/-- The function ends for all arguments; it returns buckets for the accepted arguments and raises `ValueError` for all others, never
a `ZeroDivisionError`. -/
theorem C101_accepts (num maxLen minLen multiple : Nat) :
    (GoodLimits num maxLen minLen multiple → ∃ zs, create num maxLen minLen multiple = .ok zs) ∧
    (¬ GoodLimits num maxLen minLen multiple → create num maxLen minLen multiple = .error .value) := by
  constructor
  · intro G
    obtain ⟨rest, hr, -⟩ := loop_spec (num := num) (maxLen := maxLen) (minLen := minLen) (by have := G.min; have := G.max; omega) G.room
      G.max (Nat.mod_eq_zero_of_dvd G.divides) (s := 1) (b := num) (acc := []) (by omega) (by have := G.min; have := G.max; omega)
      (by simp) (Nat.div_self (by have := G.min; have := G.max; have := G.room; omega)).symm
    rw [create, if_neg (by have := G.room; omega), if_neg (by have := G.min; omega), if_neg (by have := G.max; omega),
      if_neg (by have := G.multiple; omega), if_neg (by rw [Nat.mod_eq_zero_of_dvd G.divides]; simp), hr]
    simp only
    split <;> exact ⟨_, rfl⟩
  · intro G
    rw [create]
    split
    · rfl
    split
    · rfl
    split
    · rfl
    split
    · rfl
    split
    · rfl
    rename_i h1 h2 h3 h4 h5
    exact absurd ⟨by omega, by omega, by omega, Nat.dvd_of_mod_eq_zero (by omega), by omega⟩ G

private theorem plain {num maxLen minLen multiple : Nat} {zs : List (Nat × Nat)} (h : create num maxLen minLen multiple = .ok zs) :
    GoodLimits num maxLen minLen multiple ∧ ∃ rest, From num maxLen minLen 1 rest ∧ loop num maxLen minLen 1 num [] = .ok rest ∧
      zs = if multiple = 1 then rest else crop multiple rest := by
  have G : GoodLimits num maxLen minLen multiple := by
    apply Classical.byContradiction
    intro hn
    rw [(C101_accepts _ _ _ _).2 hn] at h
    cases h
  refine ⟨G, ?_⟩
  obtain ⟨rest, hr, F⟩ := loop_spec (num := num) (maxLen := maxLen) (minLen := minLen) (by have := G.min; have := G.max; omega) G.room
    G.max (Nat.mod_eq_zero_of_dvd G.divides) (s := 1) (b := num) (acc := []) (by omega) (by have := G.min; have := G.max; omega)
    (by simp) (Nat.div_self (by have := G.min; have := G.max; have := G.room; omega)).symm
  refine ⟨rest, F, hr, ?_⟩
  rw [create, if_neg (by have := G.room; omega), if_neg (by have := G.min; omega), if_neg (by have := G.max; omega),
    if_neg (by have := G.multiple; omega), if_neg (by rw [Nat.mod_eq_zero_of_dvd G.divides]; simp), hr] at h
  simp only [List.nil_append] at h
  split at h
  · rename_i hm
    rw [if_pos hm]
    exact (Except.ok.inj h).symm
  · rename_i hm
    rw [if_neg hm]
    exact (Except.ok.inj h).symm

/-- The lengths go up from bucket to bucket, within `min_seq_len` and `max_seq_len`, and the last one is `max_seq_len`. -/
theorem C101_lengths {num maxLen minLen multiple : Nat} {zs : List (Nat × Nat)} (h : create num maxLen minLen multiple = .ok zs) :
    zs.Pairwise (fun a b => a.2 < b.2) ∧ (∀ z ∈ zs, minLen ≤ z.2 ∧ z.2 ≤ maxLen) ∧ ∃ z, zs.getLast? = some z ∧ z.2 = maxLen := by
  obtain ⟨-, rest, F, -, rfl⟩ := plain h
  split
  · exact ⟨F.up, fun z hz => (F.each z hz).2.2, _, F.last, rfl⟩
  · refine ⟨?_, ?_, ?_⟩
    · rw [crop, List.pairwise_map]
      exact F.up
    · intro z hz
      obtain ⟨y, hy, rfl⟩ := List.mem_map.1 hz
      exact (F.each y hy).2.2
    · rw [crop, List.getLast?_map, F.last]
      exact ⟨_, rfl, rfl⟩

/-- No bucket can hold more than `max_num_elements` elements, and every bucket has room for a sequence, whatever the multiple. -/
theorem C101_bounded {num maxLen minLen multiple : Nat} {zs : List (Nat × Nat)} (h : create num maxLen minLen multiple = .ok zs)
    {z : Nat × Nat} (hz : z ∈ zs) : 0 < z.1 ∧ z.1 * z.2 ≤ num := by
  obtain ⟨G, rest, F, -, rfl⟩ := plain h
  have base : ∀ y ∈ rest, 0 < y.1 ∧ y.1 * y.2 ≤ num := by
    intro y hy
    obtain ⟨h1, -, h2, h3⟩ := F.each y hy
    have := G.min
    have := G.room
    rw [h1]
    exact ⟨Nat.div_pos (by omega) (by omega), Nat.div_mul_le_self _ _⟩
  split at hz
  · exact base z hz
  · obtain ⟨y, hy, rfl⟩ := List.mem_map.1 hz
    obtain ⟨h1, h2⟩ := base y hy
    simp only
    split
    · rename_i hgt
      have hm := G.multiple
      have := Nat.mod_lt y.1 (show multiple > 0 by omega)
      exact ⟨by omega, Nat.le_trans (Nat.mul_le_mul_right _ (Nat.sub_le _ _)) h2⟩
    · exact ⟨h1, h2⟩

/-- The buckets are optimal.  For every length `k` in the range, a shortest bucket that takes sequences of length `k` exists, and it
takes as many of them as `max_num_elements` allows for sequences of exactly that length.  And no bucket could be left out: a bucket
that is longer than another one takes fewer sequences. -/
theorem C101_optimal {num maxLen minLen : Nat} {zs : List (Nat × Nat)} (h : create num maxLen minLen 1 = .ok zs) :
    (∀ k, minLen ≤ k → k ≤ maxLen → ∃ z ∈ zs, k ≤ z.2 ∧ (∀ y ∈ zs, k ≤ y.2 → z.2 ≤ y.2) ∧ z.1 * k ≤ num ∧ num < (z.1 + 1) * k) ∧
    zs.Pairwise (fun a b => b.1 < a.1) := by
  obtain ⟨G, rest, F, -, rfl⟩ := plain h
  refine ⟨fun k k1 k2 => ?_, F.down⟩
  have hk : 0 < k := by have := G.min; omega
  obtain ⟨z, hz, z1, z2⟩ := F.fits k k1 (by omega) k2
  refine ⟨z, hz, z1, ?_, ?_, ?_⟩
  · intro y hy hky
    apply Classical.byContradiction
    intro hlt
    have hle : y.1 ≤ num / k := by
      rw [(F.each y hy).1]
      exact Nat.div_le_div_left hky hk
    have hsame : z.1 < y.1 := by
      obtain ⟨i, hi, rfl⟩ := List.getElem_of_mem hz
      obtain ⟨j, hj, rfl⟩ := List.getElem_of_mem hy
      rcases Nat.lt_trichotomy i j with hij | hij | hij
      · have := List.pairwise_iff_getElem.1 F.up i j hi hj hij
        omega
      · subst hij
        omega
      · exact List.pairwise_iff_getElem.1 F.down j i hj hi hij
    omega
  · rw [z2]
    exact Nat.div_mul_le_self _ _
  · rw [z2, Nat.add_mul, Nat.one_mul]
    have := Nat.div_add_mod num k
    have := Nat.mod_lt num hk
    rw [Nat.mul_comm (num / k)]
    omega

/-- With `num_seqs_multiple_of` the buckets have the same lengths.  A bucket with room for more sequences is cropped to the largest
multiple.  Partial: the documentation says that the number of sequences of *each* bucket is a multiple; a bucket with less room than
`num_seqs_multiple_of` is left as it is (`C101_not_a_multiple`). -/
theorem C101_multiple_partial {num maxLen minLen multiple : Nat} {zs ys : List (Nat × Nat)}
    (h : create num maxLen minLen multiple = .ok zs) (h1 : create num maxLen minLen 1 = .ok ys) :
    zs.map (·.2) = ys.map (·.2) ∧
    ∀ i (hz : i < zs.length) (hy : i < ys.length),
      (multiple ≤ ys[i].1 → multiple ∣ zs[i].1 ∧ zs[i].1 ≤ ys[i].1 ∧ ys[i].1 < zs[i].1 + multiple) ∧
      (ys[i].1 < multiple → zs[i].1 = ys[i].1) := by
  obtain ⟨G, rest, -, hr, hzs⟩ := plain h
  obtain ⟨-, rest', -, hr', hys⟩ := plain h1
  rw [if_pos rfl] at hys
  rw [hr] at hr'
  obtain rfl : rest = rest' := Except.ok.inj hr'
  subst hys
  have hm := G.multiple
  by_cases e : multiple = 1
  · rw [if_pos e] at hzs
    subst hzs e
    exact ⟨rfl, fun i _ _ => ⟨fun _ => ⟨Nat.one_dvd _, Nat.le_refl _, Nat.lt_succ_self _⟩, fun _ => rfl⟩⟩
  · rw [if_neg e] at hzs
    subst hzs
    refine ⟨by simp [crop], fun i hz hy => ⟨fun hle => ?_, fun hlt => ?_⟩⟩
    · simp only [crop, List.getElem_map]
      split
      · have := Nat.mod_lt (ys[i]).1 (show multiple > 0 by omega)
        exact ⟨Nat.dvd_sub_mod _, Nat.sub_le _ _, by omega⟩
      · have : (ys[i]).1 = multiple := by omega
        rw [this]
        exact ⟨Nat.dvd_refl _, Nat.le_refl _, by omega⟩
    · simp only [crop, List.getElem_map]
      rw [if_neg (by omega)]

/-- Buckets of at most 12 elements with sequences of at most 4: the sizes. -/
example : create 12 4 1 1 = .ok [(12, 1), (6, 2), (4, 3), (3, 4)] := by simp [create, loop]

example : create 12 4 2 4 = .ok [(4, 2), (4, 3), (3, 4)] := by simp [create, loop, crop]

/-- The code differs from its documentation: the last bucket takes 3 sequences although the number of sequences in each bucket “must
be a multiple of” 4. -/
theorem C101_not_a_multiple : ∃ zs, create 12 4 2 4 = .ok zs ∧ ∃ z ∈ zs, ¬ 4 ∣ z.1 :=
  ⟨[(4, 2), (4, 3), (3, 4)], by simp [create, loop, crop], (3, 4), by simp, by decide⟩

/-- The buckets are what `bucket_by_length` needs: with them it raises no error for its arguments, and a batch of examples is one of
the buckets, so that, padded to the longest, it takes at most `max_num_elements` elements. -/
theorem C101_batches {num maxLen minLen multiple : Nat} {zs : List (Nat × Nat)} (h : create num maxLen minLen multiple = .ok zs)
    (S : Source) (c : BblCfg) (hc : c.sizes = zs) (hmin : c.minLen = minLen) (xs : List Data) (hx : S.Yields S.init xs) :
    ∃ (rs : List Res) (outs : List (List Data)), (bucketByLength c S).Trace (bucketByLength c S).init rs ∧
      (∀ r ∈ rs, r ≠ .eod) ∧ yielded rs = outs.map .list ∧ ∀ b ∈ outs, b ≠ [] ∧ ∃ w, (∀ x ∈ b, LenIn c.len minLen w x) ∧ w ≤ maxLen ∧ b.length * w ≤ num := by
  obtain ⟨up, range, z, hl, -⟩ := C101_lengths h
  have hv : c.Valid := by
    refine ⟨?_, ?_⟩
    · rw [hc]
      rintro rfl
      simp at hl
    · rw [hc]
      exact up.imp Nat.le_of_lt
  obtain ⟨rs, outs, dropped, h1, h0, h2, h3, -⟩ := C08_bucket_by_length S c xs hv (fun z hz => (C101_bounded h (hc ▸ hz)).1) hx
  refine ⟨rs, outs, h1, h0, h2, fun b hb => ?_⟩
  obtain ⟨z, hz, hne, hle, -, hlen⟩ := h3 b hb
  rw [hc] at hz
  exact ⟨hne, z.2, hmin ▸ hlen, (range z hz).2, Nat.le_trans (Nat.mul_le_mul_right _ hle) (C101_bounded h hz).2⟩

end Fs2.Props
