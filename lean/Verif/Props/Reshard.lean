import Verif.Shard.Lemmas

/-!
# C54: resharding
-/

namespace Fs2.Props
open Fs2.Shard

variable {α : Type}

/-- `part` is the part of `full` a rank holds: the `rank`-th of `n` equal parts along `dim`. -/
def IsShard (full : Mat α) (dim n rank : Nat) (part : Mat α) : Prop :=
  ∃ total, full.size dim = some total ∧ n ∣ total ∧
    full.narrow dim (rank * (total / n)) (total / n) = some part

/-- A checkpoint of `full` written by `tp` times `dp` ranks: entry `i` holds the pieces, along the first
dimension, of the shard of tensor parallel rank `i`. The pieces may have different sizes, and there may be
fewer of them than ranks. -/
structure IsCheckpoint (full : Mat α) (dim tp dp : Nat) (splits : List (List (Mat α))) : Prop where
  length : splits.length = tp
  pieces : ∀ (i : Nat) ps, splits[i]? = some ps → ps.length ≤ dp ∧
    ∃ part, IsShard full dim tp i part ∧ Mat.cat ps 0 = some part

theorem catDp_eq {dp : Nat} {ps : List (Mat α)} (h : ps.length ≤ dp) :
    catDp dp ps = Mat.cat ps 0 := by
  unfold catDp
  split
  · match ps, h with
    | [m], _ => rw [cat_one]; rfl
    | [], h => rfl
    | _ :: _ :: _, h => simp at h; omega
  · rfl

/-- **Resharding, sharded parameters.** For a tensor sharded along either dimension whose size both
tensor parallel sizes divide, every target rank receives exactly its shard of the full tensor, whatever
the data parallel pieces the checkpoint consists of. Missing for the full property: target sizes that
do not divide the dimension, see `C54_lost_rows`. -/
theorem C54_shard_partial (full : Mat α) (hw : full.Wf) (dim sourceTp sourceDp targetTp rank total : Nat)
    (splits : List (List (Mat α))) (hck : IsCheckpoint full dim sourceTp sourceDp splits)
    (hsize : full.size dim = some total) (hpos : 0 < total) (hs : sourceTp ∣ total) (ht : targetTp ∣ total)
    (hrank : rank < targetTp) :
    ∃ part, reshard splits sourceTp sourceDp targetTp rank (some dim) = some part ∧
      IsShard full dim targetTp rank part := by
  obtain ⟨k, hk⟩ := hs
  obtain ⟨m, hm⟩ := ht
  have hs0 : 0 < sourceTp := by
    rcases Nat.eq_zero_or_pos sourceTp with h | h
    · subst h; simp at hk; omega
    · exact h
  have hk0 : 0 < k := by
    rcases Nat.eq_zero_or_pos k with h | h
    · subst h; simp at hk; omega
    · exact h
  have hm0 : 0 < m := by
    rcases Nat.eq_zero_or_pos m with h | h
    · subst h; simp at hm; omega
    · exact h
  have ht0 : 0 < targetTp := by omega
  have hdk : total / sourceTp = k := by rw [hk, Nat.mul_div_cancel_left _ hs0]
  have hdm : total / targetTp = m := by rw [hm, Nat.mul_div_cancel_left _ ht0]
  -- the shards of the source
  have hpart : ∀ i, i < sourceTp → ∃ ps part, splits[i]? = some ps ∧ catDp sourceDp ps = some part ∧
      full.narrow dim (i * k) k = some part := by
    intro i hi
    have hi' : i < splits.length := by rw [hck.length]; exact hi
    obtain ⟨h1, part, ⟨tot, h2, h3, h4⟩, h5⟩ := hck.pieces i _ (List.getElem?_eq_getElem hi')
    rw [hsize, Option.some.injEq] at h2
    subst h2
    rw [hdk] at h4
    exact ⟨_, part, List.getElem?_eq_getElem hi', by rw [catDp_eq h1, h5], h4⟩
  by_cases heq : sourceTp = targetTp
  · obtain ⟨ps, part, h1, h2, h3⟩ := hpart rank (by omega)
    refine ⟨part, ?_, total, hsize, ⟨m, hm⟩, ?_⟩
    · simp only [reshard, if_pos heq, h1, Option.bind_eq_bind, Option.bind_some, h2]
    · rw [← heq, hdk]; exact h3
  · -- the tensors of all source ranks
    obtain ⟨shard, hshard⟩ : ∃ shard : Nat → Mat α, ∀ i, i < sourceTp →
        full.narrow dim (i * k) k = some (shard i) := by
      refine ⟨fun i => (full.narrow dim (i * k) k).getD full, ?_⟩
      intro i hi
      obtain ⟨_, part, _, _, h3⟩ := hpart i hi
      simp only [h3, Option.getD_some]
    have htp : splits.mapM (catDp sourceDp) = some ((List.range sourceTp).map shard) := by
      rw [mapM_some_of (catDp sourceDp) (fun ps => (catDp sourceDp ps).getD full) splits]
      · congr 1
        apply List.ext_getElem?
        intro i
        rw [List.getElem?_map, List.getElem?_map]
        by_cases hi : i < sourceTp
        · obtain ⟨ps, part, h1, h2, h3⟩ := hpart i hi
          rw [h1, List.getElem?_range hi]
          simp only [Option.map_some, h2, Option.getD_some]
          rw [hshard i hi, Option.some.injEq] at h3
          rw [h3]
        · rw [List.getElem?_eq_none (by rw [hck.length]; omega),
            List.getElem?_eq_none (by simp; omega)]
          rfl
      · intro ps hps
        obtain ⟨i, hi⟩ := List.mem_iff_getElem?.mp hps
        have hi' : i < sourceTp := by
          rw [← hck.length]
          exact (List.getElem?_eq_some_iff.mp hi).1
        obtain ⟨ps', part, h1, h2, _⟩ := hpart i hi'
        rw [hi, Option.some.injEq] at h1
        subst h1
        rw [h2]; rfl
    have hget : ∀ i, i < sourceTp → ((List.range sourceTp).map shard)[i]? = some (shard i) := by
      intro i hi
      rw [List.getElem?_map, List.getElem?_range hi]
      rfl
    have hsz : (shard 0).size dim = some k := by
      have h0 := hshard 0 hs0
      match dim with
      | 0 =>
        simp only [Mat.narrow] at h0
        split at h0
        · injection h0 with h0
          rw [← h0]
          simp only [Mat.size, List.length_take, List.length_drop, Option.some.injEq]
          omega
        · cases h0
      | 1 =>
        simp only [Mat.narrow] at h0
        split at h0
        · injection h0 with h0
          rw [← h0]
          rfl
        · cases h0
      | _ + 2 => simp [Mat.narrow] at h0
    -- the source shards that hold the slice
    have htarget : k * sourceTp / targetTp = m := by rw [Nat.mul_comm, ← hk, hdm]
    generalize hfs : rank * m / k = f
    generalize hls : (rank * m + m - 1) / k = l
    have hlast : (((rank * m : Nat) : Int) + (m : Nat) - 1) / (k : Nat) = ((l : Nat) : Int) := by
      have : (((rank * m : Nat) : Int) + (m : Nat) - 1) = ((rank * m + m - 1 : Nat) : Int) := by omega
      rw [this, ← hls]
      rfl
    have hfl : f ≤ l := by
      rw [← hfs, ← hls]
      exact Nat.div_le_div_right (by omega)
    have hfk : f * k ≤ rank * m := by rw [← hfs]; exact Nat.div_mul_le_self _ _
    have hlk : rank * m + m - 1 < (l + 1) * k := by
      rw [← hls, Nat.add_mul, Nat.one_mul]
      have h1 := Nat.div_add_mod (rank * m + m - 1) k
      have h2 := Nat.mod_lt (rank * m + m - 1) hk0
      have h3 := Nat.mul_comm k ((rank * m + m - 1) / k)
      omega
    have hrm : rank * m + m ≤ total := by
      have : (rank + 1) * m ≤ targetTp * m := Nat.mul_le_mul_right _ hrank
      rw [Nat.add_mul] at this
      omega
    have hlt : l < sourceTp := by
      rw [← hls, Nat.div_lt_iff_lt_mul hk0]
      omega
    have hrange : (List.range' f (((l : Nat) : Int) + 1 - ((f : Nat) : Int)).toNat).mapM
        (((List.range sourceTp).map shard)[·]?) = some ((List.range' f (l + 1 - f)).map shard) := by
      have : (((l : Nat) : Int) + 1 - ((f : Nat) : Int)).toNat = l + 1 - f := by omega
      rw [this]
      apply mapM_some_of
      intro i hi
      rw [List.mem_range'_1] at hi
      exact hget i (by omega)
    have htot : (f + (l + 1 - f)) * k ≤ total := by
      rw [show f + (l + 1 - f) = l + 1 by omega, hk]
      exact Nat.mul_le_mul_right _ hlt
    have hcat := cat_shards full hw dim total k f (l + 1 - f) hsize (by omega) htot shard
      (fun i _ h2 => hshard i (by omega))
    obtain ⟨t, hT⟩ : ∃ t, full.narrow dim (f * k) ((l + 1 - f) * k) = some t := by
      have hle : f * k + (l + 1 - f) * k ≤ total := by rw [← Nat.add_mul]; exact htot
      match dim, hsize with
      | 0, hz =>
        simp only [Mat.size, Option.some.injEq] at hz
        exact ⟨_, by simp only [Mat.narrow]; rw [if_pos (by omega)]⟩
      | 1, hz =>
        simp only [Mat.size, Option.some.injEq] at hz
        exact ⟨_, by simp only [Mat.narrow]; rw [if_pos (by omega)]⟩
      | _ + 2, hz => simp [Mat.size] at hz
    rw [hT] at hcat
    have hin : rank * m - f * k + m ≤ (l + 1 - f) * k := by
      rw [Nat.sub_mul]
      omega
    have hnn := narrow_narrow full t dim _ _ (rank * m - f * k) m hT hin
    rw [show f * k + (rank * m - f * k) = rank * m by omega] at hnn
    obtain ⟨part, hp⟩ : ∃ part, full.narrow dim (rank * m) m = some part := by
      match dim, hsize with
      | 0, hz =>
        simp only [Mat.size, Option.some.injEq] at hz
        exact ⟨_, by simp only [Mat.narrow]; rw [if_pos (by omega)]⟩
      | 1, hz =>
        simp only [Mat.size, Option.some.injEq] at hz
        exact ⟨_, by simp only [Mat.narrow]; rw [if_pos (by omega)]⟩
      | _ + 2, hz => simp [Mat.size] at hz
    refine ⟨part, ?_, total, hsize, ⟨m, hm⟩, by rw [hdm]; exact hp⟩
    simp only [reshard, if_neg heq, htp, Option.bind_eq_bind, Option.bind_some, hget 0 hs0, hsz,
      show ¬ targetTp = 0 by omega, if_false, htarget, show ¬ k = 0 by omega, hfs]
    rw [hlast, hrange]
    simp only [Option.bind_some, hcat, hnn, hp]

/-- **Resharding, the whole.** Concatenated, the shards of all target ranks give back the tensor. -/
theorem C54_whole_partial (full : Mat α) (hw : full.Wf) (dim sourceTp sourceDp targetTp total : Nat)
    (splits : List (List (Mat α))) (hck : IsCheckpoint full dim sourceTp sourceDp splits)
    (hsize : full.size dim = some total) (hpos : 0 < total) (hs : sourceTp ∣ total) (ht : targetTp ∣ total) :
    ∃ parts : List (Mat α), (List.range targetTp).mapM
        (fun r => reshard splits sourceTp sourceDp targetTp r (some dim)) = some parts ∧
      Mat.cat parts dim = some full := by
  have ht0 : 0 < targetTp := by
    rcases Nat.eq_zero_or_pos targetTp with h | h
    · subst h; simp at ht; omega
    · exact h
  have hall := fun r hr => C54_shard_partial full hw dim sourceTp sourceDp targetTp r total splits hck hsize hpos hs ht hr
  let shard (r : Nat) := (reshard splits sourceTp sourceDp targetTp r (some dim)).getD full
  obtain ⟨m, hm⟩ := ht
  have hdm : total / targetTp = m := by rw [hm, Nat.mul_div_cancel_left _ ht0]
  refine ⟨(List.range targetTp).map shard, ?_, ?_⟩
  · apply mapM_some_of
    intro r hr
    obtain ⟨part, h1, _⟩ := hall r (List.mem_range.mp hr)
    simp only [shard, h1, Option.getD_some]
  · rw [List.range_eq_range']
    rw [cat_shards full hw dim total m 0 targetTp hsize ht0 (by rw [Nat.zero_add, hm]; exact Nat.le_refl _)]
    · rw [Nat.zero_mul, ← hm]
      match dim, hsize with
      | 0, hz =>
        simp only [Mat.size, Option.some.injEq] at hz
        simp [Mat.narrow, ← hz]
      | 1, hz =>
        simp only [Mat.size, Option.some.injEq] at hz
        simp only [Mat.narrow, List.drop_zero]
        rw [if_pos (by omega), ← hz]
        have : full.rows.map (fun r => r.take full.cols) = full.rows := by
          conv => rhs; rw [← List.map_id full.rows]
          apply List.map_congr_left
          intro r hr
          rw [← hw r hr]
          simp
        rw [this]
      | _ + 2, hz => simp [Mat.size] at hz
    · intro i _ hi
      obtain ⟨part, h1, tot, h2, _, h4⟩ := hall i (by omega)
      rw [hsize, Option.some.injEq] at h2
      subst h2
      rw [hdm] at h4
      simp only [shard, h1, Option.getD_some, h4]

/-- **Resharding, replicated parameters.** A parameter that is not sharded is returned as it was, whatever
the target. -/
theorem C54_replicated (full : Mat α) (sourceTp sourceDp targetTp rank : Nat)
    (splits : List (List (Mat α))) (hlen : splits.length = sourceTp) (hpos : 0 < sourceTp)
    (hck : ∀ ps ∈ splits, ps.length ≤ sourceDp ∧ Mat.cat ps 0 = some full) (hrank : rank < targetTp) :
    reshard splits sourceTp sourceDp targetTp rank none = some full := by
  have hi : ∀ i, i < sourceTp → ∃ ps, splits[i]? = some ps ∧ catDp sourceDp ps = some full := by
    intro i hi
    have hi' : i < splits.length := by omega
    obtain ⟨h1, h2⟩ := hck _ (List.getElem_mem hi')
    exact ⟨_, List.getElem?_eq_getElem hi', by rw [catDp_eq h1, h2]⟩
  unfold reshard
  split
  · obtain ⟨ps, h1, h2⟩ := hi rank (by omega)
    simp only [h1, Option.bind_eq_bind, Option.bind_some, h2]
  · obtain ⟨ps, h1, h2⟩ := hi 0 hpos
    simp only [h1, Option.bind_eq_bind, Option.bind_some, h2]

/-- Six columns written by two times two ranks, to be read by three. -/
example : ∃ (full : Mat Nat) (splits : List (List (Mat Nat))), full.Wf ∧
    IsCheckpoint full 1 2 2 splits ∧ full.size 1 = some 6 ∧ 2 ∣ 6 ∧ 3 ∣ 6 := by
  refine ⟨⟨6, [[0, 1, 2, 3, 4, 5], [6, 7, 8, 9, 10, 11]]⟩,
    [[⟨3, [[0, 1, 2]]⟩, ⟨3, [[6, 7, 8]]⟩], [⟨3, [[3, 4, 5]]⟩, ⟨3, [[9, 10, 11]]⟩]], ?_, ⟨rfl, ?_⟩, rfl, ⟨3, rfl⟩, ⟨2, rfl⟩⟩
  · intro r hr
    simp only [List.mem_cons, List.not_mem_nil, or_false] at hr
    rcases hr with rfl | rfl <;> rfl
  · intro i ps h
    match i, h with
    | 0, h => cases h; exact ⟨by decide, _, ⟨6, rfl, ⟨3, rfl⟩, rfl⟩, rfl⟩
    | 1, h => cases h; exact ⟨by decide, _, ⟨6, rfl, ⟨3, rfl⟩, rfl⟩, rfl⟩
    | _ + 2, h => simp at h

/-- **Lost rows.** If the target size does not divide the dimension nothing is reported: the last rows
are missing from the shards. -/
theorem C54_lost_rows : ∃ (full : Mat Nat) (splits : List (List (Mat Nat))) (a b c : Mat Nat),
    IsCheckpoint full 0 2 1 splits ∧
    reshard splits 2 1 3 0 (some 0) = some a ∧ reshard splits 2 1 3 1 (some 0) = some b ∧
    reshard splits 2 1 3 2 (some 0) = some c ∧
    a.rows ++ b.rows ++ c.rows = [[0], [1], [2]] ∧ full.rows = [[0], [1], [2], [3]] := by
  refine ⟨⟨1, [[0], [1], [2], [3]]⟩, [[⟨1, [[0], [1]]⟩], [⟨1, [[2], [3]]⟩]],
    ⟨1, [[0]]⟩, ⟨1, [[1]]⟩, ⟨1, [[2]]⟩, ⟨rfl, ?_⟩, rfl, rfl, rfl, rfl, rfl⟩
  intro i ps h
  match i, h with
  | 0, h => cases h; exact ⟨by decide, _, ⟨4, rfl, ⟨2, rfl⟩, rfl⟩, rfl⟩
  | 1, h => cases h; exact ⟨by decide, _, ⟨4, rfl, ⟨2, rfl⟩, rfl⟩, rfl⟩
  | _ + 2, h => simp at h

end Fs2.Props
