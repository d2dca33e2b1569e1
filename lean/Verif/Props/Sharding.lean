import Verif.Shard.ModuleLemmas
import Mathlib.Algebra.Ring.Nat

/-!
# C55: sharded modules
-/

namespace Fs2.Props
open Fs2.Shard

section
variable {α : Type} [Semiring α]

/-- **Column sharding.** On `size` ranks whose number divides the output dimension: with the output
gathered every rank computes what the projection computes, otherwise the outputs of the ranks one after
the other are what the projection computes, and converting back gives the original projection. -/
theorem C55_column (size inputDim outputDim : Nat) (l : Lin α) (x y : List α)
    (hl : l.Shape inputDim outputDim) (hsize : 0 < size) (hdvd : size ∣ outputDim) (hpos : 0 < outputDim)
    (hy : linear x l.weight l.bias = some y) :
    ∃ shards parts, colFromLinear size l = some shards ∧
      colForward true shards (List.replicate size x) = some (List.replicate size y) ∧
      colForward false shards (List.replicate size x) = some parts ∧
      parts.length = size ∧ (∀ p ∈ parts, p.length = outputDim / size) ∧ parts.flatten = y ∧
      colToLinear shards = some l := by
  obtain ⟨n, hn⟩ := hdvd
  have hdn : outputDim / size = n := by rw [hn, Nat.mul_div_cancel_left _ hsize]
  have hn0 : 0 < n := by
    rcases Nat.eq_zero_or_pos n with h | h
    · subst h; omega
    · exact h
  have hx : x.length = l.weight.cols := by
    unfold linear at hy
    split at hy
    · assumption
    · cases hy
  have hyv : addBias (l.weight.rows.map (dotp x)) l.bias = y := by
    unfold linear at hy
    rw [if_pos hx] at hy
    exact Option.some.inj hy
  have hylen : y.length = size * n := by
    rw [← hyv]
    cases hb : l.bias with
    | none => simp [addBias, hl.rows, hn]
    | some b => simp [addBias, hl.rows, hl.bias b hb, hn]
  let w (r : Nat) : Mat α := { l.weight with rows := (l.weight.rows.drop (r * n)).take n }
  let shard (r : Nat) : Lin α :=
    { weight := w r, bias := l.bias.map fun b => (b.drop (r * n)).take n }
  have hnarrow : ∀ r, r < size → l.weight.narrow 0 (r * n) n = some (w r) := by
    intro r hr
    simp only [Mat.narrow, hl.rows]
    rw [if_pos (chunk_le hn hr)]
  have hfrom : colFromLinear size l = some ((List.range size).map shard) := by
    apply mapM_some_of
    intro r hr
    rw [List.mem_range] at hr
    simp only [colShard, hl.rows, hdn, Mat.chunk, show ¬ (n = 0 ∧ r ≠ 0) by omega, if_false, hnarrow r hr]
    rw [if_neg (by rw [hn]; simp)]
    rfl
  have hys : ((List.range size).map shard |>.zip (List.replicate size x)).mapM
      (fun p => linear p.2 p.1.weight p.1.bias) =
        some ((List.range size).map fun r => (y.drop (r * n)).take n) := by
    rw [replicate_eq_map, List.zip_map']
    apply mapM_map_of
    intro r _
    show linear x (w r) _ = _
    unfold linear
    rw [if_pos hx, ← hyv, drop_take_addBias]
    simp only [w, List.map_take, List.map_drop]
    rfl
  have hlen : ((List.range size).map shard).length = size := by simp
  have hflat := all_chunks y size n hylen
  refine ⟨(List.range size).map shard, (List.range size).map fun r => (y.drop (r * n)).take n,
    hfrom, ?_, ?_, by simp, ?_, hflat, ?_⟩
  · simp only [colForward, hys, Option.bind_eq_bind, Option.bind_some, hlen, if_true]
    split
    · have hs1 : size = 1 := by omega
      subst hs1
      have h1 : n = y.length := by omega
      simp [List.range_succ, h1]
    · simp only [gatherLast, hflat, List.map_map, Function.comp_def, ← replicate_eq_map]
  · simp only [colForward, hys, Option.bind_eq_bind, Option.bind_some]
    split <;> rfl
  · intro p hp
    obtain ⟨r, hr, rfl⟩ := List.mem_map.mp hp
    rw [List.mem_range] at hr
    have := chunk_le hylen hr
    simp only [List.length_take, List.length_drop, hdn]
    omega
  · have hcat : Mat.cat (((List.range size).map shard).map (·.weight)) 0 = some l.weight := by
      rw [List.map_map]
      exact cat_all l.weight hl.wf 0 size n (by simp [Mat.size, hl.rows, hn]) hsize w hnarrow
    obtain ⟨s, rfl⟩ : ∃ s, size = s + 1 := ⟨size - 1, by omega⟩
    have h0 : ((List.range (s + 1)).map shard)[0]? = some (shard 0) := by
      rw [List.getElem?_map, List.getElem?_range (by omega)]; rfl
    simp only [colToLinear, hcat, Option.bind_eq_bind, Option.bind_some, h0]
    cases hb : l.bias with
    | none =>
      have : (shard 0).bias = none := by simp [shard, hb]
      have he : shard 0 = { weight := w 0, bias := none } := by simp [shard, hb]
      rw [he]
      cases l
      simp only at hb
      subst hb
      rfl
    | some b =>
      have he : shard 0 = { weight := w 0, bias := some ((b.drop (0 * n)).take n) } := by simp [shard, hb]
      rw [he]
      have hbs : ((List.range (s + 1)).map shard).mapM (·.bias) =
          some ((List.range (s + 1)).map fun r => (b.drop (r * n)).take n) := by
        apply mapM_map_of
        intro r _
        simp [shard, hb]
      simp only [hbs, Option.bind_some, all_chunks b (s + 1) n (by rw [hl.bias b hb, hn])]
      cases l
      simp only at hb
      subst hb
      rfl

/-- **Row sharding.** On `size` ranks whose number divides the input dimension every rank computes what the
projection computes, from the whole input or from its part of it, and converting back gives the original
projection. Missing for the full property: outputs left unreduced add up to the output only without a
bias, see `C55_bias_twice`. -/
theorem C55_row_partial (size inputDim outputDim : Nat) (l : Lin α) (x y : List α)
    (hl : l.Shape inputDim outputDim) (hsize : 0 < size) (hdvd : size ∣ inputDim) (hpos : 0 < inputDim)
    (hy : linear x l.weight l.bias = some y) :
    ∃ shards, rowFromLinear size l = some shards ∧
      rowForward true true shards (List.replicate size x) = some (List.replicate size y) ∧
      (∀ parts : List (List α), parts.length = size → (∀ p ∈ parts, p.length = inputDim / size) →
        parts.flatten = x → rowForward false true shards parts = some (List.replicate size y)) ∧
      rowToLinear shards = some l := by
  obtain ⟨n, hn⟩ := hdvd
  have hdn : inputDim / size = n := by rw [hn, Nat.mul_div_cancel_left _ hsize]
  have hn0 : 0 < n := by
    rcases Nat.eq_zero_or_pos n with h | h
    · subst h; omega
    · exact h
  have hx : x.length = l.weight.cols := by
    unfold linear at hy
    split at hy
    · assumption
    · cases hy
  have hxl : x.length = size * n := by rw [hx, hl.cols, hn]
  have hyv : addBias (l.weight.rows.map (dotp x)) l.bias = y := by
    unfold linear at hy
    rw [if_pos hx] at hy
    exact Option.some.inj hy
  let w (r : Nat) : Mat α :=
    { cols := n, rows := l.weight.rows.map fun row => (row.drop (r * n)).take n }
  let shard (r : Nat) : Lin α := { weight := w r, bias := l.bias }
  have hnarrow : ∀ r, r < size → l.weight.narrow 1 (r * n) n = some (w r) := by
    intro r hr
    simp only [Mat.narrow, hl.cols]
    rw [if_pos (chunk_le hn hr)]
  have hfrom : rowFromLinear size l = some ((List.range size).map shard) := by
    apply mapM_some_of
    intro r hr
    rw [List.mem_range] at hr
    simp only [rowShard, hl.cols, hdn, Mat.chunk, show ¬ (n = 0 ∧ r ≠ 0) by omega, if_false, hnarrow r hr]
    rw [if_neg (by rw [hn]; simp)]
    rfl
  have hlen : ((List.range size).map shard).length = size := by simp
  have hmain : ∀ size', size' = size → ¬ size' ≤ 1 → ∀ xs : List (List α),
      xs = (List.range size).map (fun r => (x.drop (r * n)).take n) →
      (((List.range size).map shard).zip xs).mapM (fun p => linear p.2 p.1.weight none) =
        some ((List.range size).map fun r => l.weight.rows.map fun row =>
          dotp ((x.drop (r * n)).take n) ((row.drop (r * n)).take n)) := by
    intro _ _ _ xs hxs
    rw [hxs, List.zip_map']
    apply mapM_map_of
    intro r hr
    rw [List.mem_range] at hr
    have := chunk_le hxl hr
    show linear ((x.drop (r * n)).take n) (w r) none = _
    unfold linear
    rw [if_pos (by simp only [w, List.length_take, List.length_drop]; omega)]
    simp only [addBias, w, List.map_map, Function.comp_def]
  have hsum : sumAll ((List.range size).map fun r => l.weight.rows.map fun row =>
      dotp ((x.drop (r * n)).take n) ((row.drop (r * n)).take n)) = l.weight.rows.map (dotp x) := by
    rw [sumAll_map _ (by simp; omega)]
    apply List.map_congr_left
    intro row hrow
    exact dotp_chunks x row size n hxl (by rw [hl.wf row hrow, hl.cols, hn])
  have hfin : List.zipWith (fun (s : Lin α) y => addBias y s.bias) ((List.range size).map shard)
      (reduceSum ((List.range size).map fun r => l.weight.rows.map fun row =>
        dotp ((x.drop (r * n)).take n) ((row.drop (r * n)).take n))) = List.replicate size y := by
    unfold reduceSum
    rw [hsum, List.map_map, List.zipWith_map, List.zipWith_self, replicate_eq_map]
    apply List.map_congr_left
    intro r _
    simp only [Function.comp, shard]
    exact hyv
  have hone : size ≤ 1 → (((List.range size).map shard).zip (List.replicate size x)).mapM
      (fun p => linear p.2 p.1.weight p.1.bias) = some (List.replicate size y) := by
    intro h1
    have hs1 : size = 1 := by omega
    subst hs1
    have hw0 : w 0 = l.weight := by
      have hc : l.weight.cols = n := by rw [hl.cols, hn]; omega
      have hr : (l.weight.rows.map fun row => (row.drop (0 * n)).take n) = l.weight.rows := by
        conv => rhs; rw [← List.map_id l.weight.rows]
        apply List.map_congr_left
        intro row hrow
        rw [← hc, ← hl.wf row hrow]
        simp
      show ({ cols := n, rows := _ } : Mat α) = _
      rw [hr, ← hc]
    show (do let y ← linear x (w 0) l.bias; _) = _
    rw [hw0, hy]
    rfl
  refine ⟨(List.range size).map shard, hfrom, ?_, ?_, ?_⟩
  · unfold rowForward
    rw [hlen]
    split
    · rename_i h1
      exact hone h1
    · rename_i h1
      have hsc : ((List.replicate size x).mapIdx fun r x => (r, x)).mapM
          (fun p => scatterLast size p.1 p.2) =
            some ((List.range size).map fun r => (x.drop (r * n)).take n) := by
        rw [replicate_eq_map, map_mapIdx_range]
        apply mapM_map_of
        intro r hr
        rw [List.mem_range] at hr
        have hd : x.length / size = n := by rw [hxl, Nat.mul_div_cancel_left _ hsize]
        simp only [scatterLast]
        rw [if_neg (by omega), if_neg (by rw [hxl]; simp), hd, if_pos (chunk_le hxl hr)]
      simp only [if_true, hsc, Option.bind_eq_bind, Option.bind_some, hmain size rfl h1 _ rfl, hfin]
  · intro parts hp1 hp2 hp3
    have hparts : parts = (List.range size).map fun r => (x.drop (r * n)).take n := by
      rw [hdn] at hp2
      rw [← hp3, ← hp1]
      exact parts_chunks parts n hp2
    unfold rowForward
    rw [hlen]
    split
    · rename_i h1
      have hs1 : size = 1 := by omega
      have : parts = List.replicate size x := by
        subst hs1
        match parts, hp1 with
        | [p], _ => simp at hp3; subst hp3; rfl
      rw [this]
      exact hone h1
    · rename_i h1
      simp only [Bool.false_eq_true, if_false, if_true, Option.bind_eq_bind, Option.bind_some,
        hmain size rfl h1 _ hparts, hfin]
  · have hcat : Mat.cat (((List.range size).map shard).map (·.weight)) 1 = some l.weight := by
      rw [List.map_map]
      exact cat_all l.weight hl.wf 1 size n (by simp [Mat.size, hl.cols, hn]) hsize w hnarrow
    have h0 : ((List.range size).map shard)[0]? = some (shard 0) := by
      rw [List.getElem?_map, List.getElem?_range (by omega)]; rfl
    simp only [rowToLinear, hcat, Option.bind_eq_bind, Option.bind_some, h0]
    rfl

/-- **A feed-forward network.** A column sharded projection that leaves its output on the ranks, any
elementwise function, and a row sharded projection that takes its input from the ranks compute what the
two projections and the function compute. -/
theorem C55_column_then_row (size d₁ d₂ d₃ : Nat) (l₁ l₂ : Lin α) (f : α → α) (x h y : List α)
    (hl₁ : l₁.Shape d₁ d₂) (hl₂ : l₂.Shape d₂ d₃) (hsize : 0 < size) (hdvd : size ∣ d₂) (hpos : 0 < d₂)
    (hh : linear x l₁.weight l₁.bias = some h) (hy : linear (h.map f) l₂.weight l₂.bias = some y) :
    ∃ s₁ s₂ parts, colFromLinear size l₁ = some s₁ ∧ rowFromLinear size l₂ = some s₂ ∧
      colForward false s₁ (List.replicate size x) = some parts ∧
      rowForward false true s₂ (parts.map fun p => p.map f) = some (List.replicate size y) := by
  obtain ⟨s₁, parts, h1, _, h2, h3, h4, h5, _⟩ := C55_column size d₁ d₂ l₁ x h hl₁ hsize hdvd hpos hh
  obtain ⟨s₂, g1, _, g2, _⟩ := C55_row_partial size d₂ d₃ l₂ (h.map f) y hl₂ hsize hdvd hpos hy
  refine ⟨s₁, s₂, parts, h1, g1, h2, g2 _ (by simp [h3]) ?_ ?_⟩
  · intro p hp
    obtain ⟨q, hq, rfl⟩ := List.mem_map.mp hp
    simp [h4 q hq]
  · rw [← List.map_flatten, h5]

/-- **Vocabulary sharding.** For an index of the table every rank returns its embedding, and converting
back gives the original table. Missing for the full property: other indices, see `C55_outside`. -/
theorem C55_vocab_partial (size : Nat) (w : Mat α) (hw : w.Wf) (hsize : 0 < size) (hdvd : size ∣ w.rows.length)
    (i : Nat) (e : List α) (he : embed i w = some e) :
    ∃ shards, vocabFromEmbedding size w = some shards ∧
      vocabForward shards (List.replicate size (i : Int)) = some (List.replicate size e) ∧
      vocabToEmbedding shards = some w := by
  have hei : w.rows[i]? = some e := by simpa [embed] using he
  obtain ⟨hi, hie⟩ := List.getElem?_eq_some_iff.mp hei
  obtain ⟨n, hn⟩ := hdvd
  have hdn : w.rows.length / size = n := by rw [hn, Nat.mul_div_cancel_left _ hsize]
  have hn0 : 0 < n := by
    rcases Nat.eq_zero_or_pos n with h | h
    · subst h; omega
    · exact h
  have hel : e.length = w.cols := hw e (List.mem_of_getElem? hei)
  let v (r : Nat) : Mat α := { w with rows := (w.rows.drop (r * n)).take n }
  have hnarrow : ∀ r, r < size → w.narrow 0 (r * n) n = some (v r) := by
    intro r hr
    simp only [Mat.narrow]
    rw [if_pos (chunk_le hn hr)]
  have hfrom : vocabFromEmbedding size w = some ((List.range size).map v) := by
    apply mapM_some_of
    intro r hr
    rw [List.mem_range] at hr
    simp only [vocabShard, hdn, Mat.chunk, show ¬ (n = 0 ∧ r ≠ 0) by omega, if_false, hnarrow r hr]
    rw [if_neg (by rw [hn]; simp)]
  refine ⟨(List.range size).map v, hfrom, ?_, ?_⟩
  · unfold vocabForward
    rw [List.length_map, List.length_range]
    split
    · have hs1 : size = 1 := by omega
      subst hs1
      have hv0 : v 0 = w := by
        simp only [v, Nat.zero_mul, List.drop_zero]
        rw [List.take_of_length_le (by omega)]
      show (do let y ← embed i (v 0); _) = _
      rw [hv0, he]
      rfl
    · have hloc : ((((List.range size).map v).zip (List.replicate size (i : Int))).mapIdx
          fun r p => (r, p)).mapM (fun p => vocabLocal p.1 p.2.1 p.2.2) =
            some ((List.range size).map fun r => e.map fun z => if r = i / n then z else 0) := by
        rw [replicate_eq_map, List.zip_map', map_mapIdx_range]
        apply mapM_map_of
        intro r hr
        rw [List.mem_range] at hr
        have hb := chunk_le hn hr
        have hvl : (v r).rows.length = n := by
          simp only [v, List.length_take, List.length_drop]
          omega
        have hdiv : r = i / n ↔ r * n ≤ i ∧ i < (r + 1) * n := by
          constructor
          · intro h
            subst h
            have h1 := Nat.div_mul_le_self i n
            have h2 := Nat.lt_div_mul_add (a := i) hn0
            rw [Nat.add_mul]
            omega
          · rintro ⟨h1, h2⟩
            apply Nat.le_antisymm
            · exact (Nat.le_div_iff_mul_le hn0).mpr h1
            · have := (Nat.div_lt_iff_lt_mul hn0).mpr h2
              omega
        simp only [vocabLocal, hvl]
        by_cases hin : r = i / n
        · have h12 := hdiv.mp hin
          have hout : (decide ((i : Int) < ((r * n : Nat) : Int)) ||
              decide ((i : Int) ≥ (((r + 1) * n : Nat) : Int))) = false := by
            simp only [Bool.or_eq_false_iff, decide_eq_false_iff_not]
            omega
          simp only [hout, Bool.false_eq_true, if_false, embed, ← hin, if_true, List.map_id']
          rw [if_pos (by omega)]
          have ht : ((i : Int) - ((r * n : Nat) : Int)).toNat = i - r * n := by omega
          have hadd : (r + 1) * n = r * n + n := by rw [Nat.add_mul]; omega
          rw [ht]
          simp only [v]
          rw [List.getElem?_take_of_lt (by omega), List.getElem?_drop,
            show r * n + (i - r * n) = i by omega, hei]
          rfl
        · have hout : (decide ((i : Int) < ((r * n : Nat) : Int)) ||
              decide ((i : Int) ≥ (((r + 1) * n : Nat) : Int))) = true := by
            simp only [Bool.or_eq_true, decide_eq_true_eq]
            by_contra hc
            exact hin (hdiv.mpr (by omega))
          have hz : 0 < (v r).rows.length := by omega
          simp only [hout, if_true, embed, hin, if_false, Int.le_refl, Int.toNat_zero,
            List.getElem?_eq_getElem hz, Option.map_some, Option.some.injEq]
          have hzl : ((v r).rows[0]).length = w.cols := by
            have hm : (v r).rows[0] ∈ (v r).rows := List.getElem_mem hz
            exact hw _ (List.mem_of_mem_drop (List.mem_of_mem_take hm))
          apply List.ext_getElem
          · simp [hzl, hel]
          · intro k _ _
            simp
      simp only [hloc, Option.bind_eq_bind, Option.bind_some, reduceSum, List.map_map, Function.comp_def]
      have hq : i / n < size := by rw [Nat.div_lt_iff_lt_mul hn0]; omega
      rw [sumAll_map _ (by simp; omega)]
      have : (e.map fun row => ((List.range size).map fun r => if r = i / n then row else 0).sum) = e := by
        conv => rhs; rw [← List.map_id e]
        apply List.map_congr_left
        intro z _
        exact sum_pick size _ hq z
      rw [this, replicate_eq_map]
  · exact cat_all w hw 0 size n (by simp [Mat.size, hn]) hsize v hnarrow

omit [Semiring α] in
/-- **Sharding of the embedding dimension.** The same. -/
theorem C55_dim (size : Nat) (w : Mat α) (hw : w.Wf) (hsize : 0 < size) (hdvd : size ∣ w.cols)
    (hpos : 0 < w.cols) (i : Int) (e : List α) (he : embed i w = some e) :
    ∃ shards, dimFromEmbedding size w = some shards ∧
      dimForward shards (List.replicate size i) = some (List.replicate size e) ∧
      dimToEmbedding shards = some w := by
  have hi0 : 0 ≤ i := by
    unfold embed at he
    split at he
    · assumption
    · cases he
  have hei : w.rows[i.toNat]? = some e := by
    unfold embed at he
    rw [if_pos hi0] at he
    exact he
  obtain ⟨n, hn⟩ := hdvd
  have hdn : w.cols / size = n := by rw [hn, Nat.mul_div_cancel_left _ hsize]
  have hn0 : 0 < n := by
    rcases Nat.eq_zero_or_pos n with h | h
    · subst h; omega
    · exact h
  have hel : e.length = size * n := by rw [hw e (List.mem_of_getElem? hei), hn]
  let v (r : Nat) : Mat α := { cols := n, rows := w.rows.map fun row => (row.drop (r * n)).take n }
  have hnarrow : ∀ r, r < size → w.narrow 1 (r * n) n = some (v r) := by
    intro r hr
    simp only [Mat.narrow]
    rw [if_pos (chunk_le hn hr)]
  have hfrom : dimFromEmbedding size w = some ((List.range size).map v) := by
    apply mapM_some_of
    intro r hr
    rw [List.mem_range] at hr
    simp only [dimShard, hdn, Mat.chunk, show ¬ (n = 0 ∧ r ≠ 0) by omega, if_false, hnarrow r hr]
    rw [if_neg (by rw [hn]; simp)]
  have hys : (((List.range size).map v).zip (List.replicate size i)).mapM (fun p => embed p.2 p.1) =
      some ((List.range size).map fun r => (e.drop (r * n)).take n) := by
    rw [replicate_eq_map, List.zip_map']
    apply mapM_map_of
    intro r _
    simp only [embed, if_pos hi0, v, List.getElem?_map, hei, Option.map_some]
  have hflat := all_chunks e size n hel
  refine ⟨(List.range size).map v, hfrom, ?_, ?_⟩
  · simp only [dimForward, hys, Option.bind_eq_bind, Option.bind_some, List.length_map, List.length_range]
    split
    · have hs1 : size = 1 := by omega
      subst hs1
      have h1 : n = e.length := by omega
      simp [List.range_succ, h1]
    · simp only [gatherLast, hflat, List.map_map, Function.comp_def, ← replicate_eq_map]
  · exact cat_all w hw 1 size n (by simp [Mat.size, hn]) hsize v hnarrow

end

/-- A projection from four to two dimensions on two ranks. -/
example : ∃ (l : Lin Nat) (x y : List Nat), l.Shape 4 2 ∧ 2 ∣ 4 ∧ 2 ∣ 2 ∧
    linear x l.weight l.bias = some y ∧ y = [31, 72] := by
  refine ⟨⟨⟨4, [[1, 2, 3, 4], [5, 6, 7, 8]]⟩, some [1, 2]⟩, [1, 2, 3, 4], [31, 72], ⟨rfl, rfl, ?_, ?_⟩,
    ⟨2, rfl⟩, ⟨1, rfl⟩, rfl, rfl⟩
  · intro r hr
    simp only [List.mem_cons, List.not_mem_nil, or_false] at hr
    rcases hr with rfl | rfl <;> rfl
  · intro b hb
    cases hb; rfl

/-- **The bias counts twice.** With `reduce_output=False` every rank adds the bias to its part of the sum,
so the outputs of two ranks do not add up to the output of the projection. -/
theorem C55_bias_twice : ∃ (l : Lin Nat) (x : List Nat) (shards : List (Lin Nat)) (a b : List Nat),
    rowFromLinear 2 l = some shards ∧ linear x l.weight l.bias = some [13] ∧
    rowForward true false shards [x, x] = some [a, b] ∧ List.zipWith (· + ·) a b = [23] := by
  refine ⟨⟨⟨2, [[1, 1]]⟩, some [10]⟩, [1, 2], [⟨⟨1, [[1]]⟩, some [10]⟩, ⟨⟨1, [[1]]⟩, some [10]⟩],
    [11], [12], ?_, ?_, ?_, ?_⟩ <;> decide

/-- **Indices outside the table.** The standard embedding raises for an index outside its table, the sharded
one returns zeros. -/
theorem C55_outside : ∃ (w : Mat Nat) (shards : List (Mat Nat)),
    vocabFromEmbedding 2 w = some shards ∧ embed 7 w = none ∧
    vocabForward shards [7, 7] = some [[0, 0], [0, 0]] := by
  refine ⟨⟨2, [[1, 2], [3, 4]]⟩, [⟨2, [[1, 2]]⟩, ⟨2, [[3, 4]]⟩], ?_, ?_, ?_⟩ <;> decide

end Fs2.Props
