import Verif.Shard.Backward
import Verif.Shard.ModuleLemmas
import Mathlib.Algebra.Ring.Nat

/-!
# C72: gradients of sharded projections
-/

namespace Fs2.Props
open Fs2.Shard

section
variable {α : Type} [Semiring α]

/-- **Gradients, column sharding.** Every rank gets the gradient of the input the projection computes, and
the gradients of weight and bias on the ranks are the parts of the projection's. -/
theorem C72_column (size inputDim outputDim : Nat) (l : Lin α) (x g : List α)
    (hl : l.Shape inputDim outputDim) (hsize : 0 < size) (hdvd : size ∣ outputDim) (hpos : 0 < outputDim)
    (hg : g.length = outputDim) :
    ∃ shards grads, colFromLinear size l = some shards ∧
      colBackward true shards x (List.replicate size g) = some grads ∧ grads.length = size ∧
      (∀ q ∈ grads, q.x = (linBackward l x g).x) ∧
      Mat.cat (grads.map (·.weight)) 0 = some (linBackward l x g).weight ∧
      (grads.map (·.bias)).flatten = (linBackward l x g).bias := by
  obtain ⟨n, hn⟩ := hdvd
  have hdn : outputDim / size = n := by rw [hn, Nat.mul_div_cancel_left _ hsize]
  have hn0 : 0 < n := by
    rcases Nat.eq_zero_or_pos n with h | h
    · subst h; omega
    · exact h
  let w (r : Nat) : Mat α := { l.weight with rows := (l.weight.rows.drop (r * n)).take n }
  let shard (r : Nat) : Lin α :=
    { weight := w r, bias := l.bias.map fun b => (b.drop (r * n)).take n }
  have hnarrow : ∀ r, r < size → l.weight.narrow 0 (r * n) n = some (w r) := by
    intro r hr
    simp only [Mat.narrow, hl.rows]
    rw [if_pos (chunk_le hn hr)]
  have hfrom : colFromLinear size l = some ((List.range size).map shard) := by
    apply mapM_some_of
    intro r hr
    rw [List.mem_range] at hr
    simp only [colShard, hl.rows, hdn, Mat.chunk, show ¬ (n = 0 ∧ r ≠ 0) by omega, if_false, hnarrow r hr]
    rw [if_neg (by rw [hn]; simp)]
    rfl
  have hgl : g.length = size * n := by rw [hg, hn]
  have hsc : ((List.replicate size g).mapIdx fun r g => (r, g)).mapM
      (fun p => scatterLast ((List.range size).map shard).length p.1 p.2) =
        some ((List.range size).map fun r => (g.drop (r * n)).take n) := by
    rw [replicate_eq_map, map_mapIdx_range]
    apply mapM_map_of
    intro r hr
    rw [List.mem_range] at hr
    have hd : g.length / size = n := by rw [hgl, Nat.mul_div_cancel_left _ hsize]
    simp only [scatterLast, List.length_map, List.length_range]
    split
    · have hs1 : size = 1 := by assumption
      subst hs1
      have hr0 : r = 0 := by omega
      subst hr0
      have : n = g.length := by omega
      simp [this]
    · rw [if_neg (by rw [hgl]; simp), hd, if_pos (chunk_le hgl hr)]
  have hdx : sumAll ((List.range size).map fun r => gradX ((g.drop (r * n)).take n) (w r)) =
      gradX g l.weight := by
    have : ((List.range size).map fun r => gradX ((g.drop (r * n)).take n) (w r)) =
        (List.range size).map fun r => (List.range l.weight.cols).map fun i =>
          dotp ((g.drop (r * n)).take n)
            (((l.weight.rows.map fun row => (row[i]?).getD 0).drop (r * n)).take n) := by
      apply List.map_congr_left
      intro r _
      simp only [gradX, w, List.map_take, List.map_drop]
    rw [this, sumAll_map _ (by simp; omega)]
    apply List.map_congr_left
    intro i _
    exact dotp_chunks g _ size n hgl (by rw [List.length_map, hl.rows, hn])
  refine ⟨(List.range size).map shard, (List.range size).map fun r =>
    { x := gradX g l.weight, weight := gradW ((g.drop (r * n)).take n) x, bias := (g.drop (r * n)).take n },
    hfrom, ?_, by simp, ?_, ?_, ?_⟩
  · simp only [colBackward, if_true, hsc, Option.bind_eq_bind, Option.bind_some]
    congr 1
    have h1 : List.zipWith (fun (s : Lin α) g => gradX g s.weight) ((List.range size).map shard)
        ((List.range size).map fun r => (g.drop (r * n)).take n) =
          (List.range size).map fun r => gradX ((g.drop (r * n)).take n) (w r) := by
      rw [List.zipWith_map, List.zipWith_self]
    rw [h1, reduceSum, hdx, List.map_map, List.zipWith_map, List.zipWith_self]
    rfl
  · intro q hq
    obtain ⟨r, _, rfl⟩ := List.mem_map.mp hq
    rfl
  · rw [List.map_map]
    refine cat_all (gradW g x) ?_ 0 size n ?_ hsize (fun r => gradW ((g.drop (r * n)).take n) x) ?_
    · intro row hr
      simp only [gradW, List.mem_map] at hr
      obtain ⟨a, _, rfl⟩ := hr
      simp [gradW]
    · simp [Mat.size, gradW, hgl]
    · intro r hr
      simp only [Mat.narrow, gradW, List.length_map]
      rw [if_pos (chunk_le hgl hr), List.map_take, List.map_drop]
  · rw [List.map_map]
    exact all_chunks g size n hgl

/-- **Gradients, row sharding.** Every rank gets the gradients of the input and of the bias the projection
computes, and the gradients of the weight on the ranks are the parts of the projection's. -/
theorem C72_row (size inputDim outputDim : Nat) (l : Lin α) (x g : List α)
    (hl : l.Shape inputDim outputDim) (hsize : 0 < size) (hdvd : size ∣ inputDim) (hpos : 0 < inputDim)
    (hx : x.length = inputDim) :
    ∃ shards parts, rowFromLinear size l = some shards ∧
      ((List.range size).mapM fun r => scatterLast size r x) = some parts ∧
      let grads := rowBackward true shards parts (List.replicate size g)
      grads.length = size ∧ (∀ q ∈ grads, q.x = (linBackward l x g).x) ∧
      Mat.cat (grads.map (·.weight)) 1 = some (linBackward l x g).weight ∧
      (∀ q ∈ grads, q.bias = (linBackward l x g).bias) := by
  obtain ⟨n, hn⟩ := hdvd
  have hdn : inputDim / size = n := by rw [hn, Nat.mul_div_cancel_left _ hsize]
  have hn0 : 0 < n := by
    rcases Nat.eq_zero_or_pos n with h | h
    · subst h; omega
    · exact h
  have hxl : x.length = size * n := by rw [hx, hn]
  let w (r : Nat) : Mat α :=
    { cols := n, rows := l.weight.rows.map fun row => (row.drop (r * n)).take n }
  let shard (r : Nat) : Lin α := { weight := w r, bias := l.bias }
  have hnarrow : ∀ r, r < size → l.weight.narrow 1 (r * n) n = some (w r) := by
    intro r hr
    simp only [Mat.narrow, hl.cols]
    rw [if_pos (chunk_le hn hr)]
  have hfrom : rowFromLinear size l = some ((List.range size).map shard) := by
    apply mapM_some_of
    intro r hr
    rw [List.mem_range] at hr
    simp only [rowShard, hl.cols, hdn, Mat.chunk, show ¬ (n = 0 ∧ r ≠ 0) by omega, if_false, hnarrow r hr]
    rw [if_neg (by rw [hn]; simp)]
    rfl
  have hsc : ((List.range size).mapM fun r => scatterLast size r x) =
      some ((List.range size).map fun r => (x.drop (r * n)).take n) := by
    apply mapM_some_of
    intro r hr
    rw [List.mem_range] at hr
    have hd : x.length / size = n := by rw [hxl, Nat.mul_div_cancel_left _ hsize]
    simp only [scatterLast]
    split
    · have hs1 : size = 1 := by assumption
      subst hs1
      have hr0 : r = 0 := by omega
      subst hr0
      have : n = x.length := by omega
      simp [this]
    · rw [if_neg (by rw [hxl]; simp), hd, if_pos (chunk_le hxl hr)]
  have hdx : ∀ r, r < size → gradX g (w r) = ((gradX g l.weight).drop (r * n)).take n := by
    intro r hr
    have hb := chunk_le hn hr
    apply List.ext_getElem?
    intro i
    by_cases hi : i < n
    · rw [List.getElem?_take_of_lt hi, List.getElem?_drop]
      simp only [gradX, w, List.getElem?_map]
      rw [List.getElem?_range hi, List.getElem?_range (by rw [hl.cols]; omega)]
      simp only [Option.map_some, List.map_map, Option.some.injEq]
      congr 1
      apply List.map_congr_left
      intro row _
      simp only [Function.comp]
      rw [List.getElem?_take_of_lt hi, List.getElem?_drop]
    · rw [List.getElem?_eq_none (by simp [gradX, w]; omega), List.getElem?_eq_none (by simp; omega)]
  have hflat : ((List.range size).map fun r => gradX g (w r)).flatten = gradX g l.weight := by
    rw [show ((List.range size).map fun r => gradX g (w r)) =
      (List.range size).map fun r => ((gradX g l.weight).drop (r * n)).take n from
        List.map_congr_left fun r hr => hdx r (List.mem_range.mp hr)]
    exact all_chunks _ size n (by simp [gradX, hl.cols, hn])
  have hgrads : rowBackward true ((List.range size).map shard)
      ((List.range size).map fun r => (x.drop (r * n)).take n) (List.replicate size g) =
      (List.range size).map fun r =>
        { x := gradX g l.weight, weight := gradW g ((x.drop (r * n)).take n), bias := g } := by
    have h1 : List.zipWith (fun (s : Lin α) g => gradX g s.weight) ((List.range size).map shard)
        (List.replicate size g) = (List.range size).map fun r => gradX g (w r) := by
      rw [replicate_eq_map, List.zipWith_map, List.zipWith_self]
    simp only [rowBackward, h1, if_true, gatherLast, hflat, List.map_map]
    rw [replicate_eq_map, List.zip_map', List.zipWith_map, List.zipWith_self]
    rfl
  refine ⟨(List.range size).map shard, (List.range size).map fun r => (x.drop (r * n)).take n, hfrom, hsc, ?_⟩
  rw [hgrads]
  refine ⟨by simp, ?_, ?_, ?_⟩
  · intro q hq
    obtain ⟨r, _, rfl⟩ := List.mem_map.mp hq
    rfl
  · rw [List.map_map]
    refine cat_all (gradW g x) ?_ 1 size n ?_ hsize (fun r => gradW g ((x.drop (r * n)).take n)) ?_
    · intro row hr
      simp only [gradW, List.mem_map] at hr
      obtain ⟨a, _, rfl⟩ := hr
      simp [gradW]
    · simp [Mat.size, gradW, hxl]
    · intro r hr
      have hb := chunk_le hxl hr
      simp only [Mat.narrow]
      rw [if_pos (show r * n + n ≤ (gradW g x).cols from hb)]
      simp only [gradW, List.map_map]
      congr 2
      · simp only [List.length_take, List.length_drop]; omega
      · apply List.map_congr_left
        intro a _
        simp only [Function.comp, List.map_take, List.map_drop]
  · intro q hq
    obtain ⟨r, _, rfl⟩ := List.mem_map.mp hq
    rfl

end

/-- A projection from four to two dimensions, on two ranks, and its gradients. -/
example : ∃ l : Lin Nat, l.Shape 4 2 ∧ 2 ∣ 4 ∧ 2 ∣ 2 ∧
    linBackward l [1, 2, 3, 4] [1, 2] =
      { x := [11, 14, 17, 20], weight := ⟨4, [[1, 2, 3, 4], [2, 4, 6, 8]]⟩, bias := [1, 2] } := by
  refine ⟨⟨⟨4, [[1, 2, 3, 4], [5, 6, 7, 8]]⟩, none⟩, ⟨rfl, rfl, ?_, ?_⟩, ⟨2, rfl⟩, ⟨1, rfl⟩, rfl⟩
  · intro r hr
    simp only [List.mem_cons, List.not_mem_nil, or_false] at hr
    rcases hr with rfl | rfl <;> rfl
  · intro b hb
    cases hb

end Fs2.Props
