import Verif.Nn.Moe
import Verif.Shard.Lemmas

/-!
# Lemmas about mixtures of experts
-/

namespace Fs2.Moe

open Finset

set_option linter.unusedSectionVars false

variable {F : Type} [CommSemiring F]

theorem sum_list_range (n : Nat) (f : Nat → F) : ((List.range n).map f).sum = ∑ i ∈ range n, f i := by
  induction n with
  | zero => simp
  | succ n ih => rw [List.range_succ, List.map_append, List.sum_append, ih, sum_range_succ]; simp

theorem sum_mul_range (m n : Nat) (f : Nat → F) : ∑ k ∈ range (m * n), f k = ∑ r ∈ range m, ∑ j ∈ range n, f (r * n + j) := by
  induction m with
  | zero => simp
  | succ m ih => rw [Nat.add_mul, Nat.one_mul, sum_range_add, ih, sum_range_succ]

theorem sum_filter_mod {n t : Nat} (m : Nat) (h : t < n) (f : Nat → F) :
    ∑ k ∈ (range (m * n)).filter (fun k => k % n = t), f k = ∑ e ∈ range m, f (e * n + t) := by
  rw [sum_filter, sum_mul_range]
  refine sum_congr rfl fun e _ => ?_
  rw [sum_eq_single t]
  · rw [if_pos]
    rw [Nat.mul_comm, Nat.mul_add_mod, Nat.mod_eq_of_lt h]
  · intro j hj hne
    rw [if_neg]
    rw [Nat.mul_comm, Nat.mul_add_mod, Nat.mod_eq_of_lt (mem_range.1 hj)]
    exact hne
  · intro hn
    exact absurd (mem_range.2 h) hn

theorem div_of {e n t : Nat} (h : t < n) : (e * n + t) / n = e := by
  rw [Nat.mul_comm, Nat.mul_add_div (by omega), Nat.div_eq_of_lt h, Nat.add_zero]

theorem mod_of {e n t : Nat} (h : t < n) : (e * n + t) % n = t := by
  rw [Nat.mul_comm, Nat.mul_add_mod, Nat.mod_eq_of_lt h]

theorem scatter_foldl (l : List (F × Nat)) (row : Nat → F) (init : Nat → Option F) (h : ∀ x ∈ l, x.1 = row x.2) (e : Nat) :
    (l.foldl (fun r x e => if e = x.2 then some x.1 else r e) init) e = if e ∈ l.map Prod.snd then some (row e) else init e := by
  induction l generalizing init with
  | nil => simp
  | cons x l ih =>
    rw [List.foldl_cons, ih _ fun y hy => h y (by simp [hy])]
    by_cases he : e ∈ l.map Prod.snd
    · rw [if_pos he, if_pos]
      rw [List.map_cons]
      exact List.mem_cons_of_mem _ he
    · rw [if_neg he]
      by_cases hx : e = x.2
      · rw [if_pos hx, if_pos (by simp [hx]), h x (by simp), hx]
      · rw [if_neg hx, if_neg]
        rw [List.map_cons, List.mem_cons]
        exact fun hc => hc.elim hx he

theorem scatter_eq (l : List (F × Nat)) (row : Nat → F) (h : ∀ x ∈ l, x.1 = row x.2) (e : Nat) :
    scatter l e = if e ∈ l.map Prod.snd then some (row e) else none := scatter_foldl l row _ h e

/-- What the expert `e` gives for the token `x`. -/
def Experts.one (act : F → F) (ex : Experts F) (e : Nat) (x : Nat → F) (d : Nat) : F :=
  ex.forward act (fun _ _ => x) e 0 d

theorem forward_one (act : F → F) (ex : Experts F) (x : Nat → Nat → Nat → F) (e t d : Nat) :
    ex.forward act x e t d = ex.one act e (x e t) d := rfl

theorem one_zero (act : F → F) (ex : Experts F) (e d : Nat) : ex.one act e (fun _ => 0) d = 0 := by
  simp only [Experts.one, Experts.forward, bmm, Mat.view]
  simp

theorem forward_eq (ops : Ops F) (l : Layer F) (dim n : Nat) (x : Nat → Nat → F) (hk : l.topK ≤ l.experts.num)
    (htop : ∀ row, (∀ p ∈ ops.topk l.topK l.experts.num row, p.1 = row p.2)) :
    ∃ out, l.forward ops dim n x = some out ∧ ∀ t < n, ∀ d, out t d = sharedOut ops.act l.shared (x t) d +
      ∑ e ∈ range l.experts.num,
        if e ∈ (ops.topk l.topK l.experts.num fun e => ∑ i ∈ range dim, x t i * l.router i e).map Prod.snd then
          l.experts.one ops.act e (fun i => x t i * ops.sig (∑ i ∈ range dim, x t i * l.router i e)) d else 0 := by
  refine ⟨_, if_neg (by omega), fun t ht d => ?_⟩
  congr 1
  rw [sum_filter_mod _ ht]
  refine sum_congr rfl fun e he => ?_
  have hpos : 0 < l.experts.num := by have := mem_range.1 he; omega
  rw [Nat.mul_div_cancel_left _ hpos]
  beta_reduce
  rw [div_of ht, mod_of ht, forward_one]
  rw [div_of ht, mod_of ht]
  rw [scatter_eq _ _ (htop _)]
  by_cases hc : e ∈ (ops.topk l.topK l.experts.num fun e => ∑ i ∈ range dim, x t i * l.router i e).map Prod.snd
  · rw [if_pos hc, if_pos hc]
    rfl
  · rw [if_neg hc, if_neg hc]
    simp only [sigmoidOf, mul_zero]
    exact one_zero ..

theorem one_eq (act : F → F) (ex : Experts F) {D I : Nat} (hs : ex.Shape D I) {e : Nat} (he : e < ex.num) (x : Nat → F) (d : Nat) :
    ex.one act e x d = ∑ j ∈ range I, act (∑ i ∈ range D, x i * ex.gate.at_ (e * D + i) j) *
      (∑ i ∈ range D, x i * ex.inner.at_ (e * D + i) j) * ex.output.at_ (e * I + j) d := by
  have hpos : 0 < ex.num := by omega
  simp only [Experts.one, Experts.forward, bmm, Mat.view, hs.gateRows, hs.innerRows, hs.outRows, Nat.mul_div_cancel_left _ hpos]

theorem shard_shape {ex ex' : Experts F} {D I size rank : Nat} (hs : ex.Shape D I) (hn : 0 < ex.num)
    (h : ex.shard I size rank = some ex') : ex'.num = ex.num ∧ ex'.Shape D (I / size) := by
  unfold Experts.shard at h
  split at h
  · cases h
  · cases h
    refine ⟨rfl, ⟨?_, rfl, ?_, rfl, rfl, hs.outCols⟩⟩ <;>
      simp only [copyCols, reshape2, Mat.view, hs.gateRows, hs.innerRows, Nat.mul_div_cancel_left _ hn]

theorem shard_one (act : F → F) {ex ex' : Experts F} {D I size rank : Nat} (hs : ex.Shape D I)
    (h : ex.shard I size rank = some ex') {e : Nat} (he : e < ex.num) (x : Nat → F) (d : Nat) :
    ex'.one act e x d = ∑ j ∈ range (I / size),
      act (∑ i ∈ range D, x i * ex.gate.at_ (e * D + i) (rank * (I / size) + j)) *
      (∑ i ∈ range D, x i * ex.inner.at_ (e * D + i) (rank * (I / size) + j)) *
        ex.output.at_ (e * I + (rank * (I / size) + j)) d := by
  have hn : 0 < ex.num := by omega
  obtain ⟨hnum, hs'⟩ := shard_shape hs hn h
  rw [one_eq act ex' hs' (by omega)]
  unfold Experts.shard at h
  split at h
  · cases h
  · cases h
    refine sum_congr rfl fun j hj => ?_
    have hj := mem_range.1 hj
    simp only [copyCols, copyRows, reshape2, Mat.view, hs.gateRows, hs.innerRows, hs.outRows, Nat.mul_div_cancel_left _ hn, div_of hj,
      mod_of hj]
    congr 1
    congr 1
    · congr 1
      refine sum_congr rfl fun i hi => ?_
      rw [div_of (mem_range.1 hi), mod_of (mem_range.1 hi)]
    · refine sum_congr rfl fun i hi => ?_
      rw [div_of (mem_range.1 hi), mod_of (mem_range.1 hi)]

end Fs2.Moe
