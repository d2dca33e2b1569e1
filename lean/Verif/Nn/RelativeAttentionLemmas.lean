import Verif.Nn.AttentionBiasLemmas
import Verif.Nn.RelativeAttention
import Verif.Nn.RotaryLemmas

/-! # Lemmas about attention with relative positions -/

namespace Fs2.Nn

theorem flatten_get {α : Type} (m : Nat) (ls : List (List α)) (h : ∀ r ∈ ls, r.length = m) (i j : Nat)
    (hi : i < ls.length) (hj : j < m) : ls.flatten[i * m + j]? = ls[i]?.bind (·[j]?) := by
  have hv := flatten_view ls.length m ls rfl h
  have : ls[i]? = some ((ls.flatten.drop (i * m)).take m) := by
    conv => lhs; rw [← hv]
    unfold view
    rw [List.getElem?_map, List.getElem?_range hi]
    rfl
  rw [this, Option.bind_some, List.getElem?_take, if_pos hj, List.getElem?_drop]

theorem view_get {α : Type} (n m : Nat) (l : List α) (i j : Nat) (hi : i < n) (hj : j < m) :
    ((view n m l)[i]?.bind (·[j]?)) = l[i * m + j]? := by
  unfold view
  rw [List.getElem?_map, List.getElem?_range hi]
  simp only [Option.map_some, Option.bind_some]
  rw [List.getElem?_take, if_pos hj, List.getElem?_drop]

theorem flatten_drop_one {α : Type} (m : Nat) (ls : List (List α)) (h : ∀ r ∈ ls, r.length = m) (h0 : ls ≠ []) :
    (ls.drop 1).flatten = ls.flatten.drop m := by
  cases ls with
  | nil => exact absurd rfl h0
  | cons r ls =>
    rw [List.flatten_cons, List.drop_left' (h r List.mem_cons_self)]
    rfl

/-- Where an entry of the shifted matrix comes from. -/
theorem shift_get {α : Type} (zero : α) (s w : Nat) (bd : List (List α)) (hs : bd.length = s)
    (hw : ∀ r ∈ bd, r.length = w) (i j : Nat) (hi : i < s) (hj : j < s) (hjw : s - i + j ≤ w) (hw' : j < w) :
    ((shiftBd zero s w bd)[i]?.bind (·[j]?)) = bd[i]?.bind (·[s - 1 - i + j]?) := by
  unfold shiftBd
  simp only
  have hpad : ∀ r ∈ bd.map (zero :: ·), r.length = w + 1 := by
    intro r hr
    obtain ⟨r', hr', rfl⟩ := List.mem_map.1 hr
    rw [List.length_cons, hw r' hr']
  have hlen : (bd.map (zero :: ·)).flatten.length = (w + 1) * s := by
    rw [flatten_length (w + 1) _ hpad, List.length_map, hs, Nat.mul_comm]
  have hne : view (w + 1) s (bd.map (zero :: ·)).flatten ≠ [] := by
    intro h
    have := congrArg List.length h
    rw [view_length] at this
    simp at this
  rw [flatten_drop_one s _ (view_mem_length (w + 1) s _ hlen) hne, view_flatten (w + 1) s _ hlen, List.getElem?_map]
  have htake : ∀ o : Option (List α), ((o.map (·.take s)).bind (·[j]?)) = o.bind (·[j]?) := by
    intro o
    cases o with
    | none => rfl
    | some r => simp only [Option.map_some, Option.bind_some]; rw [List.getElem?_take, if_pos hj]
  rw [htake, view_get s w _ i j hi hw', List.getElem?_drop]
  have hidx : s + (i * w + j) = i * (w + 1) + (s - i + j) := by
    rw [Nat.mul_add, Nat.mul_one]
    omega
  rw [hidx, flatten_get (w + 1) _ hpad i (s - i + j) (by rw [List.length_map, hs]; exact hi) (by omega),
    List.getElem?_map]
  cases bd[i]? with
  | none => rfl
  | some r =>
    simp only [Option.map_some, Option.bind_some]
    rw [show s - i + j = (s - 1 - i + j) + 1 by omega, List.getElem?_cons_succ]

theorem shift_length {α : Type} (zero : α) (s w : Nat) (bd : List (List α)) : (shiftBd zero s w bd).length = s := by
  unfold shiftBd
  simp [view]

/-- A constant does not change a softmax. -/
theorem attend_const (scale : ℝ) (d n : Nat) (x : Nat → ℝ) (k v : Nat → Nat → ℝ) (bias : Nat → Entry) (c : Nat) (a : ℝ) :
    attend scale d n x k v (fun j => (Entry.fin a).add (bias j)) c = attend scale d n x k v bias c := by
  have hw : ∀ j, expBias (dot d x (k j) * scale) ((Entry.fin a).add (bias j)) =
      Real.exp a * expBias (dot d x (k j) * scale) (bias j) := by
    intro j
    cases bias j with
    | negInf => simp [Entry.add, expBias]
    | fin y =>
      simp only [Entry.add, expBias]
      rw [← Real.exp_add]
      congr 1
      ring
  simp only [attend, hw]
  rw [← Finset.mul_sum]
  have hpos := Real.exp_pos a
  by_cases h0 : ∑ j ∈ Finset.range n, expBias (dot d x (k j) * scale) (bias j) = 0
  · rw [if_pos (by rw [h0, mul_zero]), if_pos h0]
  · rw [if_neg (mul_ne_zero hpos.ne' h0), if_neg h0]
    congr 1
    apply Finset.sum_congr rfl
    intro j _
    rw [mul_div_mul_left _ _ hpos.ne']

/-- Two outputs with the same weights add up. -/
theorem attend_add (scale : ℝ) (d n : Nat) (x : Nat → ℝ) (k v v' : Nat → Nat → ℝ) (bias : Nat → Entry) (c : Nat) :
    ((attend scale d n x k v bias c).bind fun a => (attend scale d n x k v' bias c).map fun b => a + b) =
      attend scale d n x k (fun j e => v j e + v' j e) bias c := by
  simp only [attend]
  split
  · rfl
  · simp only [Option.bind_some, Option.map_some]
    congr 1
    rw [← Finset.sum_add_distrib]
    apply Finset.sum_congr rfl
    intro j _
    ring

theorem mapM_range_some {β : Type} (f : Nat → Option β) (g : Nat → β) (n : Nat) (h : ∀ j < n, f j = some (g j)) :
    (List.range n).mapM f = some ((List.range n).map g) := by
  have key : ∀ l : List Nat, (∀ j ∈ l, f j = some (g j)) → l.mapM f = some (l.map g) := by
    intro l
    induction l with
    | nil => intro _; rfl
    | cons a l ih =>
      intro hl
      rw [List.mapM_cons, hl a List.mem_cons_self, ih fun j hj => hl j (List.mem_cons_of_mem _ hj)]
      rfl
  exact key _ fun j hj => h j (List.mem_range.1 hj)

end Fs2.Nn
