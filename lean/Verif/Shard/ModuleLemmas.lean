import Verif.Shard.Modules
import Verif.Shard.Lemmas

/-!
# Lemmas on sharded modules
-/

namespace Fs2.Shard

variable {α β γ : Type}

theorem mapM_map_of (F : β → Option γ) (l : List Nat) (h : Nat → β) (g : Nat → γ)
    (hF : ∀ r ∈ l, F (h r) = some (g r)) : (l.map h).mapM F = some (l.map g) := by
  rw [mapM_some_of F (fun b => (F b).getD (g 0)) (l.map h)]
  · rw [List.map_map]
    congr 1
    apply List.map_congr_left
    intro r hr
    simp [hF r hr]
  · intro x hx
    obtain ⟨r, hr, rfl⟩ := List.mem_map.mp hx
    simp [hF r hr]

theorem replicate_eq_map (n : Nat) (x : β) : List.replicate n x = (List.range n).map fun _ => x := by
  induction n with
  | zero => rfl
  | succ n ih => rw [List.replicate_succ', List.range_succ, List.map_append, ih]; rfl

theorem map_mapIdx_range (n : Nat) (f : Nat → β) :
    ((List.range n).map f).mapIdx (fun r x => (r, x)) = (List.range n).map fun r => (r, f r) := by
  apply List.ext_getElem?
  intro i
  simp only [List.getElem?_mapIdx, List.getElem?_map]
  by_cases hi : i < n
  · rw [List.getElem?_range hi]; rfl
  · rw [List.getElem?_eq_none (by simpa using hi)]; rfl

/-- The parts of a list that is a multiple of a size, put together. -/
theorem all_chunks (l : List β) (size n : Nat) (h : l.length = size * n) :
    ((List.range size).map fun i => (l.drop (i * n)).take n).flatten = l := by
  rw [List.range_eq_range', chunks_flatten l n 0 size (by rw [h, Nat.zero_add]; exact Nat.le_refl _)]
  simp [← h]

/-- Parts of one size are the parts of what they make up together. -/
theorem parts_chunks (parts : List (List β)) (n : Nat) (h : ∀ p ∈ parts, p.length = n) :
    parts = (List.range parts.length).map fun r => (parts.flatten.drop (r * n)).take n := by
  induction parts with
  | nil => rfl
  | cons p ps ih =>
    have hpl : p.length = n := h p (by simp)
    rw [List.length_cons, List.range_succ_eq_map, List.map_cons, List.map_map]
    congr 1
    · simp [← hpl]
    · conv => lhs; rw [ih (fun q hq => h q (by simp [hq]))]
      apply List.map_congr_left
      intro r _
      simp only [Function.comp, List.flatten_cons]
      rw [show (r + 1) * n = p.length + r * n by rw [Nat.add_mul, hpl]; omega, ← List.drop_drop]
      simp

theorem chunk_le {r size n total : Nat} (h : total = size * n) (hr : r < size) : r * n + n ≤ total := by
  have : (r + 1) * n ≤ size * n := Nat.mul_le_mul_right _ hr
  rw [Nat.add_mul] at this
  omega

/-- A tensor cut along a dimension and put together again. -/
theorem cat_all (m : Mat α) (hw : m.Wf) (dim size n : Nat) (hs : m.size dim = some (size * n))
    (hpos : 0 < size) (shard : Nat → Mat α)
    (hsh : ∀ r, r < size → m.narrow dim (r * n) n = some (shard r)) :
    Mat.cat ((List.range size).map shard) dim = some m := by
  rw [List.range_eq_range', cat_shards m hw dim (size * n) n 0 size hs hpos (by simp) shard
    (fun i _ hi => hsh i (by omega))]
  match dim, hs with
  | 0, hz =>
    simp only [Mat.size, Option.some.injEq] at hz
    simp [Mat.narrow, ← hz]
  | 1, hz =>
    simp only [Mat.size, Option.some.injEq] at hz
    simp only [Mat.narrow, List.drop_zero, Nat.zero_mul]
    rw [if_pos (by omega), ← hz]
    have : m.rows.map (fun r => r.take m.cols) = m.rows := by
      conv => rhs; rw [← List.map_id m.rows]
      apply List.map_congr_left
      intro r hr
      rw [← hw r hr]
      simp
    rw [this]
  | _ + 2, hz => simp [Mat.size] at hz

variable [Semiring α]

theorem drop_take_addBias (y : List α) (b : Option (List α)) (a n : Nat) :
    ((addBias y b).drop a).take n =
      addBias ((y.drop a).take n) (b.map fun b => (b.drop a).take n) := by
  cases b with
  | none => rfl
  | some b => simp only [addBias, Option.map_some, List.drop_zipWith, List.take_zipWith]

/-- The product of two vectors is the sum of the products of their parts. -/
theorem dotp_chunks (x w : List α) (size n : Nat) (hx : x.length = size * n) (hw : w.length = size * n) :
    ((List.range size).map fun r => dotp ((x.drop (r * n)).take n) ((w.drop (r * n)).take n)).sum =
      dotp x w := by
  have h := all_chunks (List.zipWith (· * ·) x w) size n (by simp [hx, hw])
  unfold dotp
  conv => rhs; rw [← h]
  rw [List.sum_flatten, List.map_map]
  congr 1
  apply List.map_congr_left
  intro r _
  simp only [Function.comp, List.drop_zipWith, List.take_zipWith]

theorem zipWith_map_same (rows : List β) (f g : β → α) :
    List.zipWith (· + ·) (rows.map f) (rows.map g) = rows.map fun x => f x + g x := by
  induction rows with
  | nil => rfl
  | cons x xs ih => simp only [List.map_cons, List.zipWith_cons_cons, ih]

/-- The sum over the ranks, element by element. -/
theorem sumAll_map (l : List Nat) (hl : l ≠ []) (rows : List β) (g : Nat → β → α) :
    sumAll (l.map fun r => rows.map (g r)) = rows.map fun row => (l.map fun r => g r row).sum := by
  match l, hl with
  | [a], _ => simp [sumAll]
  | a :: b :: l, _ =>
    have ih := sumAll_map (b :: l) (by simp) rows g
    simp only [List.map_cons] at ih
    simp only [List.map_cons, sumAll, ih, zipWith_map_same, List.sum_cons]

theorem sum_pick (size q : Nat) (hq : q < size) (e : α) :
    ((List.range size).map fun r => if r = q then e else 0).sum = e := by
  induction size with
  | zero => omega
  | succ n ih =>
    rw [List.range_succ, List.map_append, List.sum_append]
    by_cases h : q = n
    · subst h
      have : (List.range q).map (fun r => if r = q then e else 0) = (List.range q).map fun _ => (0 : α) := by
        apply List.map_congr_left
        intro r hr
        rw [List.mem_range] at hr
        rw [if_neg (by omega)]
      rw [this]
      simp
    · rw [ih (by omega)]
      simp [show ¬ n = q by omega]

end Fs2.Shard
