import Verif.Shard.Reshard

/-!
# Lemmas on slices and concatenations of tensors
-/

namespace Fs2.Shard

variable {α β γ : Type}

theorem cat_one (m : Mat α) : Mat.cat [m] 0 = some m := by
  simp [Mat.cat]

theorem chunks_flatten (l : List α) (k a n : Nat) (h : (a + n) * k ≤ l.length) :
    ((List.range' a n).map fun i => (l.drop (i * k)).take k).flatten = (l.drop (a * k)).take (n * k) := by
  induction n generalizing a with
  | zero => simp
  | succ n ih =>
    rw [List.range'_succ, List.map_cons, List.flatten_cons, ih (a + 1) (by
      rw [show a + 1 + n = a + (n + 1) by omega]; exact h)]
    rw [show (n + 1) * k = k + n * k by rw [Nat.add_mul]; omega, List.take_add, List.drop_drop,
      show (a + 1) * k = a * k + k by rw [Nat.add_mul]; omega]

theorem slice_slice (l : List α) (p q s m : Nat) (h : s + m ≤ q) :
    (((l.drop p).take q).drop s).take m = (l.drop (p + s)).take m := by
  rw [List.drop_take, List.take_take, List.drop_drop, Nat.min_eq_left (by omega)]

theorem mapM_some_of (f : β → Option γ) (g : β → γ) (l : List β)
    (h : ∀ x ∈ l, f x = some (g x)) : l.mapM f = some (l.map g) := by
  induction l with
  | nil => rfl
  | cons x xs ih =>
    simp only [List.mapM_cons, h x (by simp), ih (fun y hy => h y (by simp [hy]))]
    rfl

/-- The shards `a`, …, `a + n - 1` put together are a slice of the whole. -/
theorem cat_shards (full : Mat α) (hw : full.Wf) (dim total k a n : Nat)
    (hs : full.size dim = some total) (hn : 0 < n) (hb : (a + n) * k ≤ total) (shard : Nat → Mat α)
    (hsh : ∀ i, a ≤ i → i < a + n → full.narrow dim (i * k) k = some (shard i)) :
    Mat.cat ((List.range' a n).map shard) dim = full.narrow dim (a * k) (n * k) := by
  obtain ⟨n, rfl⟩ : ∃ n', n = n' + 1 := ⟨n - 1, by omega⟩
  have hmem : ∀ i ∈ List.range' a (n + 1), a ≤ i ∧ i < a + (n + 1) := by
    intro i hi
    rw [List.mem_range'_1] at hi
    omega
  have hbi : ∀ i, i < a + (n + 1) → i * k + k ≤ total := by
    intro i hi
    have : (i + 1) * k ≤ (a + (n + 1)) * k := Nat.mul_le_mul_right _ (by omega)
    rw [Nat.add_mul] at this
    omega
  have hbt : a * k + (n + 1) * k ≤ total := by rw [← Nat.add_mul]; exact hb
  match dim, hs with
  | 0, hs =>
    simp only [Mat.size, Option.some.injEq] at hs
    subst hs
    have hsi : ∀ i ∈ List.range' a (n + 1),
        shard i = { full with rows := (full.rows.drop (i * k)).take k } := by
      intro i hi
      obtain ⟨h1, h2⟩ := hmem i hi
      have := hsh i h1 h2
      simp only [Mat.narrow, if_pos (hbi i h2), Option.some.injEq] at this
      exact this.symm
    rw [show (List.range' a (n + 1)).map shard = (List.range' a (n + 1)).map (fun i =>
      ({ full with rows := (full.rows.drop (i * k)).take k } : Mat α)) from List.map_congr_left hsi]
    have hfl := chunks_flatten full.rows k a (n + 1) hb
    simp only [Mat.narrow, if_pos hbt]
    rw [← hfl, List.range'_succ, List.map_cons, Mat.cat, if_pos]
    · simp [Function.comp_def]
    · simp [List.all_eq_true]
  | 1, hs =>
    simp only [Mat.size, Option.some.injEq] at hs
    subst hs
    have hsi : ∀ i ∈ List.range' a (n + 1),
        shard i = { cols := k, rows := full.rows.map fun r => (r.drop (i * k)).take k } := by
      intro i hi
      obtain ⟨h1, h2⟩ := hmem i hi
      have := hsh i h1 h2
      simp only [Mat.narrow, if_pos (hbi i h2), Option.some.injEq] at this
      exact this.symm
    rw [show (List.range' a (n + 1)).map shard = (List.range' a (n + 1)).map (fun i =>
      ({ cols := k, rows := full.rows.map fun r => (r.drop (i * k)).take k } : Mat α)) from
        List.map_congr_left hsi]
    simp only [Mat.narrow, if_pos hbt]
    generalize hf : (fun i : Nat => ({ cols := k, rows := full.rows.map fun r => (r.drop (i * k)).take k } :
      Mat α)) = f
    have hfl : ∀ i, (f i).rows.length = full.rows.length := by intro i; subst hf; simp
    have hfc : ∀ i, (f i).cols = k := by intro i; subst hf; rfl
    rw [List.range'_succ, List.map_cons, Mat.cat, if_pos (by simp [List.all_eq_true, hfl])]
    rw [← List.map_cons, ← List.range'_succ]
    congr 1
    have hsum : ∀ l : List Nat, ((l.map f).map (·.cols)).sum = l.length * k := by
      intro l
      induction l with
      | nil => simp
      | cons x xs ih =>
        simp only [List.map_cons, List.sum_cons, ih, hfc, List.length_cons, Nat.add_mul]
        omega
    congr 1
    · rw [hsum, List.length_range']
    · apply List.ext_getElem?
      intro i
      rw [List.getElem?_map, List.getElem?_map, hfl]
      by_cases hi : i < full.rows.length
      · rw [List.getElem?_range hi, List.getElem?_eq_getElem hi]
        simp only [Option.map_some, Option.some.injEq]
        have hrow : full.rows[i].length = full.cols := hw _ (List.getElem_mem hi)
        rw [← chunks_flatten full.rows[i] k a (n + 1) (by rw [hrow]; exact hb)]
        unfold Mat.rowOf
        rw [List.map_map]
        congr 1
        apply List.map_congr_left
        intro j _
        subst hf
        simp [hi]
      · rw [List.getElem?_eq_none (by simpa using hi), List.getElem?_eq_none (by simpa using hi)]
        rfl
  | _ + 2, hs => simp [Mat.size] at hs

theorem narrow_narrow (full m : Mat α) (dim p q s l : Nat)
    (h1 : full.narrow dim p q = some m) (h2 : s + l ≤ q) :
    m.narrow dim s l = full.narrow dim (p + s) l := by
  match dim with
  | 0 =>
    simp only [Mat.narrow] at h1 ⊢
    split at h1
    · injection h1 with h1
      subst h1
      rw [if_pos (by simp; omega), if_pos (by omega)]
      simp only [slice_slice _ _ _ _ _ h2]
    · cases h1
  | 1 =>
    simp only [Mat.narrow] at h1 ⊢
    split at h1
    · injection h1 with h1
      subst h1
      rw [if_pos (by simp; omega), if_pos (by omega)]
      simp only [List.map_map, Function.comp_def, slice_slice _ _ _ _ _ h2]
    · cases h1
  | _ + 2 => simp [Mat.narrow] at h1

end Fs2.Shard
