import Verif.Native.Collater

/-!
# The collater: C24
-/

namespace Fs2.Props

open Fs2.Native

/-- The padded batch: one row per sequence; row `i` is the `i`-th sequence followed by the pad value; `seq_lens` are the lengths; all
rows have the same width, which is the least number that is at least every length and, if asked for, a multiple of `multiple`;
`is_ragged` says whether some row was padded. -/
theorem C24_pad (pad : Int) (multiple : Nat) {ts : List (List Int)} (hne : ts ≠ []) :
    ∃ width : Nat, (padTensors pad multiple ts).seqs.length = ts.length ∧
      (∀ (i : Nat) t, ts[i]? = some t → (padTensors pad multiple ts).seqs[i]? = some (t ++ List.replicate (width - t.length) pad) ∧
        (padTensors pad multiple ts).lens[i]? = some t.length) ∧
      (padTensors pad multiple ts).lens.length = ts.length ∧
      (∀ row ∈ (padTensors pad multiple ts).seqs, row.length = width) ∧
      (∀ t ∈ ts, t.length ≤ width) ∧ (1 < multiple → multiple ∣ width) ∧
      (∀ w, (∀ t ∈ ts, t.length ≤ w) → (1 < multiple → multiple ∣ w) → width ≤ w) ∧
      ((padTensors pad multiple ts).ragged = true ↔ ∃ t ∈ ts, t.length ≠ width) := by
  generalize hmore : (if multiple > 1 ∧ longest ts % multiple > 0 then multiple - longest ts % multiple else 0) = more
  have hrow : ∀ t ∈ ts, (t ++ List.replicate (longest ts - t.length) pad) ++ List.replicate more pad =
      t ++ List.replicate (longest ts + more - t.length) pad := by
    intro t ht
    have := le_longest ht
    rw [List.append_assoc, List.replicate_append_replicate]
    congr 2
    omega
  have hseqs : (padTensors pad multiple ts).seqs = ts.map fun t => t ++ List.replicate (longest ts + more - t.length) pad := by
    simp only [padTensors, padSequence, hmore, List.map_map]
    exact List.map_congr_left fun t ht => hrow t ht
  have hlens : (padTensors pad multiple ts).lens = ts.map List.length := rfl
  refine ⟨longest ts + more, by simp [hseqs], ?_, by simp [hlens], ?_, ?_, ?_, ?_, ?_⟩
  · intro i t h
    rw [hseqs, hlens, List.getElem?_map, List.getElem?_map, h]
    exact ⟨rfl, rfl⟩
  · intro row hrow'
    rw [hseqs] at hrow'
    obtain ⟨t, ht, rfl⟩ := List.mem_map.mp hrow'
    have := le_longest ht
    simp; omega
  · intro t ht
    have := le_longest ht
    omega
  · intro hm
    by_cases h0 : longest ts % multiple > 0
    · rw [if_pos ⟨hm, h0⟩] at hmore
      have hlt := Nat.mod_lt (longest ts) (show multiple > 0 by omega)
      have hd := Nat.div_add_mod (longest ts) multiple
      refine ⟨longest ts / multiple + 1, ?_⟩
      rw [Nat.mul_add, Nat.mul_one]
      omega
    · rw [if_neg (fun h => h0 h.2)] at hmore
      exact Nat.dvd_of_mod_eq_zero (by rw [← hmore]; simp; omega)
  · intro w hw hmul
    obtain ⟨t, ht, hlen⟩ := longest_mem hne
    have hle : longest ts ≤ w := hlen ▸ hw t ht
    by_cases h0 : multiple > 1 ∧ longest ts % multiple > 0
    · rw [if_pos h0] at hmore
      obtain ⟨k, hk⟩ := hmul h0.1
      have hlt := Nat.mod_lt (longest ts) (show multiple > 0 by omega)
      have hd := Nat.div_add_mod (longest ts) multiple
      have hkq : longest ts / multiple < k := by
        rcases Nat.lt_or_ge (longest ts / multiple) k with h | h
        · exact h
        · have := Nat.mul_le_mul_left multiple h
          omega
      have := Nat.mul_le_mul_left multiple (Nat.succ_le_of_lt hkq)
      rw [Nat.succ_eq_add_one, Nat.mul_add, Nat.mul_one] at this
      omega
    · rw [if_neg h0] at hmore
      omega
  · have hrag : (padTensors pad multiple ts).ragged = if neighboursDiffer (ts.map List.length) = false then
        (match ts.map List.length with
        | l :: _ => decide (l ≠ longest ts + more)
        | [] => false) else neighboursDiffer (ts.map List.length) := by
      simp only [padTensors, hmore]
      rfl
    rw [hrag]
    obtain ⟨t₀, ts', rfl⟩ := List.exists_cons_of_ne_nil hne
    by_cases hd : neighboursDiffer (((t₀ :: ts') : List (List Int)).map List.length) = false
    · rw [if_pos hd]
      have hall : ∀ t ∈ t₀ :: ts', t.length = t₀.length := by
        intro t ht
        apply Classical.byContradiction
        intro hne'
        have := (neighbours_iff ((t₀ :: ts').map List.length)).mpr
          ⟨t.length, List.mem_map_of_mem ht, t₀.length, by simp, hne'⟩
        rw [hd] at this; cases this
      simp only [List.map_cons, decide_eq_true_eq]
      constructor
      · intro h; exact ⟨t₀, by simp, h⟩
      · rintro ⟨t, ht, h⟩; rw [hall t ht] at h; exact h
    · have hd : neighboursDiffer (((t₀ :: ts') : List (List Int)).map List.length) = true := by
        cases h : neighboursDiffer (((t₀ :: ts') : List (List Int)).map List.length) with
        | true => rfl
        | false => exact absurd h hd
      rw [hd]
      simp only [Bool.true_eq_false, if_false, true_iff]
      obtain ⟨a, ha, b, hb, hab⟩ := (neighbours_iff _).mp hd
      obtain ⟨t, ht, rfl⟩ := List.mem_map.mp ha
      obtain ⟨s, hs, rfl⟩ := List.mem_map.mp hb
      by_cases h : t.length = longest (t₀ :: ts') + more
      · exact ⟨s, hs, fun h' => hab (h.trans h'.symm)⟩
      · exact ⟨t, ht, h⟩

/-- Three sequences padded to a multiple of 4. -/
example : padTensors 0 4 [[1, 2, 3, 4, 5], [6], [7, 8]] =
    ⟨[[1, 2, 3, 4, 5, 0, 0, 0], [6, 0, 0, 0, 0, 0, 0, 0], [7, 8, 0, 0, 0, 0, 0, 0]], [5, 1, 2], true⟩ := by rfl

/-! ## Nested examples -/

/-- The values that the examples of a bucket have at a place. -/
def Column (bucket : List Data) (l : Loc) (xs : List Data) : Prop := bucket.map (nodeAt l) = xs.map some

/-- If a bucket is collated, then at every place where its first example has a value that is neither a list nor a dictionary all
examples have one of the same type, and the batch has there: for tensors, the padded batch with the options for that place or, without
a pad value, the tensors one under another, which then have the same length; for other values, their list. -/
theorem C24_nested {c : Collater} {b : Data} {bs : List Data} {out : Data} (h : c.call (.list (b :: bs)) = .ok out) {l : Loc} {x : Data}
    (hx : nodeAt l b = some x) (hleaf : isLeaf x) :
    ∃ xs, Column (b :: bs) l (x :: xs) ∧ (∀ y ∈ xs, kind y = kind x) ∧
      ((∀ t, x ≠ .tensor t) → nodeAt l out = some (.list (x :: xs))) ∧
      (∀ t, x = .tensor t → ∃ ts, xs = ts.map .tensor ∧
        (∀ pad, (c.optsFor l).padValue = some pad → nodeAt l out = some (padTensors pad (c.optsFor l).multiple (t :: ts)).toData) ∧
        ((c.optsFor l).padValue = none → (∀ s ∈ ts, s.length = t.length) ∧
          nodeAt l out = some (.list ((t :: ts).map .tensor)))) := by
  simp only [Collater.call] at h
  obtain ⟨y, hy, hc⟩ := collateAt_node h hx
  rw [List.nil_append, collateAt_leaf hleaf] at hc
  simp only [collateLeaf] at hc
  split at hc
  · cases hc
  · next xs hxs =>
    obtain ⟨h1, h2⟩ := others_ok hxs
    refine ⟨xs, by simp [Column, hx, h1], h2, fun hnt => ?_, fun t ht => ?_⟩
    · split at hc
      · next t => exact absurd rfl (hnt t)
      · cases hc; exact hy
    · subst ht
      simp only at hc
      have hts : xs = (xs.map tensorOf).map .tensor := by
        rw [List.map_map]
        conv => lhs; rw [← List.map_id xs]
        apply List.map_congr_left
        intro y hy
        have := h2 y hy
        cases y <;> simp_all [kind, tensorOf]
      refine ⟨xs.map tensorOf, hts, fun pad hp => ?_, fun hp => ?_⟩
      · simp only [collateTensors, hp] at hc
        cases hc; exact hy
      · simp only [collateTensors, hp] at hc
        split at hc
        · next hall =>
          cases hc
          exact ⟨by simpa using hall, hy⟩
        · cases hc

/-- The batch has the lists and dictionaries of the first example. -/
theorem C24_shape {c : Collater} {b : Data} {bs : List Data} {out : Data} (h : c.call (.list (b :: bs)) = .ok out) {l : Loc} :
    (∀ xs, nodeAt l b = some (.list xs) → ∃ ys, nodeAt l out = some (.list ys) ∧ ys.length = xs.length) ∧
    (∀ kvs, nodeAt l b = some (.dict kvs) → ∃ ys, nodeAt l out = some (.dict ys) ∧ ys.map (·.1) = kvs.map (·.1)) := by
  simp only [Collater.call] at h
  constructor
  · intro xs hx
    obtain ⟨y, hy, hc⟩ := collateAt_node h hx
    rw [collateAt] at hc
    split at hc
    · cases hc
    · split at hc
      · cases hc
      · next ys hys => cases hc; exact ⟨ys, hy, (collateList_get hys).1⟩
  · intro kvs hx
    obtain ⟨y, hy, hc⟩ := collateAt_node h hx
    rw [collateAt] at hc
    split at hc
    · cases hc
    · split at hc
      · cases hc
      · next ys hys => cases hc; exact ⟨ys, hy, (collateDict_get hys).1⟩

/-- Two examples with a tensor, a string and a list; padding is asked for. -/
example : (Collater.mk ⟨some 0, 2⟩ []).call (.list
      [.dict [("x", .tensor [1, 2, 3]), ("y", .list [.str "a"])], .dict [("x", .tensor [4]), ("y", .list [.str "b"])]]) =
    .ok (.dict [("x", .dict [("is_ragged", .bool true), ("seqs", .list [.tensor [1, 2, 3, 0], .tensor [4, 0, 0, 0]]),
        ("seq_lens", .list [.int 3, .int 1])]), ("y", .list [.list [.str "a", .str "b"]])]) := by rfl

/-- An override switches padding off for one place. -/
example : (Collater.mk ⟨some 0, 1⟩ [([[.key ['z']]], ⟨none, 1⟩)]).call (.list
      [.dict [("z", .tensor [1])], .dict [("z", .tensor [2])]]) =
    .ok (.dict [("z", .list [.tensor [1], .tensor [2]])]) := by rfl

/-- An empty bucket is an error, and a single example counts as a bucket of one. -/
theorem C24_bucket (c : Collater) : (∃ e, c.call (.list []) = .error e) ∧
    ∀ d, (∀ xs, d ≠ .list xs) → c.call d = c.call (.list [d]) := by
  refine ⟨⟨_, rfl⟩, fun d hd => ?_⟩
  cases d with
  | list xs => exact absurd rfl (hd xs)
  | _ => rfl

end Fs2.Props
