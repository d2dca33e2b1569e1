import Verif.Pipeline.SimpleLaws

/-!
# What the leaf sources and simple operators produce (helper lemmas)
-/

namespace Fs2
open Source

theorem listSource_yields_from (xs : List Data) (p : Nat) (hp : p ≤ xs.length) :
    (listSource xs).Yields p (xs.drop p) := by
  induction h : xs.length - p generalizing p with
  | zero =>
    have : p = xs.length := by omega
    subst this
    simp only [List.drop_length]
    refine .nil_of (s' := xs.length) (by simp [listSource]) ?_
    exact .coind (fun p => p = xs.length) rfl
      (by rintro t rfl; exact ⟨xs.length, by simp [listSource], rfl⟩)
  | succ m ih =>
    have hlt : p < xs.length := by omega
    rw [List.drop_eq_getElem_cons hlt]
    refine .cons (s' := p + 1) ?_ (ih (p + 1) (by omega) (by omega))
    simp [listSource, List.getElem?_eq_getElem hlt]

theorem countSource_emits (a b : Int) (k : Option String) (c : Int) (n : Nat) :
    (countSource a b k).Emits c
      ((List.range n).map fun i : Nat => keyed k (.int (c + b * i))) (c + b * n : Int) := by
  induction n with
  | zero => simpa using Emits.nil (S := countSource a b k) c
  | succ n ih =>
    rw [List.range_succ, List.map_append]
    refine ih.snoc ?_
    simp only [countSource, Option.some.injEq, Prod.mk.injEq, true_and]
    grind

theorem constantSource_emits (x : Data) (k : Option String) (n : Nat) (s : Unit) :
    (constantSource x k).Emits s (List.replicate n (keyed k x)) () := by
  induction n with
  | zero => exact .nil _
  | succ n ih => rw [List.replicate_succ]; exact .cons (s' := ()) rfl ih

section take
variable {S : Source} {n : Nat}

theorem take_emits {s s' : S.σ} {xs : List Data} {k : Nat} (h : S.Emits s xs s')
    (hk : k + xs.length ≤ n) : (take n S).Emits (k, s) xs (k + xs.length, s') := by
  induction h generalizing k with
  | nil => exact .nil _
  | @cons s s₁ s₂ x xs hn _ ih =>
    rw [List.length_cons] at hk ⊢
    refine .cons (s' := (k + 1, s₁)) ?_ ?_
    · simp only [take, takeNext]
      rw [if_neg (by omega)]
      simp [hn]
    · have := ih (k := k + 1) (by omega)
      rw [show k + (xs.length + 1) = k + 1 + xs.length by omega]
      exact this

theorem take_yields_of_emits {s s' : S.σ} {xs : List Data} (h : S.Emits s xs s') :
    (take xs.length S).Yields (0, s) xs := by
  have := take_emits (n := xs.length) (k := 0) h (by omega)
  rw [Nat.zero_add] at this
  exact ⟨_, this, take_ended_full⟩

theorem take_yields {s : S.σ} {xs : List Data} (h : S.Yields s xs) :
    (take n S).Yields (0, s) (xs.take n) := by
  rcases Nat.lt_or_ge xs.length n with hl | hl
  · obtain ⟨s', h1, h2⟩ := h
    rw [List.take_of_length_le (by omega)]
    exact ⟨_, take_emits (k := 0) h1 (by omega), take_ended h2⟩
  · rw [← List.take_append_drop n xs] at h
    obtain ⟨s', h1, _⟩ := h.split
    have h2 := take_yields_of_emits h1
    have hlen : (xs.take n).length = n := by rw [List.length_take]; omega
    rw [hlen] at h2
    exact h2

end take

section skip
variable {S : Source} {n : Nat}

theorem skip_emits_skipped {s s' : S.σ} {xs : List Data} (h : S.Emits s xs s') :
    (skip n S).Emits (true, s) xs (true, s') := by
  induction h with
  | nil => exact .nil _
  | cons hn _ ih =>
    refine .cons (s' := (true, _)) ?_ ih
    simp only [skip, skipNext]
    split <;> simp [hn]

theorem skip_emits {s s₁ s' : S.σ} {xs ys : List Data} (h : S.Emits s xs s₁)
    (h' : S.Emits s₁ ys s') (hy : ys ≠ []) (hn : xs.length = n) :
    ∃ k, (skip n S).Emits (false, s) ys (k, s') := by
  rcases Nat.eq_zero_or_pos n with rfl | hp
  · obtain rfl : xs = [] := List.eq_nil_of_length_eq_zero hn
    cases h
    refine ⟨false, ?_⟩
    clear hy
    induction h' with
    | nil => exact .nil _
    | cons hn _ ih => exact .cons (s' := (false, _)) (by simp [skip, skipNext, hn]) ih
  · cases h' with
    | nil => exact absurd rfl hy
    | cons h1 h2 =>
      refine ⟨true, .cons (s' := (true, _)) ?_ (skip_emits_skipped h2)⟩
      simp only [skip, skipNext]
      rw [if_neg (by omega), if_neg (by simp)]
      have := readUpTo_full (acc := []) h
      rw [hn] at this
      simp [this, h1]

theorem skip_yields {s : S.σ} {xs : List Data} (h : S.Yields s xs) :
    (skip n S).Yields (false, s) (xs.drop n) := by
  rcases Nat.lt_or_ge n xs.length with hl | hl
  · rw [← List.take_append_drop n xs] at h
    obtain ⟨s₁, h1, s', h2, h3⟩ := h.split
    have hne : xs.drop n ≠ [] := by
      intro h0
      have := List.drop_eq_nil_iff.mp h0
      omega
    obtain ⟨k, h4⟩ := skip_emits (n := n) h1 h2 hne (by rw [List.length_take]; omega)
    exact ⟨_, h4, skip_ended h3⟩
  · rw [List.drop_eq_nil_of_le hl]
    obtain ⟨s', h1, h2⟩ := h
    rcases Nat.eq_zero_or_pos n with rfl | hp
    · obtain rfl : xs = [] := List.eq_nil_of_length_eq_zero (by omega)
      cases h1
      exact ⟨_, .nil _, skip_ended h2⟩
    · obtain ⟨s₂, h3, h4⟩ := h2.next
      rcases Nat.eq_or_lt_of_le hl with he | hlt
      · have h5 := readUpTo_full (acc := []) h1
        rw [he] at h5
        refine .nil_of (s' := (true, s₂)) ?_ (skip_ended h4)
        simp only [skip, skipNext]
        rw [if_neg (by omega), if_neg (by simp), h5]
        simp [h3]
      · have h5 := readUpTo_eod (acc := []) h1 h3 hlt
        obtain ⟨s₃, h6, h7⟩ := h4.next
        refine .nil_of (s' := (true, s₃)) ?_ (skip_ended h7)
        simp only [skip, skipNext]
        rw [if_neg (by omega), if_neg (by simp), h5]
        simp [h6]

end skip

section filter
variable {S : Source} {p : Data → Bool}

theorem filter_next_pass {s s' : S.σ} {x : Data} (h : S.next s = some (.yield x, s'))
    (hp : p x = false) :
    (filter (fun x => .ok (p x)) S).next s = (filter (fun x => .ok (p x)) S).next s' := by
  simp only [filter]
  rw [filterNext]
  simp [h, hp]

theorem filter_next_hit {s s' : S.σ} {x : Data} (h : S.next s = some (.yield x, s'))
    (hp : p x = true) :
    (filter (fun x => .ok (p x)) S).next s = some (.yield x, s') := by
  simp only [filter]
  rw [filterNext]
  simp [h, hp]

theorem filter_yields {s : S.σ} {xs : List Data} (h : S.Yields s xs) :
    (filter (fun x => .ok (p x)) S).Yields s (xs.filter p) := by
  induction xs generalizing s with
  | nil => exact ⟨s, .nil _, filter_ended h.nil_inv⟩
  | cons x xs ih =>
    obtain ⟨s', h1, h2⟩ := h.cons_inv
    cases hp : p x with
    | true => rw [List.filter_cons_of_pos hp]; exact .cons (filter_next_hit h1 hp) (ih h2)
    | false =>
      rw [List.filter_cons_of_neg (by simp [hp])]
      exact .of_next_eq (filter_next_pass h1 hp) (ih h2)

/-- A prefix of the upstream that ends with an accepted example. -/
theorem filter_emits {s s' : S.σ} {xs : List Data} (h : S.Emits s xs s')
    (hl : ∀ x, xs.getLast? = some x → p x = true) :
    (filter (fun x => .ok (p x)) S).Emits s (xs.filter p) s' := by
  induction h with
  | nil => exact .nil _
  | @cons s s₁ s₂ x xs hn h' ih =>
    have hl' : ∀ y, xs.getLast? = some y → p y = true := by
      intro y hy
      apply hl y
      rw [List.getLast?_cons, hy]
      simp
    cases hp : p x with
    | true => rw [List.filter_cons_of_pos hp]; exact .cons (filter_next_hit hn hp) (ih hl')
    | false =>
      rw [List.filter_cons_of_neg (by simp [hp])]
      have h2 := ih hl'
      cases hx : xs with
      | nil => subst hx; simp at hl; simp [hl] at hp
      | cons y ys =>
        cases h3 : xs.filter p with
        | nil =>
          have := hl' (xs.getLast (by simp [hx])) (List.getLast?_eq_some_getLast _)
          have h4 := List.filter_eq_nil_iff.mp h3 _ (List.getLast_mem (l := xs) (by simp [hx]))
          exact absurd this h4
        | cons z zs =>
          rw [h3] at h2
          rw [← hx, h3]
          obtain ⟨_, a, b⟩ := h2.cons_inv
          exact .cons ((filter_next_pass hn hp).trans a) b

end filter

section map
variable {S : Source} {f : Data → Data}

theorem map_emits {s s' : S.σ} {xs : List Data} (h : S.Emits s xs s') :
    (map (fun x => .ok (f x)) S).Emits s (xs.map f) s' := by
  induction h with
  | nil => exact .nil _
  | cons hn _ ih => exact .cons (by simp [map, mapNext, hn]) ih

theorem map_yields {s : S.σ} {xs : List Data} (h : S.Yields s xs) :
    (map (fun x => .ok (f x)) S).Yields s (xs.map f) := by
  obtain ⟨s', h1, h2⟩ := h
  exact ⟨s', map_emits h1, map_ended h2⟩

end map

section shard
variable {S : Source} {idx n : Nat} {un : Bool}

theorem shard_next_full {s s' : S.σ} {xs : List Data} (hn : xs.length = n) (hi : idx < n)
    (h : S.Emits s xs s') :
    (shard idx n un S).next s = some (.yield (xs[idx]'(by omega)), s') := by
  have h0 := h
  rw [← List.take_append_drop idx xs] at h0
  obtain ⟨s₁, h1, h2⟩ := h0.split
  have hlt : idx < xs.length := by omega
  rw [List.drop_eq_getElem_cons hlt] at h2
  simp only [shard, shardNext]
  cases h2 with
  | cons h3 h4 =>
    split
    · next hone =>
      have hx : idx = 0 := by omega
      subst hx
      simp only [List.take_zero] at h1
      cases h1
      have : xs.drop 1 = [] := List.drop_eq_nil_of_le (by omega)
      rw [this] at h4
      cases h4
      exact h3
    · have h5 := readUpTo_full (acc := []) h1
      have hl1 : (xs.take idx).length = idx := by simp; omega
      rw [hl1] at h5
      have h6 := readUpTo_full (acc := []) h4
      have hl2 : (xs.drop (idx + 1)).length = n - idx - 1 := by simp; omega
      rw [hl2] at h6
      simp [h5, h3, h6]

theorem shard_next_end {s : S.σ} {xs : List Data} (hn : xs.length < n) (hi : idx < n)
    (h : S.Yields s xs) :
    ∃ s', S.Ended s' ∧ (shard idx n un S).next s
      = if hx : idx < xs.length ∧ un = true then some (.yield (xs[idx]'hx.1), s')
        else some (.eod, s') := by
  simp only [shard, shardNext]
  rcases Nat.lt_or_ge idx xs.length with hlt | hge
  · rw [← List.take_append_drop idx xs] at h
    obtain ⟨s₁, h1, h2⟩ := h.split
    rw [List.drop_eq_getElem_cons hlt] at h2
    obtain ⟨s₂, h3, s₃, h4, h5⟩ := h2.cons_inv
    obtain ⟨s₄, h6, h7⟩ := h5.next
    have h8 := readUpTo_full (acc := []) h1
    have hl1 : (xs.take idx).length = idx := by simp; omega
    rw [hl1] at h8
    have h9 := readUpTo_eod (acc := []) (n := n - idx - 1) h4 h6 (by simp; omega)
    refine ⟨s₄, h7, ?_⟩
    rw [if_neg (by omega)]
    simp only [h8, h3, h9]
    cases un <;> simp [hlt]
  · obtain ⟨s₁, h1, h2⟩ := h
    obtain ⟨s₂, h3, h4⟩ := h2.next
    refine ⟨s₂, h4, ?_⟩
    rw [dif_neg (by omega)]
    split
    · next hone =>
      obtain rfl : xs = [] := List.eq_nil_of_length_eq_zero (by omega)
      cases h1
      exact h3
    · rcases Nat.eq_or_lt_of_le hge with he | hlt
      · have := readUpTo_full (acc := []) h1
        rw [he] at this
        simp [this, h3]
      · have := readUpTo_eod (acc := []) h1 h3 hlt
        simp [this]

theorem shard_yields {s : S.σ} {xs : List Data} (hi : idx < n) (h : S.Yields s xs) :
    ∃ ys, (shard idx n un S).Yields s ys ∧
      ∀ k, ys[k]? = if un = true ∨ (k + 1) * n ≤ xs.length then xs[k * n + idx]? else none := by
  induction hl : xs.length using Nat.strongRecOn generalizing xs s with
  | _ m ih =>
    rcases Nat.lt_or_ge xs.length n with hlt | hge
    · obtain ⟨s', he, hnext⟩ := shard_next_end (un := un) hlt hi h
      split at hnext
      · next hx =>
        refine ⟨[xs[idx]], .cons hnext ⟨s', .nil _, shard_ended he⟩, ?_⟩
        intro k
        rw [if_pos (.inl hx.2)]
        cases k with
        | zero => simp [hx.1]
        | succ k =>
          have : (k + 1) * n ≥ n := Nat.le_mul_of_pos_left n (by omega)
          rw [List.getElem?_eq_none (by simp), List.getElem?_eq_none (by omega)]
      · next hx =>
        refine ⟨[], .nil_of hnext (shard_ended he), ?_⟩
        intro k
        rw [List.getElem?_nil]
        have h0 : (k + 1) * n ≥ n := Nat.le_mul_of_pos_left n (by omega)
        split
        · next hk =>
          rcases hk with hk | hk
          · have : ¬ idx < xs.length := fun h => hx ⟨h, hk⟩
            rw [List.getElem?_eq_none (by omega)]
          · omega
        · rfl
    · rw [← List.take_append_drop n xs] at h
      obtain ⟨s₁, h1, h2⟩ := h.split
      have hl1 : (xs.take n).length = n := by simp; omega
      have hnext := shard_next_full (un := un) hl1 hi h1
      obtain ⟨ys, h3, h4⟩ := ih (xs.drop n).length (by simp; omega) h2 rfl
      refine ⟨_ :: ys, .cons hnext h3, ?_⟩
      intro k
      cases k with
      | zero =>
        have hidx : idx < xs.length := by omega
        simp [hidx]
        omega
      | succ k =>
        rw [List.getElem?_cons_succ, h4, List.getElem?_drop, List.length_drop]
        have e1 : n + (k * n + idx) = (k + 1) * n + idx := by rw [Nat.add_mul]; omega
        have e2 : (k + 1 + 1) * n = (k + 1) * n + n := by rw [Nat.add_mul (k+1)]; omega
        rw [e1, e2]
        have : (k + 1) * n ≤ xs.length - n ↔ (k + 1) * n + n ≤ xs.length := by omega
        rw [hl] at this
        rw [hl] 
        simp only [this]

end shard

section bucket
variable {S : Source} {n : Nat} {drop : Bool}

theorem bucket_next_full {s s' : S.σ} {xs : List Data} (hp : 0 < xs.length)
    (h : S.Emits s xs s') :
    (bucket xs.length drop S).next s = some (.yield (.list xs), s') := by
  have h1 := readUpTo_full (acc := []) h
  have hne : xs ≠ [] := by rintro rfl; simp at hp
  simp [bucket, bucketNext, h1, hne]

theorem bucket_next_end {s : S.σ} {xs : List Data} (hl : xs.length < n)
    (h : S.Yields s xs) :
    ∃ s', S.Ended s' ∧ (bucket n drop S).next s
      = if xs = [] ∨ drop = true then some (.eod, s') else some (.yield (.list xs), s') := by
  obtain ⟨s₁, h1, h2⟩ := h
  obtain ⟨s₂, h3, h4⟩ := h2.next
  refine ⟨s₂, h4, ?_⟩
  have := readUpTo_eod (acc := []) h1 h3 hl
  simp only [bucket, bucketNext, this, List.nil_append]
  by_cases hx : xs = [] <;> cases drop <;> simp [hx, hl]

theorem bucket_yields {s : S.σ} {xs : List Data} (hn : 0 < n) (h : S.Yields s xs) :
    ∃ bs : List (List Data), (bucket n drop S).Yields s (bs.map .list) ∧
      bs.flatten = (if drop then xs.take (xs.length / n * n) else xs) ∧
      (∀ b ∈ bs, b ≠ [] ∧ b.length ≤ n) ∧
      (∀ k b, bs[k]? = some b → (drop = true ∨ k + 1 < bs.length) → b.length = n) := by
  induction hl : xs.length using Nat.strongRecOn generalizing xs s with
  | _ m ih =>
    rcases Nat.lt_or_ge xs.length n with hlt | hge
    · obtain ⟨s', he, hnext⟩ := bucket_next_end (drop := drop) hlt h
      split at hnext
      · next hx =>
        refine ⟨[], .nil_of hnext (bucket_ended he), ?_, by simp, by simp⟩
        rw [← hl, Nat.div_eq_of_lt hlt]
        rcases hx with rfl | rfl <;> simp
      · next hx =>
        simp only [not_or] at hx
        refine ⟨[xs], .cons hnext ⟨s', .nil _, bucket_ended he⟩, by simp [hx.2], ?_, ?_⟩
        · simp only [List.mem_singleton, forall_eq]
          exact ⟨hx.1, by omega⟩
        · intro k b hb hk
          rcases hk with hk | hk
          · exact absurd hk hx.2
          · simp at hk
    · have h0 := h
      rw [← List.take_append_drop n xs] at h0
      obtain ⟨s₁, h1, h2⟩ := h0.split
      have hl1 : (xs.take n).length = n := by simp; omega
      have hnext := bucket_next_full (drop := drop) (by omega) h1
      rw [hl1] at hnext
      obtain ⟨bs, h3, h4, h5, h6⟩ := ih (xs.drop n).length (by simp; omega) h2 rfl
      refine ⟨xs.take n :: bs, .cons hnext h3, ?_, ?_, ?_⟩
      · rw [List.flatten_cons, h4]
        split
        · rw [List.length_drop, ← hl]
          have : xs.length / n = (xs.length - n) / n + 1 := by
            rw [← Nat.sub_add_cancel hge, Nat.add_div_right _ hn, Nat.sub_add_cancel hge]
          rw [this, Nat.add_mul, Nat.one_mul, Nat.add_comm _ n, List.take_add]
        · exact List.take_append_drop n xs
      · intro b hb
        rcases List.mem_cons.mp hb with rfl | hb
        · exact ⟨by intro h0; rw [h0] at hl1; simp at hl1; omega, by omega⟩
        · exact h5 b hb
      · intro k b hb hk
        cases k with
        | zero => simp only [List.getElem?_cons_zero, Option.some.injEq] at hb; rw [← hb, hl1]
        | succ k =>
          rw [List.getElem?_cons_succ] at hb
          refine h6 k b hb (hk.imp id ?_)
          rw [List.length_cons]
          omega

end bucket

end Fs2
