import Verif.Nn.AttentionBias

/-! Helper lemmas about attention biases. -/

namespace Fs2.Nn

theorem create_head {b : BiasKind} (hb : ∀ H, b ≠ .alibi H) {q k : Nat} {s : BiasTensor}
    (h : b.create q k = some s) :
    s.heads = none ∧ s.q = q ∧ s.k = k ∧ ∀ h i j, s.at' h i j = s.at' 0 i j := by
  cases b with
  | identity => simp only [BiasKind.create, Option.some.injEq] at h; subst h; simp
  | causal w => simp only [BiasKind.create, Option.some.injEq] at h; subst h; simp [causalTensor]
  | chunked c =>
    simp only [BiasKind.create] at h
    split at h
    · cases h
    · split at h
      · cases h
      · cases h; simp
  | alibi H => exact absurd rfl (hb H)

theorem covers_iff (r c : Nat × Nat) (i j : Nat) :
    covers r c i j = true ↔ r.1 ≤ i ∧ i < r.2 ∧ c.1 ≤ j ∧ j < c.2 := by
  simp [covers, and_assoc]

/-- The entries of the bias of one block. -/
noncomputable def entryOf (b : BiasKind) (n m i j : Nat) : Entry :=
  match b.create n m with
  | none => .negInf
  | some s => s.at' 0 i j

/-- The entries `_create_block_bias_tensor` leaves behind, from the given offsets on. -/
noncomputable def blockEntry (b : BiasKind) (qLen kLen : Nat) (i j : Nat) :
    List Nat → List Nat → Nat → Nat → Entry → Entry
  | n :: qs, m :: ks, q0, k0, old =>
    blockEntry b qLen kLen i j qs ks (q0 + n) (k0 + m)
      (if covers (q0, q0 + n) (k0, k0 + m) i j then entryOf b n m (i - q0) (j - k0) else old)
  | _, _, q0, k0, old => if covers (q0, qLen) (k0, kLen) i j then .fin 0 else old

theorem blockLoop_ok {b : BiasKind} (hb : ∀ H, b ≠ .alibi H) {qLen kLen : Nat} (qs ks : List Nat)
    (q0 k0 : Nat) (t : BiasTensor) (hl : qs.length = ks.length) (h1 : ∀ n ∈ qs, 1 ≤ n)
    (h2 : ∀ n ∈ ks, 1 ≤ n) (hq : q0 + qs.sum ≤ qLen) (hk : k0 + ks.sum ≤ kLen)
    (hc : ∀ p ∈ qs.zip ks, ∃ s, b.create p.1 p.2 = some s) (htq : t.q = qLen) (htk : t.k = kLen) :
    ∃ T, blockLoop b ((seqRanges q0 qs ++ [(qLen, qLen)]).zip (seqRanges k0 ks ++ [(kLen, kLen)])) q0 k0
        t = some T ∧ T.heads = t.heads ∧ T.q = qLen ∧ T.k = kLen ∧
      ∀ h i j, T.at' h i j = blockEntry b qLen kLen i j qs ks q0 k0 (t.at' h i j) := by
  induction qs generalizing ks q0 k0 t with
  | nil =>
    cases ks with
    | cons m ks => simp at hl
    | nil =>
      simp only [seqRanges, List.nil_append, List.zip_cons_cons, List.zip_nil_right, blockLoop,
        ne_eq, not_true_eq_false, false_and, if_false, blockEntry]
      split
      · refine ⟨_, rfl, rfl, htq, htk, fun h i j => rfl⟩
      · rename_i hn
        refine ⟨_, rfl, rfl, htq, htk, fun h i j => ?_⟩
        rw [if_neg]
        simp only [covers, Bool.and_eq_true, decide_eq_true_eq]
        omega
  | cons n qs ih =>
    cases ks with
    | nil => simp at hl
    | cons m ks =>
      obtain ⟨s, hs⟩ := hc (n, m) (by simp)
      obtain ⟨sh, sq, sk, sa⟩ := create_head hb hs
      have hn := h1 n (by simp)
      have hm := h2 m (by simp)
      simp only [List.sum_cons] at hq hk
      simp only [seqRanges, List.cons_append, List.zip_cons_cons, blockLoop, blockEntry]
      have e2 : q0 ≠ q0 + n ∧ k0 ≠ k0 + m := by omega
      simp only [e2, and_self, if_true, ne_eq, not_false_eq_true]
      rw [show q0 + n - q0 = n by omega, show k0 + m - k0 = m by omega, hs]
      simp only [Option.bind_eq_bind, Option.bind_some, BiasTensor.put, sh, Option.getD_none, ne_eq,
        not_true_eq_false, if_false, htq, htk]
      rw [if_pos (by omega)]
      simp only [Option.bind_some]
      obtain ⟨T, e, a1, a2, a3, a4⟩ := ih ks (q0 + n) (k0 + m)
        { t with at' := fun h i j =>
                   if covers (q0, q0 + n) (k0, k0 + m) i j then s.at' 0 (i - q0) (j - k0)
                   else t.at' h i j, q := qLen, k := kLen }
        (by simpa using hl) (fun x hx => h1 x (by simp [hx])) (fun x hx => h2 x (by simp [hx]))
        (by omega) (by omega) (fun p hp => hc p (by simp [hp])) rfl rfl
      refine ⟨T, ?_, a1, a2, a3, ?_⟩
      · rw [← e]
      · intro h i j
        rw [a4]
        simp only [entryOf, hs]

theorem blockEntry_before {b : BiasKind} {qLen kLen i j : Nat} (qs ks : List Nat) (q0 k0 : Nat)
    (old : Entry) (h : i < q0 ∨ j < k0) : blockEntry b qLen kLen i j qs ks q0 k0 old = old := by
  induction qs generalizing ks q0 k0 old with
  | nil =>
    simp only [blockEntry]
    rw [if_neg]
    simp only [covers, Bool.and_eq_true, decide_eq_true_eq]
    omega
  | cons n qs ih =>
    cases ks with
    | nil =>
      simp only [blockEntry]
      rw [if_neg]
      simp only [covers, Bool.and_eq_true, decide_eq_true_eq]
      omega
    | cons m ks =>
      simp only [blockEntry]
      rw [ih _ _ _ _ (by omega), if_neg]
      simp only [covers, Bool.and_eq_true, decide_eq_true_eq]
      omega

theorem blockEntry_inside {b : BiasKind} {qLen kLen i j : Nat} (qs ks : List Nat) (q0 k0 : Nat)
    (old : Entry) (hl : qs.length = ks.length) {a c n m : Nat} (ha : qs[a]? = some n)
    (hc : ks[c]? = some m) (hi : i < n) (hj : j < m) :
    blockEntry b qLen kLen (q0 + (qs.take a).sum + i) (k0 + (ks.take c).sum + j) qs ks q0 k0 old =
      if a = c then entryOf b n m i j else old := by
  induction qs generalizing ks q0 k0 old a c with
  | nil => simp at ha
  | cons x qs ih =>
    cases ks with
    | nil => simp at hc
    | cons y ks =>
      simp only [blockEntry]
      cases a with
      | zero =>
        simp only [List.getElem?_cons_zero, Option.some.injEq] at ha
        subst ha
        rw [blockEntry_before _ _ _ _ _ (by simp; omega)]
        cases c with
        | zero =>
          simp only [List.getElem?_cons_zero, Option.some.injEq] at hc
          subst hc
          simp [covers, hi, hj]
        | succ c =>
          rw [if_neg (c := covers _ _ _ _ = true), if_neg (by simp)]
          rw [covers_iff]; simp only [List.take_succ_cons, List.sum_cons, List.take_zero, List.sum_nil]
          omega
      | succ a =>
        cases c with
        | zero =>
          simp only [List.getElem?_cons_zero, Option.some.injEq] at hc
          subst hc
          rw [blockEntry_before _ _ _ _ _ (by simp; omega), if_neg (c := covers _ _ _ _ = true), if_neg (by simp)]
          rw [covers_iff]; simp only [List.take_succ_cons, List.sum_cons, List.take_zero, List.sum_nil]
          omega
        | succ c =>
          simp only [List.getElem?_cons_succ] at ha hc
          have := ih ks (q0 + x) (k0 + y) (if covers (q0, q0 + x) (k0, k0 + y)
            (q0 + ((x :: qs).take (a + 1)).sum + i) (k0 + ((y :: ks).take (c + 1)).sum + j) then
              entryOf b x y (q0 + ((x :: qs).take (a + 1)).sum + i - q0)
                (k0 + ((y :: ks).take (c + 1)).sum + j - k0) else old)
            (by simpa using hl) ha hc
          have eq1 : q0 + ((x :: qs).take (a + 1)).sum + i = q0 + x + (qs.take a).sum + i := by
            simp; omega
          have eq2 : k0 + ((y :: ks).take (c + 1)).sum + j = k0 + y + (ks.take c).sum + j := by
            simp; omega
          rw [eq1, eq2] at this ⊢
          rw [this]
          simp only [Nat.add_right_cancel_iff]
          congr 1
          rw [if_neg]
          simp only [covers, Bool.and_eq_true, decide_eq_true_eq]
          omega

theorem blockEntry_padding {b : BiasKind} {qLen kLen i j : Nat} (qs ks : List Nat) (q0 k0 : Nat)
    (old : Entry) (hl : qs.length = ks.length) (hq : q0 + qs.sum ≤ i ∨ k0 + ks.sum ≤ j) :
    blockEntry b qLen kLen i j qs ks q0 k0 old =
      if q0 + qs.sum ≤ i ∧ k0 + ks.sum ≤ j ∧ i < qLen ∧ j < kLen then .fin 0 else old := by
  induction qs generalizing ks q0 k0 old with
  | nil =>
    cases ks with
    | cons m ks => simp at hl
    | nil =>
      simp only [blockEntry, covers, List.sum_nil, Nat.add_zero, Bool.and_eq_true, decide_eq_true_eq]
      congr 1
      apply propext
      omega
  | cons n qs ih =>
    cases ks with
    | nil => simp at hl
    | cons m ks =>
      simp only [List.sum_cons] at hq
      simp only [blockEntry, List.sum_cons]
      rw [ih _ _ _ _ (by simpa using hl) (by omega)]
      have : ¬ covers (q0, q0 + n) (k0, k0 + m) i j = true := by
        simp only [covers, Bool.and_eq_true, decide_eq_true_eq]
        omega
      rw [if_neg this]
      simp only [Nat.add_assoc]
      congr 1

/-- The block tensor of a batch. -/
theorem blockTensor_ok {b : BiasKind} (hb : ∀ H, b ≠ .alibi H) {qLen kLen : Nat} (qs ks : List Nat)
    (hl : qs.length = ks.length) (h1 : ∀ n ∈ qs, 1 ≤ n)
    (h2 : ∀ n ∈ ks, 1 ≤ n) (hq : qs.sum ≤ qLen) (hk : ks.sum ≤ kLen)
    (hc : ∀ p ∈ qs.zip ks, ∃ s, b.create p.1 p.2 = some s) :
    ∃ T, blockTensor b qs qLen ks kLen = some T ∧ T.heads = none ∧ T.q = qLen ∧ T.k = kLen ∧
      ∀ h i j, i < qLen → j < kLen →
        T.at' h i j = blockEntry b qLen kLen i j qs ks 0 0 .negInf := by
  simp only [blockTensor]
  split
  · rename_i hcond
    obtain ⟨c1, c2⟩ := hcond
    match qs, ks, hl with
    | [], _, _ => simp [seqRanges] at c1
    | [n], [m], _ =>
      simp [seqRanges] at c1 c2
      subst c1 c2
      obtain ⟨s, hs⟩ := hc (n, m) (by simp)
      simp only at hs
      obtain ⟨sh, sq, sk, sa⟩ := create_head hb hs
      refine ⟨s, hs, sh, sq, sk, ?_⟩
      intro h i j hi hj
      simp [blockEntry, covers, hi, hj, entryOf, hs, sa h i j]
    | _ :: _ :: _, _, _ => simp [seqRanges] at c1
  · obtain ⟨T, e, a1, a2, a3, a4⟩ := blockLoop_ok hb (qLen := qLen) (kLen := kLen) qs ks 0 0
      { heads := none, q := qLen, k := kLen, at' := fun _ _ _ => .negInf } hl h1 h2
      (by omega) (by omega) hc rfl rfl
    exact ⟨T, e, a1, a2, a3, fun h i j _ _ => a4 h i j⟩

/-! ## Attention -/

/-- Only the visible keys and values matter. -/
theorem attend_congr (scale : ℝ) (d n : Nat) (x : Nat → ℝ) (k v k' v' : Nat → Nat → ℝ)
    (bias bias' : Nat → Entry) (c : Nat) (hb : ∀ j < n, bias j = bias' j)
    (h : ∀ j < n, bias j ≠ .negInf → (∀ e, k j e = k' j e) ∧ ∀ e, v j e = v' j e) :
    attend scale d n x k v bias c = attend scale d n x k' v' bias' c := by
  have hw : ∀ j < n, expBias (dot d x (k j) * scale) (bias j) =
      expBias (dot d x (k' j) * scale) (bias' j) := by
    intro j hj
    rw [← hb j hj]
    cases hbj : bias j with
    | negInf => rfl
    | fin y =>
      have := (h j hj (by simp [hbj])).1
      have e : k j = k' j := funext this
      rw [e]
  have ht : (∑ j ∈ Finset.range n, expBias (dot d x (k j) * scale) (bias j)) =
      ∑ j ∈ Finset.range n, expBias (dot d x (k' j) * scale) (bias' j) :=
    Finset.sum_congr rfl fun j hj => hw j (Finset.mem_range.mp hj)
  simp only [attend]
  rw [ht]
  split
  · rfl
  · congr 1
    apply Finset.sum_congr rfl
    intro j hj
    have hj := Finset.mem_range.mp hj
    rw [hw j hj]
    cases hbj : bias j with
    | negInf =>
      rw [← hb j hj, hbj]
      simp [expBias]
    | fin y => rw [(h j hj (by simp [hbj])).2 c]

/-- A sum all of whose terms outside a stretch are zero. -/
theorem sum_stretch (f : Nat → ℝ) (o m n : Nat) (h : o + m ≤ n)
    (hz : ∀ j < n, (j < o ∨ o + m ≤ j) → f j = 0) :
    ∑ j ∈ Finset.range n, f j = ∑ j ∈ Finset.range m, f (o + j) := by
  have e : n = o + m + (n - (o + m)) := by omega
  rw [e, Finset.sum_range_add, Finset.sum_range_add]
  rw [Finset.sum_eq_zero (s := Finset.range o), Finset.sum_eq_zero (s := Finset.range (n - (o + m)))]
  · simp
  · intro j hj
    have := Finset.mem_range.mp hj
    exact hz _ (by omega) (by omega)
  · intro j hj
    have := Finset.mem_range.mp hj
    exact hz _ (by omega) (by omega)

/-- If only a stretch of the keys is visible, attention is attention over that stretch. -/
theorem attend_stretch (scale : ℝ) (d n : Nat) (x : Nat → ℝ) (k v : Nat → Nat → ℝ)
    (bias : Nat → Entry) (c o m : Nat) (h : o + m ≤ n)
    (hz : ∀ j < n, (j < o ∨ o + m ≤ j) → bias j = .negInf) :
    attend scale d n x k v bias c =
      attend scale d m x (fun j => k (o + j)) (fun j => v (o + j)) (fun j => bias (o + j)) c := by
  simp only [attend]
  rw [sum_stretch (fun j => expBias (dot d x (k j) * scale) (bias j)) o m n h
    (fun j hj hout => by simp [hz j hj hout, expBias])]
  split
  · rfl
  · congr 1
    rw [sum_stretch _ o m n h]
    intro j hj hout
    simp [hz j hj hout, expBias]

end Fs2.Nn
