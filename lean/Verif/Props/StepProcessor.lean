import Verif.Generation.StepLemmas

/-!
Properties C57 and C58: the step processors forbid exactly the tokens that would repeat an n-gram or
complete a banned sequence, and text generated under them has no repetition and no banned sequence.
-/

namespace Fs2.Props

open Fs2.Gen

variable {α : Type}

/-! ### Specification -/

/-- A batch of sequences of `len` tokens, with a row of `V` probabilities for each. -/
structure BatchOf (V len : Nat) (seqs : List (List Int)) (probs : List (List α)) : Prop where
  rows : seqs.length = probs.length
  width : ∀ s ∈ seqs, s.length = len
  tokens : ∀ s ∈ seqs, ∀ t ∈ s, 0 ≤ t ∧ t < (V : Int)
  vocab : ∀ p ∈ probs, p.length = V

/-- The processed probabilities are `v` for the tokens that are forbidden after the sequence of their row
and otherwise what they were. -/
def ForbidsExactly (V : Nat) (forbidden : List Int → Int → Prop) (v : α) (seqs : List (List Int))
    (probs out : List (List α)) : Prop :=
  out.length = probs.length ∧
  ∀ (r : Nat) (s : List Int) (p : List α), seqs[r]? = some s → probs[r]? = some p →
    ∃ q, out[r]? = some q ∧ q.length = V ∧ ∀ t : Nat, t < V →
      (forbidden s t → q[t]? = some v) ∧ (¬ forbidden s t → q[t]? = p[t]?)

/-- Token `t` would complete a banned sequence. -/
def Completes (banned : List (List Int)) (s : List Int) (t : Int) : Prop :=
  ∃ b ∈ banned, b <:+ s ++ [t]

/-- Token `t` would repeat an n-gram of the sequence: the last `n` tokens of `s ++ [t]` are also a stretch
of `s`. -/
def Repeats (n : Nat) (s : List Int) (t : Int) : Prop :=
  ∃ g : List Int, g.length = n ∧ g <:+ s ++ [t] ∧ g <:+: s

/-- Sequence `s` is the prompt, extended by one token after the other that is allowed where it stands. -/
inductive Grows (allowed : List Int → Int → Prop) (prompt : List Int) : List Int → Prop
  | start : Grows allowed prompt prompt
  | step (s : List Int) (t : Int) : Grows allowed prompt s → allowed s t →
      Grows allowed prompt (s ++ [t])

/-- The processor `call` lets token `t` through after `s`: with `s` as one of the sequences of a batch the
processed probability of `t` is not the forbidding value. -/
def LetsThrough (V : Nat) (v : α) (call : Nat → List (List Int) → List (List α) → Option (List (List α)))
    (s : List Int) (t : Int) : Prop :=
  ∃ (seqs : List (List Int)) (probs out : List (List α)) (r : Nat) (q : List α) (x : α), BatchOf V s.length seqs probs ∧ seqs[r]? = some s ∧
    call s.length seqs probs = some out ∧ out[r]? = some q ∧ 0 ≤ t ∧ q[t.toNat]? = some x ∧ x ≠ v

/-! ### C58 -/

private theorem dropLast_pad (k : Nat) (z : Int) (b : List Int) (hb : b ≠ []) :
    (List.replicate k z ++ b).dropLast = List.replicate k z ++ b.dropLast := by
  rw [List.dropLast_append_of_ne_nil hb]

private theorem suffix_split (b s : List Int) (t : Int) (hb : b ≠ []) :
    b <:+ s ++ [t] ↔ b.getLastD 0 = t ∧ b.dropLast <:+ s := by
  have h := List.dropLast_concat_getLast hb
  have h2 : b.getLastD 0 = b.getLast hb := by
    rw [List.getLastD_eq_getLast?, List.getLast?_eq_some_getLast hb]
    rfl
  rw [h2, List.suffix_concat_iff]
  constructor
  · rintro (h3 | ⟨u, h3, h4⟩)
    · exact absurd h3 hb
    · subst h3
      simp [h4]
  · rintro ⟨h3, h4⟩
    exact Or.inr ⟨b.dropLast, by rw [← h3, h], h4⟩

private theorem init_cases (banned : List (List Int)) (hemp : banned ≠ []) (hne : ∀ b ∈ banned, b ≠ []) :
    bannedInit banned = if maxLen banned ≠ minLen banned then
      some (some {
        width := maxLen banned
        seqs := banned.map fun s => List.replicate (maxLen banned - s.length) 0 ++ s
        mask := some (banned.map fun s =>
          List.replicate (maxLen banned - s.length) true ++ List.replicate s.length false) })
    else some (some { width := maxLen banned, seqs := banned, mask := none }) := by
  have hlen : ¬ banned.length = 0 := by simpa using hemp
  have hany : ¬ banned.any (fun s => decide (s.length = 0)) = true := by
    simp only [List.any_eq_true, decide_eq_true_eq, not_exists, not_and]
    intro b hb' h
    exact hne b hb' (List.length_eq_zero_iff.mp h)
  unfold bannedInit
  rw [if_neg hlen, if_neg hany]

/-- What the processor writes: the pairs of rows and tokens that complete a banned sequence. -/
private theorem bannedPairs_iff (banned : List (List Int)) (hne : ∀ b ∈ banned, b ≠ [])
    (h0 : ∀ b ∈ banned, ∀ t ∈ b, 0 ≤ t) (B : Banned) (hB : bannedInit banned = some (some B))
    (hpre : B.width - 1 ≠ 0) (seqs : List (List Int)) (r : Nat) (t : Int) :
    (r, t) ∈ bannedPairs B (seqs.map (fit (B.width - 1))) ↔
      ∃ s, seqs[r]? = some s ∧ Completes banned s t := by
  have hmatch : B.seqs.length = banned.length ∧ ∀ (k : Nat) (row : List Int) (b : List Int),
      B.seqs[k]? = some row → banned[k]? = some b →
      row.getLastD 0 = b.getLastD 0 ∧ ∀ s,
      (prefixMatches (fit (B.width - 1) s) row (B.mask.map fun m => m.getD k []) = true ↔
        b.dropLast <:+ s) := by
    unfold bannedInit at hB
    split at hB
    · cases hB
    · split at hB
      · cases hB
      · simp only at hB
        split at hB
        · simp only [Option.some.injEq] at hB
          subst hB
          refine ⟨by simp, ?_⟩
          intro k row b hr hb
          simp only [List.getElem?_map, hb, Option.map_some, Option.some.injEq] at hr
          subst hr
          have hbm := List.mem_of_getElem? hb
          have hbne := hne b hbm
          have hle := le_maxLen banned b hbm
          have hpos := List.length_pos_iff.mpr hbne
          refine ⟨?_, ?_⟩
          · rw [List.getLastD_eq_getLast?, List.getLastD_eq_getLast?, List.getLast?_append,
              List.getLast?_eq_some_getLast hbne]
            rfl
          · intro s
            simp only [Option.map_some, List.getD_eq_getElem?_getD, List.getElem?_map, hb, Option.getD_some]
            have hm : (List.replicate (maxLen banned - b.length) true ++
                List.replicate b.length false).dropLast =
                List.replicate (maxLen banned - b.length) true ++
                  List.replicate ((List.replicate (maxLen banned - b.length) (0 : Int) ++ b.dropLast).length -
                    (maxLen banned - b.length)) false := by
              rw [List.dropLast_append_of_ne_nil (by simp; omega)]
              simp
            rw [prefixMatches_masked (maxLen banned - b.length) _ _ (by
              rw [fit_length]; simp; omega) _ hm _ (dropLast_pad _ _ _ hbne) (by simp)]
            rw [List.drop_append, List.drop_replicate, Nat.sub_self, List.replicate_zero,
              List.nil_append, List.length_replicate, Nat.sub_self, List.drop_zero]
            have h3 : maxLen banned - b.length = (maxLen banned - 1) - (b.length - 1) := by omega
            rw [h3]
            exact fit_drop_iff (maxLen banned - 1) (b.length - 1) (by omega) s b.dropLast (by simp)
              fun t ht => h0 b hbm t (List.dropLast_subset _ ht)
        · rename_i heq
          simp only [Option.some.injEq] at hB
          subst hB
          refine ⟨rfl, ?_⟩
          intro k row b hr hb
          simp only at hr
          rw [hb] at hr
          simp only [Option.some.injEq] at hr
          subst hr
          refine ⟨rfl, ?_⟩
          intro s
          have hbm := List.mem_of_getElem? hb
          have hbne := hne b hbm
          have hle := le_maxLen banned b hbm
          have hge := minLen_le banned b hbm
          have hpos := List.length_pos_iff.mpr hbne
          have hlen : b.length = maxLen banned := by
            have : maxLen banned = minLen banned := Decidable.not_not.mp heq
            omega
          have := fit_drop_iff (maxLen banned - 1) (maxLen banned - 1) (by omega) s b.dropLast
            (by simp [hlen]) fun t ht => h0 b hbm t (List.dropLast_subset _ ht)
          rw [Nat.sub_self, List.drop_zero] at this
          rw [← this]
          exact rowMatches_iff _ _ (by rw [fit_length]; simp [hlen])
  obtain ⟨hlen, hmatch⟩ := hmatch
  unfold bannedPairs
  simp only [List.mem_flatMap, List.mem_filterMap, Prod.exists]
  constructor
  · rintro ⟨s', r', hs, row, k, hrow, h⟩
    split at h
    · rename_i hpm
      simp only [Option.some.injEq, Prod.mk.injEq] at h
      obtain ⟨rfl, rfl⟩ := h
      rw [List.mem_zipIdx_iff_getElem?] at hs hrow
      simp only at hs hrow
      rw [List.getElem?_map] at hs
      cases hsr : seqs[r']? with
      | none => rw [hsr] at hs; cases hs
      | some s =>
        rw [hsr] at hs
        simp only [Option.map_some, Option.some.injEq] at hs
        subst hs
        have hk : k < banned.length := by
          have := (List.getElem?_eq_some_iff.mp hrow).1
          omega
        have hb : banned[k]? = some banned[k] := List.getElem?_eq_getElem hk
        obtain ⟨m1, m2⟩ := hmatch k row _ hrow hb
        have hbm := List.mem_of_getElem? hb
        exact ⟨s, rfl, banned[k], hbm, (suffix_split _ _ _ (hne _ hbm)).mpr ⟨m1.symm, (m2 s).mp hpm⟩⟩
    · cases h
  · rintro ⟨s, hs, b, hbm, hsuf⟩
    obtain ⟨k, hk⟩ := List.mem_iff_getElem?.mp hbm
    have hkl : k < B.seqs.length := by
      have := (List.getElem?_eq_some_iff.mp hk).1
      omega
    have hrow : B.seqs[k]? = some B.seqs[k] := List.getElem?_eq_getElem hkl
    obtain ⟨m1, m2⟩ := hmatch k _ b hrow hk
    obtain ⟨h1, h2⟩ := (suffix_split _ _ _ (hne _ hbm)).mp hsuf
    refine ⟨fit (B.width - 1) s, r, ?_, B.seqs[k], k, ?_, ?_⟩
    · rw [List.mem_zipIdx_iff_getElem?]
      simp [hs]
    · rw [List.mem_zipIdx_iff_getElem?]
      exact hrow
    · rw [if_pos ((m2 s).mpr h2), m1, h1]

/-- The processor for the given banned sequences, called with a batch. -/
def banning (banned : List (List Int)) (v : α) (_ : Nat) (seqs : List (List Int)) (probs : List (List α)) :
    Option (List (List α)) :=
  (bannedInit banned).bind fun b => bannedCall b seqs probs v

/-- **Banned sequences, one step.** For banned sequences over the vocabulary, none of them empty, the
processor forbids exactly the tokens that complete one, whatever the batch. -/
theorem C58_step (V : Nat) (banned : List (List Int)) (hne : ∀ b ∈ banned, b ≠ [])
    (htok : ∀ b ∈ banned, ∀ t ∈ b, 0 ≤ t ∧ t < (V : Int)) (v : α) (len : Nat) (seqs : List (List Int))
    (probs : List (List α)) (hb : BatchOf V len seqs probs) :
    ∃ out, banning banned v len seqs probs = some out ∧
      ForbidsExactly V (Completes banned) v seqs probs out := by
  by_cases hemp : banned = []
  · subst hemp
    refine ⟨probs, rfl, rfl, fun r s p _ hp => ⟨p, hp, hb.vocab p (List.mem_of_getElem? hp), ?_⟩⟩
    intro t _
    refine ⟨?_, fun _ => rfl⟩
    rintro ⟨b, hb', _⟩
    cases hb'
  · have hinit := init_cases banned hemp hne
    obtain ⟨B, hB⟩ : ∃ B, bannedInit banned = some (some B) := by
      rw [hinit]
      split <;> exact ⟨_, rfl⟩
    simp only [banning, hB, Option.bind_some, bannedCall]
    by_cases hpre : B.width - 1 = 0
    · -- single tokens
      have hw : B.seqs = banned ∧ ∀ b ∈ banned, b.length = 1 := by
        have hl : ∀ b ∈ banned, b.length = 1 ∧ b.length ≤ B.width ∧ maxLen banned = B.width := by
          have hw : B.width = maxLen banned := by
            rw [hinit] at hB
            split at hB
            all_goals
              simp only [Option.some.injEq] at hB
              subst hB
              rfl
          intro b hb'
          have h1 := le_maxLen banned b hb'
          have h2 := List.length_pos_iff.mpr (hne b hb')
          omega
        refine ⟨?_, fun b hb' => (hl b hb').1⟩
        have heq : maxLen banned = minLen banned := by
          obtain ⟨b, rest, rfl⟩ := List.exists_cons_of_ne_nil hemp
          have h1 := (hl b (by simp))
          have : ∀ (l : List (List Int)) (m : Nat), m = 1 → (∀ b ∈ l, b.length = 1) →
              l.foldl (fun m s => min s.length m) m = 1 := by
            intro l
            induction l with
            | nil => intro m hm _; exact hm
            | cons x l ih =>
              intro m hm hx
              rw [List.foldl_cons]
              exact ih _ (by rw [hx x (by simp), hm]; rfl) fun b hb' => hx b (List.mem_cons_of_mem _ hb')
          have h3 : minLen (b :: rest) = 1 := this _ _ h1.1 fun b hb' => (hl b hb').1
          omega
        rw [hinit, if_neg (by simp [heq])] at hB
        simp only [Option.some.injEq] at hB
        subst hB
        rfl
      obtain ⟨hw, hl1⟩ := hw
      rw [if_pos hpre, hw]
      have hmem : ∀ (r : Nat) (t : Int),
          (r, t) ∈ ((List.range probs.length).flatMap fun r => banned.map fun row => (r, row.headD 0)) ↔
            r < probs.length ∧ [t] ∈ banned := by
        intro r t
        simp only [List.mem_flatMap, List.mem_range, List.mem_map, Prod.mk.injEq]
        constructor
        · rintro ⟨r', hr', b, hb', rfl, rfl⟩
          refine ⟨hr', ?_⟩
          obtain ⟨y, hy⟩ := List.length_eq_one_iff.mp (hl1 b hb')
          rw [hy] at hb' ⊢
          exact hb'
        · rintro ⟨hr, hb'⟩
          exact ⟨r, hr, [t], hb', rfl, rfl⟩
      obtain ⟨out, o1, o2, o3⟩ := putAll_spec v V _ probs hb.vocab (by
        intro rt hrt
        obtain ⟨h1, h2⟩ := (hmem rt.1 rt.2).mp hrt
        exact ⟨h1, htok _ h2 rt.2 (by simp)⟩)
      refine ⟨out, o1, o2, ?_⟩
      intro r s p hs hp
      obtain ⟨q, q1, q2, q3⟩ := o3 r p hp
      refine ⟨q, q1, q2, fun t ht => ?_⟩
      have hr : r < probs.length := (List.getElem?_eq_some_iff.mp hp).1
      have hiff : Completes banned s t ↔ (r, (t : Int)) ∈
          ((List.range probs.length).flatMap fun r => banned.map fun row => (r, row.headD 0)) := by
        rw [hmem]
        constructor
        · rintro ⟨b, hb', hsuf⟩
          obtain ⟨y, rfl⟩ := List.length_eq_one_iff.mp (hl1 b hb')
          have := ((suffix_split _ _ _ (by simp)).mp hsuf).1
          simp only [List.getLastD_cons, List.getLastD_nil] at this
          subst this
          exact ⟨hr, hb'⟩
        · rintro ⟨_, hb'⟩
          exact ⟨_, hb', List.suffix_append _ _⟩
      rw [hiff]
      exact q3 t ht
    · rw [if_neg hpre]
      have hpairs := bannedPairs_iff banned hne (fun b hb' t ht => (htok b hb' t ht).1) B hB hpre seqs
      obtain ⟨out, o1, o2, o3⟩ := putAll_spec v V _ probs hb.vocab (by
        rintro ⟨r, t⟩ hrt
        obtain ⟨s, hs, b, hb', hsuf⟩ := (hpairs r t).mp hrt
        refine ⟨?_, ?_⟩
        · have := (List.getElem?_eq_some_iff.mp hs).1
          have := hb.rows
          omega
        · apply htok b hb' t
          have := (suffix_split _ _ _ (hne b hb')).mp hsuf
          rw [← this.1, List.getLastD_eq_getLast?, List.getLast?_eq_some_getLast (hne b hb')]
          exact List.getLast_mem _)
      refine ⟨out, o1, o2, ?_⟩
      intro r s p hs hp
      obtain ⟨q, q1, q2, q3⟩ := o3 r p hp
      refine ⟨q, q1, q2, fun t ht => ?_⟩
      have hiff : Completes banned s t ↔ (r, (t : Int)) ∈ bannedPairs B (seqs.map (fit (B.width - 1))) := by
        rw [hpairs]
        constructor
        · intro h
          exact ⟨s, hs, h⟩
        · rintro ⟨s', hs', h⟩
          rw [hs] at hs'
          cases hs'
          exact h
      rw [hiff]
      exact q3 t ht

/-- An empty banned sequence is rejected. -/
theorem C58_empty (banned : List (List Int)) (h : [] ∈ banned) : bannedInit banned = none := by
  have h1 : ¬ banned.length = 0 := by
    intro h0
    rw [List.length_eq_zero_iff.mp h0] at h
    cases h
  have h2 : banned.any (fun s => decide (s.length = 0)) = true := by
    rw [List.any_eq_true]
    exact ⟨[], h, rfl⟩
  unfold bannedInit
  rw [if_neg h1, if_pos h2]

private theorem not_forbidden {V : Nat} {forbidden : List Int → Int → Prop} {v : α}
    {call : Nat → List (List Int) → List (List α) → Option (List (List α))}
    (hcall : ∀ len seqs probs, BatchOf V len seqs probs →
      ∃ out, call len seqs probs = some out ∧ ForbidsExactly V forbidden v seqs probs out)
    {s : List Int} {t : Int} (h : LetsThrough V v call s t) : ¬ forbidden s t := by
  obtain ⟨seqs, probs, out, r, q, x, hb, hs, hc, hq, ht0, hx, hxv⟩ := h
  obtain ⟨out', h1, h2, h3⟩ := hcall _ _ _ hb
  rw [hc] at h1
  cases h1
  have hr : r < probs.length := by
    have := (List.getElem?_eq_some_iff.mp hs).1
    have := hb.rows
    omega
  obtain ⟨q', e1, e2, e3⟩ := h3 r s _ hs (List.getElem?_eq_getElem hr)
  rw [hq] at e1
  cases e1
  intro hf
  have hlt : t.toNat < V := by
    have := (List.getElem?_eq_some_iff.mp hx).1
    omega
  have := (e3 t.toNat hlt).1 (by rw [show ((t.toNat : Nat) : Int) = t by omega]; exact hf)
  rw [hx] at this
  exact hxv (Option.some.inj this)

/-- **Banned sequences never occur.** In text that extends a prompt only by tokens the processor lets
through, every occurrence of a banned sequence lies within the prompt. -/
theorem C58_never (V : Nat) (banned : List (List Int)) (hne : ∀ b ∈ banned, b ≠ [])
    (htok : ∀ b ∈ banned, ∀ t ∈ b, 0 ≤ t ∧ t < (V : Int)) (v : α) (prompt s : List Int)
    (h : Grows (LetsThrough V v (banning banned v)) prompt s) (b : List Int) (hb : b ∈ banned)
    (x y : List Int) (hocc : s = x ++ b ++ y) : ∃ y', prompt = x ++ b ++ y' := by
  induction h generalizing y with
  | start => exact ⟨y, hocc⟩
  | step s t _ hlet ih =>
    have hnot := not_forbidden (C58_step V banned hne htok v) hlet
    rcases List.eq_nil_or_concat y with rfl | ⟨y', u, rfl⟩
    · exfalso
      apply hnot
      exact ⟨b, hb, x, by rw [hocc, List.append_nil]⟩
    · rw [List.concat_eq_append, ← List.append_assoc] at hocc
      exact ih y' (List.append_inj_left' hocc rfl)

-- Banned: "2 3" and "1"; after "0 2" the tokens 3 and 1 are forbidden.
example : banning [[2, 3], [1]] (0 : Int) 2 [[0, 2], [3, 3]] [[10, 11, 12, 13], [10, 11, 12, 13]] =
    some [[10, 0, 12, 0], [10, 0, 12, 13]] := rfl

example : Grows (LetsThrough 4 (0 : Int) (banning [[2, 3], [1]] (0 : Int))) [0] [0, 2] :=
  .step [0] 2 .start ⟨[[0]], [[10, 11, 12, 13]], [[10, 0, 12, 13]], 0, [10, 0, 12, 13], 12,
    ⟨rfl, by simp, by simp, by simp⟩, rfl, rfl, rfl, by decide, rfl, by decide⟩

/-! ### C57 -/

/-- The processor for n-grams, called with a batch of sequences of `len` tokens. -/
def ngramBlocking (n : Nat) (v : α) (len : Nat) (seqs : List (List Int)) (probs : List (List α)) :
    Option (List (List α)) :=
  (ngramInit n).bind fun n => ngramCall n len seqs probs v

/-- The n-grams of `s` at the positions `i` followed by the token that ends them. -/
private theorem repeats_iff (n : Nat) (hn : n ≠ 0) (s : List Int) (t : Int) :
    Repeats n s t ↔ n ≤ s.length ∧ ∃ i, i + n ≤ s.length ∧
      (s.drop i).take (n - 1) = s.drop (s.length - (n - 1)) ∧ s[i + n - 1]? = some t := by
  have split_at : ∀ i, i + n ≤ s.length →
      (s.drop i).take n = (s.drop i).take (n - 1) ++ (s[i + n - 1]?).toList := by
    intro i hi
    have : n = (n - 1) + 1 := by omega
    conv => lhs; rw [this, List.take_add_one]
    rw [List.getElem?_drop, show i + (n - 1) = i + n - 1 by omega]
  have last_of : ∀ g : List Int, g.length = n → n ≤ s.length + 1 →
      (g <:+ s ++ [t] ↔ g = s.drop (s.length - (n - 1)) ++ [t]) := by
    intro g hg hle
    rw [List.suffix_iff_eq_drop, hg, List.length_append, List.length_singleton,
      List.drop_append_of_le_length (by omega), show s.length + 1 - n = s.length - (n - 1) by omega]
  constructor
  · rintro ⟨g, hg, hsuf, ⟨x, y, hxy⟩⟩
    have hle : n ≤ s.length := by
      have := congrArg List.length hxy
      simp at this
      omega
    refine ⟨hle, x.length, ?_, ?_⟩
    · have := congrArg List.length hxy
      simp at this
      omega
    · have hi : x.length + n ≤ s.length := by
        have := congrArg List.length hxy
        simp at this
        omega
      have h1 : (s.drop x.length).take n = g := by
        rw [← hxy, List.append_assoc, List.drop_left, ← hg, List.take_left]
      rw [split_at _ hi] at h1
      have h2 := (last_of g hg (by omega)).mp hsuf
      rw [h2] at h1
      have hlt : x.length + n - 1 < s.length := by omega
      rw [List.getElem?_eq_getElem hlt] at h1 ⊢
      simp only [Option.toList_some] at h1
      have h3 := List.append_inj' h1 rfl
      refine ⟨h3.1, ?_⟩
      simp only [List.cons.injEq, and_true] at h3
      rw [h3.2]
  · rintro ⟨hle, i, hi, h1, h2⟩
    refine ⟨(s.drop i).take n, by simp; omega, ?_, ?_⟩
    · rw [last_of _ (by simp; omega) (by omega), split_at i hi, h1, h2]
      rfl
    · exact (List.take_prefix _ _).isInfix.trans (List.drop_suffix _ _).isInfix

/-- **N-grams, one step.** The processor forbids exactly the tokens that would repeat an n-gram of their
sequence, for every size of n-grams (at least one) and every batch. -/
theorem C57_step (V n : Nat) (hn : n ≠ 0) (v : α) (len : Nat) (seqs : List (List Int))
    (probs : List (List α)) (hb : BatchOf V len seqs probs) :
    ∃ out, ngramBlocking n v len seqs probs = some out ∧
      ForbidsExactly V (Repeats n) v seqs probs out := by
  simp only [ngramBlocking, ngramInit, hn, if_false, Option.bind_some, ngramCall]
  by_cases hle : len + 1 ≤ n
  · rw [if_pos hle]
    refine ⟨probs, rfl, rfl, fun r s p hs hp => ⟨p, hp, hb.vocab p (List.mem_of_getElem? hp), ?_⟩⟩
    intro t _
    refine ⟨?_, fun _ => rfl⟩
    intro hrep
    have := ((repeats_iff n hn s t).mp hrep).1
    have := hb.width s (List.mem_of_getElem? hs)
    omega
  · rw [if_neg hle]
    -- the pairs that are written
    suffices hpairs : ∃ pairs,
        (if n = 1 then putAll v probs (seqs.zipIdx.flatMap fun (s, r) => s.map fun t => (r, t))
        else (List.range (len + 1 - n)).foldlM (fun probs i => putAll v probs (ngramPairs n seqs i)) probs) =
          putAll v probs pairs ∧
        ∀ r t, (r, t) ∈ pairs ↔ ∃ s, seqs[r]? = some s ∧ Repeats n s t by
      obtain ⟨pairs, hp1, hp2⟩ := hpairs
      rw [hp1]
      obtain ⟨out, o1, o2, o3⟩ := putAll_spec v V pairs probs hb.vocab (by
        rintro ⟨r, t⟩ hrt
        obtain ⟨s, hs, hrep⟩ := (hp2 r t).mp hrt
        refine ⟨?_, ?_⟩
        · have := (List.getElem?_eq_some_iff.mp hs).1
          have := hb.rows
          omega
        · obtain ⟨_, i, _, _, hi⟩ := (repeats_iff n hn s t).mp hrep
          exact hb.tokens s (List.mem_of_getElem? hs) t (List.mem_of_getElem? hi))
      refine ⟨out, o1, o2, ?_⟩
      intro r s p hs hp
      obtain ⟨q, q1, q2, q3⟩ := o3 r p hp
      refine ⟨q, q1, q2, fun t ht => ?_⟩
      have hiff : Repeats n s t ↔ (r, (t : Int)) ∈ pairs := by
        rw [hp2]
        constructor
        · intro h
          exact ⟨s, hs, h⟩
        · rintro ⟨s', hs', h⟩
          rw [hs] at hs'
          cases hs'
          exact h
      rw [hiff]
      exact q3 t ht
    by_cases h1 : n = 1
    · subst h1
      refine ⟨_, if_pos rfl, ?_⟩
      intro r t
      simp only [List.mem_flatMap, List.mem_map, Prod.exists, Prod.mk.injEq]
      constructor
      · rintro ⟨s, r', hs, u, hu, rfl, rfl⟩
        rw [List.mem_zipIdx_iff_getElem?] at hs
        refine ⟨s, hs, ?_⟩
        refine ⟨[u], rfl, List.suffix_append _ _, ?_⟩
        obtain ⟨x, y, rfl⟩ := List.append_of_mem hu
        exact ⟨x, y, by simp⟩
      · rintro ⟨s, hs, g, hg, hsuf, hinf⟩
        obtain ⟨u, rfl⟩ := List.length_eq_one_iff.mp hg
        have := ((suffix_split _ _ _ (by simp)).mp hsuf).1
        simp only [List.getLastD_cons, List.getLastD_nil] at this
        subst this
        refine ⟨s, r, ?_, u, hinf.subset (by simp), rfl, rfl⟩
        rw [List.mem_zipIdx_iff_getElem?]
        exact hs
    · refine ⟨_, by rw [if_neg h1]; exact foldlM_putAll v (ngramPairs n seqs) _ probs, ?_⟩
      intro r t
      simp only [List.mem_flatMap, List.mem_range, ngramPairs, List.mem_filterMap, Prod.exists]
      constructor
      · rintro ⟨i, hi, s, r', hs, h⟩
        split at h
        · rename_i hm
          simp only [Option.some.injEq, Prod.mk.injEq] at h
          obtain ⟨rfl, rfl⟩ := h
          rw [List.mem_zipIdx_iff_getElem?] at hs
          have hlen := hb.width s (List.mem_of_getElem? hs)
          refine ⟨s, hs, ?_⟩
          rw [repeats_iff n hn]
          refine ⟨by omega, i, by omega, ?_, ?_⟩
          · exact (rowMatches_iff _ _ (by simp; omega)).mp hm
          · have hlt : i + n - 1 < s.length := by omega
            rw [List.getElem?_eq_getElem hlt, List.getD_eq_getElem?_getD, List.getElem?_eq_getElem hlt]
            rfl
        · cases h
      · rintro ⟨s, hs, hrep⟩
        obtain ⟨hle', i, hi, hm, ht⟩ := (repeats_iff n hn s t).mp hrep
        have hlen := hb.width s (List.mem_of_getElem? hs)
        refine ⟨i, by omega, s, r, ?_, ?_⟩
        · rw [List.mem_zipIdx_iff_getElem?]
          exact hs
        · rw [if_pos ((rowMatches_iff _ _ (by simp; omega)).mpr hm), List.getD_eq_getElem?_getD, ht]
          rfl

-- A size of zero is rejected.
example : ngramInit 0 = none := rfl

/-- **No n-gram is repeated.** In text that extends a prompt only by tokens the processor lets through, of
two equal n-grams at different positions the later one lies within the prompt. -/
theorem C57_never (V n : Nat) (hn : n ≠ 0) (v : α) (prompt s : List Int)
    (h : Grows (LetsThrough V v (ngramBlocking n v)) prompt s) (i j : Nat) (hij : i < j)
    (hj : j + n ≤ s.length) (heq : (s.drop i).take n = (s.drop j).take n) : j + n ≤ prompt.length := by
  induction h with
  | start => exact hj
  | step s t _ hlet ih =>
    have hnot := not_forbidden (fun len seqs probs hb => C57_step V n hn v len seqs probs hb) hlet
    rw [List.length_append, List.length_singleton] at hj
    have hcut : ∀ k, k + n ≤ s.length → ((s ++ [t]).drop k).take n = (s.drop k).take n := by
      intro k hk
      rw [List.drop_append_of_le_length (by omega), List.take_append_of_le_length (by simp; omega)]
    by_cases hlast : j + n = s.length + 1
    · exfalso
      apply hnot
      refine ⟨((s ++ [t]).drop j).take n, by simp; omega, ?_, ?_⟩
      · rw [List.take_of_length_le (by simp; omega)]
        exact List.drop_suffix _ _
      · rw [← heq, hcut i (by omega)]
        exact (List.take_prefix _ _).isInfix.trans (List.drop_suffix _ _).isInfix
    · rw [hcut i (by omega), hcut j (by omega)] at heq
      exact ih (by omega) heq

-- After "1 2 3 1 2" the token 3 would repeat "1 2 3".
example : ngramBlocking 3 (0 : Int) 5 [[1, 2, 3, 1, 2]] [[10, 11, 12, 13]] = some [[10, 11, 12, 0]] := rfl

example : Repeats 3 [1, 2, 3, 1, 2] 3 := ⟨[1, 2, 3], rfl, ⟨[1, 2, 3], rfl⟩, ⟨[], [1, 2], rfl⟩⟩

example : Grows (LetsThrough 4 (0 : Int) (ngramBlocking 1 (0 : Int))) [1, 2] [1, 2, 3] :=
  .step [1, 2] 3 .start ⟨[[1, 2]], [[10, 11, 12, 13]], [[10, 0, 0, 13]], 0, [10, 0, 0, 13], 13,
    ⟨rfl, by simp, by simp, by simp⟩, rfl, rfl, rfl, by decide, rfl, by decide⟩

end Fs2.Props
