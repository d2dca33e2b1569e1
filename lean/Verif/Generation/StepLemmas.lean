import Verif.Generation.StepProcessor

/-!
Lemmas about the step processors: what writing a list of index pairs does, and when the prefixes match.
-/

namespace Fs2.Gen

variable {α : Type}

theorem position_nat (n k : Nat) (h : k < n) : position n (k : Int) = some k := by
  have : ((k : Int) < (n : Int)) := by omega
  simp [position, this]

theorem position_tok (n : Nat) (t : Int) (h0 : 0 ≤ t) (h1 : t < n) : position n t = some t.toNat := by
  simp [position, h0, h1]

/-- Every pair names a row and a token of the vocabulary of size `V`. -/
def InRange (V rows : Nat) (pairs : List (Nat × Int)) : Prop :=
  ∀ rt ∈ pairs, rt.1 < rows ∧ 0 ≤ rt.2 ∧ rt.2 < V

theorem putAll_spec (v : α) (V : Nat) (pairs : List (Nat × Int)) (probs : List (List α))
    (hV : ∀ p ∈ probs, p.length = V) (hp : InRange V probs.length pairs) :
    ∃ out, putAll v probs pairs = some out ∧ out.length = probs.length ∧
      ∀ (r : Nat) (p : List α), probs[r]? = some p → ∃ q, out[r]? = some q ∧ q.length = V ∧
        ∀ t : Nat, t < V → ((r, (t : Int)) ∈ pairs → q[t]? = some v) ∧
          ((r, (t : Int)) ∉ pairs → q[t]? = p[t]?) := by
  induction pairs generalizing probs with
  | nil =>
    refine ⟨probs, rfl, rfl, fun r p h => ⟨p, h, hV p (List.mem_of_getElem? h), fun t _ => ⟨?_, ?_⟩⟩⟩
    · intro h; cases h
    · intro _; rfl
  | cons rt pairs ih =>
    obtain ⟨r0, t0⟩ := rt
    obtain ⟨h1, h2, h3⟩ := hp (r0, t0) (by simp)
    simp only at h1 h2 h3
    have hrow : probs[r0]? = some probs[r0] := List.getElem?_eq_getElem h1
    have hl0 : (probs[r0]).length = V := hV _ (List.getElem_mem _)
    have hput : put v probs (r0, t0) = some (probs.set r0 ((probs[r0]).set t0.toNat v)) := by
      simp [put, hrow, hl0, position_tok V t0 h2 h3]
    have hV' : ∀ p ∈ probs.set r0 ((probs[r0]).set t0.toNat v), p.length = V := by
      intro p hp'
      rcases List.mem_or_eq_of_mem_set hp' with h | rfl
      · exact hV p h
      · simp [hl0]
    obtain ⟨out, o1, o2, o3⟩ := ih (probs.set r0 ((probs[r0]).set t0.toNat v)) hV' (by
      intro x hx
      simpa using hp x (List.mem_cons_of_mem _ hx))
    refine ⟨out, ?_, by simpa using o2, ?_⟩
    · show List.foldlM (put v) probs ((r0, t0) :: pairs) = some out
      rw [List.foldlM_cons, hput]
      exact o1
    · intro r p hrp
      have hr : r < probs.length := by
        have := List.getElem?_eq_some_iff.mp hrp
        exact this.1
      by_cases hrr : r0 = r
      · subst hrr
        have hpe : p = probs[r0] := by rw [hrow] at hrp; exact (Option.some.inj hrp).symm
        obtain ⟨q, q1, q2, q3⟩ := o3 r0 ((probs[r0]).set t0.toNat v) (by
          rw [List.getElem?_set_self h1])
        refine ⟨q, q1, q2, fun t ht => ⟨?_, ?_⟩⟩
        · intro hm
          by_cases hin : (r0, (t : Int)) ∈ pairs
          · exact (q3 t ht).1 hin
          · rw [(q3 t ht).2 hin]
            have : (t : Int) = t0 := by
              rcases List.mem_cons.mp hm with h | h
              · exact (Prod.mk.inj h).2
              · exact absurd h hin
            rw [← this]
            simp [hl0, ht]
        · intro hm
          have h4 : (r0, (t : Int)) ∉ pairs := fun h => hm (List.mem_cons_of_mem _ h)
          rw [(q3 t ht).2 h4, hpe]
          have h5 : t0.toNat ≠ t := by
            intro h
            apply hm
            have : t0 = (t : Int) := by omega
            rw [this]
            exact List.mem_cons_self
          rw [List.getElem?_set_ne h5]
      · obtain ⟨q, q1, q2, q3⟩ := o3 r p (by rw [List.getElem?_set_ne hrr]; exact hrp)
        refine ⟨q, q1, q2, fun t ht => ⟨?_, ?_⟩⟩
        · intro hm
          rcases List.mem_cons.mp hm with h | h
          · exact absurd (Prod.mk.inj h).1.symm hrr
          · exact (q3 t ht).1 h
        · intro hm
          exact (q3 t ht).2 fun h => hm (List.mem_cons_of_mem _ h)

/-- Writing for one index after the other is writing all the pairs. -/
theorem foldlM_putAll (v : α) (f : Nat → List (Nat × Int)) (is : List Nat) (probs : List (List α)) :
    is.foldlM (fun probs i => putAll v probs (f i)) probs = putAll v probs (is.flatMap f) := by
  induction is generalizing probs with
  | nil => rfl
  | cons i is ih =>
    rw [List.foldlM_cons, List.flatMap_cons]
    unfold putAll
    rw [List.foldlM_append]
    congr 1
    funext p
    exact ih p

theorem rowMatches_iff : ∀ (s other : List Int), s.length = other.length →
    (rowMatches s other = true ↔ s = other)
  | [], [], _ => by simp [rowMatches]
  | [], _ :: _, h => by simp at h
  | _ :: _, [], h => by simp at h
  | x :: s, y :: other, h => by
    have ih := rowMatches_iff s other (by simpa using h)
    simp only [rowMatches, List.zipWith_cons_cons, List.any_cons, Bool.not_or, Bool.and_eq_true,
      List.cons.injEq] at ih ⊢
    rw [ih]
    have : ((!decide (x - y ≠ 0)) = true) ↔ x = y := by
      simp only [Bool.not_eq_true', decide_eq_false_iff_not, Decidable.not_not]
      omega
    rw [this]

/-- The masked part on the left does not matter. -/
theorem prefixMatches_masked (k : Nat) (s other : List Int) (hl : s.length = other.length)
    (m : List Bool) (hm : m.dropLast = List.replicate k true ++ List.replicate (other.length - k) false)
    (row : List Int) (hrow : row.dropLast = other) (hk : k ≤ other.length) :
    prefixMatches s row (some m) = true ↔ s.drop k = other.drop k := by
  have key : ∀ (k : Nat) (s other : List Int), s.length = other.length → k ≤ other.length →
      (List.zipWith (fun (b : Bool) (d : Int) => if b then 0 else d)
        (List.replicate k true ++ List.replicate (other.length - k) false)
        (List.zipWith (· - ·) s other)).any (· ≠ 0) =
      (List.zipWith (· - ·) (s.drop k) (other.drop k)).any (· ≠ 0) := by
    intro k
    induction k with
    | zero =>
      intro s other hl _
      have : ∀ d : List Int, List.zipWith (fun (b : Bool) (d : Int) => if b then 0 else d)
          (List.replicate d.length false) d = d := by
        intro d
        induction d with
        | nil => rfl
        | cons x d ih => simp [List.replicate_succ, ih]
      have h2 := this (List.zipWith (· - ·) s other)
      rw [List.length_zipWith, hl, Nat.min_self] at h2
      simp only [List.replicate_zero, List.nil_append, Nat.sub_zero, List.drop_zero]
      rw [h2]
    | succ k ih =>
      intro s other hl hk
      cases s with
      | nil => simp at hl; simp [← hl] at hk
      | cons x s =>
        cases other with
        | nil => simp at hl
        | cons y other =>
          simp only [List.replicate_succ, List.cons_append, List.zipWith_cons_cons, if_true,
            List.any_cons, List.drop_succ_cons, List.length_cons, Nat.add_sub_add_right]
          rw [ih s other (by simpa using hl) (by simpa using hk)]
          simp
  unfold prefixMatches
  simp only [hrow, hm]
  rw [key k s other hl hk]
  exact rowMatches_iff (s.drop k) (other.drop k) (by simp [hl])

theorem le_foldl_max (banned : List (List Int)) (m : Nat) :
    m ≤ banned.foldl (fun m s => max s.length m) m ∧
      ∀ s ∈ banned, s.length ≤ banned.foldl (fun m s => max s.length m) m := by
  induction banned generalizing m with
  | nil => simp
  | cons x banned ih =>
    obtain ⟨h1, h2⟩ := ih (max x.length m)
    rw [List.foldl_cons]
    refine ⟨by omega, ?_⟩
    intro s hs
    rcases List.mem_cons.mp hs with rfl | h
    · omega
    · exact h2 s h

theorem foldl_min_le (banned : List (List Int)) (m : Nat) :
    banned.foldl (fun m s => min s.length m) m ≤ m ∧
      ∀ s ∈ banned, banned.foldl (fun m s => min s.length m) m ≤ s.length := by
  induction banned generalizing m with
  | nil => simp
  | cons x banned ih =>
    obtain ⟨h1, h2⟩ := ih (min x.length m)
    rw [List.foldl_cons]
    refine ⟨by omega, ?_⟩
    intro s hs
    rcases List.mem_cons.mp hs with rfl | h
    · omega
    · exact h2 s h

theorem le_maxLen (banned : List (List Int)) : ∀ s ∈ banned, s.length ≤ maxLen banned :=
  (le_foldl_max banned 0).2

theorem minLen_le (banned : List (List Int)) : ∀ s ∈ banned, minLen banned ≤ s.length :=
  (foldl_min_le banned _).2

/-- The end of a fitted sequence is `x` exactly when the sequence ends in `x`. -/
theorem fit_drop_iff (pre m : Nat) (hm : m ≤ pre) (s x : List Int) (hx : x.length = m)
    (hx0 : ∀ t ∈ x, 0 ≤ t) : (fit pre s).drop (pre - m) = x ↔ x <:+ s := by
  rw [List.suffix_iff_eq_drop]
  by_cases hs : m ≤ s.length
  · have : (fit pre s).drop (pre - m) = s.drop (s.length - x.length) := by
      unfold fit
      split
      · rw [List.drop_append, List.drop_eq_nil_of_le (by simp; omega), List.nil_append,
          List.length_replicate]
        congr 1
        omega
      · split
        · rw [List.drop_drop]
          congr 1
          omega
        · congr 1
          omega
    rw [this]
    exact ⟨fun h => h.symm, fun h => h.symm⟩
  · constructor
    · intro h
      exfalso
      have hlt : s.length < pre := by omega
      simp only [fit, hlt, if_true] at h
      rw [List.drop_append_of_le_length (by simp; omega), List.drop_replicate] at h
      have h2 : pre - s.length - (pre - m) = (m - s.length - 1) + 1 := by omega
      rw [h2, List.replicate_succ, List.cons_append] at h
      have := hx0 (-1) (by rw [← h]; exact List.mem_cons_self)
      omega
    · intro h
      exfalso
      have := congrArg List.length h
      simp at this
      omega

theorem fit_length (pre : Nat) (s : List Int) : (fit pre s).length = pre := by
  unfold fit
  split
  · simp; omega
  · split
    · simp; omega
    · omega

end Fs2.Gen
