import Verif.Pipeline.BucketSizes

/-!
# What the loop of `create_bucket_sizes` keeps
-/

namespace Fs2.Sizes

/-- What the loop leaves when it is at `seqLen = s`. -/
structure From (num maxLen minLen s : Nat) (rest : List (Nat × Nat)) : Prop where
  last : rest.getLast? = some (num / maxLen, maxLen)
  each : ∀ z ∈ rest, z.1 = num / z.2 ∧ s ≤ z.2 ∧ minLen ≤ z.2 ∧ z.2 ≤ maxLen
  up : rest.Pairwise (fun a b => a.2 < b.2)
  down : rest.Pairwise (fun a b => b.1 < a.1)
  fits : ∀ k, minLen ≤ k → s ≤ k → k ≤ maxLen → ∃ z ∈ rest, k ≤ z.2 ∧ z.1 = num / k

theorem loop_spec {num maxLen minLen : Nat} (h1 : 0 < maxLen) (hle : maxLen ≤ num) (hmin : minLen ≤ maxLen) (hmod : num % maxLen = 0)
    {s b : Nat} {acc : List (Nat × Nat)} (hs0 : 0 < s) (hs : s ≤ maxLen) (hb : b = num / s) (hsb : s = num / b) :
    ∃ rest, loop num maxLen minLen s b acc = .ok (acc ++ rest) ∧ From num maxLen minLen s rest := by
  generalize hd : maxLen - s = d
  induction d using Nat.strongRecOn generalizing s b acc with
  | ind d ih =>
    rw [loop.eq_def]
    by_cases hlt : s < maxLen
    · rw [if_pos hlt]
      have hpos : 0 < num / (s + 1) := Nat.div_pos (by omega) (by omega)
      rw [dif_neg (by omega)]
      obtain ⟨b', hb'⟩ : ∃ b', b' = num / (s + 1) := ⟨_, rfl⟩
      rw [← hb'] at hpos ⊢
      have hup : s + 1 ≤ num / b' := by
        rw [Nat.le_div_iff_mul_le hpos, Nat.mul_comm, hb']
        exact Nat.div_mul_le_self _ _
      have hbM : num / maxLen ≤ b' := by
        rw [hb']
        exact Nat.div_le_div_left (by omega) (by omega)
      have hM : num / (num / maxLen) = maxLen := by
        have := Nat.div_add_mod num maxLen
        rw [hmod, Nat.add_zero] at this
        have hp : 0 < num / maxLen := Nat.div_pos hle h1
        exact Nat.div_eq_of_eq_mul_left hp this.symm
      have hto : num / b' ≤ maxLen := by
        rw [← hM]
        exact Nat.div_le_div_left hbM (Nat.div_pos hle h1)
      have hback : b' = num / (num / b') := by
        apply Nat.le_antisymm
        · rw [Nat.le_div_iff_mul_le (by omega), Nat.mul_comm]
          exact Nat.div_mul_le_self _ _
        · conv => rhs; rw [hb']
          exact Nat.div_le_div_left hup (by omega)
      obtain ⟨rest, hr, F⟩ := ih (maxLen - num / b') (by omega) (s := num / b') (b := b')
        (acc := if s ≥ minLen then acc ++ [(b, s)] else acc) (by omega) hto hback rfl rfl
      have hmid : ∀ k, minLen ≤ k → s + 1 ≤ k → k ≤ maxLen → ∃ z ∈ rest, k ≤ z.2 ∧ z.1 = num / k := by
        intro k k1 k2 k3
        by_cases hk : num / b' ≤ k
        · exact F.fits k k1 hk k3
        · obtain ⟨z, hz, hz1, hz2⟩ := F.fits (num / b') (by omega) (Nat.le_refl _) hto
          refine ⟨z, hz, by omega, ?_⟩
          rw [hz2]
          apply Nat.le_antisymm
          · exact Nat.div_le_div_left (by omega) (by omega)
          · rw [← hback]
            conv => rhs; rw [hb']
            exact Nat.div_le_div_left k2 (by omega)
      by_cases hge : s ≥ minLen
      · rw [if_pos hge] at hr ⊢
        refine ⟨(b, s) :: rest, by rw [hr]; simp, ?_, ?_, ?_, ?_, ?_⟩
        · have hne : rest ≠ [] := by rintro rfl; simpa using F.last
          rw [List.getLast?_cons_of_ne_nil hne]
          exact F.last
        · intro z hz
          rcases List.mem_cons.1 hz with rfl | hz
          · exact ⟨hb, Nat.le_refl _, hge, hs⟩
          · obtain ⟨a1, a2, a3, a4⟩ := F.each z hz
            exact ⟨a1, by omega, a3, a4⟩
        · refine List.pairwise_cons.2 ⟨fun z hz => ?_, F.up⟩
          have := (F.each z hz).2.1
          simp only
          omega
        · refine List.pairwise_cons.2 ⟨fun z hz => ?_, F.down⟩
          obtain ⟨a1, a2, -, -⟩ := F.each z hz
          have h2 : z.1 ≤ b' := by
            rw [a1, hb']
            exact Nat.div_le_div_left (by omega) (by omega)
          have h3 : b' ≤ b := by
            rw [hb', hb]
            exact Nat.div_le_div_left (by omega) (by omega)
          have h4 : b' ≠ b := by
            intro e
            rw [e, ← hsb] at hup
            omega
          simp only
          omega
        · intro k k1 k2 k3
          rcases Nat.lt_or_ge s k with hk | hk
          · obtain ⟨z, hz, h⟩ := hmid k k1 hk k3
            exact ⟨z, List.mem_cons_of_mem _ hz, h⟩
          · have : k = s := by omega
            subst this
            exact ⟨(b, k), List.mem_cons_self, Nat.le_refl _, hb⟩
      · rw [if_neg hge] at hr ⊢
        refine ⟨rest, hr, F.last, ?_, F.up, F.down, ?_⟩
        · intro z hz
          obtain ⟨a1, a2, a3, a4⟩ := F.each z hz
          exact ⟨a1, by omega, a3, a4⟩
        · intro k k1 k2 k3
          exact hmid k k1 (by omega) k3
    · rw [if_neg hlt]
      have : s = maxLen := by omega
      subst this
      refine ⟨[(b, s)], rfl, by simp [hb], ?_, List.pairwise_singleton _ _, List.pairwise_singleton _ _, ?_⟩
      · intro z hz
        rw [List.mem_singleton] at hz
        subst hz
        exact ⟨hb, Nat.le_refl _, hmin, Nat.le_refl _⟩
      · intro k k1 k2 k3
        have : k = s := by omega
        subst this
        exact ⟨(b, k), List.mem_singleton.2 rfl, Nat.le_refl _, hb⟩

end Fs2.Sizes
