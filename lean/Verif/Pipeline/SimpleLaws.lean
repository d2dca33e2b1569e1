import Verif.Pipeline.Simple
import Verif.Pipeline.Laws

/-!
# Laws of the leaf sources and the simple operators
-/

namespace Fs2
open Source

/-! ## Leaf sources -/

theorem listSource_inv (xs : List Data) : Invar (listSource xs) (fun p : Nat => p ≤ xs.length) where
  next {s r s'} hs h _ := by
    simp only [listSource] at h hs s s' ⊢
    split at h
    · cases h; exact hs
    · next hx =>
      cases h
      have := (List.getElem?_eq_some_iff.mp hx).1
      omega
  reset _ _ := Nat.zero_le _

theorem listSource_eod (xs : List Data) (I) : EodFinal (listSource xs) I := by
  intro s s' _ h
  simp only [listSource] at h
  split at h
  · next hx =>
    cases h
    exact .coind (fun p => p = s) rfl (by rintro t rfl; exact ⟨t, by simp [listSource, hx], rfl⟩)
  · cases h

theorem listSource_resumes (xs : List Data) {s t : (listSource xs).σ} (hs : LE.le (α := Nat) s xs.length) :
    Resumes (listSource xs) (fun p : Nat => p ≤ xs.length) s t :=
  ⟨_, rfl, fun rest => ⟨s, by simp [listSource, readNat] at hs ⊢; exact hs, .refl s, hs⟩⟩

theorem listSource_rewinds (xs : List Data) (s : (listSource xs).σ) : Rewinds (listSource xs) s :=
  .refl _

theorem countSource_resumes {a b : Int} {k : Option String} {s t : (countSource a b k).σ} :
    Resumes (countSource a b k) (fun _ => True) s t :=
  ⟨_, rfl, fun _ => ⟨s, rfl, .refl s, trivial⟩⟩

theorem constantSource_resumes {x : Data} {k : Option String} {s t : (constantSource x k).σ} :
    Resumes (constantSource x k) (fun _ => True) s t :=
  ⟨_, rfl, fun _ => ⟨s, rfl, .refl s, trivial⟩⟩

/-! ## skip -/

section skip
variable {S : Source} {n : Nat}

theorem skip_isSim : IsSim (skip n S) (fun s t => s.1 = t.1 ∧ S.Same s.2 t.2) where
  symm h := ⟨h.1.symm, h.2.symm⟩
  reset b h := ⟨rfl, h.2.reset b⟩
  next {s t r s'} h hn := by
    obtain ⟨k, i⟩ := s
    obtain ⟨k', j⟩ := t
    obtain ⟨rfl, hij⟩ := h
    simp only [skip, skipNext] at hn ⊢
    split at hn
    · next h0 =>
      rw [if_pos h0]
      split at hn
      · cases hn
      · next hi =>
        cases hn
        obtain ⟨j', hj, h'⟩ := hij.next hi
        simp [hj, h']
    · next h0 =>
      rw [if_neg h0]
      split at hn
      · next hk =>
        rw [if_pos hk]
        split at hn
        · cases hn
        · next hi =>
          cases hn
          obtain ⟨j', hj, h'⟩ := hij.next hi
          simp [hj, h']
      · next hk =>
        rw [if_neg hk]
        split at hn
        · cases hn
        · next hi =>
          cases hn
          obtain ⟨j', hj, h'⟩ := readUpTo_sim isSim_same hij hi
          simp [hj, h']
        · next hi =>
          obtain ⟨j', hj, h'⟩ := readUpTo_sim isSim_same hij hi
          rw [hj]
          simp only
          split at hn
          · cases hn
          · next hi2 =>
            cases hn
            obtain ⟨j2, hj2, h2⟩ := h'.next hi2
            simp [hj2, h2]

theorem skip_inv {I : S.σ → Prop} (hI : Invar S I) : Invar (skip n S) (fun s => I s.2) where
  reset b h := hI.reset b h
  next {s r s'} hs hn hf := by
    obtain ⟨k, i⟩ := s
    simp only [skip, skipNext] at hn
    split at hn
    · split at hn
      · cases hn
      · next hi => cases hn; exact hI.next hs hi hf
    · split at hn
      · split at hn
        · cases hn
        · next hi => cases hn; exact hI.next hs hi hf
      · split at hn
        · cases hn
        · next hi =>
          cases hn
          exact inv_readUpTo hI hs hi (by rintro e ⟨⟩; exact hf)
        · next hi =>
          have h1 := inv_readUpTo hI hs hi (by rintro e ⟨⟩)
          split at hn
          · cases hn
          · next hi2 => cases hn; exact hI.next h1 hi2 hf

theorem skip_ended {k : Bool} {i : S.σ} (h : S.Ended i) : (skip n S).Ended (k, i) := by
  refine .coind (fun s => S.Ended s.2) h ?_
  rintro ⟨k, i⟩ h
  obtain ⟨i', hi, he⟩ := h.next
  simp only [skip, skipNext]
  split
  · simp [hi, he]
  · split
    · simp [hi, he]
    · next h0 _ =>
      rw [readUpTo_eod (.nil i) hi (by simp; omega)]
      obtain ⟨i2, hi2, he2⟩ := he.next
      simp [hi2, he2]

theorem skip_eod {I : S.σ → Prop} (hI : Invar S I) (hE : EodFinal S I) :
    EodFinal (skip n S) (fun s => I s.2) := by
  intro s s' hs hn
  obtain ⟨k, i⟩ := s
  simp only [skip, skipNext] at hn
  split at hn
  · split at hn
    · cases hn
    · next hi => cases hn; exact skip_ended (hE hs hi)
  · split at hn
    · split at hn
      · cases hn
      · next hi => cases hn; exact skip_ended (hE hs hi)
    · split at hn
      · cases hn
      · cases hn
      · next hi =>
        have h1 := inv_readUpTo hI hs hi (by rintro e ⟨⟩)
        split at hn
        · cases hn
        · next hi2 => cases hn; exact skip_ended (hE h1 hi2)

theorem skip_resumes {I : S.σ → Prop} {s t : (skip n S).σ} (h : Resumes S I s.2 t.2) :
    Resumes (skip n S) (fun s => I s.2) s t := by
  obtain ⟨tp, h1, h2⟩ := h
  refine ⟨.bool s.1 :: tp, by simp [skip, h1], fun rest => ?_⟩
  obtain ⟨t', h3, h4, h5⟩ := h2 rest
  exact ⟨(s.1, t'), by simp [skip, readBool, h3], skip_isSim.same ⟨rfl, h4⟩, h5⟩

theorem skip_rewinds {s : (skip n S).σ} (h : Rewinds S s.2) : Rewinds (skip n S) s :=
  skip_isSim.same ⟨rfl, h⟩

end skip

/-! ## take -/

section take
variable {S : Source} {n : Nat}

theorem take_isSim : IsSim (take n S) (fun s t => s.1 = t.1 ∧ S.Same s.2 t.2) where
  symm h := ⟨h.1.symm, h.2.symm⟩
  reset b h := ⟨rfl, h.2.reset b⟩
  next {s t r s'} h hn := by
    obtain ⟨k, i⟩ := s
    obtain ⟨k', j⟩ := t
    obtain ⟨rfl, hij⟩ := h
    simp only [take, takeNext] at hn ⊢
    split at hn
    · next h0 => cases hn; rw [if_pos h0]; exact ⟨_, rfl, rfl, hij⟩
    · next h0 =>
      rw [if_neg h0]
      split at hn
      · cases hn
      all_goals
        next hi =>
        cases hn
        obtain ⟨j', hj, h'⟩ := hij.next hi
        simp [hj, h']

theorem take_inv {I : S.σ → Prop} (hI : Invar S I) : Invar (take n S) (fun s => I s.2) where
  reset b h := hI.reset b h
  next {s r s'} hs hn hf := by
    simp only [take, takeNext] at hn
    split at hn
    · cases hn; exact hs
    · split at hn
      · cases hn
      all_goals next hi => cases hn; exact hI.next hs hi hf

theorem take_ended_full {i : S.σ} : (take n S).Ended (n, i) := by
  refine .coind (fun s => s.1 = n) rfl ?_
  rintro ⟨k, i⟩ rfl
  exact ⟨(k, i), by simp [take, takeNext], rfl⟩

theorem take_ended {k : Nat} {i : S.σ} (h : S.Ended i) : (take n S).Ended (k, i) := by
  refine .coind (fun s => S.Ended s.2) h ?_
  rintro ⟨k, i⟩ h
  obtain ⟨i', hi, he⟩ := h.next
  simp only [take, takeNext]
  split
  · exact ⟨_, rfl, h⟩
  · simp [hi, he]

theorem take_eod {I : S.σ → Prop} (hE : EodFinal S I) :
    EodFinal (take n S) (fun s => I s.2) := by
  intro s s' hs hn
  obtain ⟨k, i⟩ := s
  simp only [take, takeNext] at hn
  split at hn
  · next h0 => cases hn; subst h0; exact take_ended_full
  · split at hn
    · cases hn
    · cases hn
    · next hi => cases hn; exact take_ended (hE hs hi)
    · cases hn

theorem take_resumes {I : S.σ → Prop} {s t : (take n S).σ} (h : Resumes S I s.2 t.2) :
    Resumes (take n S) (fun s => I s.2) s t := by
  obtain ⟨tp, h1, h2⟩ := h
  refine ⟨.int s.1 :: tp, by simp [take, h1], fun rest => ?_⟩
  obtain ⟨t', h3, h4, h5⟩ := h2 rest
  exact ⟨(s.1, t'), by simp [take, readNat, h3], take_isSim.same ⟨rfl, h4⟩, h5⟩

theorem take_rewinds {s : (take n S).σ} (h : Rewinds S s.2) : Rewinds (take n S) s :=
  take_isSim.same ⟨rfl, h⟩

end take

/-! ## filter -/

section filter
variable {S : Source} {p : Data → Except Err Bool}

theorem filterNext_sim {R : S.σ → S.σ → Prop} (hR : IsSim S R) {s t s' : S.σ} {r : Res}
    (h : R s t) (hn : filterNext S.next p s = some (r, s')) :
    ∃ t', filterNext S.next p t = some (r, t') ∧ R s' t' := by
  refine filterNext.partial_correctness S.next p
    (fun s x => ∀ t, R s t → ∃ t', filterNext S.next p t = some (x.1, t') ∧ R x.2 t')
    ?_ s (r, s') hn t h
  intro f ih s x hx t h
  rw [filterNext]
  split at hx
  · cases hx
  · next hi =>
    obtain ⟨t', ht, h'⟩ := hR.next h hi
    rw [ht]
    split at hx
    · next hp => cases hx; exact ⟨t', by simp [hp], h'⟩
    · next hp => cases hx; exact ⟨t', by simp [hp], h'⟩
    · next hp =>
      obtain ⟨t2, h2, h3⟩ := ih _ _ hx t' h'
      exact ⟨t2, by simp [hp, h2], h3⟩
  all_goals
    next hi =>
    obtain ⟨t', ht, h'⟩ := hR.next h hi
    cases hx
    exact ⟨t', by simp [ht], h'⟩

theorem filter_isSim : IsSim (filter p S) (fun s t => S.Same s t) where
  symm h := h.symm
  reset b h := h.reset b
  next h hn := filterNext_sim isSim_same h hn

theorem filterNext_inv {I : S.σ → Prop} (hI : Invar S I) {s s' : S.σ} {r : Res}
    (hs : I s) (hn : filterNext S.next p s = some (r, s')) : ¬ r.fatal → I s' := by
  refine filterNext.partial_correctness S.next p
    (fun s x => I s → ¬ x.1.fatal → I x.2) ?_ s (r, s') hn hs
  intro f ih s x hx hs hf
  split at hx
  · cases hx
  · next hi =>
    have h1 := hI.next hs hi (by simp [Res.fatal])
    split at hx
    · cases hx; exact h1
    · cases hx; exact h1
    · exact ih _ _ hx h1 hf
  all_goals next hi => cases hx; exact hI.next hs hi hf

theorem filter_inv {I : S.σ → Prop} (hI : Invar S I) : Invar (filter p S) I where
  reset b h := hI.reset b h
  next hs hn hf := filterNext_inv hI hs hn hf

theorem filter_ended {s : S.σ} (h : S.Ended s) : (filter p S).Ended s := by
  refine .coind S.Ended h ?_
  intro (t : S.σ) h
  obtain ⟨t', hi, he⟩ := h.next
  refine ⟨t', ?_, he⟩
  show filterNext S.next p t = _
  rw [filterNext]
  simp only [hi]
  rfl

theorem filterNext_eod {I : S.σ → Prop} (hI : Invar S I) (hE : EodFinal S I) {s s' : S.σ}
    (hs : I s) (hn : filterNext S.next p s = some (.eod, s')) : S.Ended s' := by
  refine filterNext.partial_correctness S.next p
    (fun s x => I s → x.1 = .eod → S.Ended x.2) ?_ s (.eod, s') hn hs rfl
  intro f ih s x hx hs he
  split at hx
  · cases hx
  · next hi =>
    have h1 := hI.next hs hi (by simp [Res.fatal])
    split at hx
    · cases hx; cases he
    · cases hx; cases he
    · exact ih _ _ hx h1 he
  · next hi => cases hx; exact hE hs hi
  · cases hx; cases he

theorem filter_eod {I : S.σ → Prop} (hI : Invar S I) (hE : EodFinal S I) :
    EodFinal (filter p S) I := fun hs hn => filter_ended (filterNext_eod hI hE hs hn)

theorem filter_resumes {I : S.σ → Prop} {s t : (filter p S).σ} (h : Resumes S I s t) :
    Resumes (filter p S) I s t := by
  obtain ⟨tp, h1, h2⟩ := h
  refine ⟨tp, h1, fun rest => ?_⟩
  obtain ⟨t', h3, h4, h5⟩ := h2 rest
  exact ⟨t', h3, filter_isSim.same h4, h5⟩

theorem filter_rewinds {s : (filter p S).σ} (h : Rewinds S s) : Rewinds (filter p S) s :=
  filter_isSim.same h

end filter

/-! ## map, one call at a time -/

section map
variable {S : Source} {f : Data → Except Err Data}

theorem map_isSim : IsSim (map f S) (fun s t => S.Same s t) where
  symm h := h.symm
  reset b h := h.reset b
  next {s t r s'} h hn := by
    simp only [map, mapNext] at hn ⊢
    split at hn
    · cases hn
    · next hi =>
      obtain ⟨t', ht, h'⟩ := Same.next h hi
      rw [ht]
      split at hn
      · next hf => cases hn; exact ⟨t', by simp [hf], h'⟩
      · next hf => cases hn; exact ⟨t', by simp [hf], h'⟩
    all_goals
      next hi =>
      obtain ⟨t', ht, h'⟩ := Same.next h hi
      cases hn
      exact ⟨t', by simp [ht], h'⟩

theorem map_inv {I : S.σ → Prop} (hI : Invar S I) : Invar (map f S) I where
  reset b h := hI.reset b h
  next {s r s'} hs hn hf := by
    simp only [map, mapNext] at hn
    split at hn
    · cases hn
    · next hi =>
      have := hI.next hs hi (by simp [Res.fatal])
      split at hn <;> (cases hn; exact this)
    all_goals next hi => cases hn; exact hI.next hs hi hf

theorem map_ended {s : S.σ} (h : S.Ended s) : (map f S).Ended s := by
  refine .coind S.Ended h ?_
  intro (t : S.σ) h
  obtain ⟨t', hi, he⟩ := h.next
  exact ⟨t', by simp [map, mapNext, hi], he⟩

theorem map_eod {I : S.σ → Prop} (hE : EodFinal S I) : EodFinal (map f S) I := by
  intro s s' hs hn
  simp only [map, mapNext] at hn
  split at hn
  · cases hn
  · split at hn <;> cases hn
  · next hi => cases hn; exact map_ended (hE hs hi)
  · cases hn

theorem map_resumes {I : S.σ → Prop} {s t : (map f S).σ} (h : Resumes S I s t) :
    Resumes (map f S) I s t := by
  obtain ⟨tp, h1, h2⟩ := h
  refine ⟨.int 0 :: .int 0 :: tp, by simp [map, h1], fun rest => ?_⟩
  obtain ⟨t', h3, h4, h5⟩ := h2 rest
  refine ⟨t', ?_, map_isSim.same h4, h5⟩
  have : readVec (readOpt readData) (Data.int 0 :: Data.int 0 :: (tp ++ rest))
      = .ok ([], Data.int 0 :: (tp ++ rest)) := rfl
  simp [map, this, readInt, h3]

theorem map_rewinds {s : (map f S).σ} (h : Rewinds S s) : Rewinds (map f S) s :=
  map_isSim.same h

end map

/-! ## shard -/

section shard
variable {S : Source} {idx n : Nat} {un : Bool}

theorem shard_isSim : IsSim (shard idx n un S) (fun s t => S.Same s t) where
  symm h := h.symm
  reset b h := h.reset b
  next {s t r s'} h hn := by
    simp only [shard, shardNext] at hn ⊢
    split at hn
    · next h0 => rw [if_pos h0]; exact Same.next h hn
    · next h0 =>
      rw [if_neg h0]
      split at hn
      · cases hn
      · next hi =>
        cases hn
        obtain ⟨t', ht, h'⟩ := readUpTo_sim isSim_same h hi
        exact ⟨t', by simp [ht], h'⟩
      · next hi =>
        cases hn
        obtain ⟨t', ht, h'⟩ := readUpTo_sim isSim_same h hi
        exact ⟨t', by simp [ht], h'⟩
      · next hi =>
        obtain ⟨t', ht, h'⟩ := readUpTo_sim isSim_same h hi
        rw [ht]
        simp only
        split at hn
        · cases hn
        · next hi2 =>
          cases hn
          obtain ⟨t2, ht2, h2⟩ := h'.next hi2
          exact ⟨t2, by simp [ht2], h2⟩
        · next hi2 =>
          cases hn
          obtain ⟨t2, ht2, h2⟩ := h'.next hi2
          exact ⟨t2, by simp [ht2], h2⟩
        · next hi2 =>
          obtain ⟨t2, ht2, h2⟩ := h'.next hi2
          rw [ht2]
          simp only
          split at hn
          · cases hn
          all_goals
            next hi3 =>
            obtain ⟨t3, ht3, h3⟩ := readUpTo_sim isSim_same h2 hi3
            rw [ht3]
            simp only
            first
              | (cases hn; exact ⟨t3, rfl, h3⟩)
              | (split at hn <;> (cases hn; exact ⟨t3, by simp_all, h3⟩))

theorem shard_inv {I : S.σ → Prop} (hI : Invar S I) : Invar (shard idx n un S) I where
  reset b h := hI.reset b h
  next {s r s'} hs hn hf := by
    simp only [shard, shardNext] at hn
    split at hn
    · exact hI.next hs hn hf
    · split at hn
      · cases hn
      · next hi => cases hn; exact inv_readUpTo hI hs hi (by rintro e ⟨⟩; exact hf)
      · next hi => cases hn; exact inv_readUpTo hI hs hi (by rintro e ⟨⟩)
      · next hi =>
        have h1 := inv_readUpTo hI hs hi (by rintro e ⟨⟩)
        split at hn
        · cases hn
        · next hi2 => cases hn; exact hI.next h1 hi2 hf
        · next hi2 => cases hn; exact hI.next h1 hi2 hf
        · next hi2 =>
          have h2 := hI.next h1 hi2 (by simp [Res.fatal])
          split at hn
          · cases hn
          · next hi3 => cases hn; exact inv_readUpTo hI h2 hi3 (by rintro e ⟨⟩; exact hf)
          · next hi3 =>
            have h3 := inv_readUpTo hI h2 hi3 (by rintro e ⟨⟩)
            split at hn <;> (cases hn; exact h3)
          · next hi3 => cases hn; exact inv_readUpTo hI h2 hi3 (by rintro e ⟨⟩)

theorem shard_ended {s : S.σ} (h : S.Ended s) : (shard idx n un S).Ended s := by
  refine .coind S.Ended h ?_
  intro (t : S.σ) h
  obtain ⟨t', hi, he⟩ := h.next
  simp only [shard, shardNext]
  split
  · exact ⟨t', hi, he⟩
  · rcases Nat.eq_zero_or_pos idx with rfl | hp
    · exact ⟨t', by simp [readUpTo, hi], he⟩
    · rw [readUpTo_eod (Emits.nil (S := S) t) hi (by simpa using hp)]
      exact ⟨t', rfl, he⟩

theorem shard_eod {I : S.σ → Prop} (hI : Invar S I) (hE : EodFinal S I) :
    EodFinal (shard idx n un S) I := by
  intro s s' hs hn
  apply shard_ended
  simp only [shard, shardNext] at hn
  split at hn
  · exact hE hs hn
  · split at hn
    · cases hn
    · cases hn
    · next hi => cases hn; exact readUpTo_ended hI hE hs hi rfl
    · next hi =>
      have h1 := inv_readUpTo hI hs hi (by rintro e ⟨⟩)
      split at hn
      · cases hn
      · next hi2 => cases hn; exact hE h1 hi2
      · cases hn
      · next hi2 =>
        have h2 := hI.next h1 hi2 (by simp [Res.fatal])
        split at hn
        · cases hn
        · cases hn
        · next hi3 =>
          split at hn
          · cases hn
          · cases hn; exact readUpTo_ended hI hE h2 hi3 rfl
        · cases hn

theorem shard_resumes {I : S.σ → Prop} {s t : (shard idx n un S).σ} (h : Resumes S I s t) :
    Resumes (shard idx n un S) I s t := by
  obtain ⟨tp, h1, h2⟩ := h
  refine ⟨tp, h1, fun rest => ?_⟩
  obtain ⟨t', h3, h4, h5⟩ := h2 rest
  exact ⟨t', h3, shard_isSim.same h4, h5⟩

theorem shard_rewinds {s : (shard idx n un S).σ} (h : Rewinds S s) :
    Rewinds (shard idx n un S) s := shard_isSim.same h

end shard

/-! ## bucket -/

section bucket
variable {S : Source} {n : Nat} {drop : Bool}

theorem bucket_isSim : IsSim (bucket n drop S) (fun s t => S.Same s t) where
  symm h := h.symm
  reset b h := h.reset b
  next {s t r s'} h hn := by
    simp only [bucket, bucketNext] at hn ⊢
    split at hn
    · cases hn
    · next hi =>
      cases hn
      obtain ⟨t', ht, h'⟩ := readUpTo_sim isSim_same h hi
      exact ⟨t', by simp [ht], h'⟩
    · next hi =>
      obtain ⟨t', ht, h'⟩ := readUpTo_sim isSim_same h hi
      rw [ht]
      simp only
      split at hn
      · next h0 => cases hn; exact ⟨t', by rw [if_pos h0], h'⟩
      · next h0 =>
        rw [if_neg h0]
        split at hn
        · next h1 => cases hn; exact ⟨t', by rw [if_pos h1], h'⟩
        · next h1 => cases hn; exact ⟨t', by rw [if_neg h1], h'⟩

theorem bucket_inv {I : S.σ → Prop} (hI : Invar S I) : Invar (bucket n drop S) I where
  reset b h := hI.reset b h
  next {s r s'} hs hn hf := by
    simp only [bucket, bucketNext] at hn
    split at hn
    · cases hn
    · next hi => cases hn; exact inv_readUpTo hI hs hi (by rintro e ⟨⟩; exact hf)
    · next hi =>
      have h1 := inv_readUpTo hI hs hi (by rintro e ⟨⟩)
      split at hn
      · cases hn; exact h1
      · split at hn <;> (cases hn; exact h1)

theorem bucket_ended {s : S.σ} (h : S.Ended s) : (bucket n drop S).Ended s := by
  refine .coind S.Ended h ?_
  intro (t : S.σ) h
  obtain ⟨t', hi, he⟩ := h.next
  simp only [bucket, bucketNext]
  rcases Nat.eq_zero_or_pos n with rfl | hp
  · exact ⟨t, by simp [readUpTo], h⟩
  · rw [readUpTo_eod (Emits.nil (S := S) t) hi (by simpa using hp)]
    exact ⟨t', by simp, he⟩

theorem bucket_eod {I : S.σ → Prop} (hn : 0 < n) (hI : Invar S I) (hE : EodFinal S I) :
    EodFinal (bucket n drop S) I := by
  intro s s' hs h
  apply bucket_ended
  simp only [bucket, bucketNext] at h
  split at h
  · cases h
  · cases h
  · next xs ended s1 hi =>
    have key : xs.length < n → S.Ended s1 := by
      intro hl
      obtain ⟨ys, s₁, h1, h2, h3⟩ := readUpTo_inv hi
      simp only [List.nil_append] at h1
      subst h1
      rcases h3 with ⟨_, _, h3, _⟩ | ⟨h3, _⟩ | ⟨e, _, h3, _⟩
      · omega
      · exact readUpTo_ended hI hE hs hi h3
      · cases h3
    split at h
    · next h0 => cases h; exact key (by simp [h0, hn])
    · split at h
      · next h0 => cases h; exact key h0.2
      · cases h

theorem bucket_resumes {I : S.σ → Prop} {s t : (bucket n drop S).σ} (h : Resumes S I s t) :
    Resumes (bucket n drop S) I s t := by
  obtain ⟨tp, h1, h2⟩ := h
  refine ⟨tp, h1, fun rest => ?_⟩
  obtain ⟨t', h3, h4, h5⟩ := h2 rest
  exact ⟨t', h3, bucket_isSim.same h4, h5⟩

theorem bucket_rewinds {s : (bucket n drop S).σ} (h : Rewinds S s) :
    Rewinds (bucket n drop S) s := bucket_isSim.same h

end bucket

/-! ## repeat -/

section rep
variable {S : Source} {num : Option Nat} {rr : Bool}

theorem repeatLoop_sim {R : S.σ → S.σ → Prop} (hR : IsSim S R) {h : Bool} {k : Nat} {i j : S.σ}
    {r : Res} {s' : RepeatSt S.σ} (hij : R i j)
    (hn : repeatLoop S.next S.reset num rr ⟨h, k, i⟩ = some (r, s')) :
    ∃ j', repeatLoop S.next S.reset num rr ⟨h, k, j⟩ = some (r, ⟨s'.hasData, s'.nr, j'⟩) ∧
      R s'.inner j' := by
  refine repeatLoop.partial_correctness S.next S.reset num rr
    (fun s x => ∀ j, R s.inner j →
      ∃ j', repeatLoop S.next S.reset num rr ⟨s.hasData, s.nr, j⟩
        = some (x.1, ⟨x.2.hasData, x.2.nr, j'⟩) ∧ R x.2.inner j')
    ?_ ⟨h, k, i⟩ (r, s') hn j hij
  intro f ih s x hx j hij
  rw [repeatLoop]
  split at hx
  · cases hx
  · next hi =>
    obtain ⟨j', hj, h'⟩ := hR.next hij hi
    cases hx
    exact ⟨j', by simp [hj], h'⟩
  · next hi =>
    obtain ⟨j', hj, h'⟩ := hR.next hij hi
    cases hx
    exact ⟨j', by simp [hj], h'⟩
  · next hi =>
    obtain ⟨j', hj, h'⟩ := hR.next hij hi
    rw [hj]
    simp only
    split at hx
    · next h0 => cases hx; rw [if_pos h0]; exact ⟨j', rfl, h'⟩
    · next h0 =>
      rw [if_neg h0]
      split at hx
      · next h1 => cases hx; rw [if_pos h1]; exact ⟨j', rfl, h'⟩
      · next h1 => rw [if_neg h1]; exact ih _ _ hx _ (hR.reset rr h')

theorem repeat_isSim : IsSim (repeatSrc num rr S)
    (fun s t => s.hasData = t.hasData ∧ s.nr = t.nr ∧ S.Same s.inner t.inner) where
  symm h := ⟨h.1.symm, h.2.1.symm, h.2.2.symm⟩
  reset b h := ⟨rfl, rfl, h.2.2.reset b⟩
  next {s t r s'} h hn := by
    obtain ⟨a, b, i⟩ := s
    obtain ⟨a', b', j⟩ := t
    obtain ⟨h1, h2, hij⟩ := h
    simp only at h1 h2 hij
    subst h1 h2
    simp only [repeatSrc] at hn ⊢
    split at hn
    · next h0 => cases hn; rw [if_pos h0]; exact ⟨_, rfl, rfl, rfl, hij⟩
    · next h0 =>
      rw [if_neg h0]
      obtain ⟨j', h1, h2⟩ := repeatLoop_sim isSim_same hij hn
      exact ⟨_, h1, rfl, rfl, h2⟩

theorem repeatLoop_inv {I : S.σ → Prop} (hI : Invar S I) {s s' : RepeatSt S.σ} {r : Res}
    (hs : I s.inner) (hn : repeatLoop S.next S.reset num rr s = some (r, s')) :
    ¬ r.fatal → I s'.inner := by
  refine repeatLoop.partial_correctness S.next S.reset num rr
    (fun s x => I s.inner → ¬ x.1.fatal → I x.2.inner) ?_ s (r, s') hn hs
  intro f ih s x hx hs hf
  split at hx
  · cases hx
  · next hi => cases hx; exact hI.next hs hi hf
  · next hi => cases hx; exact hI.next hs hi hf
  · next hi =>
    have h1 := hI.next hs hi (by simp [Res.fatal])
    split at hx
    · cases hx; exact h1
    · split at hx
      · cases hx; exact h1
      · exact ih _ _ hx (hI.reset rr h1) hf

theorem repeat_inv {I : S.σ → Prop} (hI : Invar S I) :
    Invar (repeatSrc num rr S) (fun s => I s.inner) where
  reset b h := hI.reset b h
  next {s r s'} hs hn hf := by
    simp only [repeatSrc] at hn
    split at hn
    · cases hn; exact hs
    · exact repeatLoop_inv hI hs hn hf

theorem repeat_ended {s : RepeatSt S.σ} (h : S.Ended s.inner)
    (h' : s.hasData = false ∨ num = some (s.nr + 1)) : (repeatSrc num rr S).Ended s := by
  refine .coind
    (fun s => S.Ended s.inner ∧ (s.hasData = false ∨ num = some (s.nr + 1))) ⟨h, h'⟩ ?_
  rintro ⟨a, b, i⟩ ⟨h, h'⟩
  obtain ⟨i', hi, he⟩ := h.next
  simp only [repeatSrc]
  split
  · exact ⟨_, rfl, h, h'⟩
  · refine ⟨⟨a, b, i'⟩, ?_, he, h'⟩
    rw [repeatLoop]
    simp only [hi]
    split
    · rfl
    · next h0 =>
      rcases h' with h' | h'
      · exact absurd h' h0
      · exact if_pos h'

theorem repeatLoop_eod {I : S.σ → Prop} (hI : Invar S I) (hE : EodFinal S I) {s s' : RepeatSt S.σ}
    (hs : I s.inner) (hn : repeatLoop S.next S.reset num rr s = some (.eod, s')) :
    S.Ended s'.inner ∧ (s'.hasData = false ∨ num = some (s'.nr + 1)) := by
  refine repeatLoop.partial_correctness S.next S.reset num rr
    (fun s x => I s.inner → x.1 = .eod →
      S.Ended x.2.inner ∧ (x.2.hasData = false ∨ num = some (x.2.nr + 1)))
    ?_ s (.eod, s') hn hs rfl
  intro f ih s x hx hs he
  split at hx
  · cases hx
  · cases hx; cases he
  · cases hx; cases he
  · next hi =>
    have h1 := hE hs hi
    split at hx
    · next h0 => cases hx; exact ⟨h1, .inl h0⟩
    · split at hx
      · next h0 => cases hx; exact ⟨h1, .inr h0⟩
      · exact ih _ _ hx (hI.reset rr (hI.next hs hi (by simp [Res.fatal]))) he

theorem repeat_eod {I : S.σ → Prop} (hI : Invar S I) (hE : EodFinal S I) :
    EodFinal (repeatSrc num rr S) (fun s => I s.inner) := by
  intro s s' hs hn
  simp only [repeatSrc] at hn
  split at hn
  · next h0 =>
    cases hn
    subst h0
    exact .coind (fun _ => True) trivial (fun t _ => ⟨t, by simp [repeatSrc], trivial⟩)
  · obtain ⟨h1, h2⟩ := repeatLoop_eod hI hE hs hn
    exact repeat_ended h1 h2

/-- The next call of `next()` on the upstream gives an example or an error. -/
def Source.Active (S : Source) (s : S.σ) : Prop :=
  ∃ x s', S.next s = some (.yield x, s')

theorem Source.Active.same {S : Source} {s t : S.σ} (h : S.Active s) (hs : S.Same s t) :
    S.Active t := by
  obtain ⟨x, s', h1⟩ := h
  obtain ⟨t', h2, _⟩ := hs.next h1
  exact ⟨x, t', h2⟩

/-- Whether `has_data_` is set does not matter while the upstream has an example
ready. -/
theorem repeat_same_active {a b : Bool} {k : Nat} {i j : S.σ} (h : S.Same i j) (hi : S.Active i) :
    (repeatSrc num rr S).Same ⟨a, k, i⟩ ⟨b, k, j⟩ := by
  have hsim : IsSim (repeatSrc num rr S) (fun s t =>
      s.nr = t.nr ∧ S.Same s.inner t.inner ∧ (s.hasData = t.hasData ∨ S.Active s.inner)) := by
    refine ⟨?_, ?_, ?_⟩
    · rintro s t ⟨h1, h2, h3⟩
      exact ⟨h1.symm, h2.symm, h3.imp Eq.symm (·.same h2)⟩
    · rintro ⟨a, k, i⟩ ⟨b, k', j⟩ r s' ⟨h1, h2, h3⟩ hn
      rcases h3 with h3 | h3
      · obtain ⟨t', ht, h⟩ := repeat_isSim.next (t := ⟨b, k', j⟩) ⟨h3, h1, h2⟩ hn
        exact ⟨t', ht, h.2.1, h.2.2, .inl h.1⟩
      · simp only at h1 h2 h3
        subst h1
        simp only [repeatSrc] at hn ⊢
        obtain ⟨x, i', hi⟩ := h3
        obtain ⟨j', hj, h'⟩ := h2.next hi
        split at hn
        · next h0 =>
          cases hn
          exact ⟨⟨b, k, j⟩, by rw [if_pos h0], rfl, h2, .inr ⟨x, i', hi⟩⟩
        · next h0 =>
          rw [if_neg h0]
          rw [repeatLoop] at hn ⊢
          simp only [hi, hj, Option.some.injEq, Prod.mk.injEq] at hn ⊢
          obtain ⟨rfl, rfl⟩ := hn
          exact ⟨_, ⟨rfl, rfl⟩, rfl, h', .inl rfl⟩
    · rintro ⟨a, k, i⟩ ⟨b', k', j⟩ b ⟨h1, h2, h3⟩
      exact ⟨rfl, h2.reset b, .inl rfl⟩
  exact hsim.same ⟨rfl, h, .inr hi⟩

/-- Resuming works if the flag that is not saved agrees or does not matter. -/
theorem repeat_resumes {I : S.σ → Prop} {s t : (repeatSrc num rr S).σ}
    (h : Resumes S I s.inner t.inner) (hd : s.hasData = t.hasData ∨ S.Active s.inner) :
    Resumes (repeatSrc num rr S) (fun s => I s.inner) s t := by
  obtain ⟨tp, h1, h2⟩ := h
  refine ⟨.int s.nr :: tp, by simp [repeatSrc, h1], fun rest => ?_⟩
  obtain ⟨t', h3, h4, h5⟩ := h2 rest
  refine ⟨⟨t.hasData, s.nr, t'⟩, by simp [repeatSrc, readNat, h3], ?_, h5⟩
  rcases hd with hd | hd
  · exact repeat_isSim.same ⟨hd.symm, rfl, h4⟩
  · exact repeat_same_active h4 (hd.same h4.symm)

theorem repeat_rewinds {s : (repeatSrc num rr S).σ} (h : Rewinds S s.inner) :
    Rewinds (repeatSrc num rr S) s := repeat_isSim.same ⟨rfl, rfl, h⟩

end rep

end Fs2
