import Verif.Pipeline.Multi
import Verif.Pipeline.Laws

/-!
# Laws of `concat`, `zip` and `round_robin`
-/

namespace Fs2
open Source

variable {n : Nat} {Ss : Fin n → Source}

@[simp] theorem upd_same (st : States Ss) (i : Fin n) (s : (Ss i).σ) : upd st i s i = s := by
  simp [upd]

theorem upd_ne (st : States Ss) {i j : Fin n} (s : (Ss i).σ) (h : j ≠ i) : upd st i s j = st j := by
  simp [upd, h]

/-- Pointwise predicates survive an update. -/
theorem upd_all {P : (i : Fin n) → (Ss i).σ → Prop} {st : States Ss} (h : ∀ i, P i (st i))
    {i : Fin n} {s : (Ss i).σ} (hs : P i s) : ∀ j, P j (upd st i s j) := by
  intro j
  by_cases hj : j = i
  · subst hj; simpa using hs
  · rw [upd_ne _ _ hj]; exact h j

/-- Pointwise relations survive an update. -/
theorem upd_rel {R : (i : Fin n) → (Ss i).σ → (Ss i).σ → Prop} {st st' : States Ss}
    (h : ∀ i, R i (st i) (st' i)) {i : Fin n} {s s' : (Ss i).σ} (hs : R i s s') :
    ∀ j, R j (upd st i s j) (upd st' i s' j) := by
  intro j
  by_cases hj : j = i
  · subst hj; simpa using hs
  · rw [upd_ne _ _ hj, upd_ne _ _ hj]; exact h j

/-- Pointwise indistinguishable. -/
abbrev SameAll (st st' : States Ss) : Prop := ∀ i, (Ss i).Same (st i) (st' i)

theorem SameAll.symm {st st' : States Ss} (h : SameAll st st') : SameAll st' st :=
  fun i => (h i).symm

theorem SameAll.reset {st st' : States Ss} (h : SameAll st st') (b : Bool) :
    SameAll (resetAll Ss b st) (resetAll Ss b st') := fun i => (h i).reset b

theorem SameAll.upd {st st' : States Ss} (h : SameAll st st') {i : Fin n} {s s' : (Ss i).σ}
    (hs : (Ss i).Same s s') : SameAll (upd st i s) (upd st' i s') := upd_rel h hs

/-! ## Saving and loading all upstreams -/

theorem reloadAll_ok {I : (i : Fin n) → (Ss i).σ → Prop} {s : States Ss} (is : List (Fin n))
    (hnd : is.Nodup) (t : States Ss) (h : ∀ i ∈ is, Resumes (Ss i) (I i) (s i) (t i)) :
    ∃ tp, recordAll Ss true s is = .ok tp ∧ ∀ rest, ∃ t',
      reloadAll Ss true is t (tp ++ rest) = .ok (t', rest) ∧
      (∀ i ∈ is, (Ss i).Same (t' i) (s i) ∧ I i (t' i)) ∧ ∀ i, i ∉ is → t' i = t i := by
  induction is generalizing t with
  | nil => exact ⟨[], rfl, fun rest => ⟨t, rfl, by simp, fun _ _ => rfl⟩⟩
  | cons i is ih =>
    obtain ⟨hni, hnd'⟩ := List.nodup_cons.mp hnd
    obtain ⟨tp, h1, h2⟩ := h i (List.mem_cons_self ..)
    obtain ⟨tp', h3, _⟩ := ih hnd' t (fun j hj => h j (List.mem_cons_of_mem _ hj))
    refine ⟨tp ++ tp', by simp [recordAll, h1, h3], fun rest => ?_⟩
    obtain ⟨t', h5, h6, h7⟩ := h2 (tp' ++ rest)
    obtain ⟨tp'', h8, h9⟩ := ih hnd' (upd t i t') (fun j hj => by
      have hne : j ≠ i := fun he => hni (he ▸ hj)
      rw [upd_ne _ _ hne]
      exact h j (List.mem_cons_of_mem _ hj))
    rw [h3] at h8
    cases h8
    obtain ⟨t₂, h10, h11, h12⟩ := h9 rest
    refine ⟨t₂, by simp [reloadAll, List.append_assoc, h5, h10], ?_, ?_⟩
    · intro j hj
      rcases List.mem_cons.mp hj with rfl | hj
      · rw [h12 j hni, upd_same]
        exact ⟨h6, h7⟩
      · exact h11 j hj
    · intro j hj
      rw [List.mem_cons, not_or] at hj
      rw [h12 j hj.2, upd_ne _ _ hj.1]

theorem reloadAll_finRange {I : (i : Fin n) → (Ss i).σ → Prop} {s t : States Ss}
    (h : ∀ i, Resumes (Ss i) (I i) (s i) (t i)) :
    ∃ tp, recordAll Ss true s (List.finRange n) = .ok tp ∧ ∀ rest, ∃ t',
      reloadAll Ss true (List.finRange n) t (tp ++ rest) = .ok (t', rest) ∧
      SameAll t' s ∧ ∀ i, I i (t' i) := by
  obtain ⟨tp, h1, h2⟩ := reloadAll_ok (I := I) (s := s) _ (List.nodup_finRange n) t (fun i _ => h i)
  refine ⟨tp, h1, fun rest => ?_⟩
  obtain ⟨t', h3, h4, _⟩ := h2 rest
  exact ⟨t', h3, fun i => (h4 i (List.mem_finRange i)).1, fun i => (h4 i (List.mem_finRange i)).2⟩

/-! ## concat -/

theorem concatLoop_sim {is : List (Fin n)} {st st' st₁ : States Ss} {r : Res}
    (h : SameAll st st') (hn : concatLoop Ss is st = some (r, st₁)) :
    ∃ st₂, concatLoop Ss is st' = some (r, st₂) ∧ SameAll st₁ st₂ := by
  induction is generalizing st st' with
  | nil => cases hn; exact ⟨st', rfl, h⟩
  | cons i is ih =>
    simp only [concatLoop] at hn ⊢
    split at hn
    · cases hn
    · next hi =>
      cases hn
      obtain ⟨j, hj, h'⟩ := (h i).next hi
      exact ⟨_, by rw [hj], h.upd h'⟩
    · next hi =>
      cases hn
      obtain ⟨j, hj, h'⟩ := (h i).next hi
      exact ⟨_, by rw [hj], h.upd h'⟩
    · next hi =>
      obtain ⟨j, hj, h'⟩ := (h i).next hi
      rw [hj]
      exact ih (h.upd h') hn

theorem concat_isSim : IsSim (concat Ss) SameAll where
  symm h := h.symm
  reset b h := h.reset b
  next h hn := concatLoop_sim h hn

theorem concatLoop_inv {I : (i : Fin n) → (Ss i).σ → Prop} (hI : ∀ i, Invar (Ss i) (I i))
    {is : List (Fin n)} {st st₁ : States Ss} {r : Res} (hs : ∀ i, I i (st i))
    (hn : concatLoop Ss is st = some (r, st₁)) (hf : ¬ r.fatal) : ∀ i, I i (st₁ i) := by
  induction is generalizing st with
  | nil => cases hn; exact hs
  | cons i is ih =>
    simp only [concatLoop] at hn
    split at hn
    · cases hn
    · next hi => cases hn; exact upd_all hs ((hI i).next (hs i) hi hf)
    · next hi => cases hn; exact upd_all hs ((hI i).next (hs i) hi hf)
    · next hi => exact ih (upd_all hs ((hI i).next (hs i) hi (by simp [Res.fatal]))) hn

theorem concat_inv {I : (i : Fin n) → (Ss i).σ → Prop} (hI : ∀ i, Invar (Ss i) (I i)) :
    Invar (concat Ss) (fun st => ∀ i, I i (st i)) where
  next hs hn hf := concatLoop_inv hI hs hn hf
  reset b hs := fun i => (hI i).reset b (hs i)

theorem concatLoop_all_ended {is : List (Fin n)} {st : States Ss} (h : ∀ i, (Ss i).Ended (st i)) :
    ∃ st', concatLoop Ss is st = some (.eod, st') ∧ ∀ i, (Ss i).Ended (st' i) := by
  induction is generalizing st with
  | nil => exact ⟨st, rfl, h⟩
  | cons i is ih =>
    obtain ⟨s, hi, he⟩ := (h i).next
    simp only [concatLoop, hi]
    exact ih (upd_all (P := fun i s => (Ss i).Ended s) h he)

theorem concat_ended {st : States Ss} (h : ∀ i, (Ss i).Ended (st i)) : (concat Ss).Ended st :=
  .coind (fun st => ∀ i, (Ss i).Ended (st i)) h (fun _ h => concatLoop_all_ended h)

theorem concatLoop_eod {I : (i : Fin n) → (Ss i).σ → Prop} (hI : ∀ i, Invar (Ss i) (I i))
    (hE : ∀ i, EodFinal (Ss i) (I i)) {is : List (Fin n)} {st st₁ : States Ss}
    (hs : ∀ i, I i (st i)) (he : ∀ i, i ∉ is → (Ss i).Ended (st i)) (hnd : is.Nodup)
    (hn : concatLoop Ss is st = some (.eod, st₁)) : ∀ i, (Ss i).Ended (st₁ i) := by
  induction is generalizing st with
  | nil => cases hn; exact fun i => he i (by simp)
  | cons i is ih =>
    simp only [concatLoop] at hn
    split at hn
    · cases hn
    · cases hn
    · cases hn
    · next hi =>
      obtain ⟨hni, hnd'⟩ := List.nodup_cons.mp hnd
      refine ih (upd_all hs ((hI i).next (hs i) hi (by simp [Res.fatal]))) ?_ hnd' hn
      intro j hj
      by_cases hji : j = i
      · subst hji; rw [upd_same]; exact hE j (hs j) hi
      · rw [upd_ne _ _ hji]; exact he j (by simp [hji, hj])

theorem concat_eod {I : (i : Fin n) → (Ss i).σ → Prop} (hI : ∀ i, Invar (Ss i) (I i))
    (hE : ∀ i, EodFinal (Ss i) (I i)) : EodFinal (concat Ss) (fun st => ∀ i, I i (st i)) :=
  fun hs hn => concat_ended
    (concatLoop_eod hI hE hs (fun i hi => absurd (List.mem_finRange i) hi) (List.nodup_finRange n) hn)

theorem concat_resumes {I : (i : Fin n) → (Ss i).σ → Prop} {s t : States Ss}
    (h : ∀ i, Resumes (Ss i) (I i) (s i) (t i)) :
    Resumes (concat Ss) (fun st => ∀ i, I i (st i)) s t := by
  obtain ⟨tp, h1, h2⟩ := reloadAll_finRange h
  refine ⟨tp, h1, fun rest => ?_⟩
  obtain ⟨t', h3, h4, h5⟩ := h2 rest
  exact ⟨t', h3, concat_isSim.same h4, h5⟩

theorem concat_rewinds {s : (concat Ss).σ} (h : ∀ i, Rewinds (Ss i) (s i)) :
    Rewinds (concat Ss) s := concat_isSim.same (fun i => h i)

theorem concat_restarts (h : ∀ i, Restarts (Ss i)) : Restarts (concat Ss) :=
  fun b => concat_isSim.same (fun i => h i b)

/-! ## zip -/

theorem fetchAll_sim {is : List (Fin n)} {st st' st₁ : States Ss} {r : Except Err (List Fetched)}
    (h : SameAll st st') (hn : fetchAll Ss is st = some (r, st₁)) :
    ∃ st₂, fetchAll Ss is st' = some (r, st₂) ∧ SameAll st₁ st₂ := by
  induction is generalizing st st' r st₁ with
  | nil => cases hn; exact ⟨st', rfl, h⟩
  | cons i is ih =>
    simp only [fetchAll] at hn ⊢
    split at hn
    · cases hn
    · next hi =>
      cases hn
      obtain ⟨j, hj, h'⟩ := (h i).next hi
      exact ⟨_, by rw [hj], h.upd h'⟩
    all_goals
      next hi =>
      obtain ⟨j, hj, h'⟩ := (h i).next hi
      rw [hj]
      simp only
      split at hn
      · cases hn
      all_goals
        next h1 =>
        cases hn
        obtain ⟨st₂, h2, h3⟩ := ih (h.upd h') h1
        exact ⟨st₂, by rw [h2], h3⟩

variable {names : List String} {sh fl : Bool}

theorem zip_isSim : IsSim (zip Ss names sh fl) SameAll where
  symm h := h.symm
  reset b h := h.reset b
  next {s t r s'} h hn := by
    simp only [zip, zipNext] at hn ⊢
    split at hn
    · next h0 => cases hn; rw [if_pos h0]; exact ⟨t, rfl, h⟩
    · next h0 =>
      rw [if_neg h0]
      split at hn
      · cases hn
      · next h1 =>
        cases hn
        obtain ⟨st₂, h2, h3⟩ := fetchAll_sim h h1
        exact ⟨st₂, by rw [h2], h3⟩
      · next h1 =>
        obtain ⟨st₂, h2, h3⟩ := fetchAll_sim h h1
        rw [h2]
        simp only
        split at hn
        · next h4 =>
          rw [if_pos h4]
          split at hn
          · next h5 => cases hn; exact ⟨st₂, by rw [if_pos h5], h3⟩
          · next h5 => cases hn; exact ⟨st₂, by rw [if_neg h5], h3⟩
        · next h4 =>
          rw [if_neg h4]
          split at hn
          · next h5 => cases hn; exact ⟨st₂, by rw [if_pos h5], h3⟩
          · next h5 =>
            rw [if_neg h5]
            split at hn
            · cases hn; exact ⟨st₂, rfl, h3⟩
            · cases hn; exact ⟨st₂, rfl, h3⟩

theorem fetchAll_inv {I : (i : Fin n) → (Ss i).σ → Prop} (hI : ∀ i, Invar (Ss i) (I i))
    {is : List (Fin n)} {st st₁ : States Ss} {r : Except Err (List Fetched)} (hs : ∀ i, I i (st i))
    (hn : fetchAll Ss is st = some (r, st₁)) (hf : ∀ e, r = .error e → ¬ (Res.err e).fatal) :
    ∀ i, I i (st₁ i) := by
  induction is generalizing st r st₁ with
  | nil => cases hn; exact hs
  | cons i is ih =>
    simp only [fetchAll] at hn
    split at hn
    · cases hn
    · next hi => cases hn; exact upd_all hs ((hI i).next (hs i) hi (hf _ rfl))
    all_goals
      next hi =>
      have h1 := upd_all hs ((hI i).next (hs i) hi (by simp [Res.fatal]))
      split at hn
      · cases hn
      · next h2 => cases hn; exact ih h1 h2 hf
      · next h2 => cases hn; exact ih h1 h2 (by rintro e ⟨⟩)

theorem zip_inv {I : (i : Fin n) → (Ss i).σ → Prop} (hI : ∀ i, Invar (Ss i) (I i)) :
    Invar (zip Ss names sh fl) (fun st => ∀ i, I i (st i)) where
  reset b hs := fun i => (hI i).reset b (hs i)
  next {s r s'} hs hn hf := by
    simp only [zip, zipNext] at hn
    split at hn
    · cases hn; exact hs
    · split at hn
      · cases hn
      · next h1 => cases hn; exact fetchAll_inv hI hs h1 (by rintro e ⟨⟩; exact hf)
      · next h1 =>
        have h2 := fetchAll_inv hI hs h1 (by rintro e ⟨⟩)
        split at hn
        · split at hn <;> (cases hn; exact h2)
        · split at hn
          · cases hn; exact h2
          · split at hn <;> (cases hn; exact h2)

theorem zip_resumes {I : (i : Fin n) → (Ss i).σ → Prop} {s t : States Ss}
    (h : ∀ i, Resumes (Ss i) (I i) (s i) (t i)) :
    Resumes (zip Ss names sh fl) (fun st => ∀ i, I i (st i)) s t := by
  obtain ⟨tp, h1, h2⟩ := reloadAll_finRange h
  refine ⟨tp, h1, fun rest => ?_⟩
  obtain ⟨t', h3, h4, h5⟩ := h2 rest
  exact ⟨t', h3, zip_isSim.same h4, h5⟩

theorem zip_rewinds {s : (zip Ss names sh fl).σ} (h : ∀ i, Rewinds (Ss i) (s i)) :
    Rewinds (zip Ss names sh fl) s := zip_isSim.same (fun i => h i)

theorem zip_restarts (h : ∀ i, Restarts (Ss i)) : Restarts (zip Ss names sh fl) :=
  fun b => zip_isSim.same (fun i => h i b)

/-- What one round of `fetch_next` does, pipeline by pipeline. -/
theorem fetchAll_calm {I : (i : Fin n) → (Ss i).σ → Prop} (hI : ∀ i, Invar (Ss i) (I i))
    (hE : ∀ i, EodFinal (Ss i) (I i)) (hC : ∀ i, Calm (Ss i) (I i))
    {is : List (Fin n)} (hnd : is.Nodup) {st : States Ss} (hs : ∀ i, I i (st i)) :
    ∃ fs st₁, fetchAll Ss is st = some (.ok fs, st₁) ∧ (∀ i, I i (st₁ i)) ∧
      (∀ i, i ∉ is → st₁ i = st i) ∧
      (∀ i ∈ is, (Ss i).Ended (st i) → Fetched.ended ∈ fs ∧ (Ss i).Ended (st₁ i)) ∧
      (Fetched.ended ∈ fs → ∃ i ∈ is, (Ss i).Ended (st₁ i)) ∧
      (fs.all Fetched.isEod = true → ∀ i ∈ is, (Ss i).finitude ≠ .pseudoInfinite →
        Fetched.ended ∈ fs) := by
  induction is generalizing st with
  | nil => exact ⟨[], st, rfl, hs, fun _ _ => rfl, by simp, by simp, by simp⟩
  | cons i is ih =>
    obtain ⟨hni, hnd'⟩ := List.nodup_cons.mp hnd
    obtain ⟨r, s', h1, h2⟩ := hC i (hs i)
    have hf : ¬ r.fatal := by
      cases r with
      | err e => exact absurd rfl (h2 e)
      | _ => simp [Res.fatal]
    have h3 := upd_all hs ((hI i).next (hs i) h1 hf)
    obtain ⟨fs, st₁, h4, h5, h6, h7, h8, h9⟩ := ih hnd' h3
    have hsi : st₁ i = s' := by rw [h6 i hni, upd_same]
    have hout : ∀ j, j ∉ i :: is → st₁ j = st j := by
      intro j hj
      rw [List.mem_cons, not_or] at hj
      rw [h6 j hj.2, upd_ne _ _ hj.1]
    have hold : ∀ j ∈ is, (Ss j).Ended (st j) → Fetched.ended ∈ fs ∧ (Ss j).Ended (st₁ j) := by
      intro j hj he
      have hne : j ≠ i := fun h => hni (h ▸ hj)
      exact h7 j hj (by rw [upd_ne _ _ hne]; exact he)
    cases r with
    | err e => exact absurd rfl (h2 e)
    | eod =>
      refine ⟨.ended :: fs, st₁, by simp [fetchAll, h1, h4], h5, hout, ?_, ?_, by simp⟩
      · intro j hj he
        rcases List.mem_cons.mp hj with rfl | hj
        · exact ⟨by simp, by rw [hsi]; exact hE j (hs j) h1⟩
        · exact ⟨by simp, (hold j hj he).2⟩
      · exact fun _ => ⟨i, by simp, by rw [hsi]; exact hE i (hs i) h1⟩
    | yield x =>
      refine ⟨(if (Ss i).finitude = .pseudoInfinite then Fetched.pseudo x else .normal x) :: fs,
        st₁, by simp only [fetchAll, h1, h4], h5, hout, ?_, ?_, ?_⟩
      · intro j hj he
        rcases List.mem_cons.mp hj with rfl | hj
        · obtain ⟨s2, h10, _⟩ := he.next
          rw [h1] at h10
          cases h10
        · exact ⟨List.mem_cons_of_mem _ (hold j hj he).1, (hold j hj he).2⟩
      · intro h
        rcases List.mem_cons.mp h with h | h
        · split at h <;> cases h
        · obtain ⟨j, hj, he⟩ := h8 h
          exact ⟨j, List.mem_cons_of_mem _ hj, he⟩
      · intro hall j hj hp
        rw [List.all_cons, Bool.and_eq_true] at hall
        rcases List.mem_cons.mp hj with rfl | hj
        · rw [if_neg hp] at hall
          simp [Fetched.isEod] at hall
        · exact List.mem_cons_of_mem _ (h9 hall.2 j hj hp)

/-- `zip` with one ended pipeline stays at end of data, if nothing throws and it
zips to the shortest or has only ended before. -/
theorem zip_eod {I : (i : Fin n) → (Ss i).σ → Prop} (hI : ∀ i, Invar (Ss i) (I i))
    (hE : ∀ i, EodFinal (Ss i) (I i)) (hC : ∀ i, Calm (Ss i) (I i)) (hz : (zipFinitude Ss).isOk)
    (hn0 : n ≠ 0) (hsh : sh = true) :
    EodFinal (zip Ss names sh fl) (fun st => ∀ i, I i (st i)) := by
  subst hsh
  intro s s' hs hn
  have hstep : ∀ st : States Ss, (∀ i, I i (st i)) → (∃ i, (Ss i).Ended (st i)) →
      ∃ st', (zip Ss names true fl).next st = some (.eod, st') ∧ (∀ i, I i (st' i)) ∧
        ∃ i, (Ss i).Ended (st' i) := by
    rintro st hst ⟨i, hi⟩
    obtain ⟨fs, st₁, h1, h2, h3, h4, h5, h6⟩ :=
      fetchAll_calm hI hE hC (List.nodup_finRange n) hst
    obtain ⟨h7, h8⟩ := h4 i (List.mem_finRange i) hi
    refine ⟨st₁, ?_, h2, i, h8⟩
    simp only [zip, zipNext, h1]
    rw [if_neg hn0]
    have hne : fs.all Fetched.isNotEod = false := by
      rw [List.all_eq_false]
      exact ⟨.ended, h7, by simp [Fetched.isNotEod]⟩
    cases ha : fs.all Fetched.isEod <;> simp [hne]
  have hfirst : (∀ i, I i (s' i)) ∧ ∃ i, (Ss i).Ended (s' i) := by
    obtain ⟨fs, st₁, h1, h2, h3, h4, h5, h6⟩ :=
      fetchAll_calm hI hE hC (List.nodup_finRange n) hs
    simp only [zip, zipNext, h1] at hn
    rw [if_neg hn0] at hn
    have hmem : Fetched.ended ∈ fs → (∀ i, I i (st₁ i)) ∧ ∃ i, (Ss i).Ended (st₁ i) := by
      intro h
      obtain ⟨i, _, h7⟩ := h5 h
      exact ⟨h2, i, h7⟩
    split at hn
    · next h7 =>
      simp only [if_true] at hn
      cases hn
      apply hmem
      simp only [Bool.not_eq_true', Bool.or_eq_false_iff] at h7
      obtain ⟨f, hf, h8⟩ := List.all_eq_false.mp h7.2
      cases f with
      | ended => exact hf
      | _ => simp [Fetched.isNotEod] at h8
    · split at hn
      · next h7 =>
        cases hn
        apply hmem
        have : ∃ i, (Ss i).finitude ≠ .pseudoInfinite := by
          apply Classical.byContradiction
          intro hall
          have hall' : ∀ i, (Ss i).finitude = .pseudoInfinite := by
            intro i
            apply Classical.byContradiction
            exact fun h => hall ⟨i, h⟩
          simp [zipFinitude, hall', hn0, Except.isOk, Except.toBool] at hz
        obtain ⟨i, hi⟩ := this
        exact h6 h7 i (List.mem_finRange i) hi
      · split at hn <;> cases hn
  exact .coind (fun st => (∀ i, I i (st i)) ∧ ∃ i, (Ss i).Ended (st i)) hfirst
    (fun st ⟨h1, h2⟩ => hstep st h1 h2)

/-! ## round_robin -/

variable {rp : Bool}

theorem rrFetch_sim {i : Fin n} {st st' st₁ : States Ss} {m : Except Err (Option Data)} {d : Bool}
    (h : SameAll st st') (hn : rrFetch Ss rp i st = some (m, d, st₁)) :
    ∃ st₂, rrFetch Ss rp i st' = some (m, d, st₂) ∧ SameAll st₁ st₂ := by
  simp only [rrFetch] at hn ⊢
  split at hn
  · cases hn
  · next hi => cases hn; obtain ⟨j, hj, h'⟩ := (h i).next hi; exact ⟨_, by rw [hj], h.upd h'⟩
  · next hi => cases hn; obtain ⟨j, hj, h'⟩ := (h i).next hi; exact ⟨_, by rw [hj], h.upd h'⟩
  · next hi =>
    obtain ⟨j, hj, h'⟩ := (h i).next hi
    rw [hj]
    simp only
    split at hn
    · next hr =>
      rw [if_pos hr]
      split at hn
      · cases hn
      all_goals
        next h2 =>
        cases hn
        obtain ⟨j2, hj2, h2'⟩ := (h'.reset false).next h2
        exact ⟨_, by rw [hj2], h.upd h2'⟩
    · next hr => rw [if_neg hr]; cases hn; exact ⟨_, rfl, h.upd h'⟩

/-- Two round robin states with the same fields and indistinguishable upstreams. -/
structure RrRel (s t : RrSt Ss) : Prop where
  buffer : s.buffer = t.buffer
  idx : s.idx = t.idx
  done : s.done = t.done
  eod : s.eod = t.eod
  st : SameAll s.st t.st

theorem rrGather_sim {is : List (Fin n)} {s t s₁ : RrSt Ss} {r : Option Err}
    (h : RrRel s t) (hn : rrGather Ss rp is s = some (r, s₁)) :
    ∃ t₁, rrGather Ss rp is t = some (r, t₁) ∧ RrRel s₁ t₁ := by
  induction is generalizing s t with
  | nil => cases hn; exact ⟨t, rfl, h⟩
  | cons i is ih =>
    simp only [rrGather] at hn ⊢
    split at hn
    · cases hn
    · next hi =>
      cases hn
      obtain ⟨st₂, h1, h2⟩ := rrFetch_sim h.st hi
      rw [h1]
      exact ⟨_, rfl, h.buffer, h.idx, by simp [h.done], h.eod, h2⟩
    · next hi =>
      obtain ⟨st₂, h1, h2⟩ := rrFetch_sim h.st hi
      rw [h1]
      refine ih ?_ hn
      exact ⟨by simp [h.buffer], h.idx, by simp [h.done], h.eod, h2⟩

theorem rrScan_sim {fuel : Nat} {s t s₁ : RrSt Ss} {r : Res}
    (h : RrRel s t) (hn : rrScan Ss rp fuel s = some (r, s₁)) :
    ∃ t₁, rrScan Ss rp fuel t = some (r, t₁) ∧ RrRel s₁ t₁ := by
  induction fuel generalizing s t with
  | zero => cases hn; exact ⟨t, rfl, h⟩
  | succ fuel ih =>
    obtain ⟨b, k, d, e, st⟩ := s
    obtain ⟨b', k', d', e', st'⟩ := t
    obtain ⟨h1, h2, h3, h4, h5⟩ := h
    simp only at h1 h2 h3 h4 h5
    subst h1 h2 h3 h4
    simp only [rrScan] at hn ⊢
    split at hn
    · next hb =>
      split at hn
      · next hk =>
        rw [dif_pos hk]
        split at hn
        · cases hn
        · next hi =>
          cases hn
          obtain ⟨st₂, h6, h7⟩ := rrFetch_sim h5 hi
          rw [h6]
          exact ⟨_, rfl, rfl, rfl, rfl, rfl, h7⟩
        · next hi =>
          cases hn
          obtain ⟨st₂, h6, h7⟩ := rrFetch_sim h5 hi
          rw [h6]
          exact ⟨_, rfl, rfl, rfl, rfl, rfl, h7⟩
      · next hk => cases hn; rw [dif_neg hk]; exact ⟨_, rfl, rfl, rfl, rfl, rfl, h5⟩
    · refine ih ?_ hn
      exact ⟨rfl, rfl, rfl, rfl, h5⟩

theorem rrWrap_rel {s t : RrSt Ss} (h : RrRel s t) : RrRel (rrWrap s) (rrWrap t) := by
  obtain ⟨b, k, d, e, st⟩ := s
  obtain ⟨b', k', d', e', st'⟩ := t
  obtain ⟨h1, h2, h3, h4, h5⟩ := h
  simp only at h1 h2 h3 h4 h5
  subst h1 h2 h3 h4
  simp only [rrWrap]
  split <;> exact ⟨rfl, rfl, rfl, rfl, h5⟩

/-- The same, except that `is_eod_` need not agree at a final end of data. -/
def RrRel' (sh : Bool) (s t : RrSt Ss) : Prop :=
  s.buffer = t.buffer ∧ s.idx = t.idx ∧ s.done = t.done ∧ SameAll s.st t.st ∧
    (s.eod = t.eod ∨ s.idx = 0 ∧ rrAllDone sh s.done = true)

theorem rrNext_eod {s : RrSt Ss} (h : s.idx = 0 ∧ rrAllDone sh s.done = true) :
    ∃ e, rrNext Ss sh rp s = some (.eod, { s with eod := e }) := by
  simp only [rrNext]
  split
  · exact ⟨s.eod, rfl⟩
  · exact ⟨true, rfl⟩

theorem rrNext_sim {s t s' : RrSt Ss} {r : Res} (h : RrRel' sh s t)
    (hn : rrNext Ss sh rp s = some (r, s')) :
    ∃ t', rrNext Ss sh rp t = some (r, t') ∧ RrRel' sh s' t' := by
  by_cases hd : s.idx = 0 ∧ rrAllDone sh s.done = true
  · -- end of data whatever `is_eod_` says
    obtain ⟨e, h1⟩ := rrNext_eod (rp := rp) hd
    rw [h1] at hn
    cases hn
    obtain ⟨h2, h3, h4, h5, h6⟩ := h
    obtain ⟨e', h7⟩ := rrNext_eod (rp := rp) (s := t) (by rw [← h3, ← h4]; exact hd)
    exact ⟨_, h7, h2, h3, h4, h5, .inr hd⟩
  · have h' : RrRel s t :=
      ⟨h.1, h.2.1, h.2.2.1, h.2.2.2.2.resolve_right hd, h.2.2.2.1⟩
    have hd' : ¬ (t.idx = 0 ∧ rrAllDone sh t.done = true) := by rw [← h'.idx, ← h'.done]; exact hd
    have hfin : ∀ {s t : RrSt Ss}, RrRel s t → RrRel' sh s t :=
      fun h => ⟨h.buffer, h.idx, h.done, h.st, .inl h.eod⟩
    simp only [rrNext] at hn ⊢
    split at hn
    · next h0 => cases hn; rw [if_pos (by rw [← h'.eod]; exact h0)]; exact ⟨t, rfl, hfin h'⟩
    · next h0 =>
      rw [if_neg (by rw [← h'.eod]; exact h0), if_neg hd']
      have hg : ∀ {x}, (if s.buffer = [] then rrGather Ss rp (List.finRange n) s
          else some (none, s)) = some x →
          ∃ t₁, (if t.buffer = [] then rrGather Ss rp (List.finRange n) t
            else some (none, t)) = some (x.1, t₁) ∧ RrRel x.2 t₁ := by
        intro x hx
        rw [← h'.buffer]
        split at hx
        · next hb => rw [if_pos hb]; exact rrGather_sim h' hx
        · next hb => rw [if_neg hb]; cases hx; exact ⟨_, rfl, h'⟩
      split at hn
      · cases hn
      · next h1 =>
        cases hn
        obtain ⟨t₁, h6, h7⟩ := hg h1
        rw [h6]
        exact ⟨t₁, rfl, hfin h7⟩
      · next h1 =>
        obtain ⟨t₁, h6, h7⟩ := hg h1
        rw [h6]
        simp only at h7 ⊢
        rw [← h7.buffer, ← h7.idx]
        split at hn
        · cases hn
        · next h2 =>
          cases hn
          obtain ⟨t₂, h8, h9⟩ := rrScan_sim h7 h2
          rw [h8]
          exact ⟨t₂, rfl, hfin h9⟩
        · next h2 hne =>
          cases hn
          obtain ⟨t₂, h8, h9⟩ := rrScan_sim h7 hne
          rw [h8]
          refine ⟨rrWrap t₂, ?_, hfin (rrWrap_rel h9)⟩
          cases r with
          | err e => exact absurd rfl (h2 e)
          | _ => rfl

theorem rr_isSim : IsSim (roundRobin Ss sh rp) (RrRel' sh) where
  symm {s t} h := by
    obtain ⟨h1, h2, h3, h4, h5⟩ := h
    exact ⟨h1.symm, h2.symm, h3.symm, h4.symm, h5.imp Eq.symm (by rw [h2, h3]; exact id)⟩
  reset b h := ⟨rfl, rfl, rfl, h.2.2.2.1.reset b, .inl rfl⟩
  next h hn := rrNext_sim h hn

theorem rrFetch_inv {I : (i : Fin n) → (Ss i).σ → Prop} (hI : ∀ i, Invar (Ss i) (I i))
    {i : Fin n} {st st₁ : States Ss} {m : Except Err (Option Data)} {d : Bool}
    (hs : ∀ i, I i (st i)) (hn : rrFetch Ss rp i st = some (m, d, st₁))
    (hf : ∀ e, m = .error e → ¬ (Res.err e).fatal) : ∀ i, I i (st₁ i) := by
  simp only [rrFetch] at hn
  split at hn
  · cases hn
  · next hi => cases hn; exact upd_all hs ((hI i).next (hs i) hi (hf _ rfl))
  · next hi => cases hn; exact upd_all hs ((hI i).next (hs i) hi (by simp [Res.fatal]))
  · next hi =>
    have h1 := (hI i).next (hs i) hi (by simp [Res.fatal])
    split at hn
    · split at hn
      · cases hn
      · next h2 => cases hn; exact upd_all hs ((hI i).next ((hI i).reset false h1) h2 (hf _ rfl))
      · next h2 =>
        cases hn; exact upd_all hs ((hI i).next ((hI i).reset false h1) h2 (by simp [Res.fatal]))
      · next h2 =>
        cases hn; exact upd_all hs ((hI i).next ((hI i).reset false h1) h2 (by simp [Res.fatal]))
    · cases hn; exact upd_all hs h1

theorem rrGather_inv {I : (i : Fin n) → (Ss i).σ → Prop} (hI : ∀ i, Invar (Ss i) (I i))
    {is : List (Fin n)} {s s₁ : RrSt Ss} {r : Option Err} (hs : ∀ i, I i (s.st i))
    (hn : rrGather Ss rp is s = some (r, s₁)) (hf : ∀ e, r = some e → ¬ (Res.err e).fatal) :
    (∀ i, I i (s₁.st i)) ∧ s₁.eod = s.eod ∧ s₁.idx = s.idx := by
  induction is generalizing s with
  | nil => cases hn; exact ⟨hs, rfl, rfl⟩
  | cons i is ih =>
    simp only [rrGather] at hn
    split at hn
    · cases hn
    · next hi =>
      cases hn
      exact ⟨rrFetch_inv hI hs hi (by rintro e ⟨⟩; exact hf _ rfl), rfl, rfl⟩
    · next hi =>
      have := ih ?_ hn
      · exact this
      · exact rrFetch_inv hI hs hi (by rintro e ⟨⟩)

theorem rrScan_inv {I : (i : Fin n) → (Ss i).σ → Prop} (hI : ∀ i, Invar (Ss i) (I i))
    {fuel : Nat} {s s₁ : RrSt Ss} {r : Res} (hs : ∀ i, I i (s.st i))
    (hn : rrScan Ss rp fuel s = some (r, s₁)) (hf : ¬ r.fatal) :
    (∀ i, I i (s₁.st i)) ∧ s₁.eod = s.eod := by
  induction fuel generalizing s with
  | zero => cases hn; exact ⟨hs, rfl⟩
  | succ fuel ih =>
    simp only [rrScan] at hn
    split at hn
    · split at hn
      · split at hn
        · cases hn
        · next hi => cases hn; exact ⟨rrFetch_inv hI hs hi (by rintro e ⟨⟩; exact hf), rfl⟩
        · next hi => cases hn; exact ⟨rrFetch_inv hI hs hi (by rintro e ⟨⟩), rfl⟩
      · cases hn; exact ⟨hs, rfl⟩
    · have := ih ?_ hn
      · exact this
      · exact hs

/-- The invariant of round robin: `is_eod_` is only set at a final end of data. -/
def RrInv (sh : Bool) (I : (i : Fin n) → (Ss i).σ → Prop) (s : RrSt Ss) : Prop :=
  (∀ i, I i (s.st i)) ∧ (s.eod = true → s.idx = 0 ∧ rrAllDone sh s.done = true)

theorem rr_inv {I : (i : Fin n) → (Ss i).σ → Prop} (hI : ∀ i, Invar (Ss i) (I i)) :
    Invar (roundRobin Ss sh rp) (RrInv sh I) where
  reset b hs := ⟨fun i => (hI i).reset b (hs.1 i), by intro h; simp [roundRobin] at h⟩
  next {s r s'} hs hn hf := by
    simp only [roundRobin, rrNext] at hn
    split at hn
    · cases hn; exact hs
    · next h0 =>
      simp only [not_or, Bool.not_eq_true] at h0
      split at hn
      · next h1 => cases hn; exact ⟨hs.1, fun _ => h1⟩
      · have hg : ∀ {x}, (if s.buffer = [] then rrGather Ss rp (List.finRange n) s
            else some (none, s)) = some x → (∀ e, x.1 = some e → ¬ (Res.err e).fatal) →
            (∀ i, I i (x.2.st i)) ∧ x.2.eod = false := by
          intro x hx hxf
          split at hx
          · have := rrGather_inv hI hs.1 hx hxf
            exact ⟨this.1, this.2.1.trans h0.2⟩
          · cases hx; exact ⟨hs.1, h0.2⟩
        split at hn
        · cases hn
        · next h1 =>
          cases hn
          have := hg h1 (by rintro e ⟨⟩; exact hf)
          exact ⟨this.1, by rw [this.2]; simp⟩
        · next h1 =>
          have h2 := hg h1 (by rintro e ⟨⟩)
          simp only at h2
          split at hn
          · cases hn
          · next h3 =>
            cases hn
            have := rrScan_inv hI h2.1 h3 hf
            exact ⟨this.1, by rw [this.2, h2.2]; simp⟩
          · next h3 =>
            cases hn
            have := rrScan_inv hI h2.1 h3 hf
            simp only [rrWrap]
            split
            · exact ⟨this.1, by simp [this.2, h2.2]⟩
            · exact ⟨this.1, by rw [this.2, h2.2]; simp⟩

theorem readOpt_data (a : Option Data) (rest : Tape) :
    readOpt readData (recordOpt (fun d => [d]) a ++ rest) = .ok (a, rest) :=
  readOpt_recordOpt (fun _ _ => rfl) a rest

theorem rr_resumes {I : (i : Fin n) → (Ss i).σ → Prop} {s t : RrSt Ss} (hs : RrInv sh I s)
    (h : ∀ i, Resumes (Ss i) (I i) (s.st i) (t.st i)) :
    Resumes (roundRobin Ss sh rp) (RrInv sh I) s t := by
  obtain ⟨tp, h1, h2⟩ := reloadAll_finRange h
  refine ⟨recordVec (recordOpt (fun d => [d])) s.buffer ++ [.int s.idx]
    ++ recordVec (fun b => [.bool b]) s.done ++ tp, by simp [roundRobin, h1], fun rest => ?_⟩
  obtain ⟨t', h3, h4, h5⟩ := h2 rest
  refine ⟨⟨s.buffer, s.idx, s.done, false, t'⟩, ?_, ?_, h5, by simp⟩
  · simp only [roundRobin, List.append_assoc, if_true]
    rw [readVec_recordVec readOpt_data]
    simp only [List.cons_append, List.nil_append]
    have : readNat (Data.int (s.idx : Int) ::
        (recordVec (fun b => [Data.bool b]) s.done ++ (tp ++ rest)))
        = .ok (s.idx, recordVec (fun b => [Data.bool b]) s.done ++ (tp ++ rest)) := rfl
    rw [this]
    simp only
    rw [readVec_recordVec (rd := readBool) (wr := fun b => [Data.bool b]) (fun _ _ => rfl)]
    simp [h3]
  · refine rr_isSim.same ⟨rfl, rfl, rfl, h4, ?_⟩
    cases he : s.eod with
    | false => exact .inl rfl
    | true => exact .inr (hs.2 he)

theorem rr_rewinds {s : (roundRobin Ss sh rp).σ} (h : ∀ i, Rewinds (Ss i) (s.st i)) :
    Rewinds (roundRobin Ss sh rp) s := rr_isSim.same ⟨rfl, rfl, rfl, fun i => h i, .inl rfl⟩

theorem rr_restarts (h : ∀ i, Restarts (Ss i)) : Restarts (roundRobin Ss sh rp) :=
  fun b => rr_isSim.same ⟨rfl, rfl, rfl, fun i => h i b, .inl rfl⟩

end Fs2
