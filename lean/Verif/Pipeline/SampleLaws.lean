import Verif.Pipeline.Buffered
import Verif.Pipeline.MultiLaws
import Verif.Pipeline.ShuffleLaws

/-!
# Laws of `sample`
-/

namespace Fs2
open Source

section
variable {R : Rng} {n : Nat} {Ss : Fin n → Source} {ws : List Rat} {seed : Nat} {rp : Bool}

/-- Same fields, indistinguishable upstreams. -/
def SampleRel (s t : SampleSt R Ss) : Prop :=
  ∃ st, t = { s with st := st } ∧ SameAll s.st st

theorem SampleRel.symm {s t : SampleSt R Ss} (h : SampleRel s t) : SampleRel t s := by
  obtain ⟨st, rfl, h2⟩ := h
  exact ⟨s.st, rfl, h2.symm⟩

theorem sampleFetch_sim {i : Fin n} {s t s₁ : SampleSt R Ss} {m : Except Err (Option Data)}
    (h : SampleRel s t) (hn : sampleFetch R Ss rp i s = some (m, s₁)) :
    ∃ t₁, sampleFetch R Ss rp i t = some (m, t₁) ∧ SampleRel s₁ t₁ := by
  obtain ⟨st, rfl, h⟩ := h
  simp only [sampleFetch] at hn ⊢
  split at hn
  · cases hn
  · next hi => cases hn; obtain ⟨j, hj, h'⟩ := (h i).next hi; exact ⟨_, by rw [hj], _, rfl, h.upd h'⟩
  · next hi => cases hn; obtain ⟨j, hj, h'⟩ := (h i).next hi; exact ⟨_, by rw [hj], _, rfl, h.upd h'⟩
  · next hi =>
    obtain ⟨j, hj, h'⟩ := (h i).next hi
    rw [hj]
    simp only
    split at hn
    · next hr =>
      rw [if_pos hr]
      split at hn
      · cases hn
      all_goals
        next h2 =>
        cases hn
        obtain ⟨j2, hj2, h2'⟩ := (h'.reset false).next h2
        exact ⟨_, by rw [hj2], _, rfl, h.upd h2'⟩
    · next hr => rw [if_neg hr]; cases hn; exact ⟨_, rfl, _, rfl, h.upd h'⟩

theorem sampleGather_sim {is : List (Fin n)} {s t s₁ : SampleSt R Ss} {r : Option Err}
    (h : SampleRel s t) (hn : sampleGather R Ss rp is s = some (r, s₁)) :
    ∃ t₁, sampleGather R Ss rp is t = some (r, t₁) ∧ SampleRel s₁ t₁ := by
  induction is generalizing s t with
  | nil => cases hn; exact ⟨_, rfl, h⟩
  | cons i is ih =>
    simp only [sampleGather] at hn ⊢
    split at hn
    · cases hn
    · next hi =>
      cases hn
      obtain ⟨t₁, ht, h'⟩ := sampleFetch_sim h hi
      exact ⟨_, by rw [ht], h'⟩
    · next hi =>
      obtain ⟨t₁, ht, st, rfl, h'⟩ := sampleFetch_sim h hi
      rw [ht]
      refine ih ?_ hn
      exact ⟨st, rfl, h'⟩

theorem sampleDraw_sim {s t s₁ : SampleSt R Ss} {r : Res}
    (h : SampleRel s t) (hn : sampleDraw R Ss rp s = some (r, s₁)) :
    ∃ t₁, sampleDraw R Ss rp t = some (r, t₁) ∧ SampleRel s₁ t₁ := by
  obtain ⟨st, rfl, h⟩ := h
  have hr : ∀ g : R.G, SampleRel { s with gen := g } { s with gen := g, st := st } :=
    fun g => ⟨st, rfl, h⟩
  simp only [sampleDraw] at hn ⊢
  split at hn
  · cases hn; exact ⟨_, rfl, _, rfl, h⟩
  · split at hn
    · next hk =>
      rw [dif_pos hk]
      split at hn
      · cases hn
      · next hi =>
        cases hn
        obtain ⟨t₁, ht, h'⟩ := sampleFetch_sim (hr _) hi
        exact ⟨_, by rw [ht], h'⟩
      · next hi =>
        cases hn
        obtain ⟨t₁, ht, st', rfl, h'⟩ := sampleFetch_sim (hr _) hi
        exact ⟨_, by rw [ht], st', rfl, h'⟩
    · next hk => rw [dif_neg hk]; cases hn; exact ⟨_, rfl, _, rfl, h⟩

theorem sample_isSim : IsSim (sample R Ss ws seed rp) (SampleRel (Ss := Ss)) where
  symm h := h.symm
  reset b h := by
    obtain ⟨st, rfl, h⟩ := h
    exact ⟨_, rfl, h.reset b⟩
  next {s t r s'} h hn := by
    simp only [sample, sampleNext] at hn ⊢
    have e : t.done = s.done ∧ t.buf = s.buf := by obtain ⟨st, rfl, -⟩ := h; exact ⟨rfl, rfl⟩
    rw [e.1, e.2]
    split at hn
    · next h0 => rw [if_pos h0]; cases hn; exact ⟨_, rfl, h⟩
    · next h0 =>
      rw [if_neg h0]
      have hg : ∀ {r₁ s₁}, (if s.buf = [] then sampleGather R Ss rp (List.finRange n) s
            else some (none, s)) = some (r₁, s₁) →
          ∃ t₁, (if s.buf = [] then sampleGather R Ss rp (List.finRange n) t
            else some (none, t)) = some (r₁, t₁) ∧ SampleRel s₁ t₁ := by
        intro r₁ s₁ hx
        split at hx
        · next hb => rw [if_pos hb]; exact sampleGather_sim h hx
        · next hb => rw [if_neg hb]; cases hx; exact ⟨_, rfl, h⟩
      split at hn
      · cases hn
      · next h1 =>
        cases hn
        obtain ⟨t₁, ht, h'⟩ := hg h1
        exact ⟨_, by rw [ht], h'⟩
      · next h1 =>
        obtain ⟨t₁, ht, h'⟩ := hg h1
        obtain ⟨t₂, ht₂, h''⟩ := sampleDraw_sim h' hn
        exact ⟨_, by rw [ht]; exact ht₂, h''⟩

/-- The invariant: an example is missing in the buffer only for a pipeline that
is done. -/
structure SampleInv (ws : List Rat) (seed : Nat) (rp : Bool) (I : (i : Fin n) → (Ss i).σ → Prop)
    (s : SampleSt R Ss) : Prop where
  inner : ∀ i, I i (s.st i)
  len : s.done.length = n
  missing : ∀ k : Nat, s.buf[k]? = some none → rp = false ∧ s.done[k]? = some true
  seed : s.seed = seed
  cums : rp = true → s.cums = initCums ws

/-- What a fetch leaves alone, and what it tells. -/
theorem sampleFetch_spec {i : Fin n} {s s₁ : SampleSt R Ss} {m : Except Err (Option Data)}
    (hn : sampleFetch R Ss rp i s = some (m, s₁)) :
    s₁.buf = s.buf ∧ s₁.seed = s.seed ∧ s₁.gen = s.gen ∧ (rp = true → s₁.cums = s.cums) ∧
      (s₁.done = s.done ∨ s₁.done = s.done.set i true) ∧
      (m = .ok none → rp = false ∧ s₁.done = s.done.set i true) := by
  simp only [sampleFetch] at hn
  split at hn
  · cases hn
  · cases hn; simp
  · cases hn; by_cases hp : (Ss i).finitude = .pseudoInfinite <;> simp [markDone, hp]
  · split at hn
    · split at hn
      · cases hn
      all_goals cases hn; simp
    · next hr => cases hn; simp at hr; simp [hr]

theorem sampleFetch_inv {I : (i : Fin n) → (Ss i).σ → Prop} (hI : ∀ i, Invar (Ss i) (I i))
    {i : Fin n} {s s₁ : SampleSt R Ss} {m : Except Err (Option Data)}
    (hs : SampleInv ws seed rp I s) (hn : sampleFetch R Ss rp i s = some (m, s₁))
    (hf : ∀ e, m = .error e → ¬ (Res.err e).fatal) : SampleInv ws seed rp I s₁ := by
  obtain ⟨h1, h2, h3, h4, h5, h6⟩ := sampleFetch_spec hn
  have hlen : s₁.done.length = n := by rcases h5 with h5 | h5 <;> simp [h5, hs.len]
  refine ⟨?_, hlen, ?_, h2.trans hs.seed, fun hr => (h4 hr).trans (hs.cums hr)⟩
  · simp only [sampleFetch] at hn
    split at hn
    · cases hn
    · next hi => cases hn; exact upd_all hs.inner ((hI i).next (hs.inner i) hi (hf _ rfl))
    · next hi => cases hn; exact upd_all hs.inner ((hI i).next (hs.inner i) hi (by simp [Res.fatal]))
    · next hi =>
      have g1 := (hI i).next (hs.inner i) hi (by simp [Res.fatal])
      split at hn
      · split at hn
        · cases hn
        · next g2 =>
          cases hn; exact upd_all hs.inner ((hI i).next ((hI i).reset false g1) g2 (hf _ rfl))
        · next g2 =>
          cases hn
          exact upd_all hs.inner ((hI i).next ((hI i).reset false g1) g2 (by simp [Res.fatal]))
        · next g2 =>
          cases hn
          exact upd_all hs.inner ((hI i).next ((hI i).reset false g1) g2 (by simp [Res.fatal]))
      · cases hn; exact upd_all hs.inner g1
  · intro k hk
    obtain ⟨a1, a2⟩ := hs.missing k (h1 ▸ hk)
    refine ⟨a1, ?_⟩
    rcases h5 with h5 | h5 <;> rw [h5]
    · exact a2
    · rw [List.getElem?_set]
      obtain ⟨hk, -⟩ := List.getElem?_eq_some_iff.mp a2
      split
      · next he => subst he; simp [hk]
      · exact a2

theorem sampleGather_inv {I : (i : Fin n) → (Ss i).σ → Prop} (hI : ∀ i, Invar (Ss i) (I i))
    {pre is : List (Fin n)} (hpre : List.finRange n = pre ++ is)
    {s s₁ : SampleSt R Ss} {r : Option Err} (hs : SampleInv ws seed rp I s)
    (hb : s.buf.length = pre.length)
    (hn : sampleGather R Ss rp is s = some (r, s₁)) (hf : ∀ e, r = some e → ¬ (Res.err e).fatal) :
    SampleInv ws seed rp I s₁ := by
  induction is generalizing s pre with
  | nil => cases hn; exact hs
  | cons i is ih =>
    simp only [sampleGather] at hn
    split at hn
    · cases hn
    · next hi =>
      cases hn
      exact sampleFetch_inv hI hs hi (by rintro e ⟨⟩; exact hf _ rfl)
    · next m s₂ hi =>
      have h1 := sampleFetch_inv hI hs hi (by rintro e ⟨⟩)
      obtain ⟨e1, _, _, _, _, e6⟩ := sampleFetch_spec hi
      have hidx : (i : Nat) = pre.length := by
        have := congrArg (fun l => l[pre.length]?) hpre
        simp [List.getElem?_eq_some_iff] at this
        obtain ⟨_, h⟩ := this
        exact (congrArg Fin.val h).symm
      refine ih (pre := pre ++ [i]) (by simp [hpre]) ?_ (by simp [e1, hb]) hn
      refine ⟨h1.inner, h1.len, ?_, h1.seed, h1.cums⟩
      intro k hk
      simp only [e1] at hk
      rw [List.getElem?_append] at hk
      split at hk
      · exact h1.missing k (e1 ▸ hk)
      · next hge =>
        have hk0 : k - s.buf.length = 0 := by
          rcases Nat.eq_zero_or_pos (k - s.buf.length) with h | h
          · exact h
          · rw [List.getElem?_eq_none (by simp; omega)] at hk; cases hk
        rw [hk0] at hk
        simp at hk
        subst hk
        obtain ⟨a1, a2⟩ := e6 rfl
        refine ⟨a1, ?_⟩
        have : k = (i : Nat) := by omega
        subst this
        rw [a2, List.getElem?_set]
        simp [hs.len]

theorem skipDone_spec {ds : List Bool} {j k : Nat} (h : skipDone ds j = some k) :
    j ≤ k ∧ ds[k - j]? = some false := by
  induction ds generalizing j with
  | nil => cases h
  | cons d ds ih =>
    cases d with
    | false => cases h; simp
    | true =>
      obtain ⟨h1, h2⟩ := ih h
      refine ⟨by omega, ?_⟩
      rw [show k - j = (k - (j + 1)) + 1 by omega, List.getElem?_cons_succ]
      exact h2

/-- The index drawn belongs to a pipeline that is not done, unless examples may
repeat. -/
theorem sampleIndex_spec {cs : List Rat} {done : List Bool} {g : R.G} {k : Nat}
    (h : (sampleIndex R rp cs done g).1 = some k) : rp = true ∨ done[k]? = some false := by
  simp only [sampleIndex] at h
  split at h
  · next hr => exact .inl hr
  · right
    obtain ⟨h1, h2⟩ := skipDone_spec h
    rw [List.getElem?_drop] at h2
    rwa [Nat.add_sub_cancel' h1] at h2

theorem sampleDraw_inv {I : (i : Fin n) → (Ss i).σ → Prop} (hI : ∀ i, Invar (Ss i) (I i))
    {s s₁ : SampleSt R Ss} {r : Res} (hs : SampleInv ws seed rp I s)
    (hn : sampleDraw R Ss rp s = some (r, s₁)) (hf : ¬ r.fatal) :
    SampleInv ws seed rp I s₁ ∧ r ≠ .eod := by
  have hs' : ∀ g : R.G, SampleInv ws seed rp I { s with gen := g } :=
    fun g => ⟨hs.inner, hs.len, hs.missing, hs.seed, hs.cums⟩
  simp only [sampleDraw] at hn
  split at hn
  · cases hn; simp [Res.fatal, sampleUndefined] at hf
  · next k hk =>
    split at hn
    · next hlt =>
      split at hn
      · cases hn
      · next hi =>
        cases hn
        exact ⟨sampleFetch_inv hI (hs' _) hi (by rintro e ⟨⟩; exact hf), by simp⟩
      · next m s₂ hi =>
        cases hn
        obtain ⟨e1, _, _, _, _, e6⟩ := sampleFetch_spec hi
        have h1 := sampleFetch_inv hI (hs' _) hi (by rintro e ⟨⟩)
        refine ⟨⟨h1.inner, h1.len, ?_, h1.seed, h1.cums⟩, ?_⟩
        · intro j hj
          simp only [List.getElem?_set] at hj
          split at hj
          · next he =>
            split at hj
            · simp at hj
              subst he hj
              obtain ⟨a1, a2⟩ := e6 rfl
              refine ⟨a1, ?_⟩
              rw [a2, List.getElem?_set]
              simp [hs.len, hlt.1]
            · cases hj
          · exact h1.missing j hj
        · obtain ⟨x, hx⟩ : ∃ x, s.buf[k]? = some (some x) := by
            cases hb : s.buf[k]? with
            | none => rw [List.getElem?_eq_none_iff] at hb; have := hlt.2; omega
            | some o =>
              cases o with
              | some x => exact ⟨x, rfl⟩
              | none =>
                obtain ⟨a1, a2⟩ := hs.missing k hb
                rcases sampleIndex_spec hk with h | h
                · simp [a1] at h
                · rw [a2] at h; cases h
          simp [e1, List.getD, hx]
    · cases hn; simp [Res.fatal, sampleUndefined] at hf

theorem sample_inv {I : (i : Fin n) → (Ss i).σ → Prop} (hI : ∀ i, Invar (Ss i) (I i)) :
    Invar (sample R Ss ws seed rp) (SampleInv ws seed rp I) where
  reset b hs := by
    refine ⟨fun i => (hI i).reset b (hs.inner i), by simp [sample], by simp [sample], hs.seed, ?_⟩
    intro hr
    simp [sample, hr]
    exact hs.cums hr
  next {s r s'} hs hn hf := by
    simp only [sample, sampleNext] at hn
    split at hn
    · cases hn; exact hs
    · have hg : ∀ {r₁ s₁}, (if s.buf = [] then sampleGather R Ss rp (List.finRange n) s
            else some (none, s)) = some (r₁, s₁) → (∀ e, r₁ = some e → ¬ (Res.err e).fatal) →
          SampleInv ws seed rp I s₁ := by
        intro r₁ s₁ hx hxf
        split at hx
        · next hb => exact sampleGather_inv hI (pre := []) rfl hs (by simp [hb]) hx hxf
        · cases hx; exact hs
      split at hn
      · cases hn
      · next h1 => cases hn; exact hg h1 (by rintro e ⟨⟩; exact hf)
      · next h1 => exact (sampleDraw_inv hI (hg h1 (by rintro e ⟨⟩)) hn hf).1

theorem sample_inv_init {I : (i : Fin n) → (Ss i).σ → Prop} (h : ∀ i, I i (Ss i).init) :
    SampleInv ws seed rp I (sample R Ss ws seed rp).init :=
  ⟨h, by simp [sample], by simp [sample], rfl, fun _ => rfl⟩

theorem sample_next (s : SampleSt R Ss) :
    (sample R Ss ws seed rp).next s = sampleNext R Ss rp s := rfl

theorem sample_done {s : SampleSt R Ss} (h : n = 0 ∨ s.done.all id = true) :
    (sample R Ss ws seed rp).Ended s := by
  refine .coind (fun t => t = s) rfl ?_
  rintro t rfl
  exact ⟨t, (sample_next t).trans (by simp only [sampleNext]; rw [if_pos h]; rfl), rfl⟩

theorem sample_eod {I : (i : Fin n) → (Ss i).σ → Prop} (hI : ∀ i, Invar (Ss i) (I i)) :
    EodFinal (sample R Ss ws seed rp) (SampleInv ws seed rp I) := by
  intro s s' hs hn
  simp only [sample, sampleNext] at hn
  split at hn
  · next h => cases hn; exact sample_done h
  · split at hn
    · cases hn
    · cases hn
    · next s₁ h1 =>
      refine absurd rfl (sampleDraw_inv (ws := ws) (seed := seed) hI (s := s₁) ?_ hn (by simp [Res.fatal])).2
      split at h1
      · next hb => exact sampleGather_inv hI (pre := []) rfl hs (by simp [hb]) h1 (by simp)
      · cases h1; exact hs

theorem sample_resumes {I : (i : Fin n) → (Ss i).σ → Prop} {s t : SampleSt R Ss}
    (hseed : seed < 2 ^ 63) (hs : SampleInv ws seed rp I s)
    (h : ∀ i, Resumes (Ss i) (I i) (s.st i) (t.st i)) :
    Resumes (sample R Ss ws seed rp) (SampleInv ws seed rp I) s t := by
  obtain ⟨tp, h1, h2⟩ := reloadAll_finRange h
  refine ⟨_, by simp only [sample, h1]; rfl, fun rest => ?_⟩
  obtain ⟨t', h3, h4, h5⟩ := h2 rest
  refine ⟨{ s with st := t' }, ?_, sample_isSim.same ⟨s.st, rfl, h4⟩,
    h5, hs.len, hs.missing, hs.seed, hs.cums⟩
  simp only [sample, List.append_assoc, if_true]
  rw [readVec_recordVec readOpt_data]
  simp only
  rw [readVec_recordVec (rd := readBool) (wr := fun b => [Data.bool b]) (fun _ _ => rfl)]
  simp only [List.cons_append, List.append_assoc]
  simp only [toI64_small (hs.seed ▸ hseed), readNat, readGen_enc]
  rw [readVec_recordVec (rd := readNum) (wr := fun q => [Data.num q]) (fun _ _ => rfl)]
  simp [h3]

theorem sample_rewinds {I : (i : Fin n) → (Ss i).σ → Prop} {s : SampleSt R Ss}
    (hs : SampleInv ws seed rp I s) (h : ∀ i, Rewinds (Ss i) (s.st i)) :
    Rewinds (sample R Ss ws seed rp) s := by
  refine sample_isSim.same ⟨fun i => (Ss i).init, ?_, fun i => h i⟩
  have := hs.cums
  cases rp <;> simp [sample, hs.seed]
  exact (this rfl).symm

theorem sample_restarts (h : ∀ i, Restarts (Ss i)) : Restarts (sample R Ss ws seed rp) := by
  intro b
  refine sample_isSim.same ⟨fun i => (Ss i).init, ?_, fun i => h i b⟩
  simp [sample]

end
end Fs2
