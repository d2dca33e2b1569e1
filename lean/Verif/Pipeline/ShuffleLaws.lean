import Verif.Pipeline.Buffered
import Verif.Pipeline.SimpleLaws

/-!
# Laws and streams of `shuffle`
-/

namespace Fs2
open Source

theorem swapAt_perm {α : Type} (xs : List α) (i j : Nat) : (swapAt xs i j).Perm xs := by
  unfold swapAt
  split
  · next a b ha hb =>
    obtain ⟨h1, rfl⟩ := List.getElem?_eq_some_iff.mp ha
    obtain ⟨h2, rfl⟩ := List.getElem?_eq_some_iff.mp hb
    have := Array.swap_perm (xs := xs.toArray) (i := i) (j := j) (by simpa) (by simpa)
    rw [Array.perm_iff_toList_perm] at this
    simpa [Array.swap] using this
  · exact .refl _

theorem swapAt_drop {α : Type} (xs : List α) {i j n : Nat} (hi : i < n) (hj : j < n) :
    (swapAt xs i j).drop n = xs.drop n := by
  unfold swapAt
  split
  · rw [List.drop_set_of_lt (by omega), List.drop_set_of_lt (by omega)]
  · rfl

@[simp] theorem swapAt_length {α : Type} (xs : List α) (i j : Nat) :
    (swapAt xs i j).length = xs.length := (swapAt_perm xs i j).length_eq

theorem fisherYates_perm (R : Rng) (s : Nat) (xs : List Data) (g : R.G) :
    (fisherYates R s xs g).1.Perm xs := by
  fun_induction fisherYates R s xs g with
  | case1 => exact .refl _
  | case2 => exact .refl _
  | case3 => rename_i ih; exact ih.trans (swapAt_perm _ _ _)

@[simp] theorem fisherYates_length (R : Rng) (s : Nat) (xs : List Data) (g : R.G) :
    (fisherYates R s xs g).1.length = xs.length := (fisherYates_perm R s xs g).length_eq

/-- Only the first `s` elements move. -/
theorem fisherYates_drop (R : Rng) (s n : Nat) (xs : List Data) (g : R.G) (h : s ≤ n) :
    (fisherYates R s xs g).1.drop n = xs.drop n := by
  fun_induction fisherYates R s xs g with
  | case1 => rfl
  | case2 => rfl
  | case3 =>
    rename_i s r g' _ ih
    rw [ih (by omega), swapAt_drop]
    · omega
    · exact Nat.lt_of_lt_of_le (Nat.mod_lt _ (by omega)) h

section
variable {R : Rng} {S : Source} {w seed : Nat}

theorem shuffleTake_sim {s t : ShuffleSt R S.σ} {r : Res} {s' : ShuffleSt R S.σ}
    (h : s = { t with inner := s.inner } ∧ S.Same s.inner t.inner)
    (hn : shuffleTake R S s = some (r, s')) :
    ∃ t', shuffleTake R S t = some (r, t') ∧
      (s' = { t' with inner := s'.inner } ∧ S.Same s'.inner t'.inner) := by
  obtain ⟨b, p, e, f, sd, g, i⟩ := s
  obtain ⟨b', p', e', f', sd', g', j⟩ := t
  obtain ⟨h, hij⟩ := h
  simp only [ShuffleSt.mk.injEq] at h
  obtain ⟨rfl, rfl, rfl, rfl, rfl, rfl, -⟩ := h
  simp only at hij
  simp only [shuffleTake] at hn ⊢
  split at hn
  · next h1 =>
    rw [if_pos h1]
    split at hn
    · cases hn
    all_goals
      next hi =>
      cases hn
      obtain ⟨j', hj, h'⟩ := hij.next hi
      rw [hj]
      exact ⟨_, rfl, rfl, h'⟩
  · next h1 => rw [if_neg h1]; cases hn; exact ⟨_, rfl, rfl, hij⟩

theorem shuffleStep_sim {s t : ShuffleSt R S.σ} {r : Res} {s' : ShuffleSt R S.σ}
    (h : s = { t with inner := s.inner } ∧ S.Same s.inner t.inner)
    (hn : shuffleStep R S s = some (r, s')) :
    ∃ t', shuffleStep R S t = some (r, t') ∧
      (s' = { t' with inner := s'.inner } ∧ S.Same s'.inner t'.inner) := by
  obtain ⟨b, p, e, f, sd, g, i⟩ := s
  obtain ⟨b', p', e', f', sd', g', j⟩ := t
  obtain ⟨h, hij⟩ := h
  simp only [ShuffleSt.mk.injEq] at h
  obtain ⟨rfl, rfl, rfl, rfl, rfl, rfl, -⟩ := h
  simp only at hij
  simp only [shuffleStep] at hn ⊢
  split at hn
  · next h0 => cases hn; rw [if_pos h0]; exact ⟨_, rfl, rfl, hij⟩
  · next h0 =>
    rw [if_neg h0]
    exact shuffleTake_sim ⟨rfl, hij⟩ hn

theorem shuffleNext_sim {s t : ShuffleSt R S.σ} {r : Res} {s' : ShuffleSt R S.σ}
    (h : s = { t with inner := s.inner } ∧ S.Same s.inner t.inner)
    (hn : shuffleNext R w S s = some (r, s')) :
    ∃ t', shuffleNext R w S t = some (r, t') ∧
      (s' = { t' with inner := s'.inner } ∧ S.Same s'.inner t'.inner) := by
  obtain ⟨b, p, e, f, sd, g, i⟩ := s
  obtain ⟨b', p', e', f', sd', g', j⟩ := t
  obtain ⟨h, hij⟩ := h
  simp only [ShuffleSt.mk.injEq] at h
  obtain ⟨rfl, rfl, rfl, rfl, rfl, rfl, -⟩ := h
  simp only at hij
  simp only [shuffleNext] at hn ⊢
  split at hn
  · next h0 =>
    rw [if_pos h0]
    split at hn
    · cases hn
    · next hi =>
      cases hn
      obtain ⟨j', hj, h'⟩ := hij.next hi
      rw [hj]
      exact ⟨_, rfl, rfl, h'⟩
  · next h0 =>
    rw [if_neg h0]
    split at hn
    · next h1 =>
      rw [if_pos h1]
      split at hn
      · cases hn
      · next hi =>
        cases hn
        obtain ⟨j', hj, h'⟩ := readUpTo_sim isSim_same hij hi
        rw [hj]
        exact ⟨_, rfl, rfl, h'⟩
      · next hi =>
        obtain ⟨j', hj, h'⟩ := readUpTo_sim isSim_same hij hi
        rw [hj]
        exact shuffleStep_sim ⟨rfl, h'⟩ hn
    · next h1 => rw [if_neg h1]; exact shuffleStep_sim ⟨rfl, hij⟩ hn

theorem shuffle_isSim : IsSim (shuffle R w seed S)
    (fun s t : ShuffleSt R S.σ => s = { t with inner := s.inner } ∧ S.Same s.inner t.inner) where
  symm {s t} h := by
    obtain ⟨b1, p, e, f, sd, g, i⟩ := s
    obtain ⟨b', p', e', f', sd', g', j⟩ := t
    obtain ⟨h, hij⟩ := h
    simp only [ShuffleSt.mk.injEq] at h
    obtain ⟨rfl, rfl, rfl, rfl, rfl, rfl, -⟩ := h
    exact ⟨rfl, hij.symm⟩
  reset {s t} b h := by
    obtain ⟨b1, p, e, f, sd, g, i⟩ := s
    obtain ⟨b', p', e', f', sd', g', j⟩ := t
    obtain ⟨h, hij⟩ := h
    simp only [ShuffleSt.mk.injEq] at h
    obtain ⟨rfl, rfl, rfl, rfl, rfl, rfl, -⟩ := h
    exact ⟨rfl, hij.reset b⟩
  next h hn := shuffleNext_sim h hn

theorem shuffleStep_inv {I : S.σ → Prop} (hI : Invar S I) {s s' : ShuffleSt R S.σ} {r : Res}
    (hs : s.seed = seed ∧ I s.inner) (hn : shuffleStep R S s = some (r, s')) (hf : ¬ r.fatal) :
    s'.seed = seed ∧ I s'.inner := by
  simp only [shuffleStep, shuffleTake] at hn
  split at hn
  · cases hn; exact hs
  · split at hn
    · split at hn
      · cases hn
      all_goals
        next hi =>
        cases hn
        exact ⟨hs.1, hI.next hs.2 hi (by first | exact hf | simp [Res.fatal])⟩
    · cases hn; exact hs

theorem shuffle_inv {I : S.σ → Prop} (hI : Invar S I) :
    Invar (shuffle R w seed S) (fun s : ShuffleSt R S.σ => s.seed = seed ∧ I s.inner) where
  reset b h := ⟨h.1, hI.reset b h.2⟩
  next {s r s'} hs hn hf := by
    simp only [shuffle, shuffleNext] at hn
    split at hn
    · split at hn
      · cases hn
      · next hi => cases hn; exact ⟨hs.1, hI.next hs.2 hi hf⟩
    · split at hn
      · split at hn
        · cases hn
        · next hi => cases hn; exact ⟨hs.1, inv_readUpTo hI hs.2 hi (by rintro e ⟨⟩; exact hf)⟩
        · next hi =>
          refine shuffleStep_inv hI ?_ hn hf
          exact ⟨hs.1, inv_readUpTo hI hs.2 hi (by rintro e ⟨⟩)⟩
      · exact shuffleStep_inv hI hs hn hf

theorem shuffle_ended_buf {s : ShuffleSt R S.σ} (hw : shuffleWindow w ≠ 1) (hf : s.fill = false)
    (h : s.pos = s.stop) : (shuffle R w seed S).Ended s := by
  refine .coind (fun s : ShuffleSt R S.σ => s.fill = false ∧ s.pos = s.stop) ⟨hf, h⟩ ?_
  rintro (t : ShuffleSt R S.σ) ⟨hf, h⟩
  refine ⟨t, ?_, hf, h⟩
  simp [shuffle, shuffleNext, if_neg hw, hf, shuffleStep, h]

theorem shuffle_ended_one {s : ShuffleSt R S.σ} (hw : shuffleWindow w = 1) (h : S.Ended s.inner) :
    (shuffle R w seed S).Ended s := by
  refine .coind (fun s : ShuffleSt R S.σ => S.Ended s.inner) h ?_
  intro (t : ShuffleSt R S.σ) h
  obtain ⟨i', hi, he⟩ := h.next
  exact ⟨{ t with inner := i' }, by simp [shuffle, shuffleNext, if_pos hw, hi], he⟩

theorem shuffleStep_eod {s s' : ShuffleSt R S.σ} (hf : s.fill = false)
    (hn : shuffleStep R S s = some (.eod, s')) : s'.fill = false ∧ s'.pos = s'.stop := by
  simp only [shuffleStep, shuffleTake] at hn
  split at hn
  · next h0 => cases hn; exact ⟨hf, h0⟩
  · split at hn
    · split at hn <;> cases hn
    · cases hn

theorem shuffle_eod {I : S.σ → Prop} (hE : EodFinal S I) :
    EodFinal (shuffle R w seed S) (fun s : ShuffleSt R S.σ => s.seed = seed ∧ I s.inner) := by
  intro s s' hs hn
  simp only [shuffle, shuffleNext] at hn
  split at hn
  · next h0 =>
    split at hn
    · cases hn
    · next hi => cases hn; exact shuffle_ended_one h0 (hE hs.2 hi)
  · next h0 =>
    split at hn
    · split at hn
      · cases hn
      · cases hn
      · obtain ⟨h1, h2⟩ := shuffleStep_eod rfl hn
        exact shuffle_ended_buf h0 h1 h2
    · next h1 =>
      obtain ⟨h1, h2⟩ := shuffleStep_eod (by simpa using h1) hn
      exact shuffle_ended_buf h0 h1 h2

theorem toI64_small {n : Nat} (h : n < 2 ^ 63) : toI64 n = n := by simp [toI64, h]

theorem readGen_enc (R : Rng) (g : R.G) (t : Tape) :
    readGen R (.tensor (R.enc g) :: t) = .ok (g, t) := by
  simp [readGen, readTensor, R.dec_enc]

theorem shuffle_resumes {I : S.σ → Prop} {s t : ShuffleSt R S.σ} (hseed : seed < 2 ^ 63)
    (hs : s.seed = seed) (h : Resumes S I s.inner t.inner) :
    Resumes (shuffle R w seed S) (fun s : ShuffleSt R S.σ => s.seed = seed ∧ I s.inner) s t := by
  obtain ⟨tp, h1, h2⟩ := h
  refine ⟨_, by simp only [shuffle, h1]; rfl, fun rest => ?_⟩
  obtain ⟨t', h3, h4, h5⟩ := h2 rest
  refine ⟨{ s with inner := t' }, ?_, shuffle_isSim.same ⟨rfl, h4⟩, hs, h5⟩
  simp [shuffle, toI64_small (hs ▸ hseed), readList, readNat, readBool, readGen_enc, h3]

theorem shuffle_rewinds {s : ShuffleSt R S.σ} (hs : s.seed = seed) (h : Rewinds S s.inner) :
    Rewinds (shuffle R w seed S) s :=
  shuffle_isSim.same ⟨by simp [shuffle, hs], h⟩

theorem shuffle_restarts (h : Restarts S) : Restarts (shuffle R w seed S) :=
  fun b => shuffle_isSim.same ⟨by simp [shuffle], h b⟩

/-! ## The stream: every block of `w` examples is permuted -/

/-- The next call takes the example at the position of `m`. -/
def Takes (w : Nat) (s m : ShuffleSt R S.σ) : Prop :=
  shuffleNext R w S s = shuffleTake R S m

theorem takes_self (hw : shuffleWindow w ≠ 1) {s : ShuffleSt R S.σ} (hf : s.fill = false)
    (h0 : s.pos ≠ 0) (h : s.pos ≠ s.stop) : Takes w s s := by
  obtain ⟨b, p, e, f, sd, g, i⟩ := s
  simp only at hf h0 h
  subst hf
  simp [Takes, shuffleNext, shuffleStep, shuffleMix, hw, h, h0]

theorem takes_mix (hw : shuffleWindow w ≠ 1) {s : ShuffleSt R S.σ} (hf : s.fill = false)
    (h0 : s.pos = 0) (h : s.stop ≠ 0) :
    Takes w s { s with buf := (fisherYates R s.stop s.buf s.gen).1,
                            gen := (fisherYates R s.stop s.buf s.gen).2 } := by
  obtain ⟨b, p, e, f, sd, g, i⟩ := s
  simp only at hf h0 h
  subst hf h0
  simp [Takes, shuffleNext, shuffleStep, shuffleMix, hw, Ne.symm h]

theorem getD_append_length {α : Type} (xs ys : List α) (y d : α) :
    (xs ++ y :: ys).getD xs.length d = y := by simp

theorem set_append_length {α : Type} (xs ys : List α) (y z : α) :
    (xs ++ y :: ys).set xs.length z = (xs ++ [z]) ++ ys := by
  simp

/-- The rest of a pass over the buffer while the upstream has examples: `old` comes
out, `cs` goes in. -/
theorem shuffle_pass_full (hw : shuffleWindow w ≠ 1) {old new cs : List Data}
    {s m : ShuffleSt R S.σ} {i : S.σ} (ht : Takes w s m) (hf : m.fill = false)
    (hb : m.buf = new ++ old) (hp : m.pos = new.length) (hst : m.stop = m.buf.length)
    (hold : old ≠ []) (hc : S.Emits m.inner cs i) (hl : cs.length = old.length) :
    (shuffle R w seed S).Emits s old
      ⟨new ++ cs, 0, (new ++ cs).length, false, m.seed, m.gen, i⟩ := by
  induction old generalizing new cs s m with
  | nil => exact absurd rfl hold
  | cons o old ih =>
    match cs, hl, hc with
    | c :: cs, hl, hc =>
      obtain ⟨i', h1, h2⟩ := hc.cons_inv
      have hstep : shuffleNext R w S s = some (.yield o,
          { m with buf := (new ++ [c]) ++ old, pos := bump m.pos m.buf.length, inner := i' }) := by
        rw [ht, shuffleTake, if_pos hst, h1]
        simp only
        rw [hb, hp, getD_append_length, set_append_length]
      refine .cons hstep ?_
      by_cases ho : old = []
      · subst ho
        have hcs : cs = [] := by simpa using hl
        subst hcs
        obtain rfl := h2.nil_inv
        have hst' : (⟨(new ++ [c]) ++ [], bump m.pos m.buf.length, m.stop, m.fill, m.seed, m.gen,
              i⟩ : ShuffleSt R S.σ)
            = ⟨new ++ [c], 0, (new ++ [c]).length, false, m.seed, m.gen, i⟩ := by
          simp only [ShuffleSt.mk.injEq, List.append_nil, and_true, true_and]
          exact ⟨by simp [bump, hp, hb], by rw [hst, hb]; simp, hf⟩
        rw [hst']
        exact .nil _
      · have hbump : bump m.pos m.buf.length = new.length + 1 := by
          rw [bump, if_neg, hp]
          have := List.length_pos_iff.mpr ho
          simp only [hp, hb, List.length_append, List.length_cons]; omega
        have := ih (new := new ++ [c]) (cs := cs)
          (s := { m with buf := (new ++ [c]) ++ old, pos := bump m.pos m.buf.length, inner := i' })
          (m := { m with buf := (new ++ [c]) ++ old, pos := bump m.pos m.buf.length, inner := i' })
          (takes_self hw hf (by simp [hbump]) (by
            have := List.length_pos_iff.mpr ho
            simp only; rw [hbump, hst, hb, List.length_append, List.length_cons]; omega))
          hf rfl (by simp [hbump]) (by simp [hst, hb]) ho h2 (by simpa using hl)
        simpa using this

/-- The rest of a pass after the upstream has ended. -/
theorem shuffle_pass_tail (hw : shuffleWindow w ≠ 1) {old pre : List Data}
    {s : ShuffleSt R S.σ} (hf : s.fill = false) (hb : s.buf = pre ++ old)
    (hp : s.pos = if old = [] then 0 else pre.length)
    (hst : s.stop < pre.length) :
    (shuffle R w seed S).Emits s old { s with pos := 0 } := by
  induction old generalizing pre s with
  | nil =>
    have : s = { s with pos := 0 } := by
      obtain ⟨b, p, e, f, sd, g, i⟩ := s
      simp only [↓reduceIte] at hp
      subst hp
      rfl
    rw [← this]
    exact .nil _
  | cons o old ih =>
    simp only [reduceCtorEq, ↓reduceIte] at hp
    have hstep : shuffleNext R w S s = some (.yield o,
        { s with pos := bump s.pos s.buf.length }) := by
      rw [takes_self hw hf (by omega) (by omega), shuffleTake, if_neg, hb, hp, getD_append_length]
      rw [hb]; simp only [List.length_append, List.length_cons]; omega
    refine .cons hstep ?_
    refine ih (pre := pre ++ [o]) (s := { s with pos := bump s.pos s.buf.length }) hf (by simp [hb]) ?_ ?_
    · simp only [bump, hb, hp, List.length_append, List.length_cons, List.length_nil]
      by_cases ho : old = []
      · simp [ho]
      · have := List.length_pos_iff.mpr ho
        rw [if_neg (by omega), if_neg ho]
    · simp only [List.length_append, List.length_cons, List.length_nil]; omega

/-- A pass in which the upstream ends: `old` comes out, `cs` goes in, and only
`new ++ cs` is left. -/
theorem shuffle_pass_last (hw : shuffleWindow w ≠ 1) {old new cs : List Data}
    {s m : ShuffleSt R S.σ} (ht : Takes w s m) (hf : m.fill = false)
    (hb : m.buf = new ++ old) (hp : m.pos = new.length) (hst : m.stop = m.buf.length)
    (hc : S.Yields m.inner cs) (hl : cs.length < old.length) :
    ∃ buf i, buf.length = m.buf.length ∧ buf.take (new ++ cs).length = new ++ cs ∧
      (shuffle R w seed S).Emits s old
        ⟨buf, 0, (new ++ cs).length, false, m.seed, m.gen, i⟩ := by
  induction old generalizing new cs s m with
  | nil => simp at hl
  | cons o old ih =>
    match cs, hl, hc with
    | [], hl, hc =>
      obtain ⟨i', h1, h2⟩ := hc.nil_inv.next
      have hstep : shuffleNext R w S s = some (.yield o,
          { m with pos := bump m.pos m.buf.length, stop := m.pos, inner := i' }) := by
        rw [ht, shuffleTake, if_pos hst, h1]
        simp only
        rw [hb, hp, getD_append_length]
      refine ⟨m.buf, i', rfl, by simp [hb], .cons hstep ?_⟩
      have := shuffle_pass_tail (seed := seed) hw (old := old) (pre := new ++ [o])
        (s := { m with pos := bump m.pos m.buf.length, stop := m.pos, inner := i' }) hf
        (by simp [hb]) ?_ ?_
      · simpa [hp, hf] using this
      · simp only [bump, hb, hp, List.length_append, List.length_cons, List.length_nil]
        by_cases ho : old = []
        · simp [ho]
        · have := List.length_pos_iff.mpr ho
          rw [if_neg (by omega), if_neg ho]
      · simp [hp]
    | c :: cs, hl, hc =>
      obtain ⟨i', h1, h2⟩ := hc.cons_inv
      have ho : old ≠ [] := by
        rintro rfl
        simp at hl
      have hop := List.length_pos_iff.mpr ho
      have hstep : shuffleNext R w S s = some (.yield o,
          { m with buf := (new ++ [c]) ++ old, pos := bump m.pos m.buf.length, inner := i' }) := by
        rw [ht, shuffleTake, if_pos hst, h1]
        simp only
        rw [hb, hp, getD_append_length, set_append_length]
      have hbump : bump m.pos m.buf.length = new.length + 1 := by
        rw [bump, if_neg, hp]
        simp only [hp, hb, List.length_append, List.length_cons]; omega
      obtain ⟨buf, i, h3, h4, h5⟩ := ih (new := new ++ [c]) (cs := cs)
        (s := { m with buf := (new ++ [c]) ++ old, pos := bump m.pos m.buf.length, inner := i' })
        (m := { m with buf := (new ++ [c]) ++ old, pos := bump m.pos m.buf.length, inner := i' })
        (takes_self hw hf (by simp [hbump]) (by
          simp only; rw [hbump, hst, hb, List.length_append, List.length_cons]; omega))
        hf rfl (by simp [hbump]) (by simp [hst, hb]) h2 (by simpa using hl)
      refine ⟨buf, i, ?_, ?_, .cons hstep ?_⟩
      · rw [h3, hb]; simp
      · simpa using h4
      · simpa using h5

/-- The last, partial pass after its first call. -/
theorem shuffle_final_go (hw : shuffleWindow w ≠ 1) {old pre : List Data}
    {s : ShuffleSt R S.σ} (hf : s.fill = false) (hb : s.buf.take s.stop = pre ++ old)
    (hp : s.pos = pre.length) (hst : s.stop < s.buf.length) (hne : pre ≠ [] ∨ old = []) :
    (shuffle R w seed S).Yields s old := by
  have hlen : s.stop = pre.length + old.length := by
    have := congrArg List.length hb
    rw [List.length_take, List.length_append] at this
    omega
  induction old generalizing pre s with
  | nil => exact ⟨s, .nil _, shuffle_ended_buf hw hf (by simp only [List.length_nil] at hlen; omega)⟩
  | cons o old ih =>
    have hne' := List.length_pos_iff.mpr (hne.resolve_right (by simp))
    simp only [List.length_cons] at hlen
    have hget : s.buf.getD s.pos default = o := by
      have : (s.buf.take s.stop)[pre.length]? = some o := by rw [hb]; simp
      rw [List.getElem?_take_of_lt (by omega)] at this
      simp [hp, this]
    have hbump : bump s.pos s.buf.length = pre.length + 1 := by
      rw [bump, if_neg (by omega), hp]
    have hstep : shuffleNext R w S s = some (.yield o, { s with pos := pre.length + 1 }) := by
      rw [takes_self hw hf (by omega) (by omega), shuffleTake, if_neg (by omega), hget, hbump]
    refine .cons hstep ?_
    refine ih (pre := pre ++ [o]) (s := { s with pos := pre.length + 1 }) hf (by simp [hb]) (by simp) hst
      (.inl (by simp)) ?_
    simp only [List.length_append, List.length_cons, List.length_nil]; omega

/-- The last, partial pass. -/
theorem shuffle_final (hw : shuffleWindow w ≠ 1) {s : ShuffleSt R S.σ} (hf : s.fill = false)
    (hp : s.pos = 0) (hst : s.stop < s.buf.length) :
    ∃ ys, ys.Perm (s.buf.take s.stop) ∧ (shuffle R w seed S).Yields s ys := by
  by_cases h0 : s.stop = 0
  · refine ⟨[], by simp [h0], s, .nil _, shuffle_ended_buf hw hf (by omega)⟩
  · obtain ⟨o, old, ho⟩ : ∃ o old, (fisherYates R s.stop s.buf s.gen).1.take s.stop = o :: old := by
      cases h : (fisherYates R s.stop s.buf s.gen).1.take s.stop with
      | nil =>
        have := congrArg List.length h
        rw [List.length_take, fisherYates_length, List.length_nil] at this
        omega
      | cons o old => exact ⟨o, old, rfl⟩
    have hperm : (o :: old).Perm (s.buf.take s.stop) := by
      rw [← ho]
      have h1 := fisherYates_perm R s.stop s.buf s.gen
      rw [← List.take_append_drop s.stop (fisherYates R s.stop s.buf s.gen).1,
        fisherYates_drop R s.stop s.stop _ _ (Nat.le_refl _)] at h1
      conv at h1 => rhs; rw [← List.take_append_drop s.stop s.buf]
      exact (List.perm_append_right_iff _).mp h1
    refine ⟨o :: old, hperm, ?_⟩
    have hget : (fisherYates R s.stop s.buf s.gen).1.getD 0 default = o := by
      have : ((fisherYates R s.stop s.buf s.gen).1.take s.stop)[0]? = some o := by rw [ho]; simp
      rw [List.getElem?_take_of_lt (by omega)] at this
      simp [this]
    have hstep : shuffleNext R w S s = some (.yield o,
        { s with buf := (fisherYates R s.stop s.buf s.gen).1,
                 gen := (fisherYates R s.stop s.buf s.gen).2, pos := 1 }) := by
      rw [takes_mix hw hf hp h0, shuffleTake]
      simp only [fisherYates_length]
      rw [if_neg (by omega)]
      simp only [hp, hget]
      rw [bump, if_neg (by omega)]
    refine .cons hstep ?_
    exact shuffle_final_go hw (pre := [o]) hf ho rfl (by simpa using hst) (.inl (by simp))

end

section
variable {R : Rng} {S : Source} {w seed : Nat}

/-- The state between two passes. -/
def between (R : Rng) (S : Source) (seed : Nat) (g : R.G) (B : List Data) (i : S.σ) :
    ShuffleSt R S.σ := ⟨B, 0, B.length, false, seed, g, i⟩

theorem shuffle_block (hw : shuffleWindow w ≠ 1) {B cs : List Data} {sd : Nat} {g : R.G} {i i' : S.σ}
    (hB : B ≠ []) (hc : S.Emits i cs i') (hl : cs.length = B.length) :
    ∃ b g', b.Perm B ∧
      (shuffle R w seed S).Emits (between R S sd g B i) b (between R S sd g' cs i') := by
  have hn : B.length ≠ 0 := by simpa using hB
  have h := shuffle_pass_full (seed := seed) hw (new := []) (cs := cs)
    (old := (fisherYates R B.length B g).1)
    (takes_mix hw (s := between R S sd g B i) rfl rfl hn) rfl rfl rfl (by simp [between])
    (by intro h; have := congrArg List.length h; simp at this; exact hB this) hc (by simp [hl])
  exact ⟨_, _, fisherYates_perm R _ _ _, h⟩

theorem shuffle_last (hw : shuffleWindow w ≠ 1) {B cs : List Data} {sd : Nat} {g : R.G} {i : S.σ}
    (hc : S.Yields i cs) (hl : cs.length < B.length) :
    ∃ b c, b.Perm B ∧ c.Perm cs ∧
      (shuffle R w seed S).Yields (between R S sd g B i) (b ++ c) := by
  have hn : B.length ≠ 0 := by omega
  obtain ⟨buf, i', h1, h2, h3⟩ := shuffle_pass_last (seed := seed) hw (new := []) (cs := cs)
    (old := (fisherYates R B.length B g).1)
    (takes_mix hw (s := between R S sd g B i) rfl rfl hn) rfl rfl rfl (by simp [between]) hc
    (by simpa using hl)
  simp only [List.nil_append, between, fisherYates_length] at h1 h2 h3
  obtain ⟨c, h4, h5⟩ := shuffle_final (seed := seed) hw
    (s := ⟨buf, 0, cs.length, false, sd, (fisherYates R B.length B g).2, i'⟩) rfl rfl
    (by simp only; omega)
  simp only [h2] at h4
  exact ⟨_, c, fisherYates_perm R _ _ _, h4, h3.yields h5⟩

theorem shuffle_between_yields (hw : shuffleWindow w ≠ 1) {B xs : List Data} {sd : Nat} {g : R.G}
    {i : S.σ} (hx : S.Yields i xs) (hB : B.length = shuffleWindow w) (hpos : 0 < B.length) :
    ∃ ys, BlockPerm (shuffleWindow w) ys (B ++ xs) ∧
      (shuffle R w seed S).Yields (between R S sd g B i) ys := by
  induction hn : xs.length using Nat.strongRecOn generalizing B xs g i with
  | _ n ih =>
    subst hn
    by_cases hlt : xs.length < B.length
    · obtain ⟨b, c, h1, h2, h3⟩ := shuffle_last (R := R) (seed := seed) (sd := sd) (g := g) hw hx hlt
      exact ⟨b ++ c, .block h1 hB (.last h2 (by omega)), h3⟩
    · have hsplit := List.take_append_drop B.length xs
      rw [← hsplit] at hx
      obtain ⟨i', h1, h2⟩ := hx.split
      have hl : (xs.take B.length).length = B.length := by
        rw [List.length_take]; omega
      obtain ⟨b, g', h3, h4⟩ := shuffle_block (R := R) (seed := seed) (sd := sd) (g := g) hw
        (by intro h; subst h; simp at hpos) h1 hl
      obtain ⟨ys, h5, h6⟩ := ih (xs.drop B.length).length
        (by rw [List.length_drop]; omega) (B := xs.take B.length) (g := g') h2 (by omega) (by omega) rfl
      rw [hsplit] at h5
      exact ⟨b ++ ys, .block h3 hB h5, h4.yields h6⟩

theorem shuffle_yields {s : ShuffleSt R S.σ} {xs : List Data} (hw : shuffleWindow w ≠ 1)
    (hf : s.fill = true) (hb : s.buf = []) (hx : S.Yields s.inner xs) :
    ∃ ys, BlockPerm (shuffleWindow w) ys xs ∧ (shuffle R w seed S).Yields s ys := by
  obtain ⟨b, p, e, f, sd, g, i⟩ := s
  simp only at hf hb hx
  subst hf hb
  have key : ∀ (B : List Data) (i' : S.σ) (ended : Bool),
      readUpTo S.next (shuffleWindow w) [] i = some (⟨B, ended, none⟩, i') →
      shuffleNext R w S ⟨[], p, e, true, sd, g, i⟩ = shuffleNext R w S (between R S sd g B i') := by
    intro B i' ended h
    simp [shuffleNext, hw, h, between]
  have transfer : ∀ (B : List Data) (i' : S.σ) (ended : Bool) (ys : List Data),
      readUpTo S.next (shuffleWindow w) [] i = some (⟨B, ended, none⟩, i') →
      (shuffle R w seed S).Yields (between R S sd g B i') ys →
      (shuffle R w seed S).Yields (⟨[], p, e, true, sd, g, i⟩ : ShuffleSt R S.σ) ys := by
    intro B i' ended ys h hy
    have hk := key B i' ended h
    cases ys with
    | nil =>
      obtain ⟨t, h1, h2⟩ := hy.nil_inv.next
      exact .nil_of (hk.trans h1) h2
    | cons y ys =>
      obtain ⟨t, h1, h2⟩ := hy.cons_inv
      exact .cons (hk.trans h1) h2
  have hpos : 0 < shuffleWindow w := by simp only [shuffleWindow]; split <;> omega
  by_cases hlt : xs.length < shuffleWindow w
  · obtain ⟨i1, h1, h2⟩ := hx
    obtain ⟨i2, h3, h4⟩ := h2.next
    have hr := readUpTo_eod (acc := []) h1 h3 hlt
    simp only [List.nil_append] at hr
    by_cases h0 : xs = []
    · subst h0
      refine ⟨[], .last (.refl _) (by simp), transfer _ _ _ _ hr ?_⟩
      exact ⟨_, .nil _, shuffle_ended_buf hw rfl rfl⟩
    · obtain ⟨b, c, h5, h6, h7⟩ := shuffle_last (R := R) (seed := seed) (sd := sd) (g := g)
        (B := xs) (cs := []) hw ⟨i2, .nil _, h4⟩ (by simpa using List.length_pos_iff.mpr h0)
      have hc : c = [] := by simpa using h6
      subst hc
      exact ⟨b, .last h5 (by omega), transfer _ _ _ _ hr (by simpa using h7)⟩
  · have hsplit := List.take_append_drop (shuffleWindow w) xs
    rw [← hsplit] at hx
    obtain ⟨i', h1, h2⟩ := hx.split
    have hl : (xs.take (shuffleWindow w)).length = shuffleWindow w := by
      rw [List.length_take]; omega
    have hr := readUpTo_full (acc := []) h1
    rw [hl, List.nil_append] at hr
    obtain ⟨ys, h3, h4⟩ := shuffle_between_yields (R := R) (seed := seed) (sd := sd) (g := g) hw h2 hl
      (by omega)
    rw [hsplit] at h3
    exact ⟨ys, h3, transfer _ _ _ _ hr h4⟩

theorem shuffle_one_yields {s : ShuffleSt R S.σ} {xs : List Data} (hw : shuffleWindow w = 1)
    (hx : S.Yields s.inner xs) : (shuffle R w seed S).Yields s xs := by
  induction xs generalizing s with
  | nil => exact ⟨s, .nil _, shuffle_ended_one hw hx.nil_inv⟩
  | cons x xs ih =>
    obtain ⟨i, h1, h2⟩ := hx.cons_inv
    have : shuffleNext R w S s = some (.yield x, { s with inner := i }) := by
      simp [shuffleNext, hw, h1]
    exact .cons this (ih h2)

theorem shuffle_between_emits (hw : shuffleWindow w ≠ 1) {B xs : List Data} {sd m : Nat} {g : R.G}
    {i i' : S.σ} (hx : S.Emits i xs i') (hB : B.length = shuffleWindow w) (hpos : 0 < B.length)
    (hl : xs.length = m * shuffleWindow w) :
    ∃ ys t, ys.length = m * shuffleWindow w ∧
      BlockPerm (shuffleWindow w) ys ((B ++ xs).take (m * shuffleWindow w)) ∧
      (shuffle R w seed S).Emits (between R S sd g B i) ys t := by
  induction m generalizing B xs g i with
  | zero => exact ⟨[], _, by simp, by simpa using .last (.refl _) (by simp), .nil _⟩
  | succ m ih =>
    have hsplit := List.take_append_drop B.length xs
    rw [← hsplit] at hx
    obtain ⟨i1, h1, h2⟩ := hx.split
    rw [Nat.succ_mul] at hl
    have hl' : (xs.take B.length).length = B.length := by
      rw [List.length_take]; omega
    obtain ⟨b, g', h3, h4⟩ := shuffle_block (R := R) (seed := seed) (sd := sd) (g := g) hw
      (by intro h; subst h; simp at hpos) h1 hl'
    obtain ⟨ys, t, h5, h6, h7⟩ := ih (B := xs.take B.length) (g := g') h2 (by omega) (by omega)
      (by rw [List.length_drop]; omega)
    rw [hsplit] at h6
    refine ⟨b ++ ys, t, ?_, ?_, h4.append h7⟩
    · rw [List.length_append, h5, h3.length_eq, hB, Nat.succ_mul, Nat.add_comm]
    · have : (B ++ xs).take ((m + 1) * shuffleWindow w) = B ++ xs.take (m * shuffleWindow w) := by
        rw [List.take_append, List.take_of_length_le (by rw [Nat.succ_mul]; omega)]
        congr 2
        rw [Nat.succ_mul]; omega
      rw [this]
      exact .block h3 hB h6

theorem shuffle_emits {s : ShuffleSt R S.σ} {xs : List Data} {m : Nat} {i' : S.σ}
    (hw : shuffleWindow w ≠ 1) (hf : s.fill = true) (hb : s.buf = []) (hx : S.Emits s.inner xs i')
    (hl : xs.length = (m + 1) * shuffleWindow w) :
    ∃ ys t, ys.length = m * shuffleWindow w ∧
      BlockPerm (shuffleWindow w) ys (xs.take (m * shuffleWindow w)) ∧
      (shuffle R w seed S).Emits s ys t := by
  obtain ⟨b, p, e, f, sd, g, i⟩ := s
  simp only at hf hb hx
  subst hf hb
  have hpos : 0 < shuffleWindow w := by simp only [shuffleWindow]; split <;> omega
  have hsplit := List.take_append_drop (shuffleWindow w) xs
  rw [← hsplit] at hx
  rw [Nat.succ_mul] at hl
  obtain ⟨i1, h1, h2⟩ := hx.split
  have hlen : (xs.take (shuffleWindow w)).length = shuffleWindow w := by
    rw [List.length_take]; omega
  have hr := readUpTo_full (acc := []) h1
  rw [hlen, List.nil_append] at hr
  obtain ⟨ys, t, h3, h4, h5⟩ := shuffle_between_emits (R := R) (seed := seed) (sd := sd) (g := g) (m := m)
    hw h2 hlen (by omega) (by rw [List.length_drop]; omega)
  rw [hsplit] at h4
  have key : shuffleNext R w S ⟨[], p, e, true, sd, g, i⟩ =
      shuffleNext R w S (between R S sd g (xs.take (shuffleWindow w)) i1) := by
    simp [shuffleNext, hw, hr, between]
  obtain ⟨u, hu⟩ := h5.ex_of_next_eq (S := shuffle R w seed S) (show (shuffle R w seed S).next _ = _ from key)
  exact ⟨ys, u, h3, h4, hu⟩

/-! ## What a block permutation says about positions -/

theorem BlockPerm.perm {w : Nat} {ys xs : List Data} (h : BlockPerm w ys xs) : ys.Perm xs := by
  induction h with
  | last h _ => exact h
  | block h _ _ ih => exact h.append ih

theorem BlockPerm.symm {w : Nat} {ys xs : List Data} (h : BlockPerm w ys xs) : BlockPerm w xs ys := by
  induction h with
  | last h hl => exact .last h.symm (by rw [h.length_eq]; exact hl)
  | block h hl _ ih => exact .block h.symm (by rw [h.length_eq]; exact hl) ih

theorem perm_take_append {b : List Data} {b' : List Data} (h : b'.Perm b) (k : Nat) :
    ∃ rest, (b'.take k ++ rest).Perm b :=
  ⟨b'.drop k, by rw [List.take_append_drop]; exact h⟩

/-- The first `k` are among the first `k + w - 1`. -/
theorem BlockPerm.among {w : Nat} {ys xs : List Data} (h : BlockPerm w ys xs) (hw : 0 < w) (k : Nat) :
    ∃ rest, (ys.take k ++ rest).Perm (xs.take (k + w - 1)) := by
  induction h generalizing k with
  | @last b b' h hl =>
    by_cases h0 : k = 0
    · subst h0; exact ⟨b.take (0 + w - 1), by simp⟩
    · rw [List.take_of_length_le (l := b) (by omega)]
      exact perm_take_append h k
  | @block b b' ys xs h hl hb ih =>
    have hl' := h.length_eq
    by_cases h0 : k = 0
    · subst h0; exact ⟨(b ++ xs).take (0 + w - 1), by simp⟩
    · rw [List.take_append, List.take_append, List.take_of_length_le (l := b) (by omega)]
      by_cases hk : k ≤ w
      · obtain ⟨rest, hr⟩ := perm_take_append h k
        refine ⟨rest ++ xs.take (k + w - 1 - b.length), ?_⟩
        have : k - b'.length = 0 := by omega
        rw [this, List.take_zero, List.append_nil, ← List.append_assoc]
        exact hr.append_right _
      · obtain ⟨rest, hr⟩ := ih (k - w)
        refine ⟨rest, ?_⟩
        rw [List.take_of_length_le (l := b') (by omega), List.append_assoc]
        have e1 : k - b'.length = k - w := by omega
        have e2 : k + w - 1 - b.length = k - w + w - 1 := by omega
        rw [e1, e2]
        exact h.append hr

end
end Fs2
