import Verif.Pipeline.Buffered
import Verif.Pipeline.SimpleLaws

/-!
# Laws and streams of `yield_from`
-/

namespace Fs2
open Source

section
variable {S : Source} {F : YieldFn}

/-- Current pipelines that cannot be told apart. -/
inductive DpSame (F : YieldFn) : Option ((x : Data) × (F.pipe x).σ) →
    Option ((x : Data) × (F.pipe x).σ) → Prop where
  | none : DpSame F none none
  | some {x d d'} : (F.pipe x).Same d d' → DpSame F (some ⟨x, d⟩) (some ⟨x, d'⟩)

theorem DpSame.symm {a b} (h : DpSame F a b) : DpSame F b a := by
  cases h with
  | none => exact .none
  | some h => exact .some h.symm

theorem DpSame.refl (a) : DpSame F a a := by
  cases a with
  | none => exact .none
  | some a => exact .some (.refl _)

theorem yieldCur_sim {a b a' : Option ((x : Data) × (F.pipe x).σ)} {r : Option Res} (h : DpSame F a b)
    (hn : yieldCur F a = some (r, a')) : ∃ b', yieldCur F b = some (r, b') ∧ DpSame F a' b' := by
  cases h with
  | none => simp only [yieldCur] at hn; cases hn; exact ⟨_, rfl, .none⟩
  | some h =>
    simp only [yieldCur] at hn ⊢
    split at hn
    · cases hn
    all_goals
      next hi =>
        cases hn
        obtain ⟨d', h1, h2⟩ := h.next hi
        rw [h1]
        exact ⟨_, rfl, .some h2⟩

theorem yield_isSim : IsSim (yieldFrom F S)
    (fun s t : YieldSt F S.σ => s.cur = t.cur ∧ DpSame F s.dp t.dp ∧ S.Same s.inner t.inner) where
  symm h := ⟨h.1.symm, h.2.1.symm, h.2.2.symm⟩
  reset b h := ⟨rfl, .none, h.2.2.reset b⟩
  next {s t r s'} h hn := by
    refine yieldNext.partial_correctness F S.next
      (fun s x => ∀ t : YieldSt F S.σ, (s.cur = t.cur ∧ DpSame F s.dp t.dp ∧ S.Same s.inner t.inner) →
        ∃ t', yieldNext F S.next t = some (x.1, t') ∧
          (x.2.cur = t'.cur ∧ DpSame F x.2.dp t'.dp ∧ S.Same x.2.inner t'.inner))
      ?_ s (r, s') hn t h
    intro f ih s x hx t h
    obtain ⟨a, b, i⟩ := s
    obtain ⟨a', b', j⟩ := t
    obtain ⟨h1, h2, h3⟩ := h
    simp only at h1 h2 h3
    subst h1
    rw [yieldNext]
    simp only at hx ⊢
    split at hx
    · cases hx
    · next hc =>
      cases hx
      obtain ⟨b2, h4, h5⟩ := yieldCur_sim h2 hc
      rw [h4]; exact ⟨_, rfl, rfl, h5, h3⟩
    · next hc =>
      obtain ⟨b2, h4, h5⟩ := yieldCur_sim h2 hc
      rw [h4]
      simp only
      split at hx
      · cases hx
      · next hi =>
        cases hx
        obtain ⟨j', hj, h'⟩ := h3.next hi
        rw [hj]; exact ⟨_, rfl, rfl, h5, h'⟩
      · next hi =>
        cases hx
        obtain ⟨j', hj, h'⟩ := h3.next hi
        rw [hj]; exact ⟨_, rfl, rfl, .none, h'⟩
      · next hi =>
        obtain ⟨j', hj, h'⟩ := h3.next hi
        rw [hj]
        simp only
        split at hx
        · cases hx; exact ⟨_, rfl, rfl, h5, h'⟩
        · split at hx
          · next hf => rw [if_pos hf]; exact ih _ _ hx _ ⟨rfl, .refl _, h'⟩
          · next hf => rw [if_neg hf]; cases hx; exact ⟨_, rfl, rfl, .none, h'⟩

/-- The invariant of `yield_from`, given invariants of the pipelines. -/
def YieldInv (F : YieldFn) (I : S.σ → Prop) (Ix : ∀ x, (F.pipe x).σ → Prop) (s : YieldSt F S.σ) :
    Prop :=
  I s.inner ∧ ∀ x d, s.dp = some ⟨x, d⟩ → Ix x d

theorem yieldCur_inv {Ix : ∀ x, (F.pipe x).σ → Prop} (hIx : ∀ x, Invar (F.pipe x) (Ix x))
    {a a' : Option ((x : Data) × (F.pipe x).σ)} {r : Option Res}
    (h : ∀ x d, a = some ⟨x, d⟩ → Ix x d) (hn : yieldCur F a = some (r, a'))
    (hf : ∀ r', r = some r' → ¬ r'.fatal) : ∀ x d, a' = some ⟨x, d⟩ → Ix x d := by
  cases a with
  | none => simp only [yieldCur] at hn; cases hn; intro x d h; cases h
  | some a =>
    obtain ⟨x, d⟩ := a
    have h0 := h x d rfl
    simp only [yieldCur] at hn
    split at hn
    · cases hn
    · next hi =>
      cases hn; rintro _ _ ⟨⟩; exact (hIx x).next h0 hi (by simp [Res.fatal])
    · next hi =>
      cases hn; rintro _ _ ⟨⟩; exact (hIx x).next h0 hi (by simp [Res.fatal])
    · next hi =>
      cases hn; rintro _ _ ⟨⟩; exact (hIx x).next h0 hi (hf _ rfl)

theorem yield_inv {I : S.σ → Prop} {Ix : ∀ x, (F.pipe x).σ → Prop} (hI : Invar S I)
    (hIx : ∀ x, Invar (F.pipe x) (Ix x)) (hinit : ∀ x, Ix x (F.pipe x).init) :
    Invar (yieldFrom F S) (YieldInv F I Ix) where
  reset b h := ⟨hI.reset b h.1, fun x d h => by cases h⟩
  next {s r s'} hs hn hf := by
    refine yieldNext.partial_correctness F S.next
      (fun s x => YieldInv F I Ix s → ¬ x.1.fatal → YieldInv F I Ix x.2) ?_ s (r, s') hn hs hf
    intro f ih s x hx hs hf
    split at hx
    · cases hx
    · next hc =>
      cases hx
      exact ⟨hs.1, yieldCur_inv hIx hs.2 hc (by rintro _ ⟨⟩; exact hf)⟩
    · next hc =>
      have h2 := yieldCur_inv hIx hs.2 hc (by rintro _ ⟨⟩)
      split at hx
      · cases hx
      · next hi => cases hx; exact ⟨hI.next hs.1 hi hf, h2⟩
      · next hi => cases hx; exact ⟨hI.next hs.1 hi hf, fun x d h => by cases h⟩
      · next hi =>
        have h1 := hI.next hs.1 hi (by simp [Res.fatal])
        split at hx
        · cases hx; exact ⟨h1, h2⟩
        · split at hx
          · refine ih _ _ hx ⟨h1, ?_⟩ hf
            rintro _ _ ⟨⟩
            exact hinit _
          · cases hx; exact ⟨h1, fun x d h => by cases h⟩

theorem yield_next (s : YieldSt F S.σ) : (yieldFrom F S).next s = yieldNext F S.next s := rfl

theorem yield_ended {c : Option Data} {i : S.σ} (h : S.Ended i) :
    (yieldFrom F S).Ended (⟨c, none, i⟩ : YieldSt F S.σ) := by
  refine .coind (fun s : YieldSt F S.σ => s.dp = none ∧ S.Ended s.inner) ⟨rfl, h⟩ ?_
  rintro (s : YieldSt F S.σ) ⟨h1, h2⟩
  obtain ⟨a, b, i⟩ := s
  simp only at h1 h2
  subst h1
  obtain ⟨i', hi, he⟩ := h2.next
  refine ⟨⟨none, none, i'⟩, ?_, rfl, he⟩
  rw [yield_next, yieldNext]
  simp [hi, yieldCur]
  rfl

theorem yield_eod {I : S.σ → Prop} {Ix : ∀ x, (F.pipe x).σ → Prop} (hI : Invar S I)
    (hE : EodFinal S I) : EodFinal (yieldFrom F S) (YieldInv F I Ix) := by
  intro s s' hs hn
  refine yieldNext.partial_correctness F S.next
    (fun s x => I s.inner → x.1 = .eod → (yieldFrom F S).Ended x.2) ?_ s (.eod, s') hn hs.1 rfl
  intro f ih s x hx hs he
  split at hx
  · cases hx
  · next hc =>
    cases hx
    simp only at he
    subst he
    cases hdp : s.dp with
    | none => simp [hdp, yieldCur] at hc
    | some a =>
      simp only [hdp, yieldCur] at hc
      split at hc <;> cases hc
  · split at hx
    · cases hx
    · cases hx; cases he
    · next hi => cases hx; exact yield_ended (hE hs hi)
    · next hi =>
      have h1 := hI.next hs hi (by simp [Res.fatal])
      split at hx
      · cases hx; cases he
      · split at hx
        · exact ih _ _ hx h1 he
        · cases hx; cases he

/-- The saved example is the one the current pipeline was made from. -/
def YieldOk (F : YieldFn) {σ : Type} (s : YieldSt F σ) (P : ∀ x, (F.pipe x).σ → Prop) : Prop :=
  (s.cur = none ∧ s.dp = none) ∨ ∃ x d, s.cur = some x ∧ s.dp = some ⟨x, d⟩ ∧ F.err x = none ∧ P x d

theorem yield_resumes {I : S.σ → Prop} {Ix : ∀ x, (F.pipe x).σ → Prop} {s t : YieldSt F S.σ}
    (hok : YieldOk F s fun x d => Resumes (F.pipe x) (Ix x) d (F.pipe x).init)
    (h : Resumes S I s.inner t.inner) :
    Resumes (yieldFrom F S) (YieldInv F I Ix) s t := by
  obtain ⟨a, b, i⟩ := s
  obtain ⟨tp, h1, h2⟩ := h
  simp only at h1 h2
  rcases hok with ⟨h3, h4⟩ | ⟨x, d, h3, h4, h5, tp', h6, h7⟩
  · simp only at h3 h4
    subst h3 h4
    refine ⟨.bool false :: tp, by simp [yieldFrom, h1], fun rest => ?_⟩
    obtain ⟨t', h3, h4, h5⟩ := h2 rest
    exact ⟨⟨none, none, t'⟩, by simp [yieldFrom, h3, readOpt, readBool],
      yield_isSim.same ⟨rfl, .none, h4⟩, h5, fun x d h => by cases h⟩
  · simp only at h3 h4
    subst h3 h4
    refine ⟨.bool true :: x :: (tp' ++ tp), by simp [yieldFrom, h1, h6], fun rest => ?_⟩
    obtain ⟨t', h3, h4, h8⟩ := h2 rest
    obtain ⟨d', h9, h10, h11⟩ := h7 (tp ++ rest)
    refine ⟨⟨some x, some ⟨x, d'⟩, t'⟩, by simp [yieldFrom, h3, readOpt, readBool, readData, h5, h9],
      yield_isSim.same ⟨rfl, .some h10, h4⟩, h8, ?_⟩
    rintro _ _ ⟨⟩
    exact h11

theorem yield_rewinds {s : YieldSt F S.σ} (h : Rewinds S s.inner) : Rewinds (yieldFrom F S) s :=
  yield_isSim.same ⟨rfl, .none, h⟩

theorem yield_restarts (h : Restarts S) : Restarts (yieldFrom F S) :=
  fun b => yield_isSim.same ⟨rfl, .none, h b⟩

/-! ## The stream -/

theorem yield_cur_emits {c : Option Data} {x : Data} {d d' : (F.pipe x).σ} {zs : List Data} {i : S.σ}
    (h : (F.pipe x).Emits d zs d') :
    (yieldFrom F S).Emits (⟨c, some ⟨x, d⟩, i⟩ : YieldSt F S.σ) zs
      (⟨c, some ⟨x, d'⟩, i⟩ : YieldSt F S.σ) := by
  induction h with
  | nil => exact .nil _
  | cons hn _ ih =>
    refine .cons ?_ ih
    rw [yield_next, yieldNext]
    simp [yieldCur, hn]
    rfl

/-- With the current pipeline at its end, the next example of the upstream
counts. -/
theorem yield_load {s : YieldSt F S.σ} {x : Data} {i : S.σ}
    (hc : s.dp = none ∨ ∃ y d, s.dp = some ⟨y, d⟩ ∧ (F.pipe y).Ended d)
    (hi : S.next s.inner = some (.yield x, i)) (he : F.err x = none)
    (hf : (F.pipe x).finitude = .finite) :
    (yieldFrom F S).next s =
      (yieldFrom F S).next (⟨some x, some ⟨x, (F.pipe x).init⟩, i⟩ : YieldSt F S.σ) := by
  obtain ⟨a, b, j⟩ := s
  simp only at hc hi
  rw [yield_next, yield_next]
  conv => lhs; rw [yieldNext]
  rcases hc with rfl | ⟨y, d, rfl, hd⟩
  · simp [yieldCur, hi, he, hf]
    rfl
  · obtain ⟨d', h1, -⟩ := hd.next
    simp [yieldCur, hi, he, hf, h1]
    rfl

theorem yield_end {s : YieldSt F S.σ}
    (hc : s.dp = none ∨ ∃ y d, s.dp = some ⟨y, d⟩ ∧ (F.pipe y).Ended d)
    (hi : S.Ended s.inner) : (yieldFrom F S).Ended s := by
  obtain ⟨a, b, j⟩ := s
  simp only at hc hi
  obtain ⟨i', h1, h2⟩ := hi.next
  refine .of_next (s' := (⟨none, none, i'⟩ : YieldSt F S.σ)) ?_ (yield_ended h2)
  rw [yield_next, yieldNext]
  rcases hc with rfl | ⟨y, d, rfl, hd⟩
  · simp [yieldCur, h1]
    rfl
  · obtain ⟨d', h3, -⟩ := hd.next
    simp [yieldCur, h1, h3]
    rfl

/-- What `f` gives for the examples. -/
def Pipes (F : YieldFn) (ys : Data → List Data) (xs : List Data) : Prop :=
  ∀ x ∈ xs, F.err x = none ∧ (F.pipe x).finitude = .finite ∧ (F.pipe x).Yields (F.pipe x).init (ys x)

theorem yield_emits {ys : Data → List Data} {xs : List Data} (hp : Pipes F ys xs) {s : YieldSt F S.σ}
    {i' : S.σ} (hc : s.dp = none ∨ ∃ y d, s.dp = some ⟨y, d⟩ ∧ (F.pipe y).Ended d)
    (h : S.Emits s.inner xs i') :
    ∃ s', (yieldFrom F S).Emits s (xs.flatMap ys) s' := by
  induction xs generalizing s with
  | nil => exact ⟨s, .nil _⟩
  | cons x xs ih =>
    obtain ⟨i1, h1, h2⟩ := h.cons_inv
    obtain ⟨he, hf, d', h3, h4⟩ := hp x (by simp)
    have hstep := yield_load hc h1 he hf
    obtain ⟨s', h5⟩ := ih (fun y hy => hp y (by simp [hy]))
      (s := ⟨some x, some ⟨x, d'⟩, i1⟩) (.inr ⟨x, d', rfl, h4⟩) h2
    rw [List.flatMap_cons]
    exact ((yield_cur_emits (S := S) (c := some x) (i := i1) h3).append h5).ex_of_next_eq hstep

theorem yield_yields {ys : Data → List Data} {xs : List Data} (hp : Pipes F ys xs)
    {s : YieldSt F S.σ} (hc : s.dp = none ∨ ∃ y d, s.dp = some ⟨y, d⟩ ∧ (F.pipe y).Ended d)
    (h : S.Yields s.inner xs) : (yieldFrom F S).Yields s (xs.flatMap ys) := by
  induction xs generalizing s with
  | nil => exact ⟨s, .nil _, yield_end hc h.nil_inv⟩
  | cons x xs ih =>
    obtain ⟨i1, h1, h2⟩ := h.cons_inv
    obtain ⟨he, hf, d', h3, h4⟩ := hp x (by simp)
    have hstep := yield_load hc h1 he hf
    have h5 := ih (fun y hy => hp y (by simp [hy]))
      (s := ⟨some x, some ⟨x, d'⟩, i1⟩) (.inr ⟨x, d', rfl, h4⟩) h2
    rw [List.flatMap_cons]
    exact .of_next_eq hstep ((yield_cur_emits (S := S) (c := some x) (i := i1) h3).yields h5)

end
end Fs2
