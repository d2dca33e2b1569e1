import Verif.Pipeline.Buffered
import Verif.Pipeline.SimpleLaws

/-!
# Laws and streams of `dynamic_bucket`
-/

namespace Fs2
open Source

section
variable {S : Source} {c : DynCfg}

theorem dynFill_sim {R : S.σ → S.σ → Prop} (hR : IsSim S R) {q : Rat} {s s' t : DynSt S.σ}
    {r : Option Err × Rat} (h : s.ret = t.ret ∧ s.buf = t.buf ∧ R s.inner t.inner)
    (hn : dynFill S.next c q s = some (r, s')) :
    ∃ t', dynFill S.next c q t = some (r, t') ∧ (s'.ret = t'.ret ∧ s'.buf = t'.buf ∧ R s'.inner t'.inner) := by
  refine dynFill.partial_correctness S.next c
    (fun q s x => ∀ t : DynSt S.σ, (s.ret = t.ret ∧ s.buf = t.buf ∧ R s.inner t.inner) →
      ∃ t', dynFill S.next c q t = some (x.1, t') ∧
        (x.2.ret = t'.ret ∧ x.2.buf = t'.buf ∧ R x.2.inner t'.inner))
    ?_ q s (r, s') hn t h
  intro f ih q s x hx t h
  obtain ⟨a, b, i⟩ := s
  obtain ⟨a', b', j⟩ := t
  obtain ⟨h1, h2, h3⟩ := h
  simp only at h1 h2 h3
  subst h1 h2
  rw [dynFill]
  simp only at hx ⊢
  split at hx
  · next hr => cases hx; exact ⟨⟨a, b, j⟩, by rw [if_pos hr], rfl, rfl, h3⟩
  · next hr =>
    rw [if_neg hr]
    split at hx
    · cases hx
    · next hi =>
      cases hx
      obtain ⟨j', hj, h'⟩ := hR.next h3 hi
      rw [hj]; exact ⟨_, rfl, rfl, rfl, h'⟩
    · next hi =>
      cases hx
      obtain ⟨j', hj, h'⟩ := hR.next h3 hi
      rw [hj]; exact ⟨_, rfl, rfl, rfl, h'⟩
    · next hi =>
      obtain ⟨j', hj, h'⟩ := hR.next h3 hi
      rw [hj]
      simp only
      split at hx
      · cases hx; exact ⟨_, rfl, rfl, rfl, h'⟩
      · exact ih _ _ _ hx _ ⟨rfl, rfl, h'⟩

theorem dyn_isSim : IsSim (dynamicBucket c S)
    (fun s t : DynSt S.σ => s.ret = t.ret ∧ s.buf = t.buf ∧ S.Same s.inner t.inner) where
  symm h := ⟨h.1.symm, h.2.1.symm, h.2.2.symm⟩
  reset b h := ⟨h.1, rfl, h.2.2.reset b⟩
  next {s t r s'} h hn := by
    obtain ⟨a, b, i⟩ := s
    obtain ⟨a', b', j⟩ := t
    obtain ⟨h1, h2, h3⟩ := h
    simp only at h1 h2 h3
    subst h1 h2
    simp only [dynamicBucket, dynNext] at hn ⊢
    split at hn
    · cases hn; exact ⟨_, rfl, rfl, rfl, h3⟩
    · split at hn
      · cases hn
      · next hf =>
        obtain ⟨t', h4, h5⟩ := dynFill_sim isSim_same (s := ⟨[], b, i⟩) (t := ⟨[], b, j⟩) ⟨rfl, rfl, h3⟩ hf
        cases hn
        rw [h4]; exact ⟨_, rfl, h5⟩
      · next hf =>
        obtain ⟨⟨a2, b2, j2⟩, h4, h5, h6, h7⟩ := dynFill_sim isSim_same (s := ⟨[], b, i⟩) (t := ⟨[], b, j⟩) ⟨rfl, rfl, h3⟩ hf
        rw [h4]
        simp only at h5 h6 h7 ⊢
        subst h5 h6
        split at hn
        · next h0 => rw [if_pos h0]; cases hn; exact ⟨_, rfl, rfl, rfl, h7⟩
        · next h0 =>
          rw [if_neg h0]
          split at hn
          · next hr =>
            rw [if_pos hr]
            split at hn
            · cases hn; exact ⟨_, rfl, rfl, rfl, h7⟩
            · split at hn
              · cases hn; exact ⟨_, rfl, rfl, rfl, h7⟩
              · cases hn; exact ⟨_, rfl, rfl, rfl, h7⟩
              · cases hn; exact ⟨_, rfl, rfl, rfl, h7⟩
          · next hr =>
            rw [if_neg hr]
            split at hn
            · next hd => rw [if_pos hd]; cases hn; exact ⟨_, rfl, rfl, rfl, h7⟩
            · next hd => rw [if_neg hd]; cases hn; exact ⟨_, rfl, rfl, rfl, h7⟩

/-- What the reading loop has done. -/
structure Filled (c : DynCfg) (S : Source) (s : DynSt S.σ) (x : (Option Err × Rat) × DynSt S.σ)
    (ys : List Data) (i : S.σ) : Prop where
  ret : x.2.ret = s.ret
  buf : x.2.buf = s.buf ++ ys
  emits : S.Emits s.inner ys i
  why : (x.1.1 = none ∧ c.ready x.1.2 x.2.buf.length = true ∧ x.2.inner = i) ∨
    (x.1.1 = none ∧ c.ready x.1.2 x.2.buf.length = false ∧ S.next i = some (.eod, x.2.inner)) ∨
    (∃ e, x.1.1 = some e ∧ S.next i = some (.err e, x.2.inner)) ∨
    (∃ e y, x.1.1 = some e ∧ S.next i = some (.yield y, x.2.inner) ∧ c.cost y = .error e)

theorem dynFill_inv {q : Rat} {s : DynSt S.σ} {x : (Option Err × Rat) × DynSt S.σ}
    (hn : dynFill S.next c q s = some x) : ∃ ys i, Filled c S s x ys i := by
  refine dynFill.partial_correctness S.next c
    (fun _ s x => ∃ ys i, Filled c S s x ys i) ?_ q s x hn
  intro f ih q s x hx
  split at hx
  · next hr => cases hx; exact ⟨[], s.inner, rfl, by simp, .nil _, .inl ⟨rfl, hr, rfl⟩⟩
  · next hr =>
    split at hx
    · cases hx
    · next hi =>
      cases hx
      exact ⟨[], s.inner, rfl, by simp, .nil _, .inr (.inl ⟨rfl, by simpa using hr, hi⟩)⟩
    · next hi =>
      cases hx
      exact ⟨[], s.inner, rfl, by simp, .nil _, .inr (.inr (.inl ⟨_, rfl, hi⟩))⟩
    · next hi =>
      split at hx
      · next hc =>
        cases hx
        exact ⟨[], s.inner, rfl, by simp, .nil _, .inr (.inr (.inr ⟨_, _, rfl, hi, hc⟩))⟩
      · obtain ⟨ys, i', h1, h2, h3, h4⟩ := ih _ _ _ hx
        exact ⟨_ :: ys, i', h1, by simpa using h2, .cons hi h3, h4⟩

theorem dynFill_keeps {I : S.σ → Prop} (hI : Invar S I) {q : Rat} {s : DynSt S.σ}
    {x : (Option Err × Rat) × DynSt S.σ} (hs : I s.inner)
    (hn : dynFill S.next c q s = some x) (hf : ∀ e, x.1.1 = some e → e.recoverable = true) :
    I x.2.inner := by
  obtain ⟨ys, i, h⟩ := dynFill_inv hn
  have h1 := hI.emits h.emits hs
  rcases h.why with ⟨-, -, h2⟩ | ⟨-, -, h2⟩ | ⟨e, he, h2⟩ | ⟨e, y, he, h2, -⟩
  · rw [h2]; exact h1
  · exact hI.next h1 h2 (by simp [Res.fatal])
  · exact hI.next h1 h2 (by simp [Res.fatal, hf e he])
  · exact hI.next h1 h2 (by simp [Res.fatal])

theorem dyn_inv {I : S.σ → Prop} (hI : Invar S I) :
    Invar (dynamicBucket c S) (fun s : DynSt S.σ => (c.create = none → s.ret = []) ∧ I s.inner) where
  reset b h := ⟨h.1, hI.reset b h.2⟩
  next {s r s'} hs hn hf := by
    obtain ⟨a, b, i⟩ := s
    simp only [dynamicBucket, dynNext] at hn hs
    split at hn
    · cases hn
      refine ⟨fun h => ?_, hs.2⟩
      have := hs.1 h
      simp at this
    · split at hn
      · cases hn
      · next hfill =>
        cases hn
        obtain ⟨ys, j, h⟩ := dynFill_inv hfill
        refine ⟨fun _ => h.ret, dynFill_keeps hI hs.2 hfill ?_⟩
        rintro e ⟨⟩
        simpa [Res.fatal] using hf
      · next hfill =>
        obtain ⟨ys, j, h⟩ := dynFill_inv hfill
        have hr := h.ret
        have hk := dynFill_keeps hI hs.2 hfill (by rintro e ⟨⟩)
        simp only at hk hr
        split at hn
        · cases hn; exact ⟨fun _ => hr, hk⟩
        · split at hn
          · split at hn
            · cases hn; exact ⟨fun _ => hr, hk⟩
            · next hc =>
              have hno : ∀ {p : Prop}, c.create = none → p := by intro p h; rw [hc] at h; cases h
              split at hn
              · cases hn; exact ⟨hno, hk⟩
              · cases hn; exact ⟨hno, hk⟩
              · cases hn; exact ⟨hno, hk⟩
          · split at hn
            · cases hn; exact ⟨fun _ => hr, hk⟩
            · cases hn; exact ⟨fun _ => hr, hk⟩

theorem dyn_next (s : DynSt S.σ) : (dynamicBucket c S).next s = dynNext S c s := rfl

theorem dyn_ended {i : S.σ} (h : S.Ended i ∨ c.ready 0 0 = true) :
    (dynamicBucket c S).Ended (⟨[], [], i⟩ : DynSt S.σ) := by
  refine .coind (fun s : DynSt S.σ => s.ret = [] ∧ s.buf = [] ∧
    (S.Ended s.inner ∨ c.ready 0 0 = true)) ⟨rfl, rfl, h⟩ ?_
  rintro (s : DynSt S.σ) ⟨h1, h2, h3⟩
  obtain ⟨a, b, i⟩ := s
  simp only at h1 h2 h3
  subst h1 h2
  by_cases hr : c.ready 0 0 = true
  · refine ⟨⟨[], [], i⟩, ?_, rfl, rfl, h3⟩
    rw [dyn_next]
    simp only [dynNext]
    rw [dynFill]
    simp [hr]
    rfl
  · obtain ⟨i', hi, he⟩ := (h3.resolve_right hr).next
    refine ⟨⟨[], [], i'⟩, ?_, rfl, rfl, .inl he⟩
    rw [dyn_next]
    simp only [dynNext]
    rw [dynFill]
    simp [hr, hi]
    rfl

theorem dyn_eod {I : S.σ → Prop} (hI : Invar S I) (hE : EodFinal S I) :
    EodFinal (dynamicBucket c S) (fun s : DynSt S.σ => (c.create = none → s.ret = []) ∧ I s.inner) := by
  intro s s' hs hn
  obtain ⟨a, b, i⟩ := s
  simp only [dynamicBucket, dynNext] at hn hs
  split at hn
  · cases hn
  · split at hn
    · cases hn
    · cases hn
    · next q' s1 hfill =>
      obtain ⟨ys, j, h⟩ := dynFill_inv hfill
      have hr := h.ret
      have hb := h.buf
      obtain ⟨a1, b1, i1⟩ := s1
      simp only at hr hb hn
      subst hr
      split at hn
      · next h0 =>
        cases hn
        subst h0
        refine dyn_ended ?_
        have hys : b = [] ∧ ys = [] := by simpa using hb.symm
        rcases h.why with ⟨-, h2, h3⟩ | ⟨-, h2, h3⟩ | ⟨e, he, h2⟩ | ⟨e, y, he, h2, -⟩
        · right
          rw [hys.1, dynFill] at hfill
          by_cases h00 : c.ready 0 0 = true
          · exact h00
          · exfalso
            simp only [List.length_nil] at h2 hfill
            rw [if_neg h00] at hfill
            split at hfill
            · cases hfill
            · cases hfill; exact h00 h2
            · cases hfill
            · split at hfill
              · cases hfill
              · obtain ⟨_, _, h9⟩ := dynFill_inv hfill
                have := h9.buf
                simp at this
        · exact .inl (hE (hI.emits h.emits hs.2) h3)
        · cases he
        · cases he
      · split at hn
        · split at hn
          · cases hn
          · split at hn <;> cases hn
        · next hnr =>
          split at hn
          · cases hn
            refine dyn_ended (.inl ?_)
            rcases h.why with ⟨-, h2, h3⟩ | ⟨-, h2, h3⟩ | ⟨e, he, h2⟩ | ⟨e, y, he, h2, -⟩
            · exact absurd h2 hnr
            · exact hE (hI.emits h.emits hs.2) h3
            · cases he
            · cases he
          · cases hn

theorem dyn_resumes {I : S.σ → Prop} {s t : DynSt S.σ} (hr : s.ret = []) (hr' : t.ret = [])
    (hb : c.create = none → s.buf = t.buf) (h : Resumes S I s.inner t.inner) :
    Resumes (dynamicBucket c S)
      (fun s : DynSt S.σ => (c.create = none → s.ret = []) ∧ I s.inner) s t := by
  obtain ⟨tp, h1, h2⟩ := h
  refine ⟨if c.create.isSome then .list s.buf :: tp else tp, by simp [dynamicBucket, h1],
    fun rest => ?_⟩
  obtain ⟨t', h3, h4, h5⟩ := h2 rest
  cases hc : c.create with
  | none =>
    refine ⟨⟨t.ret, t.buf, t'⟩, by simp [dynamicBucket, hc, h3],
      dyn_isSim.same ⟨hr'.trans hr.symm, (hb hc).symm, h4⟩, fun _ => hr', h5⟩
  | some f =>
    refine ⟨⟨t.ret, s.buf, t'⟩, by simp [dynamicBucket, hc, h3, readList],
      dyn_isSim.same ⟨hr'.trans hr.symm, rfl, h4⟩, fun _ => hr', h5⟩

theorem dyn_rewinds {s : DynSt S.σ} (hr : s.ret = []) (h : Rewinds S s.inner) :
    Rewinds (dynamicBucket c S) s := dyn_isSim.same ⟨hr, rfl, h⟩

theorem dyn_restarts (h : Restarts S) : Restarts (dynamicBucket c S) :=
  fun b => dyn_isSim.same ⟨rfl, rfl, h b⟩

/-! ## The stream -/

/-- The total cost of examples. -/
def totalCost (q : Data → Rat) (xs : List Data) : Rat := (xs.map q).sum

theorem totalCost_cons (q : Data → Rat) (x : Data) (xs : List Data) :
    totalCost q (x :: xs) = q x + totalCost q xs := by simp [totalCost]

/-- Reading ahead from a finite stream with a cost function that does not throw. -/
theorem dynFill_fwd {q : Data → Rat} (hq : ∀ x, c.cost x = .ok (q x)) {xs b : List Data}
    {i : S.σ} (h : S.Yields i xs) (r : List Data) (a : Rat) :
    ∃ pre post i', xs = pre ++ post ∧
      dynFill S.next c a ⟨r, b, i⟩ = some ((none, a + totalCost q pre), ⟨r, b ++ pre, i'⟩) ∧
      S.Yields i' post ∧
      (∀ k, k < pre.length → c.ready (a + totalCost q (pre.take k)) (b.length + k) = false) ∧
      (c.ready (a + totalCost q pre) (b.length + pre.length) = true ∨ post = []) := by
  induction xs generalizing b i a with
  | nil =>
    obtain ⟨i', hi, he⟩ := h.nil_inv.next
    by_cases hr : c.ready a b.length = true
    · refine ⟨[], [], i, rfl, ?_, h, by simp, .inr rfl⟩
      rw [dynFill]; simp [hr, totalCost, Rat.add_zero]
    · refine ⟨[], [], i', rfl, ?_, ⟨i', .nil _, he⟩, by simp, .inr rfl⟩
      rw [dynFill]; simp [hr, hi, totalCost, Rat.add_zero]
  | cons x xs ih =>
    by_cases hr : c.ready a b.length = true
    · refine ⟨[], x :: xs, i, rfl, ?_, h, by simp, .inl ?_⟩
      · rw [dynFill]; simp [hr, totalCost, Rat.add_zero]
      · simpa [totalCost, Rat.add_zero] using hr
    · obtain ⟨i1, hi, h1⟩ := h.cons_inv
      obtain ⟨pre, post, i', h2, h3, h4, h5, h6⟩ := ih (b := b ++ [x]) h1 (a + q x)
      refine ⟨x :: pre, post, i', by simp [h2], ?_, h4, ?_, ?_⟩
      · rw [dynFill]
        simp [hr, hi, hq, h3, totalCost_cons, Rat.add_assoc]
      · intro k hk
        cases k with
        | zero => simpa [totalCost, Rat.add_zero] using hr
        | succ k =>
          have := h5 k (by simpa using hk)
          simpa [totalCost_cons, Rat.add_assoc, Nat.add_assoc, Nat.add_comm 1 k] using this
      · simpa [totalCost_cons, Rat.add_assoc, Nat.add_assoc, Nat.add_comm 1 pre.length] using h6

/-- A bucket emitted because it is complete: ready, and no shorter prefix is. -/
def DynCfg.Complete (c : DynCfg) (q : Data → Rat) (b : List Data) : Prop :=
  c.ready (totalCost q b) b.length = true ∧
    ∀ k, k < b.length → c.ready (totalCost q (b.take k)) k = false

theorem dyn_yields {q : Data → Rat} (hq : ∀ x, c.cost x = .ok (q x)) (hc : c.create = none)
    (h0 : c.ready 0 0 = false) {xs : List Data} {i : S.σ} (h : S.Yields i xs) :
    ∃ (outs : List (List Data)) (last : List Data), outs.flatten ++ last = xs ∧
      (∀ b ∈ outs, b ≠ [] ∧ c.Complete q b) ∧
      (∀ k, k ≤ last.length → c.ready (totalCost q (last.take k)) k = false) ∧
      (dynamicBucket c S).Yields (⟨[], [], i⟩ : DynSt S.σ)
        ((outs ++ if c.drop = false ∧ last ≠ [] then [last] else []).map .list) := by
  induction hn : xs.length using Nat.strongRecOn generalizing xs i with
  | _ n ih =>
    subst hn
    obtain ⟨pre, post, i', h1, h2, h3, h4, h5⟩ := dynFill_fwd (b := []) hq h [] 0
    simp only [Rat.zero_add, List.nil_append, List.length_nil, Nat.zero_add] at h2 h4 h5
    by_cases hr : c.ready (totalCost q pre) pre.length = true
    · have hne : pre ≠ [] := by
        rintro rfl
        simp [totalCost, h0] at hr
      obtain ⟨outs, last, h6, h7, h8, h9⟩ := ih post.length
        (by rw [h1, List.length_append]; have := List.length_pos_iff.mpr hne; omega) h3 rfl
      refine ⟨pre :: outs, last, by simp [h1, ← h6], ?_, h8, ?_⟩
      · intro b hb
        rcases List.mem_cons.mp hb with rfl | hb
        · exact ⟨hne, hr, h4⟩
        · exact h7 b hb
      · refine .cons (s' := (⟨[], [], i'⟩ : DynSt S.σ)) ?_ h9
        rw [dyn_next]
        simp [dynNext, h2, hne, hr, hc]
        rfl
    · have hpost := h5.resolve_left hr
      subst hpost
      have hr' : c.ready (totalCost q pre) pre.length = false := by simpa using hr
      refine ⟨[], pre, by simp [h1], by simp, ?_, ?_⟩
      · intro k hk
        by_cases hk' : k < pre.length
        · exact h4 k hk'
        · have : k = pre.length := by omega
          subst this
          rw [List.take_length]
          exact hr'
      · by_cases hp : pre = []
        · subst hp
          have : dynNext S c ⟨[], [], i⟩ = some (.eod, ⟨[], [], i'⟩) := by simp [dynNext, h2]
          simpa using Yields.nil_of ((dyn_next _).trans this) (dyn_ended (.inl h3.nil_inv))
        · cases hd : c.drop with
          | true =>
            have : dynNext S c ⟨[], [], i⟩ = some (.eod, ⟨[], [], i'⟩) := by
              simp [dynNext, h2, hp, hr, hd]
            simpa using Yields.nil_of ((dyn_next _).trans this) (dyn_ended (.inl h3.nil_inv))
          | false =>
            have : dynNext S c ⟨[], [], i⟩ = some (.yield (.list pre), ⟨[], [], i'⟩) := by
              simp [dynNext, h2, hp, hr, hd]
            simpa [hp] using Yields.cons ((dyn_next _).trans this)
              ⟨_, .nil _, dyn_ended (.inl h3.nil_inv)⟩

end
end Fs2
