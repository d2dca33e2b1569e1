import Verif.Pipeline.Wrapper
import Verif.Pipeline.Laws

/-!
# Laws of `data_pipeline`
-/

namespace Fs2
open Source

variable {S : Source} {lazy : Bool} {max : Nat}

theorem pipeLoop_sim {left w : Nat} {i j : S.σ} {r : Res} {s' : PipeSt S.σ} (h : S.Same i j)
    (hn : pipeLoop S left w i = some (r, s')) :
    ∃ i' j', s'.src = some i' ∧
      pipeLoop S left w j = some (r, ⟨some j', s'.warnings, s'.broken⟩) ∧ S.Same i' j' := by
  induction left generalizing w i j with
  | zero =>
    rw [pipeLoop] at hn ⊢
    split at hn
    · cases hn
    · next hi => cases hn; obtain ⟨j', hj, h'⟩ := h.next hi; exact ⟨_, j', rfl, by simp [hj], h'⟩
    · next hi => cases hn; obtain ⟨j', hj, h'⟩ := h.next hi; exact ⟨_, j', rfl, by simp [hj], h'⟩
    · next hi =>
      obtain ⟨j', hj, h'⟩ := h.next hi
      split at hn
      · next he => cases hn; exact ⟨_, j', rfl, by simp [hj, he], h'⟩
      · next he => cases hn; exact ⟨_, j', rfl, by simp [hj, he], h'⟩
  | succ left ih =>
    rw [pipeLoop] at hn ⊢
    split at hn
    · cases hn
    · next hi => cases hn; obtain ⟨j', hj, h'⟩ := h.next hi; exact ⟨_, j', rfl, by simp [hj], h'⟩
    · next hi => cases hn; obtain ⟨j', hj, h'⟩ := h.next hi; exact ⟨_, j', rfl, by simp [hj], h'⟩
    · next hi =>
      obtain ⟨j', hj, h'⟩ := h.next hi
      split at hn
      · next he => simp only [hj, he, if_true]; exact ih h' hn
      · next he => cases hn; exact ⟨_, j', rfl, by simp [hj, he], h'⟩

/-- Both not initialised, or both initialised with indistinguishable sources. -/
inductive OptSame (S : Source) : Option S.σ → Option S.σ → Prop where
  | none : OptSame S none none
  | some {i j} : S.Same i j → OptSame S (some i) (some j)

theorem OptSame.symm {a b : Option S.σ} (h : OptSame S a b) : OptSame S b a := by
  cases h with
  | none => exact .none
  | some h => exact .some h.symm

theorem pipeline_isSim : IsSim (pipeline lazy max S)
    (fun s t => s.warnings = t.warnings ∧ s.broken = t.broken ∧ OptSame S s.src t.src) where
  symm h := ⟨h.1.symm, h.2.1.symm, h.2.2.symm⟩
  reset {s t} b h := by
    obtain ⟨a, w, k⟩ := s
    obtain ⟨a', w', k'⟩ := t
    obtain ⟨h1, h2, h3⟩ := h
    simp only at h1 h2 h3
    subst h1 h2
    simp only [pipeline, pipeReset]
    cases h3 with
    | none => cases k <;> exact ⟨rfl, rfl, .none⟩
    | some h => cases k <;> exact ⟨rfl, rfl, .some (by first | exact h | exact h.reset b)⟩
  next {s t r s'} h hn := by
    obtain ⟨a, w, k⟩ := s
    obtain ⟨a', w', k'⟩ := t
    obtain ⟨h1, h2, h3⟩ := h
    simp only at h1 h2 h3
    subst h1 h2
    simp only [pipeline, pipeNext] at hn ⊢
    have hs : S.Same (a.getD S.init) (a'.getD S.init) := by
      cases h3 with
      | none => exact .refl _
      | some h => exact h
    split at hn
    · next hk => cases hn; rw [if_pos hk]; exact ⟨_, rfl, rfl, rfl, h3⟩
    · next hk =>
      rw [if_neg hk]
      obtain ⟨i', j', h4, h5, h6⟩ := pipeLoop_sim hs hn
      exact ⟨_, h5, rfl, rfl, by rw [h4]; exact .some h6⟩

/-- The invariant of a pipeline: not broken, and its source in `I`. -/
def PipeInv (lazy : Bool) (max : Nat) (I : S.σ → Prop) (s : PipeSt S.σ) : Prop :=
  s.broken = false ∧ s.warnings ≤ max ∧
    match s.src with
    | none => lazy = true
    | some i => I i

theorem pipeLoop_inv {I : S.σ → Prop} (hI : Invar S I) {left w : Nat} {i : S.σ} {r : Res}
    {s' : PipeSt S.σ} (hi : I i) (hn : pipeLoop S left w i = some (r, s')) (hf : ¬ r.fatal) :
    PipeInv lazy (w + left) I s' := by
  induction left generalizing w i with
  | zero =>
    rw [pipeLoop] at hn
    split at hn
    · cases hn
    · next h => cases hn; exact ⟨rfl, by simp, hI.next hi h hf⟩
    · next h => cases hn; exact ⟨rfl, by simp, hI.next hi h hf⟩
    · next h =>
      split at hn
      · next he => cases hn; exact ⟨rfl, by simp, hI.next hi h (by simp [Res.fatal, he])⟩
      · next he => cases hn; simp [Res.fatal, he] at hf
  | succ left ih =>
    rw [pipeLoop] at hn
    split at hn
    · cases hn
    · next h => cases hn; exact ⟨rfl, by simp, hI.next hi h hf⟩
    · next h => cases hn; exact ⟨rfl, by simp, hI.next hi h hf⟩
    · next h =>
      split at hn
      · next he =>
        have := ih (hI.next hi h (by simp [Res.fatal, he])) hn
        rw [show w + (left + 1) = w + 1 + left by omega]
        exact this
      · next he => cases hn; simp [Res.fatal, he] at hf

theorem pipeline_inv {I : S.σ → Prop} (hI : Invar S I) (hinit : I S.init) :
    Invar (pipeline lazy max S) (PipeInv lazy max I) where
  next {s r s'} hs hn hf := by
    obtain ⟨a, w, k⟩ := s
    obtain ⟨h1, h2, h3⟩ := hs
    simp only at h1 h2 h3
    subst h1
    simp only [pipeline, pipeNext] at hn
    rw [if_neg (by simp)] at hn
    have hi : I (a.getD S.init) := by
      cases a with
      | none => exact hinit
      | some i => exact h3
    have := pipeLoop_inv (lazy := lazy) hI hi hn hf
    rwa [show w + (max - w) = max by omega] at this
  reset {s} b hs := by
    obtain ⟨a, w, k⟩ := s
    obtain ⟨h1, h2, h3⟩ := hs
    simp only at h1 h2 h3
    subst h1
    simp only [pipeline, pipeReset]
    cases a with
    | none => exact ⟨rfl, h2, h3⟩
    | some i => exact ⟨rfl, h2, hI.reset b h3⟩

theorem pipeline_inv_init {I : S.σ → Prop} (hinit : I S.init) :
    PipeInv lazy max I (pipeline lazy max S).init := by
  refine ⟨rfl, Nat.zero_le _, ?_⟩
  cases lazy with
  | true => rfl
  | false => exact hinit

theorem pipeline_ended {i : S.σ} {w : Nat} (h : S.Ended i) :
    (pipeline lazy max S).Ended ⟨some i, w, false⟩ := by
  refine .coind (fun s => s.broken = false ∧ ∃ i, s.src = some i ∧ S.Ended i) ⟨rfl, i, rfl, h⟩ ?_
  rintro ⟨a, w, k⟩ ⟨h1, i, h2, h3⟩
  simp only at h1 h2
  subst h1 h2
  obtain ⟨i', h4, h5⟩ := h3.next
  refine ⟨⟨some i', w, false⟩, ?_, rfl, i', rfl, h5⟩
  simp only [pipeline, pipeNext, Option.getD_some]
  rw [if_neg (by simp), pipeLoop]
  simp [h4]

theorem pipeLoop_eod {I : S.σ → Prop} (hI : Invar S I) (hE : EodFinal S I) {left w : Nat} {i : S.σ}
    {s' : PipeSt S.σ} (hi : I i) (hn : pipeLoop S left w i = some (.eod, s')) :
    (pipeline lazy max S).Ended s' := by
  induction left generalizing w i with
  | zero =>
    rw [pipeLoop] at hn
    split at hn
    · cases hn
    · cases hn
    · next h => cases hn; exact pipeline_ended (hE hi h)
    · split at hn <;> cases hn
  | succ left ih =>
    rw [pipeLoop] at hn
    split at hn
    · cases hn
    · cases hn
    · next h => cases hn; exact pipeline_ended (hE hi h)
    · next h =>
      split at hn
      · next he => exact ih (hI.next hi h (by simp [Res.fatal, he])) hn
      · cases hn

theorem pipeline_eod {I : S.σ → Prop} (hI : Invar S I) (hinit : I S.init) (hE : EodFinal S I) :
    EodFinal (pipeline lazy max S) (PipeInv lazy max I) := by
  intro s s' hs hn
  obtain ⟨a, w, k⟩ := s
  obtain ⟨h1, h2, h3⟩ := hs
  simp only at h1 h2 h3
  subst h1
  simp only [pipeline, pipeNext] at hn
  rw [if_neg (by simp)] at hn
  have hi : I (a.getD S.init) := by
    cases a with
    | none => exact hinit
    | some i => exact h3
  exact pipeLoop_eod hI hE hi hn

theorem pipeline_resumes {I : S.σ → Prop} {s t : (pipeline lazy max S).σ}
    (hs : PipeInv lazy max I s) (ht : PipeInv lazy max I t)
    (hw : s.warnings = t.warnings) (hn : s.src = none → t.src = none)
    (hr : ∀ i, s.src = some i → Resumes S I i (t.src.getD S.init)) :
    Resumes (pipeline lazy max S) (PipeInv lazy max I) s t := by
  obtain ⟨a, w, k⟩ := s
  obtain ⟨a', w', k'⟩ := t
  obtain ⟨h1, h2, h3⟩ := hs
  obtain ⟨h1', h2', h3'⟩ := ht
  simp only at h1 h1' h2 h2' h3 h3' hw hn hr
  subst h1 h1' hw
  cases a with
  | none =>
    obtain rfl := hn rfl
    refine ⟨[.bool false], rfl, fun rest => ⟨⟨none, w, false⟩, rfl, .refl _, rfl, h2, h3⟩⟩
  | some i =>
    obtain ⟨tp, h4, h5⟩ := hr i rfl
    refine ⟨.bool true :: .bool true :: tp, by simp [pipeline, pipeRecord, h4], fun rest => ?_⟩
    obtain ⟨t', h6, h7, h8⟩ := h5 rest
    refine ⟨⟨some t', w, false⟩, by simp [pipeline, pipeReload, readBool, h6], ?_, rfl, h2, h8⟩
    exact pipeline_isSim.same ⟨rfl, rfl, .some h7⟩

/-- Whether the source has been created already cannot be told from outside. -/
theorem pipeline_same_lazy (hR : Restarts S) {i : S.σ} {w : Nat} (h : S.Same i S.init) :
    (pipeline lazy max S).Same ⟨some i, w, false⟩ ⟨none, w, false⟩ := by
  have hsim : IsSim (pipeline lazy max S) (fun s t => s.warnings = t.warnings ∧
      s.broken = t.broken ∧ (OptSame S s.src t.src ∨
        s.broken = false ∧ S.Same (s.src.getD S.init) S.init ∧
          S.Same (t.src.getD S.init) S.init)) := by
    refine ⟨?_, ?_, ?_⟩
    · rintro s t ⟨h1, h2, h3⟩
      refine ⟨h1.symm, h2.symm, ?_⟩
      rcases h3 with h3 | ⟨h3, h4, h5⟩
      · exact .inl h3.symm
      · exact .inr ⟨h2 ▸ h3, h5, h4⟩
    · rintro ⟨a, w, k⟩ ⟨a', w', k'⟩ r s' ⟨h1, h2, h3⟩ hn
      rcases h3 with h3 | ⟨h3, h4, h5⟩
      · obtain ⟨t', ht, h4, h5, h6⟩ := pipeline_isSim.next (t := ⟨a', w', k'⟩) ⟨h1, h2, h3⟩ hn
        exact ⟨t', ht, h4, h5, .inl h6⟩
      · simp only at h1 h2 h3 h4 h5
        subst h1 h2 h3
        simp only [pipeline, pipeNext] at hn ⊢
        rw [if_neg (by simp)] at hn ⊢
        obtain ⟨i', j', h6, h7, h8⟩ := pipeLoop_sim (h4.trans h5.symm) hn
        exact ⟨_, h7, rfl, rfl, .inl (by rw [h6]; exact .some h8)⟩
    · rintro ⟨a, w, k⟩ ⟨a', w', k'⟩ b ⟨h1, h2, h3⟩
      rcases h3 with h3 | ⟨h3, h4, h5⟩
      · obtain ⟨h4, h5, h6⟩ := pipeline_isSim (lazy := lazy) (max := max).reset b
          (s := ⟨a, w, k⟩) (t := ⟨a', w', k'⟩) ⟨h1, h2, h3⟩
        exact ⟨h4, h5, .inl h6⟩
      · simp only at h1 h2 h3 h4 h5
        subst h1 h2 h3
        have key : ∀ o : Option S.σ, S.Same (o.getD S.init) S.init →
            (pipeReset S b ⟨o, w, false⟩).warnings = w ∧
            (pipeReset S b ⟨o, w, false⟩).broken = false ∧
            S.Same ((pipeReset S b ⟨o, w, false⟩).src.getD S.init) S.init := by
          intro o ho
          cases o with
          | none => exact ⟨rfl, rfl, ho⟩
          | some i => exact ⟨rfl, rfl, (Same.reset ho b).trans (hR b)⟩
        obtain ⟨k1, k2, k3⟩ := key a h4
        obtain ⟨l1, l2, l3⟩ := key a' h5
        exact ⟨k1.trans l1.symm, k2.trans l2.symm, .inr ⟨k2, k3, l3⟩⟩
  exact hsim.same ⟨rfl, rfl, .inr ⟨rfl, h, .refl _⟩⟩

theorem pipeline_rewinds {s : (pipeline lazy max S).σ} (hb : s.broken = false)
    (hw : s.warnings = 0) (hl : s.src = none → lazy = true) (hR : Restarts S)
    (h : ∀ i, s.src = some i → Rewinds S i) : Rewinds (pipeline lazy max S) s := by
  obtain ⟨a, w, k⟩ := s
  simp only at hb hw hl h
  subst hb hw
  cases a with
  | none =>
    obtain rfl := hl rfl
    exact .refl _
  | some i =>
    have h1 := h i rfl
    cases lazy with
    | true => exact pipeline_same_lazy hR h1
    | false => exact pipeline_isSim.same ⟨rfl, rfl, .some h1⟩

theorem pipeline_restarts (hR : Restarts S) : Restarts (pipeline lazy max S) := by
  intro b
  cases lazy with
  | true => exact .refl _
  | false => exact pipeline_isSim.same ⟨rfl, rfl, .some (hR b)⟩

theorem pipeline_emits {i i' : S.σ} {w : Nat} {xs : List Data} (h : S.Emits i xs i') :
    (pipeline lazy max S).Emits ⟨some i, w, false⟩ xs ⟨some i', w, false⟩ := by
  induction h with
  | nil => exact .nil _
  | @cons s s' s'' x xs hn _ ih =>
    refine .cons ?_ ih
    simp only [pipeline, pipeNext, Option.getD_some]
    rw [if_neg (by simp), pipeLoop]
    simp [hn]

theorem pipeline_yields {i : S.σ} {w : Nat} {xs : List Data} (h : S.Yields i xs) :
    (pipeline lazy max S).Yields ⟨some i, w, false⟩ xs := by
  obtain ⟨i', h1, h2⟩ := h
  exact ⟨_, pipeline_emits h1, pipeline_ended h2⟩

end Fs2
