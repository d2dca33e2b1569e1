import Verif.Pipeline.Quiet
import Verif.Pipeline.BblLaws
import Verif.Pipeline.DynLaws
import Verif.Pipeline.PackLaws
import Verif.Pipeline.YieldLaws
import Verif.Pipeline.SampleLaws

/-!
# Laws still missing for the composition of operators
-/

namespace Fs2
open Source
namespace Source
variable {S : Source} {I : S.σ → Prop}

theorem Resumes.and {J : S.σ → Prop} {s t : S.σ} (h : Resumes S I s t)
    (hJ : ∀ tp rest t', S.record true s = .ok tp → S.reload true t (tp ++ rest) = .ok (t', rest) →
      J t') : Resumes S (fun s => I s ∧ J s) s t := by
  obtain ⟨tp, h1, h2⟩ := h
  refine ⟨tp, h1, fun rest => ?_⟩
  obtain ⟨t', h3, h4, h5⟩ := h2 rest
  exact ⟨t', h3, h4, h5, hJ _ _ _ h1 h3⟩

theorem Resumes.mono {J : S.σ → Prop} {s t : S.σ} (h : Resumes S I s t) (hJ : ∀ s, I s → J s) :
    Resumes S J s t := by
  obtain ⟨tp, h1, h2⟩ := h
  refine ⟨tp, h1, fun rest => ?_⟩
  obtain ⟨t', h3, h4, h5⟩ := h2 rest
  exact ⟨t', h3, h4, hJ _ h5⟩

theorem EodFinal.mono {J : S.σ → Prop} (h : EodFinal S I) (hJ : ∀ s, J s → I s) : EodFinal S J :=
  fun hs hn => h (hJ _ hs) hn

end Source

section
variable {S : Source} {I : S.σ → Prop} {n : Nat}

theorem listSource_restarts (xs : List Data) : Restarts (listSource xs) := fun _ => .refl _
theorem countSource_restarts (a b k) : Restarts (countSource a b k) := fun _ => .refl _
theorem constantSource_restarts (x k) : Restarts (constantSource x k) := fun _ => .refl _
theorem take_restarts (h : Restarts S) : Restarts (take n S) := fun b => take_isSim.same ⟨rfl, h b⟩
theorem skip_restarts (h : Restarts S) : Restarts (skip n S) := fun b => skip_isSim.same ⟨rfl, h b⟩
theorem filter_restarts {p} (h : Restarts S) : Restarts (filter p S) :=
  fun b => filter_isSim.same (h b)
theorem map_restarts {f} (h : Restarts S) : Restarts (map f S) := fun b => map_isSim.same (h b)
theorem shard_restarts {i un} (h : Restarts S) : Restarts (shard i n un S) :=
  fun b => shard_isSim.same (h b)
theorem bucket_restarts {drop} (h : Restarts S) : Restarts (bucket n drop S) :=
  fun b => bucket_isSim.same (h b)

/-! ## Pipelines that have never skipped an example -/

theorem pipeReset_warnings (b : Bool) (s : PipeSt S.σ) :
    (pipeReset S b s).warnings = s.warnings := by
  obtain ⟨src, w, br⟩ := s
  cases br <;> cases src <;> rfl

theorem pipeReload_warnings {s s' : PipeSt S.σ} {t t' : Tape}
    (h : pipeReload S s t = .ok (s', t')) : s'.warnings = s.warnings := by
  simp only [pipeReload] at h
  split at h
  · cases h
  · split at h
    · cases h
    · cases h
      exact pipeReset_warnings false s
    · split at h
      · cases h
      · split at h <;> cases h
        rfl

/-- The invariant of a pipeline; `q` stands for an upstream that never raises an
exception. -/
def PipeInvQ (lazy : Bool) (max : Nat) (q : Prop) (I : S.σ → Prop) (s : PipeSt S.σ) : Prop :=
  PipeInv lazy max I s ∧ (q → s.warnings = 0)

theorem pipeline_invQ {lazy : Bool} {max : Nat} {q : Prop} (hI : Invar S I) (hinit : I S.init)
    (hq : q → Silent S I) : Invar (pipeline lazy max S) (PipeInvQ lazy max q I) where
  reset {s} b h := by
    refine ⟨(pipeline_inv hI hinit).reset b h.1, fun hq => ?_⟩
    have := h.2 hq
    exact (pipeReset_warnings b s).trans this
  next {s r s'} h hn hf := by
    refine ⟨(pipeline_inv hI hinit).next h.1 hn hf, fun hq' => ?_⟩
    have hw := h.2 hq'
    have hi : I (s.src.getD S.init) := by
      obtain ⟨-, -, h3⟩ := h.1
      cases hsrc : s.src with
      | none => exact hinit
      | some i => rw [hsrc] at h3; exact h3
    simp only [pipeline, pipeNext, h.1.1, Bool.false_eq_true, if_false] at hn
    rw [pipeLoop] at hn
    split at hn
    · cases hn
    · cases hn; exact hw
    · cases hn; exact hw
    · next hj => exact absurd rfl (hq hq' hi hj _)

theorem pipeline_resumesQ {lazy : Bool} {max : Nat} {q : Prop} {s t : (pipeline lazy max S).σ}
    (hs : PipeInvQ lazy max q I s) (ht : PipeInvQ lazy max q I t)
    (hw : s.warnings = t.warnings) (hn : s.src = none → t.src = none)
    (hr : ∀ i, s.src = some i → Resumes S I i (t.src.getD S.init)) :
    Resumes (pipeline lazy max S) (PipeInvQ lazy max q I) s t := by
  refine (pipeline_resumes hs.1 ht.1 hw hn hr).and ?_
  intro tp rest t' _ h hq
  rw [pipeReload_warnings h]
  exact ht.2 hq

/-! ## dynamic_bucket over an upstream that never raises an exception -/

/-- The invariant of `dynamic_bucket`; `q` stands for an upstream and a cost function
that never raise an exception. -/
def DynInvQ (c : DynCfg) (q : Prop) (I : S.σ → Prop) (s : DynSt S.σ) : Prop :=
  ((c.create = none → s.ret = []) ∧ I s.inner) ∧ (c.create = none ∧ q → s.buf = [])

theorem dyn_invQ {c : DynCfg} {q : Prop} (hI : Invar S I) (hq : q → Silent S I)
    (hc : q → ∀ x, (c.cost x).isOk) : Invar (dynamicBucket c S) (DynInvQ c q I) where
  reset {s} b h := ⟨(dyn_inv hI).reset b h.1, fun _ => rfl⟩
  next {s r s'} h hn hf := by
    refine ⟨(dyn_inv hI).next h.1 hn hf, fun ⟨hc0, hq'⟩ => ?_⟩
    obtain ⟨a, b, i⟩ := s
    have hret := h.1.1 hc0
    simp only at hret
    subst hret
    simp only [dynamicBucket, dynNext, hc0] at hn
    split at hn
    · cases hn
    · next hfill =>
      obtain ⟨ys, j, hF⟩ := dynFill_inv hfill
      have h1 := hI.emits hF.emits h.1.2
      rcases hF.why with ⟨h2, -⟩ | ⟨h2, -⟩ | ⟨e, -, h2⟩ | ⟨e, y, -, -, h2⟩
      · cases h2
      · cases h2
      · exact absurd rfl (hq hq' h1 h2 _)
      · have := hc hq' y; simp [h2, Except.isOk, Except.toBool] at this
    · split at hn
      · next hb => cases hn; exact hb
      · split at hn
        · cases hn; rfl
        · split at hn <;> cases hn <;> rfl

theorem dyn_resumesQ {c : DynCfg} {q : Prop} {s t : DynSt S.σ} (ht : DynInvQ c q I t)
    (hr : s.ret = []) (hr' : t.ret = [])
    (hb : c.create = none → s.buf = t.buf) (h : Resumes S I s.inner t.inner) :
    Resumes (dynamicBucket c S) (DynInvQ c q I) s t := by
  refine (dyn_resumes hr hr' hb h).and ?_
  intro tp rest t' _ h ⟨hc, hq⟩
  simp only [dynamicBucket, hc, Option.isSome_none, Bool.false_eq_true, if_false] at h
  split at h <;> cases h
  exact ht.2 ⟨hc, hq⟩

/-! ## yield_from whose function never fails -/

/-- The example that is saved is the one the current pipeline was made from. -/
def YieldPaired (F : YieldFn) (s : YieldSt F S.σ) : Prop :=
  (s.cur = none ∧ s.dp = none) ∨ ∃ x d, s.cur = some x ∧ s.dp = some ⟨x, d⟩ ∧ F.err x = none

def YieldInvQ (F : YieldFn) (q : Prop) (I : S.σ → Prop) (Ix : ∀ x, (F.pipe x).σ → Prop)
    (s : YieldSt F S.σ) : Prop :=
  YieldInv F I Ix s ∧ (q → YieldPaired F s)

theorem yieldCur_paired {F : YieldFn} {c : Option Data} {a a' : Option ((x : Data) × (F.pipe x).σ)}
    {i j : S.σ} {r : Option Res} (h : YieldPaired (S := S) F ⟨c, a, i⟩) (hn : yieldCur F a = some (r, a')) :
    YieldPaired (S := S) F ⟨c, a', j⟩ := by
  rcases h with ⟨h1, h2⟩ | ⟨x, d, h1, h2, h3⟩
  · simp only at h1 h2
    subst h1 h2
    cases hn
    exact .inl ⟨rfl, rfl⟩
  · simp only at h1 h2
    subst h1 h2
    simp only [yieldCur] at hn
    split at hn <;> cases hn <;> exact .inr ⟨x, _, rfl, rfl, h3⟩

theorem yield_invQ {F : YieldFn} {q : Prop} {Ix : ∀ x, (F.pipe x).σ → Prop} (hI : Invar S I)
    (hIx : ∀ x, Invar (F.pipe x) (Ix x)) (hinit : ∀ x, Ix x (F.pipe x).init)
    (hq : q → ∀ x, F.err x = none ∧ (F.pipe x).finitude = .finite) :
    Invar (yieldFrom F S) (YieldInvQ F q I Ix) where
  reset b h := ⟨(yield_inv hI hIx hinit).reset b h.1, fun _ => .inl ⟨rfl, rfl⟩⟩
  next {s r s'} hs hn hf := by
    refine ⟨(yield_inv hI hIx hinit).next hs.1 hn hf, fun hq' => ?_⟩
    refine yieldNext.partial_correctness F S.next
      (fun s x => YieldPaired (S := S) F s → YieldPaired (S := S) F x.2) ?_ s (r, s') hn (hs.2 hq')
    intro f ih s x hx hs
    split at hx
    · cases hx
    · next hc => cases hx; exact yieldCur_paired hs hc
    · next hc =>
      split at hx
      · cases hx
      · cases hx; exact yieldCur_paired hs hc
      · cases hx; exact .inl ⟨rfl, rfl⟩
      · next y _ _ =>
        split at hx
        · next he => rw [(hq hq' y).1] at he; cases he
        · next he =>
          split at hx
          · exact ih _ _ hx (.inr ⟨y, _, rfl, rfl, he⟩)
          · next hfin => exact absurd (hq hq' y).2 hfin

theorem yield_resumesQ {F : YieldFn} {q : Prop} {Ix : ∀ x, (F.pipe x).σ → Prop}
    {s t : YieldSt F S.σ}
    (hok : YieldOk F s fun x d => Resumes (F.pipe x) (Ix x) d (F.pipe x).init)
    (h : Resumes S I s.inner t.inner) :
    Resumes (yieldFrom F S) (YieldInvQ F q I Ix) s t := by
  refine (yield_resumes hok h).and ?_
  intro tp rest t' h1 h2 _
  simp only [yieldFrom, if_true] at h2
  split at h2
  · cases h2
  · split at h2 <;> cases h2
    exact .inl ⟨rfl, rfl⟩
  · split at h2
    · cases h2
    · next he =>
      split at h2
      · cases h2
      · split at h2 <;> cases h2
        exact .inr ⟨_, _, rfl, rfl, he⟩

end
end Fs2
