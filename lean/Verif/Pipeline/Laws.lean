import Verif.Pipeline.Lemmas

/-!
# Laws that every operator is shown to hand on from its upstream

Helper definitions.  `Verif/Pipeline/Spec.lean` has the vocabulary of the
property theorems.
-/

namespace Fs2
namespace Source

variable {S : Source}

/-- Kept by every call of `next()` that does not fail for good, and by `reset`. -/
structure Invar (S : Source) (I : S.σ → Prop) : Prop where
  next : ∀ {s r s'}, I s → S.next s = some (r, s') → ¬ r.fatal → I s'
  reset : ∀ {s} b, I s → I (S.reset b s)

theorem Invar.reach {I : S.σ → Prop} (hI : Invar S I) {s s' : S.σ} (h : S.Reach s s') (hs : I s) :
    I s' := by
  induction h with
  | refl => exact hs
  | next _ hn hf ih => exact hI.next ih hn hf
  | reset b _ ih => exact hI.reset b ih

theorem inv_reach (s : S.σ) : Invar S (S.Reach s) :=
  ⟨fun h hn hf => .next h hn hf, fun b h => .reset b h⟩

theorem Invar.emits {I : S.σ → Prop} (hI : Invar S I) {s s' : S.σ} {xs : List Data}
    (h : S.Emits s xs s') (hs : I s) : I s' := by
  induction h with
  | nil => exact hs
  | cons hn _ ih => exact ih (hI.next hs hn (by simp [Res.fatal]))

/-- After end of data from a state in `I` there is only end of data. -/
def EodFinal (S : Source) (I : S.σ → Prop) : Prop :=
  ∀ {s s'}, I s → S.next s = some (.eod, s') → S.Ended s'

/-- Saving in `s` works, and loading the saved values into `t` works, consumes
exactly them, and gives a state in `I` indistinguishable from `s`. -/
def Resumes (S : Source) (I : S.σ → Prop) (s t : S.σ) : Prop :=
  ∃ tp, S.record true s = .ok tp ∧
    ∀ rest, ∃ t', S.reload true t (tp ++ rest) = .ok (t', rest) ∧ S.Same t' s ∧ I t'

/-- A full reset gives a state indistinguishable from the initial one. -/
def Rewinds (S : Source) (s : S.σ) : Prop := S.Same (S.reset true s) S.init

/-- A reset before the first call of `next()` changes nothing. -/
def Restarts (S : Source) : Prop := ∀ b, S.Same (S.reset b S.init) S.init

/-- From a state in `I` every call of `next()` returns, and not with an
exception. -/
def Calm (S : Source) (I : S.σ → Prop) : Prop :=
  ∀ {s}, I s → ∃ r s', S.next s = some (r, s') ∧ ∀ e, r ≠ .err e

theorem inv_readUpTo {I : S.σ → Prop} (hI : Invar S I) {n : Nat} {acc : List Data} {s s' : S.σ}
    {b : Batch} (hs : I s) (h : readUpTo S.next n acc s = some (b, s'))
    (hb : ∀ e, b.err = some e → ¬ (Res.err e).fatal) : I s' := by
  obtain ⟨ys, s₁, -, h2, h3⟩ := readUpTo_inv h
  have h1 := hI.emits h2 hs
  rcases h3 with ⟨_, _, _, rfl⟩ | ⟨_, _, _, h⟩ | ⟨e, _, he, _, h⟩
  · exact h1
  · exact hI.next h1 h (by simp [Res.fatal])
  · exact hI.next h1 h (hb e he)

theorem readUpTo_ended {I : S.σ → Prop} (hI : Invar S I) (hE : EodFinal S I) {n : Nat}
    {acc : List Data} {s s' : S.σ} {b : Batch} (hs : I s)
    (h : readUpTo S.next n acc s = some (b, s')) (hb : b.ended = true) : S.Ended s' := by
  obtain ⟨ys, s₁, -, h2, h3⟩ := readUpTo_inv h
  rcases h3 with ⟨h3, _⟩ | ⟨_, _, _, h⟩ | ⟨e, h3, _⟩
  · simp [hb] at h3
  · exact hE (hI.emits h2 hs) h
  · simp [hb] at h3

end Source
end Fs2
