import Verif.Pipeline.WrapperLaws
import Verif.Pipeline.SimpleStreams

/-! # Helper lemmas for C19: the retry loop of `data_pipeline::next` -/

namespace Fs2
open Source

variable {S : Source}

/-- The results with the first `k` exceptions left out. -/
def forgive : Nat → List Res → List Res
  | 0, rs => rs
  | _ + 1, [] => []
  | k + 1, .err _ :: rs => forgive k rs
  | k + 1, r :: rs => r :: forgive (k + 1) rs

theorem forgive_zero (rs : List Res) : forgive 0 rs = rs := by cases rs <;> rfl

theorem forgive_yielded : ∀ (k : Nat) (rs : List Res), yielded (forgive k rs) = yielded rs
  | 0, rs => by rw [forgive_zero]
  | _ + 1, [] => rfl
  | k + 1, .err _ :: rs => forgive_yielded k rs
  | k + 1, .yield x :: rs => congrArg (x :: ·) (forgive_yielded (k + 1) rs)
  | k + 1, .eod :: rs => forgive_yielded (k + 1) rs

theorem forgive_raised : ∀ (k : Nat) (rs : List Res), raised (forgive k rs) = (raised rs).drop k
  | 0, rs => by rw [forgive_zero, List.drop_zero]
  | _ + 1, [] => rfl
  | k + 1, .err _ :: rs => forgive_raised k rs
  | k + 1, .yield x :: rs => forgive_raised (k + 1) rs
  | k + 1, .eod :: rs => forgive_raised (k + 1) rs

theorem pipeLoop_ok {left w : Nat} {i i' : S.σ} {r : Res} (h : S.next i = some (r, i'))
    (hr : ∀ e, r ≠ .err e) : pipeLoop S left w i = some (r, ⟨some i', w, false⟩) := by
  cases r with
  | yield x => rw [pipeLoop, h]
  | eod => rw [pipeLoop, h]
  | err e => exact absurd rfl (hr e)

/-- A recoverable exception within the limit: the call goes on from the next state. -/
theorem pipe_skip {max w : Nat} {i i' : S.σ} {e : Err} (h : S.next i = some (.err e, i'))
    (he : e.recoverable = true) (hw : w < max) :
    pipeNext S max ⟨some i, w, false⟩ = pipeNext S max ⟨some i', w + 1, false⟩ := by
  obtain ⟨k, hk⟩ : ∃ k, max - w = k + 1 := ⟨max - w - 1, by omega⟩
  simp only [pipeNext, Option.getD_some]
  rw [hk, pipeLoop, h]
  simp only [he, if_true]
  rw [show max - (w + 1) = k by omega]
  rfl

theorem pipe_raise {max w : Nat} {i i' : S.σ} {e : Err} (h : S.next i = some (.err e, i'))
    (he : e.recoverable = true) (hw : max ≤ w) :
    pipeNext S max ⟨some i, w, false⟩ = some (.err e, ⟨some i', w, false⟩) := by
  simp only [pipeNext, Option.getD_some]
  rw [show max - w = 0 by omega, pipeLoop, h]
  simp [he]

theorem pipe_fatal {max w : Nat} {i i' : S.σ} {e : Err} (h : S.next i = some (.err e, i'))
    (he : e.recoverable = false) :
    pipeNext S max ⟨some i, w, false⟩ = some (.err e, ⟨some i', w, true⟩) := by
  simp only [pipeNext, Option.getD_some]
  rw [pipeLoop, h]
  simp [he]

theorem pipe_ok {max w : Nat} {i i' : S.σ} {r : Res} (h : S.next i = some (r, i'))
    (hr : ∀ e, r ≠ .err e) :
    pipeNext S max ⟨some i, w, false⟩ = some (r, ⟨some i', w, false⟩) :=
  pipeLoop_ok h hr

theorem pipe_lazy {max w : Nat} :
    pipeNext S max ⟨none, w, false⟩ = pipeNext S max ⟨some S.init, w, false⟩ := rfl

theorem Calls.ex_of_next_eq {P : Source} {s t t' : P.σ} {rs : List Res} (h : P.next s = P.next t)
    (h' : P.Calls t rs t') : ∃ s', P.Calls s rs s' ∧ (rs ≠ [] → s' = t') := by
  cases h' with
  | nil => exact ⟨s, .nil s, fun h => absurd rfl h⟩
  | cons hn hc => exact ⟨_, .cons (h.trans hn) hc, fun _ => rfl⟩

/-- All calls that the source answers within `rs`, as the pipeline's user sees them. -/
theorem pipe_calls {lazy : Bool} {max : Nat} {rs : List Res} {i i' : S.σ} (h : S.Calls i rs i')
    (hr : ∀ r ∈ rs, ¬ r.fatal) : ∀ {w}, w ≤ max → (rs = [] ∨ ∃ r ∈ rs.getLast?, ∀ e, r ≠ .err e) →
    ∃ w', w' ≤ max ∧
      (pipeline lazy max S).Calls ⟨some i, w, false⟩ (forgive (max - w) rs) ⟨some i', w', false⟩ := by
  induction h with
  | nil i => intro w hw _; exact ⟨w, hw, by
      cases hk : max - w <;> exact .nil _⟩
  | @cons i i₁ i₂ r rs hn hc ih =>
    intro w hw hl
    have hr' : ∀ r ∈ rs, ¬ r.fatal := fun q hq => hr q (List.mem_cons_of_mem _ hq)
    have hlast : rs ≠ [] → ∃ r ∈ rs.getLast?, ∀ e, r ≠ .err e := by
      intro hne
      rcases hl with hl | ⟨q, hq, hqe⟩
      · cases hl
      · refine ⟨q, ?_, hqe⟩
        rwa [List.getLast?_cons_of_ne_nil hne] at hq
    have hl' : rs = [] ∨ ∃ r ∈ rs.getLast?, ∀ e, r ≠ .err e := by
      by_cases hne : rs = []
      · exact .inl hne
      · exact .inr (hlast hne)
    by_cases he : ∃ e, r = .err e
    · obtain ⟨e, rfl⟩ := he
      have hrec : e.recoverable = true := by
        have := hr _ List.mem_cons_self
        simpa [Res.fatal] using this
      have hne : rs ≠ [] := by
        rintro rfl
        rcases hl with hl | ⟨q, hq, hqe⟩
        · cases hl
        · simp at hq; exact hqe e hq.symm
      by_cases hlt : w < max
      · obtain ⟨k, hk⟩ : ∃ k, max - w = k + 1 := ⟨max - w - 1, by omega⟩
        obtain ⟨w', hw', hc'⟩ := ih hr' (w := w + 1) (by omega) hl'
        rw [show max - (w + 1) = k by omega] at hc'
        obtain ⟨s', hs', heq⟩ := Calls.ex_of_next_eq (P := pipeline lazy max S)
          (s := ⟨some i, w, false⟩) (t := ⟨some i₁, w + 1, false⟩) (pipe_skip hn hrec hlt) hc'
        have hne' : forgive k rs ≠ [] := by
          obtain ⟨q, hq, hqe⟩ := hlast hne
          have hmem : q ∈ rs := List.mem_of_getLast? hq
          have : ∀ (k : Nat) (rs : List Res), q ∈ rs → forgive k rs ≠ [] := by
            intro k rs
            induction rs generalizing k with
            | nil => intro h; cases h
            | cons r rs ih2 =>
              intro hm
              cases k with
              | zero => simp [forgive]
              | succ k =>
                cases r with
                | err e =>
                  rcases List.mem_cons.1 hm with rfl | hm
                  · exact absurd rfl (hqe e)
                  · exact ih2 k hm
                | yield x => simp [forgive]
                | eod => simp [forgive]
          exact this k rs hmem
        rw [heq hne'] at hs'
        rw [hk]
        exact ⟨w', hw', hs'⟩
      · obtain ⟨w', hw', hc'⟩ := ih hr' (w := w) hw hl'
        rw [show max - w = 0 by omega, forgive_zero] at hc' ⊢
        exact ⟨w', hw', .cons (pipe_raise hn hrec (by omega)) hc'⟩
    · have hre : ∀ e, r ≠ .err e := fun e h => he ⟨e, h⟩
      obtain ⟨w', hw', hc'⟩ := ih hr' hw hl'
      refine ⟨w', hw', ?_⟩
      have hf : forgive (max - w) (r :: rs) = r :: forgive (max - w) rs := by
        cases max - w with
        | zero => rw [forgive_zero, forgive_zero]
        | succ k =>
          cases r with
          | err e => exact absurd rfl (hre e)
          | yield x => rfl
          | eod => rfl
      rw [hf]
      exact .cons (pipe_ok hn hre) hc'

theorem pipe_ended {lazy : Bool} {max w : Nat} {i : S.σ} (h : S.Ended i) :
    (pipeline lazy max S).Ended ⟨some i, w, false⟩ := pipeline_ended h

/-- The whole stream, as the pipeline's user sees it. -/
theorem pipe_trace {lazy : Bool} {max : Nat} {rs : List Res} {i i' : S.σ} (h : S.Calls i rs i')
    (he : S.Ended i') (hr : ∀ r ∈ rs, ¬ r.fatal) : ∀ {w}, w ≤ max →
    (pipeline lazy max S).Trace ⟨some i, w, false⟩ (forgive (max - w) rs) := by
  induction h with
  | nil i => intro w hw; cases max - w <;> exact .nil (pipe_ended he)
  | @cons i i₁ i₂ r rs hn hc ih =>
    intro w hw
    have hr' : ∀ r ∈ rs, ¬ r.fatal := fun q hq => hr q (List.mem_cons_of_mem _ hq)
    by_cases hx : ∃ e, r = .err e
    · obtain ⟨e, rfl⟩ := hx
      have hrec : e.recoverable = true := by
        have := hr _ List.mem_cons_self
        simpa [Res.fatal] using this
      by_cases hlt : w < max
      · obtain ⟨k, hk⟩ : ∃ k, max - w = k + 1 := ⟨max - w - 1, by omega⟩
        have := ih he hr' (w := w + 1) (by omega)
        rw [show max - (w + 1) = k by omega] at this
        rw [hk]
        exact Trace.of_next_eq (S := pipeline lazy max S) (t := ⟨some i₁, w + 1, false⟩)
          (pipe_skip hn hrec hlt) this
      · have := ih he hr' hw
        rw [show max - w = 0 by omega, forgive_zero] at this ⊢
        exact Trace.cons (S := pipeline lazy max S) (pipe_raise hn hrec (by omega)) this
    · have hre : ∀ e, r ≠ .err e := fun e h => hx ⟨e, h⟩
      have hf : forgive (max - w) (r :: rs) = r :: forgive (max - w) rs := by
        cases max - w with
        | zero => rw [forgive_zero, forgive_zero]
        | succ k =>
          cases r with
          | err e => exact absurd rfl (hre e)
          | yield x => rfl
          | eod => rfl
      rw [hf]
      exact Trace.cons (S := pipeline lazy max S) (pipe_ok hn hre) (ih he hr' hw)

/-! ## Counting the exceptions of the source -/

/-- The same source, counting the exceptions it raises. -/
def counting (S : Source) : Source where
  σ := S.σ × Nat
  init := (S.init, 0)
  next s := match S.next s.1 with
    | none => none
    | some (.err e, i) => some (.err e, (i, s.2 + 1))
    | some (r, i) => some (r, (i, s.2))
  reset b s := (S.reset b s.1, s.2)
  record st s := S.record st s.1
  reload st s t := match S.reload st s.1 t with
    | .error e => .error e
    | .ok (i, t) => .ok ((i, s.2), t)
  finitude := S.finitude

/-- The number of exceptions raised so far. -/
def count (s : (counting S).σ) : Nat := (show S.σ × Nat from s).2

theorem counting_next {s s' : (counting S).σ} {r : Res} (h : (counting S).next s = some (r, s')) :
    count s' = count s + (raised [r]).length := by
  simp only [counting] at h
  split at h
  · cases h
  · cases h; rfl
  · rename_i r' i hne hn
    cases h
    cases r with
    | err e => exact absurd rfl (hne e)
    | yield x => rfl
    | eod => rfl

theorem counting_loop (left : Nat) : ∀ (w : Nat) (i : (counting S).σ) (r : Res)
    (s' : PipeSt (counting S).σ), pipeLoop (counting S) left w i = some (r, s') →
    ∃ j, s'.src = some j ∧ s'.warnings ≤ w + left ∧
      count j + w = count i + s'.warnings + (raised [r]).length := by
  induction left with
  | zero =>
    intro w i r s' h
    unfold pipeLoop at h
    split at h
    · cases h
    · rename_i hn; cases h
      refine ⟨_, rfl, by simp, ?_⟩
      have := counting_next hn
      simp [raised] at this ⊢; omega
    · rename_i hn; cases h
      refine ⟨_, rfl, by simp, ?_⟩
      have := counting_next hn
      simp [raised] at this ⊢; omega
    · rename_i e i' hn
      have := counting_next hn
      simp only [raised, List.length_cons, List.length_nil] at this
      split at h <;> (cases h; refine ⟨_, rfl, by simp, ?_⟩; simp [raised]; omega)
  | succ left ih =>
    intro w i r s' h
    unfold pipeLoop at h
    split at h
    · cases h
    · rename_i hn; cases h
      refine ⟨_, rfl, by simp, ?_⟩
      have := counting_next hn
      simp [raised] at this ⊢; omega
    · rename_i hn; cases h
      refine ⟨_, rfl, by simp, ?_⟩
      have := counting_next hn
      simp [raised] at this ⊢; omega
    · rename_i e i' hn
      have := counting_next hn
      simp only [raised, List.length_cons, List.length_nil] at this
      split at h
      · obtain ⟨j, h1, h2, h3⟩ := ih _ _ _ _ h
        exact ⟨j, h1, by omega, by omega⟩
      · cases h; refine ⟨_, rfl, by simp, ?_⟩; simp [raised]; omega

end Fs2
