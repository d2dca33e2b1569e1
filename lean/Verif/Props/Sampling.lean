import Verif.Props.Buffering
import Verif.Pipeline.SampleStreams
import Mathlib.Tactic.NormNum

/-!
# What `sample` produces: C12

`R : Rng` is any random number generator, so the theorems hold for every sequence of
draws.
-/

namespace Fs2.Props
open Fs2 Source

/-- The positions at which pipeline `i` was chosen, in order: its share of the picks. -/
def shareOf {n : Nat} (i : Fin n) (ps : List (Fin n × Data)) : List Data :=
  (ps.filter (fun p => p.1 = i)).map (·.2)

theorem shareOf_eq {n : Nat} (i : Fin n) (ps : List (Fin n × Data)) :
    shareOf i ps = picked i ps := by
  induction ps with
  | nil => rfl
  | cons p ps ih =>
    rw [picked_cons, ← ih]
    unfold shareOf
    by_cases h : p.1 = i <;> simp [h]

/-- **C12, partial.** With `allow_repeats=False` and pipelines that end, whatever is
drawn: every call returns the next example of some pipeline, and when the end is
reported the examples taken from each pipeline are exactly all its examples, in order.

Missing for the full C12 (hence `_partial`): every weight must be at least 1/5000 of the
sum (`C12_tiny_weight` shows what happens otherwise), some pipeline must have an example
(`C12_all_empty`), and none may be pseudo-infinite (`C12_pseudo_infinite`). -/
theorem C12_once_partial (R : Rng) {n : Nat} (Ss : Fin n → Source) (ws : List Rat) (seed : Nat)
    (xs : Fin n → List Data) (hw : ws.length = n)
    (hb : ∀ w ∈ ws, 0 < w ∧ ws.sum ≤ 5000 * w)
    (hfin : ∀ i, (Ss i).finitude ≠ .pseudoInfinite) (h : ∀ i, (Ss i).Yields (Ss i).init (xs i))
    (hne : ∃ i, xs i ≠ []) :
    ∃ ps : List (Fin n × Data),
      (sample R Ss ws seed false).Yields (sample R Ss ws seed false).init (ps.map (·.2)) ∧
      ∀ i, shareOf i ps = xs i := by
  obtain ⟨ps, h1, h2⟩ := sample_once (R := R) (seed := seed) hb hw hfin h hne
  exact ⟨ps, h1, fun i => (shareOf_eq i ps).trans (h2 i)⟩

/-- Three pipelines, one of them empty, with different weights. -/
example : ∃ ps : List (Fin 2 × Data),
    (sample lcg (two (pipe (ints 3)) (pipe [])) [1/2, 1/3] 7 false).Yields
      (sample lcg (two (pipe (ints 3)) (pipe [])) [1/2, 1/3] 7 false).init (ps.map (·.2)) ∧
    shareOf 0 ps = ints 3 ∧ shareOf 1 ps = [] := by
  obtain ⟨ps, h1, h2⟩ := C12_once_partial lcg (two (pipe (ints 3)) (pipe [])) [1/2, 1/3] 7
    (fun | 0 => ints 3 | 1 => []) rfl (by norm_num)
    (fun | 0 => by simp [two, pipe, pipeline, listSource]
         | 1 => by simp [two, pipe, pipeline, listSource])
    (fun | 0 => pipe_yields _ | 1 => pipe_yields _) ⟨0, by simp [ints]⟩
  exact ⟨ps, h1, h2 0, h2 1⟩

/-- **C12.** With `allow_repeats=True` every call returns the next example of some
pipeline, a finite pipeline being restarted when it is exhausted (`Turn`), whatever
the weights and the draws; and the end is reported only when every pipeline has been
exhausted at least once (a pseudo-infinite pipeline, `len = 0`, never delays the end), and
then at once: whenever another example follows, some pipeline had not given all of its own.
`m` is the number of calls observed. -/
theorem C12_repeats (R : Rng) {n : Nat} (Ss : Fin n → Source) (ws : List Rat) (seed : Nat)
    (f : Fin n → Nat → Option Data) (len : Fin n → Nat) (hn : 0 < n) (hw : ws.length = n)
    (h : ∀ i, Turn (Ss i) true (f i) (len i)) (hne : ∀ i k, f i k ≠ none) (m : Nat) :
    ∃ ps : List (Fin n × Data),
      (∀ i, (shareOf i ps).map some = (List.range (shareOf i ps).length).map (f i)) ∧
      (∀ p q, ps = p ++ q → p ≠ [] → q ≠ [] → ∃ i, (shareOf i p).length < len i) ∧
      ((ps.length = m + 1 ∧ ∃ s', (sample R Ss ws seed true).Emits
          (sample R Ss ws seed true).init (ps.map (·.2)) s') ∨
       (ps.length ≤ m + 1 ∧ (sample R Ss ws seed true).Yields
          (sample R Ss ws seed true).init (ps.map (·.2)) ∧
        ∀ i, len i ≤ (shareOf i ps).length)) := by
  have h1 : ∀ i, ∃ x : (Nat → Bool) × (Nat → (Ss i).σ → Prop), x.2 0 (Ss i).init ∧
      Feeds (Ss i) true (f i) x.1 x.2 ∧ ∀ r, doneBy x.1 (r + 1) = decide (len i ≤ r) := by
    intro i
    obtain ⟨d, P, h⟩ := (h i).feeds
    exact ⟨(d, P), h⟩
  obtain ⟨g, h2⟩ := Classical.axiomOfChoice h1
  obtain ⟨ps, h3, hp, h4⟩ := sample_repeats (R := R) (ws := ws) (seed := seed)
    (d := fun i => (g i).1) (P := fun i => (g i).2) hn hw (fun i => (h2 i).2.1)
    (fun i => (h2 i).1) hne m
  refine ⟨ps, fun i => ?_, fun p q hpq hp0 hq => ?_, h4.imp_right fun ⟨a, b, c⟩ => ⟨a, b, fun i => ?_⟩⟩
  · simp only [shareOf_eq]
    simpa using h3 i
  · obtain ⟨i, hi⟩ := hp p q hpq hp0 hq
    rw [(h2 i).2.2] at hi
    refine ⟨i, ?_⟩
    rw [shareOf_eq]
    simpa using hi
  · have := c i
    rw [(h2 i).2.2] at this
    rw [shareOf_eq]
    simpa using this

/-- `[1]` and `[1, 2]`, observed for ten calls. -/
example : ∃ ps : List (Fin 2 × Data), (∀ i, (shareOf i ps).map some =
      (List.range (shareOf i ps).length).map fun r => (ints (i.1 + 1))[r % (i.1 + 1)]?) := by
  obtain ⟨ps, h, -⟩ := C12_repeats lcg (fun i : Fin 2 => pipe (ints (i.1 + 1))) [1/4, 3/4] 7
    (fun i r => (ints (i.1 + 1))[r % (ints (i.1 + 1)).length]?) (fun i => (ints (i.1 + 1)).length)
    (by decide) rfl (fun i => turn_pipe _) (by
      intro i k
      rw [Ne, List.getElem?_eq_none_iff]
      have : k % (ints (i.1 + 1)).length < (ints (i.1 + 1)).length :=
        Nat.mod_lt _ (by simp [ints])
      omega) 9
  exact ⟨ps, by simpa [ints] using h⟩

/-- The call reads past the end of `is_epoch_done_`. -/
def OutOfBounds : Option Res := some (.err sampleUndefined)

/-- **Disagreement.** If all pipelines are empty, the first call does not report the
end of the data: `are_all_done` is evaluated before the buffer is filled, so the
search for a pipeline that is not done runs past the end of the vector, whatever is
drawn. -/
theorem C12_all_empty (R : Rng) {n : Nat} (Ss : Fin n → Source) (ws : List Rat) (seed : Nat)
    (hn : 0 < n) (hfin : ∀ i, (Ss i).finitude ≠ .pseudoInfinite)
    (h : ∀ i, (Ss i).Yields (Ss i).init []) :
    (sample R Ss ws seed false).run [.next] (sample R Ss ws seed false).init = [OutOfBounds] := by
  have := fun i => feeds_yields (hfin i) (h i)
  choose P hP hF using this
  obtain ⟨s, h1, h2⟩ := sample_first (R := R) (ws := ws) (seed := seed)
    (K := fun _ _ => True) hn hF (by simp) (fun _ _ _ _ _ _ _ => trivial) hP trivial
  have h3 : (sampleIndex R false s.cums s.done s.gen).1 = none := by
    cases h4 : (sampleIndex R false s.cums s.done s.gen).1 with
    | none => rfl
    | some k =>
      have := (sampleIndex_spec h4).resolve_left (by simp)
      rw [h2.done] at this
      simp [doneBy, List.getElem?_replicate] at this
  have h4 : ∃ s', sampleDraw R Ss false s = some (.err sampleUndefined, s') := by
    simp only [sampleDraw]
    generalize sampleIndex R false s.cums s.done s.gen = q at h3
    obtain ⟨o, g⟩ := q
    simp only at h3
    subst h3
    exact ⟨_, rfl⟩
  obtain ⟨s', h4⟩ := h4
  simp [run, h1.trans h4, OutOfBounds]

example (R : Rng) : (sample R (two (pipe []) (pipe [])) [1/2, 1/2] 0 false).run [.next]
    (sample R (two (pipe []) (pipe [])) [1/2, 1/2] 0 false).init = [OutOfBounds] :=
  C12_all_empty R _ _ _ (by decide)
    (fun | 0 => by simp [two, pipe, pipeline, listSource]
         | 1 => by simp [two, pipe, pipeline, listSource])
    (fun | 0 => pipe_yields _ | 1 => pipe_yields _)

/-- A generator that draws the given number every time. -/
def always (x : Nat) : Rng where
  G := Unit
  seed _ := ()
  draw64 _ := (x, ())
  draw32 _ := (x, ())
  enc _ := []
  dec _ := some ()
  dec_enc _ := rfl

/-- **Disagreement.** With the weights 0.99995 and 0.00005 and no repeats, the second
pipeline is exhausted first and the remaining sum 0.99995 counts as 1: a draw above it
reads past the end of the vector although the first pipeline has examples left. -/
theorem C12_tiny_weight :
    (sample (always (2 ^ 24 - 1)) (two (pipe (ints 3)) (pipe [])) [99995/100000, 5/100000] 0 false).run
      [.next]
      (sample (always (2 ^ 24 - 1)) (two (pipe (ints 3)) (pipe [])) [99995/100000, 5/100000] 0 false).init
    = [OutOfBounds] := by
  with_unfolding_all rfl

/-- A pipeline that returns zeros for ever. -/
def zeros : Source := pipeline false 0 (constantSource (.int 0) none)

/-- **Disagreement.** A pseudo-infinite pipeline counts as done from its first example
on.  With `allow_repeats=False` sampling from `constant(0)` alone reads past the end of
the vector at the first call ... -/
theorem C12_pseudo_infinite (R : Rng) (seed : Nat) :
    (sample R (fun _ : Fin 1 => zeros) [1] seed false).run [.next]
      (sample R (fun _ : Fin 1 => zeros) [1] seed false).init = [OutOfBounds] := by
  with_unfolding_all rfl

/-- ... and with `allow_repeats=True` it ends after one example. -/
theorem C12_pseudo_infinite_repeats (R : Rng) (seed : Nat) :
    (sample R (fun _ : Fin 1 => zeros) [1] seed true).run [.next, .next]
      (sample R (fun _ : Fin 1 => zeros) [1] seed true).init =
      [some (.yield (.int 0)), some .eod] := by
  with_unfolding_all rfl

end Fs2.Props
