import Verif.Pipeline.SampleStreams
import Verif.Pipeline.Passes

/-!
# `sample` with repeats from a single pipeline (helper lemmas)
-/

namespace Fs2
open Source

variable {S : Source}

/-- One pipeline, with repeats: exactly one pass. -/
theorem sample_single (R : Rng) (ws : List Rat) (seed : Nat) (hw : ws.length = 1) (hfin : S.finitude ≠ .pseudoInfinite)
    {es : Nat → List Data} (hne : ∀ k, es k ≠ []) (h : S.Passes S.init es) :
    (sample R (fun _ : Fin 1 => S) ws seed true).Yields (sample R (fun _ : Fin 1 => S) ws seed true).init (es 0) := by
  obtain ⟨P, h0, hF⟩ := feeds_passes hfin hne h
  obtain ⟨ps, h1, hp, h2⟩ := sample_repeats (R := R) (Ss := fun _ : Fin 1 => S) (ws := ws) (seed := seed)
    (f := fun _ => passStream es) (P := fun _ => P) (by decide) hw (fun _ => hF) (fun _ => h0) (fun _ => passStream_some hne)
    (es 0).length
  have hall : ∀ q : List (Fin 1 × Data), picked 0 q = q.map (·.2) := by
    intro q
    induction q with
    | nil => rfl
    | cons a q ih =>
      rw [picked_cons, ih, if_pos (Subsingleton.elim _ _)]
      rfl
  have hlen : ∀ q : List (Fin 1 × Data), (picked 0 q).length = q.length := by
    intro q
    rw [hall]
    simp
  have hbound : ps.length ≤ (es 0).length := by
    refine Nat.le_of_not_lt fun hlt => ?_
    have hpos := List.length_pos_iff.2 (hne 0)
    obtain ⟨i, hi⟩ := hp (ps.take (es 0).length) (ps.drop (es 0).length) (List.take_append_drop _ _).symm
      (by intro e; have := congrArg List.length e; rw [List.length_take, List.length_nil] at this; omega)
      (by intro e; have := congrArg List.length e; rw [List.length_drop, List.length_nil] at this; omega)
    obtain rfl : i = 0 := Subsingleton.elim _ _
    rw [doneBy_passes hne, hlen, List.length_take] at hi
    simp at hi
    omega
  rcases h2 with ⟨h3, -⟩ | ⟨h3, h4, h5⟩
  · omega
  · have h6 := h5 0
    rw [doneBy_passes hne, hlen] at h6
    have h6 : (es 0).length ≤ ps.length := by simpa using h6
    have h7 := h1 0
    rw [hlen, show ps.length = (es 0).length by omega] at h7
    have h8 := passStream_spec hne 1
    simp only [passSum, List.range_one, List.flatMap_cons, List.flatMap_nil, List.append_nil] at h8
    rw [Nat.zero_add] at h8
    simp only [Nat.zero_add] at h7
    rw [h8, hall] at h7
    have h9 : ps.map (·.2) = es 0 := by
      apply List.ext_getElem?
      intro i
      have := congrArg (fun l : List (Option Data) => l[i]?) h7
      simp only [List.getElem?_map] at this
      rw [List.getElem?_map]
      cases ha : ps[i]? <;> cases hb : (es 0)[i]? <;> simp_all
    rw [← h9]
    exact h4

end Fs2
