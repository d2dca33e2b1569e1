import Verif.Pipeline.SimpleStreams

/-!
# What `repeat` produces (helper lemmas)
-/

namespace Fs2
open Source

variable {S : Source} {num : Option Nat} {rr : Bool}

theorem repeat_next_yield (h0 : num ≠ some 0) {a : Bool} {k : Nat} {i i' : S.σ} {x : Data}
    (h : S.next i = some (.yield x, i')) :
    (repeatSrc num rr S).next ⟨a, k, i⟩ = some (.yield x, ⟨true, k, i'⟩) := by
  simp only [repeatSrc]
  rw [if_neg h0, repeatLoop]
  simp [h]

theorem repeat_next_again (h0 : num ≠ some 0) {k : Nat} (hk : num ≠ some (k + 1)) {i i' : S.σ}
    (h : S.next i = some (.eod, i')) :
    (repeatSrc num rr S).next ⟨true, k, i⟩
      = (repeatSrc num rr S).next ⟨true, k + 1, S.reset rr i'⟩ := by
  simp only [repeatSrc]
  rw [if_neg h0, if_neg h0, repeatLoop]
  simp [h, hk]

theorem repeat_emits_true (h0 : num ≠ some 0) {k : Nat} {i i' : S.σ} {xs : List Data}
    (h : S.Emits i xs i') : (repeatSrc num rr S).Emits ⟨true, k, i⟩ xs ⟨true, k, i'⟩ := by
  induction h with
  | nil => exact .nil _
  | cons hn _ ih => exact .cons (repeat_next_yield h0 hn) ih

theorem repeat_emits_first (h0 : num ≠ some 0) {a : Bool} {k : Nat} {i i' : S.σ} {xs : List Data}
    (h : S.Emits i xs i') (hx : xs ≠ []) :
    (repeatSrc num rr S).Emits ⟨a, k, i⟩ xs ⟨true, k, i'⟩ := by
  cases h with
  | nil => exact absurd rfl hx
  | cons hn h => exact .cons (repeat_next_yield h0 hn) (repeat_emits_true h0 h)

theorem repeat_yields_true {n k : Nat} {i : S.σ} {es : List (List Data)}
    (h : S.Epochs rr i es) (hn : k + es.length = n) :
    (repeatSrc (some n) rr S).Yields ⟨true, k, i⟩ es.flatten := by
  induction h generalizing k with
  | last h =>
    simp only [List.length_singleton] at hn
    obtain ⟨i', h1, h2⟩ := h
    have h0 : some n ≠ some 0 := by simp; omega
    have := repeat_emits_true (rr := rr) (k := k) h0 h1
    simp only [List.flatten_cons, List.flatten_nil, List.append_nil]
    exact ⟨_, this, repeat_ended h2 (.inr (by simp [hn]))⟩
  | @more s s₁ s₂ e es h1 h2 h3 ih =>
    rw [List.length_cons] at hn
    have h0 : some n ≠ some 0 := by simp; omega
    have hk : some n ≠ some (k + 1) := by
      have : 0 < es.length := by cases h3 <;> simp
      simp
      omega
    rw [List.flatten_cons]
    refine (repeat_emits_true h0 h1).yields ?_
    exact .of_next_eq (repeat_next_again h0 hk h2) (ih (by omega))

theorem Source.Emits.of_next_eq {s t s' : S.σ} {x : Data} {xs : List Data}
    (h : S.next s = S.next t) (h' : S.Emits t (x :: xs) s') : S.Emits s (x :: xs) s' := by
  obtain ⟨u, h1, h2⟩ := h'.cons_inv
  exact .cons (h.trans h1) h2

theorem repeat_none_emits {k : Nat} {i : S.σ} {es : List (List Data)}
    (h : S.Epochs rr i es) (hne : ∀ e ∈ es, e ≠ []) :
    ∃ s', (repeatSrc none rr S).Emits ⟨true, k, i⟩ es.flatten s' := by
  induction h generalizing k with
  | last h =>
    obtain ⟨i', h1, h2⟩ := h
    simp only [List.flatten_cons, List.flatten_nil, List.append_nil]
    exact ⟨_, repeat_emits_true (by simp) h1⟩
  | @more s s₁ s₂ e es h1 h2 h3 ih =>
    rw [List.flatten_cons]
    obtain ⟨s', h4⟩ := ih (k := k + 1) (fun e he => hne e (List.mem_cons_of_mem _ he))
    refine ⟨s', (repeat_emits_true (by simp) h1).append ?_⟩
    cases hx : es.flatten with
    | nil =>
      cases h3 with
      | last => simp_all
      | more => simp_all
    | cons y ys =>
      rw [hx] at h4
      exact .of_next_eq (repeat_next_again (by simp) (by simp) h2) h4

end Fs2
