import Verif.Pipeline.RepeatStreams
import Verif.Pipeline.MultiStreams
import Verif.Pipeline.WrapperLaws

/-!
# `repeat` over an upstream that gives the same stream on every reading (helper lemmas)
-/

namespace Fs2
open Source

variable {S : Source}

theorem Source.Cycles.yields {s : S.σ} {xs : List Data} (h : S.Cycles s xs) : S.Yields s xs := by
  obtain ⟨Fr, En, h0, h1, h2⟩ := h
  obtain ⟨t, h3, h4⟩ := h1 s h0
  refine ⟨t, h3, .coind En h4 fun t h => ?_⟩
  obtain ⟨t', h5, h6, _⟩ := h2 t h
  exact ⟨t', h5, h6⟩

theorem Source.Cycles.epochs {s : S.σ} {xs : List Data} (h : S.Cycles s xs) (n : Nat) :
    S.Epochs false s (List.replicate (n + 1) xs) := by
  obtain ⟨Fr, En, h0, h1, h2⟩ := h
  induction n generalizing s with
  | zero => exact .last (Cycles.yields ⟨Fr, En, h0, h1, h2⟩)
  | succ n ih =>
    obtain ⟨t, h3, h4⟩ := h1 s h0
    obtain ⟨t', h5, _, h6⟩ := h2 t h4
    rw [List.replicate_succ]
    exact .more h3 h5 (ih h6)

theorem Source.Cycles.reset {s : S.σ} {xs : List Data} (h : S.Cycles s xs) :
    ∃ t t', S.Emits s xs t ∧ S.next t = some (.eod, t') ∧ S.Cycles (S.reset false t') xs := by
  obtain ⟨Fr, En, h0, h1, h2⟩ := h
  obtain ⟨t, h3, h4⟩ := h1 s h0
  obtain ⟨t', h5, _, h6⟩ := h2 t h4
  exact ⟨t, t', h3, h5, Fr, En, h6, h1, h2⟩

theorem repeat_yields {n : Nat} {rr : Bool} {i : S.σ} {e : List Data} {es : List (List Data)}
    (h : S.Epochs rr i (e :: es)) (he : e ≠ []) (hn : es.length + 1 = n) {a : Bool} :
    (repeatSrc (some n) rr S).Yields ⟨a, 0, i⟩ (e :: es).flatten := by
  have h1 : (repeatSrc (some n) rr S).Yields ⟨true, 0, i⟩ (e :: es).flatten :=
    repeat_yields_true h (by simp [hn])
  refine .of_next_eq ?_ h1
  -- the flag makes no difference while the first example is still to come
  obtain ⟨x, xs, rfl⟩ := List.exists_cons_of_ne_nil he
  have h2 : ∃ i', S.next i = some (.yield x, i') := by
    cases h with
    | last h => obtain ⟨i', h1, _⟩ := h.cons_inv; exact ⟨i', h1⟩
    | more h _ _ => obtain ⟨i', h1, _⟩ := h.cons_inv; exact ⟨i', h1⟩
  obtain ⟨i', h3⟩ := h2
  have h0 : some n ≠ some 0 := by simp; omega
  rw [repeat_next_yield h0 h3, repeat_next_yield h0 h3]

theorem repeat_none_first {rr : Bool} {i : S.σ} {e : List Data} {es : List (List Data)}
    (h : S.Epochs rr i (e :: es)) (hne : ∀ e' ∈ e :: es, e' ≠ []) {a : Bool} :
    ∃ s', (repeatSrc none rr S).Emits ⟨a, 0, i⟩ (e :: es).flatten s' := by
  obtain ⟨s', h1⟩ := repeat_none_emits (k := 0) h hne
  obtain ⟨x, xs, rfl⟩ := List.exists_cons_of_ne_nil (hne e (by simp))
  have h2 : ∃ i', S.next i = some (.yield x, i') := by
    cases h with
    | last h => obtain ⟨i', h1, _⟩ := h.cons_inv; exact ⟨i', h1⟩
    | more h _ _ => obtain ⟨i', h1, _⟩ := h.cons_inv; exact ⟨i', h1⟩
  obtain ⟨i', h3⟩ := h2
  refine ⟨s', ?_⟩
  rw [List.flatten_cons, List.cons_append] at h1 ⊢
  refine .of_next_eq ?_ h1
  rw [repeat_next_yield (by simp) h3, repeat_next_yield (by simp) h3]

theorem repeat_empty {num : Option Nat} {rr : Bool} {i : S.σ} (h : S.Yields i []) {k : Nat} :
    (repeatSrc num rr S).Yields ⟨false, k, i⟩ [] :=
  ⟨_, .nil _, repeat_ended h.nil_inv (.inl rfl)⟩

theorem flatten_replicate_getElem? {α : Type} (xs : List α) (n k : Nat) (hk : k < n * xs.length) :
    (List.replicate n xs).flatten[k]? = xs[k % xs.length]? := by
  induction n generalizing k with
  | zero => simp at hk
  | succ n ih =>
    rw [List.replicate_succ, List.flatten_cons]
    rcases Nat.lt_or_ge k xs.length with h | h
    · rw [List.getElem?_append_left h, Nat.mod_eq_of_lt h]
    · rw [List.getElem?_append_right h, ih _ (by rw [Nat.add_mul] at hk; omega)]
      congr 1
      conv => rhs; rw [show k = (k - xs.length) + xs.length by omega, Nat.add_mod_right]

theorem repeat_streams {i : S.σ} {xs : List Data} (hx : xs ≠ []) (h : S.Cycles i xs) {a : Bool} :
    (repeatSrc none false S).Streams ⟨a, 0, i⟩
      (fun k => (xs[k % xs.length]?).getD default) := by
  intro n
  have hpos : 0 < xs.length := List.length_pos_iff.mpr hx
  obtain ⟨s', h1⟩ := repeat_none_first (a := a) (h.epochs n)
    (by intro e he; rw [← List.replicate_succ] at he; rw [List.eq_of_mem_replicate he]; exact hx)
  rw [← List.replicate_succ] at h1
  have hlen : (List.replicate (n + 1) xs).flatten.length = (n + 1) * xs.length := by
    simp
  have : (List.range n).map (fun k => (xs[k % xs.length]?).getD default)
      = (List.replicate (n + 1) xs).flatten.take n := by
    apply List.ext_getElem?
    intro k
    rw [List.getElem?_map, List.getElem?_take]
    by_cases hk : k < n
    · rw [if_pos hk, flatten_replicate_getElem? _ _ _ (by
        have := Nat.le_mul_of_pos_right (n + 1) hpos
        omega)]
      have h2 := Nat.mod_lt k hpos
      rw [List.getElem?_eq_getElem h2, List.getElem?_range hk]
      simp only [Option.map_some]
      rw [List.getElem?_eq_getElem h2]
      rfl
    · rw [if_neg hk, List.getElem?_eq_none (by simp; omega)]
      rfl
  rw [this]
  rw [← List.take_append_drop n (List.replicate (n + 1) xs).flatten] at h1
  obtain ⟨t, h2, _⟩ := h1.split
  exact ⟨t, h2⟩

theorem listSource_emits (xs : List Data) (p : Nat) (hp : p ≤ xs.length) :
    (listSource xs).Emits p (xs.drop p) (xs.length : Nat) := by
  induction h : xs.length - p generalizing p with
  | zero =>
    have : p = xs.length := by omega
    subst this
    simp only [List.drop_length]
    exact .nil (S := listSource xs) (xs.length : Nat)
  | succ m ih =>
    have hlt : p < xs.length := by omega
    rw [List.drop_eq_getElem_cons hlt]
    refine .cons (s' := p + 1) ?_ (ih (p + 1) (by omega) (by omega))
    simp [listSource, List.getElem?_eq_getElem hlt]

theorem listSource_cycles (xs : List Data) : (listSource xs).Cycles (0 : Nat) xs := by
  refine ⟨fun p : Nat => p = 0, fun p : Nat => p = xs.length, rfl, ?_, ?_⟩
  · intro p hp
    have hp' : p = (0 : Nat) := hp
    subst hp'
    exact ⟨(xs.length : Nat), by simpa using listSource_emits xs 0 (Nat.zero_le _), rfl⟩
  · intro p hp
    have hp' : p = (xs.length : Nat) := hp
    subst hp'
    exact ⟨xs.length, by simp [listSource], rfl, rfl⟩

theorem pipeline_cycles {lazy : Bool} {max : Nat} {i : S.σ} {w : Nat} {xs : List Data}
    (h : S.Cycles i xs) : (pipeline lazy max S).Cycles ⟨some i, w, false⟩ xs := by
  obtain ⟨Fr, En, h0, h1, h2⟩ := h
  refine ⟨fun s => ∃ i, Fr i ∧ s = ⟨some i, w, false⟩, fun s => ∃ i, En i ∧ s = ⟨some i, w, false⟩,
    ⟨i, h0, rfl⟩, ?_, ?_⟩
  · rintro _ ⟨i, hi, rfl⟩
    obtain ⟨t, h3, h4⟩ := h1 i hi
    exact ⟨_, pipeline_emits h3, t, h4, rfl⟩
  · rintro _ ⟨i, hi, rfl⟩
    obtain ⟨t, h3, h4, h5⟩ := h2 i hi
    refine ⟨⟨some t, w, false⟩, ?_, ⟨t, h4, rfl⟩, _, h5, rfl⟩
    simp only [pipeline, pipeNext, Option.getD_some]
    rw [if_neg (by simp), pipeLoop]
    simp [h3]

theorem pipeline_yields_init {lazy : Bool} {max : Nat} {xs : List Data} (h : S.Yields S.init xs) :
    (pipeline lazy max S).Yields (pipeline lazy max S).init xs := by
  have h1 : (pipeline lazy max S).Yields ⟨some S.init, 0, false⟩ xs := pipeline_yields h
  refine .of_next_eq ?_ h1
  cases lazy <;> rfl

end Fs2
