import Verif.Generation.SamplingGenerator
import Mathlib.Data.List.Perm.Basic

/-!
Lemmas about selecting rows, masks and column updates.
-/

namespace Fs2.Gen

variable {β γ : Type}

theorem indexSelect_getD (l : List β) (d : β) (order : List Nat) (h : ∀ i ∈ order, i < l.length) :
    indexSelect l order = some (order.map fun i => l.getD i d) := by
  unfold indexSelect
  induction order with
  | nil => rfl
  | cons i order ih =>
    have hi := h i (by simp)
    rw [List.mapM_cons, List.getElem?_eq_getElem hi, ih fun j hj => h j (List.mem_cons_of_mem _ hj)]
    simp [List.getD_eq_getElem?_getD, hi]

theorem map_range_getD (l : List β) (d : β) : (List.range l.length).map (fun i => l.getD i d) = l := by
  apply List.ext_getElem (by simp)
  intro i h1 h2
  simp [List.getD_eq_getElem?_getD, h2]

theorem mem_whereTrue (mask : List Bool) (i : Nat) : i ∈ whereTrue mask ↔ mask[i]? = some true := by
  unfold whereTrue
  rw [List.mem_filter, List.mem_range, List.getD_eq_getElem?_getD]
  constructor
  · rintro ⟨h1, h2⟩
    rw [List.getElem?_eq_getElem h1] at h2 ⊢
    simpa using h2
  · intro h
    have := (List.getElem?_eq_some_iff.mp h).1
    exact ⟨this, by rw [h]; rfl⟩

theorem whereTrue_perm (mask : List Bool) :
    (whereTrue mask ++ whereTrue (mask.map fun e => !e)).Perm (List.range mask.length) := by
  unfold whereTrue
  have h : (List.range (mask.map fun e => !e).length).filter (fun i => (mask.map fun e => !e).getD i false) =
      (List.range mask.length).filter (fun i => !mask.getD i false) := by
    rw [List.length_map]
    apply List.filter_congr
    intro i hi
    rw [List.mem_range] at hi
    simp [List.getD_eq_getElem?_getD, hi]
  rw [h]
  exact List.filter_append_perm _ _

/-- Of every value a list has as many entries at the true and the false positions together as in all. -/
theorem count_whereTrue (l : List Nat) (mask : List Bool) (h : mask.length = l.length) (p : Nat) :
    ((whereTrue mask).map fun i => l.getD i 0).count p +
      ((whereTrue (mask.map fun e => !e)).map fun i => l.getD i 0).count p = l.count p := by
  rw [← List.count_append, ← List.map_append, ((whereTrue_perm mask).map _).count_eq, h, map_range_getD]

theorem mapM_get (rows : List β) (f : β → Option γ) (g : β → γ) (h : ∀ r ∈ rows, f r = some (g r)) :
    rows.mapM f = some (rows.map g) := by
  induction rows with
  | nil => rfl
  | cons r rows ih =>
    rw [List.mapM_cons, h r (by simp), ih fun x hx => h x (List.mem_cons_of_mem _ hx)]
    rfl

theorem mapM_length (rows : List β) (f : β → Option γ) (out : List γ) (h : rows.mapM f = some out) :
    out.length = rows.length ∧ ∀ (k : Nat) (r : β), rows[k]? = some r → ∃ x, out[k]? = some x ∧ f r = some x := by
  induction rows generalizing out with
  | nil => simp [List.mapM_nil] at h; subst h; simp
  | cons r rows ih =>
    rw [List.mapM_cons] at h
    simp only [Option.bind_eq_bind, Option.bind_eq_some_iff] at h
    obtain ⟨x, hx, xs, hxs, h⟩ := h
    cases h
    obtain ⟨h1, h2⟩ := ih xs hxs
    refine ⟨by simp [h1], ?_⟩
    intro k r' hk
    cases k with
    | zero => simp at hk; subst hk; exact ⟨x, rfl, hx⟩
    | succ k => simpa using h2 k r' (by simpa using hk)

/-- What is known about probabilities of which some columns were updated. -/
theorem updateCol_spec (i : Nat) (f : β → β) (probs out : List (List β)) (V : Nat)
    (hV : ∀ p ∈ probs, p.length = V) (h : updateCol i f probs = some out) :
    out.length = probs.length ∧ (∀ q ∈ out, q.length = V) ∧
      ∀ (r : Nat) (p : List β), probs[r]? = some p → ∃ q, out[r]? = some q ∧
        (∀ x, p[i]? = some x → q[i]? = some (f x)) ∧ ∀ j, j ≠ i → q[j]? = p[j]? := by
  obtain ⟨h1, h2⟩ := mapM_length _ _ _ h
  have key : ∀ (r : Nat) (p : List β), probs[r]? = some p → ∃ q, out[r]? = some q ∧ q.length = p.length ∧
        (∀ x, p[i]? = some x → q[i]? = some (f x)) ∧ ∀ j, j ≠ i → q[j]? = p[j]? := by
    intro r p hp
    obtain ⟨q, hq, hf⟩ := h2 r p hp
    cases hpi : p[i]? with
    | none => rw [hpi] at hf; cases hf
    | some y =>
      rw [hpi] at hf
      simp only [Option.map_some, Option.some.injEq] at hf
      subst hf
      refine ⟨_, hq, by simp, ?_, ?_⟩
      · intro x hx
        cases hx
        have := (List.getElem?_eq_some_iff.mp hpi).1
        simp [this]
      · intro j hj
        rw [List.getElem?_set_ne (Ne.symm hj)]
  refine ⟨h1, ?_, ?_⟩
  · intro q hq
    obtain ⟨r, hr⟩ := List.mem_iff_getElem?.mp hq
    have hlt : r < probs.length := by
      have := (List.getElem?_eq_some_iff.mp hr).1
      omega
    obtain ⟨q', e1, e2, _⟩ := key r _ (List.getElem?_eq_getElem hlt)
    rw [hr] at e1
    cases e1
    rw [e2]
    exact hV _ (List.getElem_mem _)
  · intro r p hp
    obtain ⟨q, e1, _, e3⟩ := key r p hp
    exact ⟨q, e1, e3⟩

theorem updateCol?_spec (i : Option Nat) (f : β → β) (probs out : List (List β)) (V : Nat)
    (hV : ∀ p ∈ probs, p.length = V) (h : updateCol? i f probs = some out) :
    out.length = probs.length ∧ (∀ q ∈ out, q.length = V) ∧
      ∀ (r : Nat) (p : List β), probs[r]? = some p → ∃ q, out[r]? = some q ∧
        (∀ k x, i = some k → p[k]? = some x → q[k]? = some (f x)) ∧
        ∀ j, i ≠ some j → q[j]? = p[j]? := by
  cases i with
  | none =>
    simp only [updateCol?, Option.some.injEq] at h
    subst h
    exact ⟨rfl, hV, fun r p hp => ⟨p, hp, by simp, fun _ _ => rfl⟩⟩
  | some k =>
    obtain ⟨h1, h2, h3⟩ := updateCol_spec k f probs out V hV h
    refine ⟨h1, h2, fun r p hp => ?_⟩
    obtain ⟨q, e1, e2, e3⟩ := h3 r p hp
    refine ⟨q, e1, ?_, ?_⟩
    · intro k' x hk hx
      cases hk
      exact e2 x hx
    · intro j hj
      exact e3 j fun h => hj (by rw [h])

theorem foldl_max_ge (l : List Nat) (m : Nat) : m ≤ l.foldl max m ∧ ∀ x ∈ l, x ≤ l.foldl max m := by
  induction l generalizing m with
  | nil => simp
  | cons y l ih =>
    obtain ⟨h1, h2⟩ := ih (max m y)
    rw [List.foldl_cons]
    refine ⟨by omega, ?_⟩
    intro x hx
    rcases List.mem_cons.mp hx with rfl | h
    · omega
    · exact h2 x h

theorem foldl_min_le' (l : List Nat) (m : Nat) : l.foldl min m ≤ m ∧ ∀ x ∈ l, l.foldl min m ≤ x := by
  induction l generalizing m with
  | nil => simp
  | cons y l ih =>
    obtain ⟨h1, h2⟩ := ih (min m y)
    rw [List.foldl_cons]
    refine ⟨by omega, ?_⟩
    intro x hx
    rcases List.mem_cons.mp hx with rfl | h
    · omega
    · exact h2 x h

theorem foldl_max_le (l : List Nat) (m b : Nat) (hm : m ≤ b) (h : ∀ x ∈ l, x ≤ b) : l.foldl max m ≤ b := by
  induction l generalizing m with
  | nil => exact hm
  | cons y l ih =>
    rw [List.foldl_cons]
    exact ih _ (by have := h y (by simp); omega) fun x hx => h x (List.mem_cons_of_mem _ hx)

theorem count_fan (P G p : Nat) (hp : p < P) :
    ((List.range P).flatMap fun i => List.replicate G i).count p = G := by
  have key : ∀ n, ((List.range n).flatMap fun i => List.replicate G i).count p = if p < n then G else 0 := by
    intro n
    induction n with
    | zero => simp
    | succ n ih =>
      rw [List.range_succ, List.flatMap_append, List.count_append, ih]
      simp only [List.flatMap_cons, List.flatMap_nil, List.append_nil, List.count_replicate]
      by_cases h : p < n
      · have : ¬ n = p := by omega
        simp [h, this, show p < n + 1 by omega]
      · by_cases h2 : n = p
        · subst h2; simp
        · have h3 : ¬ p < n + 1 := by omega
          simp [h, h2, h3]
  rw [key, if_pos hp]

end Fs2.Gen
