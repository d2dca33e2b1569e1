import Verif.Native.Selector

/-!
# What mapping with a selector changes
-/

namespace Fs2.Native

/-- A node without what is below it: its kind, the keys of a dictionary, the length of a list, the value of a leaf. -/
inductive Head where
  | leaf (d : Data)
  | list (len : Nat)
  | dict (keys : List String)

def head : Data → Head
  | .list xs => .list xs.length
  | .dict kvs => .dict (kvs.map (·.1))
  | d => .leaf d

theorem lookup_setKey (k k' : List Char) (x : Data) (kvs : List (String × Data)) :
    lookupKey k' (setKey k x kvs) = if k' = k then (lookupKey k kvs).map fun _ => x else lookupKey k' kvs := by
  induction kvs with
  | nil => simp [lookupKey, setKey]
  | cons e kvs ih =>
    simp only [lookupKey, setKey] at ih ⊢
    by_cases h : e.1 = String.ofList k
    · simp only [if_pos h]
      by_cases hk : k' = k
      · subst hk
        simp [h]
      · have : e.1 ≠ String.ofList k' := by
          rw [h]
          intro h'
          exact hk (String.ofList_injective h'.symm)
        simp [hk, this]
    · simp only [if_neg h]
      by_cases hk : k' = k
      · subst hk
        simp only [List.find?_cons, h, decide_false, if_true] at ih ⊢
        exact ih
      · simp only [List.find?_cons]
        by_cases h' : e.1 = String.ofList k'
        · simp [h', hk]
        · simp only [h', decide_false, if_neg hk] at ih ⊢
          exact ih

theorem setKey_keys (k : List Char) (x : Data) (kvs : List (String × Data)) : (setKey k x kvs).map (·.1) = kvs.map (·.1) := by
  induction kvs with
  | nil => rfl
  | cons e kvs ih =>
    simp only [setKey]
    split
    · rfl
    · simp [ih]

/-- Reading what was written. -/
theorem nodeAt_putAt_self {l : Loc} {d x : Data} (h : nodeAt l d ≠ none) : nodeAt l (putAt l x d) = some x := by
  induction l generalizing d with
  | nil => rfl
  | cons s l ih =>
    cases s with
    | key k =>
      cases d with
      | dict kvs =>
        simp only [nodeAt, putAt] at h ⊢
        cases hk : lookupKey k kvs with
        | none => rw [hk] at h; simp at h
        | some y =>
          rw [hk] at h
          simp only [lookup_setKey, if_true, hk, Option.map_some, Option.bind_some]
          exact ih h
      | _ => simp [nodeAt] at h
    | idx n =>
      cases d with
      | list xs =>
        simp only [nodeAt, putAt] at h ⊢
        cases hx : xs[n]? with
        | none => rw [hx] at h; simp at h
        | some y =>
          rw [hx] at h
          have hn := (List.getElem?_eq_some_iff.mp hx).1
          simp only [List.getElem?_set_self hn, Option.bind_some]
          exact ih h
      | _ => simp [nodeAt] at h

/-- Nothing but what is at or below the location changes, except that nodes above contain the change. -/
theorem head_putAt {l m : Loc} {d x : Data} (h : ¬ l <+: m) : (nodeAt m (putAt l x d)).map head = (nodeAt m d).map head := by
  induction l generalizing d m with
  | nil => exact absurd (List.nil_prefix) h
  | cons s l ih =>
    cases s with
    | key k =>
      cases d with
      | dict kvs =>
        simp only [putAt]
        cases hk : lookupKey k kvs with
        | none => rfl
        | some y =>
          cases m with
          | nil => simp [nodeAt, head, setKey_keys]
          | cons t m =>
            cases t with
            | idx => rfl
            | key k' =>
              simp only [nodeAt, lookup_setKey]
              by_cases e : k' = k
              · subst e
                simp only [if_true, hk, Option.map_some, Option.bind_some]
                exact ih fun hp => h (List.cons_prefix_cons.mpr ⟨rfl, hp⟩)
              · rw [if_neg e]
      | _ => rfl
    | idx n =>
      cases d with
      | list xs =>
        simp only [putAt]
        cases hx : xs[n]? with
        | none => rfl
        | some y =>
          cases m with
          | nil => simp [nodeAt, head]
          | cons t m =>
            cases t with
            | key => rfl
            | idx n' =>
              have hn := (List.getElem?_eq_some_iff.mp hx).1
              simp only [nodeAt]
              by_cases e : n = n'
              · subst e
                simp only [List.getElem?_set_self hn, hx, Option.bind_some]
                exact ih fun hp => h (List.cons_prefix_cons.mpr ⟨rfl, hp⟩)
              · rw [List.getElem?_set_ne e]
      | _ => rfl

/-- Nodes that lie neither above nor below. -/
theorem nodeAt_putAt_of_disjoint {l m : Loc} {d x : Data} (h : ¬ l <+: m) (h' : ¬ m <+: l) : nodeAt m (putAt l x d) = nodeAt m d := by
  induction l generalizing d m with
  | nil => exact absurd (List.nil_prefix) h
  | cons s l ih =>
    cases m with
    | nil => exact absurd (List.nil_prefix) h'
    | cons t m =>
      cases s with
      | key k =>
        cases d with
        | dict kvs =>
          simp only [putAt]
          cases hk : lookupKey k kvs with
          | none => rfl
          | some y =>
            cases t with
            | idx => rfl
            | key k' =>
              simp only [nodeAt, lookup_setKey]
              by_cases e : k' = k
              · subst e
                simp only [if_true, hk, Option.map_some, Option.bind_some]
                exact ih (fun hp => h (List.cons_prefix_cons.mpr ⟨rfl, hp⟩)) (fun hp => h' (List.cons_prefix_cons.mpr ⟨rfl, hp⟩))
              · rw [if_neg e]
        | _ => rfl
      | idx n =>
        cases d with
        | list xs =>
          simp only [putAt]
          cases hx : xs[n]? with
          | none => rfl
          | some y =>
            cases t with
            | key => rfl
            | idx n' =>
              have hn := (List.getElem?_eq_some_iff.mp hx).1
              simp only [nodeAt]
              by_cases e : n = n'
              · subst e
                simp only [List.getElem?_set_self hn, hx, Option.bind_some]
                exact ih (fun hp => h (List.cons_prefix_cons.mpr ⟨rfl, hp⟩)) (fun hp => h' (List.cons_prefix_cons.mpr ⟨rfl, hp⟩))
              · rw [List.getElem?_set_ne e]
        | _ => rfl

theorem Names.node {p : Path} {d : Data} {l : Loc} (h : Names p d l) : ∃ x, nodeAt l d = some x := by
  induction h with
  | here d => exact ⟨d, rfl⟩
  | key h _ ih => obtain ⟨x, hx⟩ := ih; exact ⟨x, by simp [nodeAt, h, hx]⟩
  | idx _ h _ ih => obtain ⟨x, hx⟩ := ih; exact ⟨x, by simp [nodeAt, h, hx]⟩
  | all h _ ih => obtain ⟨x, hx⟩ := ih; exact ⟨x, by simp [nodeAt, h, hx]⟩

/-- Mapping nodes none of which lies above another. -/
theorem mapNodes_spec {f : Data → Except Err Data} {ls : List Loc} {d : Data}
    (hdis : ls.Pairwise fun a b => ¬ a <+: b ∧ ¬ b <+: a) (hin : ∀ l ∈ ls, nodeAt l d ≠ none) :
    ((∃ d', mapNodes f ls d = .ok d') ↔ ∀ l ∈ ls, ∀ x, nodeAt l d = some x → ∃ y, f x = .ok y) ∧
    ∀ d', mapNodes f ls d = .ok d' →
      (∀ l ∈ ls, ∀ x, nodeAt l d = some x → ∃ y, f x = .ok y ∧ nodeAt l d' = some y) ∧
      (∀ m, (∀ l ∈ ls, ¬ l <+: m) → (nodeAt m d').map head = (nodeAt m d).map head) ∧
      (∀ m, (∀ l ∈ ls, ¬ l <+: m ∧ ¬ m <+: l) → nodeAt m d' = nodeAt m d) := by
  induction ls generalizing d with
  | nil => simp [mapNodes]
  | cons l ls ih =>
    obtain ⟨hl, hls⟩ := List.pairwise_cons.mp hdis
    have hne : nodeAt l d ≠ none := hin l (by simp)
    cases hx : nodeAt l d with
    | none => exact absurd hx hne
    | some x =>
      simp only [mapNodes, hx]
      cases hy : f x with
      | error e =>
        simp only
        refine ⟨⟨fun ⟨_, h⟩ => (by cases h), fun h => ?_⟩, fun d' h => (by cases h)⟩
        obtain ⟨y, hy'⟩ := h l (by simp) x hx
        rw [hy] at hy'; cases hy'
      | ok y =>
        have keep : ∀ m ∈ ls, nodeAt m (putAt l y d) = nodeAt m d := fun m hm =>
          nodeAt_putAt_of_disjoint (hl m hm).1 (hl m hm).2
        obtain ⟨i1, i2⟩ := ih (d := putAt l y d) hls fun m hm => by
          rw [keep m hm]; exact hin m (List.mem_cons_of_mem _ hm)
        simp only
        refine ⟨?_, fun d' h => ?_⟩
        · rw [i1]
          constructor
          · intro h m hm z hz
            rcases List.mem_cons.mp hm with rfl | hm
            · rw [hx] at hz; cases hz; exact ⟨y, hy⟩
            · exact h m hm z (by rw [keep m hm]; exact hz)
          · intro h m hm z hz
            rw [keep m hm] at hz
            exact h m (List.mem_cons_of_mem _ hm) z hz
        · obtain ⟨j1, j2, j3⟩ := i2 d' h
          refine ⟨?_, ?_, ?_⟩
          · intro m hm z hz
            rcases List.mem_cons.mp hm with rfl | hm
            · rw [hx] at hz; cases hz
              refine ⟨y, hy, ?_⟩
              rw [j3 m fun l' hl' => ⟨(hl l' hl').2, (hl l' hl').1⟩]
              exact nodeAt_putAt_self hne
            · exact j1 m hm z (by rw [keep m hm]; exact hz)
          · intro m hm
            rw [j2 m fun l' hl' => hm l' (List.mem_cons_of_mem _ hl')]
            exact head_putAt (hm l (by simp))
          · intro m hm
            rw [j3 m fun l' hl' => hm l' (List.mem_cons_of_mem _ hl')]
            exact nodeAt_putAt_of_disjoint (hm l (by simp)).1 (hm l (by simp)).2

end Fs2.Native
