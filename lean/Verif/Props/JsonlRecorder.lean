import Verif.Metrics.JsonlRecorder

/-!
# Properties of the JSONL metric recorder

C120. Every call of the recorder that does not raise appends one line to the file of its category, with all its values, in
the order of priority and display name, after time and step; a call that raises appends nothing. Files keep what they have.
-/

namespace Fs2.Props

open Fs2.Jsonl

variable {N : Type}

mutual
/-- How a value is written: numbers and texts as they are, a tensor with one element as its element, other tensors as lists,
sequences element by element. -/
inductive WrittenAs : Value N → Json N → Prop
  | num (n : N) : WrittenAs (.num n) (.num n)
  | str (s : String) : WrittenAs (.str s) (.str s)
  | one (n : N) : WrittenAs (.one n) (.num n)
  | many (t : Json N) : WrittenAs (.many t) t
  | seq (l : List (Value N)) (r : List (Json N)) : WrittenAll l r → WrittenAs (.seq l) (.list r)

inductive WrittenAll : List (Value N) → List (Json N) → Prop
  | nil : WrittenAll [] []
  | cons (v : Value N) (j : Json N) (l : List (Value N)) (r : List (Json N)) :
      WrittenAs v j → WrittenAll l r → WrittenAll (v :: l) (j :: r)
end

mutual
private theorem sanitize_sound : ∀ (v : Value N) (j : Json N), sanitize v = .ok j → WrittenAs v j
  | .num n, j, h => by rw [sanitize] at h; injection h with h; rw [← h]; exact .num n
  | .str s, j, h => by rw [sanitize] at h; injection h with h; rw [← h]; exact .str s
  | .one n, j, h => by rw [sanitize] at h; injection h with h; rw [← h]; exact .one n
  | .many t, j, h => by rw [sanitize] at h; injection h with h; rw [← h]; exact .many t
  | .seq l, j, h => by
    rw [sanitize] at h
    split at h
    · rename_i r hr
      injection h with h
      rw [← h]
      exact .seq l r (sanitizeAll_sound l r hr)
    · cases h
  | .other, j, h => by rw [sanitize] at h; cases h

private theorem sanitizeAll_sound : ∀ (l : List (Value N)) (r : List (Json N)), sanitizeAll l = .ok r → WrittenAll l r
  | [], r, h => by rw [sanitizeAll] at h; injection h with h; rw [← h]; exact .nil
  | v :: l, r, h => by
    rw [sanitizeAll] at h
    split at h
    · cases h
    · rename_i j hj
      split at h
      · cases h
      · rename_i r' hr
        injection h with h
        rw [← h]
        exact .cons v j l r' (sanitize_sound v j hj) (sanitizeAll_sound l r' hr)
end

mutual
private theorem sanitize_complete : ∀ (v : Value N) (j : Json N), WrittenAs v j → sanitize v = .ok j
  | _, _, .num n => by rw [sanitize]
  | _, _, .str s => by rw [sanitize]
  | _, _, .one n => by rw [sanitize]
  | _, _, .many t => by rw [sanitize]
  | _, _, .seq l r h => by rw [sanitize, sanitizeAll_complete l r h]

private theorem sanitizeAll_complete : ∀ (l : List (Value N)) (r : List (Json N)), WrittenAll l r → sanitizeAll l = .ok r
  | _, _, .nil => by rw [sanitizeAll]
  | _, _, .cons v j l r hv hl => by rw [sanitizeAll, sanitize_complete v j hv]; simp only; rw [sanitizeAll_complete l r hl]
end

/-- **C120.** What is written for a value. A value that holds something else is refused. -/
theorem C120_value (v : Value N) :
    (∀ j, sanitize v = .ok j ↔ WrittenAs v j) ∧ ((¬ ∃ j, WrittenAs v j) → sanitize v = .error .value) := by
  refine ⟨fun j => ⟨sanitize_sound v j, sanitize_complete v j⟩, ?_⟩
  intro h
  cases hs : sanitize v with
  | ok j => exact (h ⟨j, sanitize_sound v j hs⟩).elim
  | error e =>
    cases e with
    | value => rfl
    | category => exact (no_category v hs).elim
where
  no_category : ∀ v : Value N, sanitize v ≠ .error .category
    | .num n => by rw [sanitize]; intro h; cases h
    | .str n => by rw [sanitize]; intro h; cases h
    | .one n => by rw [sanitize]; intro h; cases h
    | .many n => by rw [sanitize]; intro h; cases h
    | .other => by rw [sanitize]; intro h; cases h
    | .seq l => by
      rw [sanitize]
      have := no_category_all l
      split
      · intro h; cases h
      · rename_i e he; intro h; injection h with h; subst h; exact this he
  no_category_all : ∀ l : List (Value N), sanitizeAll l ≠ .error .category
    | [] => by rw [sanitizeAll]; intro h; cases h
    | v :: l => by
      rw [sanitizeAll]
      have h1 := no_category v
      have h2 := no_category_all l
      split
      · rename_i e he; intro h; injection h with h; subst h; exact h1 he
      · split
        · rename_i e he; intro h; injection h with h; subst h; exact h2 he
        · intro h; cases h

/-- The display names of the values of a call are told apart, also from those of time and step. -/
structure Apart (descriptors : List Desc) (values : List (String × Value N)) : Prop where
  once : (values.map fun p => (describe descriptors p.1).display).Nodup
  reserved : ∀ p ∈ values, (describe descriptors p.1).display ≠ "Time" ∧ (describe descriptors p.1).display ≠ "Step"

/-- A line as it should be. -/
structure GoodLine (descriptors : List Desc) (call : Call N) (line : Line N) : Prop where
  time : ("Time", Json.str call.time) ∈ line
  step : ∀ n, call.step = some n → ("Step", Json.num n) ∈ line
  value : ∀ p ∈ call.values, ∃ j, WrittenAs p.2 j ∧ ((describe descriptors p.1).display, j) ∈ line
  order : ∃ order : List Desc,
    order.Perm (call.values.map fun p => describe descriptors p.1) ∧
    order.Pairwise (fun a b => a.priority < b.priority ∨ a.priority = b.priority ∧ a.display ≤ b.display) ∧
    line.map (·.1) = "Time" :: ((if call.step.isSome then ["Step"] else []) ++ order.map (·.display))

private theorem setKey_new (key : String) (j : Json N) : ∀ l : Line N, key ∉ l.map (·.1) → setKey key j l = l ++ [(key, j)]
  | [], _ => rfl
  | (k, i) :: l, h => by
    rw [setKey, if_neg (fun e => h (by rw [← e]; exact List.mem_cons_self ..)),
      setKey_new key j l (fun hm => h (List.mem_cons_of_mem _ hm))]
    rfl

private theorem fill_ok : ∀ (l : List (Value N × Desc)) (line r : Line N), fill line l = .ok r →
    (l.map (·.2.display)).Nodup → (∀ x ∈ l, x.2.display ∉ line.map (·.1)) →
    ∃ ext : Line N, r = line ++ ext ∧ ext.map (·.1) = l.map (·.2.display) ∧
      ∀ x ∈ l, ∃ j, WrittenAs x.1 j ∧ (x.2.display, j) ∈ ext
  | [], line, r, h, _, _ => by
    rw [fill] at h
    injection h with h
    exact ⟨[], by rw [h, List.append_nil], rfl, fun x hx => by cases hx⟩
  | (v, d) :: l, line, r, h, hn, hf => by
    rw [fill] at h
    split at h
    · cases h
    · rename_i j hj
      have hd := hf (v, d) (List.mem_cons_self ..)
      rw [setKey_new d.display j line hd] at h
      rw [List.map_cons, List.nodup_cons] at hn
      obtain ⟨ext, hr, hk, hv⟩ := fill_ok l _ r h hn.2 (by
        intro x hx hm
        rw [List.map_append, List.mem_append] at hm
        rcases hm with hm | hm
        · exact hf x (List.mem_cons_of_mem _ hx) hm
        · rw [List.map_cons, List.map_nil, List.mem_singleton] at hm
          exact hn.1 (List.mem_map.2 ⟨x, hx, hm⟩))
      refine ⟨(d.display, j) :: ext, by rw [hr, List.append_assoc]; rfl, by rw [List.map_cons, List.map_cons, hk], ?_⟩
      intro x hx
      rcases List.mem_cons.1 hx with rfl | hx
      · exact ⟨j, sanitize_sound v j hj, List.mem_cons_self ..⟩
      · obtain ⟨j', hw, hm⟩ := hv x hx
        exact ⟨j', hw, List.mem_cons_of_mem _ hm⟩

private theorem insert_perm (x : Value N × Desc) : ∀ l, (insertKey x l).Perm (x :: l)
  | [] => .refl _
  | y :: l => by
    rw [insertKey]
    split
    · exact .refl _
    · exact ((insert_perm x l).cons y).trans (.swap x y l)

private theorem sort_perm : ∀ l : List (Value N × Desc), (sort l).Perm l
  | [] => .refl _
  | x :: l => (insert_perm x (sort l)).trans ((sort_perm l).cons x)

/-- The order of the values. -/
def KeyOrder (a b : Value N × Desc) : Prop :=
  a.2.priority < b.2.priority ∨ a.2.priority = b.2.priority ∧ a.2.display ≤ b.2.display

private theorem keyLe_iff (a b : Value N × Desc) : keyLe a.2 b.2 = true ↔ KeyOrder a b := by
  simp [keyLe, KeyOrder]

private theorem key_trans (a b c : Value N × Desc) (h : KeyOrder a b) (h' : KeyOrder b c) : KeyOrder a c := by
  rcases h with h | ⟨h, h1⟩ <;> rcases h' with h' | ⟨h', h1'⟩
  · exact .inl (by omega)
  · exact .inl (by omega)
  · exact .inl (by omega)
  · exact .inr ⟨by omega, String.le_trans h1 h1'⟩

private theorem key_total (a b : Value N × Desc) (h : ¬ KeyOrder a b) : KeyOrder b a := by
  unfold KeyOrder at *
  by_cases hp : a.2.priority = b.2.priority
  · refine .inr ⟨hp.symm, ?_⟩
    rcases String.le_total a.2.display b.2.display with h1 | h1
    · exact (h (.inr ⟨hp, h1⟩)).elim
    · exact h1
  · refine .inl ?_
    have := fun h1 => h (Or.inl h1)
    omega

private theorem insert_sorted (x : Value N × Desc) : ∀ l, l.Pairwise KeyOrder → (insertKey x l).Pairwise KeyOrder
  | [], _ => by rw [insertKey]; exact List.pairwise_singleton ..
  | y :: l, h => by
    rw [insertKey]
    rw [List.pairwise_cons] at h
    split
    · rename_i hk
      have hk := (keyLe_iff x y).1 hk
      refine List.pairwise_cons.2 ⟨?_, List.pairwise_cons.2 h⟩
      intro z hz
      rcases List.mem_cons.1 hz with rfl | hz
      · exact hk
      · exact key_trans x y z hk (h.1 z hz)
    · rename_i hk
      have hk := key_total x y (fun h => hk ((keyLe_iff x y).2 h))
      refine List.pairwise_cons.2 ⟨?_, insert_sorted x l h.2⟩
      intro z hz
      rcases List.mem_cons.1 ((insert_perm x l).mem_iff.1 hz) with rfl | hz
      · exact hk
      · exact h.1 z hz

private theorem sort_sorted : ∀ l : List (Value N × Desc), (sort l).Pairwise KeyOrder
  | [] => .nil
  | x :: l => insert_sorted x _ (sort_sorted l)

private theorem line_good (descriptors : List Desc) (call : Call N) (line : Line N)
    (h : makeLine descriptors call.time call.step call.values = .ok line) (ha : Apart descriptors call.values) :
    GoodLine descriptors call line := by
  unfold makeLine at h
  generalize hl : sort (call.values.map fun p => (p.2, describe descriptors p.1)) = l at h
  have hp : l.Perm (call.values.map fun p => (p.2, describe descriptors p.1)) := by rw [← hl]; exact sort_perm _
  have hs : l.Pairwise KeyOrder := by rw [← hl]; exact sort_sorted _
  have hmem : ∀ x ∈ l, ∃ p ∈ call.values, x = (p.2, describe descriptors p.1) := by
    intro x hx
    obtain ⟨p, hp, he⟩ := List.mem_map.1 (hp.mem_iff.1 hx)
    exact ⟨p, hp, he.symm⟩
  have hn : (l.map (·.2.display)).Nodup := by
    have := (hp.map (·.2.display)).nodup_iff
    rw [this, List.map_map]
    exact ha.once
  have key : ∀ pre : Line N, fill pre l = .ok line →
      (∀ k ∈ pre.map (·.1), k = "Time" ∨ k = "Step") →
      ∃ ext : Line N, line = pre ++ ext ∧ ext.map (·.1) = l.map (·.2.display) ∧
        ∀ x ∈ l, ∃ j, WrittenAs x.1 j ∧ (x.2.display, j) ∈ ext := by
    intro pre hf hpre
    refine fill_ok l pre line hf hn ?_
    intro x hx hm
    obtain ⟨p, hpv, rfl⟩ := hmem x hx
    rcases hpre _ hm with he | he
    · exact (ha.reserved p hpv).1 he
    · exact (ha.reserved p hpv).2 he
  have hval : ∀ (pre ext : Line N), line = pre ++ ext →
      (∀ x ∈ l, ∃ j, WrittenAs x.1 j ∧ (x.2.display, j) ∈ ext) →
      ∀ p ∈ call.values, ∃ j, WrittenAs p.2 j ∧ ((describe descriptors p.1).display, j) ∈ line := by
    intro pre ext he hv p hpv
    obtain ⟨j, hw, hm⟩ := hv (p.2, describe descriptors p.1) (hp.mem_iff.2 (List.mem_map.2 ⟨p, hpv, rfl⟩))
    exact ⟨j, hw, by rw [he]; exact List.mem_append_right _ hm⟩
  have hord : (l.map (·.2)).Perm (call.values.map fun p => describe descriptors p.1) ∧
      (l.map (·.2)).Pairwise (fun a b => a.priority < b.priority ∨ a.priority = b.priority ∧ a.display ≤ b.display) := by
    refine ⟨?_, List.pairwise_map.2 hs⟩
    have := hp.map (·.2)
    rw [List.map_map] at this
    exact this
  cases hstep : call.step with
  | none =>
    rw [hstep] at h
    obtain ⟨ext, he, hk, hv⟩ := key _ h (by intro k hk; simp at hk; exact .inl hk)
    refine ⟨by rw [he]; exact List.mem_append_left _ (List.mem_singleton.2 rfl), ?_, hval _ ext he hv, ?_⟩
    · intro n hn; cases hstep.symm.trans hn
    · refine ⟨_, hord.1, hord.2, ?_⟩
      rw [he, List.map_append, hk, List.map_map, hstep]
      rfl
  | some n =>
    rw [hstep] at h
    have hset : setKey "Step" (Json.num n) [("Time", Json.str call.time)] =
        [("Time", Json.str call.time), ("Step", Json.num n)] := by
      rw [setKey_new]
      · rfl
      · simp
    simp only at h
    rw [hset] at h
    obtain ⟨ext, he, hk, hv⟩ := key _ h (by intro k hk; simp at hk; exact hk)
    refine ⟨by rw [he]; exact List.mem_append_left _ (List.mem_cons_self ..), ?_, hval _ ext he hv, ?_⟩
    · intro m hm
      have : n = m := Option.some.inj (hstep.symm.trans hm)
      subst this
      rw [he]
      exact List.mem_append_left _ (List.mem_cons_of_mem _ (List.mem_singleton.2 rfl))
    · refine ⟨_, hord.1, hord.2, ?_⟩
      rw [he, List.map_append, hk, List.map_map, hstep]
      rfl

/-- The lines of a file; one that does not exist has none. -/
def linesOf (s : State N) (f : List Char) : List (Line N) := (s.files f).getD []

private theorem stream_lines (s s' : State N) (c c' : List Char) (h : getStream s c = .ok (c', s')) :
    c' = strip c ∧ ∀ f, linesOf s' f = linesOf s f := by
  unfold getStream at h
  simp only at h
  split at h
  · injection h with h
    injection h with h1 h2
    exact ⟨h1.symm, fun f => by rw [h2]⟩
  · split at h
    · injection h with h
      injection h with h1 h2
      refine ⟨h1.symm, fun f => ?_⟩
      rw [← h2]
      unfold linesOf
      simp only
      split
      · rfl
      · rfl
    · cases h

/-- **C120.** A call that does not raise appends one line to the file of its category, and nothing else changes. If the
display names are told apart, the line has the time, the step, and every value under its display name, in the order of
priority and display name. -/
theorem C120_line (descriptors : List Desc) (s s' : State N) (call : Call N)
    (h : record descriptors s call = (none, s')) :
    ∃ line, linesOf s' (strip call.category) = linesOf s (strip call.category) ++ [line] ∧
      (∀ f, f ≠ strip call.category → linesOf s' f = linesOf s f) ∧
      (Apart descriptors call.values → GoodLine descriptors call line) := by
  unfold record at h
  split at h
  · injection h with h1 _
    cases h1
  · rename_i c s1 hs
    obtain ⟨hc, hf⟩ := stream_lines s s1 call.category c hs
    split at h
    · injection h with h1 _
      cases h1
    · rename_i line hline
      injection h with _ h2
      refine ⟨line, ?_, ?_, line_good descriptors call line hline⟩
      · rw [← h2, ← hf, ← hc]
        unfold linesOf
        simp
      · intro f hne
        rw [← h2, ← hf]
        unfold linesOf
        simp only
        rw [if_neg (by rw [hc]; exact hne)]

/-- **C120.** A call that raises appends nothing to any file. -/
theorem C120_raised (descriptors : List Desc) (s s' : State N) (call : Call N) (e : Exc)
    (h : record descriptors s call = (some e, s')) (f : List Char) : linesOf s' f = linesOf s f := by
  unfold record at h
  split at h
  · injection h with _ h2
    rw [h2]
  · rename_i c s1 hs
    obtain ⟨_, hf⟩ := stream_lines s s1 call.category c hs
    split at h
    · injection h with _ h2
      rw [← h2]; exact hf f
    · injection h with h1 _
      cases h1

/-- The line that a call that does not raise writes to a file. -/
def lineFor (descriptors : List Desc) (f : List Char) : Op N → Option (Line N)
  | .close => none
  | .record call =>
    if strip call.category = f ∧ (split f).all matchesPart then
      (makeLine descriptors call.time call.step call.values).toOption
    else none

/-- **C120.** After any calls, with any closing in between, a file has what it had when the recorder was made, followed by
the lines of the calls for its category that did not raise, in order. -/
theorem C120_history (descriptors : List Desc) (files : List Char → Option (List (Line N))) (ops : List (Op N))
    (f : List Char) :
    linesOf (ops.foldl (step descriptors) ⟨[], files⟩) f = (files f).getD [] ++ ops.filterMap (lineFor descriptors f) := by
  have key : ∀ (ops : List (Op N)) (s : State N), (∀ c ∈ s.streams, (split c).all matchesPart = true) →
      linesOf (ops.foldl (step descriptors) s) f = linesOf s f ++ ops.filterMap (lineFor descriptors f) := by
    intro ops
    induction ops with
    | nil => intro s _; simp
    | cons op ops ih =>
      intro s hs
      rw [List.foldl_cons]
      have h1 : (∀ c ∈ (step descriptors s op).streams, (split c).all matchesPart = true) ∧
          linesOf (step descriptors s op) f = linesOf s f ++ (lineFor descriptors f op).toList := by
        cases op with
        | close =>
          refine ⟨fun c hc => (by cases hc), ?_⟩
          simp [lineFor, step, linesOf]
        | record call =>
          unfold step record
          simp only
          cases hg : getStream s call.category with
          | error e =>
            refine ⟨hs, ?_⟩
            have : lineFor descriptors f (.record call) = none := by
              unfold lineFor
              simp only
              rw [if_neg]
              rintro ⟨rfl, hm⟩
              unfold getStream at hg
              by_cases hin : strip call.category ∈ s.streams
              · simp only [if_pos hin] at hg
                cases hg
              · simp only [if_neg hin, hm, if_true] at hg
                cases hg
            rw [this]; simp
          | ok r =>
            obtain ⟨c, s1⟩ := r
            obtain ⟨hc, hf⟩ := stream_lines s s1 call.category c hg
            have hgood : (split c).all matchesPart = true ∧ ∀ c ∈ s1.streams, (split c).all matchesPart = true := by
              unfold getStream at hg
              simp only at hg
              split at hg
              · rename_i hin
                injection hg with hg
                injection hg with g1 g2
                rw [← g1, ← g2]
                exact ⟨hs _ hin, hs⟩
              · split at hg
                · rename_i hall
                  injection hg with hg
                  injection hg with g1 g2
                  rw [← g1, ← g2]
                  refine ⟨hall, ?_⟩
                  intro x hx
                  rcases List.mem_cons.1 hx with rfl | hx
                  · exact hall
                  · exact hs x hx
                · cases hg
            simp only
            cases hm : makeLine descriptors call.time call.step call.values with
            | error e =>
              refine ⟨hgood.2, ?_⟩
              have : lineFor descriptors f (.record call) = none := by
                unfold lineFor
                simp only
                rw [hm]
                split <;> rfl
              rw [this]
              simp [hf f]
            | ok line =>
              refine ⟨hgood.2, ?_⟩
              by_cases hfc : f = c
              · have : lineFor descriptors f (.record call) = some line := by
                  unfold lineFor
                  simp only
                  rw [hm, if_pos ⟨by rw [hfc, hc], by rw [hfc]; exact hgood.1⟩]
                  rfl
                rw [this, ← hf f]
                simp [linesOf, hfc]
              · have : lineFor descriptors f (.record call) = none := by
                  unfold lineFor
                  simp only
                  rw [if_neg]
                  rintro ⟨h1, _⟩
                  exact hfc (by rw [hc, h1])
                rw [this, ← hf f]
                simp [linesOf, hfc]
      rw [ih _ h1.1, h1.2, List.append_assoc]
      congr 1
      cases hl : lineFor descriptors f op with
      | none => rw [List.filterMap_cons_none hl]; rfl
      | some l => rw [List.filterMap_cons_some hl]; rfl
  exact key ops ⟨[], files⟩ (fun c hc => by cases hc)

private theorem maybe_name (ds : List Desc) (name : String) (d : Desc) (h : maybeGet ds name = some d) :
    d ∈ ds ∧ d.name = name := by
  unfold maybeGet at h
  have h1 := List.find?_some h
  have h2 := List.mem_of_find?_eq_some h
  exact ⟨List.mem_reverse.1 h2, by simpa using h1⟩

private theorem maybe_some (ds : List Desc) (name : String) (h : name ∈ ds.map (·.name)) :
    ∃ d, maybeGet ds name = some d := by
  unfold maybeGet
  cases hf : ds.reverse.find? fun d => d.name == name with
  | some d => exact ⟨d, rfl⟩
  | none =>
    obtain ⟨d, hd, he⟩ := List.mem_map.1 h
    have := List.find?_eq_none.1 hf d (List.mem_reverse.2 hd)
    simp [he] at this

private theorem display_inj : ∀ (l : List Desc), (l.map (·.display)).Nodup → ∀ a ∈ l, ∀ b ∈ l, a.display = b.display → a = b
  | [], _, a, ha => by cases ha
  | x :: l, hn, a, ha => by
    intro b hb he
    rw [List.map_cons, List.nodup_cons] at hn
    rcases List.mem_cons.1 ha with h1 | h1 <;> rcases List.mem_cons.1 hb with h2 | h2
    · rw [h1, h2]
    · exact (hn.1 (List.mem_map.2 ⟨b, h2, by rw [← he, h1]⟩)).elim
    · exact (hn.1 (List.mem_map.2 ⟨a, h1, by rw [he, h2]⟩)).elim
    · exact display_inj l hn.2 a h1 b h2 he

/-- **C120.** The display names of the metrics that fairseq2 registers are told apart: no value of theirs is lost, whichever
of them are recorded in a call. -/
theorem C120_registered (values : List (String × Value N)) (hn : (values.map (·.1)).Nodup)
    (hr : ∀ p ∈ values, p.1 ∈ registered.map (·.name)) : Apart registered values := by
  have hd : (registered.map (·.display)).Nodup := by decide +kernel
  have ht : ∀ d ∈ registered, d.display ≠ "Time" ∧ d.display ≠ "Step" := by decide +kernel
  have hg : ∀ p ∈ values, describe registered p.1 ∈ registered ∧ (describe registered p.1).name = p.1 := by
    intro p hp
    obtain ⟨d, h⟩ := maybe_some registered p.1 (hr p hp)
    unfold describe
    rw [h]
    exact maybe_name registered p.1 d h
  refine ⟨?_, fun p hp => ht _ (hg p hp).1⟩
  clear hr
  induction values with
  | nil => exact .nil
  | cons p l ih =>
    rw [List.map_cons, List.nodup_cons] at hn ⊢
    refine ⟨?_, ih hn.2 (fun q hq => hg q (List.mem_cons_of_mem _ hq))⟩
    intro hm
    obtain ⟨q, hq, he⟩ := List.mem_map.1 hm
    have h1 := hg p (List.mem_cons_self ..)
    have h2 := hg q (List.mem_cons_of_mem _ hq)
    have := display_inj registered hd _ h2.1 _ h1.1 he
    exact hn.1 (List.mem_map.2 ⟨q, hq, by rw [← h2.2, this, h1.2]⟩)

/-- A call with a registered metric, another one, and a step. -/
def someCall : Call Nat := ⟨"train".toList, [("lr", .num 1), ("loss", .one 7), ("mine", .seq [.num 1, .str "x"])], some 3, "now"⟩

example : Apart registered someCall.values := ⟨by decide +kernel, by decide +kernel⟩

example : (record registered ⟨[], fun _ => none⟩ someCall).2.files "train".toList =
    some [[("Time", .str "now"), ("Step", .num 3), ("Loss", .num 7), ("Learning Rate", .num 1),
      ("mine", .list [.num 1, .str "x"])]] := rfl

/-- **C120, violated.** A metric that is not registered and is called like the display name of another one, or "Step",
takes the place of the other value, without an error. -/
theorem C120_lost_negation :
    (record registered (⟨[], fun _ => none⟩ : State Nat)
      ⟨"train".toList, [("loss", .num 7), ("Loss", .num 8), ("Step", .num 9)], some 3, "now"⟩).1 = none ∧
    (record registered ⟨[], fun _ => none⟩
      ⟨"train".toList, [("loss", .num 7), ("Loss", .num 8), ("Step", .num 9)], some 3, "now"⟩).2.files "train".toList =
    some [[("Time", .str "now"), ("Step", .num 9), ("Loss", .num 8)]] := ⟨rfl, rfl⟩

private theorem split_chars : ∀ (l : List Char) (c : Char), c ∈ l → c = '/' ∨ ∃ p ∈ split l, c ∈ p
  | [], c, h => by cases h
  | x :: l, c, h => by
    unfold split
    by_cases hx : x = '/'
    · rw [if_pos hx]
      rcases List.mem_cons.1 h with rfl | h
      · exact .inl hx
      · rcases split_chars l c h with h | ⟨p, hp, hc⟩
        · exact .inl h
        · exact .inr ⟨p, List.mem_cons_of_mem _ hp, hc⟩
    · rw [if_neg hx]
      rcases List.mem_cons.1 h with rfl | h
      · cases hs : split l with
        | nil => exact .inr ⟨[c], List.mem_cons_self .., List.mem_cons_self ..⟩
        | cons p ps => exact .inr ⟨c :: p, List.mem_cons_self .., List.mem_cons_self ..⟩
      · rcases split_chars l c h with h | ⟨q, hq, hc⟩
        · exact .inl h
        · cases hs : split l with
          | nil => rw [hs] at hq; cases hq
          | cons p ps =>
            rw [hs] at hq
            rcases List.mem_cons.1 hq with rfl | hq
            · exact .inr ⟨x :: q, List.mem_cons_self .., List.mem_cons_of_mem _ hc⟩
            · exact .inr ⟨q, List.mem_cons_of_mem _ hq, hc⟩

/-- **C120.** A recorder writes only to files whose category has letters, digits, dashes, underscores and slashes, and
newlines: with a new recorder, a call for another category raises. -/
theorem C120_category_partial (descriptors : List Desc) (files : List Char → Option (List (Line N))) (call : Call N)
    (s' : State N) (h : record descriptors ⟨[], files⟩ call = (none, s')) (c : Char) (hc : c ∈ strip call.category) :
    c.isAlphanum = true ∨ c = '-' ∨ c = '_' ∨ c = '/' ∨ c = '\n' := by
  have hall : (split (strip call.category)).all matchesPart = true := by
    cases hm : (split (strip call.category)).all matchesPart with
    | true => rfl
    | false =>
      have hg : getStream (⟨[], files⟩ : State N) call.category = .error .category := by
        unfold getStream
        simp [hm]
      unfold record at h
      rw [hg] at h
      injection h with h _
      cases h
  have hok : ∀ x : Char, allowed x = true → x.isAlphanum = true ∨ x = '-' ∨ x = '_' ∨ x = '/' ∨ x = '\n' := by
    intro x hx
    simp only [allowed, Bool.or_eq_true, beq_iff_eq] at hx
    rcases hx with (h | h) | h
    · exact .inl h
    · exact .inr (.inl h)
    · exact .inr (.inr (.inl h))
  rcases split_chars _ c hc with h | ⟨p, hp, hcp⟩
  · exact .inr (.inr (.inr (.inl h)))
  · have := List.all_eq_true.1 hall p hp
    simp only [matchesPart, Bool.or_eq_true, Bool.and_eq_true] at this
    rcases this with ⟨_, h⟩ | ⟨⟨hl, _⟩, h⟩
    · exact hok c (List.all_eq_true.1 h c hcp)
    · have hl : p.getLast? = some '\n' := by simpa using hl
      have hp' : p = p.dropLast ++ ['\n'] := by
        obtain ⟨ys, hys⟩ := List.getLast?_eq_some_iff.1 hl
        rw [hys, List.dropLast_concat]
      rw [hp', List.mem_append, List.mem_singleton] at hcp
      rcases hcp with hcp | hcp
      · exact hok c (List.all_eq_true.1 h c hcp)
      · exact .inr (.inr (.inr (.inr hcp)))

/-- **C120, violated.** A category with a newline before a slash is accepted. -/
theorem C120_newline_negation :
    (record registered (⟨[], fun _ => none⟩ : State Nat) ⟨"valid\n/x".toList, [], none, "now"⟩).1 = none ∧
    '\n' ∈ strip "valid\n/x".toList := by decide +kernel

end Fs2.Props
