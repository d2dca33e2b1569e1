import Verif.Models.SetState

/-! # Lemmas about loading the state of a model -/

namespace Fs2.Mod

variable {D : Type}

/-! ### Names -/

/-- The name of something in a module to which names lead. -/
def fullName : List String → String → String
  | [], n => n
  | k :: ks, n => k ++ ("." ++ fullName ks n)

/-- The names of the children, also of those that are `None`. -/
def childNames : Children → List String
  | .nil => []
  | .missing n r => n :: childNames r
  | .child n _ r => n :: childNames r

theorem hasChild_name : ∀ (cs : Children) (n : String) (s : Tree), HasChild cs n s → n ∈ childNames cs
  | .nil, _, _, h => by cases h
  | .missing m r, n, s, h => List.mem_cons_of_mem _ (hasChild_name r n s h)
  | .child m t r, n, s, h => by
    rcases h with ⟨rfl, -⟩ | h
    · exact List.mem_cons_self
    · exact List.mem_cons_of_mem _ (hasChild_name r n s h)

mutual

theorem mem_stateDict (st : St D) (np : Nat → String → Bool) : ∀ (t : Tree) (pre key : String) (x : Nat),
    (key, x) ∈ stateDict st np pre t ↔ ∃ path s n, Leads t path s ∧
      ((n, x) ∈ st.params s.id ∨ ((n, x) ∈ st.buffers s.id ∧ np s.id n = false)) ∧ key = pre ++ fullName path n
  | .node id cs, pre, key, x => by
    rw [stateDict, List.mem_append, List.mem_append, mem_stateDictAll st np cs pre key x]
    constructor
    · rintro (h | h | ⟨m, c, path, s, n, h1, h2, h3, h4⟩)
      · obtain ⟨⟨n, y⟩, h1, h2⟩ := List.mem_map.1 h
        cases h2
        exact ⟨[], _, n, .here _, .inl h1, rfl⟩
      · obtain ⟨⟨n, y⟩, h1, h2⟩ := List.mem_map.1 h
        cases h2
        rw [List.mem_filter] at h1
        exact ⟨[], _, n, .here _, .inr ⟨h1.1, by simpa [Tree.id] using h1.2⟩, rfl⟩
      · exact ⟨m :: path, s, n, .step h1 h2, h3, h4⟩
    · rintro ⟨path, s, n, h1, h2, h3⟩
      cases h1 with
      | here =>
        rcases h2 with h2 | ⟨h2, h4⟩
        · exact .inl (List.mem_map.2 ⟨(n, x), h2, by rw [h3]; rfl⟩)
        · exact .inr (.inl (List.mem_map.2 ⟨(n, x), List.mem_filter.2 ⟨h2, by simpa [Tree.id] using h4⟩, by rw [h3]; rfl⟩))
      | step hs hr => exact .inr (.inr ⟨_, _, _, s, n, hs, hr, h2, h3⟩)

theorem mem_stateDictAll (st : St D) (np : Nat → String → Bool) : ∀ (cs : Children) (pre key : String) (x : Nat),
    (key, x) ∈ stateDictAll st np pre cs ↔ ∃ m c path s n, HasChild cs m c ∧ Leads c path s ∧
      ((n, x) ∈ st.params s.id ∨ ((n, x) ∈ st.buffers s.id ∧ np s.id n = false)) ∧
      key = pre ++ fullName (m :: path) n
  | .nil, pre, key, x => by
    rw [stateDictAll]
    refine ⟨fun h => (by cases h), ?_⟩
    rintro ⟨m, c, path, s, n, h1, -⟩
    cases h1
  | .missing m r, pre, key, x => by
    rw [stateDictAll]
    exact mem_stateDictAll st np r pre key x
  | .child m t r, pre, key, x => by
    rw [stateDictAll, List.mem_append, mem_stateDict st np t _ key x, mem_stateDictAll st np r pre key x]
    constructor
    · rintro (⟨path, s, n, h1, h2, h3⟩ | ⟨m', c, path, s, n, h1, h2⟩)
      · exact ⟨m, t, path, s, n, .inl ⟨rfl, rfl⟩, h1, h2, by rw [h3, fullName, String.append_assoc, String.append_assoc]⟩
      · exact ⟨m', c, path, s, n, .inr h1, h2⟩
    · rintro ⟨m', c, path, s, n, h1 | h1, h2, h3, h4⟩
      · obtain ⟨rfl, rfl⟩ := h1
        exact .inl ⟨path, s, n, h2, h3, by rw [h4, fullName, String.append_assoc, String.append_assoc]⟩
      · exact .inr ⟨m', c, path, s, n, h1, h2, h3, h4⟩

end

theorem append_left_cancel {a b c : String} (h : a ++ b = a ++ c) : b = c := by
  have := congrArg String.toList h
  rw [String.toList_append, String.toList_append] at this
  exact String.toList_injective (List.append_cancel_left this)

/-- What comes before the first dot. -/
theorem dot_split {a b c d : String} (ha : '.' ∉ a.toList) (hb : '.' ∉ b.toList) (h : a ++ ("." ++ c) = b ++ ("." ++ d)) :
    a = b ∧ c = d := by
  have h' := congrArg String.toList h
  simp only [String.toList_append] at h'
  rw [show ".".toList = ['.'] from rfl] at h'
  have key : ∀ (l m x y : List Char), '.' ∉ l → '.' ∉ m → l ++ '.' :: x = m ++ '.' :: y → l = m ∧ x = y := by
    intro l
    induction l with
    | nil =>
      intro m x y _ hm h
      cases m with
      | nil => simpa using h
      | cons z m =>
        simp only [List.nil_append, List.cons_append, List.cons.injEq] at h
        exact absurd (by rw [← h.1]; exact List.mem_cons_self) hm
    | cons z l ih =>
      intro m x y hl hm h
      cases m with
      | nil =>
        simp only [List.nil_append, List.cons_append, List.cons.injEq] at h
        exact absurd (by rw [h.1]; exact List.mem_cons_self) hl
      | cons w m =>
        simp only [List.cons_append, List.cons.injEq] at h
        obtain ⟨h1, h2⟩ := ih m x y (fun hh => hl (List.mem_cons_of_mem _ hh)) (fun hh => hm (List.mem_cons_of_mem _ hh)) h.2
        exact ⟨by rw [h.1, h1], h2⟩
  obtain ⟨h1, h2⟩ := key _ _ _ _ ha hb (by simpa using h')
  exact ⟨String.toList_injective h1, String.toList_injective h2⟩

theorem no_dot {n a c : String} (hn : '.' ∉ n.toList) : n ≠ a ++ ("." ++ c) := by
  intro h
  apply hn
  rw [h, String.toList_append, String.toList_append]
  exact List.mem_append_right _ (List.mem_append_left _ (by decide))

mutual

/-- Keys are distinct. -/
theorem stateDict_nodup (st : St D) (np : Nat → String → Bool) (root : Tree)
    (hn : ∀ i cs, .node i cs ∈ subs root →
      (((st.params i).map (·.1)) ++ ((st.buffers i).map (·.1)) ++ childNames cs).Nodup ∧
      ∀ n ∈ ((st.params i).map (·.1)) ++ ((st.buffers i).map (·.1)) ++ childNames cs, '.' ∉ n.toList) :
    ∀ (t : Tree) (pre : String), t ∈ subs root → ((stateDict st np pre t).map (·.1)).Nodup
  | .node i cs, pre, ht => by
    obtain ⟨h1, h2⟩ := hn i cs ht
    rw [List.append_assoc] at h1 h2
    obtain ⟨ha, hb, hab⟩ := List.nodup_append.1 h1
    obtain ⟨hc, hd, hcd⟩ := List.nodup_append.1 hb
    have hsub : ∀ s ∈ subsAll cs, s ∈ subs root :=
      fun s hs => subs_trans root _ s ht (by rw [subs]; exact List.mem_cons_of_mem _ hs)
    have hall := stateDictAll_nodup st np root hn cs pre hsub hd
      (fun n hn' => h2 n (List.mem_append_right _ (List.mem_append_right _ hn')))
    have own : ∀ l : List (String × Nat), (l.map (·.1)).Nodup →
        ((l.map fun s => (pre ++ s.1, s.2)).map (·.1)).Nodup := by
      intro l hl
      rw [List.map_map]
      rw [List.nodup_iff_pairwise_ne, List.pairwise_map] at hl ⊢
      exact hl.imp fun h he => h (append_left_cancel he)
    have hbuf : (((st.buffers i).filter fun s => !np i s.1).map (·.1)).Nodup :=
      ((List.filter_sublist (p := fun s => !np i s.1) (l := st.buffers i)).map (·.1)).nodup hc
    have child : ∀ k ∈ (stateDictAll st np pre cs).map (·.1), ∃ m ∈ childNames cs, ∃ z, k = pre ++ (m ++ ("." ++ z)) := by
      intro k hk
      obtain ⟨⟨k', x⟩, he, rfl⟩ := List.mem_map.1 hk
      obtain ⟨m, c, path, s, n, h1, h2, h3, h4⟩ := (mem_stateDictAll st np cs pre _ x).1 he
      exact ⟨m, hasChild_name cs m c h1, _, h4⟩
    rw [stateDict, List.map_append, List.map_append, List.nodup_append, List.nodup_append]
    refine ⟨own _ ha, ⟨own _ hbuf, hall, ?_⟩, ?_⟩
    · intro a ha' b hb' he
      subst he
      obtain ⟨m, hm, z, hz⟩ := child a hb'
      obtain ⟨⟨k', x⟩, he, rfl⟩ := List.mem_map.1 ha'
      obtain ⟨⟨n, y⟩, he', heq⟩ := List.mem_map.1 he
      cases heq
      refine no_dot ?_ (append_left_cancel hz)
      exact h2 n (List.mem_append_right _ (List.mem_append_left _
        (List.mem_map_of_mem (f := (·.1)) (List.mem_filter.1 he').1)))
    · intro a ha' b hb' he
      subst he
      obtain ⟨⟨k', x⟩, he, rfl⟩ := List.mem_map.1 ha'
      obtain ⟨⟨n, y⟩, he', heq⟩ := List.mem_map.1 he
      cases heq
      have hn' : n ∈ (st.params i).map (·.1) := List.mem_map_of_mem (f := (·.1)) he'
      rcases List.mem_append.1 hb' with hb' | hb'
      · obtain ⟨⟨k'', x'⟩, hf, heq⟩ := List.mem_map.1 hb'
        obtain ⟨⟨n', y'⟩, hf', heq'⟩ := List.mem_map.1 hf
        cases heq'
        have : n = n' := (append_left_cancel heq).symm
        exact hab n hn' n' (List.mem_append_left _ (List.mem_map_of_mem (f := (·.1)) (List.mem_filter.1 hf').1)) this
      · obtain ⟨m, hm, z, hz⟩ := child _ hb'
        exact no_dot (h2 n (List.mem_append_left _ hn')) (append_left_cancel hz)

theorem stateDictAll_nodup (st : St D) (np : Nat → String → Bool) (root : Tree)
    (hn : ∀ i cs, .node i cs ∈ subs root →
      (((st.params i).map (·.1)) ++ ((st.buffers i).map (·.1)) ++ childNames cs).Nodup ∧
      ∀ n ∈ ((st.params i).map (·.1)) ++ ((st.buffers i).map (·.1)) ++ childNames cs, '.' ∉ n.toList) :
    ∀ (cs : Children) (pre : String), (∀ s ∈ subsAll cs, s ∈ subs root) → (childNames cs).Nodup →
      (∀ n ∈ childNames cs, '.' ∉ n.toList) → ((stateDictAll st np pre cs).map (·.1)).Nodup
  | .nil, _, _, _, _ => by rw [stateDictAll]; exact List.nodup_nil
  | .missing m r, pre, hs, h1, h2 => by
    rw [stateDictAll]
    rw [childNames, List.nodup_cons] at h1
    exact stateDictAll_nodup st np root hn r pre (by rwa [subsAll] at hs) h1.2
      (fun n h => h2 n (List.mem_cons_of_mem _ h))
  | .child m t r, pre, hs, h1, h2 => by
    rw [childNames, List.nodup_cons] at h1
    rw [subsAll] at hs
    rw [stateDictAll, List.map_append, List.nodup_append]
    refine ⟨stateDict_nodup st np root hn t _ (hs t (List.mem_append_left _ (mem_subs_self t))),
      stateDictAll_nodup st np root hn r pre (fun s h => hs s (List.mem_append_right _ h)) h1.2
        (fun n h => h2 n (List.mem_cons_of_mem _ h)), ?_⟩
    intro a ha b hb he
    subst he
    obtain ⟨⟨k, x⟩, he, rfl⟩ := List.mem_map.1 ha
    obtain ⟨⟨k', x'⟩, he', heq⟩ := List.mem_map.1 hb
    cases heq
    obtain ⟨path, s, n, -, -, h5⟩ := (mem_stateDict st np t _ _ x).1 he
    obtain ⟨m', c', path', s', n', h6, -, -, h7⟩ := (mem_stateDictAll st np r pre _ x').1 he'
    rw [h5, fullName, String.append_assoc, String.append_assoc] at h7
    have hm' := hasChild_name r m' c' h6
    obtain ⟨h8, -⟩ := dot_split (h2 m List.mem_cons_self) (h2 m' (List.mem_cons_of_mem _ hm')) (append_left_cancel h7)
    exact h1.1 (h8 ▸ hm')

end

/-! ### The loop -/

theorem lookup_some {l : List (String × Nat)} (h : (l.map (·.1)).Nodup) (k : String) (x : Nat) :
    l.lookup k = some x ↔ (k, x) ∈ l := by
  induction l with
  | nil => simp
  | cons e l ih =>
    obtain ⟨k', x'⟩ := e
    rw [List.map_cons, List.nodup_cons] at h
    rw [List.lookup_cons]
    by_cases hk : k = k'
    · subst hk
      simp only [beq_self_eq_true, List.mem_cons, Prod.mk.injEq, true_and, Option.some.injEq]
      constructor
      · rintro rfl; exact .inl rfl
      · rintro (rfl | hm)
        · rfl
        · exact absurd (List.mem_map_of_mem (f := (·.1)) hm) h.1
    · rw [beq_false_of_ne hk]
      simp only [List.mem_cons, Prod.mk.injEq, hk, false_and, false_or]
      exact ih h.2

theorem lookup_none {l : List (String × Nat)} (k : String) :
    l.lookup k = none ↔ ∀ x, (k, x) ∉ l := by
  induction l with
  | nil => simp
  | cons e l ih =>
    obtain ⟨k', x'⟩ := e
    rw [List.lookup_cons]
    by_cases hk : k = k'
    · subst hk
      simp only [beq_self_eq_true]
      refine ⟨fun h => (by cases h), fun h => absurd List.mem_cons_self (h x')⟩
    · rw [beq_false_of_ne hk]
      simp only [List.mem_cons, Prod.mk.injEq, hk, false_and, false_or]
      exact ih

/-- Entry `i` is the first one with its key. -/
def FirstAt (ckpt : List (String × D)) (i : Nat) (key : String) (d : D) : Prop :=
  ckpt[i]? = some (key, d) ∧ ∀ (j : Nat) e, j < i → ckpt[j]? = some e → e.1 ≠ key

/-- Entry `i` is copied into tensor `x`. -/
def CopiedAt (c : Copying D) (st : St D) (sd : List (String × Nat)) (ckpt : List (String × D)) (i x : Nat) (d : D) : Prop :=
  ∃ key y, FirstAt ckpt i key d ∧ (key, x) ∈ sd ∧ st.tensors[x]? = some y ∧ c.shape d = c.shape y.data

/-- After `n` entries. -/
structure Inv (c : Copying D) (st : St D) (sd : List (String × Nat)) (ckpt : List (String × D)) (n : Nat)
    (a : Loading D) : Prop where
  left : a.left.Sublist sd
  left_mem : ∀ key x, (key, x) ∈ a.left ↔ (key, x) ∈ sd ∧ ∀ (j : Nat) e, j < n → ckpt[j]? = some e → e.1 ≠ key
  memo : ∀ x, x ∈ a.memo ↔ ∃ i d, i < n ∧ CopiedAt c st sd ckpt i x d
  unexpected : ∀ key, key ∈ a.unexpected ↔ ∃ i d, i < n ∧ ckpt[i]? = some (key, d) ∧
    ((∀ x, (key, x) ∉ sd) ∨ ∃ (j : Nat) (e : String × D), j < i ∧ ckpt[j]? = some e ∧ e.1 = key)
  shapes : ∀ key, key ∈ a.shapes ↔ ∃ (i : Nat) (d : D) (x : Nat) (y : Tn D), i < n ∧ FirstAt ckpt i key d ∧ (key, x) ∈ sd ∧
    st.tensors[x]? = some y ∧ c.shape d ≠ c.shape y.data
  params : a.st.params = st.params
  buffers : a.st.buffers = st.buffers
  length : a.st.tensors.length = st.tensors.length
  untouched : ∀ x, (∀ i d, i < n → ¬ CopiedAt c st sd ckpt i x d) → a.st.tensors[x]? = st.tensors[x]?
  alike : ∀ (x : Nat) (y : Tn D), st.tensors[x]? = some y → ∃ v, a.st.tensors[x]? = some { y with data := v } ∧
    c.shape v = c.shape y.data ∧ ∀ d, c.copy v d = c.copy y.data d
  copied : ∀ (i x : Nat) (y : Tn D) (d : D), i < n → CopiedAt c st sd ckpt i x d → st.tensors[x]? = some y →
    (∀ j d', i < j → j < n → ¬ CopiedAt c st sd ckpt j x d') →
    a.st.tensors[x]? = some { y with data := c.copy y.data d }

theorem loop_inv (c : Copying D) (hshape : ∀ a b, c.shape (c.copy a b) = c.shape a)
    (hcopy : ∀ a b d, c.copy (c.copy a b) d = c.copy a d) (st : St D) (sd : List (String × Nat))
    (hsd : (sd.map (·.1)).Nodup) (hin : ∀ e ∈ sd, e.2 < st.tensors.length) (ckpt : List (String × D)) :
    ∀ n, n ≤ ckpt.length → Inv c st sd ckpt n ((ckpt.take n).foldl (loadEntry c) ⟨st, sd, [], [], []⟩)
  | 0, _ => by
    refine ⟨List.Sublist.refl _, ?_, ?_, ?_, ?_, rfl, rfl, rfl, fun _ _ => rfl, ?_, ?_⟩
    · intro key x; simp
    · intro x; simp
    · intro key; simp
    · intro key; simp
    · intro x y hy; exact ⟨y.data, hy, rfl, fun _ => rfl⟩
    · intro i x y d hi; omega
  | n + 1, hn => by
    have ih := loop_inv c hshape hcopy st sd hsd hin ckpt n (by omega)
    have hlt : n < ckpt.length := by omega
    rw [List.take_succ_eq_append_getElem hlt, List.foldl_append]
    simp only [List.foldl_cons, List.foldl_nil]
    have hget : ckpt[n]? = some ckpt[n] := List.getElem?_eq_getElem hlt
    generalize ckpt[n] = e at hget
    obtain ⟨key, d⟩ := e
    generalize (ckpt.take n).foldl (loadEntry c) ⟨st, sd, [], [], []⟩ = a at ih
    have hnd : (a.left.map (·.1)).Nodup := (ih.left.map (·.1)).nodup hsd
    -- entries other than the last one
    have split : ∀ (P : Nat → Prop), (∃ i, i < n + 1 ∧ P i) ↔ (∃ i, i < n ∧ P i) ∨ P n := by
      intro P
      constructor
      · rintro ⟨i, hi, h⟩
        by_cases hh : i = n
        · exact .inr (hh ▸ h)
        · exact .inl ⟨i, by omega, h⟩
      · rintro (⟨i, hi, h⟩ | h)
        · exact ⟨i, by omega, h⟩
        · exact ⟨n, by omega, h⟩
    have all : ∀ key', (∀ (j : Nat) e, j < n + 1 → ckpt[j]? = some e → e.1 ≠ key') ↔
        (∀ (j : Nat) e, j < n → ckpt[j]? = some e → e.1 ≠ key') ∧ key ≠ key' := by
      intro key'
      constructor
      · intro h
        exact ⟨fun j e hj => h j e (by omega), h n _ (by omega) hget⟩
      · rintro ⟨h1, h2⟩ j e hj he
        by_cases hh : j = n
        · subst hh; rw [hget] at he; cases he; exact h2
        · exact h1 j e (by omega) he
    have first_n : ∀ key' d', FirstAt ckpt n key' d' ↔
        key' = key ∧ d' = d ∧ ∀ (j : Nat) e, j < n → ckpt[j]? = some e → e.1 ≠ key := by
      intro key' d'
      unfold FirstAt
      rw [hget]
      constructor
      · rintro ⟨h1, h2⟩; cases h1; exact ⟨rfl, rfl, h2⟩
      · rintro ⟨rfl, rfl, h⟩; exact ⟨rfl, h⟩
    unfold loadEntry
    simp only
    cases hl : a.left.lookup key with
    | none =>
      have hno := (lookup_none key).1 hl
      -- the last entry is not copied
      have hnc : ∀ x d', ¬ CopiedAt c st sd ckpt n x d' := by
        rintro x d' ⟨key', y, h1, h2, -⟩
        obtain ⟨rfl, rfl, h3⟩ := (first_n key' d').1 h1
        exact hno x ((ih.left_mem key' x).2 ⟨h2, h3⟩)
      refine ⟨ih.left, ?_, ?_, ?_, ?_, ih.params, ih.buffers, ih.length, ?_, ih.alike, ?_⟩
      · intro key' x
        rw [all key', ih.left_mem key' x]
        constructor
        · rintro ⟨h1, h2⟩
          refine ⟨h1, h2, ?_⟩
          rintro rfl
          exact hno x ((ih.left_mem key x).2 ⟨h1, h2⟩)
        · rintro ⟨h1, h2, -⟩; exact ⟨h1, h2⟩
      · intro x
        rw [ih.memo x]
        constructor
        · rintro ⟨i, d', hi, h⟩; exact ⟨i, d', by omega, h⟩
        · rintro ⟨i, d', hi, h⟩
          by_cases hh : i = n
          · subst hh; exact absurd h (hnc x d')
          · exact ⟨i, d', by omega, h⟩
      · intro key'
        rw [List.mem_append, ih.unexpected key', List.mem_singleton]
        constructor
        · rintro (⟨i, d', hi, h⟩ | rfl)
          · exact ⟨i, d', by omega, h⟩
          · refine ⟨n, d, by omega, hget, ?_⟩
            refine Classical.byContradiction fun hc => ?_
            rw [not_or] at hc
            obtain ⟨h1, h2⟩ := hc
            refine h1 fun x hx => hno x ((ih.left_mem key' x).2 ⟨hx, ?_⟩)
            intro j e hj he heq
            exact h2 ⟨j, e, hj, he, heq⟩
        · rintro ⟨i, d', hi, h⟩
          by_cases hh : i = n
          · subst hh
            rw [hget] at h
            obtain ⟨h1, -⟩ := h
            cases h1
            exact .inr rfl
          · exact .inl ⟨i, d', by omega, h⟩
      · intro key'
        rw [ih.shapes key']
        constructor
        · rintro ⟨i, d', x, y, hi, h⟩; exact ⟨i, d', x, y, by omega, h⟩
        · rintro ⟨i, d', x, y, hi, h1, h2, h3⟩
          by_cases hh : i = n
          · subst hh
            obtain ⟨rfl, rfl, h4⟩ := (first_n key' d').1 h1
            exact absurd ((ih.left_mem key' x).2 ⟨h2, h4⟩) (hno x)
          · exact ⟨i, d', x, y, by omega, h1, h2, h3⟩
      · intro x h
        exact ih.untouched x fun i d' hi => h i d' (by omega)
      · intro i x y d' hi h1 h2 h3
        by_cases hh : i = n
        · subst hh; exact absurd h1 (hnc x d')
        · exact ih.copied i x y d' (by omega) h1 h2 fun j d'' hj hj' => h3 j d'' hj (by omega)
    | some t =>
      simp only
      have hmem := (lookup_some hnd key t).1 hl
      obtain ⟨hkt, hfirst⟩ := (ih.left_mem key t).1 hmem
      have hfn : FirstAt ckpt n key d := (first_n key d).2 ⟨rfl, rfl, hfirst⟩
      have huniq : ∀ x, (key, x) ∈ sd → x = t := by
        intro x hx
        have h1 := (lookup_some hsd key x).2 hx
        have h2 := (lookup_some hsd key t).2 hkt
        rw [h1] at h2
        exact Option.some.inj h2
      have hlen : t < st.tensors.length := hin (key, t) hkt
      obtain ⟨y, hy⟩ : ∃ y, st.tensors[t]? = some y := ⟨_, List.getElem?_eq_getElem hlen⟩
      obtain ⟨v, hv1, hv2, hv3⟩ := ih.alike t y hy
      rw [hv1]
      simp only
      have hleft : (a.left.filter fun s => !(s.1 == key)).Sublist sd := List.filter_sublist.trans ih.left
      have hleft_mem : ∀ key' x, (key', x) ∈ a.left.filter (fun s => !(s.1 == key)) ↔
          (key', x) ∈ sd ∧ ∀ (j : Nat) e, j < n + 1 → ckpt[j]? = some e → e.1 ≠ key' := by
        intro key' x
        rw [List.mem_filter, all key', ih.left_mem key' x]
        constructor
        · rintro ⟨⟨h1, h2⟩, h3⟩
          refine ⟨h1, h2, ?_⟩
          rintro rfl
          simp at h3
        · rintro ⟨h1, h2, h3⟩
          exact ⟨⟨h1, h2⟩, by simpa using Ne.symm h3⟩
      have hunexp : ∀ key', key' ∈ a.unexpected ↔ ∃ i d', i < n + 1 ∧ ckpt[i]? = some (key', d') ∧
          ((∀ x, (key', x) ∉ sd) ∨ ∃ (j : Nat) (e : String × D), j < i ∧ ckpt[j]? = some e ∧ e.1 = key') := by
        intro key'
        rw [ih.unexpected key']
        constructor
        · rintro ⟨i, d', hi, h⟩; exact ⟨i, d', by omega, h⟩
        · rintro ⟨i, d', hi, h1, h2⟩
          by_cases hh : i = n
          · subst hh
            rw [hget] at h1
            cases h1
            rcases h2 with h2 | ⟨j, e, hj, he, heq⟩
            · exact absurd hkt (h2 t)
            · exact absurd heq (hfirst j e hj he)
          · exact ⟨i, d', by omega, h1, h2⟩
      split
      · rename_i hne
        have hne' : c.shape d ≠ c.shape y.data := by rw [← hv2]; exact hne
        have hnc : ∀ x d', ¬ CopiedAt c st sd ckpt n x d' := by
          rintro x d' ⟨key', y', h1, h2, h3, h4⟩
          obtain ⟨rfl, rfl, -⟩ := (first_n key' d').1 h1
          obtain rfl := huniq x h2
          rw [hy] at h3
          cases h3
          exact hne' h4
        refine ⟨hleft, hleft_mem, ?_, hunexp, ?_, ih.params, ih.buffers, ih.length, ?_, ih.alike, ?_⟩
        · intro x
          rw [ih.memo x]
          constructor
          · rintro ⟨i, d', hi, h⟩; exact ⟨i, d', by omega, h⟩
          · rintro ⟨i, d', hi, h⟩
            by_cases hh : i = n
            · subst hh; exact absurd h (hnc x d')
            · exact ⟨i, d', by omega, h⟩
        · intro key'
          rw [List.mem_append, ih.shapes key', List.mem_singleton]
          constructor
          · rintro (⟨i, d', x, y, hi, h⟩ | rfl)
            · exact ⟨i, d', x, y, by omega, h⟩
            · exact ⟨n, d, t, y, by omega, hfn, hkt, hy, hne'⟩
          · rintro ⟨i, d', x, y', hi, h1, h2⟩
            by_cases hh : i = n
            · subst hh
              exact .inr ((first_n key' d').1 h1).1
            · exact .inl ⟨i, d', x, y', by omega, h1, h2⟩
        · intro x h
          exact ih.untouched x fun i d' hi => h i d' (by omega)
        · intro i x y d' hi h1 h2 h3
          by_cases hh : i = n
          · subst hh; exact absurd h1 (hnc x d')
          · exact ih.copied i x y d' (by omega) h1 h2 fun j d'' hj hj' => h3 j d'' hj (by omega)
      · rename_i heq
        have heq' : c.shape d = c.shape y.data := by rw [← hv2]; exact Classical.not_not.1 heq
        have hcn : CopiedAt c st sd ckpt n t d := ⟨key, y, hfn, hkt, hy, heq'⟩
        have hcn' : ∀ x d', CopiedAt c st sd ckpt n x d' → x = t ∧ d' = d := by
          rintro x d' ⟨key', y', h1, h2, -⟩
          obtain ⟨rfl, rfl, -⟩ := (first_n key' d').1 h1
          exact ⟨huniq x h2, rfl⟩
        have hmod : ∀ x, (copyInto c t d a.st).tensors[x]? =
            if t = x then some { y with data := c.copy y.data d } else a.st.tensors[x]? := by
          intro x
          unfold copyInto
          rw [List.getElem?_modify]
          by_cases hx : t = x
          · subst hx
            rw [if_pos rfl, hv1]
            simp [hv3 d]
          · rw [if_neg hx]
            simp [hx]
        refine ⟨hleft, hleft_mem, ?_, hunexp, ?_, ih.params, ih.buffers, ?_, ?_, ?_, ?_⟩
        · intro x
          rw [List.mem_cons, ih.memo x]
          constructor
          · rintro (rfl | ⟨i, d', hi, h⟩)
            · exact ⟨n, d, by omega, hcn⟩
            · exact ⟨i, d', by omega, h⟩
          · rintro ⟨i, d', hi, h⟩
            by_cases hh : i = n
            · subst hh; exact .inl (hcn' x d' h).1
            · exact .inr ⟨i, d', by omega, h⟩
        · intro key'
          rw [ih.shapes key']
          constructor
          · rintro ⟨i, d', x, y, hi, h⟩; exact ⟨i, d', x, y, by omega, h⟩
          · rintro ⟨i, d', x, y', hi, h1, h2, h3, h4⟩
            by_cases hh : i = n
            · subst hh
              obtain ⟨rfl, rfl, -⟩ := (first_n key' d').1 h1
              obtain rfl := huniq x h2
              rw [hy] at h3
              cases h3
              exact absurd heq' h4
            · exact ⟨i, d', x, y', by omega, h1, h2, h3, h4⟩
        · show (a.st.tensors.modify t _).length = _
          rw [List.length_modify]
          exact ih.length
        · intro x h
          rw [hmod x, if_neg]
          · exact ih.untouched x fun i d' hi => h i d' (by omega)
          · rintro rfl
            exact h n d (by omega) hcn
        · intro x y' hy'
          rw [hmod x]
          by_cases hx : t = x
          · subst hx
            rw [hy] at hy'
            cases hy'
            exact ⟨_, by rw [if_pos rfl], hshape _ _, hcopy _ _⟩
          · rw [if_neg hx]
            exact ih.alike x y' hy'
        · intro i x y' d' hi h1 h2 h3
          rw [hmod x]
          by_cases hh : i = n
          · subst hh
            obtain ⟨rfl, rfl⟩ := hcn' x d' h1
            rw [if_pos rfl]
            rw [hy] at h2
            cases h2
            rfl
          · have hne : t ≠ x := by
              rintro rfl
              exact h3 n d (by omega) (by omega) hcn
            rw [if_neg hne]
            exact ih.copied i x y' d' (by omega) h1 h2 fun j d'' hj hj' => h3 j d'' hj (by omega)

end Fs2.Mod
