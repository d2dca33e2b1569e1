import Verif.Models.SetStateLemmas
import Verif.Props.Modules

/-!
# C88: Loading a checkpoint into a model

A checkpoint is a list of names and tensors. Loading is to put every tensor of the checkpoint in its place, to leave
nothing as it was initialized without saying so, and to name what does not fit.
-/

namespace Fs2.Props

open Fs2.Mod

variable {D : Type}

/-- `key` is a name of the parameter or persistent buffer `x`: a path to a module and a name in it, joined with dots
(`fullName`). -/
def NamedAs (st : St D) (nonPersistent : Nat → String → Bool) (t : Tree) (key : String) (x : Nat) : Prop :=
  ∃ path s n, Leads t path s ∧
    ((n, x) ∈ st.params s.id ∨ ((n, x) ∈ st.buffers s.id ∧ nonPersistent s.id n = false)) ∧ key = fullName path n

/-- What PyTorch sees to: in a module the names are distinct and contain no dots, and there are tensors in the slots. -/
structure GoodNames (st : St D) (t : Tree) : Prop where
  distinct : ∀ i cs, .node i cs ∈ subs t →
    ((st.params i).map (·.1) ++ (st.buffers i).map (·.1) ++ childNames cs).Nodup
  dots : ∀ i cs, .node i cs ∈ subs t →
    ∀ n ∈ (st.params i).map (·.1) ++ (st.buffers i).map (·.1) ++ childNames cs, '.' ∉ n.toList
  tensors : ∀ i cs, .node i cs ∈ subs t → ∀ s ∈ st.params i ++ st.buffers i, s.2 < st.tensors.length

/-- What is known of `copy_`: it does not change the shape, and what was there before does not matter. -/
structure GoodCopy (c : Copying D) : Prop where
  shape : ∀ a b, c.shape (c.copy a b) = c.shape a
  again : ∀ a b d, c.copy (c.copy a b) d = c.copy a d

/-- A tensor of the checkpoint has the shape of a tensor of the model. -/
def Fits (c : Copying D) (st : St D) (x : Nat) (d : D) : Prop :=
  ∃ y, st.tensors[x]? = some y ∧ c.shape d = c.shape y.data

/-- Entry `i` of the checkpoint is the first one with its name, which is a name of `x`, and it fits. -/
def Taken (c : Copying D) (st : St D) (nonPersistent : Nat → String → Bool) (t : Tree) (ckpt : List (String × D))
    (i x : Nat) (d : D) : Prop :=
  ∃ key, FirstAt ckpt i key d ∧ NamedAs st nonPersistent t key x ∧ Fits c st x d

private theorem named_iff (st : St D) (np : Nat → String → Bool) (t : Tree) (key : String) (x : Nat) :
    (key, x) ∈ stateDict st np "" t ↔ NamedAs st np t key x := by
  rw [mem_stateDict]
  unfold NamedAs
  simp only [String.empty_append]

private theorem leads_sub {t s : Tree} {path : List String} (h : Leads t path s) : s ∈ subs t := by
  have child : ∀ (cs : Children) n c, HasChild cs n c → c ∈ subsAll cs := by
    intro cs
    induction cs using Children.rec (motive_1 := fun _ => True) with
    | node => trivial
    | nil => intro n c h; cases h
    | missing m r ih => intro n c h; rw [subsAll]; exact ih n c h
    | child m u r _ ih =>
      intro n c h
      rw [subsAll]
      rcases h with ⟨-, rfl⟩ | h
      · exact List.mem_append_left _ (mem_subs_self _)
      · exact List.mem_append_right _ (ih n c h)
  induction h with
  | here t => exact mem_subs_self t
  | step hs _ ih => rw [subs]; exact List.mem_cons_of_mem _ (subsAll_trans _ _ _ (child _ _ _ hs) ih)

private theorem taken_iff (c : Copying D) (st : St D) (np : Nat → String → Bool) (t : Tree) (ckpt : List (String × D))
    (i x : Nat) (d : D) :
    CopiedAt c st (stateDict st np "" t) ckpt i x d ↔ Taken c st np t ckpt i x d := by
  unfold CopiedAt Taken Fits
  simp only [named_iff]
  constructor
  · rintro ⟨key, y, h1, h2, h3, h4⟩; exact ⟨key, h1, h2, y, h3, h4⟩
  · rintro ⟨key, h1, h2, y, h3, h4⟩; exact ⟨key, y, h1, h2, h3, h4⟩

private theorem final (c : Copying D) (hc : GoodCopy c) (np : Nat → String → Bool) (t : Tree) (st : St D)
    (hn : GoodNames st t) (ckpt : List (String × D)) :
    ∃ a : Loading D, Inv c st (stateDict st np "" t) ckpt ckpt.length a ∧
      setModelState c np t ckpt st =
        (if a.shapes = [] ∧ (a.left.filter fun s => decide (s.2 ∉ a.memo)).map (·.1) = [] ∧ a.unexpected = [] then .ok ()
         else .error ⟨a.shapes, (a.left.filter fun s => decide (s.2 ∉ a.memo)).map (·.1), a.unexpected⟩, a.st) := by
  have hnd := stateDict_nodup st np t (fun i cs h => ⟨hn.distinct i cs h, hn.dots i cs h⟩) t "" (mem_subs_self t)
  have hin : ∀ e ∈ stateDict st np "" t, e.2 < st.tensors.length := by
    rintro ⟨key, x⟩ he
    obtain ⟨path, s, n, h1, h2, -⟩ := (named_iff st np t key x).1 he
    have hs := leads_sub h1
    cases s with
    | node i cs =>
      refine hn.tensors i cs hs (n, x) ?_
      rcases h2 with h2 | h2
      · exact List.mem_append_left _ h2
      · exact List.mem_append_right _ h2.1
  have h := loop_inv c hc.shape hc.again st _ hnd hin ckpt ckpt.length (Nat.le_refl _)
  rw [List.take_length] at h
  refine ⟨_, h, ?_⟩
  unfold setModelState
  simp only
  split <;> rfl

/-- **What is reported.** If the checkpoint does not fit, the error names exactly
* the keys whose (first) tensor has another shape than the model's,
* the names of tensors of the model that got no value, except those that have the wrong shape in the checkpoint, and
* the keys that are not names of anything in the model, or that occurred before. -/
theorem C88_report (c : Copying D) (hc : GoodCopy c) (nonPersistent : Nat → String → Bool) (t : Tree) (st : St D)
    (hn : GoodNames st t) (ckpt : List (String × D)) (m : Mismatch)
    (h : (setModelState c nonPersistent t ckpt st).1 = .error m) (key : String) :
    (key ∈ m.shapes ↔ ∃ i d x, FirstAt ckpt i key d ∧ NamedAs st nonPersistent t key x ∧ ¬ Fits c st x d) ∧
    (key ∈ m.missing ↔ key ∉ ckpt.map (·.1) ∧ ∃ x, NamedAs st nonPersistent t key x ∧
      ∀ i d, ¬ Taken c st nonPersistent t ckpt i x d) ∧
    (key ∈ m.unexpected ↔ ∃ (i : Nat) (d : D), ckpt[i]? = some (key, d) ∧ ((∀ x, ¬ NamedAs st nonPersistent t key x) ∨
      ∃ (j : Nat) (e : String × D), j < i ∧ ckpt[j]? = some e ∧ e.1 = key)) ∧
    (m.shapes ≠ [] ∨ m.missing ≠ [] ∨ m.unexpected ≠ []) := by
  obtain ⟨a, ha, he⟩ := final c hc nonPersistent t st hn ckpt
  rw [he] at h
  split at h
  · cases h
  · rename_i hne
    cases h
    have lt : ∀ (i : Nat) e, ckpt[i]? = some e → i < ckpt.length := fun i e h => (List.getElem?_eq_some_iff.1 h).1
    refine ⟨?_, ?_, ?_, ?_⟩
    · rw [ha.shapes key]
      constructor
      · rintro ⟨i, d, x, y, -, h1, h2, h3, h4⟩
        refine ⟨i, d, x, h1, (named_iff ..).1 h2, ?_⟩
        rintro ⟨y', h5, h6⟩
        rw [h3] at h5
        cases h5
        exact h4 h6
      · rintro ⟨i, d, x, h1, h2, h3⟩
        have h2' := (named_iff ..).2 h2
        obtain ⟨path, s, n, h4, h5, -⟩ := h2
        have hs := leads_sub h4
        cases s with
        | node k cs =>
          have hx : x < st.tensors.length := by
            refine hn.tensors k cs hs (n, x) ?_
            rcases h5 with h5 | h5
            · exact List.mem_append_left _ h5
            · exact List.mem_append_right _ h5.1
          refine ⟨i, d, x, _, lt i _ h1.1, h1, h2', List.getElem?_eq_getElem hx, ?_⟩
          intro h6
          exact h3 ⟨_, List.getElem?_eq_getElem hx, h6⟩
    · show key ∈ (a.left.filter fun s => decide (s.2 ∉ a.memo)).map (·.1) ↔ _
      rw [List.mem_map]
      constructor
      · rintro ⟨⟨k, x⟩, h1, rfl⟩
        rw [List.mem_filter, ha.left_mem, named_iff] at h1
        obtain ⟨⟨h2, h3⟩, h4⟩ := h1
        have h4 := of_decide_eq_true h4
        rw [ha.memo x] at h4
        refine ⟨?_, x, h2, ?_⟩
        · intro hk
          obtain ⟨e, h5, h6⟩ := List.mem_map.1 hk
          obtain ⟨j, hj⟩ := List.mem_iff_getElem?.1 h5
          exact h3 j e (lt j e hj) hj h6
        · intro i d hd
          have hd' := (taken_iff ..).2 hd
          obtain ⟨k', h7, -⟩ := hd
          exact h4 ⟨i, d, lt i _ h7.1, hd'⟩
      · rintro ⟨h1, x, h2, h3⟩
        refine ⟨(key, x), ?_, rfl⟩
        rw [List.mem_filter, ha.left_mem, named_iff]
        refine ⟨⟨h2, ?_⟩, ?_⟩
        · intro j e _ he heq
          exact h1 (List.mem_map.2 ⟨e, List.mem_of_getElem? he, heq⟩)
        · refine decide_eq_true ?_
          show x ∉ a.memo
          rw [ha.memo x]
          rintro ⟨i, d, -, hd⟩
          exact h3 i d ((taken_iff ..).1 hd)
    · rw [ha.unexpected key]
      simp only [named_iff]
      constructor
      · rintro ⟨i, d, -, h⟩; exact ⟨i, d, h⟩
      · rintro ⟨i, d, h⟩; exact ⟨i, d, lt i _ h.1, h⟩
    · simp only at hne ⊢
      by_cases h1 : a.shapes = []
      · by_cases h2 : (a.left.filter fun s => decide (s.2 ∉ a.memo)).map (·.1) = []
        · exact .inr (.inr fun h3 => hne ⟨h1, h2, h3⟩)
        · exact .inr (.inl h2)
      · exact .inl h1

/-- **When it is accepted.** No key occurs twice, each is a name of a tensor of the model with the same shape, and every
tensor of the model has one of its names in the checkpoint. -/
theorem C88_accepts (c : Copying D) (hc : GoodCopy c) (nonPersistent : Nat → String → Bool) (t : Tree) (st : St D)
    (hn : GoodNames st t) (ckpt : List (String × D)) :
    (setModelState c nonPersistent t ckpt st).1 = .ok () ↔
      (ckpt.map (·.1)).Nodup ∧
      (∀ e ∈ ckpt, ∃ x, NamedAs st nonPersistent t e.1 x ∧ Fits c st x e.2) ∧
      ∀ key x, NamedAs st nonPersistent t key x → ∃ e ∈ ckpt, NamedAs st nonPersistent t e.1 x := by
  have lt : ∀ (i : Nat) e, ckpt[i]? = some e → i < ckpt.length := fun i e h => (List.getElem?_eq_some_iff.1 h).1
  obtain ⟨a, ha, he⟩ := final c hc nonPersistent t st hn ckpt
  have hu : ∀ key x x', NamedAs st nonPersistent t key x → NamedAs st nonPersistent t key x' → x = x' := by
    intro key x x' h h'
    have hnd := stateDict_nodup st nonPersistent t (fun i cs h => ⟨hn.distinct i cs h, hn.dots i cs h⟩) t "" (mem_subs_self t)
    have h1 := (lookup_some hnd key x).2 ((named_iff ..).2 h)
    have h2 := (lookup_some hnd key x').2 ((named_iff ..).2 h')
    rw [h1] at h2
    exact Option.some.inj h2
  -- the first entry with the key of an entry
  have hfirst : ∀ (i : Nat) key d, ckpt[i]? = some (key, d) → ∃ j d', j ≤ i ∧ FirstAt ckpt j key d' := by
    intro i
    induction i using Nat.strongRecOn with
    | ind i ih =>
      intro key d h
      by_cases hh : ∃ (j : Nat) (e : String × D), j < i ∧ ckpt[j]? = some e ∧ e.1 = key
      · obtain ⟨j, ⟨k, d'⟩, hj, he, heq⟩ := hh
        cases heq
        obtain ⟨j', d'', h1, h2⟩ := ih j hj _ d' he
        exact ⟨j', d'', by omega, h2⟩
      · exact ⟨i, d, Nat.le_refl _, h, fun j e hj he heq => hh ⟨j, e, hj, he, heq⟩⟩
  rw [he]
  constructor
  · intro h
    simp only at h
    split at h
    · rename_i hz
      obtain ⟨h1, h2, h3⟩ := hz
      have h1' : ∀ key, key ∉ a.shapes := fun key hk => by rw [h1] at hk; cases hk
      have h3' : ∀ key, key ∉ a.unexpected := fun key hk => by rw [h3] at hk; cases hk
      have huniq : ∀ (i : Nat) (key : String) (d : D), ckpt[i]? = some (key, d) → FirstAt ckpt i key d := by
        intro i key d h
        refine ⟨h, fun j e hj he heq => h3' key ((ha.unexpected key).2 ?_)⟩
        exact ⟨i, d, lt i _ h, h, .inr ⟨j, e, hj, he, heq⟩⟩
      have hfit : ∀ e ∈ ckpt, ∃ x, NamedAs st nonPersistent t e.1 x ∧ Fits c st x e.2 := by
        rintro ⟨key, d⟩ hm
        obtain ⟨i, hi⟩ := List.mem_iff_getElem?.1 hm
        have hx : ∃ x, (key, x) ∈ stateDict st nonPersistent "" t := by
          refine Classical.byContradiction fun hno => h3' key ((ha.unexpected key).2 ?_)
          exact ⟨i, d, lt i _ hi, hi, .inl fun x hx => hno ⟨x, hx⟩⟩
        obtain ⟨x, hx⟩ := hx
        refine ⟨x, (named_iff ..).1 hx, ?_⟩
        refine Classical.byContradiction fun hno => h1' key ((ha.shapes key).2 ?_)
        have hx' := (named_iff ..).1 hx
        obtain ⟨path, s, n, h4, h5, -⟩ := hx'
        have hs := leads_sub h4
        cases s with
        | node k cs =>
          have hxl : x < st.tensors.length := by
            refine hn.tensors k cs hs (n, x) ?_
            rcases h5 with h5 | h5
            · exact List.mem_append_left _ h5
            · exact List.mem_append_right _ h5.1
          refine ⟨i, d, x, _, lt i _ hi, huniq i key d hi, hx, List.getElem?_eq_getElem hxl, ?_⟩
          intro h6
          exact hno ⟨_, List.getElem?_eq_getElem hxl, h6⟩
      refine ⟨?_, hfit, ?_⟩
      · rw [List.nodup_iff_pairwise_ne, List.pairwise_map, List.pairwise_iff_getElem]
        intro i j hi hj hij heq
        have h4 := huniq j ckpt[j].1 ckpt[j].2 (List.getElem?_eq_getElem hj)
        exact h4.2 i ckpt[i] hij (List.getElem?_eq_getElem hi) heq
      · intro key x hx
        refine Classical.byContradiction fun hno => ?_
        have : key ∈ (a.left.filter fun s => decide (s.2 ∉ a.memo)).map (·.1) := by
          refine List.mem_map.2 ⟨(key, x), List.mem_filter.2 ⟨(ha.left_mem key x).2 ⟨(named_iff ..).2 hx, ?_⟩, ?_⟩, rfl⟩
          · intro j e _ he heq
            exact hno ⟨e, List.mem_of_getElem? he, heq ▸ hx⟩
          · refine decide_eq_true ?_
            show x ∉ a.memo
            rw [ha.memo x]
            rintro ⟨i, d, -, key', y, h5, h6, -⟩
            exact hno ⟨(key', d), List.mem_of_getElem? h5.1, (named_iff ..).1 h6⟩
        rw [h2] at this
        cases this
    · cases h
  · rintro ⟨h1, h2, h3⟩
    simp only
    have hdup : ∀ (i j : Nat) e e', ckpt[i]? = some e → ckpt[j]? = some e' → j < i → e'.1 ≠ e.1 := by
      intro i j e e' hi hj hlt heq
      rw [List.nodup_iff_pairwise_ne, List.pairwise_map, List.pairwise_iff_getElem] at h1
      obtain ⟨hi', rfl⟩ := List.getElem?_eq_some_iff.1 hi
      obtain ⟨hj', rfl⟩ := List.getElem?_eq_some_iff.1 hj
      exact h1 j i hj' hi' hlt heq
    rw [if_pos]
    refine ⟨?_, ?_, ?_⟩
    · rw [List.eq_nil_iff_forall_not_mem]
      intro key hk
      obtain ⟨i, d, x, y, -, h4, h5, h6, h7⟩ := (ha.shapes key).1 hk
      obtain ⟨x', h8, y', h9, h10⟩ := h2 _ (List.mem_of_getElem? h4.1)
      obtain rfl := hu _ _ _ h8 ((named_iff ..).1 h5)
      rw [h6] at h9
      cases h9
      exact h7 h10
    · rw [List.eq_nil_iff_forall_not_mem]
      intro key hk
      obtain ⟨⟨k, x⟩, h4, rfl⟩ := List.mem_map.1 hk
      rw [List.mem_filter] at h4
      have h5 := of_decide_eq_true h4.2
      have h6 := (named_iff ..).1 ((ha.left_mem _ _).1 h4.1).1
      obtain ⟨⟨key', d⟩, h7, h8⟩ := h3 _ _ h6
      obtain ⟨x', h9, y, h10, h11⟩ := h2 _ h7
      obtain rfl := hu _ _ _ h8 h9
      obtain ⟨i, hi⟩ := List.mem_iff_getElem?.1 h7
      refine h5 ((ha.memo x).2 ⟨i, d, lt i _ hi, key', y, ⟨hi, ?_⟩, (named_iff ..).2 h8, h10, h11⟩)
      intro j e hj he
      exact hdup i j _ e hi he hj
    · rw [List.eq_nil_iff_forall_not_mem]
      intro key hk
      obtain ⟨i, d, -, h4, h5⟩ := (ha.unexpected key).1 hk
      obtain ⟨x, h6, -⟩ := h2 _ (List.mem_of_getElem? h4)
      rcases h5 with h5 | ⟨j, e, hj, he, heq⟩
      · exact h5 x ((named_iff ..).2 h6)
      · exact hdup i j _ e h4 he hj heq

/-- **What is in the model afterwards**, whether the checkpoint fits or not: a tensor has the value of the last entry that
was taken for it, and is as before without such an entry. Nothing else changes. -/
theorem C88_values (c : Copying D) (hc : GoodCopy c) (nonPersistent : Nat → String → Bool) (t : Tree) (st : St D)
    (hn : GoodNames st t) (ckpt : List (String × D)) :
    (∀ i x y d, Taken c st nonPersistent t ckpt i x d → st.tensors[x]? = some y →
      (∀ j d', i < j → ¬ Taken c st nonPersistent t ckpt j x d') →
      (setModelState c nonPersistent t ckpt st).2.tensors[x]? = some { y with data := c.copy y.data d }) ∧
    (∀ x, (∀ i d, ¬ Taken c st nonPersistent t ckpt i x d) →
      (setModelState c nonPersistent t ckpt st).2.tensors[x]? = st.tensors[x]?) ∧
    (setModelState c nonPersistent t ckpt st).2.params = st.params ∧
    (setModelState c nonPersistent t ckpt st).2.buffers = st.buffers ∧
    (setModelState c nonPersistent t ckpt st).2.tensors.length = st.tensors.length := by
  obtain ⟨a, ha, he⟩ := final c hc nonPersistent t st hn ckpt
  rw [he]
  refine ⟨?_, ?_, ha.params, ha.buffers, ha.length⟩
  · intro i x y d h1 h2 h3
    have hi : i < ckpt.length := by
      obtain ⟨key, h4, -⟩ := h1
      exact (List.getElem?_eq_some_iff.1 h4.1).1
    exact ha.copied i x y d hi ((taken_iff ..).2 h1) h2 fun j d' hj _ h => h3 j d' hj ((taken_iff ..).1 h)
  · intro x h
    exact ha.untouched x fun i d _ hd => h i d ((taken_iff ..).1 hd)

/-- Entries for the same tensor have the same value. -/
def TiesAgree (st : St D) (nonPersistent : Nat → String → Bool) (t : Tree) (ckpt : List (String × D)) : Prop :=
  ∀ e ∈ ckpt, ∀ e' ∈ ckpt, ∀ x, NamedAs st nonPersistent t e.1 x → NamedAs st nonPersistent t e'.1 x → e.2 = e'.2

/-- **A checkpoint that is accepted** is in the model: under each of its names the model has its tensor, and every
parameter and persistent buffer of the model got its value from the checkpoint. Missing for the full property: tied
tensors that differ in the checkpoint, see `C88_ties_negation`. -/
theorem C88_loaded_partial (c : Copying D) (hc : GoodCopy c) (nonPersistent : Nat → String → Bool) (t : Tree) (st : St D)
    (hn : GoodNames st t) (ckpt : List (String × D)) (hties : TiesAgree st nonPersistent t ckpt)
    (hok : (setModelState c nonPersistent t ckpt st).1 = .ok ()) :
    (∀ e ∈ ckpt, ∃ x y, NamedAs st nonPersistent t e.1 x ∧ st.tensors[x]? = some y ∧
      (setModelState c nonPersistent t ckpt st).2.tensors[x]? = some { y with data := c.copy y.data e.2 }) ∧
    (∀ key x, NamedAs st nonPersistent t key x → ∃ e ∈ ckpt, ∃ y, NamedAs st nonPersistent t e.1 x ∧
      st.tensors[x]? = some y ∧
      (setModelState c nonPersistent t ckpt st).2.tensors[x]? = some { y with data := c.copy y.data e.2 }) ∧
    (∀ x, (∀ key, ¬ NamedAs st nonPersistent t key x) →
      (setModelState c nonPersistent t ckpt st).2.tensors[x]? = st.tensors[x]?) := by
  obtain ⟨hnd, hfit, hall⟩ := (C88_accepts c hc nonPersistent t st hn ckpt).1 hok
  obtain ⟨hlast, hrest, -⟩ := C88_values c hc nonPersistent t st hn ckpt
  have hu : ∀ key x x', NamedAs st nonPersistent t key x → NamedAs st nonPersistent t key x' → x = x' := by
    intro key x x' h h'
    have hnd := stateDict_nodup st nonPersistent t (fun i cs h => ⟨hn.distinct i cs h, hn.dots i cs h⟩) t "" (mem_subs_self t)
    have h1 := (lookup_some hnd key x).2 ((named_iff ..).2 h)
    have h2 := (lookup_some hnd key x').2 ((named_iff ..).2 h')
    rw [h1] at h2
    exact Option.some.inj h2
  have main : ∀ e ∈ ckpt, ∀ x, NamedAs st nonPersistent t e.1 x → ∃ y, st.tensors[x]? = some y ∧
      (setModelState c nonPersistent t ckpt st).2.tensors[x]? = some { y with data := c.copy y.data e.2 } := by
    rintro ⟨key, d⟩ he x hx
    -- an entry for x, as late as possible
    have taken : ∀ (i : Nat) key' d', ckpt[i]? = some (key', d') → NamedAs st nonPersistent t key' x →
        Taken c st nonPersistent t ckpt i x d' := by
      intro i key' d' hi hx'
      refine ⟨key', ⟨hi, ?_⟩, hx', ?_⟩
      · intro j e' hj he' heq
        rw [List.nodup_iff_pairwise_ne, List.pairwise_map, List.pairwise_iff_getElem] at hnd
        obtain ⟨hi', hi2⟩ := List.getElem?_eq_some_iff.1 hi
        obtain ⟨hj', rfl⟩ := List.getElem?_eq_some_iff.1 he'
        exact hnd j i hj' hi' hj (by rw [hi2]; exact heq)
      · obtain ⟨x', h1, h2⟩ := hfit _ (List.mem_of_getElem? hi)
        obtain rfl := hu _ _ _ h1 hx'
        exact h2
    have last : ∀ n (i : Nat) d', ckpt.length - i ≤ n → Taken c st nonPersistent t ckpt i x d' →
        ∃ j d'', Taken c st nonPersistent t ckpt j x d'' ∧ ∀ k d3, j < k → ¬ Taken c st nonPersistent t ckpt k x d3 := by
      intro n
      induction n with
      | zero =>
        intro i d' hle ht
        obtain ⟨key', h4, -⟩ := ht
        have := (List.getElem?_eq_some_iff.1 h4.1).1
        omega
      | succ n ih =>
        intro i d' hle ht
        by_cases hh : ∃ k d3, i < k ∧ Taken c st nonPersistent t ckpt k x d3
        · obtain ⟨k, d3, hk, hk'⟩ := hh
          exact ih k d3 (by omega) hk'
        · exact ⟨i, d', ht, fun k d3 hk hk' => hh ⟨k, d3, hk, hk'⟩⟩
    obtain ⟨i, hi⟩ := List.mem_iff_getElem?.1 he
    obtain ⟨j, d'', h1, h2⟩ := last _ i d (Nat.le_refl _) (taken i key d hi hx)
    have h1' := h1
    obtain ⟨key', h3, h4, y, h5, -⟩ := h1'
    obtain rfl : d'' = d := hties (key', d'') (List.mem_of_getElem? h3.1) (key, d) he x h4 hx
    exact ⟨y, h5, hlast j x y d'' h1 h5 fun k d3 hk => h2 k d3 hk⟩
  refine ⟨?_, ?_, ?_⟩
  · intro e he
    obtain ⟨x, hx, -⟩ := hfit e he
    obtain ⟨y, h1, h2⟩ := main e he x hx
    exact ⟨x, y, hx, h1, h2⟩
  · intro key x hx
    obtain ⟨e, he, hx'⟩ := hall key x hx
    obtain ⟨y, h1, h2⟩ := main e he x hx'
    exact ⟨e, he, y, hx', h1, h2⟩
  · intro x hx
    refine hrest x ?_
    rintro i d ⟨key, -, h, -⟩
    exact hx key h

/-- **The order of the entries does not matter** for what is in the model, if tied tensors agree. -/
theorem C88_order_partial (c : Copying D) (hc : GoodCopy c) (nonPersistent : Nat → String → Bool) (t : Tree) (st : St D)
    (hn : GoodNames st t) (ckpt ckpt' : List (String × D)) (hperm : ckpt.Perm ckpt')
    (hties : TiesAgree st nonPersistent t ckpt) (hok : (setModelState c nonPersistent t ckpt st).1 = .ok ()) :
    setModelState c nonPersistent t ckpt' st = setModelState c nonPersistent t ckpt st := by
  have hok' : (setModelState c nonPersistent t ckpt' st).1 = .ok () := by
    rw [C88_accepts c hc nonPersistent t st hn] at hok ⊢
    obtain ⟨h1, h2, h3⟩ := hok
    refine ⟨(hperm.map (·.1)).nodup h1, fun e he => h2 e (hperm.mem_iff.2 he), ?_⟩
    intro key x hx
    obtain ⟨e, he, h⟩ := h3 key x hx
    exact ⟨e, hperm.mem_iff.1 he, h⟩
  have hties' : TiesAgree st nonPersistent t ckpt' :=
    fun e he e' he' => hties e (hperm.mem_iff.2 he) e' (hperm.mem_iff.2 he')
  obtain ⟨-, ha, hb⟩ := C88_loaded_partial c hc nonPersistent t st hn ckpt hties hok
  obtain ⟨-, ha', hb'⟩ := C88_loaded_partial c hc nonPersistent t st hn ckpt' hties' hok'
  obtain ⟨-, -, hp, hq, -⟩ := C88_values c hc nonPersistent t st hn ckpt
  obtain ⟨-, -, hp', hq', -⟩ := C88_values c hc nonPersistent t st hn ckpt'
  have htens : (setModelState c nonPersistent t ckpt' st).2.tensors = (setModelState c nonPersistent t ckpt st).2.tensors := by
    apply List.ext_getElem?
    intro x
    by_cases hx : ∃ key, NamedAs st nonPersistent t key x
    · obtain ⟨key, hx⟩ := hx
      obtain ⟨e, he, y, h1, h2, h3⟩ := ha key x hx
      obtain ⟨e', he', y', h1', h2', h3'⟩ := ha' key x hx
      rw [h3, h3']
      rw [h2] at h2'
      cases h2'
      rw [hties e he e' (hperm.mem_iff.2 he') x h1 h1']
    · have hx' : ∀ key, ¬ NamedAs st nonPersistent t key x := fun key h => hx ⟨key, h⟩
      rw [hb x hx', hb' x hx']
  revert hok hok' hp hq hp' hq' htens
  generalize setModelState c nonPersistent t ckpt' st = r'
  generalize setModelState c nonPersistent t ckpt st = r
  obtain ⟨r1, ⟨r2, r3, r4⟩⟩ := r
  obtain ⟨r1', ⟨r2', r3', r4'⟩⟩ := r'
  intros
  simp_all

/-! ### Examples -/

/-- An embedding that is tied to the output projection, which has a running mean and a cache. -/
private def tiedTree : Tree := .node 0 (.child "embed" (.node 1 .nil) (.missing "norm" (.child "proj" (.node 2 .nil) .nil)))

/-- Tensors are shapes with a number that stands for the contents. -/
private def tiedState : St (List Nat × Nat) where
  tensors := [⟨([3, 2], 0), none, true, true⟩, ⟨([2], 0), none, false, false⟩, ⟨([5], 9), none, false, false⟩]
  params := fun m => if m = 1 ∨ m = 2 then [("weight", 0)] else []
  buffers := fun m => if m = 2 then [("mean", 1), ("cache", 2)] else []

private def notCache : Nat → String → Bool := fun _ n => n == "cache"

private def shaped : Copying (List Nat × Nat) := ⟨fun d => d.1, fun a b => (a.1, b.2)⟩

private theorem good_copy : GoodCopy shaped := ⟨fun _ _ => rfl, fun _ _ _ => rfl⟩

private theorem tied_nodes (i : Nat) (cs : Children) (h : .node i cs ∈ subs tiedTree) :
    (i = 0 ∧ childNames cs = ["embed", "norm", "proj"]) ∨ (i = 1 ∧ childNames cs = []) ∨ (i = 2 ∧ childNames cs = []) := by
  simp only [tiedTree, subs, subsAll, List.append_nil, List.mem_cons, List.not_mem_nil, or_false, List.cons_append,
    List.nil_append] at h
  rcases h with h | h | h <;> cases h <;> simp [childNames]

private theorem tied_names : GoodNames tiedState tiedTree := by
  refine ⟨?_, ?_, ?_⟩
  · intro i cs h
    rcases tied_nodes i cs h with ⟨rfl, hk⟩ | ⟨rfl, hk⟩ | ⟨rfl, hk⟩ <;> rw [hk] <;> decide +kernel
  · intro i cs h
    rcases tied_nodes i cs h with ⟨rfl, hk⟩ | ⟨rfl, hk⟩ | ⟨rfl, hk⟩ <;> rw [hk] <;> decide +kernel
  · intro i cs h
    rcases tied_nodes i cs h with ⟨rfl, h⟩ | ⟨rfl, h⟩ | ⟨rfl, h⟩ <;> decide +kernel

/-- The tied weight is in the checkpoint once. -/
private def tiedCkpt : List (String × (List Nat × Nat)) := [("proj.mean", ([2], 7)), ("embed.weight", ([3, 2], 5))]

example : (setModelState shaped notCache tiedTree tiedCkpt tiedState).1 = .ok () ∧
    (setModelState shaped notCache tiedTree tiedCkpt tiedState).2.tensors.map (·.data) = [([3, 2], 5), ([2], 7), ([5], 9)] :=
  ⟨rfl, rfl⟩

/-- All that can go wrong at once. -/
private def badCkpt : List (String × (List Nat × Nat)) :=
  [("embed.weight", ([2, 3], 5)), ("norm.weight", ([2], 1)), ("proj.cache", ([5], 1))]

private def badReport : Mismatch := ⟨["embed.weight"], ["proj.weight", "proj.mean"], ["norm.weight", "proj.cache"]⟩

example : (setModelState shaped notCache tiedTree badCkpt tiedState).1 = .error badReport := rfl

example : ("proj.mean" ∈ badReport.missing ↔ "proj.mean" ∉ badCkpt.map (·.1) ∧ ∃ x, NamedAs tiedState notCache tiedTree "proj.mean" x ∧
    ∀ i d, ¬ Taken shaped tiedState notCache tiedTree badCkpt i x d) :=
  (C88_report shaped good_copy notCache tiedTree tiedState tied_names badCkpt badReport rfl "proj.mean").2.1

private theorem tied_unique (key : String) (x : Nat) (h : NamedAs tiedState notCache tiedTree key x) :
    (key, x) ∈ [("embed.weight", 0), ("proj.weight", 0), ("proj.mean", 1)] := by
  have := (named_iff ..).2 h
  exact this

private theorem tied_agree : TiesAgree tiedState notCache tiedTree tiedCkpt := by
  intro e he e' he' x h h'
  have h1 := tied_unique _ _ h
  have h2 := tied_unique _ _ h'
  simp only [tiedCkpt, List.mem_cons, List.not_mem_nil, or_false] at he he'
  rcases he with rfl | rfl <;> rcases he' with rfl | rfl
  · rfl
  · simp at h1 h2; omega
  · simp at h1 h2; omega
  · rfl

example : ∀ key x, NamedAs tiedState notCache tiedTree key x → ∃ e ∈ tiedCkpt, ∃ y, NamedAs tiedState notCache tiedTree e.1 x ∧
    tiedState.tensors[x]? = some y ∧ (setModelState shaped notCache tiedTree tiedCkpt tiedState).2.tensors[x]? =
      some { y with data := shaped.copy y.data e.2 } :=
  (C88_loaded_partial shaped good_copy notCache tiedTree tiedState tied_names tiedCkpt tied_agree rfl).2.1

example : setModelState shaped notCache tiedTree tiedCkpt.reverse tiedState =
    setModelState shaped notCache tiedTree tiedCkpt tiedState :=
  C88_order_partial shaped good_copy notCache tiedTree tiedState tied_names tiedCkpt _ tiedCkpt.reverse_perm.symm
    tied_agree rfl

/-- **Disagreement.** A checkpoint in which the two names of a tied tensor have different values is accepted; the model
has the one that comes last, and with another order of the entries it is another model. -/
theorem C88_ties_negation : ∃ ckpt ckpt' : List (String × (List Nat × Nat)), ckpt.Perm ckpt' ∧
    (setModelState shaped notCache tiedTree ckpt tiedState).1 = .ok () ∧
    (setModelState shaped notCache tiedTree ckpt' tiedState).1 = .ok () ∧
    (setModelState shaped notCache tiedTree ckpt tiedState).2.tensors.map (·.data) = [([3, 2], 6), ([2], 7), ([5], 9)] ∧
    (setModelState shaped notCache tiedTree ckpt' tiedState).2.tensors.map (·.data) = [([3, 2], 5), ([2], 7), ([5], 9)] := by
  refine ⟨[("proj.mean", ([2], 7)), ("embed.weight", ([3, 2], 5)), ("proj.weight", ([3, 2], 6))],
    [("proj.mean", ([2], 7)), ("proj.weight", ([3, 2], 6)), ("embed.weight", ([3, 2], 5))], ?_, rfl, rfl, rfl, rfl⟩
  exact .cons _ (.swap _ _ _)

/-- **Disagreement.** Loading is not all or nothing: a checkpoint that is refused has already overwritten the tensors that
fit. -/
theorem C88_refused_negation : ∃ (ckpt : List (String × (List Nat × Nat))) (m : Mismatch),
    (setModelState shaped notCache tiedTree ckpt tiedState).1 = .error m ∧
    tiedState.tensors.map (·.data) = [([3, 2], 0), ([2], 0), ([5], 9)] ∧
    (setModelState shaped notCache tiedTree ckpt tiedState).2.tensors.map (·.data) = [([3, 2], 5), ([2], 0), ([5], 9)] :=
  ⟨[("embed.weight", ([3, 2], 5))], ⟨[], ["proj.mean"], []⟩, rfl, rfl, rfl⟩

/-! ### All ranks -/

private theorem named_open {st : St D} {np : Nat → String → Bool} {t : Tree} {key : String} {x : Nat}
    (h : NamedAs st np t key x) : ToSend st np false [] t x := by
  obtain ⟨path, s, n, h1, h2, -⟩ := h
  refine ⟨s, ?_, ?_⟩
  · clear h2
    induction h1 with
    | here t => exact .here (by simp)
    | step hs _ ih => exact .step (by simp) hs ih
  · rcases h2 with h2 | ⟨h2, h3⟩
    · exact .inl (List.mem_map_of_mem (f := (·.2)) h2)
    · exact .inr ⟨n, h2, .inr h3⟩

/-- **All data parallel ranks get the checkpoint.** The processes have the same modules with the same tensors tied (`ρ r`
tells which tensor of rank `r` corresponds to a tensor of rank 0). If the checkpoint is accepted, then on every rank every
parameter and persistent buffer has the value that the checkpoint gives under one of its names. Missing for the full
property: tied tensors that differ in the checkpoint, see `C88_ties_negation`, and buffers that are persistent in one place
only, see `C85_broadcast_negation`. -/
theorem C88_ranks_partial (c : Copying D) (hc : GoodCopy c) (nonPersistent : Nat → String → Bool) (t : Tree)
    (ht : Consistent t) (sts : Nat → St D) (hn : GoodNames (sts 0) t) (ρ : Nat → Nat → Nat) (hρ0 : ∀ x, ρ 0 x = x)
    (hρ : ∀ r x y, ρ r x = ρ r y → x = y)
    (hslots : ∀ r, ∀ m ∈ ids t, (sts r).params m = ((sts 0).params m).map (fun s => (s.1, ρ r s.2)) ∧
      (sts r).buffers m = ((sts 0).buffers m).map fun s => (s.1, ρ r s.2))
    (hpers : SamePersistence (sts 0) nonPersistent t) (ckpt : List (String × D))
    (hties : TiesAgree (sts 0) nonPersistent t ckpt)
    (hok : (loadOnRanks c nonPersistent t ckpt sts).1 = .ok ()) (r : Nat) :
    ∀ key x z, NamedAs (sts 0) nonPersistent t key x → (sts r).tensors[ρ r x]? = some z →
      ∃ e ∈ ckpt, ∃ y, NamedAs (sts 0) nonPersistent t e.1 x ∧ (sts 0).tensors[x]? = some y ∧
        ((loadOnRanks c nonPersistent t ckpt sts).2 r).tensors[ρ r x]? = some { z with data := c.copy y.data e.2 } := by
  intro key x z hx hz
  have hok' : (setModelState c nonPersistent t ckpt (sts 0)).1 = .ok () := by
    unfold loadOnRanks at hok
    simp only at hok
    split at hok
    · assumption
    · cases hok
  obtain ⟨-, h1, -⟩ := C88_loaded_partial c hc nonPersistent t (sts 0) hn ckpt hties hok'
  obtain ⟨e, he, y, h2, h3, h4⟩ := h1 key x hx
  obtain ⟨-, -, hp, hb, -⟩ := C88_values c hc nonPersistent t (sts 0) hn ckpt
  refine ⟨e, he, y, h2, h3, ?_⟩
  unfold loadOnRanks
  simp only
  rw [hok']
  simp only
  let sts' : Nat → St D := fun k => if k = 0 then (setModelState c nonPersistent t ckpt (sts 0)).2 else sts k
  have h0 : sts' 0 = (setModelState c nonPersistent t ckpt (sts 0)).2 := if_pos rfl
  have hpar : ∀ k, (sts' k).params = (sts k).params ∧ (sts' k).buffers = (sts k).buffers := by
    intro k
    by_cases hk : k = 0
    · subst hk; rw [h0]; exact ⟨hp, hb⟩
    · have : sts' k = sts k := if_neg hk
      rw [this]; exact ⟨rfl, rfl⟩
  have hpers' : SamePersistence (sts' 0) nonPersistent t := by
    refine ⟨?_, ?_⟩
    · rw [(hpar 0).2]; exact hpers.buffers
    · rw [(hpar 0).1, (hpar 0).2]; exact hpers.params
  have hs' : ∀ r, ∀ m ∈ ids t, (sts' r).params m = ((sts' 0).params m).map (fun s => (s.1, ρ r s.2)) ∧
      (sts' r).buffers m = ((sts' 0).buffers m).map fun s => (s.1, ρ r s.2) := by
    intro r m hm
    rw [(hpar r).1, (hpar r).2, (hpar 0).1, (hpar 0).2]
    exact hslots r m hm
  have hsend : ToSend (sts' 0) nonPersistent false [] t x := by
    have := named_open hx
    unfold ToSend at this ⊢
    rw [(hpar 0).1, (hpar 0).2]
    exact this
  obtain ⟨h5, -⟩ := C85_broadcast_values_partial t ht sts' 0 ρ nonPersistent false [] hρ hs' hpers' r
  by_cases hr : r = 0
  · subst hr
    have hz' : (sts' 0).tensors[ρ 0 x]? = some { y with data := c.copy y.data e.2 } := by rw [h0, hρ0]; exact h4
    have h6 := h5 x _ _ hsend (by rw [h0]; exact h4) hz'
    rw [hρ0] at hz
    rw [h3] at hz
    cases hz
    exact h6
  · have hz' : (sts' r).tensors[ρ r x]? = some z := by
      have : sts' r = sts r := if_neg hr
      rw [this]; exact hz
    exact h5 x _ z hsend (by rw [h0]; exact h4) hz'

private theorem tied_consistent : Consistent tiedTree := by
  intro s hs s' hs' h
  simp only [tiedTree, subs, subsAll, List.append_nil, List.mem_cons, List.not_mem_nil, or_false, List.cons_append,
    List.nil_append] at hs hs'
  rcases hs with rfl | rfl | rfl <;> rcases hs' with rfl | rfl | rfl <;> first | rfl | (simp [Tree.id] at h)

private theorem tied_ids (m : Nat) (h : m ∈ ids tiedTree) : m = 0 ∨ m = 1 ∨ m = 2 := by
  simpa [ids, tiedTree, subs, subsAll, Tree.id] using h

private theorem tied_persistence : SamePersistence tiedState notCache tiedTree := by
  refine ⟨?_, ?_⟩
  · intro m hm m' hm' n n' b h h'
    rcases tied_ids m hm with rfl | rfl | rfl <;> rcases tied_ids m' hm' with rfl | rfl | rfl <;>
      simp [tiedState] at h h' ⊢
    rcases h with ⟨rfl, rfl⟩ | ⟨rfl, rfl⟩ <;> rcases h' with ⟨rfl, h'⟩ | ⟨rfl, h'⟩ <;> first | rfl | cases h'
  · intro m hm m' hm' p h h'
    rcases tied_ids m hm with rfl | rfl | rfl <;> rcases tied_ids m' hm' with rfl | rfl | rfl <;>
      simp [tiedState] at h h' <;> omega

/-- Rank 1 starts with other values. -/
private def tiedRanks : Nat → St (List Nat × Nat) := fun r =>
  if r = 0 then tiedState else { tiedState with tensors := tiedState.tensors.map fun y => { y with data := (y.data.1, 100 + r) } }

example : ((loadOnRanks shaped notCache tiedTree tiedCkpt tiedRanks).2 1).tensors.map (·.data) =
    [([3, 2], 5), ([2], 7), ([5], 101)] := by decide +kernel

example : ∀ key x z, NamedAs (tiedRanks 0) notCache tiedTree key x → (tiedRanks 1).tensors[x]? = some z →
    ∃ e ∈ tiedCkpt, ∃ y, NamedAs (tiedRanks 0) notCache tiedTree e.1 x ∧ (tiedRanks 0).tensors[x]? = some y ∧
      ((loadOnRanks shaped notCache tiedTree tiedCkpt tiedRanks).2 1).tensors[x]? =
        some { z with data := shaped.copy y.data e.2 } :=
  C88_ranks_partial shaped good_copy notCache tiedTree tied_consistent tiedRanks tied_names (fun _ x => x) (fun _ => rfl)
    (fun _ _ _ h => h)
    (fun r m _ => by
      have : (tiedRanks r).params = tiedState.params ∧ (tiedRanks r).buffers = tiedState.buffers := by
        unfold tiedRanks; split <;> exact ⟨rfl, rfl⟩
      rw [this.1, this.2]
      simp [tiedRanks])
    tied_persistence tiedCkpt tied_agree rfl 1

end Fs2.Props
