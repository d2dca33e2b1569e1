import Verif.Nn.Modules

/-!
# Lemmas on walks over modules
-/

namespace Fs2.Mod

mutual

/-- A module and everything below it. -/
def subs : Tree → List Tree
  | .node i cs => .node i cs :: subsAll cs

def subsAll : Children → List Tree
  | .nil => []
  | .missing _ r => subsAll r
  | .child _ t r => subs t ++ subsAll r

end

/-- The modules below a module, itself included. -/
def ids (t : Tree) : List Nat := (subs t).map Tree.id

/-- Places with the same object have the same objects below them. -/
def Consistent (t : Tree) : Prop := ∀ s ∈ subs t, ∀ s' ∈ subs t, s.id = s'.id → s = s'

theorem mem_subs_self (t : Tree) : t ∈ subs t := by cases t; simp [subs]

theorem id_mem_ids (t : Tree) : t.id ∈ ids t := List.mem_map_of_mem (mem_subs_self t)

mutual

theorem subs_trans : ∀ (t s r : Tree), s ∈ subs t → r ∈ subs s → r ∈ subs t
  | .node i cs, s, r, hs, hr => by
    rw [subs] at hs
    rcases List.mem_cons.1 hs with rfl | hs
    · exact hr
    · rw [subs]; exact List.mem_cons_of_mem _ (subsAll_trans cs s r hs hr)

theorem subsAll_trans : ∀ (cs : Children) (s r : Tree), s ∈ subsAll cs → r ∈ subs s → r ∈ subsAll cs
  | .nil, _, _, hs, _ => by rw [subsAll] at hs; cases hs
  | .missing _ cs, s, r, hs, hr => by rw [subsAll] at hs ⊢; exact subsAll_trans cs s r hs hr
  | .child _ t cs, s, r, hs, hr => by
    rw [subsAll] at hs ⊢
    rcases List.mem_append.1 hs with hs | hs
    · exact List.mem_append_left _ (subs_trans t s r hs hr)
    · exact List.mem_append_right _ (subsAll_trans cs s r hs hr)

end

mutual

theorem size_le : ∀ (t s : Tree), s ∈ subs t → sizeOf s ≤ sizeOf t
  | .node i cs, s, hs => by
    rw [subs] at hs
    rcases List.mem_cons.1 hs with rfl | hs
    · exact Nat.le_refl _
    · have := size_lt cs s hs
      simp only [Tree.node.sizeOf_spec]; omega

theorem size_lt : ∀ (cs : Children) (s : Tree), s ∈ subsAll cs → sizeOf s < sizeOf cs
  | .nil, _, hs => by rw [subsAll] at hs; cases hs
  | .missing _ cs, s, hs => by
    rw [subsAll] at hs
    have := size_lt cs s hs
    simp only [Children.missing.sizeOf_spec]; omega
  | .child _ t cs, s, hs => by
    rw [subsAll] at hs
    simp only [Children.child.sizeOf_spec]
    rcases List.mem_append.1 hs with hs | hs
    · have := size_le t s hs; omega
    · have := size_lt cs s hs; omega

end

theorem Consistent.sub {t s : Tree} (h : Consistent t) (hs : s ∈ subs t) : Consistent s :=
  fun a ha b hb => h a (subs_trans t s a hs ha) b (subs_trans t s b hs hb)

/-- In a consistent tree no module is below itself. -/
theorem not_below {root : Tree} (h : Consistent root) {i : Nat} {cs : Children} (ht : .node i cs ∈ subs root)
    {s : Tree} (hs : s ∈ subsAll cs) : s.id ≠ i := by
  intro he
  have hsr : s ∈ subs root := subs_trans root _ s ht (by rw [subs]; exact List.mem_cons_of_mem _ hs)
  have := h s hsr (.node i cs) ht he
  have hl := size_lt cs s hs
  rw [this] at hl
  simp only [Tree.node.sizeOf_spec] at hl
  omega

/-! ### `_get_named_modules` -/

/-- The modules among what was yielded. -/
def found (l : List (String × Option Nat)) : List Nat := l.filterMap (·.2)

theorem found_append (a b : List (String × Option Nat)) : found (a ++ b) = found a ++ found b := by
  simp [found]

mutual

/-- Every module is given once, is below the module, and goes to the memo. -/
theorem visit_found : ∀ (post : Bool) (pre : String) (t : Tree) (memo : List Nat),
    (found (visit post pre t memo).1).Nodup ∧
    (∀ i ∈ found (visit post pre t memo).1, i ∈ ids t ∧ i ∉ memo) ∧
    (∀ i, i ∈ (visit post pre t memo).2 ↔ i ∈ memo ∨ i ∈ found (visit post pre t memo).1) ∧
    t.id ∈ (visit post pre t memo).2
  | post, pre, .node id cs, memo => by
    rw [visit]
    split
    · rename_i h
      exact ⟨by simp [found], by simp [found], by simp [found], h⟩
    · rename_i h
      obtain ⟨h1, h2, h3⟩ := visitAll_found post pre cs (id :: memo)
      have hid : id ∉ found (visitAll post pre cs (id :: memo)).1 := fun hc => (h2 id hc).2 (by simp)
      have e : ∀ i, i ∈ found (if post then (visitAll post pre cs (id :: memo)).1 ++ [(pre, some id)] else
          (pre, some id) :: (visitAll post pre cs (id :: memo)).1) ↔
          i = id ∨ i ∈ found (visitAll post pre cs (id :: memo)).1 := by
        intro i
        split
        · rw [found_append]; simp [found, or_comm]
        · simp [found, eq_comm]
      refine ⟨?_, ?_, ?_, ?_⟩
      · simp only
        split
        · rw [found_append, List.nodup_append]
          refine ⟨h1, by simp [found], ?_⟩
          intro a ha b hb
          simp [found] at hb
          subst hb
          intro hab; subst hab
          exact hid ha
        · simp only [found, List.filterMap_cons]
          exact List.nodup_cons.2 ⟨hid, h1⟩
      · intro i hi
        rcases (e i).1 hi with rfl | hi
        · exact ⟨id_mem_ids (.node i cs), h⟩
        · refine ⟨?_, fun hc => (h2 i hi).2 (by simp [hc])⟩
          obtain ⟨s, hs, rfl⟩ := (h2 i hi).1
          exact List.mem_map_of_mem (by rw [subs]; exact List.mem_cons_of_mem _ hs)
      · intro i
        rw [e i]
        simp only [h3, List.mem_cons]
        grind
      · exact (h3 _).2 (.inl (by simp [Tree.id]))

theorem visitAll_found : ∀ (post : Bool) (pre : String) (cs : Children) (memo : List Nat),
    (found (visitAll post pre cs memo).1).Nodup ∧
    (∀ i ∈ found (visitAll post pre cs memo).1, (∃ s ∈ subsAll cs, s.id = i) ∧ i ∉ memo) ∧
    (∀ i, i ∈ (visitAll post pre cs memo).2 ↔ i ∈ memo ∨ i ∈ found (visitAll post pre cs memo).1)
  | _, _, .nil, memo => by simp [visitAll, found]
  | post, pre, .missing n cs, memo => by
    obtain ⟨h1, h2, h3⟩ := visitAll_found post pre cs memo
    rw [visitAll]
    exact ⟨h1, fun i hi => by rw [subsAll]; exact h2 i hi, h3⟩
  | post, pre, .child n t cs, memo => by
    obtain ⟨h1, h2, h3, -⟩ := visit_found post (join pre n) t memo
    obtain ⟨g1, g2, g3⟩ := visitAll_found post pre cs (visit post (join pre n) t memo).2
    rw [visitAll]
    simp only [found_append]
    refine ⟨List.nodup_append.2 ⟨h1, g1, ?_⟩, ?_, ?_⟩
    · intro a ha b hb hab
      subst hab
      exact (g2 a hb).2 ((h3 a).2 (.inr ha))
    · intro i hi
      rw [subsAll]
      rcases List.mem_append.1 hi with hi | hi
      · obtain ⟨s, hs, rfl⟩ := List.mem_map.1 (h2 i hi).1
        exact ⟨⟨s, List.mem_append_left _ hs, rfl⟩, (h2 _ hi).2⟩
      · obtain ⟨⟨s, hs, rfl⟩, hn⟩ := g2 i hi
        exact ⟨⟨s, List.mem_append_right _ hs, rfl⟩, fun hc => hn ((h3 _).2 (.inl hc))⟩
    · intro i
      rw [g3, h3, List.mem_append, or_assoc]

end

/-- Everything visited that is smaller than `n` is complete. -/
private def Done (root : Tree) (n : Nat) (memo : List Nat) : Prop :=
  ∀ s ∈ subs root, s.id ∈ memo → sizeOf s < n → ∀ i ∈ ids s, i ∈ memo

mutual

private theorem visit_done {root : Tree} (hc : Consistent root) : ∀ (post : Bool) (pre : String) (t : Tree)
    (memo : List Nat) (n : Nat), t ∈ subs root → sizeOf t < n → Done root n memo →
    Done root n (visit post pre t memo).2 ∧ ∀ i ∈ ids t, i ∈ (visit post pre t memo).2
  | post, pre, .node id cs, memo, n, ht, hn, hd => by
    obtain ⟨f1, f2, f3, f4⟩ := visit_found post pre (.node id cs) memo
    rw [visit] at f1 f2 f3 f4 ⊢
    split
    · rename_i h
      exact ⟨hd, hd _ ht h hn⟩
    · rename_i h
      simp only [if_neg h] at f1 f2 f3 f4
      have hsub : ∀ s ∈ subsAll cs, s ∈ subs root := fun s hs =>
        subs_trans root _ s ht (by rw [subs]; exact List.mem_cons_of_mem _ hs)
      have hd' : Done root (sizeOf (Tree.node id cs)) (id :: memo) := by
        intro s hs hm hl i hi
        rcases List.mem_cons.1 hm with he | hm
        · have := hc s hs _ ht he
          rw [this] at hl; omega
        · exact List.mem_cons_of_mem _ (hd s hs hm (by omega) i hi)
      obtain ⟨a, b⟩ := visitAll_done hc post pre cs (id :: memo) _ hsub
        (by simp only [Tree.node.sizeOf_spec]; omega) hd'
      have hall : ∀ i ∈ ids (.node id cs), i ∈ (visitAll post pre cs (id :: memo)).2 := by
        intro i hi
        obtain ⟨s, hs, rfl⟩ := List.mem_map.1 hi
        rw [subs] at hs
        rcases List.mem_cons.1 hs with rfl | hs
        · exact f4
        · exact b s hs
      refine ⟨?_, hall⟩
      intro s hs hm hl i hi
      rcases (f3 _).1 hm with hm | hm
      · exact (f3 i).2 (.inl (hd s hs hm hl i hi))
      · obtain ⟨s', hs', he⟩ := List.mem_map.1 (f2 _ hm).1
        have he2 := hc s' (subs_trans root _ s' ht hs') s hs he
        subst he2
        have := subs_trans
        exact hall i (by
          obtain ⟨r, hr, rfl⟩ := List.mem_map.1 hi
          exact List.mem_map_of_mem (subs_trans _ s' r hs' hr))

private theorem visitAll_done {root : Tree} (hc : Consistent root) : ∀ (post : Bool) (pre : String) (cs : Children)
    (memo : List Nat) (n : Nat), (∀ s ∈ subsAll cs, s ∈ subs root) → sizeOf cs < n → Done root n memo →
    Done root n (visitAll post pre cs memo).2 ∧ ∀ s ∈ subsAll cs, s.id ∈ (visitAll post pre cs memo).2
  | _, _, .nil, memo, _, _, _, hd => by
    rw [visitAll]; exact ⟨hd, fun s hs => by rw [subsAll] at hs; cases hs⟩
  | post, pre, .missing _ cs, memo, n, hs, hn, hd => by
    rw [visitAll, subsAll]
    exact visitAll_done hc post pre cs memo n (fun s h => hs s (by rw [subsAll]; exact h))
      (by simp only [Children.missing.sizeOf_spec] at hn; omega) hd
  | post, pre, .child nm t cs, memo, n, hs, hn, hd => by
    simp only [Children.child.sizeOf_spec] at hn
    obtain ⟨a1, a2⟩ := visit_done hc post (join pre nm) t memo n
      (hs t (by rw [subsAll]; exact List.mem_append_left _ (mem_subs_self t))) (by omega) hd
    obtain ⟨b1, b2⟩ := visitAll_done hc post pre cs (visit post (join pre nm) t memo).2 n
      (fun s h => hs s (by rw [subsAll]; exact List.mem_append_right _ h)) (by omega) a1
    rw [visitAll, subsAll]
    refine ⟨b1, ?_⟩
    intro s h
    rcases List.mem_append.1 h with h | h
    · exact ((visitAll_found post pre cs _).2.2 _).2 (.inl (a2 _ (List.mem_map_of_mem h)))
    · exact b2 s h

end

/-- Exactly the modules below a module are given. -/
theorem visit_all (t : Tree) (hc : Consistent t) (post : Bool) (pre : String) (i : Nat) :
    i ∈ found (visit post pre t []).1 ↔ i ∈ ids t := by
  obtain ⟨-, f2, f3, -⟩ := visit_found post pre t []
  refine ⟨fun h => (f2 i h).1, fun h => ?_⟩
  have := (visit_done hc post pre t [] (sizeOf t + 1) (mem_subs_self t) (by omega)
    (fun s _ hm => by cases hm)).2 i h
  rcases (f3 i).1 this with h | h
  · cases h
  · exact h

mutual

private theorem visit_order {root : Tree} (hc : Consistent root) : ∀ (pre : String) (t : Tree)
    (memo : List Nat) (n : Nat), t ∈ subs root → sizeOf t < n → Done root n memo →
    ∀ l1 l2 i, found (visit true pre t memo).1 = l1 ++ i :: l2 → ∀ s ∈ subs root, s.id = i →
      ∀ s' ∈ subs s, s'.id ≠ i → s'.id ∈ memo ∨ s'.id ∈ l1
  | pre, .node id cs, memo, n, ht, hn, hd, l1, l2, i, he, s, hs, hi, s', hs', hne => by
    rw [visit] at he
    by_cases h : id ∈ memo
    · rw [if_pos h] at he
      simp [found] at he
    · have hd' : Done root (sizeOf (Tree.node id cs)) (id :: memo) := by
        intro s hs hm hl i hi
        rcases List.mem_cons.1 hm with he | hm
        · have := hc s hs _ ht he
          rw [this] at hl; omega
        · exact List.mem_cons_of_mem _ (hd s hs hm (by omega) i hi)
      have hsub : ∀ s ∈ subsAll cs, s ∈ subs root := fun s hs =>
        subs_trans root _ s ht (by rw [subs]; exact List.mem_cons_of_mem _ hs)
      have hcs : sizeOf cs < sizeOf (Tree.node id cs) := by simp only [Tree.node.sizeOf_spec]; omega
      obtain ⟨g1, g2, g3⟩ := visitAll_found true pre cs (id :: memo)
      rw [if_neg h] at he
      simp only [if_true, found_append] at he
      have e1 : found [(pre, some id)] = [id] := rfl
      rw [e1] at he
      rcases List.append_eq_append_iff.1 he with ⟨a, h1, h2⟩ | ⟨a, h1, h2⟩
      · -- the module itself
        have : a = [] ∧ i = id := by
          match a, h2 with
          | [], h2 => simp at h2; exact ⟨rfl, h2.1.symm⟩
          | x :: a, h2 => simp at h2
        obtain ⟨rfl, rfl⟩ := this
        have := hc s hs _ ht hi
        subst this
        rw [subs] at hs'
        rcases List.mem_cons.1 hs' with rfl | hs'
        · exact absurd rfl hne
        · have := (visitAll_done hc true pre cs (i :: memo) _ hsub hcs hd').2 s' hs'
          rcases (g3 _).1 this with hm | hm
          · rcases List.mem_cons.1 hm with hm | hm
            · exact absurd hm hne
            · exact .inl hm
          · rw [h1]; exact .inr (by simpa using hm)
      · match a, h2 with
        | [], h2 =>
          simp at h2
          obtain ⟨rfl, rfl⟩ := h2
          have := hc s hs _ ht hi
          subst this
          rw [subs] at hs'
          rcases List.mem_cons.1 hs' with rfl | hs'
          · exact absurd rfl hne
          · have := (visitAll_done hc true pre cs (i :: memo) _ hsub hcs hd').2 s' hs'
            rcases (g3 _).1 this with hm | hm
            · rcases List.mem_cons.1 hm with hm | hm
              · exact absurd hm hne
              · exact .inl hm
            · rw [h1] at hm; exact .inr (by simpa using hm)
        | x :: a, h2 =>
          simp only [List.cons_append, List.cons.injEq] at h2
          obtain ⟨rfl, h2⟩ := h2
          have hmem : i ∈ found (visitAll true pre cs (id :: memo)).1 := by rw [h1]; simp
          obtain ⟨⟨r, hr, hri⟩, -⟩ := g2 i hmem
          have hrs := hc r (hsub r hr) s hs (hri.trans hi.symm)
          subst hrs
          have := visitAll_order hc pre cs (id :: memo) _ hsub hcs hd' l1 a i h1 r hs hi s' hs' hne
          rcases this with hm | hm
          · rcases List.mem_cons.1 hm with hm | hm
            · exact absurd hm (not_below hc ht (subsAll_trans cs r s' hr hs'))
            · exact .inl hm
          · exact .inr hm

private theorem visitAll_order {root : Tree} (hc : Consistent root) : ∀ (pre : String) (cs : Children)
    (memo : List Nat) (n : Nat), (∀ s ∈ subsAll cs, s ∈ subs root) → sizeOf cs < n → Done root n memo →
    ∀ l1 l2 i, found (visitAll true pre cs memo).1 = l1 ++ i :: l2 → ∀ s ∈ subs root, s.id = i →
      ∀ s' ∈ subs s, s'.id ≠ i → s'.id ∈ memo ∨ s'.id ∈ l1
  | _, .nil, memo, _, _, _, _, l1, l2, i, he, s, hs, hi, s', hs', hne => by
    rw [visitAll] at he; simp [found] at he
  | pre, .missing _ cs, memo, n, hsub, hn, hd, l1, l2, i, he, s, hs, hi, s', hs', hne => by
    rw [visitAll] at he
    exact visitAll_order hc pre cs memo n (fun s h => hsub s (by rw [subsAll]; exact h))
      (by simp only [Children.missing.sizeOf_spec] at hn; omega) hd l1 l2 i he s hs hi s' hs' hne
  | pre, .child nm t cs, memo, n, hsub, hn, hd, l1, l2, i, he, s, hs, hi, s', hs', hne => by
    simp only [Children.child.sizeOf_spec] at hn
    have ht : t ∈ subs root := hsub t (by rw [subsAll]; exact List.mem_append_left _ (mem_subs_self t))
    obtain ⟨a1, -⟩ := visit_done hc true (join pre nm) t memo n ht (by omega) hd
    have hsub' : ∀ s ∈ subsAll cs, s ∈ subs root := fun s h => hsub s (by rw [subsAll]; exact List.mem_append_right _ h)
    rw [visitAll] at he
    simp only [found_append] at he
    have h3 := (visit_found true (join pre nm) t memo).2.2.1
    have second : ∀ l1', found (visitAll true pre cs (visit true (join pre nm) t memo).2).1 = l1' ++ i :: l2 →
        l1 = found (visit true (join pre nm) t memo).1 ++ l1' → s'.id ∈ memo ∨ s'.id ∈ l1 := by
      intro l1' h1 h2
      have := visitAll_order hc pre cs _ n hsub' (by omega) a1 l1' l2 i h1 s hs hi s' hs' hne
      rw [h2]
      rcases this with hm | hm
      · rcases (h3 _).1 hm with hm | hm
        · exact .inl hm
        · exact .inr (List.mem_append_left _ hm)
      · exact .inr (List.mem_append_right _ hm)
    rcases List.append_eq_append_iff.1 he with ⟨a, h1, h2⟩ | ⟨a, h1, h2⟩
    · exact second a h2 h1
    · match a, h2 with
      | [], h2 => exact second [] (by simpa using h2.symm) (by simpa using h1.symm)
      | x :: a, h2 =>
        simp only [List.cons_append, List.cons.injEq] at h2
        obtain ⟨rfl, h2⟩ := h2
        exact visit_order hc (join pre nm) t memo n ht (by omega) hd l1 a i h1 s hs hi s' hs' hne

end

/-- With `post_order`, a module is given after everything below it. -/
theorem visit_post (t : Tree) (hc : Consistent t) (pre : String) (l1 l2 : List Nat) (i : Nat)
    (he : found (visit true pre t []).1 = l1 ++ i :: l2) (s : Tree) (hs : s ∈ subs t) (hi : s.id = i) (s' : Tree)
    (hs' : s' ∈ subs s) (hne : s'.id ≠ i) : s'.id ∈ l1 := by
  rcases visit_order hc pre t [] (sizeOf t + 1) (mem_subs_self t) (by omega) (fun s _ hm => by cases hm) l1 l2 i he s hs
    hi s' hs' hne with h | h
  · cases h
  · exact h

/-- A child under a name. -/
def HasChild : Children → String → Tree → Prop
  | .nil, _, _ => False
  | .missing _ r, n, s => HasChild r n s
  | .child m t r, n, s => (m = n ∧ t = s) ∨ HasChild r n s

/-- What names lead from a module to another one. -/
inductive Leads : Tree → List String → Tree → Prop
  | here (t : Tree) : Leads t [] t
  | step {i : Nat} {cs : Children} {n : String} {ks : List String} {s r : Tree} (hs : HasChild cs n s)
      (hr : Leads s ks r) : Leads (.node i cs) (n :: ks) r

mutual

/-- A module is given with a name that leads to it. -/
theorem visit_names : ∀ (post : Bool) (pre : String) (t : Tree) (memo : List Nat) (name : String) (i : Nat),
    (name, some i) ∈ (visit post pre t memo).1 → ∃ ks s, Leads t ks s ∧ s.id = i ∧ name = ks.foldl join pre
  | post, pre, .node id cs, memo, name, i, h => by
    rw [visit] at h
    split at h
    · cases h
    · have h' : (name, some i) = (pre, some id) ∨ (name, some i) ∈ (visitAll post pre cs (id :: memo)).1 := by
        simp only at h
        split at h
        · rcases List.mem_append.1 h with h | h
          · exact .inr h
          · exact .inl (by simpa using h)
        · exact List.mem_cons.1 h
      rcases h' with h' | h'
      · cases h'
        exact ⟨[], _, .here _, rfl, rfl⟩
      · obtain ⟨n, c, ks, s, h1, h2, h3, h4⟩ := visitAll_names post pre cs (id :: memo) name i h'
        exact ⟨n :: ks, s, .step h1 h2, h3, h4⟩

theorem visitAll_names : ∀ (post : Bool) (pre : String) (cs : Children) (memo : List Nat) (name : String) (i : Nat),
    (name, some i) ∈ (visitAll post pre cs memo).1 →
    ∃ n c ks s, HasChild cs n c ∧ Leads c ks s ∧ s.id = i ∧ name = ks.foldl join (join pre n)
  | _, _, .nil, _, _, _, h => by rw [visitAll] at h; cases h
  | post, pre, .missing m cs, memo, name, i, h => by
    rw [visitAll] at h
    rcases List.mem_cons.1 h with h | h
    · cases h
    · exact visitAll_names post pre cs memo name i h
  | post, pre, .child m t cs, memo, name, i, h => by
    rw [visitAll] at h
    rcases List.mem_append.1 h with h | h
    · obtain ⟨ks, s, h1, h2, h3⟩ := visit_names post (join pre m) t memo name i h
      exact ⟨m, t, ks, s, .inl ⟨rfl, rfl⟩, h1, h2, h3⟩
    · obtain ⟨n, c, ks, s, h1, h2⟩ := visitAll_names post pre cs _ name i h
      exact ⟨n, c, ks, s, .inr h1, h2⟩

end

/-! ### `apply_to_parameters` -/

variable {D : Type}

/-- One module after the other. -/
def ownLoop (fn : Fn D) : List Nat → St D → Memo → Except Err (St D × Memo)
  | [], st, memo => .ok (st, memo)
  | m :: ms, st, memo =>
    match applyOwn fn m st memo with
    | .error e => .error e
    | .ok (st, memo) => ownLoop fn ms st memo

/-- What `apply` makes of the result of the loop. -/
def withSeen (r : Except Err (St D × Memo)) (seen : List Nat) : Except Err (St D × Memo × List Nat) :=
  match r with
  | .error e => .error e
  | .ok (st, memo) => .ok (st, memo, seen)

theorem ownLoop_append (fn : Fn D) (a b : List Nat) (st : St D) (memo : Memo) :
    ownLoop fn (a ++ b) st memo =
      match ownLoop fn a st memo with
      | .error e => .error e
      | .ok (st, memo) => ownLoop fn b st memo := by
  induction a generalizing st memo with
  | nil => rfl
  | cons m a ih =>
    simp only [List.cons_append, ownLoop]
    cases applyOwn fn m st memo with
    | error e => rfl
    | ok r => exact ih r.1 r.2

private def Closed (root : Tree) (seen : List Nat) : Prop :=
  ∀ s ∈ subs root, s.id ∈ seen → ∀ i ∈ ids s, i ∈ seen

mutual

private theorem apply_order {root : Tree} (hc : Consistent root) : ∀ (t : Tree) (seen : List Nat), t ∈ subs root →
    Closed root seen → t.id ∉ seen → ∃ L seen',
      (∀ (fn : Fn D) st memo, apply fn t st memo seen = withSeen (ownLoop fn L st memo) seen') ∧ L.Nodup ∧
      (∀ i ∈ L, i ∈ ids t ∧ i ∉ seen) ∧ (∀ i, i ∈ t.id :: seen' ↔ i ∈ seen ∨ i ∈ L) ∧ (∀ i ∈ ids t, i ∈ seen ∨ i ∈ L)
  | .node id cs, seen, ht, hcl, hid => by
    have hsub : ∀ s ∈ subsAll cs, s ∈ subs root := fun s hs =>
      subs_trans root _ s ht (by rw [subs]; exact List.mem_cons_of_mem _ hs)
    obtain ⟨L, seen', h1, h2, h3, h4, h5, -⟩ := applyAll_order hc cs [] seen hsub hcl (fun i h => by cases h)
    simp only [Tree.id] at hid
    have hidL : id ∉ L := by
      intro h
      obtain ⟨⟨s, hs, he⟩, -⟩ := h3 id h
      exact not_below hc ht hs he
    refine ⟨L ++ [id], seen', ?_, ?_, ?_, ?_, ?_⟩
    · intro fn st memo
      rw [apply, h1 fn st memo, ownLoop_append]
      cases ownLoop fn L st memo with
      | error e => rfl
      | ok r =>
        simp only [withSeen, ownLoop]
        cases applyOwn fn id r.1 r.2 with
        | error e => rfl
        | ok r' => rfl
    · rw [List.nodup_append]
      refine ⟨h2, by simp, ?_⟩
      intro a ha b hb hab
      simp only [List.mem_singleton] at hb
      subst hab; subst hb
      exact hidL ha
    · intro i hi
      rcases List.mem_append.1 hi with hi | hi
      · obtain ⟨⟨s, hs, rfl⟩, h⟩ := h3 i hi
        exact ⟨List.mem_map_of_mem (by rw [subs]; exact List.mem_cons_of_mem _ hs), h⟩
      · simp only [List.mem_singleton] at hi
        subst hi
        exact ⟨id_mem_ids (.node i cs), hid⟩
    · intro i
      simp only [List.mem_cons, Tree.id, h4 i, List.mem_append, List.not_mem_nil, or_false]
      grind
    · intro i hi
      obtain ⟨s, hs, rfl⟩ := List.mem_map.1 hi
      rw [subs] at hs
      rcases List.mem_cons.1 hs with rfl | hs
      · exact .inr (by simp [Tree.id])
      · rcases (h4 _).1 (h5 s hs) with h | h
        · exact .inl h
        · exact .inr (List.mem_append_left _ h)

private theorem applyAll_order {root : Tree} (hc : Consistent root) : ∀ (cs : Children) (given seen : List Nat),
    (∀ s ∈ subsAll cs, s ∈ subs root) → Closed root seen → (∀ i ∈ given, i ∈ seen) → ∃ L seen',
      (∀ (fn : Fn D) st memo, applyAll fn cs given st memo seen = withSeen (ownLoop fn L st memo) seen') ∧ L.Nodup ∧
      (∀ i ∈ L, (∃ s ∈ subsAll cs, s.id = i) ∧ i ∉ seen) ∧ (∀ i, i ∈ seen' ↔ i ∈ seen ∨ i ∈ L) ∧
      (∀ s ∈ subsAll cs, s.id ∈ seen') ∧ Closed root seen'
  | .nil, given, seen, _, hcl, _ => by
    refine ⟨[], seen, fun fn st memo => by rw [applyAll]; rfl, by simp, by simp, by simp, ?_, hcl⟩
    intro s hs; rw [subsAll] at hs; cases hs
  | .missing _ cs, given, seen, hsub, hcl, hg => by
    simp only [subsAll, applyAll] at hsub ⊢
    exact applyAll_order hc cs given seen hsub hcl hg
  | .child _ t cs, given, seen, hsub, hcl, hg => by
    simp only [subsAll] at hsub ⊢
    have ht : t ∈ subs root := hsub t (List.mem_append_left _ (mem_subs_self t))
    have hsub' : ∀ s ∈ subsAll cs, s ∈ subs root := fun s h => hsub s (List.mem_append_right _ h)
    by_cases hseen : t.id ∈ seen
    · have hall := hcl t ht hseen
      have key : ∀ given', (∀ i ∈ given', i ∈ seen) → ∃ L seen',
          (∀ (fn : Fn D) st memo, applyAll fn cs given' st memo seen = withSeen (ownLoop fn L st memo) seen') ∧
          L.Nodup ∧ (∀ i ∈ L, (∃ s ∈ subs t ++ subsAll cs, s.id = i) ∧ i ∉ seen) ∧
          (∀ i, i ∈ seen' ↔ i ∈ seen ∨ i ∈ L) ∧ (∀ s ∈ subs t ++ subsAll cs, s.id ∈ seen') ∧ Closed root seen' := by
        intro given' hg'
        obtain ⟨L, seen', h1, h2, h3, h4, h5, h6⟩ := applyAll_order hc cs given' seen hsub' hcl hg'
        refine ⟨L, seen', h1, h2, ?_, h4, ?_, h6⟩
        · intro i hi
          obtain ⟨⟨s, hs, he⟩, h⟩ := h3 i hi
          exact ⟨⟨s, List.mem_append_right _ hs, he⟩, h⟩
        · intro s hs
          rcases List.mem_append.1 hs with hs | hs
          · exact (h4 _).2 (.inl (hall _ (List.mem_map_of_mem hs)))
          · exact h5 s hs
      by_cases hgiven : t.id ∈ given
      · obtain ⟨L, seen', h1, h2⟩ := key given hg
        exact ⟨L, seen', fun fn st memo => by rw [applyAll, if_pos hgiven]; exact h1 fn st memo, h2⟩
      · obtain ⟨L, seen', h1, h2⟩ := key (t.id :: given) (by simpa using ⟨hseen, hg⟩)
        exact ⟨L, seen', fun fn st memo => by rw [applyAll, if_neg hgiven, if_pos hseen]; exact h1 fn st memo, h2⟩
    · have hgiven : t.id ∉ given := fun h => hseen (hg _ h)
      obtain ⟨L1, s1, a1, a2, a3, a4, a5⟩ := apply_order hc t seen ht hcl hseen
      have hcl' : Closed root (t.id :: s1) := by
        intro s hs hm i hi
        rw [a4]
        rcases (a4 _).1 hm with hm | hm
        · exact .inl (hcl s hs hm i hi)
        · obtain ⟨s', hs', he⟩ := List.mem_map.1 (a3 _ hm).1
          have := hc s' (subs_trans root t s' ht hs') s hs he
          subst this
          obtain ⟨r, hr, rfl⟩ := List.mem_map.1 hi
          exact a5 _ (List.mem_map_of_mem (subs_trans t s' r hs' hr))
      have hg' : ∀ i ∈ t.id :: given, i ∈ t.id :: s1 := by
        intro i hi
        rcases List.mem_cons.1 hi with rfl | hi
        · simp
        · exact (a4 i).2 (.inl (hg i hi))
      obtain ⟨L2, s2, b1, b2, b3, b4, b5, b6⟩ := applyAll_order hc cs (t.id :: given) (t.id :: s1) hsub' hcl' hg'
      refine ⟨L1 ++ L2, s2, ?_, ?_, ?_, ?_, ?_, b6⟩
      · intro fn st memo
        rw [applyAll, if_neg hgiven, if_neg hseen, a1 fn st memo, ownLoop_append]
        cases ownLoop fn L1 st memo with
        | error e => rfl
        | ok r => exact b1 fn r.1 r.2
      · rw [List.nodup_append]
        refine ⟨a2, b2, ?_⟩
        intro a ha b hb hab
        subst hab
        exact (b3 a hb).2 ((a4 a).2 (.inr ha))
      · intro i hi
        rcases List.mem_append.1 hi with hi | hi
        · obtain ⟨s, hs, rfl⟩ := List.mem_map.1 (a3 i hi).1
          exact ⟨⟨s, List.mem_append_left _ hs, rfl⟩, (a3 _ hi).2⟩
        · obtain ⟨⟨s, hs, rfl⟩, h⟩ := b3 i hi
          exact ⟨⟨s, List.mem_append_right _ hs, rfl⟩, fun hx => h ((a4 _).2 (.inl hx))⟩
      · intro i
        rw [b4, a4, List.mem_append, or_assoc]
      · intro s hs
        rcases List.mem_append.1 hs with hs | hs
        · exact (b4 _).2 (.inl ((a4 _).2 (a5 _ (List.mem_map_of_mem hs))))
        · exact b5 s hs

end

/-- `apply_to_parameters` treats every module below the module once. -/
theorem apply_modules (t : Tree) (hc : Consistent t) : ∃ L : List Nat, L.Nodup ∧ (∀ i, i ∈ L ↔ i ∈ ids t) ∧
    ∀ (fn : Fn D) memo st, applyToParameters fn memo t st =
      match ownLoop fn L st memo with
      | .error e => .error e
      | .ok (st, _) => .ok st := by
  obtain ⟨L, seen', h1, h2, h3, -, h5⟩ := apply_order (D := D) hc t [] (mem_subs_self t) (fun s _ hm => by cases hm)
    (by simp)
  refine ⟨L, h2, fun i => ⟨fun h => (h3 i h).1, fun h => (h5 i h).elim (fun h => by cases h) id⟩, ?_⟩
  intro fn memo st
  rw [applyToParameters, h1 fn st memo]
  cases ownLoop fn L st memo with
  | error e => rfl
  | ok r => rfl

end Fs2.Mod
