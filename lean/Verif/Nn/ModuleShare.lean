import Verif.Nn.ModuleApply

/-!
# Lemmas on sharing and broadcasting the tensors of modules
-/

namespace Fs2.Mod

variable {D : Type}

/-! ### `named_parameters` of two modules -/

/-- All slots with their names, those of tied tensors included. -/
def allSlots (which : Nat → List (String × Nat)) (t : Tree) : List (String × Nat) :=
  (visit false "" t []).1.flatMap fun e =>
    match e.2 with
    | none => []
    | some m => (which m).map fun s => (join e.1 s.1, s.2)

/-- Leaves out tensors that were there already. -/
def dedup (r l : List (String × Nat)) : List (String × Nat) :=
  l.foldl (fun r s => if s.2 ∈ r.map (·.2) then r else r ++ [s]) r

theorem named_eq (which : Nat → List (String × Nat)) (t : Tree) : named which t = dedup [] (allSlots which t) := rfl

theorem dedup_cons (r : List (String × Nat)) (s : String × Nat) (l : List (String × Nat)) :
    dedup r (s :: l) = dedup (if s.2 ∈ r.map (·.2) then r else r ++ [s]) l := rfl

theorem dedup_sub : ∀ (l r : List (String × Nat)) (e : String × Nat), e ∈ dedup r l → e ∈ r ∨ e ∈ l
  | [], r, e, h => .inl h
  | s :: l, r, e, h => by
    rw [dedup_cons] at h
    rcases dedup_sub l _ e h with h | h
    · split at h
      · exact .inl h
      · rcases List.mem_append.1 h with h | h
        · exact .inl h
        · exact .inr (by simp at h; simp [h])
    · exact .inr (by simp [h])

theorem dedup_keeps : ∀ (l r : List (String × Nat)) (e : String × Nat), e ∈ r → e ∈ dedup r l
  | [], r, e, h => h
  | s :: l, r, e, h => by
    rw [dedup_cons]
    refine dedup_keeps l _ e ?_
    split
    · exact h
    · exact List.mem_append_left _ h

theorem dedup_has : ∀ (l r : List (String × Nat)) (e : String × Nat), e ∈ l → e.2 ∈ (dedup r l).map (·.2)
  | s :: l, r, e, h => by
    rw [dedup_cons]
    rcases List.mem_cons.1 h with rfl | h
    · split
      · rename_i hm
        obtain ⟨e', h1, h2⟩ := List.mem_map.1 hm
        exact List.mem_map.2 ⟨e', dedup_keeps l _ e' h1, h2⟩
      · exact List.mem_map_of_mem (dedup_keeps l _ e (by simp))
    · exact dedup_has l _ e h

theorem dedup_nodup_id : ∀ (l r : List (String × Nat)), ((r ++ l).map (·.2)).Nodup → dedup r l = r ++ l
  | [], r, _ => by simp [dedup]
  | s :: l, r, h => by
    rw [dedup_cons, if_neg, dedup_nodup_id l _ (by simpa using h)]
    · simp
    · intro hm
      rw [List.map_append, List.nodup_append] at h
      exact h.2.2 _ hm s.2 (by simp) rfl

/-- The same on pairs of slots. -/
def dedup2 (r l : List ((String × Nat) × (String × Nat))) : List ((String × Nat) × (String × Nat)) :=
  l.foldl (fun r s => if s.1.2 ∈ r.map (·.1.2) then r else r ++ [s]) r

theorem dedup2_cons (r : List ((String × Nat) × (String × Nat))) (s : (String × Nat) × (String × Nat))
    (l : List ((String × Nat) × (String × Nat))) :
    dedup2 r (s :: l) = dedup2 (if s.1.2 ∈ r.map (·.1.2) then r else r ++ [s]) l := rfl

theorem dedup2_eq : ∀ (l r : List ((String × Nat) × (String × Nat))),
    (∀ e ∈ r ++ l, ∀ e' ∈ r ++ l, e.1.2 = e'.1.2 ↔ e.2.2 = e'.2.2) →
    dedup (r.map (·.1)) (l.map (·.1)) = (dedup2 r l).map (·.1) ∧
    dedup (r.map (·.2)) (l.map (·.2)) = (dedup2 r l).map (·.2)
  | [], r, _ => ⟨rfl, rfl⟩
  | s :: l, r, h => by
    rw [List.map_cons, List.map_cons, dedup_cons, dedup_cons, dedup2_cons]
    have e : s.1.2 ∈ r.map (·.1.2) ↔ s.2.2 ∈ r.map (·.2.2) := by
      simp only [List.mem_map]
      constructor
      · rintro ⟨x, h1, h2⟩
        exact ⟨x, h1, (h x (by simp [h1]) s (by simp)).1 h2⟩
      · rintro ⟨x, h1, h2⟩
        exact ⟨x, h1, (h x (by simp [h1]) s (by simp)).2 h2⟩
    rw [List.map_map, List.map_map]
    by_cases hm : s.1.2 ∈ r.map (·.1.2)
    · rw [if_pos hm, if_pos (show s.1.2 ∈ r.map ((·.2) ∘ (·.1)) from hm),
        if_pos (show s.2.2 ∈ r.map ((·.2) ∘ (·.2)) from e.1 hm)]
      exact dedup2_eq l r (fun a ha b hb => h a (by simp at ha ⊢; rcases ha with h | h <;> simp [h]) b
        (by simp at hb ⊢; rcases hb with h | h <;> simp [h]))
    · rw [if_neg hm, if_neg (show s.1.2 ∉ r.map ((·.2) ∘ (·.1)) from hm),
        if_neg (show s.2.2 ∉ r.map ((·.2) ∘ (·.2)) from fun hh => hm (e.2 hh))]
      have := dedup2_eq l (r ++ [s]) (fun a ha b hb => h a (by simpa using ha) b (by simpa using hb))
      simpa using this

theorem dedup2_sub : ∀ (l r : List ((String × Nat) × (String × Nat))) (e : (String × Nat) × (String × Nat)),
    e ∈ dedup2 r l → e ∈ r ∨ e ∈ l
  | [], r, e, h => .inl h
  | s :: l, r, e, h => by
    rw [dedup2_cons] at h
    rcases dedup2_sub l _ e h with h | h
    · split at h
      · exact .inl h
      · rcases List.mem_append.1 h with h | h
        · exact .inl h
        · exact .inr (by simp at h; simp [h])
    · exact .inr (by simp [h])

/-! ### `pairUp` -/

/-- What goes to the memo. -/
def pairs (z : List ((String × Nat) × (String × Nat))) : Memo := (z.map fun e => (e.2.2, e.1.2)).reverse

theorem pairUp_ok (st : St D) : ∀ (z : List ((String × Nat) × (String × Nat))) (memo : Memo),
    (∀ e ∈ z, e.1.1 = e.2.1 ∧ (st.tensors[e.1.2]?).bind (·.grad) = none ∧ (st.tensors[e.2.2]?).bind (·.grad) = none) →
    pairUp st z memo = .ok (pairs z ++ memo)
  | [], memo, _ => rfl
  | ((sn, s), (tn, t)) :: z, memo, h => by
    obtain ⟨h1, h2, h3⟩ := h _ (List.mem_cons_self ..)
    simp only at h1 h2 h3
    rw [pairUp, if_neg (by simp [h1]), h2, h3, pairUp_ok st z _ (fun e he => h e (by simp [he]))]
    simp [pairs]

theorem pairUp_inv (st : St D) : ∀ (z : List ((String × Nat) × (String × Nat))) (memo : Memo),
    (∃ e ∈ z, e.1.1 ≠ e.2.1 ∨ (st.tensors[e.1.2]?).bind (·.grad) ≠ none ∨ (st.tensors[e.2.2]?).bind (·.grad) ≠ none) →
    pairUp st z memo = .error .value
  | [], memo, h => by obtain ⟨e, he, -⟩ := h; cases he
  | ((sn, s), (tn, t)) :: z, memo, h => by
    rw [pairUp]
    by_cases h1 : sn = tn
    · rw [if_neg (by simp [h1])]
      cases h2 : (st.tensors[s]?).bind (·.grad) with
      | some g => simp
      | none =>
        cases h3 : (st.tensors[t]?).bind (·.grad) with
        | some g => simp
        | none =>
          simp only [Option.isSome_none, Bool.false_eq_true, if_false]
          refine pairUp_inv st z _ ?_
          obtain ⟨e, he, hh⟩ := h
          rcases List.mem_cons.1 he with rfl | he
          · simp [h1, h2, h3] at hh
          · exact ⟨e, he, hh⟩
    · rw [if_pos h1]

theorem lookup_of_mem : ∀ (l : Memo) (k : Nat), k ∈ l.map (·.1) → ∃ w, l.lookup k = some w ∧ (k, w) ∈ l
  | (a, b) :: l, k, h => by
    rw [List.lookup_cons]
    by_cases hk : k = a
    · subst hk; exact ⟨b, by simp, by simp⟩
    · simp only [List.map_cons, List.mem_cons] at h
      obtain ⟨w, h1, h2⟩ := lookup_of_mem l k (h.resolve_left hk)
      have hk' : (k == a) = false := by simpa using hk
      exact ⟨w, by simp [hk', h1], by simp [h2]⟩

/-! ### Slots after a change -/

theorem mem_allSlots {which : Nat → List (String × Nat)} {t : Tree} (hc : Consistent t) {m : Nat} (hm : m ∈ ids t)
    {s : String × Nat} (hs : s ∈ which m) : ∃ n, (n, s.2) ∈ allSlots which t := by
  obtain ⟨e, he, hem⟩ := List.mem_filterMap.1 ((visit_all t hc false "" m).2 hm)
  refine ⟨join e.1 s.1, List.mem_flatMap.2 ⟨e, he, ?_⟩⟩
  rw [hem]
  exact List.mem_map.2 ⟨s, hs, rfl⟩

theorem of_mem_allSlots {which : Nat → List (String × Nat)} {t : Tree} {e : String × Nat} (h : e ∈ allSlots which t) :
    ∃ m ∈ ids t, ∃ s ∈ which m, s.2 = e.2 := by
  obtain ⟨x, hx, he⟩ := List.mem_flatMap.1 h
  cases hm : x.2 with
  | none => rw [hm] at he; cases he
  | some m =>
    rw [hm] at he
    obtain ⟨s, hs, rfl⟩ := List.mem_map.1 he
    exact ⟨m, ((visit_found false "" t []).2.1 m (List.mem_filterMap.2 ⟨x, hx, hm⟩)).1, s, hs, rfl⟩

theorem allSlots_map {w w' : Nat → List (String × Nat)} {t : Tree} (φ : Nat → Nat)
    (h : ∀ m ∈ ids t, w' m = (w m).map fun s => (s.1, φ s.2)) :
    allSlots w' t = (allSlots w t).map fun s => (s.1, φ s.2) := by
  unfold allSlots
  rw [List.map_flatMap]
  have : ∀ l : List (String × Option Nat), (∀ e ∈ l, ∀ m, e.2 = some m → m ∈ ids t) →
      (l.flatMap fun e => match e.2 with
        | none => []
        | some m => (w' m).map fun s => (join e.1 s.1, s.2)) =
      l.flatMap fun e => (match e.2 with
        | none => []
        | some m => (w m).map fun (s : String × Nat) => (join e.1 s.1, s.2)).map fun (s : String × Nat) => (s.1, φ s.2) := by
    intro l hl
    induction l with
    | nil => rfl
    | cons e l ih =>
      rw [List.flatMap_cons, List.flatMap_cons, ih fun e he => hl e (by simp [he])]
      congr 1
      obtain ⟨n, o⟩ := e
      cases o with
      | none => rfl
      | some m => simp [h m (hl (n, some m) (by simp) m rfl)]
  exact this _ fun e he m hm => ((visit_found false "" t []).2.1 m (List.mem_filterMap.2 ⟨e, he, hm⟩)).1

/-! ### `collect` -/

/-- The second module is reached from the first without passing a module that is skipped. -/
inductive Open (skip : List Nat) : Tree → Tree → Prop
  | here {t : Tree} (h : t.id ∉ skip) : Open skip t t
  | step {i : Nat} {cs : Children} {n : String} {s r : Tree} (h : i ∉ skip) (hs : HasChild cs n s)
      (hr : Open skip s r) : Open skip (.node i cs) r

/-- The memo has no duplicates, and the list is the memo without the tensors that are not wanted. -/
def Collected (W : Nat → Bool) (a : List Nat × List Nat) : Prop := a.1.Nodup ∧ a.2 = a.1.reverse.filter W

theorem collectParams_spec (W : Nat → Bool) : ∀ (ps : List Nat) (a : List Nat × List Nat), (∀ p ∈ ps, W p = true) →
    Collected W a → Collected W (collectParams ps a) ∧ ∀ x, x ∈ (collectParams ps a).1 ↔ x ∈ a.1 ∨ x ∈ ps
  | [], a, _, h => ⟨h, by simp [collectParams]⟩
  | p :: ps, (memo, out), hW, h => by
    rw [collectParams]
    split
    · rename_i hp
      obtain ⟨h1, h2⟩ := collectParams_spec W ps (memo, out) (fun q hq => hW q (by simp [hq])) h
      refine ⟨h1, fun x => (h2 x).trans ?_⟩
      simp only [List.mem_cons]
      constructor
      · rintro (h | h)
        · exact .inl h
        · exact .inr (.inr h)
      · rintro (h | rfl | h)
        · exact .inl h
        · exact .inl hp
        · exact .inr h
    · rename_i hp
      have hc : Collected W (p :: memo, out ++ [p]) := by
        refine ⟨List.nodup_cons.2 ⟨hp, h.1⟩, ?_⟩
        have h2 : out = memo.reverse.filter W := h.2
        simp [h2, hW p (by simp)]
      obtain ⟨h1, h2⟩ := collectParams_spec W ps _ (fun q hq => hW q (by simp [hq])) hc
      refine ⟨h1, fun x => (h2 x).trans ?_⟩
      simp only [List.mem_cons]
      constructor
      · rintro ((h | h) | h)
        · exact .inr (.inl h)
        · exact .inl h
        · exact .inr (.inr h)
      · rintro (h | h | h)
        · exact .inl (.inr h)
        · exact .inl (.inl h)
        · exact .inr h

theorem collectBuffers_spec (W : Nat → Bool) (all : Bool) (np : String → Bool) : ∀ (bs : List (String × Nat))
    (a : List Nat × List Nat), (∀ b ∈ bs, W b.2 = (all || !np b.1)) → Collected W a →
    Collected W (collectBuffers all np bs a) ∧
      ∀ x, x ∈ (collectBuffers all np bs a).1 ↔ x ∈ a.1 ∨ x ∈ bs.map (·.2)
  | [], a, _, h => ⟨h, by simp [collectBuffers]⟩
  | (n, b) :: bs, (memo, out), hW, h => by
    have hW' : ∀ b ∈ bs, W b.2 = (all || !np b.1) := fun q hq => hW q (by simp [hq])
    have hb := hW (n, b) (by simp)
    have step : ∀ out', Collected W (b :: memo, out') →
        Collected W (collectBuffers all np bs (b :: memo, out')) ∧
          ∀ x, x ∈ (collectBuffers all np bs (b :: memo, out')).1 ↔ x ∈ memo ∨ x ∈ ((n, b) :: bs).map (·.2) := by
      intro out' hc
      obtain ⟨h1, h2⟩ := collectBuffers_spec W all np bs _ hW' hc
      refine ⟨h1, fun x => (h2 x).trans ?_⟩
      simp only [List.mem_cons, List.map_cons]
      constructor
      · rintro ((h | h) | h)
        · exact .inr (.inl h)
        · exact .inl h
        · exact .inr (.inr h)
      · rintro (h | h | h)
        · exact .inl (.inr h)
        · exact .inl (.inl h)
        · exact .inr h
    rw [collectBuffers]
    split
    · rename_i hp
      obtain ⟨h1, h2⟩ := collectBuffers_spec W all np bs (memo, out) hW' h
      refine ⟨h1, fun x => (h2 x).trans ?_⟩
      simp only [List.mem_cons, List.map_cons]
      constructor
      · rintro (h | h)
        · exact .inl h
        · exact .inr (.inr h)
      · rintro (h | rfl | h)
        · exact .inl h
        · exact .inl hp
        · exact .inr h
    · rename_i hp
      split
      · rename_i hs
        refine step _ ⟨List.nodup_cons.2 ⟨hp, h.1⟩, ?_⟩
        have : W b = false := by rw [hb]; simp at hs; simp [hs]
        have h2 : out = memo.reverse.filter W := h.2
        simp [h2, this]
      · rename_i hs
        refine step _ ⟨List.nodup_cons.2 ⟨hp, h.1⟩, ?_⟩
        have : W b = true := by
          rw [hb]; simp at hs; cases all <;> simp_all
        have h2 : out = memo.reverse.filter W := h.2
        simp [h2, this]

theorem child_sub : ∀ (cs : Children) (n : String) (s : Tree), HasChild cs n s → s ∈ subsAll cs
  | .nil, _, _, h => by cases h
  | .missing _ cs, n, s, h => by rw [subsAll]; exact child_sub cs n s h
  | .child _ t cs, n, s, h => by
    rw [subsAll]
    rcases h with ⟨-, rfl⟩ | h
    · exact List.mem_append_left _ (mem_subs_self t)
    · exact List.mem_append_right _ (child_sub cs n s h)

theorem open_sub {skip : List Nat} {t s : Tree} (h : Open skip t s) : s ∈ subs t := by
  induction h with
  | here h => exact mem_subs_self _
  | step h hs hr ih =>
    rw [subs]
    exact List.mem_cons_of_mem _ (subsAll_trans _ _ _ (child_sub _ _ _ hs) ih)

mutual

theorem collect_spec {root : Tree} (hc : Consistent root) (W : Nat → Bool) (st : St D) (np : Nat → String → Bool)
    (all : Bool) (skip : List Nat) : ∀ (t : Tree) (a : List Nat × List Nat), t ∈ subs root →
    (∀ s, Open skip t s → (∀ p ∈ (st.params s.id).map (·.2), W p = true) ∧
      ∀ b ∈ st.buffers s.id, W b.2 = (all || !np s.id b.1)) → Collected W a →
    Collected W (collect st np all skip t a) ∧
      ∀ x, x ∈ (collect st np all skip t a).1 ↔ x ∈ a.1 ∨ ∃ s, Open skip t s ∧ x ∈ ownTensors st s.id
  | .node i cs, a, ht, hW, ha => by
    rw [collect]
    split
    · rename_i hi
      refine ⟨ha, fun x => ⟨.inl, ?_⟩⟩
      rintro (h | ⟨s, h, -⟩)
      · exact h
      · cases h with
        | here h => exact absurd hi h
        | step h _ _ => exact absurd hi h
    · rename_i hi
      have hsub : ∀ n s, HasChild cs n s → s ∈ subs root := fun n s h =>
        subs_trans root _ s ht (by rw [subs]; exact List.mem_cons_of_mem _ (child_sub cs n s h))
      obtain ⟨h1, h2⟩ := collectAll_spec hc W st np all skip cs [] a hsub
        (fun n c s hn ho => hW s (.step hi hn ho)) ha
      obtain ⟨h3, h4⟩ := collectParams_spec W ((st.params i).map (·.2)) _ (hW (.node i cs) (.here hi)).1 h1
      obtain ⟨h5, h6⟩ := collectBuffers_spec W all (np i) (st.buffers i) _ (hW (.node i cs) (.here hi)).2 h3
      refine ⟨h5, fun x => (h6 x).trans ?_⟩
      rw [h4, h2]
      constructor
      · rintro (((h | ⟨n, c, s, hn, -, ho, hx⟩) | h) | h)
        · exact .inl h
        · exact .inr ⟨s, .step hi hn ho, hx⟩
        · exact .inr ⟨.node i cs, .here hi, List.mem_append_left _ h⟩
        · exact .inr ⟨.node i cs, .here hi, List.mem_append_right _ h⟩
      · rintro (h | ⟨s, ho, hx⟩)
        · exact .inl (.inl (.inl h))
        · cases ho with
          | here h =>
            rcases List.mem_append.1 hx with h | h
            · exact .inl (.inr h)
            · exact .inr h
          | step h hs hr => exact .inl (.inl (.inr ⟨_, _, s, hs, by simp, hr, hx⟩))

theorem collectAll_spec {root : Tree} (hc : Consistent root) (W : Nat → Bool) (st : St D) (np : Nat → String → Bool)
    (all : Bool) (skip : List Nat) : ∀ (cs : Children) (given : List Nat) (a : List Nat × List Nat),
    (∀ n s, HasChild cs n s → s ∈ subs root) →
    (∀ n c s, HasChild cs n c → Open skip c s → (∀ p ∈ (st.params s.id).map (·.2), W p = true) ∧
      ∀ b ∈ st.buffers s.id, W b.2 = (all || !np s.id b.1)) → Collected W a →
    Collected W (collectAll st np all skip cs given a) ∧
      ∀ x, x ∈ (collectAll st np all skip cs given a).1 ↔
        x ∈ a.1 ∨ ∃ n c s, HasChild cs n c ∧ c.id ∉ given ∧ Open skip c s ∧ x ∈ ownTensors st s.id
  | .nil, given, a, hs, hW, ha => by
    rw [collectAll]
    exact ⟨ha, fun x => ⟨.inl, by rintro (h | ⟨n, c, s, h, -⟩); exact h; cases h⟩⟩
  | .missing _ cs, given, a, hs, hW, ha => by
    rw [collectAll]
    exact collectAll_spec hc W st np all skip cs given a hs hW ha
  | .child m t cs, given, a, hs, hW, ha => by
    rw [collectAll]
    have hs' : ∀ n s, HasChild cs n s → s ∈ subs root := fun n s h => hs n s (.inr h)
    have hW' : ∀ n c s, HasChild cs n c → Open skip c s → (∀ p ∈ (st.params s.id).map (·.2), W p = true) ∧
      ∀ b ∈ st.buffers s.id, W b.2 = (all || !np s.id b.1) := fun n c s h => hW n c s (.inr h)
    split
    · rename_i hg
      obtain ⟨h1, h2⟩ := collectAll_spec hc W st np all skip cs given a hs' hW' ha
      refine ⟨h1, fun x => (h2 x).trans ⟨?_, ?_⟩⟩
      · rintro (h | ⟨n, c, s, h, r⟩)
        · exact .inl h
        · exact .inr ⟨n, c, s, .inr h, r⟩
      · rintro (h | ⟨n, c, s, h, hn, r⟩)
        · exact .inl h
        · rcases h with ⟨-, rfl⟩ | h
          · exact absurd hg hn
          · exact .inr ⟨n, c, s, h, hn, r⟩
    · rename_i hg
      have ht := hs m t (.inl ⟨rfl, rfl⟩)
      obtain ⟨h1, h2⟩ := collect_spec hc W st np all skip t a ht (fun s ho => hW m t s (.inl ⟨rfl, rfl⟩) ho) ha
      obtain ⟨h3, h4⟩ := collectAll_spec hc W st np all skip cs (t.id :: given) _ hs' hW' h1
      refine ⟨h3, fun x => (h4 x).trans ?_⟩
      rw [h2]
      constructor
      · rintro ((h | ⟨s, ho, hx⟩) | ⟨n, c, s, h, hn, r⟩)
        · exact .inl h
        · exact .inr ⟨m, t, s, .inl ⟨rfl, rfl⟩, hg, ho, hx⟩
        · exact .inr ⟨n, c, s, .inr h, fun h => hn (by simp [h]), r⟩
      · rintro (h | ⟨n, c, s, h, hn, ho, hx⟩)
        · exact .inl (.inl h)
        · rcases h with ⟨-, rfl⟩ | h
          · exact .inl (.inr ⟨s, ho, hx⟩)
          · by_cases he : c.id = t.id
            · have := hc c (hs' n c h) t ht he
              subst this
              exact .inl (.inr ⟨s, ho, hx⟩)
            · exact .inr ⟨n, c, s, h, by simp [he, hn], ho, hx⟩

end

/-! Renaming tensors. -/

theorem collectParams_map (ρ : Nat → Nat) (hρ : ∀ x y, ρ x = ρ y → x = y) : ∀ (ps : List Nat) (a : List Nat × List Nat),
    collectParams (ps.map ρ) (a.1.map ρ, a.2.map ρ) =
      ((collectParams ps a).1.map ρ, (collectParams ps a).2.map ρ)
  | [], a => rfl
  | p :: ps, (memo, out) => by
    have e : ρ p ∈ memo.map ρ ↔ p ∈ memo := by
      simp only [List.mem_map]
      exact ⟨fun ⟨x, h1, h2⟩ => hρ _ _ h2 ▸ h1, fun h => ⟨p, h, rfl⟩⟩
    rw [List.map_cons, collectParams, collectParams]
    by_cases hp : p ∈ memo
    · rw [if_pos hp, if_pos (e.2 hp)]
      exact collectParams_map ρ hρ ps (memo, out)
    · rw [if_neg hp, if_neg (fun h => hp (e.1 h))]
      have := collectParams_map ρ hρ ps (p :: memo, out ++ [p])
      simpa using this

theorem collectBuffers_map (ρ : Nat → Nat) (hρ : ∀ x y, ρ x = ρ y → x = y) (all : Bool) (np : String → Bool) :
    ∀ (bs : List (String × Nat)) (a : List Nat × List Nat),
    collectBuffers all np (bs.map fun s => (s.1, ρ s.2)) (a.1.map ρ, a.2.map ρ) =
      ((collectBuffers all np bs a).1.map ρ, (collectBuffers all np bs a).2.map ρ)
  | [], a => rfl
  | (n, p) :: ps, (memo, out) => by
    have e : ρ p ∈ memo.map ρ ↔ p ∈ memo := by
      simp only [List.mem_map]
      exact ⟨fun ⟨x, h1, h2⟩ => hρ _ _ h2 ▸ h1, fun h => ⟨p, h, rfl⟩⟩
    rw [List.map_cons, collectBuffers, collectBuffers]
    by_cases hp : p ∈ memo
    · rw [if_pos hp, if_pos (e.2 hp)]
      exact collectBuffers_map ρ hρ all np ps (memo, out)
    · rw [if_neg hp, if_neg (fun h => hp (e.1 h))]
      by_cases hn : (!all && np n) = true
      · rw [if_pos hn, if_pos hn]
        have := collectBuffers_map ρ hρ all np ps (p :: memo, out)
        simpa using this
      · rw [if_neg hn, if_neg hn]
        have := collectBuffers_map ρ hρ all np ps (p :: memo, out ++ [p])
        simpa using this

mutual

theorem collect_map (ρ : Nat → Nat) (hρ : ∀ x y, ρ x = ρ y → x = y) (st st' : St D) (np : Nat → String → Bool)
    (all : Bool) (skip : List Nat) (root : Tree)
    (h : ∀ m ∈ ids root, st'.params m = (st.params m).map (fun s => (s.1, ρ s.2)) ∧
      st'.buffers m = (st.buffers m).map fun s => (s.1, ρ s.2)) : ∀ (t : Tree) (a : List Nat × List Nat),
    t ∈ subs root → collect st' np all skip t (a.1.map ρ, a.2.map ρ) =
      ((collect st np all skip t a).1.map ρ, (collect st np all skip t a).2.map ρ)
  | .node i cs, a, ht => by
    rw [collect, collect]
    by_cases hi : i ∈ skip
    · rw [if_pos hi, if_pos hi]
    · rw [if_neg hi, if_neg hi]
      have hm := h i (List.mem_map.2 ⟨_, ht, rfl⟩)
      simp only
      rw [collectAll_map ρ hρ st st' np all skip root h cs [] a (fun n s hs =>
        subs_trans root _ s ht (by rw [subs]; exact List.mem_cons_of_mem _ (child_sub cs n s hs))), hm.1, hm.2]
      have e : ((st.params i).map fun s => (s.1, ρ s.2)).map (·.2) = ((st.params i).map (·.2)).map ρ := by
        simp [Function.comp_def]
      rw [e, collectParams_map ρ hρ, collectBuffers_map ρ hρ]

theorem collectAll_map (ρ : Nat → Nat) (hρ : ∀ x y, ρ x = ρ y → x = y) (st st' : St D) (np : Nat → String → Bool)
    (all : Bool) (skip : List Nat) (root : Tree)
    (h : ∀ m ∈ ids root, st'.params m = (st.params m).map (fun s => (s.1, ρ s.2)) ∧
      st'.buffers m = (st.buffers m).map fun s => (s.1, ρ s.2)) : ∀ (cs : Children) (given : List Nat)
    (a : List Nat × List Nat), (∀ n s, HasChild cs n s → s ∈ subs root) →
    collectAll st' np all skip cs given (a.1.map ρ, a.2.map ρ) =
      ((collectAll st np all skip cs given a).1.map ρ, (collectAll st np all skip cs given a).2.map ρ)
  | .nil, _, _, _ => by rw [collectAll, collectAll]
  | .missing _ cs, given, a, hs => by
    rw [collectAll, collectAll]; exact collectAll_map ρ hρ st st' np all skip root h cs given a hs
  | .child m t cs, given, a, hs => by
    rw [collectAll, collectAll]
    have hs' : ∀ n s, HasChild cs n s → s ∈ subs root := fun n s h => hs n s (.inr h)
    by_cases hg : t.id ∈ given
    · rw [if_pos hg, if_pos hg]
      exact collectAll_map ρ hρ st st' np all skip root h cs given a hs'
    · rw [if_neg hg, if_neg hg, collect_map ρ hρ st st' np all skip root h t a (hs m t (.inl ⟨rfl, rfl⟩))]
      exact collectAll_map ρ hρ st st' np all skip root h cs (t.id :: given) _ hs'

end

/-! ### `receive` -/

theorem receive_slots : ∀ (ts : List Nat) (ds : List (Option D)) (st : St D),
    (receive ts ds st).params = st.params ∧ (receive ts ds st).buffers = st.buffers
  | [], _, st => by rw [receive]; exact ⟨rfl, rfl⟩; simp
  | _ :: _, [], st => by rw [receive]; exact ⟨rfl, rfl⟩; simp
  | t :: ts, d :: ds, st => by
    rw [receive]
    exact receive_slots ts ds _

theorem receive_other : ∀ (ts : List Nat) (ds : List (Option D)) (st : St D) (i : Nat), i ∉ ts →
    (receive ts ds st).tensors[i]? = st.tensors[i]?
  | [], _, st, _, _ => by rw [receive]; simp
  | _ :: _, [], st, _, _ => by rw [receive]; simp
  | t :: ts, d :: ds, st, i, h => by
    rw [receive, receive_other ts ds _ i (fun hh => h (by simp [hh]))]
    simp only
    have hne : t ≠ i := fun hh => h (by simp [hh])
    rw [List.getElem?_modify]
    simp [hne]

/-- The k-th tensor gets the k-th value. -/
theorem receive_get : ∀ (ts : List Nat) (ds : List (Option D)) (st : St D), ts.Nodup → ∀ (k i : Nat) (d : D) (x : Tn D),
    ts[k]? = some i → ds[k]? = some (some d) → st.tensors[i]? = some x →
    (receive ts ds st).tensors[i]? = some { x with data := d }
  | [], _, _, _, _, _, _, _, h, _, _ => by simp at h
  | _ :: _, [], _, _, _, _, _, _, _, h, _ => by simp at h
  | t :: ts, d0 :: ds, st, hnd, k, i, d, x, h1, h2, h3 => by
    rw [List.nodup_cons] at hnd
    rw [receive]
    cases k with
    | zero =>
      simp at h1 h2
      subst h1 h2
      rw [receive_other _ _ _ _ hnd.1]
      simp [h3]
    | succ k =>
      simp only [List.getElem?_cons_succ] at h1 h2
      refine receive_get ts ds _ hnd.2 k i d x h1 h2 ?_
      have hne : t ≠ i := by rintro rfl; exact hnd.1 (List.mem_of_getElem? h1)
      simp only
      rw [List.getElem?_modify]
      simp [hne, h3]

/-! ### `load_state_dict` -/

/-- A child that is `None`. -/
def HasMissing : Children → String → Prop
  | .nil, _ => False
  | .missing m r, n => m = n ∨ HasMissing r n
  | .child _ _ r, n => HasMissing r n

mutual

theorem visit_missing : ∀ (post : Bool) (pre : String) (t : Tree) (memo : List Nat) (name : String),
    (name, none) ∈ (visit post pre t memo).1 →
    ∃ ks i cs n, Leads t ks (.node i cs) ∧ HasMissing cs n ∧ name = (ks ++ [n]).foldl join pre
  | post, pre, .node id cs, memo, name, h => by
    rw [visit] at h
    split at h
    · cases h
    · have h' : (name, none) ∈ (visitAll post pre cs (id :: memo)).1 := by
        simp only at h
        split at h
        · rcases List.mem_append.1 h with h | h
          · exact h
          · simp at h
        · rcases List.mem_cons.1 h with h | h
          · simp at h
          · exact h
      rcases visitAll_missing post pre cs (id :: memo) name h' with ⟨n, h1, h2⟩ | ⟨m, c, ks, i, cs', n, h1, h2, h3, h4⟩
      · exact ⟨[], id, cs, n, .here _, h1, h2⟩
      · exact ⟨m :: ks, i, cs', n, .step h1 h2, h3, h4⟩

theorem visitAll_missing : ∀ (post : Bool) (pre : String) (cs : Children) (memo : List Nat) (name : String),
    (name, none) ∈ (visitAll post pre cs memo).1 →
    (∃ n, HasMissing cs n ∧ name = join pre n) ∨
    ∃ m c ks i cs' n, HasChild cs m c ∧ Leads c ks (.node i cs') ∧ HasMissing cs' n ∧
      name = (ks ++ [n]).foldl join (join pre m)
  | _, _, .nil, _, _, h => by rw [visitAll] at h; cases h
  | post, pre, .missing m cs, memo, name, h => by
    rw [visitAll] at h
    rcases List.mem_cons.1 h with h | h
    · cases h; exact .inl ⟨m, .inl rfl, rfl⟩
    · rcases visitAll_missing post pre cs memo name h with ⟨n, h1, h2⟩ | ⟨m, c, ks, i, cs', n, h1, r⟩
      · exact .inl ⟨n, .inr h1, h2⟩
      · exact .inr ⟨m, c, ks, i, cs', n, h1, r⟩
  | post, pre, .child m t cs, memo, name, h => by
    rw [visitAll] at h
    rcases List.mem_append.1 h with h | h
    · obtain ⟨ks, i, cs', n, h1, h2, h3⟩ := visit_missing post (join pre m) t memo name h
      exact .inr ⟨m, t, ks, i, cs', n, .inl ⟨rfl, rfl⟩, h1, h2, h3⟩
    · rcases visitAll_missing post pre cs _ name h with ⟨n, h1, h2⟩ | ⟨m, c, ks, i, cs', n, h1, r⟩
      · exact .inl ⟨n, h1, h2⟩
      · exact .inr ⟨m, c, ks, i, cs', n, .inr h1, r⟩

end

theorem subsAll_child : ∀ (cs : Children) (s : Tree), s ∈ subsAll cs → ∃ n c, HasChild cs n c ∧ s ∈ subs c
  | .nil, _, h => by rw [subsAll] at h; cases h
  | .missing _ cs, s, h => by rw [subsAll] at h; exact subsAll_child cs s h
  | .child m t cs, s, h => by
    rw [subsAll] at h
    rcases List.mem_append.1 h with h | h
    · exact ⟨m, t, .inl ⟨rfl, rfl⟩, h⟩
    · obtain ⟨n, c, h1, h2⟩ := subsAll_child cs s h
      exact ⟨n, c, .inr h1, h2⟩

mutual

/-- If no module is reached in two ways, nothing is left out. -/
theorem visit_missing_all : ∀ (post : Bool) (pre : String) (t : Tree) (memo : List Nat), (ids t).Nodup →
    (∀ i ∈ ids t, i ∉ memo) → ∀ (ks : List String) (r : Tree), Leads t ks r → ∀ i cs n, r = .node i cs → HasMissing cs n →
    ((ks ++ [n]).foldl join pre, none) ∈ (visit post pre t memo).1
  | post, pre, .node id cs, memo, hnd, hm, ks, r, hl, i, cs', n, hr, hn => by
    have hid : id ∉ memo := hm id (id_mem_ids (.node id cs))
    rw [visit, if_neg hid]
    unfold ids at hnd hm
    rw [subs, List.map_cons] at hnd hm
    rw [List.nodup_cons] at hnd
    have key : ((ks ++ [n]).foldl join pre, none) ∈ (visitAll post pre cs (id :: memo)).1 := by
      refine visitAll_missing_all post pre cs (id :: memo) hnd.2 ?_ ?_
      · intro j hj h
        rcases List.mem_cons.1 h with rfl | h
        · exact hnd.1 hj
        · exact hm j (List.mem_cons_of_mem _ hj) h
      · cases hl with
        | here => cases hr; exact .inl ⟨n, hn, rfl⟩
        | step hs hl' => exact .inr ⟨_, _, _, r, i, cs', n, hs, hl', hr, hn, rfl⟩
    simp only
    split
    · exact List.mem_append_left _ key
    · exact List.mem_cons_of_mem _ key

theorem visitAll_missing_all : ∀ (post : Bool) (pre : String) (cs : Children) (memo : List Nat),
    ((subsAll cs).map Tree.id).Nodup → (∀ i ∈ (subsAll cs).map Tree.id, i ∉ memo) → ∀ {name : String},
    ((∃ n, HasMissing cs n ∧ name = join pre n) ∨
      ∃ m c ks r i cs' n, HasChild cs m c ∧ Leads c ks r ∧ r = .node i cs' ∧ HasMissing cs' n ∧
        name = (ks ++ [n]).foldl join (join pre m)) →
    (name, none) ∈ (visitAll post pre cs memo).1
  | _, _, .nil, _, _, _, _, h => by
    rcases h with ⟨n, h, -⟩ | ⟨m, c, ks, r, i, cs', n, h, -⟩ <;> cases h
  | post, pre, .missing m cs, memo, hnd, hm, name, h => by
    rw [subsAll] at hnd hm
    rw [visitAll]
    rcases h with ⟨n, rfl | h, he⟩ | ⟨m', c, ks, r, i, cs', n, h, r'⟩
    · subst he; exact List.mem_cons_self ..
    · exact List.mem_cons_of_mem _ (visitAll_missing_all post pre cs memo hnd hm (.inl ⟨n, h, he⟩))
    · exact List.mem_cons_of_mem _ (visitAll_missing_all post pre cs memo hnd hm (.inr ⟨m', c, ks, r, i, cs', n, h, r'⟩))
  | post, pre, .child m t cs, memo, hnd, hm, name, h => by
    rw [subsAll, List.map_append] at hnd hm
    rw [List.nodup_append] at hnd
    rw [visitAll]
    have hm1 : ∀ i ∈ ids t, i ∉ memo := fun i hi => hm i (List.mem_append_left _ hi)
    have hm2 : ∀ i ∈ (subsAll cs).map Tree.id, i ∉ (visit post (join pre m) t memo).2 := by
      intro i hi h
      obtain ⟨-, f2, f3, -⟩ := visit_found post (join pre m) t memo
      rcases (f3 i).1 h with h | h
      · exact hm i (List.mem_append_right _ hi) h
      · exact hnd.2.2 i (f2 i h).1 i hi rfl
    rcases h with ⟨n, h, he⟩ | ⟨m', c, ks, r, i, cs', n, h, h2, h3, h4, h5⟩
    · exact List.mem_append_right _ (visitAll_missing_all post pre cs _ hnd.2.1 hm2 (.inl ⟨n, h, he⟩))
    · rcases h with ⟨e1, e2⟩ | h
      · refine List.mem_append_left _ ?_
        rw [h5, ← e1]
        exact visit_missing_all post (join pre m) t memo hnd.1 hm1 ks r (e2 ▸ h2) i cs' n h3 h4
      · exact List.mem_append_right _ (visitAll_missing_all post pre cs _ hnd.2.1 hm2
          (.inr ⟨m', c, ks, r, i, cs', n, h, h2, h3, h4, h5⟩))

end

end Fs2.Mod
