import Verif.Nn.TensorParallel
import Mathlib.Data.List.Forall2

/-!
# Key/value caches with related contents

Two caches whose elements are related stay related, whatever is done to both of them, and an operation fails on both
or on neither.
-/

namespace Fs2.Tp
open Fs2.Nn Fs2.Dec

variable {α β : Type} {R : α → β → Prop}

theorem rel_bind {γ δ : Type} {S : γ → δ → Prop} {x : Option α} {y : Option β} (h : Option.Rel R x y)
    {f : α → Option γ} {g : β → Option δ} (hf : ∀ a b, R a b → Option.Rel S (f a) (g b)) :
    Option.Rel S (x.bind f) (y.bind g) := by
  cases h with
  | some h => exact hf _ _ h
  | none => exact .none

theorem rel_mono {S : α → β → Prop} {x : Option α} {y : Option β} (h : Option.Rel R x y)
    (hf : ∀ a b, R a b → S a b) : Option.Rel S x y := by
  cases h with
  | some h => exact .some (hf _ _ h)
  | none => exact .none

theorem rel_omap {γ δ : Type} {S : γ → δ → Prop} {x : Option α} {y : Option β} (h : Option.Rel R x y)
    {f : α → γ} {g : β → δ} (hf : ∀ a b, R a b → S (f a) (g b)) : Option.Rel S (x.map f) (y.map g) := by
  cases h with
  | some h => exact .some (hf _ _ h)
  | none => exact .none

theorem rel_mapM {γ δ : Type} {S : γ → δ → Prop} {f : α → Option γ} {g : β → Option δ}
    (hf : ∀ a b, R a b → Option.Rel S (f a) (g b)) : ∀ {l : List α} {l' : List β}, List.Forall₂ R l l' →
    Option.Rel (List.Forall₂ S) (l.mapM f) (l'.mapM g) := by
  intro l l' h
  induction h with
  | nil => exact .some .nil
  | cons h _ ih =>
    rw [List.mapM_cons, List.mapM_cons]
    refine rel_bind (hf _ _ h) fun a b hab => rel_bind ih fun as bs hs => .some (.cons hab hs)

theorem rel_getElem? {l : List α} {l' : List β} (h : List.Forall₂ R l l') (i : Nat) :
    Option.Rel R l[i]? l'[i]? := by
  induction h generalizing i with
  | nil => exact .none
  | cons h _ ih =>
    cases i with
    | zero => exact .some h
    | succ i => simpa using ih i

theorem rel_replicate {a : α} {b : β} (h : R a b) (n : Nat) :
    List.Forall₂ R (List.replicate n a) (List.replicate n b) := by
  induction n with
  | zero => exact .nil
  | succ n ih => exact .cons h ih

/-- Two tensors with the given tails of their shapes and related elements. -/
structure TenRel (A B : List Nat) (R : α → β → Prop) (t : Ten α) (u : Ten β) : Prop where
  left : t.tail = A
  right : u.tail = B
  len : t.len = u.len
  rows : List.Forall₂ (List.Forall₂ R) t.rows u.rows

variable {A B : List Nat}

theorem assignRow_rel {row src : List α} {row' src' : List β} (a b : Nat) (h : List.Forall₂ R row row')
    (hs : List.Forall₂ R src src') : Option.Rel (List.Forall₂ R) (assignRow row a b src) (assignRow row' a b src') := by
  unfold assignRow
  simp only [← h.length_eq, ← hs.length_eq]
  split
  · exact .some (List.rel_append (List.rel_append (List.forall₂_take _ h) hs) (List.forall₂_drop _ h))
  · cases hs with
    | nil => exact .none
    | cons hx hs =>
      cases hs with
      | nil => exact .some (List.rel_append (List.rel_append (List.forall₂_take _ h) (rel_replicate hx _))
          (List.forall₂_drop _ h))
      | cons _ _ => exact .none

theorem zip_rel {γ δ : Type} {S : γ → δ → Prop} {l : List α} {l' : List β} {m : List γ} {m' : List δ}
    (h : List.Forall₂ R l l') (hm : List.Forall₂ S m m') :
    List.Forall₂ (fun (x : α × γ) (y : β × δ) => R x.1 y.1 ∧ S x.2 y.2) (l.zip m) (l'.zip m') := by
  induction h generalizing m m' with
  | nil => simp
  | cons h _ ih =>
    cases hm with
    | nil => simp
    | cons h' hm => exact .cons ⟨h, h'⟩ (ih hm)

theorem assign_rel {t s : Ten α} {u w : Ten β} (a b : Nat) (h : TenRel A B R t u) (hs : TenRel A B R s w) :
    Option.Rel (TenRel A B R) (t.assign a b s) (u.assign a b w) := by
  unfold Ten.assign
  have e1 : ¬ s.tail ≠ t.tail := by rw [hs.left, h.left]; simp
  have e2 : ¬ w.tail ≠ u.tail := by rw [hs.right, h.right]; simp
  rw [if_neg e1, if_neg e2]
  have hl := h.rows.length_eq
  have hl' := hs.rows.length_eq
  have hsr : Option.Rel (List.Forall₂ (List.Forall₂ R))
      (if s.rows.length = t.rows.length then some s.rows
        else match s.rows with
          | [r] => some (List.replicate t.rows.length r)
          | _ => none)
      (if w.rows.length = u.rows.length then some w.rows
        else match w.rows with
          | [r] => some (List.replicate u.rows.length r)
          | _ => none) := by
    rw [← hl, ← hl']
    split
    · exact .some hs.rows
    · have := hs.rows
      revert this
      generalize s.rows = sr
      generalize w.rows = wr
      intro this
      cases this with
      | nil => exact .none
      | cons hx hs =>
        cases hs with
        | nil => exact .some (rel_replicate hx _)
        | cons _ _ => exact .none
  refine rel_bind hsr fun sr wr hr => ?_
  refine rel_bind (rel_mapM (S := List.Forall₂ R) ?_ (zip_rel h.rows hr)) fun rows rows' hrows => ?_
  · rintro ⟨d, s⟩ ⟨d', s'⟩ ⟨h1, h2⟩
    exact assignRow_rel a b h1 h2
  · exact .some ⟨h.left, h.right, h.len, hrows⟩

theorem prefix_rel {t : Ten α} {u : Ten β} (h : TenRel A B R t u) (n : Nat) :
    TenRel A B R (t.prefix n) (u.prefix n) := by
  refine ⟨h.left, h.right, by simp [Ten.prefix, h.len], ?_⟩
  simp only [Ten.prefix, List.forall₂_map_left_iff, List.forall₂_map_right_iff]
  exact h.rows.imp fun _ _ h => List.forall₂_take _ h

theorem suffix_rel {t : Ten α} {u : Ten β} (h : TenRel A B R t u) (n : Nat) :
    TenRel A B R (t.suffix n) (u.suffix n) := by
  unfold Ten.suffix
  split
  · exact h
  · refine ⟨h.left, h.right, by simp [h.len], ?_⟩
    simp only [List.forall₂_map_left_iff, List.forall₂_map_right_iff]
    exact h.rows.imp fun _ _ h => by rw [h.length_eq]; exact List.forall₂_drop _ h

theorem roll_rel {t : Ten α} {u : Ten β} (h : TenRel A B R t u) (n : Nat) :
    TenRel A B R (t.rollLeft n) (u.rollLeft n) := by
  refine ⟨h.left, h.right, h.len, ?_⟩
  simp only [Ten.rollLeft, List.forall₂_map_left_iff, List.forall₂_map_right_iff]
  exact h.rows.imp fun _ _ h => by
    rw [h.length_eq]; exact List.rel_append (List.forall₂_drop _ h) (List.forall₂_take _ h)

theorem select_rel {t : Ten α} {u : Ten β} (h : TenRel A B R t u) (order : List Nat) :
    Option.Rel (TenRel A B R) (t.indexSelect order) (u.indexSelect order) := by
  refine rel_bind (rel_mapM (R := Eq) (S := List.Forall₂ R) ?_ (List.forall₂_eq_eq_eq ▸ rfl)) fun rows rows' hr => ?_
  · rintro i _ rfl
    exact rel_getElem? h.rows i
  · exact .some ⟨h.left, h.right, h.len, hr⟩

theorem empty_rel {j : α} {j' : β} (hj : R j j') (n len : Nat) :
    TenRel A B R (newEmpty j n len A) (newEmpty j' n len B) :=
  ⟨rfl, rfl, rfl, rel_replicate (rel_replicate hj _) _⟩

/-! ## The three states -/

structure FullRel (A B : List Nat) (R : α → β → Prop) (s : Full α) (t : Full β) : Prop where
  seqLen : s.seqLen = t.seqLen
  inc : s.capacityIncrement = t.capacityIncrement
  k : TenRel A B R s.k t.k
  v : TenRel A B R s.v t.v

structure LocalRel (A B : List Nat) (R : α → β → Prop) (s : Local α) (t : Local β) : Prop where
  seqLen : s.seqLen = t.seqLen
  window : s.window = t.window
  inc : s.capacityIncrement = t.capacityIncrement
  k : TenRel A B R s.k t.k
  v : TenRel A B R s.v t.v

structure StaticRel (A B : List Nat) (R : α → β → Prop) (s : Static α) (t : Static β) : Prop where
  k : TenRel A B R s.k t.k
  v : TenRel A B R s.v t.v

theorem full_expand_rel {s : Full α} {t : Full β} (h : FullRel A B R s t) {j : α} {j' : β} (hj : R j j') (n : Nat) :
    Option.Rel (FullRel A B R) (s.expand j n) (t.expand j' n) := by
  unfold Full.expand
  rw [← h.inc]
  cases hi : s.capacityIncrement with
  | none => exact .some h
  | some inc =>
    simp only [← h.seqLen, ← h.k.len, ← h.k.rows.length_eq]
    split
    · exact .some h
    · have hk : ∀ (m c : Nat), TenRel A B R (newEmpty j m c s.k.tail) (newEmpty j' m c t.k.tail) := by
        intro m c; rw [h.k.left, h.k.right]; exact empty_rel hj _ _
      split
      · refine rel_bind (assign_rel _ _ (hk _ _) (prefix_rel h.k _)) fun k k' hkk => ?_
        refine rel_bind (assign_rel _ _ (hk _ _) (prefix_rel h.v _)) fun v v' hvv => ?_
        exact .some ⟨rfl, rfl, hkk, hvv⟩
      · exact .some ⟨rfl, rfl, hk _ _, hk _ _⟩

theorem full_new_rel {k v : Ten α} {k' v' : Ten β} (hk : TenRel A B R k k') (hv : TenRel A B R v v') {j : α} {j' : β}
    (hj : R j j') (n : Nat) (inc : Option Nat) :
    Option.Rel (FullRel A B R) (Full.new j k v n inc) (Full.new j' k' v' n inc) := by
  unfold Full.new
  split
  · exact .none
  · simp only [← hk.rows.length_eq, ← hk.len, hk.left, hk.right]
    refine rel_bind (full_expand_rel (A := A) (B := B) (R := R) ⟨rfl, rfl, empty_rel hj _ _, empty_rel hj _ _⟩ hj _) fun s t h => ?_
    refine rel_bind (assign_rel _ _ h.k hk) fun a a' ha => ?_
    refine rel_bind (assign_rel _ _ h.v hv) fun b b' hb => ?_
    exact .some ⟨rfl, h.inc, ha, hb⟩

theorem full_append_rel {s : Full α} {t : Full β} (h : FullRel A B R s t) {k v : Ten α} {k' v' : Ten β}
    (hk : TenRel A B R k k') (hv : TenRel A B R v v') {j : α} {j' : β} (hj : R j j') :
    Option.Rel (FullRel A B R) (s.append j k v) (t.append j' k' v') := by
  unfold Full.append
  simp only [← hk.len]
  refine rel_bind (full_expand_rel h hj _) fun s t h => ?_
  simp only [← h.seqLen]
  refine rel_bind (assign_rel _ _ h.k hk) fun a a' ha => ?_
  refine rel_bind (assign_rel _ _ h.v hv) fun b b' hb => ?_
  exact .some ⟨rfl, h.inc, ha, hb⟩

theorem full_reorder_rel {s : Full α} {t : Full β} (h : FullRel A B R s t) (order : List Nat) :
    Option.Rel (FullRel A B R) (s.reorder order) (t.reorder order) := by
  refine rel_bind (select_rel h.k order) fun a a' ha => ?_
  refine rel_bind (select_rel h.v order) fun b b' hb => ?_
  exact .some ⟨h.seqLen, h.inc, ha, hb⟩

theorem local_expand_rel {s : Local α} {t : Local β} (h : LocalRel A B R s t) {j : α} {j' : β} (hj : R j j') (n : Nat) :
    Option.Rel (LocalRel A B R) (s.expand j n) (t.expand j' n) := by
  unfold Local.expand
  rw [← h.inc]
  cases hi : s.capacityIncrement with
  | none => exact .some h
  | some inc =>
    simp only [← h.seqLen, ← h.k.len, ← h.k.rows.length_eq, ← h.window]
    split
    · exact .some h
    · have hk : ∀ (m c : Nat), TenRel A B R (newEmpty j m c s.k.tail) (newEmpty j' m c t.k.tail) := by
        intro m c; rw [h.k.left, h.k.right]; exact empty_rel hj _ _
      split
      · refine rel_bind (assign_rel _ _ (hk _ _) (prefix_rel h.k _)) fun k k' hkk => ?_
        refine rel_bind (assign_rel _ _ (hk _ _) (prefix_rel h.v _)) fun v v' hvv => ?_
        exact .some ⟨rfl, rfl, rfl, hkk, hvv⟩
      · exact .some ⟨rfl, rfl, rfl, hk _ _, hk _ _⟩

theorem local_new_rel {k v : Ten α} {k' v' : Ten β} (hk : TenRel A B R k k') (hv : TenRel A B R v v') {j : α} {j' : β}
    (hj : R j j') (n w : Nat) (inc : Option Nat) :
    Option.Rel (LocalRel A B R) (Local.new j k v n w inc) (Local.new j' k' v' n w inc) := by
  unfold Local.new
  split
  · exact .none
  · simp only [← hk.rows.length_eq, ← hk.len, hk.left, hk.right]
    refine rel_bind (local_expand_rel (A := A) (B := B) (R := R) ⟨rfl, rfl, rfl, empty_rel hj _ _, empty_rel hj _ _⟩ hj _) fun s t h => ?_
    refine rel_bind (assign_rel _ _ h.k (suffix_rel hk _)) fun a a' ha => ?_
    refine rel_bind (assign_rel _ _ h.v (suffix_rel hv _)) fun b b' hb => ?_
    exact .some ⟨rfl, h.window, h.inc, ha, hb⟩

theorem local_append_rel {s : Local α} {t : Local β} (h : LocalRel A B R s t) {k v : Ten α} {k' v' : Ten β}
    (hk : TenRel A B R k k') (hv : TenRel A B R v v') {j : α} {j' : β} (hj : R j j') :
    Option.Rel (LocalRel A B R) (s.append j k v) (t.append j' k' v') := by
  unfold Local.append
  simp only [← hk.len]
  refine rel_bind (local_expand_rel h hj _) fun s t h => ?_
  simp only [← h.seqLen, ← h.window]
  have key : ∀ (s : Local α) (t : Local β) (p c : Nat), LocalRel A B R s t →
      Option.Rel (LocalRel A B R)
        ((s.k.assign p (p + c) (k.suffix c)).bind fun k' => (s.v.assign p (p + c) (v.suffix c)).bind fun v' =>
          some { s with k := k', v := v', seqLen := s.seqLen + k.len })
        ((t.k.assign p (p + c) (k'.suffix c)).bind fun k'' => (t.v.assign p (p + c) (v'.suffix c)).bind fun v' =>
          some { t with k := k'', v := v', seqLen := t.seqLen + k.len }) := by
    intro s t p c h
    refine rel_bind (assign_rel _ _ h.k (suffix_rel hk _)) fun a a' ha => ?_
    refine rel_bind (assign_rel _ _ h.v (suffix_rel hv _)) fun b b' hb => ?_
    exact .some ⟨by simp [h.seqLen], h.window, h.inc, ha, hb⟩
  split
  · split
    · exact key s t _ _ h
    · exact key { s with k := s.k.rollLeft _, v := s.v.rollLeft _ }
        { t with seqLen := s.seqLen, window := s.window, k := t.k.rollLeft _, v := t.v.rollLeft _ }
        _ _ ⟨rfl, rfl, h.inc, roll_rel h.k _, roll_rel h.v _⟩
  · exact key s t _ _ h

theorem local_reorder_rel {s : Local α} {t : Local β} (h : LocalRel A B R s t) (order : List Nat) :
    Option.Rel (LocalRel A B R) (s.reorder order) (t.reorder order) := by
  refine rel_bind (select_rel h.k order) fun a a' ha => ?_
  refine rel_bind (select_rel h.v order) fun b b' hb => ?_
  exact .some ⟨h.seqLen, h.window, h.inc, ha, hb⟩

theorem static_reorder_rel {s : Static α} {t : Static β} (h : StaticRel A B R s t) (order : List Nat) :
    Option.Rel (StaticRel A B R) (s.reorder order) (t.reorder order) := by
  unfold Static.reorder
  rw [← h.k.rows.length_eq]
  split
  · refine rel_bind (select_rel h.k order) fun a a' ha => ?_
    refine rel_bind (select_rel h.v order) fun b b' hb => ?_
    exact .some ⟨ha, hb⟩
  · exact .some h

/-! ## Caches of heads -/

/-- Two caches of the same kind with related contents. -/
inductive CacheRel (A B : List Nat) (R : Heads → Heads → Prop) : Cache → Cache → Prop where
  | full {s t} : FullRel A B R s t → CacheRel A B R (.full s) (.full t)
  | window {s t} : LocalRel A B R s t → CacheRel A B R (.window s) (.window t)

variable {S : Heads → Heads → Prop}

theorem cache_new_rel {k v k' v' : Ten Heads} (hk : TenRel A B S k k') (hv : TenRel A B S v v') {j j' : Heads}
    (hj : S j j') (kind : StateKind) (b : Bag) :
    Option.Rel (CacheRel A B S) (Cache.new j kind k v b) (Cache.new j' kind k' v' b) := by
  cases kind with
  | full => exact rel_omap (full_new_rel hk hv hj _ _) fun _ _ h => .full h
  | window w => exact rel_omap (local_new_rel hk hv hj _ _ _) fun _ _ h => .window h

theorem cache_append_rel {c c' : Cache} (h : CacheRel A B S c c') {k v k' v' : Ten Heads} (hk : TenRel A B S k k')
    (hv : TenRel A B S v v') {j j' : Heads} (hj : S j j') :
    Option.Rel (CacheRel A B S) (c.append j k v) (c'.append j' k' v') := by
  cases h with
  | full h => exact rel_omap (full_append_rel h hk hv hj) fun _ _ h => .full h
  | window h => exact rel_omap (local_append_rel h hk hv hj) fun _ _ h => .window h

theorem cache_get_rel {c c' : Cache} (h : CacheRel A B S c c') :
    TenRel A B S c.get.1 c'.get.1 ∧ TenRel A B S c.get.2 c'.get.2 := by
  cases h with
  | full h =>
    simp only [Cache.get, Full.get, ← h.seqLen]
    exact ⟨prefix_rel h.k _, prefix_rel h.v _⟩
  | window h =>
    simp only [Cache.get, Local.get, ← h.seqLen]
    exact ⟨prefix_rel h.k _, prefix_rel h.v _⟩

theorem cache_reorder_rel {c c' : Cache} (h : CacheRel A B S c c') (order : List Nat) :
    Option.Rel (CacheRel A B S) (c.reorder order) (c'.reorder order) := by
  cases h with
  | full h => exact rel_omap (full_reorder_rel h order) fun _ _ h => .full h
  | window h => exact rel_omap (local_reorder_rel h order) fun _ _ h => .window h

end Fs2.Tp
