import Verif.Utils.Structured

/-! Lemmas about the conversion of structured values. -/

namespace Fs2.Structured

variable {F : Type}

theorem mapM_ok_of {α β : Type} {f : α → Except Err β} {g : α → β} {l : List α}
    (h : ∀ a ∈ l, f a = .ok (g a)) : l.mapM f = .ok (l.map g) := by
  induction l with
  | nil => rfl
  | cons a l ih =>
    rw [List.mapM_cons, h a (by simp), ih (fun b hb => h b (by simp [hb]))]
    rfl

/-- What a successful `mapM` is made of. -/
theorem mapM_ok_inv {α β : Type} {f : α → Except Err β} {l : List α} {r : List β}
    (h : l.mapM f = .ok r) : ∀ b ∈ r, ∃ a ∈ l, f a = .ok b := by
  induction l generalizing r with
  | nil => cases h; simp
  | cons a l ih =>
    rw [List.mapM_cons] at h
    cases ha : f a with
    | error e => rw [ha] at h; cases h
    | ok b =>
      cases hl : l.mapM f with
      | error e => rw [ha, hl] at h; cases h
      | ok bs =>
        rw [ha, hl] at h
        cases h
        intro x hx
        rcases List.mem_cons.1 hx with rfl | hx
        · exact ⟨a, by simp, ha⟩
        · obtain ⟨a', h1, h2⟩ := ih hl x hx
          exact ⟨a', by simp [h1], h2⟩

theorem toTypes_eq (E : Env F) (l : List (Val F)) :
    toTypes E l = l.map fun v => (v, toType E v) := by
  induction l with
  | nil => rw [toTypes]; rfl
  | cons v l ih => rw [toTypes, ih]; rfl

theorem toTypePairs_eq (E : Env F) (es : List (Val F × Val F)) :
    toTypePairs E es = es.map fun e => ((e.1, toType E e.1), (e.2, toType E e.2)) := by
  induction es with
  | nil => rw [toTypePairs]; rfl
  | cons e es ih => rw [toTypePairs, ih]; obtain ⟨k, v⟩ := e; rw [toTypePair]; rfl

/-- Adding a new key to a dictionary. -/
theorem put_new (E : Env F) (k v : Val F) (es : List (Val F × Val F))
    (h : ∀ e ∈ es, E.same e.1 k = false) : put E k v es = es ++ [(k, v)] := by
  induction es with
  | nil => rfl
  | cons e es ih =>
    obtain ⟨k', v'⟩ := e
    rw [put, if_neg (by rw [h (k', v') (by simp)]; decide), ih (fun e he => h e (by simp [he]))]
    rfl

/-- The keys of a dictionary: no key equals an earlier one. -/
def Distinct (E : Env F) (es : List (Val F × Val F)) : Prop :=
  es.Pairwise fun a b => E.same a.1 b.1 = false

theorem put_keys (E : Env F) (k v : Val F) (es : List (Val F × Val F)) :
    ∀ e ∈ put E k v es, e ∈ es ∨ e.2 = v ∧ (e.1 = k ∨ ∃ e' ∈ es, e.1 = e'.1) := by
  induction es with
  | nil => intro e he; simp only [put, List.mem_singleton] at he; subst he; exact .inr ⟨rfl, .inl rfl⟩
  | cons e es ih =>
    obtain ⟨k', v'⟩ := e
    intro x hx
    rw [put] at hx
    split at hx
    · rcases List.mem_cons.1 hx with rfl | hx
      · exact .inr ⟨rfl, .inr ⟨(k', v'), by simp, rfl⟩⟩
      · exact .inl (by simp [hx])
    · rcases List.mem_cons.1 hx with rfl | hx
      · exact .inl (by simp)
      · rcases ih x hx with h | ⟨h1, h2 | ⟨e', h3, h4⟩⟩
        · exact .inl (by simp [h])
        · exact .inr ⟨h1, .inl h2⟩
        · exact .inr ⟨h1, .inr ⟨e', by simp [h3], h4⟩⟩

theorem put_distinct (E : Env F) (k v : Val F) (es : List (Val F × Val F)) (h : Distinct E es) :
    Distinct E (put E k v es) := by
  induction es with
  | nil => exact List.pairwise_singleton _ _
  | cons e es ih =>
    obtain ⟨k', v'⟩ := e
    have h := List.pairwise_cons.1 h
    rw [put]
    split
    · exact List.pairwise_cons.2 ⟨fun x hx => h.1 x hx, h.2⟩
    · rename_i hs
      refine List.pairwise_cons.2 ⟨fun x hx => ?_, ih h.2⟩
      rcases put_keys E k v es x hx with hm | ⟨-, hk | ⟨e', he', hk⟩⟩
      · exact h.1 x hm
      · rw [hk]; exact Bool.eq_false_iff.2 hs
      · rw [hk]; exact h.1 e' he'

theorem dedup_of_distinct (E : Env F) (l : List (Val F))
    (h : l.Pairwise fun a b => E.same a b = false) : dedup E l = l := by
  induction l with
  | nil => rfl
  | cons v l ih =>
    have h := List.pairwise_cons.1 h
    rw [dedup, ih h.2, List.filter_eq_self.2]
    intro x hx
    rw [h.1 x hx]
    rfl

theorem mem_of_mem_dedup (E : Env F) (l : List (Val F)) : ∀ v ∈ dedup E l, v ∈ l := by
  induction l with
  | nil => simp [dedup]
  | cons v l ih =>
    intro x hx
    rw [dedup] at hx
    rcases List.mem_cons.1 hx with rfl | hx
    · simp
    · exact List.mem_cons_of_mem _ (ih x (List.mem_filter.1 hx).1)

theorem dedup_distinct (E : Env F) (l : List (Val F)) :
    (dedup E l).Pairwise fun a b => E.same a b = false := by
  induction l with
  | nil => exact List.Pairwise.nil
  | cons v l ih =>
    rw [dedup]
    refine List.pairwise_cons.2 ⟨fun x hx => ?_, ih.filter _⟩
    have := (List.mem_filter.1 hx).2
    revert this
    cases E.same v x <;> simp

/-- Structuring the entries of a dictionary whose structured keys differ. -/
theorem dictLoop_ok (E : Env F) (kt vt : Ty) (es : List (Val F × Val F))
    (ps : List (Kid F × Kid F)) (out : List (Val F × Val F)) (hlen : ps.length = es.length)
    (hk : ∀ (i : Nat) p e, ps[i]? = some p → es[i]? = some e → p.1.2 kt = .ok e.1)
    (hv : ∀ (i : Nat) p e, ps[i]? = some p → es[i]? = some e → p.2.2 vt = .ok e.2)
    (hh : ∀ e ∈ es, E.hashable e.1 = true) (hd : Distinct E (out ++ es)) :
    dictLoop E kt vt ps out = .ok (out ++ es) := by
  induction es generalizing ps out with
  | nil =>
    match ps, hlen with
    | [], _ => simp [dictLoop]
  | cons e es ih =>
    match ps, hlen with
    | (k, v) :: ps, hlen =>
      have h1 : k.2 kt = .ok e.1 := hk 0 _ _ rfl rfl
      have h2 : v.2 vt = .ok e.2 := hv 0 _ _ rfl rfl
      have hnew : put E e.1 e.2 out = out ++ [e] := by
        rw [put_new]
        intro x hx
        exact (List.pairwise_append.1 hd).2.2 x hx e (by simp)
      rw [dictLoop, h1, h2]
      show (if E.hashable e.1 then dictLoop E kt vt ps (put E e.1 e.2 out) else _) = _
      rw [if_pos (hh e (by simp)), hnew,
        ih ps (out ++ [e]) (by simpa using hlen) (fun i p x hp hx => hk (i + 1) p x hp hx)
          (fun i p x hp hx => hv (i + 1) p x hp hx) (fun x hx => hh x (by simp [hx]))
          (by simpa [List.append_assoc] using hd)]
      simp

/-- The keys and values of what the loop over a dictionary gives. -/
theorem dictLoop_inv (E : Env F) (kt vt : Ty) (P Q : Val F → Prop) (ps : List (Kid F × Kid F))
    (out r : List (Val F × Val F)) (h : dictLoop E kt vt ps out = .ok r)
    (hk : ∀ p ∈ ps, ∀ y, p.1.2 kt = .ok y → P y) (hv : ∀ p ∈ ps, ∀ y, p.2.2 vt = .ok y → Q y)
    (hout : ∀ e ∈ out, P e.1 ∧ Q e.2) (hd : Distinct E out) :
    (∀ e ∈ r, P e.1 ∧ Q e.2) ∧ Distinct E r := by
  induction ps generalizing out with
  | nil => rw [dictLoop] at h; cases h; exact ⟨hout, hd⟩
  | cons p ps ih =>
    obtain ⟨k, v⟩ := p
    rw [dictLoop] at h
    cases h1 : k.2 kt with
    | error e => rw [h1] at h; cases h
    | ok k' =>
      cases h2 : v.2 vt with
      | error e => rw [h1, h2] at h; cases h
      | ok v' =>
        rw [h1, h2] at h
        change (if E.hashable k' then dictLoop E kt vt ps (put E k' v' out) else _) = _ at h
        split at h
        · refine ih _ h (fun p hp => hk p (by simp [hp])) (fun p hp => hv p (by simp [hp])) ?_
            (put_distinct _ _ _ _ hd)
          intro e he
          rcases put_keys E k' v' out e he with hm | ⟨h3, h4 | ⟨e', h5, h6⟩⟩
          · exact hout e hm
          · exact ⟨h4 ▸ hk (k, v) (by simp) k' h1, h3 ▸ hv (k, v) (by simp) v' h2⟩
          · exact ⟨h6 ▸ (hout e' h5).1, h3 ▸ hv (k, v) (by simp) v' h2⟩
        · cases h

theorem unstructures_ok (E : Env F) (l us : List (Val F)) (hlen : us.length = l.length)
    (h : ∀ (i : Nat) v u, l[i]? = some v → us[i]? = some u → unstructure E v = .ok u) :
    unstructures E l = .ok us := by
  induction l generalizing us with
  | nil =>
    match us, hlen with
    | [], _ => rw [unstructures]
  | cons v l ih =>
    match us, hlen with
    | u :: us, hlen =>
      rw [unstructures, h 0 v u rfl rfl, ih us (by simpa using hlen) (fun i v u hv hu => h (i + 1) v u hv hu)]
      rfl

theorem unstructures_inv (E : Env F) (l us : List (Val F)) (h : unstructures E l = .ok us) :
    ∀ u ∈ us, ∃ v ∈ l, unstructure E v = .ok u := by
  induction l generalizing us with
  | nil => rw [unstructures] at h; cases h; simp
  | cons v l ih =>
    rw [unstructures] at h
    cases h1 : unstructure E v with
    | error e => rw [h1] at h; cases h
    | ok u =>
      cases h2 : unstructures E l with
      | error e => rw [h1, h2] at h; cases h
      | ok us' =>
        rw [h1, h2] at h
        cases h
        intro x hx
        rcases List.mem_cons.1 hx with rfl | hx
        · exact ⟨v, by simp, h1⟩
        · obtain ⟨v', h3, h4⟩ := ih us' h2 x hx
          exact ⟨v', by simp [h3], h4⟩

theorem unstructurePairs_ok (E : Env F) (es us out : List (Val F × Val F)) (hlen : us.length = es.length)
    (hk : ∀ (i : Nat) e u, es[i]? = some e → us[i]? = some u → unstructure E e.1 = .ok u.1)
    (hv : ∀ (i : Nat) e u, es[i]? = some e → us[i]? = some u → unstructure E e.2 = .ok u.2)
    (hh : ∀ u ∈ us, E.hashable u.1 = true) (hd : Distinct E (out ++ us)) :
    unstructurePairs E es out = .ok (out ++ us) := by
  induction es generalizing us out with
  | nil =>
    match us, hlen with
    | [], _ => rw [unstructurePairs]; simp
  | cons e es ih =>
    match us, hlen with
    | u :: us, hlen =>
      obtain ⟨k, v⟩ := e
      have hnew : put E u.1 u.2 out = out ++ [u] := by
        rw [put_new]
        intro x hx
        exact (List.pairwise_append.1 hd).2.2 x hx u (by simp)
      rw [unstructurePairs, unstructurePair, hk 0 _ _ rfl rfl, hv 0 _ _ rfl rfl]
      show (if E.hashable u.1 then unstructurePairs E es (put E u.1 u.2 out) else _) = _
      rw [if_pos (hh u (by simp)), hnew,
        ih us (out ++ [u]) (by simpa using hlen) (fun i p x hp hx => hk (i + 1) p x hp hx)
          (fun i p x hp hx => hv (i + 1) p x hp hx) (fun x hx => hh x (by simp [hx]))
          (by simpa [List.append_assoc] using hd)]
      simp

theorem unstructurePairs_inv (E : Env F) (P : Val F → Prop) (es out r : List (Val F × Val F))
    (h : unstructurePairs E es out = .ok r)
    (hk : ∀ e ∈ es, ∀ y, unstructure E e.1 = .ok y → P y)
    (hv : ∀ e ∈ es, ∀ y, unstructure E e.2 = .ok y → P y)
    (hout : ∀ e ∈ out, P e.1 ∧ P e.2 ∧ E.hashable e.1 = true) (hd : Distinct E out) :
    (∀ e ∈ r, P e.1 ∧ P e.2 ∧ E.hashable e.1 = true) ∧ Distinct E r := by
  induction es generalizing out with
  | nil => rw [unstructurePairs] at h; cases h; exact ⟨hout, hd⟩
  | cons e es ih =>
    obtain ⟨k, v⟩ := e
    rw [unstructurePairs, unstructurePair] at h
    cases h1 : unstructure E k with
    | error e => rw [h1] at h; cases h
    | ok k' =>
      cases h2 : unstructure E v with
      | error e => rw [h1, h2] at h; cases h
      | ok v' =>
        rw [h1, h2] at h
        change (if E.hashable k' then unstructurePairs E es (put E k' v' out) else _) = _ at h
        split at h
        · rename_i hh
          refine ih _ h (fun p hp => hk p (by simp [hp])) (fun p hp => hv p (by simp [hp])) ?_
            (put_distinct _ _ _ _ hd)
          intro e he
          have hv' := hv (k, v) (by simp) v' h2
          rcases put_keys E k' v' out e he with hm | ⟨h3, h4 | ⟨e', h5, h6⟩⟩
          · exact hout e hm
          · exact ⟨h4 ▸ hk (k, v) (by simp) k' h1, h3 ▸ hv', h4 ▸ hh⟩
          · exact ⟨h6 ▸ (hout e' h5).1, h3 ▸ hv', h6 ▸ (hout e' h5).2.2⟩
        · cases h

theorem unstructureFields_ok (E : Env F) (fs : List (String × Val F)) (us out : List (Val F × Val F))
    (hlen : us.length = fs.length)
    (hk : ∀ (i : Nat) f u, fs[i]? = some f → us[i]? = some u → u.1 = .str f.1)
    (hv : ∀ (i : Nat) f u, fs[i]? = some f → us[i]? = some u → unstructure E f.2 = .ok u.2)
    (hd : Distinct E (out ++ us)) :
    unstructureFields E fs out = .ok (out ++ us) := by
  induction fs generalizing us out with
  | nil =>
    match us, hlen with
    | [], _ => rw [unstructureFields]; simp
  | cons f fs ih =>
    match us, hlen with
    | u :: us, hlen =>
      obtain ⟨k, v⟩ := f
      have hnew : put E u.1 u.2 out = out ++ [u] := by
        rw [put_new]
        intro x hx
        exact (List.pairwise_append.1 hd).2.2 x hx u (by simp)
      have hu : u.1 = .str k := hk 0 _ _ rfl rfl
      rw [unstructureFields, unstructureField, hv 0 _ _ rfl rfl]
      show unstructureFields E fs (put E (.str k) u.2 out) = _
      rw [← hu, hnew,
        ih us (out ++ [u]) (by simpa using hlen) (fun i p x hp hx => hk (i + 1) p x hp hx)
          (fun i p x hp hx => hv (i + 1) p x hp hx)
          (by simpa [List.append_assoc] using hd)]
      simp

theorem unstructureFields_inv (E : Env F) (P : Val F → Prop) (fs : List (String × Val F))
    (out r : List (Val F × Val F)) (h : unstructureFields E fs out = .ok r)
    (hk : ∀ s : String, P (.str s) ∧ E.hashable (.str s) = true)
    (hv : ∀ f ∈ fs, ∀ y, unstructure E f.2 = .ok y → P y)
    (hout : ∀ e ∈ out, P e.1 ∧ P e.2 ∧ E.hashable e.1 = true) (hd : Distinct E out) :
    (∀ e ∈ r, P e.1 ∧ P e.2 ∧ E.hashable e.1 = true) ∧ Distinct E r := by
  induction fs generalizing out with
  | nil => rw [unstructureFields] at h; cases h; exact ⟨hout, hd⟩
  | cons f fs ih =>
    obtain ⟨k, v⟩ := f
    rw [unstructureFields, unstructureField] at h
    cases h2 : unstructure E v with
    | error e => rw [h2] at h; cases h
    | ok v' =>
      rw [h2] at h
      change unstructureFields E fs (put E (.str k) v' out) = _ at h
      refine ih _ h (fun p hp => hv p (by simp [hp])) ?_ (put_distinct _ _ _ _ hd)
      intro e he
      have hv' := hv (k, v) (by simp) v' h2
      rcases put_keys E (.str k) v' out e he with hm | ⟨h3, h4 | ⟨e', h5, h6⟩⟩
      · exact hout e hm
      · exact ⟨h4 ▸ (hk k).1, h3 ▸ hv', h4 ▸ (hk k).2⟩
      · exact ⟨h6 ▸ (hout e' h5).1, h3 ▸ hv', h6 ▸ (hout e' h5).2.2⟩

end Fs2.Structured
