import Verif.Runtime.Dependency

/-!
Property C63: singletons, cycles and late registrations of the dependency container.
-/

namespace Fs2.Props

open Fs2.Dep

variable {Key Obj W : Type} [DecidableEq Key]

/-! ### Specification -/

/-- What the provider of a registration has returned, in the order of time. -/
def createdBy (i : Nat) (log : List (Event Obj)) : List (Option Obj) :=
  log.filterMap fun e => match e with
    | .created j o => if j = i then some o else none
    | .given _ _ => none

/-- What was handed out for a registration, in the order of time. -/
def givenBy (i : Nat) (log : List (Event Obj)) : List (Option Obj) :=
  log.filterMap fun e => match e with
    | .created _ _ => none
    | .given j o => if j = i then some o else none

/-- The container as some client leaves it. -/
def Left (isInst : Obj → Key → Bool) (s : State Key Obj W) : Prop :=
  ∃ w p r, exec isInst p (State.init w) = some (s, r)

/-- The parts of a registration that its owner has chosen. -/
def signature (r : Reg Key Obj W) : Key × Bool × Prog Key Obj W × Bool :=
  (r.key, r.plain, r.provider, r.singleton)

/-! ### The invariant -/

section

omit [DecidableEq Key]

private theorem createdBy_append (i : Nat) (a b : List (Event Obj)) :
    createdBy i (a ++ b) = createdBy i a ++ createdBy i b := List.filterMap_append

private theorem givenBy_append (i : Nat) (a b : List (Event Obj)) :
    givenBy i (a ++ b) = givenBy i a ++ givenBy i b := List.filterMap_append

private structure Kept (r r' : Reg Key Obj W) : Prop where
  sig : signature r' = signature r
  inCall : r'.inCall = r.inCall
  obj : ∀ o, r.obj = some o → r'.obj = some o

private structure Ext (s s' : State Key Obj W) : Prop where
  len : s.regs.length ≤ s'.regs.length
  frozenLen : s.frozen = true → s'.regs.length = s.regs.length
  frozen : s.frozen = true → s'.frozen = true
  same : ∀ i r, s.regs[i]? = some r → ∃ r', s'.regs[i]? = some r' ∧ Kept r r' ∧
    (r.inCall = true → r'.obj = r.obj ∧ createdBy i s'.log = createdBy i s.log)

private structure Inv (s : State Key Obj W) : Prop where
  fresh : ∀ i, s.regs.length ≤ i → createdBy i s.log = [] ∧ givenBy i s.log = []
  single : ∀ i r, s.regs[i]? = some r → r.singleton = true →
    (r.obj = none → createdBy i s.log = [] ∧ givenBy i s.log = []) ∧
    ∀ o, r.obj = some o → createdBy i s.log = [o] ∧ ∀ x ∈ givenBy i s.log, x = o

private theorem Kept.refl (r : Reg Key Obj W) : Kept r r := ⟨rfl, rfl, fun _ h => h⟩

private theorem Ext.refl (s : State Key Obj W) : Ext s s :=
  ⟨Nat.le_refl _, fun _ => rfl, id, fun _ r h => ⟨r, h, Kept.refl r, fun _ => ⟨rfl, rfl⟩⟩⟩

private theorem Ext.trans {a b c : State Key Obj W} (h : Ext a b) (h' : Ext b c) : Ext a c := by
  refine ⟨Nat.le_trans h.len h'.len, fun hf => ?_, fun hf => h'.frozen (h.frozen hf), fun i r hr => ?_⟩
  · rw [h'.frozenLen (h.frozen hf), h.frozenLen hf]
  · obtain ⟨r1, h1, k1, c1⟩ := h.same i r hr
    obtain ⟨r2, h2, k2, c2⟩ := h'.same i r1 h1
    refine ⟨r2, h2, ⟨k2.sig.trans k1.sig, k2.inCall.trans k1.inCall, fun o ho => k2.obj o (k1.obj o ho)⟩, ?_⟩
    intro hc
    obtain ⟨d1, d2⟩ := c1 hc
    obtain ⟨e1, e2⟩ := c2 (by rw [k1.inCall]; exact hc)
    exact ⟨e1.trans d1, e2.trans d2⟩

private theorem Inv.init (w : W) : Inv (State.init w : State Key Obj W) :=
  ⟨fun _ _ => ⟨rfl, rfl⟩, by simp [State.init]⟩

private theorem Inv.congr {s s' : State Key Obj W} (h : Inv s) (hr : s'.regs = s.regs) (hl : s'.log = s.log) :
    Inv s' := by
  refine ⟨?_, ?_⟩
  · rw [hr, hl]
    exact h.fresh
  · rw [hr, hl]
    exact h.single

private theorem Ext.congr {s s' : State Key Obj W} (hr : s'.regs = s.regs) (hl : s'.log = s.log)
    (hf : s.frozen = true → s'.frozen = true) : Ext s s' := by
  refine ⟨by rw [hr]; exact Nat.le_refl _, fun _ => by rw [hr], hf, fun i r h => ?_⟩
  rw [hr, hl]
  exact ⟨r, h, Kept.refl r, fun _ => ⟨rfl, rfl⟩⟩

private theorem setCall_get (i : Nat) (b : Bool) (s : State Key Obj W) (j : Nat) :
    (setCall i b s).regs[j]? = (s.regs[j]?).map fun r => if i = j then { r with inCall := b } else r := by
  simp only [setCall]
  rw [List.getElem?_modify]
  rfl

private theorem setObj_get (i : Nat) (o : Option Obj) (s : State Key Obj W) (j : Nat) :
    (setObj i o s).regs[j]? = (s.regs[j]?).map fun r => if i = j then { r with obj := some o } else r := by
  simp only [setObj]
  rw [List.getElem?_modify]
  rfl

private theorem handOut_ext (isInst : Obj → Key → Bool) (i : Nat) (key : Key) (o : Option Obj)
    (s : State Key Obj W) : Ext s (handOut isInst i key o s).1 := by
  unfold handOut
  split
  · refine ⟨Nat.le_refl _, fun _ => rfl, id, fun j r h => ⟨r, h, Kept.refl r, fun _ => ⟨rfl, ?_⟩⟩⟩
    simp only [note, createdBy_append]
    simp [createdBy]
  · exact Ext.refl s

private theorem handOut_inv (isInst : Obj → Key → Bool) (i : Nat) (key : Key) (o : Option Obj)
    (s : State Key Obj W) (h : Inv s) (hi : i < s.regs.length)
    (hs : ∀ r, s.regs[i]? = some r → r.singleton = true → r.obj = some o) :
    Inv (handOut isInst i key o s).1 := by
  unfold handOut
  split
  · have hc : ∀ j, createdBy j (note (.given i o) s).log = createdBy j s.log := by
      intro j
      simp only [note, createdBy_append]
      simp [createdBy]
    have hg : ∀ j, givenBy j (note (.given i o) s).log = givenBy j s.log ++ if i = j then [o] else [] := by
      intro j
      simp only [note, givenBy_append]
      by_cases hij : i = j <;> simp [givenBy, hij]
    refine ⟨?_, ?_⟩
    · intro j hj
      rw [hc, hg]
      have : i ≠ j := by
        have : s.regs.length ≤ j := hj
        omega
      simp only [this, if_false, List.append_nil]
      exact h.fresh j hj
    · intro j r hr hrs
      rw [hc, hg]
      have hr : s.regs[j]? = some r := hr
      obtain ⟨h1, h2⟩ := h.single j r hr hrs
      by_cases hij : i = j
      · subst hij
        have ho := hs r hr hrs
        refine ⟨fun hn => (by rw [ho] at hn; cases hn), fun o' ho' => ?_⟩
        rw [ho] at ho'
        cases ho'
        obtain ⟨g1, g2⟩ := h2 o ho
        refine ⟨g1, fun x hx => ?_⟩
        simp only [if_true, List.mem_append, List.mem_singleton] at hx
        rcases hx with hx | hx
        · exact g2 x hx
        · exact hx
      · simp only [hij, if_false, List.append_nil]
        exact ⟨h1, h2⟩
  · exact h

end

private theorem register_spec (key : Key) (plain : Bool) (p : Prog Key Obj W) (single : Bool)
    (s : State Key Obj W) (h : Inv s) : Inv (register key plain p single s).1 ∧ Ext s (register key plain p single s).1 := by
  unfold register
  split
  · exact ⟨h, Ext.refl s⟩
  · rename_i hf
    split
    · exact ⟨h, Ext.refl s⟩
    · refine ⟨⟨?_, ?_⟩, ⟨?_, ?_, id, ?_⟩⟩
      · intro i hi
        rw [List.length_append] at hi
        exact h.fresh i (Nat.le_trans (Nat.le_add_right _ _) hi)
      · intro i r hr hs
        simp only at hr
        by_cases hi : i < s.regs.length
        · rw [List.getElem?_append_left hi] at hr
          exact h.single i r hr hs
        · rw [List.getElem?_append_right (Nat.le_of_not_lt hi)] at hr
          have hnone : r.obj = none := by
            obtain ⟨hlt, hr⟩ := List.getElem?_eq_some_iff.mp hr
            simp only [List.length_singleton] at hlt
            have h0 : i - s.regs.length = 0 := by omega
            simp only [h0, List.getElem_cons_zero] at hr
            rw [← hr]
          have := h.fresh i (Nat.le_of_not_lt hi)
          exact ⟨fun _ => this, fun o ho => by rw [hnone] at ho; cases ho⟩
      · rw [List.length_append]
        exact Nat.le_add_right _ _
      · intro hf'
        exact absurd hf' hf
      · intro i r hr
        obtain ⟨hi, -⟩ := List.getElem?_eq_some_iff.mp hr
        refine ⟨r, ?_, Kept.refl r, fun _ => ⟨rfl, rfl⟩⟩
        simp only
        rw [List.getElem?_append_left hi]
        exact hr

/-- What is needed of `get_instance` to reason about programs. -/
private def Fine (inst : Nat → State Key Obj W → Outcome Key Obj W (Option Obj)) : Prop :=
  ∀ i s s' r, Inv s → inst i s = some (s', r) → Inv s' ∧ Ext s s'

omit [DecidableEq Key] in
private theorem freeze_spec (s : State Key Obj W) (h : Inv s) : Inv (freeze s) ∧ Ext s (freeze s) :=
  ⟨h.congr rfl rfl, Ext.congr rfl rfl fun _ => rfl⟩

private theorem resolve_spec {inst : Nat → State Key Obj W → Outcome Key Obj W (Option Obj)} (hi : Fine inst)
    (key : Key) (s s' : State Key Obj W) (r) (h : Inv s) (hr : resolveWith inst key s = some (s', r)) :
    Inv s' ∧ Ext s s' ∧ s'.frozen = true := by
  obtain ⟨f1, f2⟩ := freeze_spec s h
  unfold resolveWith at hr
  simp only at hr
  split at hr
  · cases hr
    exact ⟨f1, f2, rfl⟩
  · split at hr
    · cases hr
    all_goals
      rename_i hg
      cases hr
      obtain ⟨g1, g2⟩ := hi _ _ _ _ f1 hg
      exact ⟨g1, f2.trans g2, g2.frozen rfl⟩

private theorem run_spec {inst : Nat → State Key Obj W → Outcome Key Obj W (Option Obj)} (hi : Fine inst)
    (p : Prog Key Obj W) (s s' : State Key Obj W) (r) (h : Inv s) (hr : run inst p s = some (s', r)) :
    Inv s' ∧ Ext s s' := by
  induction p generalizing s with
  | ret o =>
    cases hr
    exact ⟨h, Ext.refl _⟩
  | fail e =>
    cases hr
    exact ⟨h, Ext.refl _⟩
  | effect f cont ih =>
    rw [run] at hr
    obtain ⟨h1, h2⟩ := ih _ { s with world := (f s.world).1 } (h.congr rfl rfl) hr
    exact ⟨h1, (Ext.congr rfl rfl id : Ext s { s with world := (f s.world).1 }).trans h2⟩
  | register key plain p single cont _ ih =>
    rw [run] at hr
    obtain ⟨g1, g2⟩ := register_spec key plain p single s h
    obtain ⟨h1, h2⟩ := ih _ _ g1 hr
    exact ⟨h1, g2.trans h2⟩
  | resolve key cont ih =>
    rw [run] at hr
    split at hr
    · cases hr
    · rename_i s1 r1 hg
      obtain ⟨g1, g2, -⟩ := resolve_spec hi key s s1 r1 h hg
      obtain ⟨h1, h2⟩ := ih _ _ g1 hr
      exact ⟨h1, g2.trans h2⟩
  | collect key cont ih =>
    rw [run] at hr
    obtain ⟨g1, g2⟩ := freeze_spec s h
    obtain ⟨h1, h2⟩ := ih _ _ g1 hr
    exact ⟨h1, g2.trans h2⟩
  | member i cont ih =>
    rw [run] at hr
    split at hr
    · split at hr
      · cases hr
      · rename_i s1 r1 hg
        obtain ⟨g1, g2⟩ := hi i s s1 r1 h hg
        obtain ⟨h1, h2⟩ := ih _ _ g1 hr
        exact ⟨h1, g2.trans h2⟩
    · exact ih _ _ h hr

omit [DecidableEq Key] in
private theorem setCall_inv (i : Nat) (b : Bool) (s : State Key Obj W) (h : Inv s) : Inv (setCall i b s) := by
  refine ⟨?_, ?_⟩
  · intro j hj
    simp only [setCall, List.length_modify] at hj
    exact h.fresh j hj
  · intro j r hr hs
    rw [setCall_get] at hr
    obtain ⟨q, hq, rfl⟩ := Option.map_eq_some_iff.mp hr
    have hs' : q.singleton = true := by
      split at hs <;> exact hs
    have ho : (if i = j then { q with inCall := b } else q).obj = q.obj := by split <;> rfl
    rw [ho]
    exact h.single j q hq hs'

omit [DecidableEq Key] in
/-- The state after the provider of registration `i` has returned `o`. -/
private theorem created_spec (i : Nat) (single : Bool) (o : Option Obj) (s s2 : State Key Obj W) (r : Reg Key Obj W)
    (hr : s.regs[i]? = some r) (hobj : r.obj = none) (hcall : r.inCall = false) (hsing : r.singleton = single)
    (h2 : Inv s2) (hext : Ext (setCall i true s) s2) :
    Inv (if single then setObj i o (note (.created i o) (setCall i false s2))
      else note (.created i o) (setCall i false s2)) ∧
    Ext s (if single then setObj i o (note (.created i o) (setCall i false s2))
      else note (.created i o) (setCall i false s2)) ∧
    ∀ q, (if single then setObj i o (note (.created i o) (setCall i false s2))
      else note (.created i o) (setCall i false s2)).regs[i]? = some q → q.singleton = true → q.obj = some o := by
  have hget1 : (setCall i true s).regs[i]? = some { r with inCall := true } := by
    rw [setCall_get, hr]
    simp
  obtain ⟨r2, hr2, kept2, hin2⟩ := hext.same i _ hget1
  obtain ⟨hin2, -⟩ := hin2 rfl
  simp only at hin2
  have hsing2 : r2.singleton = single := by
    have := kept2.sig
    simp only [signature, Prod.mk.injEq] at this
    rw [this.2.2.2]
    exact hsing
  have hlog : ∀ t : State Key Obj W, t.log = s2.log ++ [Event.created i o] →
      (∀ j, createdBy j t.log = createdBy j s2.log ++ if i = j then [o] else []) ∧
      ∀ j, givenBy j t.log = givenBy j s2.log := by
    intro t ht
    refine ⟨fun j => ?_, fun j => ?_⟩
    · rw [ht, createdBy_append]
      by_cases hij : i = j <;> simp [createdBy, hij]
    · rw [ht, givenBy_append]
      simp [givenBy]
  generalize ht : (if single then setObj i o (note (.created i o) (setCall i false s2))
      else note (.created i o) (setCall i false s2)) = t
  have htlog : t.log = s2.log ++ [Event.created i o] := by
    rw [← ht]
    split <;> rfl
  have htfrozen : t.frozen = s2.frozen := by
    rw [← ht]
    split <;> rfl
  have htget : ∀ j, t.regs[j]? = (s2.regs[j]?).map fun q =>
      if i = j then { q with inCall := false, obj := if single then some o else q.obj } else q := by
    intro j
    rw [← ht]
    cases single
    · have := setCall_get i false s2 j
      simp only [Bool.false_eq_true, if_false, note] at this ⊢
      rw [this]
    · simp only [if_true]
      rw [setObj_get]
      have := setCall_get i false s2 j
      simp only [note] at this ⊢
      rw [this, Option.map_map]
      congr 1
      funext q
      simp only [Function.comp]
      split <;> rfl
  have htlen : t.regs.length = s2.regs.length := by
    rw [← ht]
    split <;> simp [setObj, setCall, note]
  obtain ⟨hl1, hl2⟩ := hlog t htlog
  have hi2 : i < s2.regs.length := (List.getElem?_eq_some_iff.mp hr2).1
  refine ⟨⟨?_, ?_⟩, ⟨?_, ?_, ?_, ?_⟩, ?_⟩
  · intro j hj
    rw [htlen] at hj
    rw [hl1, hl2]
    have : i ≠ j := by omega
    simp only [this, if_false, List.append_nil]
    exact h2.fresh j hj
  · intro j q hq hqs
    rw [htget] at hq
    obtain ⟨q2, hq2, rfl⟩ := Option.map_eq_some_iff.mp hq
    rw [hl1, hl2]
    by_cases hij : i = j
    · subst hij
      rw [hr2] at hq2
      cases hq2
      simp only [if_true] at hqs ⊢
      have hsi : single = true := by rw [← hsing2]; exact hqs
      subst hsi
      obtain ⟨hn, -⟩ := h2.single i r2 hr2 hsing2
      obtain ⟨hn1, hn2⟩ := hn (by rw [hin2, hobj])
      rw [hn1, hn2]
      refine ⟨fun hc => by simp at hc, fun o' ho' => ?_⟩
      simp only [if_true, Option.some.injEq] at ho'
      subst ho'
      simp
    · simp only [hij, if_false, List.append_nil] at hqs ⊢
      exact h2.single j q2 hq2 hqs
  · rw [htlen]
    have := hext.len
    simp only [setCall, List.length_modify] at this
    exact this
  · intro hf
    rw [htlen]
    have := hext.frozenLen hf
    simp only [setCall, List.length_modify] at this
    exact this
  · intro hf
    rw [htfrozen]
    exact hext.frozen hf
  · intro j q hq
    have hq1 : (setCall i true s).regs[j]? = some (if i = j then { q with inCall := true } else q) := by
      rw [setCall_get, hq]
      rfl
    obtain ⟨q2, hq2, kept, hin⟩ := hext.same j _ hq1
    refine ⟨_, by rw [htget, hq2]; rfl, ?_, ?_⟩
    · by_cases hij : i = j
      · subst hij
        rw [hr] at hq
        cases hq
        simp only [if_true] at kept ⊢
        exact ⟨kept.sig, hcall.symm, fun o' ho' => by rw [hobj] at ho'; cases ho'⟩
      · simp only [hij, if_false] at kept ⊢
        exact kept
    · intro hc
      by_cases hij : i = j
      · subst hij
        rw [hr] at hq
        cases hq
        rw [hcall] at hc
        cases hc
      · simp only [hij, if_false] at hin ⊢
        obtain ⟨d1, d2⟩ := hin hc
        refine ⟨d1, ?_⟩
        rw [hl1]
        simp only [hij, if_false, List.append_nil]
        exact d2
  · intro q hq hqs
    rw [htget, hr2] at hq
    simp only [Option.map_some, if_true, Option.some.injEq] at hq
    subst hq
    simp only at hqs ⊢
    have hsi : single = true := by rw [← hsing2]; exact hqs
    simp [hsi]

private theorem inst_fine (isInst : Obj → Key → Bool) (fuel : Nat) :
    Fine (getInstance (W := W) isInst fuel) := by
  induction fuel with
  | zero =>
    intro i s s' r h hg
    unfold getInstance at hg
    split at hg
    · cases hg
      exact ⟨h, Ext.refl s⟩
    · rename_i reg hreg
      split at hg
      · rename_i o ho
        have hs' : s' = (handOut isInst i reg.key o s).1 := by rw [Option.some.inj hg]
        subst hs'
        refine ⟨handOut_inv isInst i reg.key o s h (List.getElem?_eq_some_iff.mp hreg).1 ?_, handOut_ext _ _ _ _ _⟩
        intro q hq _
        rw [hreg] at hq
        cases hq
        exact ho
      · split at hg
        · cases hg
          exact ⟨h, Ext.refl s⟩
        · cases hg
  | succ fuel ih =>
    intro i s s' r h hg
    unfold getInstance at hg
    split at hg
    · cases hg
      exact ⟨h, Ext.refl s⟩
    · rename_i reg hreg
      split at hg
      · rename_i o ho
        have hs' : s' = (handOut isInst i reg.key o s).1 := by rw [Option.some.inj hg]
        subst hs'
        refine ⟨handOut_inv isInst i reg.key o s h (List.getElem?_eq_some_iff.mp hreg).1 ?_, handOut_ext _ _ _ _ _⟩
        intro q hq _
        rw [hreg] at hq
        cases hq
        exact ho
      · rename_i hobj
        split at hg
        · cases hg
          exact ⟨h, Ext.refl s⟩
        · rename_i hcall
          have hcall : reg.inCall = false := by simpa using hcall
          simp only at hg
          split at hg
          · cases hg
          · rename_i s2 e hrun
            cases hg
            obtain ⟨r1, r2⟩ := run_spec ih _ _ _ _ (setCall_inv i true s h) hrun
            refine ⟨setCall_inv i false s2 r1, ⟨?_, ?_, r2.frozen, ?_⟩⟩
            · have := r2.len
              simpa [setCall] using this
            · intro hf
              have := r2.frozenLen hf
              simpa [setCall] using this
            · intro j q hq
              have hq1 : (setCall i true s).regs[j]? = some (if i = j then { q with inCall := true } else q) := by
                rw [setCall_get, hq]
                rfl
              obtain ⟨q2, hq2, kept, hin⟩ := r2.same j _ hq1
              refine ⟨_, by rw [setCall_get, hq2]; rfl, ?_, ?_⟩
              · by_cases hij : i = j
                · subst hij
                  rw [hreg] at hq
                  cases hq
                  simp only [if_true] at kept ⊢
                  exact ⟨kept.sig, hcall.symm, fun o' ho' => by rw [hobj] at ho'; cases ho'⟩
                · simp only [hij, if_false] at kept ⊢
                  exact kept
              · intro hc
                by_cases hij : i = j
                · subst hij
                  rw [hreg] at hq
                  cases hq
                  rw [hcall] at hc
                  cases hc
                · simp only [hij, if_false] at hin ⊢
                  exact hin hc
          · rename_i s2 o hrun
            have hs' := congrArg Prod.fst (Option.some.inj hg).symm
            simp only at hs'
            subst hs'
            obtain ⟨r1, r2⟩ := run_spec ih _ _ _ _ (setCall_inv i true s h) hrun
            obtain ⟨c1, c2, c3⟩ := created_spec i reg.singleton o s s2 reg hreg hobj hcall rfl r1 r2
            refine ⟨handOut_inv isInst i reg.key o _ c1 ?_ c3, c2.trans (handOut_ext _ _ _ _ _)⟩
            exact Nat.lt_of_lt_of_le (List.getElem?_eq_some_iff.mp hreg).1 c2.len

private theorem top_fine (isInst : Obj → Key → Bool) : Fine (instanceOf (W := W) isInst) :=
  fun i s s' r h hg => inst_fine isInst s.regs.length i s s' r h hg

private theorem exec_spec (isInst : Obj → Key → Bool) (p : Prog Key Obj W) (s s' : State Key Obj W) (r) (h : Inv s)
    (hr : exec isInst p s = some (s', r)) : Inv s' ∧ Ext s s' := run_spec (top_fine isInst) p s s' r h hr

private theorem left_inv {isInst : Obj → Key → Bool} {s : State Key Obj W} (h : Left isInst s) : Inv s := by
  obtain ⟨w, p, r, h⟩ := h
  exact (exec_spec isInst p _ _ _ (Inv.init w) h).1

/-! ### C63: singletons -/

/-- **At most once.** Whatever clients and providers do — nested resolves, collections, caught exceptions,
registrations —, the provider of a singleton returns at most once, and everything that was ever handed out
for the registration, within providers and to the client, is what it then returned. -/
theorem C63_singleton_once (isInst : Obj → Key → Bool) (s : State Key Obj W) (hs : Left isInst s) (i : Nat)
    (reg : Reg Key Obj W) (hreg : s.regs[i]? = some reg) (hsing : reg.singleton = true) :
    (createdBy i s.log).length ≤ 1 ∧ ∀ o ∈ givenBy i s.log, createdBy i s.log = [o] := by
  obtain ⟨h1, h2⟩ := (left_inv hs).single i reg hreg hsing
  cases ho : reg.obj with
  | none =>
    obtain ⟨h3, h4⟩ := h1 ho
    rw [h3, h4]
    simp
  | some o =>
    obtain ⟨h3, h4⟩ := h2 o ho
    rw [h3]
    exact ⟨by simp, fun x hx => by rw [h4 x hx]⟩

private theorem request_ok {isInst : Obj → Key → Bool} {key : Key} {s s' : State Key Obj W} {o : Option Obj}
    (h : exec isInst (request key) s = some (s', .ok o)) :
    ∃ i obj, lookup key s.regs = some i ∧ instanceOf isInst i (freeze s) = some (s', .ok (some obj)) ∧
      o = some obj := by
  unfold exec request at h
  rw [run] at h
  split at h
  · cases h
  · rename_i s1 r hr
    unfold resolveWith at hr
    simp only at hr
    split at hr
    · cases hr
      cases h
    · rename_i i hi
      split at hr
      · cases hr
      · cases hr
        cases h
      · cases hr
        cases h
      · rename_i s2 obj hg
        cases hr
        cases h
        exact ⟨i, obj, hi, hg, rfl⟩

omit [DecidableEq Key] in
private theorem ext_lookup {s s' : State Key Obj W} [DecidableEq Key] (h : Ext s s') (hf : s.frozen = true)
    (key : Key) : lookup key s'.regs = lookup key s.regs := by
  unfold lookup
  have hmap : s'.regs.map signature = s.regs.map signature := by
    apply List.ext_getElem?
    intro i
    rw [List.getElem?_map, List.getElem?_map]
    cases hr : s.regs[i]? with
    | none =>
      have := List.getElem?_eq_none_iff.mp hr
      rw [List.getElem?_eq_none (by rw [h.frozenLen hf]; exact this)]
    | some r =>
      obtain ⟨r', hr', kept, -⟩ := h.same i r hr
      rw [hr']
      simp [kept.sig]
  have key' : ∀ l : List (Reg Key Obj W), (l.findIdx? fun r => r.plain && decide (r.key = key)) =
      (l.map signature).findIdx? fun x => x.2.1 && decide (x.1 = key) := by
    intro l
    rw [List.findIdx?_map]
    rfl
  rw [key', key', hmap]

/-- **The same instance.** If a resolve of a singleton has succeeded, then after anything a client does,
every further resolve of it gives the same object. -/
theorem C63_singleton_same (isInst : Obj → Key → Bool) (s s1 s2 s3 : State Key Obj W) (hs : Left isInst s)
    (key : Key) (i : Nat) (reg : Reg Key Obj W) (hi : lookup key s.regs = some i)
    (hreg : s.regs[i]? = some reg) (hsing : reg.singleton = true) (o : Option Obj)
    (h1 : exec isInst (request key) s = some (s1, .ok o)) (p : Prog Key Obj W) (r2 r3)
    (h2 : exec isInst p s1 = some (s2, r2)) (h3 : exec isInst (request key) s2 = some (s3, r3)) :
    r3 = .ok o := by
  have hinv := left_inv hs
  obtain ⟨f1, f2⟩ := freeze_spec s hinv
  obtain ⟨i', obj, hi', hg, rfl⟩ := request_ok h1
  rw [hi] at hi'
  cases hi'
  obtain ⟨g1, g2⟩ := top_fine isInst _ _ _ _ f1 hg
  obtain ⟨e1, e2⟩ := exec_spec isInst p s1 s2 r2 g1 h2
  -- what the registration holds after the first resolve
  have hheld : ∃ q, s1.regs[i]? = some q ∧ q.obj = some (some obj) ∧ q.key = reg.key ∧
      isInst obj reg.key = true := by
    have hregf : (freeze s).regs[i]? = some reg := hreg
    obtain ⟨q, hq, kept, -⟩ := g2.same i reg hregf
    have hk : q.key = reg.key := by
      have := kept.sig
      simp only [signature, Prod.mk.injEq] at this
      exact this.1
    have hqs : q.singleton = true := by
      have := kept.sig
      simp only [signature, Prod.mk.injEq] at this
      rw [this.2.2.2]
      exact hsing
    have hgiven : (some obj) ∈ givenBy i s1.log ∧ isInst obj reg.key = true := by
      have hand : ∀ (t : State Key Obj W) (o : Option Obj),
          handOut isInst i reg.key o t = (s1, .ok (some obj)) →
          (some obj) ∈ givenBy i s1.log ∧ isInst obj reg.key = true := by
        intro t o ht
        unfold handOut at ht
        split at ht
        · rename_i hall
          simp only [Prod.mk.injEq, Except.ok.injEq] at ht
          obtain ⟨ht1, ht2⟩ := ht
          subst ht1
          subst ht2
          refine ⟨?_, by simpa using hall⟩
          simp only [note, givenBy_append]
          simp [givenBy]
        · simp at ht
      unfold instanceOf getInstance at hg
      rw [hregf] at hg
      simp only at hg
      split at hg
      · simp only [Option.some.injEq] at hg
        exact hand _ _ hg
      · split at hg
        · cases hg
        · split at hg
          · cases hg
          · split at hg
            · cases hg
            · cases hg
            · simp only [Option.some.injEq] at hg
              exact hand _ _ hg
    obtain ⟨n1, n2⟩ := g1.single i q hq hqs
    refine ⟨q, hq, ?_, hk, hgiven.2⟩
    cases hobj : q.obj with
    | none =>
      have := (n1 hobj).2
      rw [this] at hgiven
      exact absurd hgiven.1 (by simp)
    | some o' =>
      rw [(n2 o' hobj).2 _ hgiven.1]
  obtain ⟨q, hq, hqo, hqk, hinst⟩ := hheld
  obtain ⟨q2, hq2, kept2, -⟩ := e2.same i q hq
  have hf1 : s1.frozen = true := g2.frozen rfl
  have hlook : lookup key s2.regs = some i := by
    rw [ext_lookup e2 hf1, ext_lookup g2 rfl]
    exact hi
  have hq2k : q2.key = reg.key := by
    have := kept2.sig
    simp only [signature, Prod.mk.injEq] at this
    rw [this.1]
    exact hqk
  unfold exec request at h3
  rw [run] at h3
  have hres : resolveWith (instanceOf isInst) key s2 = some (note (.given i (some obj)) (freeze s2), .ok obj) := by
    unfold resolveWith
    simp only
    have : lookup key (freeze s2).regs = some i := hlook
    rw [this]
    simp only
    have hq2f : (freeze s2).regs[i]? = some q2 := hq2
    unfold instanceOf getInstance
    rw [hq2f]
    simp only
    rw [kept2.obj _ hqo]
    simp only [handOut, hq2k]
    simp [hinst]
  rw [hres] at h3
  simp only [run] at h3
  cases h3
  rfl

/-! ### C63: registrations -/

/-- **No late registration.** After the first `resolve`, successful or not (or the first `collection.resolve`),
whatever a client does, the registrations stay as they are, and every call to register raises. -/
theorem C63_frozen (isInst : Obj → Key → Bool) (s s1 s2 : State Key Obj W) (hs : Left isInst s) (p p' : Prog Key Obj W)
    (hp : (∃ key cont, p = .resolve key cont) ∨ ∃ key cont, p = .collect key cont) (r r')
    (h1 : exec isInst p s = some (s1, r)) (h2 : exec isInst p' s1 = some (s2, r')) :
    s2.regs.map signature = s1.regs.map signature ∧ s1.regs.map signature = s.regs.map signature ∧
    ∀ key plain provider singleton,
      register key plain provider singleton s2 = (s2, .error .invalidOperation) := by
  have hinv := left_inv hs
  have sig : ∀ {a b : State Key Obj W}, Ext a b → a.frozen = true → b.regs.map signature = a.regs.map signature := by
    intro a b h hf
    apply List.ext_getElem?
    intro i
    rw [List.getElem?_map, List.getElem?_map]
    cases hr : a.regs[i]? with
    | none =>
      have := List.getElem?_eq_none_iff.mp hr
      rw [List.getElem?_eq_none (by rw [h.frozenLen hf]; exact this)]
    | some r =>
      obtain ⟨r', hr', kept, -⟩ := h.same i r hr
      rw [hr']
      simp [kept.sig]
  -- the first call starts with freezing
  have hstart : Ext (freeze s) s1 ∧ Inv s1 := by
    obtain ⟨f1, -⟩ := freeze_spec s hinv
    rcases hp with ⟨key, cont, rfl⟩ | ⟨key, cont, rfl⟩
    · unfold exec at h1
      rw [run] at h1
      split at h1
      · cases h1
      · rename_i t q ht
        have hfz : resolveWith (instanceOf isInst) key (freeze s) = some (t, q) := ht
        obtain ⟨g1, g2, -⟩ := resolve_spec (top_fine isInst) key _ _ _ f1 hfz
        obtain ⟨g3, g4⟩ := run_spec (top_fine isInst) _ _ _ _ g1 h1
        exact ⟨g2.trans g4, g3⟩
    · unfold exec at h1
      rw [run] at h1
      obtain ⟨g3, g4⟩ := run_spec (top_fine isInst) _ _ _ _ f1 h1
      exact ⟨g4, g3⟩
  obtain ⟨e1, i1⟩ := hstart
  have hf1 := e1.frozen rfl
  obtain ⟨-, e2⟩ := exec_spec isInst p' s1 s2 r' i1 h2
  refine ⟨sig e2 hf1, (sig e1 rfl : s1.regs.map signature = (freeze s).regs.map signature), fun key plain provider singleton => ?_⟩
  unfold register
  rw [if_pos (e2.frozen hf1)]

/-! ### C63: resolving ends -/

section

private def free (s : State Key Obj W) : Nat := s.regs.countP fun r => !r.inCall

omit [DecidableEq Key] in
private theorem free_ext {s s' : State Key Obj W} (h : Ext s s') (hf : s.frozen = true) : free s' = free s := by
  unfold free
  have hmap : s'.regs.map (·.inCall) = s.regs.map (·.inCall) := by
    apply List.ext_getElem?
    intro i
    rw [List.getElem?_map, List.getElem?_map]
    cases hr : s.regs[i]? with
    | none =>
      have := List.getElem?_eq_none_iff.mp hr
      rw [List.getElem?_eq_none (by rw [h.frozenLen hf]; exact this)]
    | some r =>
      obtain ⟨r', hr', kept, -⟩ := h.same i r hr
      rw [hr']
      simp [kept.inCall]
  have : ∀ l : List (Reg Key Obj W), l.countP (fun r => !r.inCall) = (l.map (·.inCall)).countP fun b => !b := by
    intro l
    rw [List.countP_map]
    rfl
  rw [this, this, hmap]

omit [DecidableEq Key] in
private theorem free_setCall (s : State Key Obj W) (i : Nat) (r : Reg Key Obj W) (hr : s.regs[i]? = some r)
    (hc : r.inCall = false) : free (setCall i true s) + 1 = free s := by
  unfold free
  simp only [setCall]
  have key : ∀ (l : List (Reg Key Obj W)) (i : Nat), l[i]? = some r →
      (l.modify i fun r => { r with inCall := true }).countP (fun r => !r.inCall) + 1 =
        l.countP fun r => !r.inCall := by
    intro l
    induction l with
    | nil => simp
    | cons x l ih =>
      intro i hi
      cases i with
      | zero =>
        simp only [List.getElem?_cons_zero, Option.some.injEq] at hi
        subst hi
        rw [List.modify_zero_cons, List.countP_cons, List.countP_cons]
        simp [hc]
      | succ i =>
        rw [List.getElem?_cons_succ] at hi
        rw [List.modify_succ_cons, List.countP_cons, List.countP_cons, ← ih i hi]
        omega
  exact key _ i hr

/-- `get_instance` ends from states with at most `n` registrations that are not in a call. -/
private def Ends (n : Nat) (inst : Nat → State Key Obj W → Outcome Key Obj W (Option Obj)) : Prop :=
  ∀ i s, Inv s → s.frozen = true → free s ≤ n → ∃ x, inst i s = some x

private theorem run_ends {n : Nat} {inst : Nat → State Key Obj W → Outcome Key Obj W (Option Obj)} (hf : Fine inst)
    (he : Ends n inst) (p : Prog Key Obj W) (s : State Key Obj W) (h : Inv s) (hfrozen : s.frozen = true)
    (hn : free s ≤ n) : ∃ x, run inst p s = some x := by
  induction p generalizing s with
  | ret o => exact ⟨_, rfl⟩
  | fail e => exact ⟨_, rfl⟩
  | effect f cont ih =>
    rw [run]
    exact ih _ _ (h.congr rfl rfl) hfrozen hn
  | register key plain p single cont _ ih =>
    rw [run]
    obtain ⟨g1, g2⟩ := register_spec key plain p single s h
    exact ih _ _ g1 (g2.frozen hfrozen) (by rw [free_ext g2 hfrozen]; exact hn)
  | resolve key cont ih =>
    rw [run]
    have : ∃ x, resolveWith inst key s = some x := by
      unfold resolveWith
      simp only
      split
      · exact ⟨_, rfl⟩
      · rename_i i hi
        obtain ⟨f1, f2⟩ := freeze_spec s h
        obtain ⟨⟨t, q⟩, hx⟩ := he i (freeze s) f1 rfl (by rw [free_ext f2 hfrozen]; exact hn)
        rw [hx]
        cases q with
        | error e => exact ⟨_, rfl⟩
        | ok o => cases o <;> exact ⟨_, rfl⟩
    obtain ⟨⟨t, q⟩, hx⟩ := this
    rw [hx]
    obtain ⟨g1, g2, g3⟩ := resolve_spec hf key s t q h hx
    exact ih _ _ g1 g3 (by rw [free_ext g2 hfrozen]; exact hn)
  | collect key cont ih =>
    rw [run]
    obtain ⟨f1, f2⟩ := freeze_spec s h
    exact ih _ _ f1 rfl (by rw [free_ext f2 hfrozen]; exact hn)
  | member i cont ih =>
    rw [run, if_pos hfrozen]
    obtain ⟨⟨t, q⟩, hx⟩ := he i s h hfrozen hn
    rw [hx]
    obtain ⟨g1, g2⟩ := hf i s t q h hx
    exact ih _ _ g1 (g2.frozen hfrozen) (by rw [free_ext g2 hfrozen]; exact hn)

private theorem inst_ends (isInst : Obj → Key → Bool) (n : Nat) : Ends n (getInstance (W := W) isInst n) := by
  induction n with
  | zero =>
    intro i s h hf hn
    unfold getInstance
    split
    · exact ⟨_, rfl⟩
    · rename_i reg hreg
      split
      · exact ⟨_, rfl⟩
      · split
        · exact ⟨_, rfl⟩
        · rename_i hcall
          have := free_setCall s i reg hreg (by simpa using hcall)
          omega
  | succ n ih =>
    intro i s h hf hn
    unfold getInstance
    split
    · exact ⟨_, rfl⟩
    · rename_i reg hreg
      split
      · exact ⟨_, rfl⟩
      · split
        · exact ⟨_, rfl⟩
        · rename_i hcall
          have := free_setCall s i reg hreg (by simpa using hcall)
          obtain ⟨⟨t, q⟩, hx⟩ := run_ends (inst_fine isInst n) ih reg.provider (setCall i true s)
            (setCall_inv i true s h) hf (by omega)
          simp only [hx]
          cases q <;> exact ⟨_, rfl⟩

private theorem top_ends (isInst : Obj → Key → Bool) (i : Nat) (s : State Key Obj W) (h : Inv s)
    (hf : s.frozen = true) : ∃ x, instanceOf isInst i s = some x :=
  inst_ends isInst s.regs.length i s h hf List.countP_le_length

/-- **Resolving ends.** Whatever is registered (cycles included) and whatever the client and the providers
do, no chain of calls is deeper than the number of registrations: every client program ends. -/
theorem C63_terminates (isInst : Obj → Key → Bool) (p : Prog Key Obj W) (s : State Key Obj W)
    (hs : Left isInst s) : ∃ s' r, exec isInst p s = some (s', r) := by
  suffices ∀ s, Inv s → ∃ x, exec isInst p s = some x by
    obtain ⟨⟨s', r⟩, h⟩ := this s (left_inv hs)
    exact ⟨s', r, h⟩
  unfold exec
  clear hs s
  induction p with
  | ret o => exact fun _ _ => ⟨_, rfl⟩
  | fail e => exact fun _ _ => ⟨_, rfl⟩
  | effect f cont ih =>
    intro s h
    rw [run]
    exact ih _ _ (h.congr rfl rfl)
  | register key plain p single cont _ ih =>
    intro s h
    rw [run]
    exact ih _ _ (register_spec key plain p single s h).1
  | resolve key cont ih =>
    intro s h
    rw [run]
    have : ∃ x, resolveWith (instanceOf isInst) key s = some x := by
      unfold resolveWith
      simp only
      split
      · exact ⟨_, rfl⟩
      · rename_i i hi
        obtain ⟨⟨t, q⟩, hx⟩ := top_ends isInst i (freeze s) (freeze_spec s h).1 rfl
        rw [hx]
        cases q with
        | error e => exact ⟨_, rfl⟩
        | ok o => cases o <;> exact ⟨_, rfl⟩
    obtain ⟨⟨t, q⟩, hx⟩ := this
    rw [hx]
    exact ih _ _ (resolve_spec (top_fine isInst) key s t q h hx).1
  | collect key cont ih =>
    intro s h
    rw [run]
    exact ih _ _ (freeze_spec s h).1
  | member i cont ih =>
    intro s h
    rw [run]
    split
    · rename_i hf
      obtain ⟨⟨t, q⟩, hx⟩ := top_ends isInst i s h hf
      rw [hx]
      exact ih _ _ (top_fine isInst i s t q h hx).1
    · exact ih _ _ h

end

/-! ### C63: cycles -/

/-- A class that is wired automatically: its key, the keys of the parameters of its constructor, whether it
is a singleton, and the constructor. -/
structure Wired (Key Obj W : Type) where
  key : Key
  needs : List Key
  singleton : Bool
  build : List Obj → W → W × Obj

/-- The class `a` needs `b`. -/
def Needs (specs : List (Wired Key Obj W)) (a b : Key) : Prop := ∃ c ∈ specs, c.key = a ∧ b ∈ c.needs

/-- There is a provider for the key. -/
def Registered (specs : List (Wired Key Obj W)) (a : Key) : Prop := ∃ c ∈ specs, c.key = a

/-- From `a` one comes to `b` through what is needed, in zero or more steps. -/
inductive Leads (specs : List (Wired Key Obj W)) : Key → Key → Prop where
  | refl (a : Key) : Leads specs a a
  | step {a b c : Key} : Needs specs a b → Leads specs b c → Leads specs a c

/-- A client that resolves keys, whatever the results are. -/
def requests : List Key → Prog Key Obj W
  | [] => .ret none
  | k :: ks => .resolve k fun _ => requests ks

/-- A client that registers classes and then resolves keys. -/
def session : List (Wired Key Obj W) → List Key → Prog Key Obj W
  | [], ks => requests ks
  | c :: cs, ks => .register c.key true (wire c.build c.needs []) c.singleton fun _ => session cs ks

section

/-- Everything below is registered, and there is no infinite descent. -/
private inductive Sound (specs : List (Wired Key Obj W)) : Key → Prop where
  | intro {a : Key} : Registered specs a → (∀ b, Needs specs a b → Sound specs b) → Sound specs a

omit [DecidableEq Key] in
private theorem Leads.trans {specs : List (Wired Key Obj W)} {a b c : Key} (h : Leads specs a b)
    (h' : Leads specs b c) : Leads specs a c := by
  induction h with
  | refl => exact h'
  | step hn _ ih => exact .step hn (ih h')

omit [DecidableEq Key] in
private theorem Sound.leads {specs : List (Wired Key Obj W)} {a b : Key} (h : Sound specs a)
    (hl : Leads specs a b) : Sound specs b := by
  induction hl with
  | refl => exact h
  | step hn _ ih =>
    cases h with
    | intro _ hb => exact ih (hb _ hn)

omit [DecidableEq Key] in
private theorem Sound.noLoop {specs : List (Wired Key Obj W)} {a : Key} (h : Sound specs a) (b : Key)
    (hn : Needs specs a b) : ¬ Leads specs b a := by
  induction h generalizing b with
  | intro hr _ ih =>
    rename_i a _
    intro hl
    -- walk once around: the successor has a loop, too
    cases hl with
    | refl => exact ih _ hn _ hn (.refl _)
    | step hn' hl' => exact ih _ hn _ hn' (hl'.trans (.step hn (.refl _)))

private def ChainOf (specs : List (Wired Key Obj W)) (c : List Key) : Prop :=
  ∀ i a b, c[i]? = some a → c[i + 1]? = some b → Needs specs a b

private def Loop (specs : List (Wired Key Obj W)) (stack : List Key) (k : Key) (c : List Key) : Prop :=
  c.head? = some k ∧ ChainOf specs c ∧ ∃ pre x, c = pre ++ [x] ∧ (x ∈ pre ∨ x ∈ stack)

private def Fault (specs : List (Wired Key Obj W)) (stack : List Key) (k : Key) : Err Key → Prop
  | .cycle c => Loop specs stack k c
  | .notFound x => Leads specs k x ∧ ¬ Registered specs x
  | _ => False

private def Verdict {α : Type} (specs : List (Wired Key Obj W)) (stack : List Key) (k : Key) :
    Except (Err Key) α → Prop
  | .ok _ => Sound specs k
  | .error e => Fault specs stack k e

private def sigOf (c : Wired Key Obj W) : Key × Bool × Prog Key Obj W × Bool :=
  (c.key, true, wire c.build c.needs [], c.singleton)

private structure WInv (isInst : Obj → Key → Bool) (specs : List (Wired Key Obj W)) (stack : List Key)
    (s : State Key Obj W) : Prop where
  sig : s.regs.map signature = specs.map sigOf
  held : ∀ (i : Nat) (r : Reg Key Obj W) (o : Option Obj), s.regs[i]? = some r → r.obj = some o →
    Sound specs r.key ∧ ∃ x, o = some x ∧ isInst x r.key = true
  calls : ∀ (i : Nat) (r : Reg Key Obj W), s.regs[i]? = some r → r.inCall = true → r.key ∈ stack

variable {isInst : Obj → Key → Bool} {specs : List (Wired Key Obj W)}

omit [DecidableEq Key] in
private theorem WInv.reg {stack : List Key} {s : State Key Obj W} (h : WInv isInst specs stack s) {i : Nat}
    {r : Reg Key Obj W} (hr : s.regs[i]? = some r) : ∃ c, specs[i]? = some c ∧ signature r = sigOf c := by
  have := congrArg (fun l => l[i]?) h.sig
  simp only [List.getElem?_map, hr, Option.map_some] at this
  obtain ⟨c, hc, he⟩ := Option.map_eq_some_iff.mp this.symm
  exact ⟨c, hc, he.symm⟩

omit [DecidableEq Key] in
private theorem WInv.setCall {stack : List Key} {s : State Key Obj W} (h : WInv isInst specs stack s) (i : Nat)
    (r : Reg Key Obj W) (hr : s.regs[i]? = some r) : WInv isInst specs (r.key :: stack) (setCall i true s) := by
  refine ⟨?_, ?_, ?_⟩
  · rw [← h.sig]
    apply List.ext_getElem?
    intro j
    rw [List.getElem?_map, List.getElem?_map, setCall_get, Option.map_map]
    congr 1
    funext q
    simp only [Function.comp]
    split <;> rfl
  · intro j q o hq ho
    rw [setCall_get] at hq
    obtain ⟨q', hq', rfl⟩ := Option.map_eq_some_iff.mp hq
    by_cases hij : i = j
    · simp only [hij, if_true] at ho ⊢
      exact h.held j q' o hq' ho
    · simp only [hij, if_false] at ho ⊢
      exact h.held j q' o hq' ho
  · intro j q hq hc
    rw [setCall_get] at hq
    obtain ⟨q', hq', rfl⟩ := Option.map_eq_some_iff.mp hq
    by_cases hij : i = j
    · subst hij
      rw [hr] at hq'
      cases hq'
      simp
    · simp only [hij, if_false] at hc ⊢
      exact List.mem_cons_of_mem _ (h.calls j q' hq' hc)

omit [DecidableEq Key] in
private theorem WInv.unset {stack : List Key} {s : State Key Obj W} {key : Key}
    (hnd : (specs.map (·.key)).Nodup) (h : WInv isInst specs (key :: stack) s) (i : Nat)
    (hi : ∃ c, specs[i]? = some c ∧ c.key = key) : WInv isInst specs stack (Dep.setCall i false s) := by
  refine ⟨?_, ?_, ?_⟩
  · rw [← h.sig]
    apply List.ext_getElem?
    intro j
    rw [List.getElem?_map, List.getElem?_map, setCall_get, Option.map_map]
    congr 1
    funext q
    simp only [Function.comp]
    split <;> rfl
  · intro j q o hq ho
    rw [setCall_get] at hq
    obtain ⟨q', hq', rfl⟩ := Option.map_eq_some_iff.mp hq
    by_cases hij : i = j
    · simp only [hij, if_true] at ho ⊢
      exact h.held j q' o hq' ho
    · simp only [hij, if_false] at ho ⊢
      exact h.held j q' o hq' ho
  · intro j q hq hc
    rw [setCall_get] at hq
    obtain ⟨q', hq', rfl⟩ := Option.map_eq_some_iff.mp hq
    by_cases hij : i = j
    · simp only [hij, if_true] at hc
      cases hc
    · simp only [hij, if_false] at hc ⊢
      rcases List.mem_cons.mp (h.calls j q' hq' hc) with hk | hk
      · exfalso
        obtain ⟨c, hc1, hc2⟩ := hi
        obtain ⟨c', hc1', hc2'⟩ := h.reg hq'
        simp only [signature, sigOf, Prod.mk.injEq] at hc2'
        apply hij
        obtain ⟨l1, e1⟩ := List.getElem?_eq_some_iff.mp hc1
        obtain ⟨l2, e2⟩ := List.getElem?_eq_some_iff.mp hc1'
        have := List.getElem_inj (xs := specs.map (·.key)) (i := i) (j := j) (h₀ := by simpa using l1)
          (h₁ := by simpa using l2) hnd
        apply this.mp
        rw [List.getElem_map, List.getElem_map, e1, e2, hc2, ← hk, hc2'.1]
      · exact hk

private def Sharp (isInst : Obj → Key → Bool) (specs : List (Wired Key Obj W))
    (inst : Nat → State Key Obj W → Outcome Key Obj W (Option Obj)) : Prop :=
  ∀ stack i s s' r reg, WInv isInst specs stack s → s.regs[i]? = some reg → inst i s = some (s', r) →
    WInv isInst specs stack s' ∧ Verdict specs stack reg.key r ∧ r ≠ .ok none

private theorem resolve_sharp {inst : Nat → State Key Obj W → Outcome Key Obj W (Option Obj)}
    (hi : Sharp isInst specs inst) (stack : List Key) (k : Key) (s s' : State Key Obj W) (r)
    (h : WInv isInst specs stack s) (hr : resolveWith inst k s = some (s', r)) :
    WInv isInst specs stack s' ∧ Verdict specs stack k r ∧ (¬ Registered specs k → r = .error (.notFound k)) := by
  have hfz : WInv isInst specs stack (freeze s) := ⟨h.sig, h.held, h.calls⟩
  unfold resolveWith at hr
  simp only at hr
  split at hr
  · rename_i hnone
    cases hr
    refine ⟨hfz, ⟨.refl k, ?_⟩, fun _ => rfl⟩
    rintro ⟨c, hc, hck⟩
    unfold lookup at hnone
    rw [List.findIdx?_eq_none_iff] at hnone
    obtain ⟨j, hj⟩ := List.getElem?_of_mem hc
    have hmap := congrArg (fun l => l[j]?) hfz.sig
    simp only [List.getElem?_map, hj, Option.map_some] at hmap
    obtain ⟨q, hq, hqs⟩ := Option.map_eq_some_iff.mp hmap
    have := hnone q (List.mem_of_getElem? hq)
    simp only [signature, sigOf, Prod.mk.injEq] at hqs
    simp [hqs.1, hqs.2.1, hck] at this
  · rename_i i hl
    unfold lookup at hl
    obtain ⟨hlt, hp, -⟩ := List.findIdx?_eq_some_iff_getElem.mp hl
    simp only [Bool.and_eq_true, decide_eq_true_eq] at hp
    have hreg : (freeze s).regs[i]? = some (freeze s).regs[i] := List.getElem?_eq_getElem hlt
    have hregistered : Registered specs k := by
      obtain ⟨c, hc, hs⟩ := hfz.reg hreg
      simp only [signature, sigOf, Prod.mk.injEq] at hs
      exact ⟨c, List.mem_of_getElem? hc, by rw [← hs.1]; exact hp.2⟩
    split at hr
    · cases hr
    · rename_i t e hg
      cases hr
      obtain ⟨g1, g2, -⟩ := hi stack i _ _ _ _ hfz hreg hg
      rw [hp.2] at g2
      exact ⟨g1, g2, fun hn => absurd hregistered hn⟩
    · rename_i t hg
      exact absurd rfl (hi stack i _ _ _ _ hfz hreg hg).2.2
    · rename_i t o hg
      cases hr
      obtain ⟨g1, g2, -⟩ := hi stack i _ _ _ _ hfz hreg hg
      rw [hp.2] at g2
      exact ⟨g1, g2, fun hn => absurd hregistered hn⟩

private theorem wire_sharp {inst : Nat → State Key Obj W → Outcome Key Obj W (Option Obj)}
    (hi : Sharp isInst specs inst) (stack : List Key) (build : List Obj → W → W × Obj) (needs : List Key)
    (args : List Obj) (s s' : State Key Obj W) (r)
    (h : WInv isInst specs stack s) (hr : run inst (wire build needs args) s = some (s', r)) :
    WInv isInst specs stack s' ∧
    ((∃ a w, r = .ok (some (build a w).2)) ∧ (∀ n ∈ needs, Sound specs n) ∨
      ∃ e, r = .error e ∧ ∃ n ∈ needs, Fault specs stack n e) := by
  induction needs generalizing args s with
  | nil =>
    rw [wire, run] at hr
    rw [run] at hr
    cases hr
    exact ⟨⟨h.sig, h.held, h.calls⟩, Or.inl ⟨⟨args, s.world, rfl⟩, by simp⟩⟩
  | cons n ns ih =>
    rw [wire, run] at hr
    split at hr
    · cases hr
    · rename_i t q ht
      obtain ⟨g1, g2, -⟩ := resolve_sharp hi stack n s t q h ht
      cases q with
      | error e =>
        simp only [run] at hr
        cases hr
        exact ⟨g1, Or.inr ⟨e, rfl, n, by simp, g2⟩⟩
      | ok o =>
        obtain ⟨i1, i2⟩ := ih _ _ g1 hr
        refine ⟨i1, ?_⟩
        rcases i2 with ⟨a, b⟩ | ⟨e, he, m, hm, hv⟩
        · refine Or.inl ⟨a, ?_⟩
          intro x hx
          rcases List.mem_cons.mp hx with rfl | hx
          · exact g2
          · exact b x hx
        · exact Or.inr ⟨e, he, m, List.mem_cons_of_mem _ hm, hv⟩

omit [DecidableEq Key] in
private theorem WInv.log {stack : List Key} {s : State Key Obj W} (h : WInv isInst specs stack s)
    (e : Event Obj) : WInv isInst specs stack (note e s) := ⟨h.sig, h.held, h.calls⟩

omit [DecidableEq Key] in
private theorem WInv.setObj {stack : List Key} {s : State Key Obj W} (h : WInv isInst specs stack s) (i : Nat)
    (key : Key) (hi : ∀ r, s.regs[i]? = some r → r.key = key) (x : Obj) (hs : Sound specs key)
    (hx : isInst x key = true) : WInv isInst specs stack (Dep.setObj i (some x) s) := by
  refine ⟨?_, ?_, ?_⟩
  · rw [← h.sig]
    apply List.ext_getElem?
    intro j
    rw [List.getElem?_map, List.getElem?_map, setObj_get, Option.map_map]
    congr 1
    funext q
    simp only [Function.comp]
    split <;> rfl
  · intro j q o hq ho
    rw [setObj_get] at hq
    obtain ⟨q', hq', rfl⟩ := Option.map_eq_some_iff.mp hq
    by_cases hij : i = j
    · subst hij
      simp only [if_true, Option.some.injEq] at ho ⊢
      rw [hi q' hq']
      exact ⟨hs, x, ho.symm, hx⟩
    · simp only [hij, if_false] at ho ⊢
      exact h.held j q' o hq' ho
  · intro j q hq hc
    rw [setObj_get] at hq
    obtain ⟨q', hq', rfl⟩ := Option.map_eq_some_iff.mp hq
    by_cases hij : i = j
    · simp only [hij, if_true] at hc ⊢
      exact h.calls j q' hq' hc
    · simp only [hij, if_false] at hc ⊢
      exact h.calls j q' hq' hc

private theorem inst_sharp (hnd : (specs.map (·.key)).Nodup)
    (hinst : ∀ c ∈ specs, ∀ args w, isInst (c.build args w).2 c.key = true) (fuel : Nat) :
    Sharp isInst specs (getInstance isInst fuel) := by
  have cached : ∀ stack (i : Nat) (s s' : State Key Obj W) r reg o, WInv isInst specs stack s → s.regs[i]? = some reg →
      reg.obj = some o → handOut isInst i reg.key o s = (s', r) →
      WInv isInst specs stack s' ∧ Verdict specs stack reg.key r ∧ r ≠ .ok none := by
    intro stack i s s' r reg o h hreg ho hh
    obtain ⟨h1, x, rfl, hx⟩ := h.held i reg o hreg ho
    unfold handOut at hh
    simp only [Option.all_some, hx, if_true] at hh
    cases hh
    exact ⟨h.log _, h1, by simp⟩
  have again : ∀ stack (i : Nat) (s : State Key Obj W) (reg : Reg Key Obj W), WInv isInst specs stack s → s.regs[i]? = some reg →
      reg.inCall = true → Verdict (α := Option Obj) specs stack reg.key (.error (.cycle [reg.key])) := by
    intro stack i s reg h hreg hc
    refine ⟨rfl, ?_, [], reg.key, rfl, Or.inr (h.calls i reg hreg hc)⟩
    intro j a b _ hb
    simp at hb
  induction fuel with
  | zero =>
    intro stack i s s' r reg h hreg hg
    unfold getInstance at hg
    rw [hreg] at hg
    simp only at hg
    split at hg
    · rename_i o ho
      exact cached stack i s s' r reg o h hreg ho (Option.some.inj hg)
    · split at hg
      · rename_i hc
        cases hg
        exact ⟨h, again stack i _ reg h hreg hc, by simp⟩
      · cases hg
  | succ fuel ih =>
    intro stack i s s' r reg h hreg hg
    unfold getInstance at hg
    rw [hreg] at hg
    simp only at hg
    split at hg
    · rename_i o ho
      exact cached stack i s s' r reg o h hreg ho (Option.some.inj hg)
    · split at hg
      · rename_i hc
        cases hg
        exact ⟨h, again stack i _ reg h hreg hc, by simp⟩
      · obtain ⟨c, hc, hsig⟩ := h.reg hreg
        have hsig' := hsig
        simp only [signature, sigOf, Prod.mk.injEq] at hsig'
        obtain ⟨hkey, -, hprov, -⟩ := hsig'
        have hcm := List.mem_of_getElem? hc
        have hneeds : ∀ n, Needs specs reg.key n → n ∈ c.needs := by
          rintro n ⟨c', hc', hk', hn⟩
          have : c' = c := by
            obtain ⟨a, ha⟩ := List.getElem?_of_mem hc'
            obtain ⟨l1, e1⟩ := List.getElem?_eq_some_iff.mp ha
            obtain ⟨l2, e2⟩ := List.getElem?_eq_some_iff.mp hc
            have hinj := List.getElem_inj (xs := specs.map (·.key)) (i := a) (j := i) (h₀ := by simpa using l1)
              (h₁ := by simpa using l2) hnd
            have : a = i := by
              apply hinj.mp
              rw [List.getElem_map, List.getElem_map, e1, e2, hk', hkey]
            subst this
            rw [ha] at hc
            exact Option.some.inj hc
          rw [← this]
          exact hn
        have hedge : ∀ n ∈ c.needs, Needs specs reg.key n := fun n hn => ⟨c, hcm, hkey.symm, hn⟩
        have h1 := h.setCall i reg hreg
        rw [hprov] at hg
        split at hg
        · cases hg
        · rename_i t e hrun
          cases hg
          obtain ⟨w1, w2⟩ := wire_sharp ih _ _ _ _ _ _ _ h1 hrun
          refine ⟨w1.unset hnd i ⟨c, hc, hkey.symm⟩, ?_, by simp⟩
          rcases w2 with ⟨⟨a, w, hcon⟩, -⟩ | ⟨e', he, n, hn, hv⟩
          · cases hcon
          · cases he
            cases e with
            | cycle keys =>
              obtain ⟨v1, v2, pre, x, v3, v4⟩ := hv
              refine ⟨rfl, ?_, reg.key :: pre, x, by rw [v3]; rfl, ?_⟩
              · intro j a b ha hb
                cases j with
                | zero =>
                  simp only [List.getElem?_cons_zero, Option.some.injEq] at ha
                  rw [List.getElem?_cons_succ] at hb
                  subst ha
                  rw [← List.head?_eq_getElem?, v1] at hb
                  cases hb
                  exact hedge n hn
                | succ j =>
                  rw [List.getElem?_cons_succ] at ha hb
                  exact v2 j a b ha hb
              · rcases v4 with v4 | v4
                · exact Or.inl (List.mem_cons_of_mem _ v4)
                · rcases List.mem_cons.mp v4 with rfl | v4
                  · exact Or.inl (by simp)
                  · exact Or.inr v4
            | notFound x => exact ⟨.step (hedge n hn) hv.1, hv.2⟩
            | wrongType => exact hv
            | invalidOperation => exact hv
            | noSuchMember => exact hv
            | other n => exact hv
        · rename_i t o hrun
          obtain ⟨w1, w2⟩ := wire_sharp ih _ _ _ _ _ _ _ h1 hrun
          rcases w2 with ⟨⟨a, w, hcon⟩, hall⟩ | ⟨e', he, -⟩
          · cases hcon
            have hsound : Sound specs reg.key :=
              .intro ⟨c, hcm, hkey.symm⟩ fun n hn => hall n (hneeds n hn)
            have hx : isInst (c.build a w).2 reg.key = true := by
              rw [hkey]
              exact hinst c hcm a w
            have w3 := (w1.unset hnd i ⟨c, hc, hkey.symm⟩).log (Event.created i (some (c.build a w).2))
            unfold handOut at hg
            simp only [Option.all_some, hx, if_true] at hg
            cases hg
            refine ⟨?_, hsound, by simp⟩
            apply WInv.log
            split
            · refine w3.setObj i reg.key ?_ _ hsound hx
              intro q hq
              obtain ⟨c', hc', hs'⟩ := w3.reg hq
              rw [hc] at hc'
              cases hc'
              simp only [signature, sigOf, Prod.mk.injEq] at hs'
              rw [hs'.1, hkey]
            · exact w3
          · cases he

private theorem session_spec (hnd : (specs.map (·.key)).Nodup)
    (hinst : ∀ c ∈ specs, ∀ args w, isInst (c.build args w).2 c.key = true) (todo done : List (Wired Key Obj W))
    (hsp : specs = done ++ todo) (ks : List Key) (s s' : State Key Obj W) (r)
    (h : s.regs = done.map fun c => ⟨c.key, true, wire c.build c.needs [], c.singleton, none, false⟩)
    (hf : s.frozen = false) (hr : exec isInst (session todo ks) s = some (s', r)) : WInv isInst specs [] s' := by
  induction todo generalizing done s with
  | nil =>
    rw [List.append_nil] at hsp
    subst hsp
    have hw : WInv isInst specs [] s := by
      refine ⟨?_, ?_, ?_⟩
      · rw [h, List.map_map]
        rfl
      · intro i q o hq ho
        rw [h, List.getElem?_map] at hq
        obtain ⟨c, -, rfl⟩ := Option.map_eq_some_iff.mp hq
        cases ho
      · intro i q hq hc
        rw [h, List.getElem?_map] at hq
        obtain ⟨c, -, rfl⟩ := Option.map_eq_some_iff.mp hq
        cases hc
    clear h hf
    unfold exec at hr
    rw [session] at hr
    induction ks generalizing s with
    | nil =>
      rw [requests, run] at hr
      cases hr
      exact hw
    | cons k ks ih =>
      rw [requests, run] at hr
      split at hr
      · cases hr
      · rename_i t q ht
        refine ih _ hr (resolve_sharp ?_ [] k s t q hw ht).1
        intro stack i s s' r reg h hreg hg
        exact inst_sharp hnd hinst _ stack i s s' r reg h hreg hg
  | cons c todo ih =>
    unfold exec at hr
    rw [session, run] at hr
    have hreg : register c.key true (wire c.build c.needs []) c.singleton s =
        ({ s with regs := s.regs ++ [⟨c.key, true, wire c.build c.needs [], c.singleton, none, false⟩] },
          .ok ()) := by
      unfold register
      have hl : lookup c.key s.regs = none := by
        unfold lookup
        rw [List.findIdx?_eq_none_iff]
        intro q hq
        rw [h] at hq
        obtain ⟨c', hc', rfl⟩ := List.mem_map.mp hq
        simp only [Bool.true_and, decide_eq_false_iff_not]
        intro he
        rw [hsp, List.map_append, List.nodup_append] at hnd
        exact hnd.2.2 _ (List.mem_map_of_mem hc') c.key (by simp) he
      simp [hf, hl]
    rw [hreg] at hr
    exact ih (done ++ [c]) (by rw [hsp]; simp)
      { s with regs := s.regs ++ [⟨c.key, true, wire c.build c.needs [], c.singleton, none, false⟩] }
      (by simp [h]) hf hr

end

/-- **Cycles are reported.** Classes with distinct keys that are wired automatically are registered, and any
keys are resolved. Then resolving a key: succeeds only if everything it leads to is registered and on no
cycle; raises a cycle error only with a path of dependencies from the key to a key that occurs twice on it;
raises a not-found error only for a key that is reached and not registered; and does nothing else. -/
theorem C63_cycle (isInst : Obj → Key → Bool) (specs : List (Wired Key Obj W))
    (hnd : (specs.map (·.key)).Nodup) (hinst : ∀ c ∈ specs, ∀ args w, isInst (c.build args w).2 c.key = true)
    (w : W) (before : List Key) (s s' : State Key Obj W) (r0) (k : Key) (r)
    (h0 : exec isInst (session specs before) (State.init w) = some (s, r0))
    (h : exec isInst (request k) s = some (s', r)) :
    match r with
    | .ok o => o.isSome ∧ (∀ x, Leads specs k x → Registered specs x) ∧
        ¬ ∃ x y, Leads specs k x ∧ Needs specs x y ∧ Leads specs y x
    | .error (.cycle c) => c.head? = some k ∧
        (∀ i a b, c[i]? = some a → c[i + 1]? = some b → Needs specs a b) ∧ ∃ pre x, c = pre ++ [x] ∧ x ∈ pre
    | .error (.notFound x) => Leads specs k x ∧ ¬ Registered specs x
    | .error _ => False := by
  have hw := session_spec hnd hinst specs [] rfl before _ s r0 (by simp [State.init]) rfl h0
  unfold exec request at h
  rw [run] at h
  split at h
  · cases h
  · rename_i t q ht
    obtain ⟨-, hv, -⟩ := resolve_sharp (fun stack i s s' r reg h hreg hg =>
      inst_sharp hnd hinst _ stack i s s' r reg h hreg hg) [] k s t q hw ht
    cases q with
    | ok o =>
      simp only [run] at h
      cases h
      have hv : Sound specs k := hv
      refine ⟨rfl, fun x hx => ?_, ?_⟩
      · cases hv.leads hx with
        | intro h _ => exact h
      · rintro ⟨x, y, h1, h2, h3⟩
        exact (hv.leads h1).noLoop y h2 h3
    | error e =>
      simp only [run] at h
      cases h
      cases e with
      | cycle c =>
        obtain ⟨v1, v2, pre, x, v3, v4⟩ := hv
        exact ⟨v1, v2, pre, x, v3, v4.resolve_right (by simp)⟩
      | notFound x => exact hv
      | wrongType => exact hv
      | invalidOperation => exact hv
      | noSuchMember => exact hv
      | other n => exact hv

/-- **Cyclic or missing dependencies are errors, others are not.** Resolving succeeds exactly if everything
the key leads to is registered and on no cycle; and always comes to an end. -/
theorem C63_resolve_iff (isInst : Obj → Key → Bool) (specs : List (Wired Key Obj W))
    (hnd : (specs.map (·.key)).Nodup) (hinst : ∀ c ∈ specs, ∀ args w, isInst (c.build args w).2 c.key = true)
    (w : W) (before : List Key) (s : State Key Obj W) (r0) (k : Key)
    (h0 : exec isInst (session specs before) (State.init w) = some (s, r0)) :
    ∃ s' r, exec isInst (request k) s = some (s', r) ∧
      (r.isOk ↔ (∀ x, Leads specs k x → Registered specs x) ∧
        ¬ ∃ x y, Leads specs k x ∧ Needs specs x y ∧ Leads specs y x) := by
  obtain ⟨s', r, h⟩ := C63_terminates isInst (request k) s ⟨w, _, r0, h0⟩
  refine ⟨s', r, h, ?_⟩
  have hc := C63_cycle isInst specs hnd hinst w before s s' r0 k r h0 h
  cases r with
  | ok o => exact ⟨fun _ => hc.2, fun _ => rfl⟩
  | error e =>
    refine ⟨fun hok => (by cases hok), ?_⟩
    rintro ⟨h1, h2⟩
    cases e with
    | cycle c =>
      exfalso
      obtain ⟨c1, c2, pre, x, rfl, hx⟩ := hc
      -- from the first occurrence of `x` to the last one
      have walk : ∀ (m : List Key) (a b : Key), (∀ i p q, (a :: m ++ [b])[i]? = some p →
          (a :: m ++ [b])[i + 1]? = some q → Needs specs p q) → ∃ y, Needs specs a y ∧ Leads specs y b := by
        intro m
        induction m with
        | nil =>
          intro a b hm
          exact ⟨b, hm 0 a b rfl rfl, .refl b⟩
        | cons y m ih =>
          intro a b hm
          obtain ⟨z, z1, z2⟩ := ih y b fun i p q hp hq => hm (i + 1) p q
            (by simpa using hp) (by simpa using hq)
          exact ⟨y, hm 0 a y rfl rfl, .step z1 z2⟩
      obtain ⟨u, v, rfl⟩ := List.append_of_mem hx
      have hto : Leads specs k x := by
        cases u with
        | nil =>
          simp only [List.nil_append, List.cons_append, List.head?_cons, Option.some.injEq] at c1
          rw [c1]
          exact .refl k
        | cons a u =>
          simp only [List.cons_append, List.head?_cons, Option.some.injEq] at c1
          subst c1
          obtain ⟨y, y1, y2⟩ := walk u a x fun i p q hp hq => c2 i p q
            (by
              obtain ⟨hi, -⟩ := List.getElem?_eq_some_iff.mp hp
              have : (a :: u ++ x :: v) ++ [x] = (a :: u ++ [x]) ++ (v ++ [x]) := by simp
              rw [this, List.getElem?_append_left hi]
              exact hp)
            (by
              obtain ⟨hi, -⟩ := List.getElem?_eq_some_iff.mp hq
              have : (a :: u ++ x :: v) ++ [x] = (a :: u ++ [x]) ++ (v ++ [x]) := by simp
              rw [this, List.getElem?_append_left hi]
              exact hq)
          exact .step y1 y2
      obtain ⟨y, y1, y2⟩ := walk v x x fun i p q hp hq => c2 (u.length + i) p q
        (by
          have : (u ++ x :: v) ++ [x] = u ++ (x :: v ++ [x]) := by simp
          rw [this, List.getElem?_append_right (by omega)]
          simpa using hp)
        (by
          have : (u ++ x :: v) ++ [x] = u ++ (x :: v ++ [x]) := by simp
          rw [this, List.getElem?_append_right (by omega)]
          have : u.length + i + 1 - u.length = i + 1 := by omega
          rw [this]
          exact hq)
      exact h2 ⟨x, y, hto, y1, y2⟩
    | notFound x => exact absurd (h1 x hc.1) hc.2
    | wrongType => exact hc.elim
    | invalidOperation => exact hc.elim
    | noSuchMember => exact hc.elim
    | other n => exact hc.elim

/-- **Optional dependencies.** `maybe_resolve` gives `None` exactly for keys without a provider: a provider
that lacks something, or is on a cycle, still raises. -/
theorem C63_maybe (isInst : Obj → Key → Bool) (specs : List (Wired Key Obj W))
    (hnd : (specs.map (·.key)).Nodup) (hinst : ∀ c ∈ specs, ∀ args w, isInst (c.build args w).2 c.key = true)
    (w : W) (before : List Key) (s s' : State Key Obj W) (r0) (k : Key) (r)
    (h0 : exec isInst (session specs before) (State.init w) = some (s, r0))
    (h : exec isInst (maybeRequest k) s = some (s', r)) : r = .ok none ↔ ¬ Registered specs k := by
  have hw := session_spec hnd hinst specs [] rfl before _ s r0 (by simp [State.init]) rfl h0
  unfold exec maybeRequest at h
  rw [run] at h
  split at h
  · cases h
  · rename_i t q ht
    obtain ⟨-, hv, hn⟩ := resolve_sharp (fun stack i s s' r reg h hreg hg =>
      inst_sharp hnd hinst _ stack i s s' r reg h hreg hg) [] k s t q hw ht
    cases q with
    | ok o =>
      simp only [run] at h
      cases h
      refine ⟨fun hc => (by simp at hc), fun hc => ?_⟩
      cases hn hc
    | error e =>
      simp only at h
      split at h
      · rename_i he
        subst he
        simp only [run] at h
        cases h
        exact ⟨fun _ => hv.2, fun _ => rfl⟩
      · rename_i he
        simp only [run] at h
        cases h
        refine ⟨fun hc => (by simp at hc), fun hc => ?_⟩
        cases hn hc
        exact absurd rfl he

/-- Three classes: the first needs the second, which needs the third and, if asked, the first. -/
private def three (back : Bool) : List (Wired Nat Nat Nat) :=
  [⟨1, [2, 3], true, fun args w => (w + 1, 100 * w + args.length)⟩,
   ⟨2, [3], false, fun args w => (w + 1, 100 * w + args.length)⟩,
   ⟨3, if back then [1] else [], true, fun _ w => (w + 1, 100 * w)⟩]

/-- The result of a client, as a value to compare. -/
private def shown (x : Outcome Nat Nat Nat (Option Nat)) : Option (Option (Option Nat) × List Nat) :=
  x.map fun y => match y.2 with
    | .ok o => (some o, [])
    | .error (.cycle c) => (none, c)
    | .error _ => (none, [])

/-- Non-vacuity: the classes are resolved, the singleton twice to one object, the other to two objects; with
the back edge there is a cycle error with the path. -/
example :
    shown (exec (fun _ _ => true) (session (three false) [1, 1]) (State.init 0)) = some (some none, []) ∧
    (((exec (fun _ _ => true) (session (three false) [1, 2, 1]) (State.init 0)).map
      fun x => (givenBy 0 x.1.log, givenBy 1 x.1.log, createdBy 2 x.1.log)) =
      some ([some 202, some 202], [some 101, some 301], [some 0])) ∧
    ((exec (fun _ _ => true) (session (three true) []) (State.init 0)).bind fun x =>
      shown (exec (fun _ _ => true) (request 2) x.1)) = some (none, [2, 3, 1, 2]) := by decide

/-- Non-vacuity: the hypotheses of the theorems hold for these classes. -/
example : ((three true).map (·.key)).Nodup ∧ ((three false).map (·.key)).Nodup := by decide

/-- **A failing singleton is tried again.** A provider that raises is called again at the next resolve:
what it does to the outside world before raising (here counting) happens again. -/
theorem C63_failing_singleton :
    let p : Prog Nat Nat Nat := .register 1 true (.effect (fun w => (w + 1, none)) fun _ => .fail (.other 0)) true
      fun _ => .resolve 1 fun _ => .resolve 1 fun _ => .ret none
    (exec (fun _ _ => true) p (State.init 0)).map (fun x => x.1.world) = some 2 := by decide

end Fs2.Props
