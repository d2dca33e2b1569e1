import Verif.Checkpoint.Step

/-!
# The invariant in every reachable state
-/

namespace Fs2.Ckpt

variable {C : Type} {N : Nat} {t : Topo N} {pol : Bool}

theorem Inv.step (hN : 0 < N) {evs e : List (Event C)} {s s' : St N C} (h : Inv t pol evs s)
    (hs : Step s e s') : Inv t pol (evs ++ e) s' := by
  obtain ⟨hfiles, hlast, hat⟩ := id h
  have nobar : ∀ {i p} {l : List (Instr C)} {fs fs' b}, Instr.barrier :: l = i :: p →
      Act i fs fs' b → False := by
    intro i p l fs fs' b he ha
    cases he
    exact (act_not ha).1 rfl
  cases hat with
  | @stop p pre hp hP =>
    have hpre := hP.pre_cases
    cases hs with
    | @run r i q fs' hr ha =>
      rcases hpre r with e | ⟨n, recs, e⟩ <;> rw [hp, e] at hr <;> cases hr
      exact absurd rfl ((act_not ha).2.2.1 _ _)
    | @more r i q fs' hr ha =>
      rcases hpre r with e | ⟨n, recs, e⟩ <;> rw [hp, e] at hr <;> cases hr
      exact absurd rfl ((act_not ha).2.2.1 _ _)
    | @note r e q hr => rcases hpre r with e | ⟨n, recs, e⟩ <;> rw [hp, e] at hr <;> cases hr
    | @join r q hr => rcases hpre r with e | ⟨n, recs, e⟩ <;> rw [hp, e] at hr <;> cases hr
    | @barrier q hb =>
      have := hb ⟨0, hN⟩
      rcases hpre ⟨0, hN⟩ with e | ⟨n, recs, e⟩ <;> rw [hp, e] at this <;> cases this
    | @spawn r n recs q hr =>
      obtain ⟨e1, e2⟩ := hP.spawn (prog := upd s.prog r q) (by rw [← hp, hr])
      refine h.quiet (fun _ _ => rfl) (.stop (pre := upd pre r []) ?_ e2)
      rw [hp, e1] at hr
      cases hr
      exact upd_of (by simp [upd]) (fun r' hr' => by simp [upd, hr', hp])
    | @back r i b fs' hr ha =>
      obtain ⟨e1, e2⟩ := hP.back hr ha
      exact h.quiet (fun n i => e2 _ _ (by simp)) (.stop hp e1)
  | @poll sv cs pre hsane hap hp hP =>
    have hpre := hP.pre_cases
    have hhead := fun {r i q} (hr : s.prog r = i :: q) =>
      head_cases (cur := []) (hpre r) (hr.symm.trans (hp r))
    cases hs with
    | @run r i q fs' hr ha =>
      rcases hhead hr with ⟨n, recs, -, rfl, -⟩ | ⟨-, c, e, -⟩ | ⟨-, -, rfl, -⟩
      · exact absurd rfl ((act_not ha).2.2.1 _ _)
      · cases e
      · exact absurd rfl (act_not ha).1
    | @more r i q fs' hr ha =>
      rcases hhead hr with ⟨n, recs, -, rfl, -⟩ | ⟨-, c, e, -⟩ | ⟨-, -, rfl, -⟩
      · exact absurd rfl ((act_not ha).2.2.1 _ _)
      · cases e
      · exact absurd rfl (act_not ha).1
    | @note r e q hr => rcases hhead hr with ⟨n, recs, -, e, -⟩ | ⟨-, c, e, -⟩ | ⟨-, -, e, -⟩ <;> cases e
    | @join r q hr => rcases hhead hr with ⟨n, recs, -, e, -⟩ | ⟨-, c, e, -⟩ | ⟨-, -, e, -⟩ <;> cases e
    | @barrier q hb =>
      obtain ⟨e1, -, rfl⟩ := at_barrier (cur := fun _ => []) hpre (by simp) hp hb
      refine h.quiet (fun _ _ => rfl) (.enter (p := some sv) (pre := fun _ => []) hsane hap
        (fun r => rfl) ?_)
      have : pre = fun _ => [] := funext e1
      subst this
      exact hP.frame (fun _ _ _ _ _ => rfl)
    | @spawn r n recs q hr =>
      rcases hhead hr with ⟨n', recs', e, e', e''⟩ | ⟨-, c, e, -⟩ | ⟨-, -, e, -⟩
      · cases e'
        obtain ⟨-, e2⟩ := hP.spawn (prog := upd s.prog r q) e
        refine h.quiet (fun _ _ => rfl) (.poll (pre := upd pre r []) hsane hap ?_ e2)
        refine upd_of (by simpa [upd] using e''.symm) (fun r' hr' => by simp [upd, hr', hp])
      · cases e
      · cases e
    | @back r i b fs' hr ha =>
      obtain ⟨e1, e2⟩ := hP.back hr ha
      exact h.quiet (fun n i => e2 _ _ (by simp)) (.poll hsane hap hp e1)
  | @del p m keep cs pre cur hsane hap hne hk hp hD hP =>
    have hpre := hP.pre_cases
    have hhead := fun {r i q} (hr : s.prog r = i :: q) => head_cases (hpre r) (hr.symm.trans (hp r))
    have hfr : ∀ {fs' : FS C}, (∀ l j, l ≠ .tmp m → l ≠ .final m → fs' l j = s.fs l j) →
        ∀ sv, p = some sv → ∀ l i, (l = .tmp sv.step ∨ l = .final sv.step) → fs' l i = s.fs l i := by
      rintro fs' hf sv rfl l i hl
      have hm : sv.step ≠ m := by simpa using hne
      rcases hl with rfl | rfl
      · exact hf _ _ (by simpa using hm) (by simp)
      · exact hf _ _ (by simp) (by simpa using hm)
    cases hs with
    | @run r i q fs' hr ha =>
      rcases hhead hr with ⟨n, recs, -, rfl, -⟩ | ⟨e1, c, e, e2⟩ | ⟨-, -, rfl, -⟩
      · exact absurd rfl ((act_not ha).2.2.1 _ _)
      · obtain ⟨f1, f2, f3, f4⟩ := deletes_act h hD e ha
        rw [f1, List.append_nil]
        refine ⟨f3, hlast, .del hsane hap hne hk (cur := upd cur r c) ?_ f4 (hP.frame (hfr f2))⟩
        refine upd_of (by simp [upd, e1, e2]) (fun r' hr' => by simp [upd, hr', hp])
      · exact absurd rfl (act_not ha).1
    | @more r i q fs' hr ha =>
      rcases hhead hr with ⟨n, recs, -, rfl, -⟩ | ⟨e1, c, e, e2⟩ | ⟨-, -, rfl, -⟩
      · exact absurd rfl ((act_not ha).2.2.1 _ _)
      · obtain ⟨f1, f2, f3, f4⟩ := deletes_act h hD e ha
        rw [List.append_nil]
        have : upd cur r (i :: c) = cur := by
          funext r'
          by_cases hrr : r' = r
          · subst hrr; simp [upd, e]
          · simp [upd, hrr]
        simp only [Bool.false_eq_true, if_false, this] at f4
        exact ⟨f3, hlast, .del hsane hap hne hk hp f4 (hP.frame (prog := s.prog) (hfr f2))⟩
      · exact absurd rfl (act_not ha).1
    | @note r ev q hr =>
      rcases hhead hr with ⟨n, recs, -, e, -⟩ | ⟨e1, c, e, e2⟩ | ⟨-, -, e, -⟩
      · cases e
      · obtain ⟨f1, f2, f3, f4⟩ := deletes_event h hD hk e
        refine ⟨f2, by rw [f1]; exact f3, ?_⟩
        rw [f1]
        refine .del hsane hap hne hk (cur := upd cur r c) ?_ f4 (hP.frame (fs' := s.fs) (fun _ _ _ _ _ => rfl))
        refine upd_of (by simp [upd, e1, e2]) (fun r' hr' => by simp [upd, hr', hp])
      · cases e
    | @join r q hr =>
      rcases hhead hr with ⟨n, recs, -, e, -⟩ | ⟨e1, c, e, e2⟩ | ⟨-, -, e, -⟩
      · cases e
      · exact absurd rfl (deletes_head hD e).2.1
      · cases e
    | @barrier q hb =>
      obtain ⟨e1, e2, rfl⟩ := at_barrier hpre (fun r c e => (deletes_head hD e).1 rfl) hp hb
      refine h.quiet (fun _ _ => rfl) (.enter (pre := fun _ => []) hsane hap
        (fun r => rfl) ?_)
      have : pre = fun _ => [] := funext e1
      subst this
      exact hP.frame (fun _ _ _ _ _ => rfl)
    | @spawn r n recs q hr =>
      rcases hhead hr with ⟨n', recs', e, e', e''⟩ | ⟨-, c, e, -⟩ | ⟨-, -, e, -⟩
      · cases e'
        obtain ⟨-, e2⟩ := hP.spawn (prog := upd s.prog r q) e
        refine h.quiet (fun _ _ => rfl) (.del (pre := upd pre r []) (cur := cur) hsane hap hne hk ?_ hD e2)
        refine upd_of (by simpa [upd] using e''.symm) (fun r' hr' => by simp [upd, hr', hp])
      · exact absurd rfl ((deletes_head hD e).2.2 _ _)
      · cases e
    | @back r i b fs' hr ha =>
      obtain ⟨e1, e2⟩ := hP.back hr ha
      refine h.quiet (fun n i => e2 _ _ (by simp)) (.del hsane hap hne hk hp (hD.congr fun l i hl => ?_) e1)
      refine e2 _ _ ?_
      rintro sv rfl
      have hm : sv.step ≠ m := by simpa using hne
      rcases hl with rfl | rfl
      · simpa using Ne.symm hm
      · simp
  | @join sv cs pre cur hsane hap hp hcur hP =>
    have hpre := hP.pre_cases
    have hhead := fun {r i q} (hr : s.prog r = i :: q) => head_cases (hpre r) (hr.symm.trans (hp r))
    have hjoin : ∀ {r i c}, cur r = i :: c → i = .join ∧ c = [] := by
      intro r i c e
      rcases hcur r with h | ⟨h, -⟩ <;> rw [h] at e <;> cases e
      exact ⟨rfl, rfl⟩
    cases hs with
    | @run r i q fs' hr ha =>
      rcases hhead hr with ⟨n, recs, -, rfl, -⟩ | ⟨e1, c, e, e2⟩ | ⟨-, -, rfl, -⟩
      · exact absurd rfl ((act_not ha).2.2.1 _ _)
      · exact absurd (hjoin e).1 (act_not ha).2.1
      · exact absurd rfl (act_not ha).1
    | @more r i q fs' hr ha =>
      rcases hhead hr with ⟨n, recs, -, rfl, -⟩ | ⟨e1, c, e, e2⟩ | ⟨-, -, rfl, -⟩
      · exact absurd rfl ((act_not ha).2.2.1 _ _)
      · exact absurd (hjoin e).1 (act_not ha).2.1
      · exact absurd rfl (act_not ha).1
    | @note r e q hr =>
      rcases hhead hr with ⟨n, recs, -, e, -⟩ | ⟨e1, c, e, e2⟩ | ⟨-, -, e, -⟩
      · cases e
      · cases (hjoin e).1
      · cases e
    | @join r q hr hbg =>
      rcases hhead hr with ⟨n, recs, -, e, -⟩ | ⟨e1, c, e, e2⟩ | ⟨-, -, e, -⟩
      · cases e
      · obtain ⟨-, rfl⟩ := hjoin e
        refine h.quiet (fun _ _ => rfl) (.join (pre := pre) (cur := upd cur r []) hsane hap ?_ ?_
          (hP.frame (fs' := s.fs) (fun _ _ _ _ _ => rfl)))
        · exact upd_of (by simp [upd, e1, e2]) (fun r' hr' => by simp [upd, hr', hp])
        · intro r'
          by_cases hrr : r' = r
          · subst hrr
            exact .inr ⟨by simp [upd], e1, hbg⟩
          · simpa [upd, hrr] using hcur r'
      · cases e
    | @barrier q hb =>
      obtain ⟨e1, e2, rfl⟩ := at_barrier hpre (fun r c e => by cases (hjoin e).1) hp hb
      have hbg : ∀ r, s.bg r = [] := by
        intro r
        rcases hcur r with h | ⟨-, -, h⟩
        · rw [e2] at h; cases h
        · exact h
      refine h.quiet (fun _ _ => rfl) (.joined hsane hap (fun r => rfl) ⟨hbg, ?_⟩)
      simpa [hbg, e1, spawned] using hP.2.2
    | @spawn r n recs q hr =>
      rcases hhead hr with ⟨n', recs', e, e', e''⟩ | ⟨-, c, e, -⟩ | ⟨-, -, e, -⟩
      · cases e'
        obtain ⟨-, e2⟩ := hP.spawn (prog := upd s.prog r q) e
        refine h.quiet (fun _ _ => rfl) (.join (pre := upd pre r []) (cur := cur) hsane hap ?_ ?_ e2)
        · exact upd_of (by simpa [upd] using e''.symm) (fun r' hr' => by simp [upd, hr', hp])
        · intro r'
          by_cases hrr : r' = r
          · subst hrr
            rcases hcur r' with h | ⟨-, h, -⟩
            · exact .inl h
            · rw [h] at e; cases e
          · simpa [upd, hrr] using hcur r'
      · cases (hjoin e).1
      · cases e
    | @back r i b fs' hr ha =>
      obtain ⟨e1, e2⟩ := hP.back hr ha
      refine h.quiet (fun n i => e2 _ _ (by simp)) (.join (cur := cur) hsane hap hp ?_ e1)
      intro r'
      by_cases hrr : r' = r
      · subst hrr
        rcases hcur r' with h | ⟨-, -, h⟩
        · exact .inl h
        · rw [h] at hr; cases hr
      · simpa [upd, hrr] using hcur r'
  | @joined sv cs hsane hap hp hR =>
    cases hs with
    | @run r i q fs' hr ha => rw [hp] at hr; exact (nobar hr ha).elim
    | @more r i q fs' hr ha => rw [hp] at hr; exact (nobar hr ha).elim
    | @note r e q hr => rw [hp] at hr; cases hr
    | @join r q hr => rw [hp] at hr; cases hr
    | @spawn r n recs q hr => rw [hp] at hr; cases hr
    | @back r i b fs' hr ha => rw [hR.bg] at hr; cases hr
    | @barrier q hb =>
      have : q = fun r => renameSeg t sv r ++ .barrier :: program t r none cs := by
        funext r
        have := hb r
        rw [hp] at this
        exact (List.cons.inj this).2.symm
      subst this
      exact h.quiet (fun _ _ => rfl) (.commit hsane hap (fun r => rfl) ⟨hR.bg, hR.writing⟩)
  | @commit sv cs hsane hap hp hR =>
    have hhead : ∀ {r i q}, s.prog r = i :: q →
        (r.val = 0 ∧ i = .rename sv.step (allRecords t sv) ∧ q = .barrier :: program t r none cs) ∨
        (r.val ≠ 0 ∧ i = .barrier) := by
      intro r i q hr
      rw [hp] at hr
      by_cases h0 : r.val = 0
      · simp only [renameSeg, h0, if_pos, List.cons_append, List.nil_append, List.cons.injEq] at hr
        exact .inl ⟨h0, hr.1.symm, hr.2.symm⟩
      · simp only [renameSeg, h0, if_false, List.nil_append, List.cons.injEq] at hr
        exact .inr ⟨h0, hr.1.symm⟩
    cases hs with
    | @run r i q fs' hr ha =>
      rcases hhead hr with ⟨h0, rfl, rfl⟩ | ⟨-, rfl⟩
      · cases ha with
        | rename h1 h2 =>
          have hE := writing_all hR.writing
          simp only [Instr.shown]
          refine ⟨fun n => ?_, fun _ b hb => ?_, ?_⟩
          · rw [status_snoc]
            by_cases hn : sv.step = n
            · subst hn
              simp only [Status.next, if_pos]
              obtain ⟨g1, g2, g3, g4, g5⟩ := hE
              exact ⟨by simp [FS.move, g1], fun x hx => by simp [FS.move, g2 x hx],
                fun x hx => by simp [FS.move, g3 x hx],
                fun f hf => g4 f (by simpa [FS.move] using hf),
                fun k p hk => g5 k p (by simpa [FS.move] using hk)⟩
            · simp only [Status.next, hn, if_false]
              exact (hfiles n).congr fun j => by simp [FS.move, Ne.symm hn]
          · rw [newest_snoc] at hb
            cases hb
            exact ⟨_, by rw [status_snoc]; simp [Status.next]; rfl⟩
          · rw [newest_snoc]
            refine .committed hsane hap ?_ hR.bg
            refine upd_of rfl (fun r' hr' => ?_)
            rw [hp]
            have : r'.val ≠ 0 := fun h' => hr' (Fin.ext (by omega))
            simp [renameSeg, this]
      · exact absurd rfl (act_not ha).1
    | @more r i q fs' hr ha =>
      rcases hhead hr with ⟨h0, rfl, rfl⟩ | ⟨-, rfl⟩
      · cases ha
      · exact absurd rfl (act_not ha).1
    | @note r e q hr => rcases hhead hr with ⟨-, e, -⟩ | ⟨-, e⟩ <;> cases e
    | @join r q hr => rcases hhead hr with ⟨-, e, -⟩ | ⟨-, e⟩ <;> cases e
    | @spawn r n recs q hr => rcases hhead hr with ⟨-, e, -⟩ | ⟨-, e⟩ <;> cases e
    | @back r i b fs' hr ha => rw [hR.bg] at hr; cases hr
    | @barrier q hb =>
      rcases hhead (hb ⟨0, hN⟩) with ⟨-, e, -⟩ | ⟨e, -⟩
      · cases e
      · exact absurd rfl e
  | @committed cs hsane hap hp hbg =>
    cases hs with
    | @run r i q fs' hr ha => rw [hp] at hr; exact (nobar hr ha).elim
    | @more r i q fs' hr ha => rw [hp] at hr; exact (nobar hr ha).elim
    | @note r e q hr => rw [hp] at hr; cases hr
    | @join r q hr => rw [hp] at hr; cases hr
    | @spawn r n recs q hr => rw [hp] at hr; cases hr
    | @back r i b fs' hr ha => rw [hbg] at hr; cases hr
    | @barrier q hb =>
      have : q = fun r => program t r none cs := by
        funext r
        have := hb r
        rw [hp] at this
        exact (List.cons.inj this).2.symm
      subst this
      exact h.quiet (fun _ _ => rfl) (.enter (p := none) (pre := fun _ => []) hsane hap
        (fun r => rfl) (fun r => ⟨rfl, hbg r⟩))
  | @save sv blk cs cur hsane hsv hap hk hp hD hbg =>
    have hhead := fun {r i q} (hr : s.prog r = i :: q) =>
      head_cases (pre := []) (.inl rfl) (hr.symm.trans (hp r))
    cases hs with
    | @run r i q fs' hr ha =>
      rcases hhead hr with ⟨n, recs, e, -, -⟩ | ⟨e1, c, e, e2⟩ | ⟨-, -, rfl, -⟩
      · cases e
      · obtain ⟨f1, f2, f3, f4⟩ := deletes_act h hD e ha
        rw [f1, List.append_nil]
        refine ⟨f3, hlast, .save hsane hsv hap hk (cur := upd cur r c) ?_ f4 hbg⟩
        exact upd_of (by simp [upd, e2]) (fun r' hr' => by simp [upd, hr', hp])
      · exact absurd rfl (act_not ha).1
    | @more r i q fs' hr ha =>
      rcases hhead hr with ⟨n, recs, e, -, -⟩ | ⟨e1, c, e, e2⟩ | ⟨-, -, rfl, -⟩
      · cases e
      · obtain ⟨f1, f2, f3, f4⟩ := deletes_act h hD e ha
        rw [List.append_nil]
        have : upd cur r (i :: c) = cur := by
          funext r'
          by_cases hrr : r' = r
          · subst hrr; simp [upd, e]
          · simp [upd, hrr]
        simp only [Bool.false_eq_true, if_false, this] at f4
        exact ⟨f3, hlast, .save hsane hsv hap hk hp f4 hbg⟩
      · exact absurd rfl (act_not ha).1
    | @note r ev q hr =>
      rcases hhead hr with ⟨n, recs, e, -, -⟩ | ⟨e1, c, e, e2⟩ | ⟨-, -, e, -⟩
      · cases e
      · obtain ⟨f1, f2, f3, f4⟩ := deletes_event h hD hk e
        refine ⟨f2, by rw [f1]; exact f3, ?_⟩
        rw [f1]
        refine .save hsane hsv hap hk (cur := upd cur r c) ?_ f4 hbg
        exact upd_of (by simp [upd, e2]) (fun r' hr' => by simp [upd, hr', hp])
      · cases e
    | @join r q hr =>
      rcases hhead hr with ⟨n, recs, e, -, -⟩ | ⟨e1, c, e, e2⟩ | ⟨-, -, e, -⟩
      · cases e
      · exact absurd rfl (deletes_head hD e).2.1
      · cases e
    | @spawn r n recs q hr =>
      rcases hhead hr with ⟨n, recs, e, -, -⟩ | ⟨e1, c, e, e2⟩ | ⟨-, -, e, -⟩
      · cases e
      · exact absurd rfl ((deletes_head hD e).2.2 _ _)
      · cases e
    | @back r i b fs' hr ha => rw [hbg] at hr; cases hr
    | @barrier q hb =>
      obtain ⟨-, e2, rfl⟩ := at_barrier (pre := fun _ => []) (fun _ => .inl rfl)
        (fun r c e => (deletes_head hD e).1 rfl) hp hb
      have hD0 := hD ⟨0, hN⟩
      simp only [if_pos, e2] at hD0
      obtain ⟨g1, g2⟩ : (∀ i, s.fs (.tmp sv.step) i = none) ∧ ∀ i, s.fs (.final sv.step) i = none := by
        generalize hl : ([] : List (Instr C)) = l at hD0
        cases hD0 with
        | start h' => rw [h'] at hl; simp [deleteSeg] at hl
        | d₄ a b => exact ⟨a, b⟩
        | _ => cases hl
      refine h.quiet (fun _ _ => rfl) (.prep (cur := mkdirs t sv) hsane hsv hap (fun r => rfl)
        (fun r => List.suffix_refl _) hbg g2 (fun f => g1 _) (fun k p hk => absurd (g1 _) hk) (.inl ?_))
      exact ⟨⟨0, hN⟩, by simp [mkdirs]⟩
  | @prep sv blk cs cur hsane hsv hap hp hcur hbg hfin hfile hdirs htop =>
    have hhead := fun {r i q} (hr : s.prog r = i :: q) =>
      head_cases (pre := []) (.inl rfl) (hr.symm.trans (hp r))
    have hmem : ∀ {r i c}, cur r = i :: c → i ∈ mkdirs t sv r := by
      intro r i c e
      exact (hcur r).subset (by simp [e])
    cases hs with
    | @run r i q fs' hr ha =>
      rcases hhead hr with ⟨n, recs, e, -, -⟩ | ⟨e1, c, e, e2⟩ | ⟨-, -, rfl, -⟩
      · cases e
      · have hcur' : ∀ r', upd cur r c r' <:+ mkdirs t sv r' := by
          intro r'
          by_cases hrr : r' = r
          · subst hrr
            simp only [upd, if_pos]
            have := hcur r'
            rw [e] at this
            exact (List.suffix_cons _ _).trans this
          · simpa [upd, hrr] using hcur r'
        have hprog : ∀ r', upd s.prog r q r' = upd cur r c r' ++ .barrier :: afterPrep t sv blk cs r' :=
          upd_of (by simp [upd, e2]) (fun r' hr' => by simp [upd, hr', hp])
        rcases mem_mkdirs (hmem e) with ⟨rfl, h0⟩ | ⟨k, p, rfl, hx⟩
        · cases ha
          refine h.quiet (fun n i => by simp [FS.put]) (.prep hsane hsv hap hprog hcur' hbg
            (fun i => by simp [FS.put, hfin]) (fun f => by simp [FS.put, hfile])
            (fun k p hk => hdirs k p (by simpa [FS.put] using hk)) (.inr (by simp [FS.put])))
        · cases ha
          refine h.quiet (fun n i => by simp [FS.mkdirs]) (.prep hsane hsv hap hprog hcur' hbg
            (fun i => by simp [FS.mkdirs, hfin]) (fun f => by simp [FS.mkdirs, hfile])
            (fun k' p' hk => ?_) ?_)
          · by_cases hkk : k' = k ∧ p' <+: p
            · obtain ⟨x, hx1, hx2⟩ := hx
              exact ⟨r, x, hx1, by rw [hx2, hkk.1]⟩
            · exact hdirs k' p' (by simpa [FS.mkdirs, hkk] using hk)
          · exact .inr (by simp [FS.mkdirs])
      · exact absurd rfl (act_not ha).1
    | @more r i q fs' hr ha =>
      rcases hhead hr with ⟨n, recs, e, -, -⟩ | ⟨e1, c, e, e2⟩ | ⟨-, -, rfl, -⟩
      · cases e
      · rcases mem_mkdirs (hmem e) with ⟨rfl, h0⟩ | ⟨k, p, rfl, hx⟩ <;> cases ha
      · exact absurd rfl (act_not ha).1
    | @note r ev q hr =>
      rcases hhead hr with ⟨n, recs, e, -, -⟩ | ⟨e1, c, e, e2⟩ | ⟨-, -, e, -⟩
      · cases e
      · rcases mem_mkdirs (hmem e) with ⟨e, h0⟩ | ⟨k, p, e, hx⟩ <;> cases e
      · cases e
    | @join r q hr =>
      rcases hhead hr with ⟨n, recs, e, -, -⟩ | ⟨e1, c, e, e2⟩ | ⟨-, -, e, -⟩
      · cases e
      · rcases mem_mkdirs (hmem e) with ⟨e, h0⟩ | ⟨k, p, e, hx⟩ <;> cases e
      · cases e
    | @spawn r n recs q hr =>
      rcases hhead hr with ⟨n, recs, e, -, -⟩ | ⟨e1, c, e, e2⟩ | ⟨-, -, e, -⟩
      · cases e
      · rcases mem_mkdirs (hmem e) with ⟨e, h0⟩ | ⟨k, p, e, hx⟩ <;> cases e
      · cases e
    | @back r i b fs' hr ha => rw [hbg] at hr; cases hr
    | @barrier q hb =>
      obtain ⟨-, e2, rfl⟩ := at_barrier (pre := fun _ => []) (cur := cur) (fun _ => .inl rfl)
        (fun r c e => by rcases mem_mkdirs (hmem e) with ⟨e, h0⟩ | ⟨k, p, e, hx⟩ <;> cases e) hp hb
      have htop' : s.fs (.tmp sv.step) .top = some .dir := by
        rcases htop with ⟨r, hr⟩ | h
        · rw [e2] at hr; cases hr
        · exact h
      have hW : Writing t sv s.fs fun r => writes sv.step (records t sv r) :=
        ⟨hfin, htop', fun f hf => absurd (hfile f) hf, hdirs,
          fun r => .between (done := []) rfl (by simp)⟩
      cases blk with
      | true =>
        refine h.quiet (fun _ _ => rfl) (.write (cur := fun r => writes sv.step (records t sv r))
          (by simpa [SaneAfter] using hsane) hsv.sep hap (fun r => by simp [afterPrep]) hbg hW)
      | false =>
        refine h.quiet (fun _ _ => rfl) (.enter (p := some sv)
          (pre := fun r => [.spawn sv.step (records t sv r)]) (by simpa [SaneAfter] using hsane) hap
          (fun r => by simp [afterPrep]) ⟨hsv.sep, fun r => .inr ⟨rfl, hbg r⟩, ?_⟩)
        simpa [hbg, spawned] using hW
  | @write sv cs cur hsane hsep hap hp hbg hW =>
    have hhead := fun {r i q} (hr : s.prog r = i :: q) =>
      head_cases (pre := []) (.inl rfl) (hr.symm.trans (hp r))
    have hkind : ∀ {r i c}, cur r = i :: c → (∃ f, i = .create sv.step f) ∨ ∃ f x, i = .write sv.step f x := by
      intro r i c e
      have hf := hW.flow r
      rw [e] at hf
      generalize hl : i :: c = l at hf
      cases hf with
      | @between d rest _ _ =>
        cases rest with
        | nil => simp [writes] at hl
        | cons x rest => simp only [writes, List.cons.injEq] at hl; exact .inl ⟨_, hl.1⟩
      | inside => simp only [List.cons.injEq] at hl; exact .inr ⟨_, _, hl.1⟩
    cases hs with
    | @run r i q fs' hr ha =>
      rcases hhead hr with ⟨n, recs, e, -, -⟩ | ⟨e1, c, e, e2⟩ | ⟨-, -, rfl, -⟩
      · cases e
      · obtain ⟨-, f1, f2, f3⟩ := hW.step hsep e ha
        rw [f1]
        refine h.quiet (fun n i => f3 _ _ (by simp)) (.write (cur := upd cur r c) hsane hsep hap ?_ hbg f2)
        exact upd_of (by simp [upd, e2]) (fun r' hr' => by simp [upd, hr', hp])
      · exact absurd rfl (act_not ha).1
    | @more r i q fs' hr ha =>
      rcases hhead hr with ⟨n, recs, e, -, -⟩ | ⟨e1, c, e, e2⟩ | ⟨-, -, rfl, -⟩
      · cases e
      · obtain ⟨f0, -⟩ := hW.step hsep e ha
        cases f0
      · exact absurd rfl (act_not ha).1
    | @note r ev q hr =>
      rcases hhead hr with ⟨n, recs, e, -, -⟩ | ⟨e1, c, e, e2⟩ | ⟨-, -, e, -⟩
      · cases e
      · rcases hkind e with ⟨f, e⟩ | ⟨f, x, e⟩ <;> cases e
      · cases e
    | @join r q hr =>
      rcases hhead hr with ⟨n, recs, e, -, -⟩ | ⟨e1, c, e, e2⟩ | ⟨-, -, e, -⟩
      · cases e
      · rcases hkind e with ⟨f, e⟩ | ⟨f, x, e⟩ <;> cases e
      · cases e
    | @spawn r n recs q hr =>
      rcases hhead hr with ⟨n, recs, e, -, -⟩ | ⟨e1, c, e, e2⟩ | ⟨-, -, e, -⟩
      · cases e
      · rcases hkind e with ⟨f, e⟩ | ⟨f, x, e⟩ <;> cases e
      · cases e
    | @back r i b fs' hr ha => rw [hbg] at hr; cases hr
    | @barrier q hb =>
      obtain ⟨-, e2, rfl⟩ := at_barrier (pre := fun _ => []) (cur := cur) (fun _ => .inl rfl)
        (fun r c e => by rcases hkind e with ⟨f, e⟩ | ⟨f, x, e⟩ <;> cases e) hp hb
      have : cur = fun _ => [] := funext e2
      subst this
      exact h.quiet (fun _ _ => rfl) (.commit hsane hap (fun r => rfl) ⟨hbg, hW⟩)

theorem Inv.exec (hN : 0 < N) {evs e : List (Event C)} {s s' : St N C} (h : Inv t pol evs s)
    (hs : Exec s e s') : Inv t pol (evs ++ e) s' := by
  induction hs with
  | nil => simpa using h
  | snoc _ hs ih =>
    rw [← List.append_assoc]
    exact ih.step hN hs

/-- The files of every history. -/
theorem hist_files {fs : FS C} {evs : List (Event C)} {as} (h : Hist pol fs evs as) :
    (∀ n, StepOk fs n (status evs n)) ∧
    (pol = true → ∀ b, newest evs = some b → ∃ recs, status evs b = .complete recs) := by
  induction h with
  | empty => exact ⟨fun n i => rfl, by simp [newest]⟩
  | session _ hN hS hA hE ih =>
    have : Inv _ pol _ (start _ _ _) := ⟨ih.1, ih.2,
      .enter (p := none) (pre := fun _ => []) hS hA (fun r => rfl) (fun r => ⟨rfl, rfl⟩)⟩
    have := this.exec hN hE
    exact ⟨this.files, this.last⟩

end Fs2.Ckpt
