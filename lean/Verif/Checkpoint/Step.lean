import Verif.Checkpoint.Inv

/-!
# The invariant is kept by every step
-/

namespace Fs2.Ckpt

variable {C : Type} {N : Nat} {t : Topo N} {pol : Bool}

/-! ## Lists of events -/

theorem status_snoc (evs : List (Event C)) (e : Event C) (n : Nat) :
    status (evs ++ [e]) n = Status.next n (status evs n) e := by
  simp [status, List.foldl_append]

theorem newest_snoc (evs : List (Event C)) (e : Event C) :
    newest (evs ++ [e]) = match e with | .committed n _ => some n | _ => newest evs := by
  simp only [newest, List.foldl_append]
  cases e <;> rfl

theorem StepOk.congr {fs fs' : FS C} {n : Nat} {st : Status C} (h : StepOk fs n st)
    (h' : ∀ i, fs' (.final n) i = fs (.final n) i) : StepOk fs' n st := by
  cases st with
  | absent => intro i; rw [h']; exact h i
  | complete recs =>
    obtain ⟨h1, h2, h3, h4, h5⟩ := h
    exact ⟨by rw [h', h1], fun x hx => by rw [h', h2 x hx], fun x hx => by rw [h', h3 x hx],
      fun f hf => h4 f (by rwa [h'] at hf), fun k p hk => h5 k p (by rwa [h'] at hk)⟩
  | stripping recs => exact ⟨fun x hx hk => by rw [h', h.1 x hx hk], by rw [h', h.2]⟩
  | stripped recs =>
    exact ⟨fun x hx hk => by rw [h', h.1 x hx hk], by rw [h', h.2.1],
      fun i hi => by rw [h', h.2.2 i hi]⟩
  | deleting => trivial

/-! ## The save in progress -/

theorem Pend.spawn {p : Option (Save N C)} {pre : Fin N → List (Instr C)} {s : St N C}
    {r : Fin N} {n : Nat} {recs : List (Rec C)} {l : List (Instr C)} {prog : Fin N → List (Instr C)}
    (h : Pend t p pre s) (hr : pre r = .spawn n recs :: l) :
    pre r = [.spawn n recs] ∧
    Pend t p (upd pre r []) { s with prog := prog, bg := upd s.bg r (s.bg r ++ writes n recs) } := by
  cases p with
  | none => simp [(h r).1] at hr
  | some sv =>
    obtain ⟨h1, h2, h3⟩ := h
    have hr' := h2 r
    rw [hr] at hr'
    simp only [reduceCtorEq, List.cons.injEq, Instr.spawn.injEq, false_or] at hr'
    obtain ⟨⟨⟨rfl, rfl⟩, rfl⟩, hbg⟩ := hr'
    refine ⟨hr, h1, fun r' => ?_, ?_⟩
    · by_cases hrr : r' = r
      · simp [upd, hrr]
      · simpa [upd, hrr] using h2 r'
    · have : (fun r' => upd s.bg r (s.bg r ++ writes sv.step (records t sv r)) r' ++
          spawned (upd pre r [] r')) = fun r' => s.bg r' ++ spawned (pre r') := by
        funext r'
        by_cases hrr : r' = r
        · subst hrr
          simp [upd, spawned, hr]
        · simp [upd, hrr]
      simpa only [this] using h3

theorem Pend.back {p : Option (Save N C)} {pre : Fin N → List (Instr C)} {s : St N C}
    {r : Fin N} {i : Instr C} {b : List (Instr C)} {fs' : FS C}
    (h : Pend t p pre s) (hr : s.bg r = i :: b) (ha : Act i s.fs fs' true) :
    Pend t p pre { s with fs := fs', bg := upd s.bg r b } ∧
    ∀ l j, (∀ sv, p = some sv → l ≠ .tmp sv.step) → fs' l j = s.fs l j := by
  cases p with
  | none => simp [(h r).2] at hr
  | some sv =>
    obtain ⟨h1, h2, h3⟩ := h
    have hpre : pre r = [] := by
      rcases h2 r with h | ⟨-, h⟩
      · exact h
      · simp [h] at hr
    obtain ⟨-, -, h4, h5⟩ := h3.step (r := r) (i := i) (rest := b) h1 (by simp [hr, hpre, spawned]) ha
    refine ⟨⟨h1, fun r' => ?_, ?_⟩, fun l j hl => h5 l j (hl sv rfl)⟩
    · by_cases hrr : r' = r
      · subst hrr
        exact .inl hpre
      · simpa [upd, hrr] using h2 r'
    · have : (fun r' => upd s.bg r b r' ++ spawned (pre r')) =
          upd (fun r => s.bg r ++ spawned (pre r)) r b := by
        funext r'
        by_cases hrr : r' = r
        · subst hrr
          simp [upd, spawned, hpre]
        · simp [upd, hrr]
      simpa only [this] using h4

theorem Pend.frame {p : Option (Save N C)} {pre : Fin N → List (Instr C)} {s : St N C}
    {fs' : FS C} {prog : Fin N → List (Instr C)} (h : Pend t p pre s)
    (h' : ∀ sv, p = some sv → ∀ l i, (l = .tmp sv.step ∨ l = .final sv.step) → fs' l i = s.fs l i) :
    Pend t p pre { s with fs := fs', prog := prog } := by
  cases p with
  | none => exact h
  | some sv => exact ⟨h.1, h.2.1, h.2.2.frame (h' sv rfl)⟩

theorem Pend.pre_cases {p : Option (Save N C)} {pre : Fin N → List (Instr C)} {s : St N C}
    (h : Pend t p pre s) (r : Fin N) : pre r = [] ∨ ∃ n recs, pre r = [.spawn n recs] := by
  cases p with
  | none => exact .inl (h r).1
  | some sv => exact (h.2.1 r).imp id fun h => ⟨_, _, h.1⟩

/-! ## Deletions -/

theorem Deleting.congr {m : Nat} {st : Status C} {fs fs' : FS C} {keep : Bool}
    {cur : List (Instr C)} (h : Deleting m st fs keep cur)
    (h' : ∀ l i, (l = .tmp m ∨ l = .final m) → fs' l i = fs l i) : Deleting m st fs' keep cur := by
  cases h with
  | start h => exact .start h
  | d₁ h => exact .d₁ fun i => by rw [h' _ _ (.inl rfl), h]
  | d₂ h e => exact .d₂ (fun i => by rw [h' _ _ (.inl rfl), h]) e
  | d₃ h e h2 => exact .d₃ (fun i => by rw [h' _ _ (.inl rfl), h]) e (fun i => by rw [h' _ _ (.inr rfl), h2])
  | d₄ h h2 => exact .d₄ (fun i => by rw [h' _ _ (.inl rfl), h]) (fun i => by rw [h' _ _ (.inr rfl), h2])
  | s₁ => exact .s₁
  | s₂ h => exact .s₂ h
  | s₃ h h2 => exact .s₃ h (fun i hi => by rw [h' _ _ (.inr rfl), h2 i hi])
  | s₄ => exact .s₄

theorem Deletes.congr {m : Nat} {st : Status C} {fs fs' : FS C} {keep : Bool}
    {cur : Fin N → List (Instr C)} (h : Deletes m st fs keep cur)
    (h' : ∀ l i, (l = .tmp m ∨ l = .final m) → fs' l i = fs l i) : Deletes m st fs' keep cur := by
  intro r
  have := h r
  split
  · next h0 => simp only [h0, if_pos] at this; exact this.congr h'
  · next h0 => simpa [h0] using this

/-- A file operation of a deletion. -/
theorem Deleting.act {m : Nat} {st : Status C} {fs fs' : FS C} {keep b : Bool} {i : Instr C}
    {cur : List (Instr C)} (h : Deleting m st fs keep (i :: cur)) (hst : StepOk fs m st)
    (ha : Act i fs fs' b) :
    i.shown = [] ∧ (∀ l j, l ≠ .tmp m → l ≠ .final m → fs' l j = fs l j) ∧ StepOk fs' m st ∧
    Deleting m st fs' keep (if b then cur else i :: cur) := by
  generalize hc : i :: cur = l at h
  cases h with
  | start h =>
    rw [h] at hc
    simp only [deleteSeg, Fin.val_zero, if_pos, List.cons.injEq] at hc
    obtain ⟨rfl, hc⟩ := hc
    cases ha with
    | rm h1 h2 h3 =>
      refine ⟨rfl, fun l j hl _ => by simp [FS.put, hl], hst.congr fun j => by simp [FS.put], ?_⟩
      exact .start h
    | rmTop h1 =>
      refine ⟨rfl, fun l j hl _ => by simp [FS.put, hl], hst.congr fun j => by simp [FS.put], ?_⟩
      cases keep with
      | true => rw [hc]; exact .s₁
      | false =>
        rw [hc]
        refine .d₁ fun j => ?_
        by_cases hj : j = .top
        · simp [FS.put, hj]
        · simp [FS.put, hj, h1 j hj]
  | d₂ h1 h2 =>
    simp only [List.cons.injEq] at hc
    obtain ⟨rfl, rfl⟩ := hc
    cases ha with
    | @rm _ j _ e h3 h4 h5 =>
      refine ⟨rfl, fun l j _ hl => by simp [FS.put, hl], ?_, ?_⟩
      · rcases h2 with rfl | rfl
        · trivial
        · exact absurd (hst j) (by simp [h4])
      · exact .d₂ (fun j => by simp [FS.put, h1]) h2
    | rmTop h3 =>
      have h6 : ∀ j, fs.put (.final m) .top none (.final m) j = none := by
        intro j
        by_cases hj : j = .top
        · simp [FS.put, hj]
        · simp [FS.put, hj, h3 j hj]
      refine ⟨rfl, fun l j _ hl => by simp [FS.put, hl], ?_, .d₃ (fun j => by simp [FS.put, h1]) h2 h6⟩
      rcases h2 with rfl | rfl
      · trivial
      · exact h6
  | s₂ h1 =>
    simp only [List.cons.injEq] at hc
    obtain ⟨rfl, rfl⟩ := hc
    cases ha with
    | @strip _ j _ e h3 h4 h5 =>
      refine ⟨rfl, fun l j _ hl => by simp [FS.put, hl], ?_, .s₂ h1⟩
      cases st with
      | absent => exact absurd (hst j) (by simp [h4])
      | complete r => exact absurd rfl (h1 r).1
      | stripped r => exact absurd rfl (h1 r).2
      | deleting => trivial
      | stripping r =>
        refine ⟨fun x hx hk => ?_, ?_⟩
        · have : Item.file x.file ≠ j := by
            rintro rfl
            simp [kept, hk] at h3
          simp [FS.put, this, hst.1 x hx hk]
        · have : Item.top ≠ j := by
            rintro rfl
            simp [kept] at h3
          simp [FS.put, this, hst.2]
    | stripEnd h3 => exact ⟨rfl, fun _ _ _ _ => rfl, hst, .s₃ h1 h3⟩
  | d₁ | d₃ | s₁ | s₃ =>
    simp only [List.cons.injEq] at hc
    obtain ⟨rfl, -⟩ := hc
    cases ha
  | d₄ | s₄ => cases hc

/-- An event of a deletion. -/
theorem Deleting.event {m : Nat} {st : Status C} {fs : FS C} {keep : Bool} {e : Event C}
    {cur : List (Instr C)} (h : Deleting m st fs keep (.note e :: cur)) (hst : StepOk fs m st) :
    (∀ n recs, e ≠ .committed n recs) ∧ (∀ n s, n ≠ m → Status.next n s e = s) ∧
    StepOk fs m (st.next m e) ∧ Deleting m (st.next m e) fs keep cur := by
  generalize hc : Instr.note e :: cur = l at h
  cases h with
  | start h => rw [h] at hc; simp [deleteSeg] at hc
  | d₁ h1 =>
    simp only [List.cons.injEq, Instr.note.injEq] at hc
    obtain ⟨rfl, rfl⟩ := hc
    refine ⟨by simp, fun n s hn => by simp [Status.next, Ne.symm hn], ?_, .d₂ h1 ?_⟩
    · cases st <;> simp only [Status.next, if_pos, StepOk] <;> exact hst
    · cases st <;> simp [Status.next]
  | d₃ h1 h2 h3 =>
    simp only [List.cons.injEq, Instr.note.injEq] at hc
    obtain ⟨rfl, rfl⟩ := hc
    exact ⟨by simp, fun n s hn => by simp [Status.next, Ne.symm hn],
      by simpa [Status.next, StepOk] using h3, .d₄ h1 h3⟩
  | s₁ =>
    simp only [List.cons.injEq, Instr.note.injEq] at hc
    obtain ⟨rfl, rfl⟩ := hc
    refine ⟨by simp, fun n s hn => by simp [Status.next, Ne.symm hn], ?_, .s₂ fun r => ?_⟩
    · cases st with
      | absent | deleting | stripping r => simpa [Status.next] using hst
      | complete r =>
        simp only [Status.next, if_pos]
        exact ⟨fun x hx _ => hst.file x hx, hst.top⟩
      | stripped r =>
        simp only [Status.next, if_pos]
        exact ⟨hst.1, hst.2.1⟩
    · cases st <;> simp [Status.next]
  | s₃ h1 h2 =>
    simp only [List.cons.injEq, Instr.note.injEq] at hc
    obtain ⟨rfl, rfl⟩ := hc
    refine ⟨by simp, fun n s hn => by simp [Status.next, Ne.symm hn], ?_, .s₄⟩
    cases st with
    | absent | deleting => simpa [Status.next] using hst
    | complete r => exact absurd rfl (h1 r).1
    | stripped r => exact absurd rfl (h1 r).2
    | stripping r =>
      simp only [Status.next, if_pos]
      exact ⟨hst.1, hst.2, h2⟩
  | d₂ | s₂ => simp at hc
  | d₄ | s₄ => cases hc

theorem Deleting.head {m : Nat} {st : Status C} {fs : FS C} {keep : Bool} {i : Instr C}
    {cur : List (Instr C)} (h : Deleting m st fs keep (i :: cur)) :
    i ≠ .barrier ∧ i ≠ .join ∧ ∀ n recs, i ≠ .spawn n recs := by
  generalize hc : i :: cur = l at h
  cases h with
  | start h => rw [h] at hc; simp [deleteSeg] at hc; obtain ⟨rfl, -⟩ := hc; simp
  | d₄ | s₄ => cases hc
  | _ => simp only [List.cons.injEq] at hc; obtain ⟨rfl, -⟩ := hc; simp

/-! ## The invariant -/

structure Inv (t : Topo N) (pol : Bool) (evs : List (Event C)) (s : St N C) : Prop where
  files : ∀ n, StepOk s.fs n (status evs n)
  last : pol = true → ∀ b, newest evs = some b → ∃ recs, status evs b = .complete recs
  «at» : At t pol (newest evs) (status evs) s

theorem Inv.quiet {evs : List (Event C)} {s s' : St N C} (h : Inv t pol evs s)
    (hf : ∀ n i, s'.fs (.final n) i = s.fs (.final n) i)
    (ha : At t pol (newest evs) (status evs) s') : Inv t pol (evs ++ []) s' := by
  rw [List.append_nil]
  exact ⟨fun n => (h.files n).congr (hf n), h.last, ha⟩

/-- The instruction at the head of a rank's program. -/
theorem head_cases {pre cur k : List (Instr C)} {i : Instr C} {p : List (Instr C)}
    (hpre : pre = [] ∨ ∃ n recs, pre = [.spawn n recs])
    (h : i :: p = pre ++ (cur ++ .barrier :: k)) :
    (∃ n recs, pre = [.spawn n recs] ∧ i = .spawn n recs ∧ p = cur ++ .barrier :: k) ∨
    (pre = [] ∧ ∃ cur', cur = i :: cur' ∧ p = cur' ++ .barrier :: k) ∨
    (pre = [] ∧ cur = [] ∧ i = .barrier ∧ p = k) := by
  rcases hpre with rfl | ⟨n, recs, rfl⟩
  · cases cur with
    | nil => simp at h; simp [h]
    | cons j cur => simp at h; simp [h]
  · simp at h; simp [h]

theorem upd_of {α : Type} {g g' : Fin N → α} {r : Fin N} {x : α} (h1 : g' r = x)
    (h2 : ∀ r', r' ≠ r → g' r' = g r') : ∀ r', upd g r x r' = g' r' := by
  intro r'
  by_cases h : r' = r
  · subst h; simp [upd, h1]
  · simp [upd, h, h2 r' h]

theorem act_not {i : Instr C} {fs fs' : FS C} {b : Bool} (h : Act i fs fs' b) :
    i ≠ .barrier ∧ i ≠ .join ∧ (∀ n recs, i ≠ .spawn n recs) ∧ ∀ e, i ≠ .note e := by
  cases h <;> simp

/-- Steps in which rank 0 deletes step `m`: shared by `delete_checkpoint` and the
beginning of a save. -/
theorem deletes_act {evs : List (Event C)} {s : St N C} {m : Nat} {keep b : Bool}
    {cur : Fin N → List (Instr C)} {r : Fin N} {i : Instr C} {cur' : List (Instr C)} {fs' : FS C}
    (h : Inv t pol evs s) (hd : Deletes m (status evs m) s.fs keep cur) (hc : cur r = i :: cur')
    (ha : Act i s.fs fs' b) :
    i.shown = [] ∧ (∀ l j, l ≠ .tmp m → l ≠ .final m → fs' l j = s.fs l j) ∧
    (∀ n, StepOk fs' n (status evs n)) ∧
    Deletes m (status evs m) fs' keep (upd cur r (if b then cur' else i :: cur')) := by
  have h0 := hd r
  by_cases hr0 : r.val = 0
  · simp only [hr0, if_pos, hc] at h0
    obtain ⟨e1, e2, e3, e4⟩ := h0.act (h.files m) ha
    refine ⟨e1, e2, fun n => ?_, fun r' => ?_⟩
    · by_cases hn : n = m
      · subst hn; exact e3
      · exact (h.files n).congr fun j => e2 _ _ (by simp) (by simp [hn])
    · by_cases hrr : r' = r
      · subst hrr
        simpa [upd, hr0] using e4
      · have : r'.val ≠ 0 := fun h' => hrr (Fin.ext (by omega))
        have h2 := hd r'
        simp only [this, if_false] at h2 ⊢
        simpa [upd, hrr] using h2
  · simp [hr0, hc] at h0

theorem deletes_event {evs : List (Event C)} {s : St N C} {m : Nat} {keep : Bool}
    {cur : Fin N → List (Instr C)} {r : Fin N} {e : Event C} {cur' : List (Instr C)}
    (h : Inv t pol evs s) (hd : Deletes m (status evs m) s.fs keep cur)
    (hk : pol = true → newest evs ≠ some m) (hc : cur r = .note e :: cur') :
    newest (evs ++ [e]) = newest evs ∧ (∀ n, StepOk s.fs n (status (evs ++ [e]) n)) ∧
    (pol = true → ∀ b, newest evs = some b → ∃ recs, status (evs ++ [e]) b = .complete recs) ∧
    Deletes m (status (evs ++ [e]) m) s.fs keep (upd cur r cur') := by
  have h0 := hd r
  by_cases hr0 : r.val = 0
  · simp only [hr0, if_pos, hc] at h0
    obtain ⟨e1, e2, e3, e4⟩ := h0.event (h.files m)
    refine ⟨?_, fun n => ?_, fun hp b hb => ?_, fun r' => ?_⟩
    · rw [newest_snoc]
      cases e with
      | committed n recs => exact absurd rfl (e1 n recs)
      | _ => rfl
    · rw [status_snoc]
      by_cases hn : n = m
      · subst hn; exact e3
      · rw [e2 n _ hn]; exact h.files n
    · have hne : b ≠ m := fun h' => hk hp (h' ▸ hb)
      rw [status_snoc, e2 b _ hne]
      exact h.last hp b hb
    · by_cases hrr : r' = r
      · subst hrr
        simpa [upd, hr0, status_snoc] using e4
      · have : r'.val ≠ 0 := fun h' => hrr (Fin.ext (by omega))
        have h2 := hd r'
        simp only [this, if_false] at h2 ⊢
        simpa [upd, hrr] using h2
  · simp [hr0, hc] at h0

theorem deletes_head {m : Nat} {st : Status C} {fs : FS C} {keep : Bool}
    {cur : Fin N → List (Instr C)} {r : Fin N} {i : Instr C} {cur' : List (Instr C)}
    (hd : Deletes m st fs keep cur) (hc : cur r = i :: cur') :
    i ≠ .barrier ∧ i ≠ .join ∧ ∀ n recs, i ≠ .spawn n recs := by
  have h0 := hd r
  by_cases hr0 : r.val = 0
  · simp only [hr0, if_pos, hc] at h0
    exact h0.head
  · simp [hr0, hc] at h0

/-- A barrier is reached only with nothing left before it. -/
theorem at_barrier {pre cur k p : Fin N → List (Instr C)} {q : Fin N → List (Instr C)}
    (hpre : ∀ r, pre r = [] ∨ ∃ n recs, pre r = [.spawn n recs])
    (hcur : ∀ r cur', cur r ≠ .barrier :: cur')
    (h : ∀ r, q r = pre r ++ (cur r ++ .barrier :: k r)) (hb : ∀ r, q r = .barrier :: p r) :
    (∀ r, pre r = []) ∧ (∀ r, cur r = []) ∧ p = k := by
  have : ∀ r, pre r = [] ∧ cur r = [] ∧ p r = k r := by
    intro r
    rcases head_cases (hpre r) ((hb r).symm.trans (h r)) with ⟨n, recs, -, e, -⟩ | ⟨-, c, e, -⟩ | ⟨e1, e2, -, e3⟩
    · cases e
    · exact absurd e (hcur r c)
    · exact ⟨e1, e2, e3⟩
  exact ⟨fun r => (this r).1, fun r => (this r).2.1, funext fun r => (this r).2.2⟩

theorem writing_all {sv : Save N C} {fs : FS C} (h : Writing t sv fs fun _ => []) :
    Exactly (allRecords t sv) fs (.tmp sv.step) := by
  have hm : ∀ x, x ∈ allRecords t sv ↔ ∃ r, x ∈ records t sv r := by
    intro x
    simp [allRecords]
  refine ⟨h.top, fun x hx => ?_, fun x hx => ?_, fun f hf => ?_, fun k p hk => ?_⟩
  · obtain ⟨r, hr⟩ := (hm x).1 hx
    exact ((h.flow r).done x hr).1
  · obtain ⟨r, hr⟩ := (hm x).1 hx
    exact ((h.flow r).done x hr).2
  · obtain ⟨r, x, hx, e⟩ := h.only f hf
    exact ⟨x, (hm x).2 ⟨r, hx⟩, e⟩
  · obtain ⟨r, x, hx, e⟩ := h.kinds k p hk
    exact ⟨x, (hm x).2 ⟨r, hx⟩, e⟩

theorem mem_mkdirs {sv : Save N C} {r : Fin N} {i : Instr C} (h : i ∈ mkdirs t sv r) :
    (i = .mkTop sv.step ∧ r.val = 0) ∨
    ∃ k p, i = .mkdir sv.step k p ∧ ∃ x ∈ records t sv r, x.file.kind = k := by
  simp only [mkdirs, List.mem_append] at h
  rcases h with (((h | h) | h) | h) | h <;> split at h <;>
    simp only [List.mem_singleton, List.not_mem_nil] at h <;> subst h
  · next h0 => exact .inl ⟨rfl, h0⟩
  · next h0 => exact .inr ⟨_, _, rfl, ⟨⟨.trainer, [r]⟩, sv.state r .trainer⟩, by simp [records, h0.1], rfl⟩
  · next h0 => exact .inr ⟨_, _, rfl, ⟨⟨.model, _⟩, _⟩, by simp [records, h0.1]; exact ⟨rfl, rfl⟩, rfl⟩
  · next h0 => exact .inr ⟨_, _, rfl, ⟨⟨.optimizer, _⟩, _⟩, by simp [records, h0.1, h0.2.1]; exact ⟨rfl, rfl⟩, rfl⟩
  · next h0 => exact .inr ⟨_, _, rfl, ⟨⟨.dataReader, _⟩, _⟩, by simp [records, h0.1, h0.2.1]; exact ⟨rfl, rfl⟩, rfl⟩

end Fs2.Ckpt
