import Verif.Checkpoint.Reach

/-!
# Histories: lemmas

What `status` says in terms of the events, which saves a commit comes from, and where
the ranks are when a directory is renamed.
-/

namespace Fs2.Ckpt

variable {C : Type} {N : Nat} {t : Topo N} {pol : Bool}

/-! ## Events -/

theorem reverseRec {α : Type} {P : List α → Prop} (h0 : P []) (h1 : ∀ l x, P l → P (l ++ [x])) (l : List α) :
    P l := by
  have : ∀ l : List α, P l.reverse := by
    intro l
    induction l with
    | nil => exact h0
    | cons x l ih => simpa using h1 _ x ih
  simpa using this l.reverse

theorem CommittedLast.snoc {evs : List (Event C)} {e : Event C} {n : Nat} {recs : List (Rec C)}
    (h : CommittedLast evs n recs) (he : e.step ≠ n) : CommittedLast (evs ++ [e]) n recs := by
  obtain ⟨pre, post, rfl, hp⟩ := h
  refine ⟨pre, post ++ [e], by simp, fun x hx => ?_⟩
  simp only [List.mem_append, List.mem_singleton] at hx
  rcases hx with hx | rfl
  · exact hp x hx
  · exact he

theorem KeptSince.snoc {evs : List (Event C)} {e : Event C} {n : Nat} {recs : List (Rec C)}
    (h : KeptSince evs n recs) (he : e.step = n → e = .stripping n ∨ e = .stripped n) :
    KeptSince (evs ++ [e]) n recs := by
  obtain ⟨pre, post, rfl, hp⟩ := h
  refine ⟨pre, post ++ [e], by simp, fun x hx => ?_⟩
  simp only [List.mem_append, List.mem_singleton] at hx
  rcases hx with hx | rfl
  · exact hp x hx
  · exact he

theorem Torn.snoc {evs : List (Event C)} {e : Event C} {n : Nat}
    (h : Torn evs n) (he : e.step = n → e = .stripping n) : Torn (evs ++ [e]) n := by
  obtain ⟨pre, post, ⟨rfl, hp⟩ | ⟨rfl, hp⟩⟩ := h
  · refine ⟨pre, post ++ [e], .inl ⟨by simp, fun x hx => ?_⟩⟩
    simp only [List.mem_append, List.mem_singleton] at hx
    rcases hx with hx | rfl
    · exact hp x hx
    · exact fun h => .inr (.inl (he h))
  · refine ⟨pre, post ++ [e], .inr ⟨by simp, fun x hx => ?_⟩⟩
    simp only [List.mem_append, List.mem_singleton] at hx
    rcases hx with hx | rfl
    · exact hp x hx
    · exact he

theorem Torn.last {evs : List (Event C)} {n : Nat} {e : Event C} (he : e = .deleting n ∨ e = .stripping n) :
    Torn (evs ++ [e]) n := by
  rcases he with rfl | rfl
  · exact ⟨evs, [], .inl ⟨rfl, by simp⟩⟩
  · exact ⟨evs, [], .inr ⟨rfl, by simp⟩⟩

/-- A deletion that began and is still in progress (whatever strips came after). -/
def TornDel (evs : List (Event C)) (n : Nat) : Prop :=
  ∃ pre post, evs = pre ++ .deleting n :: post ∧
    ∀ e ∈ post, e.step = n → e = .deleting n ∨ e = .stripping n ∨ e = .stripped n

theorem TornDel.torn {evs : List (Event C)} {n : Nat} (h : TornDel evs n) : Torn evs n := by
  obtain ⟨pre, post, h⟩ := h
  exact ⟨pre, post, .inl h⟩

theorem TornDel.snoc {evs : List (Event C)} {e : Event C} {n : Nat} (h : TornDel evs n)
    (he : e.step = n → e = .deleting n ∨ e = .stripping n ∨ e = .stripped n) : TornDel (evs ++ [e]) n := by
  obtain ⟨pre, post, rfl, hp⟩ := h
  refine ⟨pre, post ++ [e], by simp, fun x hx => ?_⟩
  simp only [List.mem_append, List.mem_singleton] at hx
  rcases hx with hx | rfl
  · exact hp x hx
  · exact he

theorem status_spec (evs : List (Event C)) (n : Nat) :
    match status evs n with
    | .absent => True
    | .complete recs => CommittedLast evs n recs
    | .stripping recs => Torn evs n ∧ KeptSince evs n recs
    | .stripped recs => KeptSince evs n recs
    | .deleting => TornDel evs n := by
  induction evs using reverseRec with
  | h0 => trivial
  | h1 evs e ih =>
    rw [status_snoc]
    cases e with
    | committed m recs =>
      by_cases hm : m = n
      · subst hm
        simp only [Status.next, if_pos]
        exact ⟨evs, [], rfl, by simp⟩
      · simp only [Status.next, hm, if_false]
        cases hs : status evs n <;> rw [hs] at ih <;> simp only at ih ⊢
        · exact ih.snoc hm
        · exact ⟨ih.1.snoc fun h => absurd h hm, ih.2.snoc fun h => absurd h hm⟩
        · exact ih.snoc fun h => absurd h hm
        · exact ih.snoc fun h => absurd h hm
    | deleting m =>
      by_cases hm : m = n
      · subst hm
        simp only [Status.next, if_pos]
        cases hs : status evs m <;> simp only
        all_goals exact ⟨evs, [], rfl, by simp⟩
      · simp only [Status.next, hm, if_false]
        cases hs : status evs n <;> rw [hs] at ih <;> simp only at ih ⊢
        · exact ih.snoc hm
        · exact ⟨ih.1.snoc fun h => absurd h hm, ih.2.snoc fun h => absurd h hm⟩
        · exact ih.snoc fun h => absurd h hm
        · exact ih.snoc fun h => absurd h hm
    | deleted m =>
      by_cases hm : m = n
      · subst hm
        simp only [Status.next, if_pos]
      · simp only [Status.next, hm, if_false]
        cases hs : status evs n <;> rw [hs] at ih <;> simp only at ih ⊢
        · exact ih.snoc hm
        · exact ⟨ih.1.snoc fun h => absurd h hm, ih.2.snoc fun h => absurd h hm⟩
        · exact ih.snoc fun h => absurd h hm
        · exact ih.snoc fun h => absurd h hm
    | stripping m =>
      by_cases hm : m = n
      · subst hm
        simp only [Status.next, if_pos]
        cases hs : status evs m <;> rw [hs] at ih <;> simp only at ih ⊢
        · obtain ⟨pre, post, rfl, hp⟩ := ih
          refine ⟨.last (.inr rfl), KeptSince.snoc ⟨pre, post, rfl, fun e he h => absurd h (hp e he)⟩ ?_⟩
          simp
        · exact ⟨.last (.inr rfl), ih.2.snoc (by simp)⟩
        · exact ⟨.last (.inr rfl), ih.snoc (by simp)⟩
        · exact ih.snoc (by simp)
      · simp only [Status.next, hm, if_false]
        cases hs : status evs n <;> rw [hs] at ih <;> simp only at ih ⊢
        · exact ih.snoc hm
        · exact ⟨ih.1.snoc fun h => absurd h hm, ih.2.snoc fun h => absurd h hm⟩
        · exact ih.snoc fun h => absurd h hm
        · exact ih.snoc fun h => absurd h hm
    | stripped m =>
      by_cases hm : m = n
      · subst hm
        simp only [Status.next, if_pos]
        cases hs : status evs m <;> rw [hs] at ih <;> simp only at ih ⊢
        · obtain ⟨pre, post, rfl, hp⟩ := ih
          exact KeptSince.snoc ⟨pre, post, rfl, fun e he h => absurd h (hp e he)⟩ (by simp)
        · exact ih.2.snoc (by simp)
        · exact ih.snoc (by simp)
        · exact ih.snoc (by simp)
      · simp only [Status.next, hm, if_false]
        cases hs : status evs n <;> rw [hs] at ih <;> simp only at ih ⊢
        · exact ih.snoc hm
        · exact ⟨ih.1.snoc fun h => absurd h hm, ih.2.snoc fun h => absurd h hm⟩
        · exact ih.snoc fun h => absurd h hm
        · exact ih.snoc fun h => absurd h hm

theorem next_ne {e : Event C} {n : Nat} (h : e.step ≠ n) (s : Status C) : Status.next n s e = s := by
  cases e <;> simp only [Event.step] at h <;> simp [Status.next, h]

theorem CommittedLast.status {evs : List (Event C)} {n : Nat} {recs : List (Rec C)}
    (h : CommittedLast evs n recs) : status evs n = .complete recs := by
  obtain ⟨pre, post, rfl, hp⟩ := h
  simp only [Ckpt.status, List.foldl_append, List.foldl_cons, Status.next, if_pos]
  clear pre
  induction post with
  | nil => rfl
  | cons e post ih =>
    rw [List.foldl_cons, next_ne (hp e List.mem_cons_self)]
    exact ih fun x hx => hp x (List.mem_cons_of_mem _ hx)

theorem KeptSince.status {evs : List (Event C)} {n : Nat} {recs : List (Rec C)}
    (h : KeptSince evs n recs) :
    status evs n = .complete recs ∨ status evs n = .stripping recs ∨ status evs n = .stripped recs := by
  obtain ⟨pre, post, rfl, hp⟩ := h
  simp only [Ckpt.status, List.foldl_append, List.foldl_cons, Status.next, if_pos]
  clear pre
  induction post using reverseRec with
  | h0 => exact .inl rfl
  | h1 post e ih =>
    have ih := ih fun x hx => hp x (by simp [hx])
    rw [List.foldl_append, List.foldl_cons, List.foldl_nil]
    by_cases he : e.step = n
    · rcases hp e (by simp) he with rfl | rfl <;> rcases ih with h | h | h <;> rw [h] <;>
        simp [Status.next]
    · rw [next_ne he]
      exact ih

theorem status_stripped {evs : List (Event C)} {n : Nat} {recs : List (Rec C)} {pre post : List (Event C)}
    (h : KeptSince evs n recs) (he : evs = pre ++ .stripped n :: post) (hp : ∀ e ∈ post, e.step ≠ n) :
    status evs n = .stripped recs := by
  have h1 : ∀ s, post.foldl (Status.next n) s = s := by
    clear he
    intro s
    induction post with
    | nil => rfl
    | cons e post ih =>
      rw [List.foldl_cons, next_ne (hp e List.mem_cons_self)]
      exact ih fun x hx => hp x (List.mem_cons_of_mem _ hx)
  have h2 : status evs n = Status.next n (status pre n) (.stripped n) := by
    rw [he]
    simp only [Ckpt.status, List.foldl_append, List.foldl_cons, h1]
  rcases h.status with h3 | h3 | h3
  · rw [h2] at h3
    simp only [Status.next, if_pos] at h3
    cases hs : status pre n <;> rw [hs] at h3 <;> cases h3
  · rw [h2] at h3
    simp only [Status.next, if_pos] at h3
    cases hs : status pre n <;> rw [hs] at h3 <;> cases h3
  · exact h3

theorem status_commits {evs : List (Event C)} {n : Nat} (h : n ∉ commits evs) :
    status evs n = .absent := by
  induction evs using reverseRec with
  | h0 => rfl
  | h1 evs e ih =>
    simp only [commits, List.filterMap_append, List.mem_append, not_or] at h
    rw [status_snoc, ih h.1]
    cases e with
    | committed m recs =>
      have : n ≠ m := by simpa using h.2
      simp [Status.next, Ne.symm this]
    | _ => simp [Status.next]

theorem newest_eq (evs : List (Event C)) : newest evs = (commits evs).getLast? := by
  induction evs using reverseRec with
  | h0 => rfl
  | h1 evs e ih =>
    rw [newest_snoc]
    cases e <;> simp [commits, ih]

/-! ## Commits come from saves -/

theorem rename_mem {r : Fin N} {n : Nat} {recs : List (Rec C)} (cs : List (Cmd N C)) :
    ∀ {p : Option (Save N C)}, Instr.rename n recs ∈ program t r p cs →
    (∃ sv, p = some sv ∧ sv.step = n ∧ recs = allRecords t sv) ∨ (n, recs) ∈ asked t cs := by
  have hw : ∀ l : List (Rec C), ∀ m, Instr.rename n recs ∉ writes m l := by
    intro l m
    induction l with
    | nil => simp [writes]
    | cons x l ih => simp [writes, ih]
  have hd : ∀ m keep, (Instr.rename n recs : Instr C) ∉ deleteSeg (N := N) m keep r := by
    intro m keep
    simp only [deleteSeg]
    split
    · split <;> simp
    · simp
  have hm : ∀ sv : Save N C, Instr.rename n recs ∉ mkdirs t sv r := by
    intro sv h
    rcases mem_mkdirs h with ⟨e, -⟩ | ⟨k, p, e, -⟩ <;> cases e
  have hr : ∀ sv : Save N C, Instr.rename n recs ∈ renameSeg t sv r → sv.step = n ∧ recs = allRecords t sv := by
    intro sv h
    simp only [renameSeg] at h
    split at h
    · simp only [List.mem_singleton, Instr.rename.injEq] at h
      exact ⟨h.1.symm, h.2⟩
    · simp at h
  induction cs with
  | nil => intro p h; simp [program] at h
  | cons c cs ih =>
    intro p h
    have hin : ∀ {c : Cmd N C}, (n, recs) ∈ asked t cs → (n, recs) ∈ asked t (c :: cs) := by
      intro c h
      simp only [asked, List.filterMap_cons]
      split
      · exact h
      · exact List.mem_cons_of_mem _ h
    have hsv : ∀ {sv : Save N C} {b}, sv.step = n ∧ recs = allRecords t sv →
        (n, recs) ∈ asked t (.save sv b :: cs) := by
      rintro sv b ⟨rfl, rfl⟩
      simp [asked]
    cases c with
    | delete m keep =>
      simp only [program, List.mem_append, List.mem_cons, reduceCtorEq, false_or] at h
      exact (ih (h.resolve_left (hd m keep))).imp id hin
    | poll =>
      cases p <;> simp only [program, List.mem_cons, reduceCtorEq, false_or] at h <;>
        exact (ih h).imp id hin
    | complete =>
      cases p with
      | none => exact (ih (p := none) (by simpa [program] using h)).imp id hin
      | some q =>
        simp only [program, completeThen, List.mem_append, List.mem_cons, reduceCtorEq, false_or] at h
        rcases h with h | h
        · exact .inl ⟨q, rfl, hr q h⟩
        · rcases ih h with ⟨sv, e, -⟩ | h
          · cases e
          · exact .inr (hin h)
    | save sv b =>
      cases b <;> cases p <;>
        simp only [program, completeThen, beginThen, List.mem_append, List.mem_cons, reduceCtorEq,
          false_or, hd, hm, hw] at h
      · rcases ih h with ⟨sv', e, e'⟩ | h
        · cases e; exact .inr (hsv e')
        · exact .inr (hin h)
      · next q =>
        rcases h with h | h
        · exact .inl ⟨q, rfl, hr q h⟩
        · rcases ih h with ⟨sv', e, e'⟩ | h
          · cases e; exact .inr (hsv e')
          · exact .inr (hin h)
      · rcases h with h | h
        · exact .inr (hsv (hr sv h))
        · rcases ih h with ⟨sv', e, e'⟩ | h
          · cases e
          · exact .inr (hin h)
      · next q =>
        rcases h with h | h | h
        · exact .inl ⟨q, rfl, hr q h⟩
        · exact .inr (hsv (hr sv h))
        · rcases ih h with ⟨sv', e, e'⟩ | h
          · cases e
          · exact .inr (hin h)

theorem note_mem {r : Fin N} {n : Nat} {recs : List (Rec C)} (cs : List (Cmd N C)) :
    ∀ {p : Option (Save N C)}, Instr.note (.committed n recs) ∉ program t r p cs := by
  have hw : ∀ l : List (Rec C), ∀ m, Instr.note (.committed n recs) ∉ writes m l := by
    intro l m
    induction l with
    | nil => simp [writes]
    | cons x l ih => simp [writes, ih]
  have hd : ∀ m keep, (Instr.note (.committed n recs) : Instr C) ∉ deleteSeg (N := N) m keep r := by
    intro m keep
    simp only [deleteSeg]
    split
    · split <;> simp
    · simp
  have hm : ∀ sv : Save N C, Instr.note (.committed n recs) ∉ mkdirs t sv r := by
    intro sv h
    rcases mem_mkdirs h with ⟨e, -⟩ | ⟨k, p, e, -⟩ <;> cases e
  have hr : ∀ sv : Save N C, Instr.note (.committed n recs) ∉ renameSeg t sv r := by
    intro sv h
    simp only [renameSeg] at h
    split at h <;> simp at h
  induction cs with
  | nil => intro p h; simp [program] at h
  | cons c cs ih =>
    intro p
    cases c with
    | delete m keep => simp [program, hd, ih]
    | poll => cases p <;> simp [program, ih]
    | complete => cases p <;> simp [program, completeThen, hr, ih]
    | save sv b => cases b <;> cases p <;> simp [program, completeThen, beginThen, hr, hd, hm, hw, ih]

/-- Programs only get shorter, and background threads do not rename. -/
structure Asked (a : List (Nat × List (Rec C))) (s : St N C) : Prop where
  prog : ∀ r n recs, Instr.rename n recs ∈ s.prog r → (n, recs) ∈ a
  note : ∀ r n recs, Instr.note (.committed n recs) ∉ s.prog r
  bg : ∀ r n recs, Instr.rename n recs ∉ s.bg r

theorem writes_rename (l : List (Rec C)) (m n : Nat) (recs : List (Rec C)) :
    Instr.rename n recs ∉ writes m l := by
  induction l with
  | nil => simp [writes]
  | cons x l ih => simp [writes, ih]

theorem Asked.step {a : List (Nat × List (Rec C))} {s s' : St N C} {e : List (Event C)}
    (h : Asked a s) (hs : Step s e s') :
    Asked a s' ∧ ∀ n recs, Event.committed n recs ∈ e → (n, recs) ∈ a := by
  have sub : ∀ {g : Fin N → List (Instr C)} {r i p}, g r = i :: p →
      (∀ r n recs, Instr.rename n recs ∈ g r → (n, recs) ∈ a) →
      ∀ r' n recs, Instr.rename n recs ∈ upd g r p r' → (n, recs) ∈ a := by
    intro g r i p hg hA r' n recs hm
    by_cases hrr : r' = r
    · subst hrr
      exact hA r' n recs (by rw [hg]; exact List.mem_cons_of_mem _ (by simpa [upd] using hm))
    · exact hA r' n recs (by simpa [upd, hrr] using hm)
  have sub' : ∀ {g : Fin N → List (Instr C)} {r i p}, g r = i :: p →
      (∀ r n recs, Instr.note (.committed n recs) ∉ g r) →
      ∀ r' n recs, Instr.note (.committed n recs) ∉ upd g r p r' := by
    intro g r i p hg hA r' n recs hm
    by_cases hrr : r' = r
    · subst hrr
      exact hA r' n recs (by rw [hg]; exact List.mem_cons_of_mem _ (by simpa [upd] using hm))
    · exact hA r' n recs (by simpa [upd, hrr] using hm)
  obtain ⟨h1, h3, h2⟩ := h
  cases hs with
  | @run r i p fs' hr ha =>
    refine ⟨⟨sub hr h1, sub' hr h3, h2⟩, fun n recs hm => ?_⟩
    cases i <;> simp only [Instr.shown, List.not_mem_nil, List.mem_singleton, Event.committed.injEq] at hm
    obtain ⟨rfl, rfl⟩ := hm
    exact h1 r _ _ (by rw [hr]; exact List.mem_cons_self)
  | more => exact ⟨⟨h1, h3, h2⟩, by simp⟩
  | @note r ev p hr =>
    refine ⟨⟨sub hr h1, sub' hr h3, h2⟩, fun n recs hm => ?_⟩
    rw [List.mem_singleton] at hm
    subst hm
    exact absurd (by rw [hr]; exact List.mem_cons_self) (h3 r n recs)
  | @spawn r n recs p hr =>
    refine ⟨⟨sub hr h1, sub' hr h3, fun r' m recs' => ?_⟩, by simp⟩
    by_cases hrr : r' = r
    · subst hrr
      simp [upd, h2, writes_rename]
    · simp [upd, hrr, h2]
  | @join r p hr _ => exact ⟨⟨sub hr h1, sub' hr h3, h2⟩, by simp⟩
  | @back r i b fs' hr ha =>
    refine ⟨⟨h1, h3, fun r' m recs' hm => ?_⟩, by simp⟩
    by_cases hrr : r' = r
    · subst hrr
      exact h2 r' m recs' (by rw [hr]; exact List.mem_cons_of_mem _ (by simpa [upd] using hm))
    · exact h2 r' m recs' (by simpa [upd, hrr] using hm)
  | @barrier p hp => exact ⟨⟨fun r n recs hm => h1 r n recs (by rw [hp]; exact List.mem_cons_of_mem _ hm),
      fun r n recs hm => h3 r n recs (by rw [hp]; exact List.mem_cons_of_mem _ hm), h2⟩, by simp⟩

theorem Asked.start (fs : FS C) (cs : List (Cmd N C)) : Asked (asked t cs) (start t fs cs) := by
  refine ⟨fun r n recs h => ?_, fun r n recs => note_mem cs, fun r n recs h => by simp [Ckpt.start] at h⟩
  rcases rename_mem cs h with ⟨sv, e, -⟩ | h
  · cases e
  · exact h

theorem Asked.exec {a : List (Nat × List (Rec C))} {s s' : St N C} {e : List (Event C)}
    (h : Asked a s) (hs : Exec s e s') :
    Asked a s' ∧ ∀ n recs, Event.committed n recs ∈ e → (n, recs) ∈ a := by
  induction hs with
  | nil => exact ⟨h, by simp⟩
  | snoc _ hs ih =>
    obtain ⟨h1, h2⟩ := ih.1.step hs
    refine ⟨h1, fun n recs hm => ?_⟩
    rcases List.mem_append.1 hm with hm | hm
    · exact ih.2 n recs hm
    · exact h2 n recs hm

theorem hist_asked {fs : FS C} {evs : List (Event C)} {as : List (Nat × List (Rec C))}
    (h : Hist pol fs evs as) {n : Nat} {recs : List (Rec C)} (hc : Event.committed n recs ∈ evs) :
    (n, recs) ∈ as := by
  induction h with
  | empty => simp at hc
  | session _ _ _ _ hE ih =>
    rcases List.mem_append.1 hc with hc | hc
    · exact List.mem_append_left _ (ih hc)
    · exact List.mem_append_right _ (((Asked.start _ _).exec hE).2 n recs hc)

/-! ## The rename -/

theorem Deleting.head' {m : Nat} {st : Status C} {fs : FS C} {keep : Bool} {i : Instr C}
    {cur : List (Instr C)} (h : Deleting m st fs keep (i :: cur)) (n : Nat) (recs : List (Rec C)) :
    i ≠ .rename n recs := by
  generalize hc : i :: cur = l at h
  cases h with
  | start h => rw [h] at hc; simp [deleteSeg] at hc; obtain ⟨rfl, -⟩ := hc; simp
  | d₄ | s₄ => cases hc
  | _ => simp only [List.cons.injEq] at hc; obtain ⟨rfl, -⟩ := hc; simp

theorem deletes_head' {m : Nat} {st : Status C} {fs : FS C} {keep : Bool}
    {cur : Fin N → List (Instr C)} {r : Fin N} {i : Instr C} {cur' : List (Instr C)}
    (hd : Deletes m st fs keep cur) (hc : cur r = i :: cur') (n : Nat) (recs : List (Rec C)) :
    i ≠ .rename n recs := by
  have h0 := hd r
  by_cases hr0 : r.val = 0
  · simp only [hr0, if_pos, hc] at h0
    exact h0.head' n recs
  · simp [hr0, hc] at h0

/-- When a rank is about to rename, every rank and its thread has written everything. -/
theorem rename_at {K : Option Nat} {st : Nat → Status C} {s : St N C} {r : Fin N} {n : Nat}
    {recs : List (Rec C)} {q : List (Instr C)} (h : At t pol K st s)
    (hr : s.prog r = .rename n recs :: q) :
    (∀ r, s.bg r = []) ∧ Exactly recs s.fs (.tmp n) ∧
    (∀ i, s.fs (.final n) i = none) ∧ r.val = 0 ∧ ∀ r', r' ≠ r → ∃ q', s.prog r' = .barrier :: q' := by
  cases h with
  | @stop p pre hp hP =>
    rcases hP.pre_cases r with e | ⟨n, recs, e⟩ <;> rw [hp, e] at hr <;> cases hr
  | @poll sv cs pre _ _ hp hP =>
    rcases head_cases (cur := []) (hP.pre_cases r) (hr.symm.trans (hp r)) with
      ⟨n, recs, -, e, -⟩ | ⟨-, c, e, -⟩ | ⟨-, -, e, -⟩ <;> cases e
  | @del p m keep cs pre cur _ _ _ _ hp hD hP =>
    rcases head_cases (hP.pre_cases r) (hr.symm.trans (hp r)) with
      ⟨n, recs, -, e, -⟩ | ⟨-, c, e, -⟩ | ⟨-, -, e, -⟩
    · cases e
    · exact absurd rfl (deletes_head' hD e n recs)
    · cases e
  | @join sv cs pre cur _ _ hp hcur hP =>
    rcases head_cases (hP.pre_cases r) (hr.symm.trans (hp r)) with
      ⟨n, recs, -, e, -⟩ | ⟨-, c, e, -⟩ | ⟨-, -, e, -⟩
    · cases e
    · rcases hcur r with h | ⟨h, -⟩ <;> rw [h] at e <;> cases e
    · cases e
  | @joined sv cs _ _ hp hR => rw [hp] at hr; cases hr
  | @committed cs _ _ hp _ => rw [hp] at hr; cases hr
  | @save sv blk cs cur _ _ _ _ hp hD hbg =>
    rcases head_cases (pre := []) (.inl rfl) (hr.symm.trans (hp r)) with
      ⟨n, recs, -, e, -⟩ | ⟨-, c, e, -⟩ | ⟨-, -, e, -⟩
    · cases e
    · exact absurd rfl (deletes_head' hD e n recs)
    · cases e
  | @prep sv blk cs cur _ _ _ hp hcur _ _ _ _ _ =>
    rcases head_cases (pre := []) (.inl rfl) (hr.symm.trans (hp r)) with
      ⟨n, recs, -, e, -⟩ | ⟨-, c, e, -⟩ | ⟨-, -, e, -⟩
    · cases e
    · rcases mem_mkdirs ((hcur r).subset (by rw [e]; exact List.mem_cons_self)) with ⟨e, -⟩ | ⟨k, p, e, -⟩ <;> cases e
    · cases e
  | @write sv cs cur _ _ _ hp _ hW =>
    rcases head_cases (pre := []) (.inl rfl) (hr.symm.trans (hp r)) with
      ⟨n, recs, -, e, -⟩ | ⟨-, c, e, -⟩ | ⟨-, -, e, -⟩
    · cases e
    · have hf := hW.flow r
      rw [e] at hf
      generalize hl : Instr.rename n recs :: c = l at hf
      cases hf with
      | @between d rest _ _ =>
        cases rest with
        | nil => simp [writes] at hl
        | cons x rest => simp [writes] at hl
      | inside => simp at hl
    · cases e
  | @commit sv cs _ _ hp hR =>
    rw [hp] at hr
    by_cases h0 : r.val = 0
    · simp only [renameSeg, h0, if_pos, List.cons_append, List.nil_append, List.cons.injEq,
        Instr.rename.injEq] at hr
      obtain ⟨⟨rfl, rfl⟩, -⟩ := hr
      refine ⟨hR.bg, writing_all hR.writing, hR.writing.final, h0,
        fun r' hr' => ⟨program t r' none cs, ?_⟩⟩
      rw [hp]
      have : r'.val ≠ 0 := fun h' => hr' (Fin.ext (by omega))
      simp [renameSeg, this]
    · simp [renameSeg, h0] at hr

/-- Only a rename makes a step directory appear. -/
theorem appear {s s' : St N C} {e : List (Event C)} {n : Nat} {i : Item} {a : List (Nat × List (Rec C))}
    (hA : Asked a s) (hs : Step s e s') (h : s.fs (.final n) i = none) (h' : s'.fs (.final n) i ≠ none) :
    ∃ r recs q, s.prog r = .rename n recs :: q ∧ s'.fs = s.fs.move n ∧ e = [.committed n recs] := by
  have hact : ∀ {j : Instr C} {fs' : FS C} {b}, Act j s.fs fs' b → fs' (.final n) i ≠ none →
      ∃ recs, j = .rename n recs ∧ fs' = s.fs.move n ∧ b = true := by
    intro j fs' b ha h'
    cases ha with
    | @rename m recs h1 h2 =>
      by_cases hm : m = n
      · subst hm; exact ⟨recs, rfl, rfl, rfl⟩
      · simp [FS.move, Ne.symm hm, h] at h'
    | mkTop | create | write => simp [FS.put, h] at h'
    | mkdir => simp [FS.mkdirs, h] at h'
    | writeLost | stripEnd => exact absurd h h'
    | rm | rmTop | strip =>
      simp only [FS.put] at h'
      split at h'
      · exact absurd rfl h'
      · exact absurd h h'
  cases hs with
  | @run r j q fs' hr ha =>
    obtain ⟨recs, rfl, rfl, -⟩ := hact ha h'
    exact ⟨r, recs, q, hr, rfl, rfl⟩
  | @more r j q fs' hr ha => obtain ⟨recs, -, -, e⟩ := hact ha h'; cases e
  | @back r j b fs' hr ha =>
    obtain ⟨recs, rfl, rfl, -⟩ := hact ha h'
    exact absurd (by rw [hr]; exact List.mem_cons_self) (hA.bg r n recs)
  | _ => exact absurd h h'

end Fs2.Ckpt
