import Verif.Checkpoint.Spec

/-!
# An invariant of the checkpoint manager

Helper lemmas for `Verif/Props/Checkpoint.lean`: where the ranks are (`At`) and what
the files are (`StepOk`) in every reachable state.
-/

namespace Fs2.Ckpt

variable {C : Type} {N : Nat}

/-! ## Saving one record after the other -/

def Saved (fs : FS C) (n : Nat) (x : Rec C) : Prop :=
  fs (.tmp n) (.file x.file) = some (.full x.state) ∧
  fs (.tmp n) (.dir x.file.kind x.file.path.dropLast) = some .dir

def Created (fs : FS C) (n : Nat) (x : Rec C) : Prop :=
  fs (.tmp n) (.file x.file) ≠ none ∧
  fs (.tmp n) (.dir x.file.kind x.file.path.dropLast) = some .dir

/-- `todo` is what is left of writing `recs`. -/
inductive Flow (fs : FS C) (n : Nat) (recs : List (Rec C)) : List (Instr C) → Prop where
  | between {done rest} : recs = done ++ rest → (∀ x ∈ done, Saved fs n x) →
      Flow fs n recs (writes n rest)
  | inside {done x rest} : recs = done ++ x :: rest → (∀ y ∈ done, Saved fs n y) →
      Created fs n x → Flow fs n recs (.write n x.file x.state :: writes n rest)

theorem Flow.done {fs : FS C} {n : Nat} {recs : List (Rec C)} (h : Flow fs n recs []) :
    ∀ x ∈ recs, Saved fs n x := by
  generalize ht : ([] : List (Instr C)) = todo at h
  cases h with
  | @between d rest h1 h2 =>
    cases rest with
    | nil => simpa [h1] using h2
    | cons y ys => simp [writes] at ht
  | inside => cases ht

/-- What `Flow` looks at. -/
theorem Flow.congr {fs fs' : FS C} {n : Nat} {recs : List (Rec C)} {todo : List (Instr C)}
    (h : Flow fs n recs todo)
    (h1 : ∀ x ∈ recs, fs' (.tmp n) (.file x.file) = fs (.tmp n) (.file x.file))
    (h2 : ∀ k p, fs (.tmp n) (.dir k p) = some .dir → fs' (.tmp n) (.dir k p) = some .dir) :
    Flow fs' n recs todo := by
  cases h with
  | between e hd =>
    refine .between e fun x hx => ⟨?_, h2 _ _ (hd x hx).2⟩
    rw [h1 x (by simp [e, hx])]
    exact (hd x hx).1
  | inside e hd hc =>
    refine .inside e (fun x hx => ⟨?_, h2 _ _ (hd x hx).2⟩) ⟨?_, h2 _ _ hc.2⟩
    · rw [h1 x (by simp [e, hx])]
      exact (hd x hx).1
    · rw [h1 _ (by simp [e])]
      exact hc.1

/-- The next operation of a rank that writes its records. -/
theorem Flow.step {fs fs' : FS C} {n : Nat} {recs : List (Rec C)} {i : Instr C}
    {todo : List (Instr C)} {b : Bool} (h : Flow fs n recs (i :: todo))
    (hnd : (recs.map Rec.file).Nodup) (ha : Act i fs fs' b) :
    b = true ∧ i.shown = [] ∧ Flow fs' n recs todo ∧ ∃ x ∈ recs, ∃ e, fs' = fs.put (.tmp n) (.file x.file) (some e) := by
  generalize ht : i :: todo = l at h
  have hput : ∀ (x y : Rec C) (e : Entry C), x.file ≠ y.file → Saved fs n x →
      Saved (fs.put (.tmp n) (.file y.file) (some e)) n x := by
    rintro x y e hne ⟨h1, h2⟩
    exact ⟨by simp [FS.put, hne, h1], by simp [FS.put, h2]⟩
  cases h with
  | @between done rest h1 h2 =>
    cases rest with
    | nil => simp [writes] at ht
    | cons x rest =>
      simp only [writes, List.cons.injEq] at ht
      obtain ⟨rfl, rfl⟩ := ht
      cases ha with
      | create hd =>
        have hx : x ∈ recs := by simp [h1]
        refine ⟨rfl, rfl, .inside h1 (fun y hy => hput _ _ _ ?_ (h2 y hy)) ?_, x, hx, _, rfl⟩
        · rw [h1] at hnd
          simp only [List.map_append, List.map_cons, List.nodup_append, List.mem_map,
            List.mem_cons] at hnd
          exact hnd.2.2 _ ⟨y, hy, rfl⟩ _ (.inl rfl)
        · exact ⟨by simp [FS.put], by simp [FS.put, hd]⟩
  | @inside done x rest h1 h2 h3 =>
    simp only [List.cons.injEq] at ht
    obtain ⟨rfl, rfl⟩ := ht
    cases ha with
    | write he =>
      have hx : x ∈ recs := by simp [h1]
      refine ⟨rfl, rfl, .between (done := done ++ [x]) (by simp [h1]) ?_, x, hx, _, rfl⟩
      intro y hy
      rcases List.mem_append.1 hy with hy | hy
      · refine hput _ _ _ ?_ (h2 y hy)
        rw [h1] at hnd
        simp only [List.map_append, List.map_cons, List.nodup_append, List.mem_map,
          List.mem_cons] at hnd
        exact hnd.2.2 _ ⟨y, hy, rfl⟩ _ (.inl rfl)
      · simp only [List.mem_singleton] at hy
        subst hy
        exact ⟨by simp [FS.put], by simp [FS.put, h3.2]⟩
    | writeLost he => exact absurd he h3.1

/-! ## A save in progress -/

/-- The records of rank `r` are distinct from each other and from those of other ranks. -/
structure Sep (t : Topo N) (sv : Save N C) : Prop where
  nodup : ∀ r, ((records t sv r).map Rec.file).Nodup
  ne : ∀ {r r' x y}, r ≠ r' → x ∈ records t sv r → y ∈ records t sv r' → x.file ≠ y.file

theorem Apart.sep {t : Topo N} {sv : Save N C} (h : Apart t sv) : Sep t sv := by
  constructor
  · intro r
    rw [List.nodup_iff_pairwise_ne, List.pairwise_map, List.pairwise_iff_getElem]
    intro i j hi hj hij he
    have := (h r r i j _ _ (List.getElem?_eq_getElem hi) (List.getElem?_eq_getElem hj) he).2
    omega
  · intro r r' x y hne hx hy he
    obtain ⟨i, hi⟩ := List.getElem?_of_mem hx
    obtain ⟨j, hj⟩ := List.getElem?_of_mem hy
    exact hne (h r r' i j x y hi hj he).1

/-- Files while the ranks write: `todo r` is left for rank `r`. -/
structure Writing (t : Topo N) (sv : Save N C) (fs : FS C) (todo : Fin N → List (Instr C)) :
    Prop where
  final : ∀ i, fs (.final sv.step) i = none
  top : fs (.tmp sv.step) .top = some .dir
  only : ∀ f, fs (.tmp sv.step) (.file f) ≠ none → ∃ r, ∃ x ∈ records t sv r, x.file = f
  kinds : ∀ k p, fs (.tmp sv.step) (.dir k p) ≠ none → ∃ r, ∃ x ∈ records t sv r, x.file.kind = k
  flow : ∀ r, Flow fs sv.step (records t sv r) (todo r)

theorem Writing.step {t : Topo N} {sv : Save N C} {fs fs' : FS C}
    {todo : Fin N → List (Instr C)} {r : Fin N} {i : Instr C} {rest : List (Instr C)} {b : Bool}
    (hs : Sep t sv) (h : Writing t sv fs todo) (hr : todo r = i :: rest) (ha : Act i fs fs' b) :
    b = true ∧ i.shown = [] ∧ Writing t sv fs' (upd todo r rest) ∧
    ∀ l j, l ≠ .tmp sv.step → fs' l j = fs l j := by
  obtain ⟨h1, h2, h3, h4, h5⟩ := h
  have hf := h5 r
  rw [hr] at hf
  obtain ⟨e1, e2, e3, x, hx, e, rfl⟩ := hf.step (hs.nodup r) ha
  refine ⟨e1, e2, ⟨?_, ?_, ?_, ?_, ?_⟩, ?_⟩
  · intro j; simp [FS.put, h1]
  · simp [FS.put, h2]
  · intro f hfs
    by_cases hfx : f = x.file
    · exact ⟨r, x, hx, hfx.symm⟩
    · exact h3 f (by simpa [FS.put, hfx] using hfs)
  · intro k p hkp
    exact h4 k p (by simpa [FS.put] using hkp)
  · intro r'
    by_cases hrr : r' = r
    · subst hrr
      simpa [upd] using e3
    · simp only [upd, if_neg hrr]
      refine (h5 r').congr (fun y hy => ?_) (fun k p hkp => by simp [FS.put, hkp])
      have := hs.ne hrr hy hx
      simp [FS.put, this]
  · intro l j hl
    simp [FS.put, hl]

/-- Operations elsewhere. -/
theorem Writing.frame {t : Topo N} {sv : Save N C} {fs fs' : FS C}
    {todo : Fin N → List (Instr C)} (h : Writing t sv fs todo)
    (h' : ∀ l i, (l = .tmp sv.step ∨ l = .final sv.step) → fs' l i = fs l i) :
    Writing t sv fs' todo := by
  obtain ⟨h1, h2, h3, h4, h5⟩ := h
  refine ⟨fun i => by rw [h' _ _ (.inr rfl), h1], by rw [h' _ _ (.inl rfl), h2],
    fun f hf => h3 f (by rwa [h' _ _ (.inl rfl)] at hf),
    fun k p hf => h4 k p (by rwa [h' _ _ (.inl rfl)] at hf),
    fun r => (h5 r).congr (fun x _ => h' _ _ (.inl rfl)) (fun k p hd => by rwa [h' _ _ (.inl rfl)])⟩

/-- What is left to write when rank `r` may still have to start its thread. -/
def spawned : List (Instr C) → List (Instr C)
  | .spawn n recs :: _ => writes n recs
  | _ => []

/-- The save `p` in progress while the ranks run `pre` and then something else. -/
def Pend (t : Topo N) : Option (Save N C) → (Fin N → List (Instr C)) → St N C → Prop
  | none, pre, s => ∀ r, pre r = [] ∧ s.bg r = []
  | some sv, pre, s => Sep t sv ∧
      (∀ r, pre r = [] ∨ (pre r = [.spawn sv.step (records t sv r)] ∧ s.bg r = [])) ∧
      Writing t sv s.fs fun r => s.bg r ++ spawned (pre r)

/-- All records are in the temporary directory and no thread is running. -/
structure Ready (t : Topo N) (sv : Save N C) (s : St N C) : Prop where
  bg : ∀ r, s.bg r = []
  writing : Writing t sv s.fs fun _ => []

/-- Progress of a deletion: what rank 0 has left to do, and the files. -/
inductive Deleting (m : Nat) (st : Status C) (fs : FS C) : Bool → List (Instr C) → Prop where
  | start {keep cur} : cur = deleteSeg (N := 1) m keep 0 → Deleting m st fs keep cur
  | d₁ : (∀ i, fs (.tmp m) i = none) →
      Deleting m st fs false [.note (.deleting m), .rmtree (.final m), .note (.deleted m)]
  | d₂ : (∀ i, fs (.tmp m) i = none) → (st = .deleting ∨ st = .absent) →
      Deleting m st fs false [.rmtree (.final m), .note (.deleted m)]
  | d₃ : (∀ i, fs (.tmp m) i = none) → (st = .deleting ∨ st = .absent) → (∀ i, fs (.final m) i = none) →
      Deleting m st fs false [.note (.deleted m)]
  | d₄ : (∀ i, fs (.tmp m) i = none) → (∀ i, fs (.final m) i = none) → Deleting m st fs false []
  | s₁ : Deleting m st fs true [.note (.stripping m), .strip m, .note (.stripped m)]
  | s₂ : (∀ r, st ≠ .complete r ∧ st ≠ .stripped r) →
      Deleting m st fs true [.strip m, .note (.stripped m)]
  | s₃ : (∀ r, st ≠ .complete r ∧ st ≠ .stripped r) →
      (∀ i, kept i = false → fs (.final m) i = none) → Deleting m st fs true [.note (.stripped m)]
  | s₄ : Deleting m st fs true []

/-- The same for all ranks. -/
def Deletes (m : Nat) (st : Status C) (fs : FS C) (keep : Bool) (cur : Fin N → List (Instr C)) : Prop :=
  ∀ r, if r.val = 0 then Deleting m st fs keep (cur r) else cur r = []

/-- What follows the second barrier of a save. -/
def afterPrep (t : Topo N) (sv : Save N C) (blk : Bool) (cs : List (Cmd N C)) (r : Fin N) :
    List (Instr C) :=
  if blk then writes sv.step (records t sv r) ++
      .barrier :: (renameSeg t sv r ++ .barrier :: program t r none cs)
  else .spawn sv.step (records t sv r) :: program t r (some sv) cs

/-- Requirements on what follows a save. -/
def SaneAfter (pol : Bool) (K : Option Nat) (sv : Save N C) (blk : Bool) (cs : List (Cmd N C)) : Prop :=
  if blk then Sane pol (some sv.step) none cs else Sane pol K (some sv.step) cs

/-- Where the ranks are. -/
inductive At (t : Topo N) (pol : Bool) (K : Option Nat) (st : Nat → Status C) : St N C → Prop where
  | stop {s p } {pre : Fin N → List (Instr C)} : (∀ r, s.prog r = pre r) → Pend t p pre s → At t pol K st s
  | poll {s sv cs } {pre : Fin N → List (Instr C)} : Sane pol K (some sv.step) cs → AllApart t cs →
      (∀ r, s.prog r = pre r ++ .barrier :: program t r (some sv) cs) → Pend t (some sv) pre s →
      At t pol K st s
  | del {s p m keep cs  } {pre : Fin N → List (Instr C)} {cur : Fin N → List (Instr C)} : Sane pol K (p.map Save.step) cs → AllApart t cs →
      p.map Save.step ≠ some m → (pol = true → K ≠ some m) →
      (∀ r, s.prog r = pre r ++ (cur r ++ .barrier :: program t r p cs)) →
      Deletes m (st m) s.fs keep cur → Pend t p pre s → At t pol K st s
  | join {s sv cs  } {pre : Fin N → List (Instr C)} {cur : Fin N → List (Instr C)} : Sane pol (some sv.step) none cs → AllApart t cs →
      (∀ r, s.prog r = pre r ++ (cur r ++ .barrier :: .barrier ::
        (renameSeg t sv r ++ .barrier :: program t r none cs))) →
      (∀ r, cur r = [.join] ∨ (cur r = [] ∧ pre r = [] ∧ s.bg r = [])) → Pend t (some sv) pre s →
      At t pol K st s
  | joined {s sv cs} : Sane pol (some sv.step) none cs → AllApart t cs →
      (∀ r, s.prog r = .barrier :: (renameSeg t sv r ++ .barrier :: program t r none cs)) →
      Ready t sv s → At t pol K st s
  | commit {s sv cs} : Sane pol (some sv.step) none cs → AllApart t cs →
      (∀ r, s.prog r = renameSeg t sv r ++ .barrier :: program t r none cs) →
      Ready t sv s → At t pol K st s
  | committed {s cs} : Sane pol K none cs → AllApart t cs →
      (∀ r, s.prog r = .barrier :: program t r none cs) → (∀ r, s.bg r = []) → At t pol K st s
  | save {s sv blk cs } {cur : Fin N → List (Instr C)} : SaneAfter pol K sv blk cs → Apart t sv → AllApart t cs →
      (pol = true → K ≠ some sv.step) →
      (∀ r, s.prog r = cur r ++ .barrier :: (mkdirs t sv r ++ .barrier :: afterPrep t sv blk cs r)) →
      Deletes sv.step (st sv.step) s.fs false cur → (∀ r, s.bg r = []) → At t pol K st s
  | prep {s sv blk cs } {cur : Fin N → List (Instr C)} : SaneAfter pol K sv blk cs → Apart t sv → AllApart t cs →
      (∀ r, s.prog r = cur r ++ .barrier :: afterPrep t sv blk cs r) →
      (∀ r, cur r <:+ mkdirs t sv r) → (∀ r, s.bg r = []) →
      (∀ i, s.fs (.final sv.step) i = none) → (∀ f, s.fs (.tmp sv.step) (.file f) = none) →
      (∀ k p, s.fs (.tmp sv.step) (.dir k p) ≠ none → ∃ r, ∃ x ∈ records t sv r, x.file.kind = k) →
      ((∃ r, Instr.mkTop sv.step ∈ cur r) ∨ s.fs (.tmp sv.step) .top = some .dir) → At t pol K st s
  | write {s sv cs } {cur : Fin N → List (Instr C)} : Sane pol (some sv.step) none cs → Sep t sv → AllApart t cs →
      (∀ r, s.prog r = cur r ++ .barrier :: (renameSeg t sv r ++ .barrier :: program t r none cs)) →
      (∀ r, s.bg r = []) → Writing t sv s.fs cur → At t pol K st s

/-- A call begins. -/
theorem At.enter {t : Topo N} {pol : Bool} {K : Option Nat} {st : Nat → Status C}
    {cs : List (Cmd N C)} {p : Option (Save N C)} {pre : Fin N → List (Instr C)} {s : St N C}
    (hs : Sane pol K (p.map Save.step) cs) (ha : AllApart t cs)
    (hp : ∀ r, s.prog r = pre r ++ program t r p cs) (h : Pend t p pre s) : At t pol K st s := by
  induction cs with
  | nil => exact .stop (pre := pre) (by simpa [program] using hp) h
  | cons c cs ih =>
    have ha' : AllApart t cs := fun sv b hm => ha sv b (List.mem_cons_of_mem _ hm)
    have hdel : ∀ m keep, Deletes (N := N) m (st m) s.fs keep (deleteSeg m keep) := by
      intro m keep r
      by_cases h0 : r.val = 0
      · simp only [h0, if_pos]
        exact .start (by simp [deleteSeg, h0])
      · simp [h0, deleteSeg]
    cases c with
    | delete m keep =>
      obtain ⟨h1, h2, h3⟩ := hs
      exact .del h3 ha' h1 h2 (by simpa [program] using hp) (hdel m keep) h
    | poll =>
      cases p with
      | none => exact ih hs ha' hp
      | some sv => exact .poll (cs := cs) hs ha' hp h
    | complete =>
      cases p with
      | none => exact ih hs ha' hp
      | some sv =>
        exact .join (cur := fun _ => [.join]) hs ha'
          (by simpa [program, completeThen] using hp) (fun r => .inl rfl) h
    | save sv blk =>
      have hap : Apart t sv := ha sv blk List.mem_cons_self
      cases p with
      | none =>
        have hbg : ∀ r, s.bg r = [] := fun r => (h r).2
        have hpre : ∀ r, pre r = [] := fun r => (h r).1
        cases blk with
        | true =>
          simp only [Option.map_none, Sane, Option.none_or] at hs
          exact .save (blk := true) (cur := deleteSeg sv.step false) (by simpa [SaneAfter] using hs.2)
            hap ha' hs.1
            (fun r => by simp [hp r, program, hpre, beginThen, afterPrep]) (hdel _ _) hbg
        | false =>
          simp only [Option.map_none, Sane, Option.none_or] at hs
          exact .save (blk := false) (cur := deleteSeg sv.step false) (by simpa [SaneAfter] using hs.2)
            hap ha' hs.1
            (fun r => by simp [hp r, program, hpre, beginThen, afterPrep]) (hdel _ _) hbg
      | some q =>
        cases blk with
        | true =>
          simp only [Option.map_some, Sane, Option.some_or] at hs
          refine .join (cs := .save sv true :: cs) (cur := fun _ => [.join]) ?_ ha
            (fun r => ?_) (fun r => .inl rfl) h
          · simpa [Sane] using hs
          · simp [hp r, program, completeThen]
        | false =>
          simp only [Option.map_some, Sane, Option.some_or] at hs
          refine .join (cs := .save sv false :: cs) (cur := fun _ => [.join]) ?_ ha
            (fun r => ?_) (fun r => .inl rfl) h
          · simpa [Sane] using hs
          · simp [hp r, program, completeThen]

end Fs2.Ckpt
