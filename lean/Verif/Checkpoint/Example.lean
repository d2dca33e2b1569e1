import Verif.Checkpoint.Topo

/-!
# Two executions

A save of one rank that is repeated and crashes, and an asynchronous save of two ranks.
-/

namespace Fs2.Ckpt

/-- One rank, with states numbered by kind. -/
def one : Save 1 Nat where
  step := 1
  full := true
  state := fun _ k => match k with | .trainer => 10 | .model => 11 | .optimizer => 12 | .dataReader => 13

abbrev resave : List (Cmd 1 Nat) := [.save one true, .save one true]

/-- What one save does on one rank. -/
def saveOne (k : List (Instr Nat)) : List (Instr Nat) :=
  .rmtree (.tmp 1) :: .note (.deleting 1) :: .rmtree (.final 1) :: .note (.deleted 1) :: .barrier ::
  .mkTop 1 :: .mkdir 1 .trainer [] :: .mkdir 1 .model [0, 0] :: .mkdir 1 .optimizer [0, 0] ::
  .mkdir 1 .dataReader [] :: .barrier ::
  .create 1 ⟨.trainer, [0]⟩ :: .write 1 ⟨.trainer, [0]⟩ 10 ::
  .create 1 ⟨.model, [0, 0, 0]⟩ :: .write 1 ⟨.model, [0, 0, 0]⟩ 11 ::
  .create 1 ⟨.optimizer, [0, 0, 0]⟩ :: .write 1 ⟨.optimizer, [0, 0, 0]⟩ 12 ::
  .create 1 ⟨.dataReader, [0]⟩ :: .write 1 ⟨.dataReader, [0]⟩ 13 :: .barrier ::
  .rename 1 (allRecords (grid 1 1 1) one) :: .barrier :: k

theorem program_resave : program (grid 1 1 1) 0 none resave = saveOne (saveOne []) := rfl

/-- A state of one rank without a background thread. -/
abbrev solo (fs : FS Nat) (p : List (Instr Nat)) : St 1 Nat := ⟨fs, fun _ => p, fun _ => []⟩

theorem upd_solo (p q : List (Instr Nat)) (r : Fin 1) : upd (fun _ => p) r q = fun _ => q := by
  funext r'
  simp [upd, Subsingleton.elim r' r]

theorem Exec.solo_run {s : St 1 Nat} {evs : List (Event Nat)} {fs fs' : FS Nat} {i : Instr Nat}
    {p : List (Instr Nat)} (h : Exec s evs (solo fs (i :: p))) (ha : Act i fs fs' true) :
    Exec s (evs ++ i.shown) (solo fs' p) := by
  have := h.snoc (.run (r := 0) rfl ha)
  rwa [upd_solo] at this

theorem Exec.solo_more {s : St 1 Nat} {evs : List (Event Nat)} {fs fs' : FS Nat} {i : Instr Nat}
    {p : List (Instr Nat)} (h : Exec s evs (solo fs (i :: p))) (ha : Act i fs fs' false) :
    Exec s (evs ++ []) (solo fs' (i :: p)) :=
  h.snoc (.more (r := 0) rfl ha)

theorem Exec.solo_note {s : St 1 Nat} {evs : List (Event Nat)} {fs : FS Nat} {e : Event Nat}
    {p : List (Instr Nat)} (h : Exec s evs (solo fs (.note e :: p))) :
    Exec s (evs ++ [e]) (solo fs p) := by
  have := h.snoc (.note (r := 0) rfl)
  rwa [upd_solo] at this

theorem Exec.solo_barrier {s : St 1 Nat} {evs : List (Event Nat)} {fs : FS Nat}
    {p : List (Instr Nat)} (h : Exec s evs (solo fs (.barrier :: p))) :
    Exec s (evs ++ []) (solo fs p) :=
  h.snoc (.barrier (p := fun _ => p) fun _ => rfl)

theorem start_solo (cs : List (Cmd 1 Nat)) {p : List (Instr Nat)} (h : program (grid 1 1 1) 0 none cs = p) :
    start (grid 1 1 1) FS.empty cs = solo FS.empty p := by
  simp only [start, solo, St.mk.injEq, true_and, and_true]
  funext r
  have : r = 0 := Subsingleton.elim _ _
  subst this
  exact h

theorem save_exec : ∃ s : St 1 Nat, Exec (start (grid 1 1 1) FS.empty [.save one true])
    [.deleting 1, .deleted 1, .committed 1 (allRecords (grid 1 1 1) one)] s ∧ Listed s.fs 1 := by
  have e : Exec (start (grid 1 1 1) FS.empty [.save one true]) [] (solo FS.empty (saveOne [])) := by
    rw [start_solo [.save one true] (p := saveOne []) rfl]
    exact .nil _
  have e := e.solo_run (.rmTop fun _ _ => rfl)
  have e := e.solo_note
  have e := e.solo_run (.rmTop fun i hi => by simp [FS.put, FS.empty])
  have e := e.solo_note
  have e := e.solo_barrier
  have e := e.solo_run .mkTop
  have e := e.solo_run .mkdir
  have e := e.solo_run .mkdir
  have e := e.solo_run .mkdir
  have e := e.solo_run .mkdir
  have e := e.solo_barrier
  have e := e.solo_run (.create (by simp [FS.mkdirs]))
  have e := e.solo_run (.write (e := .part) (by simp [FS.put]))
  have e := e.solo_run (.create (by simp [FS.put, FS.mkdirs]))
  have e := e.solo_run (.write (e := .part) (by simp [FS.put]))
  have e := e.solo_run (.create (by simp [FS.put, FS.mkdirs]))
  have e := e.solo_run (.write (e := .part) (by simp [FS.put]))
  have e := e.solo_run (.create (by simp [FS.put, FS.mkdirs]))
  have e := e.solo_run (.write (e := .part) (by simp [FS.put]))
  have e := e.solo_barrier
  have e := e.solo_run (.rename (by simp [FS.put, FS.mkdirs])
    (fun i hi => by simp [FS.put, FS.mkdirs, FS.empty]))
  have e := e.solo_barrier
  refine ⟨_, by simpa [Instr.shown] using e, ?_, ?_⟩ <;> simp [FS.put, FS.mkdirs, FS.move]

theorem resave_exec : ∃ (evs : List (Event Nat)) (s : St 1 Nat),
    Exec (start (grid 1 1 1) FS.empty resave) evs s ∧ newest evs = some 1 ∧
    s.fs (.final 1) .top = some .dir ∧ s.fs (.final 1) (.dir .trainer []) = some .dir ∧
    (∀ n, s.fs (.final n) (.file ⟨.model, [0, 0, 0]⟩) = none) ∧ Torn evs 1 := by
  have e : Exec (start (grid 1 1 1) FS.empty resave) [] (solo FS.empty (saveOne (saveOne []))) := by
    have : start (grid 1 1 1) FS.empty resave = solo FS.empty (saveOne (saveOne [])) := by
      simp only [start, solo, St.mk.injEq, true_and, and_true]
      funext r
      have : r = 0 := Subsingleton.elim _ _
      subst this
      rfl
    rw [this]
    exact .nil _
  have e := e.solo_run (.rmTop fun _ _ => rfl)
  have e := e.solo_note
  have e := e.solo_run (.rmTop fun i hi => by simp [FS.put, FS.empty])
  have e := e.solo_note
  have e := e.solo_barrier
  have e := e.solo_run .mkTop
  have e := e.solo_run .mkdir
  have e := e.solo_run .mkdir
  have e := e.solo_run .mkdir
  have e := e.solo_run .mkdir
  have e := e.solo_barrier
  have e := e.solo_run (.create (by simp [FS.mkdirs]))
  have e := e.solo_run (.write (e := .part) (by simp [FS.put]))
  have e := e.solo_run (.create (by simp [FS.put, FS.mkdirs]))
  have e := e.solo_run (.write (e := .part) (by simp [FS.put]))
  have e := e.solo_run (.create (by simp [FS.put, FS.mkdirs]))
  have e := e.solo_run (.write (e := .part) (by simp [FS.put]))
  have e := e.solo_run (.create (by simp [FS.put, FS.mkdirs]))
  have e := e.solo_run (.write (e := .part) (by simp [FS.put]))
  have e := e.solo_barrier
  have e := e.solo_run (.rename (by simp [FS.put, FS.mkdirs])
    (fun i hi => by simp [FS.put, FS.mkdirs, FS.empty]))
  have e := e.solo_barrier
  have e := e.solo_run (.rmTop fun i hi => by simp [FS.move])
  have e := e.solo_note
  have e := e.solo_more (.rm (l := .final 1) (i := .file ⟨.model, [0, 0, 0]⟩) (e := .full 11) (by simp)
    (by simp [FS.put, FS.move]) trivial)
  refine ⟨_, _, e, ?_, ?_, ?_, ?_, ?_⟩
  · simp [newest, Instr.shown]
  · simp [FS.put, FS.mkdirs, FS.move]
  · simp [FS.put, FS.mkdirs, FS.move]
  · intro n
    by_cases hn : n = 1
    · subst hn; simp [FS.put]
    · simp [FS.put, FS.mkdirs, FS.move, FS.empty, hn]
  · refine ⟨[.deleting 1, .deleted 1, .committed 1 (allRecords (grid 1 1 1) one)], [], .inl ⟨?_, by simp⟩⟩
    simp [Instr.shown]

/-- What deleting the step with `keep_model` adds. -/
theorem strip_exec : ∃ s : St 1 Nat, Exec (start (grid 1 1 1) FS.empty [.save one true, .delete 1 true])
    [.deleting 1, .deleted 1, .committed 1 (allRecords (grid 1 1 1) one), .stripping 1, .stripped 1] s := by
  have e : Exec (start (grid 1 1 1) FS.empty [.save one true, .delete 1 true]) []
      (solo FS.empty (saveOne [.rmtree (.tmp 1), .note (.stripping 1), .strip 1, .note (.stripped 1), .barrier])) := by
    rw [start_solo [.save one true, .delete 1 true]
      (p := saveOne [.rmtree (.tmp 1), .note (.stripping 1), .strip 1, .note (.stripped 1), .barrier]) rfl]
    exact .nil _
  have e := e.solo_run (.rmTop fun _ _ => rfl)
  have e := e.solo_note
  have e := e.solo_run (.rmTop fun i hi => by simp [FS.put, FS.empty])
  have e := e.solo_note
  have e := e.solo_barrier
  have e := e.solo_run .mkTop
  have e := e.solo_run .mkdir
  have e := e.solo_run .mkdir
  have e := e.solo_run .mkdir
  have e := e.solo_run .mkdir
  have e := e.solo_barrier
  have e := e.solo_run (.create (by simp [FS.mkdirs]))
  have e := e.solo_run (.write (e := .part) (by simp [FS.put]))
  have e := e.solo_run (.create (by simp [FS.put, FS.mkdirs]))
  have e := e.solo_run (.write (e := .part) (by simp [FS.put]))
  have e := e.solo_run (.create (by simp [FS.put, FS.mkdirs]))
  have e := e.solo_run (.write (e := .part) (by simp [FS.put]))
  have e := e.solo_run (.create (by simp [FS.put, FS.mkdirs]))
  have e := e.solo_run (.write (e := .part) (by simp [FS.put]))
  have e := e.solo_barrier
  have e := e.solo_run (.rename (by simp [FS.put, FS.mkdirs])
    (fun i hi => by simp [FS.put, FS.mkdirs, FS.empty]))
  have e := e.solo_barrier
  have e := e.solo_run (.rmTop fun i hi => by simp [FS.move])
  have e := e.solo_note
  have e := e.solo_more (.strip (i := .file ⟨.trainer, [0]⟩) (e := .full 10) rfl (by simp [FS.put, FS.move]) trivial)
  have e := e.solo_more (.strip (i := .file ⟨.optimizer, [0, 0, 0]⟩) (e := .full 12) rfl (by simp [FS.put, FS.move])
    trivial)
  have e := e.solo_more (.strip (i := .file ⟨.dataReader, [0]⟩) (e := .full 13) rfl (by simp [FS.put, FS.move]) trivial)
  have e := e.solo_more (.strip (i := .dir .trainer []) (e := .dir) rfl (by simp [FS.put, FS.mkdirs, FS.move])
    (by intro q hq; constructor <;> simp [FS.put, FS.mkdirs, FS.move, FS.empty] <;> grind))
  have e := e.solo_more (.strip (i := .dir .dataReader []) (e := .dir) rfl (by simp [FS.put, FS.mkdirs, FS.move])
    (by intro q hq; constructor <;> simp [FS.put, FS.mkdirs, FS.move, FS.empty] <;> grind))
  have e := e.solo_more (.strip (i := .dir .optimizer [0, 0]) (e := .dir) rfl (by simp [FS.put, FS.mkdirs, FS.move])
    (by
      intro q hq
      obtain ⟨q', rfl⟩ := hq
      constructor <;> simp [FS.put, FS.mkdirs, FS.move, FS.empty] <;> grind))
  have e := e.solo_more (.strip (i := .dir .optimizer [0]) (e := .dir) rfl (by simp [FS.put, FS.mkdirs, FS.move])
    (by
      intro q hq
      obtain ⟨q', rfl⟩ := hq
      constructor
      · rcases q' with _ | ⟨x, q'⟩ <;> simp [FS.put, FS.mkdirs, FS.move, FS.empty] <;> grind
      · simp [FS.put, FS.mkdirs, FS.move, FS.empty] <;> grind))
  have e := e.solo_more (.strip (i := .dir .optimizer []) (e := .dir) rfl (by simp [FS.put, FS.mkdirs, FS.move])
    (by
      intro q hq
      constructor
      · rcases q with _ | ⟨x, _ | ⟨y, q⟩⟩ <;> simp [FS.put, FS.mkdirs, FS.move, FS.empty] <;> grind
      · simp [FS.put, FS.mkdirs, FS.move, FS.empty] <;> grind))
  have e := e.solo_run (.stripEnd (by
    intro i hi
    cases i with
    | top => simp [kept] at hi
    | file f => rcases f with ⟨k, p⟩; cases k <;> simp [kept] at hi <;>
        simp [FS.put, FS.mkdirs, FS.move, FS.empty] <;> grind
    | dir k p =>
      cases k <;> simp [kept] at hi <;>
        rcases p with _ | ⟨x, _ | ⟨y, p⟩⟩ <;> simp [FS.put, FS.mkdirs, FS.move, FS.empty] <;> grind))
  have e := e.solo_note
  exact ⟨_, by simpa [Instr.shown] using e⟩

/-! ## Two ranks -/

/-- Two ranks save a model that is sharded over both. -/
def pair : Save 2 Nat := ⟨5, false, fun r _ => 100 + r⟩

/-- The state just before the commit of an asynchronous save. -/
theorem pair_exec : ∃ (evs : List (Event Nat)) (s s' : St 2 Nat) (e : List (Event Nat)),
    Exec (start (grid 2 1 2) FS.empty [.save pair false, .complete]) evs s ∧ Step s e s' ∧
    s.fs (.final 5) .top = none ∧ s'.fs (.final 5) .top ≠ none := by
  have e := Exec.nil (start (grid 2 1 2) FS.empty [.save pair false, .complete])
  have e := e.snoc (.run (r := 0) (i := .rmtree (.tmp 5)) rfl (.rmTop fun _ _ => rfl))
  have e := e.snoc (.note (r := 0) (e := .deleting 5) rfl)
  have e := e.snoc (.run (r := 0) (i := .rmtree (.final 5)) rfl (.rmTop fun _ _ => by simp [FS.put, start, FS.empty]))
  have e := e.snoc (.note (r := 0) (e := .deleted 5) rfl)
  have e := e.snoc (.barrier (p := fun r => (program (grid 2 1 2) r none [.save pair false, .complete]).drop
    (if r = 0 then 5 else 1)) (fun r => by match r with | 0 => rfl | 1 => rfl))
  have e := e.snoc (.run (r := 0) (i := .mkTop 5) rfl .mkTop)
  have e := e.snoc (.run (r := 0) (i := .mkdir 5 .model [0, 0]) rfl .mkdir)
  have e := e.snoc (.barrier (p := fun r => (program (grid 2 1 2) r none [.save pair false, .complete]).drop
    (if r = 0 then 8 else 2)) (fun r => by match r with | 0 => rfl | 1 => rfl))
  have e := e.snoc (.spawn (r := 0) (n := 5) (recs := records (grid 2 1 2) pair 0) rfl)
  have e := e.snoc (.spawn (r := 1) (n := 5) (recs := records (grid 2 1 2) pair 1) rfl)
  have e := e.snoc (.back (r := 1) (i := .create 5 ⟨.model, [0, 0, 1]⟩) rfl (.create (by simp [FS.mkdirs])))
  have e := e.snoc (.back (r := 0) (i := .create 5 ⟨.model, [0, 0, 0]⟩) rfl (.create (by simp [FS.put, FS.mkdirs])))
  have e := e.snoc (.back (r := 0) (i := .write 5 ⟨.model, [0, 0, 0]⟩ 100) rfl (.write (e := .part) (by simp [FS.put])))
  have e := e.snoc (.join (r := 0) rfl rfl)
  have e := e.snoc (.back (r := 1) (i := .write 5 ⟨.model, [0, 0, 1]⟩ 101) rfl (.write (e := .part) (by simp [FS.put])))
  have e := e.snoc (.join (r := 1) rfl rfl)
  have e := e.snoc (.barrier (p := fun r => (program (grid 2 1 2) r none [.save pair false, .complete]).drop
    (if r = 0 then 11 else 5)) (fun r => by match r with | 0 => rfl | 1 => rfl))
  have e := e.snoc (.barrier (p := fun r => (program (grid 2 1 2) r none [.save pair false, .complete]).drop
    (if r = 0 then 12 else 6)) (fun r => by match r with | 0 => rfl | 1 => rfl))
  refine ⟨_, _, _, _, e, .run (r := 0) (i := .rename 5 (allRecords (grid 2 1 2) pair)) rfl
    (.rename (by simp [FS.put, FS.mkdirs]) (fun i hi => by simp [FS.put, FS.mkdirs, start, FS.empty])), ?_, ?_⟩
  · simp [FS.put, FS.mkdirs]
  · simp [FS.put, FS.mkdirs, FS.move]

end Fs2.Ckpt
