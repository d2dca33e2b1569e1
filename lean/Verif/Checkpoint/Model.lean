/-!
# The checkpoint manager

Model of `StandardCheckpointManager` (src/fairseq2/checkpoint/manager.py:157-837) on a local
file system, run by `N` ranks.  Every rank runs a program of instructions; a step is one
file operation of one rank (or of its background thread), or a barrier that all ranks
pass together.  Ranks and threads take steps in any order.  A crash is the end of an
execution at any point; a new session starts on the files that are left.

Simplifications: an operation of the operating system is atomic and durable, in the order
of the steps; a file is written in two steps (created, written), so it may be seen empty; an
operation that raises an exception is an operation that cannot take a step (the session
ends there); a non-blocking poll (manager.py:248-261) either finds all ranks done, which is
what `complete` does, or finds some rank not done, which only synchronises; files
written by callbacks (`hg`, `hook`) and score files are left out; the contents of a
record are those given to the call (manager.py:416-423 copies them before returning).
-/

namespace Fs2.Ckpt

inductive Kind where
  | trainer | model | optimizer | dataReader
deriving DecidableEq, Repr

/-- `model/pp_01/tp_00/sdp_03.pt` is `⟨.model, [1, 0, 3]⟩`. -/
structure File where
  kind : Kind
  path : List Nat
deriving DecidableEq, Repr

/-- `step_n` and `step_n.tmp` (manager.py:275-284). -/
inductive Loc where
  | final (n : Nat) | tmp (n : Nat)
deriving DecidableEq

/-- A path below a step directory; `top` is the directory itself. -/
inductive Item where
  | top
  | dir (k : Kind) (path : List Nat)
  | file (f : File)
deriving DecidableEq

inductive Entry (C : Type) where
  | dir
  /-- Created and not completely written. -/
  | part
  | full (c : C)

/-- The checkpoint directory. -/
abbrev FS (C : Type) := Loc → Item → Option (Entry C)

variable {C : Type}

def FS.empty : FS C := fun _ _ => none

def FS.put (fs : FS C) (l : Loc) (i : Item) (e : Option (Entry C)) : FS C :=
  fun l' i' => if l' = l ∧ i' = i then e else fs l' i'

/-- `make_directory` (file_system.py:614-616), parents included. -/
def FS.mkdirs (fs : FS C) (l : Loc) (k : Kind) (p : List Nat) : FS C := fun l' i =>
  if l' = l then
    match i with
    | .top => some .dir
    | .dir k' q => if k' = k ∧ q <+: p then some .dir else fs l' i
    | .file _ => fs l' i
  else fs l' i

/-- `old_path.replace(new_path)` (file_system.py:606-608) of `step_n.tmp` to `step_n`. -/
def FS.move (fs : FS C) (n : Nat) : FS C := fun l i =>
  if l = .final n then fs (.tmp n) i else if l = .tmp n then none else fs l i

/-- One `_CheckpointRecord` (manager.py:840-844). -/
structure Rec (C : Type) where
  file : File
  state : C

/-- What happens to a step, for the statement of properties. -/
inductive Event (C : Type) where
  /-- The rename (manager.py:498-503) of a save to which the ranks gave these records. -/
  | committed (n : Nat) (recs : List (Rec C))
  /-- `delete_checkpoint(n)` is about to remove `step_n`, and has done so. -/
  | deleting (n : Nat) | deleted (n : Nat)
  /-- The same with `keep_model=True`. -/
  | stripping (n : Nat) | stripped (n : Nat)

inductive Instr (C : Type) where
  | mkTop (n : Nat)
  | mkdir (n : Nat) (k : Kind) (path : List Nat)
  | create (n : Nat) (f : File)
  | write (n : Nat) (f : File) (c : C)
  /-- `remove_directory` (file_system.py:635-637). -/
  | rmtree (l : Loc)
  /-- The loop of `delete_checkpoint` with `keep_model` (manager.py:680-688). -/
  | strip (n : Nat)
  | rename (n : Nat) (recs : List (Rec C))
  | note (e : Event C)
  | barrier
  /-- `thread_pool.queue(save)` (manager.py:441-443). -/
  | spawn (n : Nat) (recs : List (Rec C))
  /-- `self._save_op.result()` (manager.py:241, 261). -/
  | join

/-- Kinds that `keep_model` keeps (manager.py:682). -/
def kept : Item → Bool
  | .top => true
  | .dir k _ => k = .model
  | .file f => f.kind = .model

/-- `i` has nothing below it. -/
def Leaf (fs : FS C) (l : Loc) : Item → Prop
  | .top => ∀ i, i ≠ .top → fs l i = none
  | .dir k p => ∀ q, p <+: q → (q ≠ p → fs l (.dir k q) = none) ∧ fs l (.file ⟨k, q⟩) = none
  | .file _ => True

/-- A step of a file instruction: the file system afterwards, and whether the
instruction is finished. -/
inductive Act : Instr C → FS C → FS C → Bool → Prop where
  | mkTop {n fs} : Act (.mkTop n) fs (fs.put (.tmp n) .top (some .dir)) true
  | mkdir {n k p fs} : Act (.mkdir n k p) fs (fs.mkdirs (.tmp n) k p) true
  /-- Opening for writing; the directory has to exist. -/
  | create {n f fs} : fs (.tmp n) (.dir f.kind f.path.dropLast) = some .dir →
      Act (.create n f) fs (fs.put (.tmp n) (.file f) (some .part)) true
  | write {n f c fs e} : fs (.tmp n) (.file f) = some e →
      Act (.write n f c) fs (fs.put (.tmp n) (.file f) (some (.full c))) true
  /-- The file has been unlinked meanwhile. -/
  | writeLost {n f c fs} : fs (.tmp n) (.file f) = none → Act (.write n f c) fs fs true
  /-- `rmtree` removes entries one by one in an unknown order. -/
  | rm {l i fs e} : i ≠ .top → fs l i = some e → Leaf fs l i →
      Act (.rmtree l) fs (fs.put l i none) false
  | rmTop {l fs} : Leaf fs l .top → Act (.rmtree l) fs (fs.put l .top none) true
  | strip {n i fs e} : kept i = false → fs (.final n) i = some e → Leaf fs (.final n) i →
      Act (.strip n) fs (fs.put (.final n) i none) false
  | stripEnd {n fs} : (∀ i, kept i = false → fs (.final n) i = none) → Act (.strip n) fs fs true
  /-- The target has to be empty or absent. -/
  | rename {n recs fs} : fs (.tmp n) .top = some .dir → Leaf fs (.final n) .top →
      Act (.rename n recs) fs (fs.move n) true

/-! ## The programs of the ranks -/

/-- Ranks of one process in its gangs. -/
structure Coords where
  dp : Nat
  rdp : Nat
  sdp : Nat
  tp : Nat
  pp : Nat

/-- A topology of `N` ranks. -/
abbrev Topo (N : Nat) := Fin N → Coords

variable {N : Nat}

/-- What the ranks hand to `save_checkpoint`: for every rank and kind the state
dictionary; `full` is false for `save_model_only`. -/
structure Save (N : Nat) (C : Type) where
  step : Nat
  full : Bool
  state : Fin N → Kind → C

/-- `_record_trainer_state` … `_record_data_reader_state` (manager.py:300-401), called by
`save_checkpoint` and `save_model_only` (lines 197-205, 229): the records of rank `r`. -/
def records (t : Topo N) (sv : Save N C) (r : Fin N) : List (Rec C) :=
  (if sv.full then [⟨⟨.trainer, [r]⟩, sv.state r .trainer⟩] else []) ++
  (if (t r).rdp = 0 then [⟨⟨.model, [(t r).pp, (t r).tp, (t r).sdp]⟩, sv.state r .model⟩] else []) ++
  (if sv.full ∧ (t r).rdp = 0 then
    [⟨⟨.optimizer, [(t r).pp, (t r).tp, (t r).sdp]⟩, sv.state r .optimizer⟩] else []) ++
  (if sv.full ∧ (t r).tp = 0 then [⟨⟨.dataReader, [(t r).dp]⟩, sv.state r .dataReader⟩] else [])

/-- The directories that rank `r` makes on the way (manager.py:292-298, 310-314, 335-339,
367-371, 391-395). -/
def mkdirs (t : Topo N) (sv : Save N C) (r : Fin N) : List (Instr C) :=
  (if r.val = 0 then [.mkTop sv.step] else []) ++
  (if sv.full ∧ r.val = 0 then [.mkdir sv.step .trainer []] else []) ++
  (if (t r).rdp = 0 ∧ (t r).sdp = 0 then [.mkdir sv.step .model [(t r).pp, (t r).tp]] else []) ++
  (if sv.full ∧ (t r).rdp = 0 ∧ (t r).sdp = 0 then
    [.mkdir sv.step .optimizer [(t r).pp, (t r).tp]] else []) ++
  (if sv.full ∧ (t r).tp = 0 ∧ (t r).dp = 0 then [.mkdir sv.step .dataReader []] else [])

/-- `_save_state_files` (manager.py:465-484). -/
def writes (n : Nat) : List (Rec C) → List (Instr C)
  | [] => []
  | x :: xs => .create n x.file :: .write n x.file x.state :: writes n xs

/-- Everything the ranks give to a save. -/
def allRecords (t : Topo N) (sv : Save N C) : List (Rec C) :=
  (List.finRange N).flatMap (records t sv)

/-- `delete_checkpoint` up to its barrier (manager.py:655-706). -/
def deleteSeg (m : Nat) (keep : Bool) (r : Fin N) : List (Instr C) :=
  if r.val = 0 then
    .rmtree (.tmp m) ::
      if keep then [.note (.stripping m), .strip m, .note (.stripped m)]
      else [.note (.deleting m), .rmtree (.final m), .note (.deleted m)]
  else []

/-- The middle of `_commit_checkpoint` (manager.py:494-503). -/
def renameSeg (t : Topo N) (sv : Save N C) (r : Fin N) : List (Instr C) :=
  if r.val = 0 then [.rename sv.step (allRecords t sv)] else []

/-- Calls that all ranks make, in the same order. -/
inductive Cmd (N : Nat) (C : Type) where
  | save (sv : Save N C) (blocking : Bool)
  /-- `maybe_complete_save_operation(blocking=True)`, or a poll that finds all ranks done. -/
  | complete
  /-- A poll that finds some rank not done. -/
  | poll
  | delete (n : Nat) (keepModel : Bool)

/-- `maybe_complete_save_operation` with a pending save (manager.py:234-267) and
`_commit_checkpoint` (lines 486-508), then `k`. -/
def completeThen (t : Topo N) (sv : Save N C) (r : Fin N) (k : List (Instr C)) : List (Instr C) :=
  .join :: .barrier :: .barrier :: (renameSeg t sv r ++ .barrier :: k)

/-- `_begin_checkpoint`, `_record_*` and `_sync_nfs_cache` (manager.py:286-298, 197-205,
510-525) with nothing pending, then `k`. -/
def beginThen (t : Topo N) (sv : Save N C) (r : Fin N) (k : List (Instr C)) : List (Instr C) :=
  deleteSeg sv.step false r ++ .barrier :: (mkdirs t sv r ++ .barrier :: k)

/-- The program of rank `r`; `p` is the save in progress. -/
def program (t : Topo N) (r : Fin N) : Option (Save N C) → List (Cmd N C) → List (Instr C)
  | _, [] => []
  | p, .delete m keep :: cs => deleteSeg m keep r ++ .barrier :: program t r p cs
  | none, .poll :: cs => program t r none cs
  | some p, .poll :: cs => .barrier :: program t r (some p) cs
  | none, .complete :: cs => program t r none cs
  | some p, .complete :: cs => completeThen t p r (program t r none cs)
  | none, .save sv true :: cs =>
      beginThen t sv r (writes sv.step (records t sv r) ++
        .barrier :: (renameSeg t sv r ++ .barrier :: program t r none cs))
  | none, .save sv false :: cs =>
      beginThen t sv r (.spawn sv.step (records t sv r) :: program t r (some sv) cs)
  | some p, .save sv true :: cs => completeThen t p r
      (beginThen t sv r (writes sv.step (records t sv r) ++
        .barrier :: (renameSeg t sv r ++ .barrier :: program t r none cs)))
  | some p, .save sv false :: cs => completeThen t p r
      (beginThen t sv r (.spawn sv.step (records t sv r) :: program t r (some sv) cs))

/-! ## Executions -/

structure St (N : Nat) (C : Type) where
  fs : FS C
  prog : Fin N → List (Instr C)
  /-- What the background thread of a rank has still to do. -/
  bg : Fin N → List (Instr C)

def upd {α : Type} (g : Fin N → α) (r : Fin N) (x : α) : Fin N → α := fun r' => if r' = r then x else g r'

/-- What an instruction shows. -/
def Instr.shown : Instr C → List (Event C)
  | .rename n recs => [.committed n recs]
  | _ => []

inductive Step : St N C → List (Event C) → St N C → Prop where
  /-- A file operation of rank `r` that finishes an instruction. -/
  | run {s r i p fs'} : s.prog r = i :: p → Act i s.fs fs' true →
      Step s i.shown { s with fs := fs', prog := upd s.prog r p }
  /-- One that does not. -/
  | more {s r i p fs'} : s.prog r = i :: p → Act i s.fs fs' false →
      Step s [] { s with fs := fs' }
  | note {s r e p} : s.prog r = .note e :: p → Step s [e] { s with prog := upd s.prog r p }
  | spawn {s r n recs p} : s.prog r = .spawn n recs :: p →
      Step s [] { s with prog := upd s.prog r p, bg := upd s.bg r (s.bg r ++ writes n recs) }
  | join {s r p} : s.prog r = .join :: p → s.bg r = [] → Step s [] { s with prog := upd s.prog r p }
  /-- A file operation of the background thread of rank `r`. -/
  | back {s r i b fs'} : s.bg r = i :: b → Act i s.fs fs' true →
      Step s [] { s with fs := fs', bg := upd s.bg r b }
  /-- All ranks leave a barrier once all have reached it. -/
  | barrier {s} {p : Fin N → List (Instr C)} : (∀ r, s.prog r = .barrier :: p r) →
      Step s [] { s with prog := p }

inductive Exec : St N C → List (Event C) → St N C → Prop where
  | nil (s) : Exec s [] s
  | snoc {s evs s' e s''} : Exec s evs s' → Step s' e s'' → Exec s (evs ++ e) s''

/-- A session begins. -/
def start (t : Topo N) (fs : FS C) (cs : List (Cmd N C)) : St N C :=
  ⟨fs, fun r => program t r none cs, fun _ => []⟩

/-- No file is written by two ranks, or twice by one. -/
def Apart (t : Topo N) (sv : Save N C) : Prop :=
  ∀ (r r' : Fin N) (i j : Nat) (x y : Rec C), (records t sv r)[i]? = some x → (records t sv r')[j]? = some y →
    x.file = y.file → r = r' ∧ i = j

/-! ## What is listed and loaded -/

/-- `get_step_numbers(exclude_model_only=True)` (manager.py:715-742). -/
def Listed (fs : FS C) (n : Nat) : Prop :=
  fs (.final n) .top ≠ none ∧ fs (.final n) (.dir .trainer []) ≠ none

/-- `get_step_numbers()`. -/
def ListedAny (fs : FS C) (n : Nat) : Prop := fs (.final n) .top ≠ none

inductive Loaded (C : Type) where
  | ok (c : C)
  /-- `CheckpointNotFoundError` -/
  | notFound
  /-- `CheckpointError`: not a valid file. -/
  | corrupt

/-- `_load_state_dict` (manager.py:625-645). -/
def loadFile (fs : FS C) (n : Nat) (f : File) : Loaded C :=
  match fs (.final n) (.file f) with
  | none => .notFound
  | some (.full c) => .ok c
  | some _ => .corrupt

/-- The file of kind `k` that rank `r` opens (manager.py:561, 579, 597, 612). -/
def fileOf (t : Topo N) (r : Fin N) (k : Kind) : File :=
  ⟨k, match k with
    | .trainer => [r]
    | .model | .optimizer => [(t r).pp, (t r).tp, (t r).sdp]
    | .dataReader => [(t r).dp]⟩

/-- `load_trainer_state`, `load_model_state`, `load_optimizer_state`,
`load_data_reader_state` (manager.py:557-623) of rank `r`. -/
def load (t : Topo N) (fs : FS C) (n : Nat) (r : Fin N) (k : Kind) : Loaded C :=
  loadFile fs n (fileOf t r k)

end Fs2.Ckpt
