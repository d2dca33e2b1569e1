import Verif.Shard.Reshard

/-!
# Loading native checkpoints

Models `_NativeModelCheckpointLoader` (src/fairseq2/model_checkpoint/native.py:30-226).

A directory is what is found under the numbers 0, 1, 2, … at each level (`pp_00`, `tp_00`, `sdp_00.pt`), where `none` is
something that does not exist. Files hold tensors under keys; a tensor has an identity, since the code tells tensors
apart by identity. Every key is taken out of a file once, so that `pop` is a lookup. The generator is run to its end:
what it has yielded before an error is not modelled. The state dictionary converter is applied to the files beforehand.
-/

namespace Fs2.Shard

variable {α : Type}

/-- What a file holds under a key. -/
inductive Item (α : Type) where
  | tensor (id : Nat) (m : Mat α)
  | other

abbrev StateFile (α : Type) := List (String × Item α)

inductive LoadErr where
  /-- `CorruptModelCheckpointError`. -/
  | corrupt
  /-- Any other exception: a rank out of range, an error while resharding. -/
  | other
  deriving DecidableEq

/-- `for idx in count()` up to the first thing that is missing. -/
def present {β : Type} : List (Option β) → List β
  | some b :: l => b :: present l
  | _ => []

abbrev Directory (α : Type) := List (Option (List (Option (List (Option (StateFile α))))))

/-- `_get_checkpoint_files` (native.py:170-216), with the contents of the files. -/
def scan (dir : Directory α) : Except LoadErr (List (List (List (StateFile α)))) :=
  let files := (present dir).map fun tp => (present tp).map present
  match files with
  | (dp :: tps) :: _ =>
    if dp.isEmpty then .error .corrupt
    else if files.any fun tp => tp.length ≠ tps.length + 1 ∨ tp.any fun d => d.length ≠ dp.length then .error .corrupt
    else .ok files
  | _ => .error .corrupt

/-- The pieces of a key in the files of one tensor parallel rank (native.py:134-148). -/
def piecesOf (key : String) : List (StateFile α) → Except LoadErr (List (Nat × Mat α))
  | [] => .ok []
  | f :: fs =>
    match f.lookup key with
    | none => .ok []
    | some .other => .error .corrupt
    | some (.tensor id m) =>
      match piecesOf key fs with
      | .ok r => .ok ((id, m) :: r)
      | .error e => .error e

/-- The pieces in the files of all tensor parallel ranks (native.py:131-150). -/
def allPieces (key : String) : List (List (StateFile α)) → Except LoadErr (List (List (Nat × Mat α)))
  | [] => .ok []
  | fs :: r =>
    match piecesOf key fs with
    | .error e => .error e
    | .ok p =>
      match allPieces key r with
      | .ok ps => .ok (p :: ps)
      | .error e => .error e

/-- Sizes and rank for resharding. -/
structure Sizes where
  sourceTp : Nat
  sourceDp : Nat
  targetTp : Nat
  targetRank : Nat

/-- The loop over the keys of a pipeline stage (native.py:120-168). -/
def keysLoop (stage : List (List (StateFile α))) (z : Sizes) (dims : String → Option Nat) :
    List String → List Nat → Except LoadErr (List (String × Mat α))
  | [], _ => .ok []
  | key :: keys, memo =>
    match allPieces key stage with
    | .error e => .error e
    | .ok splits =>
      match splits with
      | ((id, _) :: _) :: _ =>
        if id ∈ memo then keysLoop stage z dims keys memo
        else
          match reshard (splits.map fun s => s.map (·.2)) z.sourceTp z.sourceDp z.targetTp z.targetRank (dims key) with
          | none => .error .other
          | some t =>
            match keysLoop stage z dims keys (id :: memo) with
            | .ok r => .ok ((key, t) :: r)
            | .error e => .error e
      | _ => .error .other

/-- One pipeline stage (native.py:118-168). -/
def stageLoad (z : Sizes) (dims : String → Option Nat) (stage : List (List (StateFile α))) :
    Except LoadErr (List (String × Mat α)) :=
  match stage with
  | (f :: _) :: _ => keysLoop stage z dims (f.map (·.1)) []
  | _ => .error .other

def stagesLoad (z : Sizes) (dims : String → Option Nat) :
    List (List (List (StateFile α))) → Except LoadErr (List (String × Mat α))
  | [] => .ok []
  | s :: ss =>
    match stageLoad z dims s with
    | .error e => .error e
    | .ok a =>
      match stagesLoad z dims ss with
      | .ok b => .ok (a ++ b)
      | .error e => .error e

/-- The place of a process in its gangs. -/
structure Place where
  ppSize : Nat
  ppRank : Nat
  tpSize : Nat
  tpRank : Nat

/-- `lazy_load` (native.py:46-168). -/
def nativeLoad (dir : Directory α) (p : Place) (dims : String → Option Nat) :
    Except LoadErr (List (String × Mat α)) :=
  match scan dir with
  | .error e => .error e
  | .ok files =>
    let tpSize := (files.headD []).length
    let dpSize := ((files.headD []).headD []).length
    if p.ppSize = files.length ∧ p.tpSize = tpSize then
      -- only the own files
      match files[p.ppRank]? with
      | none => .error .other
      | some tp =>
        match tp[p.tpRank]? with
        | none => .error .other
        | some fs => stagesLoad ⟨1, dpSize, 1, 0⟩ dims [[fs]]
    else stagesLoad ⟨tpSize, dpSize, p.tpSize, p.tpRank⟩ dims files

end Fs2.Shard
