/-
Model of the download of assets, with crashes.

Source: /repo/src/fairseq2/assets/download_manager.py, `_AssetDownloadOperation` (lines 498-799).

The three directories of one asset on the disk, and one process at a time that downloads it. Every action on the
disk is a step of its own; removing a directory removes its files one by one, in any order, and then the
directory; a file is received and a member of an archive is written in pieces. A crash can happen before every
step. The server always has the same file under the same name, sends its bytes in order and may stop at any
point; it does not send more. Archives have no directories in them. What kind of file a name and bytes make
(`download_file.suffix == ".zip"`, `is_tarfile`) is a parameter. Moving a file or a directory is one step. If an
archive cannot be removed (an `OSError` that is ignored), it stays.
-/

namespace Fs2.Asset

abbrev Bytes := List Nat

abbrev Files := List (List Char × Bytes)

/-- What a downloaded file is: something to be kept as it is, an archive with its members, or an archive that
cannot be read. -/
inductive Kind where
  | plain
  | archive (members : Files)
  | broken
deriving DecidableEq

/-- The file on the server: its name, its bytes, whether the server tells its length, and what kind of file a
name and bytes make. -/
structure Remote where
  name : List Char
  data : Bytes
  hasLength : Bool
  kind : List Char → Bytes → Kind

/-- The directories `h`, `h.download` and `h.download.tmp`. -/
structure Disk where
  asset : Option Files
  download : Option Files
  tmp : Option Files
deriving DecidableEq

/-- Where the process is. -/
inductive Phase where
  | idle
  | cleanAsset
  | cleanDownload
  | cleanTmp
  | download
  | opening
  | writing (file : List Char) (received : Nat)
  | received (file : List Char)
  | renamed
  | failing
  | extract
  | picking
  | extracting (file : List Char) (todo : Files)
  | extracted (file : List Char)
  | placing (file : List Char)
  | finishing
  | retrieve
deriving DecidableEq

/-- What a call returns: an error, the path of a file or the path of the directory; here with what is there. -/
inductive Result where
  | error
  | file (name : List Char) (data : Bytes)
  | dir (files : Files)
deriving DecidableEq

/-- The disk, the process and the results of the calls so far. -/
structure DState where
  disk : Disk
  phase : Phase
  results : List Result
deriving DecidableEq

/-- The choices: a call, a crash, an exception, the next step, the removal of one file of a directory, the name
of the temporary file, the number of bytes that have been received, the file that a directory lists first, and
the number of bytes of a member that have been written. -/
inductive Act where
  | call (force localOnly : Bool)
  | crash
  | fail
  | next
  | remove (file : List Char)
  | temp (file : List Char)
  | recv (n : Nat)
  | pick (file : List Char)
  | part (n : Nat)
deriving DecidableEq

/-- The contents of a file. -/
def fileOf (file : List Char) : Files → Option Bytes
  | [] => none
  | (n, b) :: fs => if n = file then some b else fileOf file fs

/-- A directory without a file. -/
def without (file : List Char) (fs : Files) : Files := fs.filter fun e => e.1 ≠ file

/-- A directory with a file. -/
def withFile (file : List Char) (b : Bytes) (fs : Files) : Files := without file fs ++ [(file, b)]

/-- `_retrieve_asset_path` (download_manager.py:764-794). -/
def retrievePath (asset : Option Files) : Result :=
  match asset with
  | none => .error
  | some [] => .error
  | some [(n, b)] => .file n b
  | some fs => .dir fs

/-- `_clean_cached_asset`, first directory (download_manager.py:550-556). -/
def stepCleanAsset (d : Disk) : Act → Option (Disk × Phase)
  | .remove f => d.asset.map fun fs => ({ d with asset := some (without f fs) }, .cleanAsset)
  | .next => if d.asset = none ∨ d.asset = some [] then some ({ d with asset := none }, .cleanDownload) else none
  | _ => none

/-- Second directory (download_manager.py:558-563). -/
def stepCleanDownload (d : Disk) : Act → Option (Disk × Phase)
  | .remove f => d.download.map fun fs => ({ d with download := some (without f fs) }, .cleanDownload)
  | .next =>
    if d.download = none ∨ d.download = some [] then some ({ d with download := none }, .cleanTmp) else none
  | _ => none

/-- Third directory (download_manager.py:565-570). -/
def stepCleanTmp (d : Disk) : Act → Option (Disk × Phase)
  | .remove f => d.tmp.map fun fs => ({ d with tmp := some (without f fs) }, .cleanTmp)
  | .next => if d.tmp = none ∨ d.tmp = some [] then some ({ d with tmp := none }, .download) else none
  | _ => none

/-- The checks at the beginning of `_download_asset` and the temporary directory
(download_manager.py:573-588). -/
def stepDownload (d : Disk) : Act → Option (Disk × Phase)
  | .next =>
    if d.asset.isSome then some (d, .extract)
    else if d.download.isSome then some (d, .extract)
    else some ({ d with tmp := some (d.tmp.getD []) }, .opening)
  | _ => none

/-- The response and the temporary file, whose name no other file has (download_manager.py:599-632). -/
def stepOpening (d : Disk) : Act → Option (Disk × Phase)
  | .temp f =>
    match d.tmp with
    | none => none
    | some fs => if f ∈ fs.map (·.1) then none else some ({ d with tmp := some (fs ++ [(f, [])]) }, .writing f 0)
  | .fail => some (d, .failing)
  | _ => none

/-- The loop that reads and writes, and the check of the size after it (download_manager.py:644-671). -/
def stepWriting (R : Remote) (d : Disk) (file : List Char) (n : Nat) : Act → Option (Disk × Phase)
  | .recv m =>
    if n < m ∧ m ≤ R.data.length then
      some ({ d with tmp := d.tmp.map (withFile file (R.data.take m)) }, .writing file m)
    else none
  | .next => if R.hasLength ∧ n < R.data.length then some (d, .failing) else some (d, .received file)
  | .fail => some (d, .failing)
  | _ => none

/-- The temporary file gets its name (download_manager.py:673-693). -/
def stepReceived (R : Remote) (d : Disk) (file : List Char) : Act → Option (Disk × Phase)
  | .next =>
    match d.tmp with
    | none => none
    | some fs =>
      match fileOf file fs with
      | none => none
      | some b => some ({ d with tmp := some (withFile R.name b (without file fs)) }, .renamed)
  | .fail => some (d, .failing)
  | _ => none

/-- The temporary directory gets its name (download_manager.py:695-697). -/
def stepRenamed (d : Disk) : Act → Option (Disk × Phase)
  | .next => some ({ d with download := d.tmp, tmp := none }, .extract)
  | .fail => some (d, .failing)
  | _ => none

/-- The beginning of `_ensure_asset_extracted` (download_manager.py:699-707). -/
def stepExtract (d : Disk) : Act → Option (Disk × Phase)
  | .next =>
    if d.download = none then some (d, .retrieve)
    else some ({ d with asset := some (d.asset.getD []) }, .picking)
  | _ => none

/-- The first file of the directory and its kind (download_manager.py:709-719, 738, 757). -/
def stepPicking (R : Remote) (d : Disk) : Act → Option (Disk × Phase)
  | .next => if d.download = some [] then some (d, .retrieve) else none
  | .pick f =>
    match d.download.bind (fileOf f) with
    | none => none
    | some b =>
      match R.kind f b with
      | .plain => some (d, .placing f)
      | .archive ms => some (d, .extracting f ms)
      | .broken => none
  | _ => none

/-- `extractall` (download_manager.py:726-732, 745-751). -/
def stepExtracting (d : Disk) (file : List Char) (todo : Files) : Act → Option (Disk × Phase)
  | .part k =>
    match todo with
    | [] => none
    | (n, b) :: _ => some ({ d with asset := d.asset.map (withFile n (b.take k)) }, .extracting file todo)
  | .next =>
    match todo with
    | [] => some (d, .extracted file)
    | (n, b) :: todo => some ({ d with asset := d.asset.map (withFile n b) }, .extracting file todo)
  | _ => none

/-- The archive is removed, or stays (download_manager.py:734-737, 753-756). -/
def stepExtracted (d : Disk) (file : List Char) : Act → Option (Disk × Phase)
  | .next => some ({ d with download := d.download.map (without file) }, .finishing)
  | .fail => some (d, .finishing)
  | _ => none

/-- A file that is no archive is moved (download_manager.py:757-760). -/
def stepPlacing (d : Disk) (file : List Char) : Act → Option (Disk × Phase)
  | .next =>
    match d.download.bind (fileOf file) with
    | none => none
    | some b =>
      some ({ d with asset := d.asset.map (withFile file b), download := d.download.map (without file) },
        .finishing)
  | _ => none

/-- The directory of the download is removed (download_manager.py:762). -/
def stepFinishing (d : Disk) : Act → Option (Disk × Phase)
  | .remove f => d.download.map fun fs => ({ d with download := some (without f fs) }, .finishing)
  | .next =>
    if d.download = none ∨ d.download = some [] then some ({ d with download := none }, .retrieve) else none
  | _ => none

/-- The steps of a process that is neither idle nor about to return; crashes apart. -/
def stepBusy (R : Remote) (d : Disk) : Phase → Act → Option (Disk × Phase)
  | .cleanAsset, a => stepCleanAsset d a
  | .cleanDownload, a => stepCleanDownload d a
  | .cleanTmp, a => stepCleanTmp d a
  | .download, a => stepDownload d a
  | .opening, a => stepOpening d a
  | .writing f n, a => stepWriting R d f n a
  | .received f, a => stepReceived R d f a
  | .renamed, a => stepRenamed d a
  | .extract, a => stepExtract d a
  | .picking, a => stepPicking R d a
  | .extracting f todo, a => stepExtracting d f todo a
  | .extracted f, a => stepExtracted d f a
  | .placing f, a => stepPlacing d f a
  | .finishing, a => stepFinishing d a
  | _, _ => none

/-- Whether an exception ends the call in this phase without further ado: those of the system everywhere else
than where they are handled, and those of the extraction. -/
def Phase.raises : Phase → Bool
  | .idle | .opening | .writing _ _ | .received _ | .renamed | .failing | .extracted _ | .retrieve => false
  | _ => true

/-- One step. -/
def dstep (R : Remote) (s : DState) (a : Act) : Option DState :=
  match s.phase, a with
  | .idle, .call force localOnly =>
    -- `run` (download_manager.py:530-541)
    some { s with phase := if localOnly then .retrieve else if force then .cleanAsset else .download }
  | .idle, _ => none
  | _, .crash => some { s with phase := .idle }
  | .retrieve, .next => some { s with phase := .idle, results := s.results ++ [retrievePath s.disk.asset] }
  | .failing, .remove f =>
    -- `remove_tmp_dir` (download_manager.py:590-597)
    s.disk.tmp.map fun fs => { s with disk := { s.disk with tmp := some (without f fs) } }
  | .failing, .next =>
    if s.disk.tmp = none ∨ s.disk.tmp = some [] then
      some ⟨{ s.disk with tmp := none }, .idle, s.results ++ [.error]⟩
    else none
  | phase, a =>
    match stepBusy R s.disk phase a with
    | some (d, p) => some { s with disk := d, phase := p }
    | none => if a = .fail ∧ phase.raises then some { s with phase := .idle, results := s.results ++ [.error] } else none

/-- Several steps. -/
def dsteps (R : Remote) : DState → List Act → Option DState
  | s, [] => some s
  | s, a :: as =>
    match dstep R s a with
    | none => none
    | some s => dsteps R s as

/-- Nothing has been downloaded yet. -/
def freshDisk : DState := ⟨⟨none, none, none⟩, .idle, []⟩

end Fs2.Asset
