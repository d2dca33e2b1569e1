import Verif.Shard.NativeLoad

/-!
# Loading checkpoints of any format

Models the loaders of single PyTorch files (src/fairseq2/model_checkpoint/basic.py:42-106), of Safetensors files
(src/fairseq2/model_checkpoint/safetensors.py:49-140) and of the files of the original LLaMA
(src/fairseq2/models/llama/checkpoint.py:41-169), and `_DelegatingModelCheckpointLoader`
(src/fairseq2/model_checkpoint/delegating.py:45-71), which takes the first of the registered loaders
(src/fairseq2/composition/lib.py:245-254) that supports a path. The loader of native checkpoints is `nativeLoad`.

As there, generators are run to their end, and a tensor has an identity. The state dictionary converter is a function of
what a file holds; it is applied to each file, but for Safetensors to all files together. Which pipeline stage a process
has plays no role for formats without stages.
-/

namespace Fs2.Shard

variable {α : Type}

/-- Something that is read with `TensorFileLoader.load`: `none` raises `CorruptFileError`. -/
abbrev TorchFile (α : Type) := Option (StateFile α)

/-- Something whose name ends with `.safetensors`. A file holds tensors; `none` is a file that cannot be read. -/
inductive SafeEntry (α : Type) where
  | file (content : Option (List (String × Mat α)))
  | dir

/-- What is at a path. -/
inductive Disk (α : Type) where
  | nothing
  /-- A file with a suffix that PyTorch files have: `.pt`, `.pth`, `.bin`. -/
  | torch (content : TorchFile α)
  /-- A file with the suffix `.safetensors`. -/
  | safe (content : Option (List (String × Mat α)))
  /-- A file with another suffix. -/
  | strange
  /-- A directory: what is under `pp_00` and so on, what the glob of `*.safetensors` gives, in its order, and what is
  under `consolidated.00.pth` and so on. -/
  | directory (native : Directory α) (safes : List (SafeEntry α)) (consolidated : List (Option (TorchFile α)))

/-- The loop over a dictionary of whole tensors (basic.py:73-99, safetensors.py:99-123). They differ in what is raised
for something that is not a tensor. -/
def dictLoop (bad : LoadErr) (tpSize tpRank : Nat) (dims : String → Option Nat) :
    StateFile α → List Nat → Except LoadErr (List (String × Mat α))
  | [], _ => .ok []
  | (_, .other) :: _, _ => .error bad
  | (key, .tensor id m) :: rest, memo =>
    if id ∈ memo then dictLoop bad tpSize tpRank dims rest memo
    else
      match reshard [[m]] 1 1 tpSize tpRank (dims key) with
      | none => .error .other
      | some t =>
        match dictLoop bad tpSize tpRank dims rest (id :: memo) with
        | .ok r => .ok ((key, t) :: r)
        | .error e => .error e

/-- `_BasicModelCheckpointLoader.lazy_load` (basic.py:43-99). -/
def basicLoad (conv : StateFile α → StateFile α) (file : TorchFile α) (p : Place) (dims : String → Option Nat) :
    Except LoadErr (List (String × Mat α)) :=
  match file with
  | none => .error .corrupt
  | some f => dictLoop .corrupt p.tpSize p.tpRank dims (conv f) []

/-- The keys of a file are put into the dictionary (safetensors.py:81-87). -/
def addKeys : List (String × Mat α) → List (String × Mat α) → Except LoadErr (List (String × Mat α))
  | ckpt, [] => .ok ckpt
  | ckpt, (key, m) :: rest =>
    if key ∈ ckpt.map (·.1) then .error .corrupt else addKeys (ckpt ++ [(key, m)]) rest

/-- The loop over the files (safetensors.py:73-87). Reading a directory raises an `OSError`. -/
def addFiles : List (String × Mat α) → List (SafeEntry α) → Except LoadErr (List (String × Mat α))
  | ckpt, [] => .ok ckpt
  | _, .dir :: _ => .error .other
  | _, .file none :: _ => .error .corrupt
  | ckpt, .file (some f) :: rest =>
    match addKeys ckpt f with
    | .error e => .error e
    | .ok ckpt => addFiles ckpt rest

/-- Every key of a Safetensors file has a tensor object of its own. -/
def numbered : Nat → List (String × Mat α) → StateFile α
  | _, [] => []
  | n, (key, m) :: rest => (key, .tensor n m) :: numbered (n + 1) rest

/-- `_SafetensorsCheckpointLoader.lazy_load` (safetensors.py:50-123), from the list of files on. -/
def safeLoad (conv : StateFile α → StateFile α) (files : List (SafeEntry α)) (p : Place) (dims : String → Option Nat) :
    Except LoadErr (List (String × Mat α)) :=
  if files.isEmpty then .error .corrupt
  else
    match addFiles [] files with
    | .error e => .error e
    | .ok ckpt => dictLoop .other p.tpSize p.tpRank dims (conv (numbered 0 ckpt)) []

/-- The pieces of a key, up to the first file without it (llama/checkpoint.py:107-120). -/
def rankPieces (key : String) : List (StateFile α) → Except LoadErr (List (List (Nat × Mat α)))
  | [] => .ok []
  | f :: fs =>
    match f.lookup key with
    | none => .ok []
    | some .other => .error .corrupt
    | some (.tensor id m) =>
      match rankPieces key fs with
      | .ok r => .ok ([(id, m)] :: r)
      | .error e => .error e

/-- The loop over the keys of the first file (llama/checkpoint.py:100-140). -/
def llamaLoop (files : List (StateFile α)) (z : Sizes) (dims : String → Option Nat) :
    List String → List Nat → Except LoadErr (List (String × Mat α))
  | [], _ => .ok []
  | key :: keys, memo =>
    match rankPieces key files with
    | .error e => .error e
    | .ok splits =>
      match splits with
      | ((id, _) :: _) :: _ =>
        if id ∈ memo then llamaLoop files z dims keys memo
        else
          match reshard (splits.map fun s => s.map (·.2)) z.sourceTp z.sourceDp z.targetTp z.targetRank (dims key) with
          | none => .error .other
          | some t =>
            match llamaLoop files z dims keys (id :: memo) with
            | .ok r => .ok ((key, t) :: r)
            | .error e => .error e
      | _ => .error .other

/-- All files are read; one that cannot be read is an error (llama/checkpoint.py:84-98). -/
def readAll (conv : StateFile α → StateFile α) : List (TorchFile α) → Except LoadErr (List (StateFile α))
  | [] => .ok []
  | none :: _ => .error .corrupt
  | some f :: fs =>
    match readAll conv fs with
    | .ok r => .ok (conv f :: r)
    | .error e => .error e

/-- From the sizes on (llama/checkpoint.py:100-140). -/
def llamaFiles (files : List (StateFile α)) (z : Sizes) (dims : String → Option Nat) :
    Except LoadErr (List (String × Mat α)) :=
  match files with
  | [] => .error .other
  | f :: _ => llamaLoop files z dims (f.map (·.1)) []

/-- `_LLaMACheckpointLoader.lazy_load` (llama/checkpoint.py:42-159) for a directory. -/
def llamaLoad (conv : StateFile α → StateFile α) (consolidated : List (Option (TorchFile α))) (p : Place)
    (dims : String → Option Nat) : Except LoadErr (List (String × Mat α)) :=
  let files := present consolidated
  if files.isEmpty then .error .corrupt
  else if p.tpSize = files.length then
    -- only the own file
    match files[p.tpRank]? with
    | none => .error .other
    | some f =>
      match readAll conv [f] with
      | .error e => .error e
      | .ok fs => llamaFiles fs ⟨1, 1, 1, 0⟩ dims
  else
    match readAll conv files with
    | .error e => .error e
    | .ok fs => llamaFiles fs ⟨files.length, 1, p.tpSize, p.tpRank⟩ dims

inductive Format where
  | basic
  | native
  | safetensors
  | llama
  deriving DecidableEq

/-- `supports_path` of the loaders (basic.py:102-106, native.py:228-235, safetensors.py:126-140,
llama/checkpoint.py:162-169). -/
def supports (disk : Disk α) : Format → Bool
  | .basic => match disk with
    | .torch _ => true
    | _ => false
  | .native => match disk with
    | .directory (some _ :: _) _ _ => true
    | _ => false
  | .safetensors => match disk with
    | .safe _ => true
    | .directory _ safes _ => safes.any fun
      | .file _ => true
      | .dir => false
    | _ => false
  | .llama => match disk with
    | .directory _ _ (some _ :: _) => true
    | _ => false

/-- The converter is applied to every file of a native checkpoint (native.py:113-114). -/
def convertDir (conv : StateFile α → StateFile α) (dir : Directory α) : Directory α :=
  dir.map fun t => t.map fun t => t.map fun d => d.map fun d => d.map fun f => f.map conv

/-- `lazy_load` of a loader for a path that it supports. -/
def loadAs (conv : StateFile α → StateFile α) (disk : Disk α) (p : Place) (dims : String → Option Nat) :
    Format → Except LoadErr (List (String × Mat α))
  | .basic => match disk with
    | .torch file => basicLoad conv file p dims
    | _ => .error .other
  | .native => match disk with
    | .directory native _ _ => nativeLoad (convertDir conv native) p dims
    | _ => .error .corrupt
  | .safetensors => match disk with
    | .safe content => safeLoad conv [.file content] p dims
    | .directory _ safes _ => safeLoad conv safes p dims
    | _ => .error .other
  | .llama => match disk with
    | .directory _ _ consolidated => llamaLoad conv consolidated p dims
    | _ => .error .corrupt

inductive OpenErr where
  /-- `FileNotFoundError`. -/
  | missing
  | load (e : LoadErr)
  deriving DecidableEq

/-- The registered loaders, in order (lib.py:245-254). -/
def loaders : List Format := [.basic, .native, .safetensors, .llama]

/-- `_DelegatingModelCheckpointLoader.lazy_load` (delegating.py:46-63). -/
def loadCheckpoint (conv : StateFile α → StateFile α) (disk : Disk α) (p : Place) (dims : String → Option Nat) :
    Except OpenErr (List (String × Mat α)) :=
  match disk with
  | .nothing => .error .missing
  | disk =>
    match loaders.find? (supports disk) with
    | none => .error (.load .corrupt)
    | some format =>
      match loadAs conv disk p dims format with
      | .ok out => .ok out
      | .error e => .error (.load e)

end Fs2.Shard
