/-!
# Where a process finds its rank, its cluster and its device

`WorldInfo.from_env` (/repo/src/fairseq2/world_info.py:33-81) with the functions of /repo/src/fairseq2/utils/env.py:83-136,
`StandardClusterResolver.resolve` (/repo/src/fairseq2/cluster.py:39-65) and `_DefaultDeviceDetector`
(/repo/src/fairseq2/device.py:178-246).

Simplified: Python's `int(s)` and PyTorch's `Device(s)` are functions of the text that may fail; an environment does not change
during a call. What SLURM sets is not modelled.
-/

namespace Fs2.World

/-- An environment: the values of the variables, with `int` of a text (`none` for `ValueError`). -/
structure Environment where
  get : String → Option String
  parseInt : String → Option Int

/-- The exceptions; `EnvironmentVariableError` names the variable. -/
inductive Exc
  | variable (name : String)
  | localRankOutOfRange (rank numDevices : Nat)
  | clusterNotKnown (name : String)
deriving DecidableEq, Repr

/-- `_get_rank` (env.py:99-116). -/
def getRank (env : Environment) (name : String) : Except Exc (Option Nat) :=
  match env.get name with
  | none => .ok none
  | some s =>
    match env.parseInt s with
    | none => .error (.variable name)
    | some v => if v < 0 then .error (.variable name) else .ok (some v.toNat)

/-- `_get_world_size` (env.py:119-136). -/
def getWorldSize (env : Environment) (name : String) : Except Exc (Option Nat) :=
  match env.get name with
  | none => .ok none
  | some s =>
    match env.parseInt s with
    | none => .error (.variable name)
    | some v => if v < 1 then .error (.variable name) else .ok (some v.toNat)

/-- One half of `from_env` (world_info.py:35-56 and 58-79): both variables are read, then compared. -/
def readPair (env : Environment) (rankName sizeName : String) : Except Exc (Nat × Nat) :=
  match getRank env rankName with
  | .error e => .error e
  | .ok rank =>
    match getWorldSize env sizeName with
    | .error e => .error e
    | .ok size =>
      match rank with
      | some r =>
        match size with
        | none => .error (.variable sizeName)
        | some n => if r ≥ n then .error (.variable rankName) else .ok (r, n)
      | none =>
        match size with
        | some _ => .error (.variable rankName)
        | none => .ok (0, 1)

/-- `WorldInfo` (world_info.py:26-31). -/
structure WorldInfo where
  rank : Nat
  size : Nat
  localRank : Nat
  localSize : Nat
deriving DecidableEq, Repr

/-- `WorldInfo.from_env` (world_info.py:33-81). -/
def WorldInfo.fromEnv (env : Environment) : Except Exc WorldInfo :=
  match readPair env "RANK" "WORLD_SIZE" with
  | .error e => .error e
  | .ok (rank, size) =>
    match readPair env "LOCAL_RANK" "LOCAL_WORLD_SIZE" with
    | .error e => .error e
    | .ok (localRank, localSize) => .ok ⟨rank, size, localRank, localSize⟩

/-! ## Clusters -/

/-- A handler: its name, what tells handlers of the same name apart, and if it supports the current cluster. -/
structure Handler where
  cluster : String
  tag : Nat
  supports : Bool
deriving DecidableEq, Repr

/-- Insertion into a dictionary: a key that is there keeps its place and gets the new value. -/
def place (h : Handler) : List Handler → List Handler
  | [] => [h]
  | x :: xs => if x.cluster = h.cluster then h :: xs else x :: place h xs

/-- `{h.cluster: h for h in handlers}` (cluster.py:43). -/
def handlerDict (handlers : List Handler) : List Handler := handlers.foldl (fun d h => place h d) []

/-- `resolve` (cluster.py:45-65); `none` is the handler that does nothing. -/
def resolve (env : Environment) (handlers : List Handler) (name : String) : Except Exc (Option Handler) :=
  if name = "none" then .ok none
  else if name = "auto" then
    if (env.get "RANK").isSome && (env.get "WORLD_SIZE").isSome then .ok none
    else .ok ((handlerDict handlers).find? fun h => h.supports)
  else
    match (handlerDict handlers).find? (fun h => h.cluster == name) with
    | none => .error (.clusterNotKnown name)
    | some h => .ok (some h)

/-! ## Devices -/

/-- A device: one that `FAIRSEQ2_DEVICE` names, a CUDA device by its index among the visible ones, or the CPU. -/
inductive Device
  | named (text : String)
  | cuda (index : Nat)
  | cpu
deriving DecidableEq, Repr

/-- The host: if CUDA is available, the number of its visible devices, and the texts that `Device(s)` accepts. -/
structure Host where
  cudaAvailable : Bool
  deviceCount : Nat
  validDevice : String → Bool

/-- `_get_device_index` (device.py:235-246) for a positive number of devices. -/
def deviceIndex (env : Environment) (numDevices : Nat) : Except Exc Nat :=
  match getRank env "LOCAL_RANK" with
  | .error e => .error e
  | .ok none => .ok 0
  | .ok (some r) => if r ≥ numDevices then .error (.localRankOutOfRange r numDevices) else .ok r

/-- Is `CUDA_VISIBLE_DEVICES` a number (device.py:215-226)? -/
def singleDevice (env : Environment) : Bool :=
  match env.get "CUDA_VISIBLE_DEVICES" with
  | none => false
  | some s => (env.parseInt s).isSome

/-- `_get_default_cuda_device` (device.py:207-233). -/
def cudaDevice (env : Environment) (host : Host) : Except Exc (Option Device) :=
  if host.cudaAvailable = false then .ok none
  else if host.deviceCount = 0 then .ok none
  else
    if singleDevice env then .ok (some (.cuda 0))
    else
      match deviceIndex env host.deviceCount with
      | .error e => .error e
      | .ok idx => .ok (some (.cuda idx))

/-- `detect` (device.py:183-205). -/
def detect (env : Environment) (host : Host) : Except Exc Device :=
  match env.get "FAIRSEQ2_DEVICE" with
  | some s => if host.validDevice s then .ok (.named s) else .error (.variable "FAIRSEQ2_DEVICE")
  | none =>
    match cudaDevice env host with
    | .error e => .error e
    | .ok none => .ok .cpu
    | .ok (some d) => .ok d

end Fs2.World
