import Verif.Nn.Modules

/-!
# The dimensions along which parameters are sharded

Models `get_shard_dims` (src/fairseq2/nn/sharded.py:35-75). What a module that is `Sharded` says of its parameters
(`Sharded.get_shard_dims`) is a function of the module; it is empty for other modules. Dimensions are not negative.
-/

namespace Fs2.Shard

open Fs2.Mod

/-- The dictionary of the first loop (sharded.py:60-66): the first entry of a parameter is kept. Modules are given once,
parents first (`modules()`). -/
def collectDims (decl : Nat → List (Nat × Nat)) (t : Tree) : List (Nat × Nat) :=
  let all := (visit false "" t []).1.flatMap fun e =>
    match e.2 with
    | none => []
    | some m => decl m
  all.foldl (fun r s => if s.1 ∈ r.map (·.1) then r else r ++ [s]) []

/-- `get_shard_dims` (sharded.py:35-75). `named_parameters()` gives a parameter under its first name only. -/
def getShardDims {D : Type} (decl : Nat → List (Nat × Nat)) (st : St D) (t : Tree) : List (String × Nat) :=
  let dims := collectDims decl t
  (named st.params t).filterMap fun s => (dims.lookup s.2).map fun d => (s.1, d)

/-- `shard_dims.get(key)` of the dictionary, as `StandardModelFamily` passes it to the loader of a checkpoint
(src/fairseq2/models/family.py:573-580, src/fairseq2/model_checkpoint/common.py:107). -/
def shardDims {D : Type} (decl : Nat → List (Nat × Nat)) (st : St D) (t : Tree) (key : String) : Option Nat :=
  (getShardDims decl st t).lookup key

end Fs2.Shard
