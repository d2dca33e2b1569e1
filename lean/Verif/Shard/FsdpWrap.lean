/-!
# Wrapping a model with FSDP

`to_fsdp` (/repo/src/fairseq2/nn/fsdp/unified.py:34-90) with both versions, `to_fsdp1` (fsdp1.py:50-176) and `to_fsdp2`
(fsdp2.py:60-171), as `_FSDPModelWrapper.wrap` (/repo/src/fairseq2/recipe/internal/data_parallel.py:135-207) calls it.

Simplified: a model is some stacks of layers and a root, each with its own parameters; of a wrapped part only its sharding, where
its parameters come from and whether they are set in the process are kept. Data types, offloading and batch normalization are
left out. What PyTorch does is given by its documentation.
-/

namespace Fs2.Fsdp

/-- A part of a model that can be wrapped: the layer of a stack, a stack, or the whole model. -/
inductive Part
  | layer (stack idx : Nat)
  | stack (stack : Nat)
  | root
deriving DecidableEq, Repr

/-- `FSDPGranularity` (/repo/src/fairseq2/recipe/config.py:292-296); any other text is `other`. -/
inductive Granularity
  | layer
  | stack
  | model
  | other
deriving DecidableEq, Repr

/-- The two versions, and any other text. -/
inductive Version
  | v1
  | v2
  | other
deriving DecidableEq, Repr

/-- `ShardingStrategy` of PyTorch, as far as used (fsdp1.py:69-83). -/
inductive Strategy
  | fullShard
  | shardGradOp
  | hybridShard
  | hybridShardZero2
deriving DecidableEq, Repr

/-- The exceptions. -/
inductive WrapExc
  | notSupported
  | value
deriving DecidableEq, Repr

/-- A call of the wrapper: the part and `reshard_after_forward`. -/
structure Call where
  part : Part
  reshard : Option Bool
deriving DecidableEq, Repr

/-- `apply_layerwise_fsdp` (/repo/src/fairseq2/models/utils/fsdp.py:14-22) for the stack `s` of `n` layers. -/
def applyLayerwise (s n : Nat) : List Call :=
  (List.range n).map fun idx => ⟨.layer s idx, if idx < n - 1 then none else some false⟩

/-- The calls of `apply_fsdp` of a family for stacks of the given lengths (models/transformer/fsdp.py:17-37,
models/transformer_lm/fsdp.py:17-34), and of `apply_fsdp` of the recipe (data_parallel.py:141-147) for the model as a whole. -/
def applierCalls (stacks : List Nat) : Granularity → Except WrapExc (List Call)
  | .model => .ok [⟨.root, some false⟩]
  | .layer => .ok ((List.range stacks.length).flatMap fun s => applyLayerwise s (stacks.getD s 0))
  | .stack => .ok ((List.range stacks.length).map fun s => ⟨.stack s, none⟩)
  | .other => .error .notSupported

/-- The calls that wrap a model: those of the applier, and the one for the root if the applier did not wrap it (fsdp1.py:153-156,
fsdp2.py:160-163). -/
def wrapCalls (stacks : List Nat) (g : Granularity) : Except WrapExc (List Call) :=
  match applierCalls stacks g with
  | .error e => .error e
  | .ok calls => if g = .model then .ok calls else .ok (calls ++ [⟨.root, some false⟩])

/-- What the process holds of the parameters of a module before it is wrapped: values on a real device, or none on the meta
device. Parameters on several devices are `mixed`. -/
inductive Held
  | real
  | onMeta
  | mixed
deriving DecidableEq, Repr

/-- What `to_fsdp` is called with, besides the model, in one process. -/
structure Env where
  sdpSize : Nat
  rdpSize : Nat
  dpRank : Nat
  held : Held
  reshardAfterForward : Bool
  broadcastState : Bool
  skipInit : Bool
deriving DecidableEq, Repr

/-- `FSDPParameterInitializer(device, skip_init)`: only its `skip_init` matters here. -/
abbrev Initializer := Option Bool

/-- A wrapped part. `reshards` says if the gathered parameters are freed after the forward pass, `replicated` if the shards are
replicated over the other dimension; `initializer` is the one that runs for the part, `broadcast` if the state of rank 0 is taken. -/
structure Wrapped where
  part : Part
  reshards : Bool
  replicated : Bool
  initializer : Initializer
  broadcast : Bool
deriving DecidableEq, Repr

/-- Does a strategy free the gathered parameters after the forward pass? By the documentation of PyTorch's `ShardingStrategy`;
the root is never freed (`_post_forward_reshard` of FSDP1). -/
def Strategy.reshards (st : Strategy) (part : Part) : Bool :=
  match part with
  | .root => false
  | _ =>
    match st with
    | .fullShard => true
    | .hybridShard => true
    | .shardGradOp => false
    | .hybridShardZero2 => false

/-- Does a strategy replicate the shards? -/
def Strategy.replicates : Strategy → Bool
  | .fullShard => false
  | .shardGradOp => false
  | .hybridShard => true
  | .hybridShardZero2 => true

/-- The strategy of the module (fsdp1.py:69-83). -/
def defaultStrategy (e : Env) : Strategy :=
  if e.rdpSize > 1 then
    if e.reshardAfterForward then .hybridShard else .hybridShardZero2
  else
    if e.reshardAfterForward then .fullShard else .shardGradOp

/-- The strategy of a part, in `wrap` (fsdp1.py:121-133). -/
def partStrategy (e : Env) : Option Bool → Strategy
  | none => defaultStrategy e
  | some flag =>
    if flag then
      if e.rdpSize = 1 then .shardGradOp else .hybridShardZero2
    else
      if e.rdpSize = 1 then .fullShard else .hybridShard

/-- Parameter initialization (fsdp1.py:85-103, fsdp2.py:98-116). -/
def initializerOf (e : Env) : Except WrapExc Initializer :=
  match e.held with
  | .mixed => .error .value
  | .real => .ok none
  | .onMeta =>
    if e.broadcastState then
      if e.dpRank = 0 then .error .value else .ok (some true)
    else .ok (some e.skipInit)

/-- `to_fsdp1` (fsdp1.py:50-176). -/
def toFsdp1 (e : Env) (stacks : List Nat) (g : Granularity) : Except WrapExc (List Wrapped) :=
  if e.sdpSize = 1 then .error .notSupported
  else
    match initializerOf e with
    | .error x => .error x
    | .ok init =>
      match wrapCalls stacks g with
      | .error x => .error x
      | .ok calls => .ok (calls.map fun c =>
          ⟨c.part, (partStrategy e c.reshard).reshards c.part, (partStrategy e c.reshard).replicates, init, e.broadcastState⟩)

/-- `to_fsdp2` (fsdp2.py:60-171). `fully_shard` frees the parameters after the forward pass if told so; a mesh with two
dimensions replicates (79-96). -/
def toFsdp2 (e : Env) (stacks : List Nat) (g : Granularity) : Except WrapExc (List Wrapped) :=
  if e.sdpSize = 1 then .error .notSupported
  else
    match initializerOf e with
    | .error x => .error x
    | .ok init =>
      match wrapCalls stacks g with
      | .error x => .error x
      | .ok calls => .ok (calls.map fun c =>
          ⟨c.part, c.reshard.getD e.reshardAfterForward, decide (e.rdpSize > 1), init, e.broadcastState⟩)

/-- `to_fsdp` (unified.py:66-90). The call does not pass `skip_init` on, so that the version uses its default, `False`. -/
def toFsdp (v : Version) (e : Env) (stacks : List Nat) (g : Granularity) : Except WrapExc (List Wrapped) :=
  match v with
  | .v1 => toFsdp1 { e with skipInit := false } stacks g
  | .v2 => toFsdp2 { e with skipInit := false } stacks g
  | .other => .error .value

/-- The configuration of a recipe, with the gangs and what the process holds. -/
structure RunConfig where
  version : Version
  granularity : Granularity
  reshardAfterForward : Bool
  sdpSize : Nat
  rdpSize : Nat
  dpRank : Nat
  held : Held
  hasCheckpoint : Bool
deriving DecidableEq, Repr

/-- `_FSDPModelWrapper.wrap` (data_parallel.py:135-207) for a family that supports FSDP. -/
def wrapModel (c : RunConfig) (stacks : List Nat) : Except WrapExc (List Wrapped) :=
  toFsdp (if c.version = .v1 then .v1 else .v2)
    ⟨c.sdpSize, c.rdpSize, c.dpRank, c.held, c.reshardAfterForward, !c.hasCheckpoint, c.hasCheckpoint⟩ stacks c.granularity

/-! ## The parameter initializer -/

/-- Modules are numbered so that the children of a module have smaller numbers; a module may be the child of several. -/
structure Net where
  kids : Nat → List Nat
  lower : ∀ m, ∀ c ∈ kids m, c < m

/-- `FSDPParameterInitializer.__call__` (common.py:68-84): the modules that have been moved and initialized, in order; the memo
`_module_memo` holds the same modules. -/
def Net.initialize (n : Net) (m : Nat) (done : List Nat) : List Nat :=
  if m ∈ done then done
  else ((n.kids m).attach.foldl (fun acc c => n.initialize c.1 acc) done) ++ [m]
termination_by m
decreasing_by exact n.lower m c.1 c.2

/-- A sequence of calls of the same initializer, as the wrapper of FSDP2 makes them (fsdp2.py:142-143). -/
def Net.initializeAll (n : Net) : List Nat → List Nat → List Nat
  | [], done => done
  | m :: ms, done => n.initializeAll ms (n.initialize m done)

/-! ## State dictionaries of either version -/

/-- A module, by how it is wrapped. -/
inductive Kind
  | fsdp1
  | fsdp2
  | plain
deriving DecidableEq, Repr

/-- How a call ended. -/
inductive Ended
  | returned
  | typeError
  | loadError
deriving DecidableEq, Repr

/-- An entry of the state dictionary of a wrapped module in this process: a sharded tensor with its local part (`none` if this
process has no part), or something kept whole. -/
inductive Entry (α : Type)
  | sharded (localPart : Option α)
  | whole (value : α)
deriving DecidableEq, Repr

/-- An entry of a local state dictionary: a value, or the empty tensor of an empty part (fsdp1.py:195-197). -/
abbrev LocalEntry (α : Type) := Option α

/-- A module: its entries by name, in order. -/
abbrev State (α : Type) := List (String × Entry α)

/-- `fsdp1_local_state_dict` (fsdp1.py:179-204) and `fsdp2_local_state_dict` (fsdp2.py:174-187). -/
def localState {α : Type} (st : State α) : List (String × LocalEntry α) :=
  st.map fun kv =>
    match kv.2 with
    | .sharded p => (kv.1, p)
    | .whole v => (kv.1, some v)

/-- The value of a key in a dictionary. -/
def find {β : Type} (k : String) (d : List (String × β)) : Option β := (d.find? fun kv => kv.1 == k).map Prod.snd

/-- One entry after `fsdp1_load_local_state_dict` (fsdp1.py:220-234) or `fsdp2_load_local_state_dict` (fsdp2.py:195-203): a part
that the process does not have stays, a part that it has and the rest are copied. `none` if the key is missing (for a part that
the process does not have, FSDP2 would ask for the key as well). Copying an empty
tensor into a part, or into a value kept whole, fails in PyTorch for different shapes. -/
def loadEntry {α : Type} (d : List (String × LocalEntry α)) (kv : String × Entry α) : Option (String × Entry α) :=
  match kv.2 with
  | .sharded none => some kv
  | .sharded (some _) =>
    match find kv.1 d with
    | some (some v) => some (kv.1, .sharded (some v))
    | _ => none
  | .whole _ =>
    match find kv.1 d with
    | some (some v) => some (kv.1, .whole v)
    | _ => none

/-- Loading a local state dictionary, in strict mode (nn/utils/module.py:445-474): every key of the module has to be there, and no
other. When it fails the state is not followed further. -/
def loadLocal {α : Type} (st : State α) (d : List (String × LocalEntry α)) : Option (State α) :=
  if d.all fun kv => (st.map Prod.fst).contains kv.1 then st.mapM (loadEntry d) else none

/-- `fsdp_load_local_state_dict` (unified.py:103-110): it does not return after it has loaded, so that the calls reach the
`raise` in the end. The state of the module afterwards, and how the call ended. -/
def fsdpLoad {α : Type} (kind : Kind) (st : State α) (d : List (String × LocalEntry α)) : State α × Ended :=
  match kind with
  | .plain => (st, .typeError)
  | .fsdp1 =>
    match loadLocal st d with
    | none => (st, .loadError)
    | some st' => (st', .typeError)
  | .fsdp2 =>
    match loadLocal st d with
    | none => (st, .loadError)
    | some st' => (st', .typeError)

/-- `load_state_dict` of the facades (/repo/src/fairseq2/nn/data_parallel.py:141-144, 184-187), which call the function of the
version. -/
def facadeLoad {α : Type} (st : State α) (d : List (String × LocalEntry α)) : State α × Ended :=
  match loadLocal st d with
  | none => (st, .loadError)
  | some st' => (st', .returned)

end Fs2.Fsdp
