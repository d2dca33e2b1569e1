import Verif.Shard.Reshard

/-!
# The model sharder

Models `StandardModelSharder` with `LinearSharder` and `EmbeddingSharder` (src/fairseq2/sharder.py:63-202), the shard
specifications of Llama 4 (src/fairseq2/models/llama4/sharder.py:23-43) and what `StandardModelFamily` makes of them
(src/fairseq2/models/family.py:678-682, 710-720).

A module is written as a tree. It has a class and an identity; a module that is made by a sharder keeps the number of the
one it is made from. A sharder leaves the module that it is given as it is (`MoESharder` changes it in place), and no
module with children of its own is a child of two modules. Children that are `None` are left out.
-/

namespace Fs2.Sharder

/-- The class of a module, `type(module)`. -/
inductive Cls where
  | linear
  | standardEmbedding
  | moe
  | columnSharded (gatherOutput : Bool)
  | rowSharded (scatterInput : Bool)
  | vocabSharded
  | dimSharded
  | other (name : String)
  deriving DecidableEq, Repr

mutual

/-- A module with everything below it. -/
inductive Mod where
  | node (cls : Cls) (id : Nat) (kids : Kids)

/-- The entries of `_modules`. -/
inductive Kids where
  | nil
  | kid (name : String) (m : Mod) (rest : Kids)

end

def Mod.cls : Mod → Cls
  | .node c _ _ => c

def Mod.id : Mod → Nat
  | .node _ i _ => i

def Mod.kids : Mod → Kids
  | .node _ _ ks => ks

def Kids.toList : Kids → List (String × Mod)
  | .nil => []
  | .kid n m rest => (n, m) :: rest.toList

/-- `ShardSpec` (sharder.py:63-71). -/
structure Spec where
  dim : Int
  regionBoundary : Bool := false
  deriving DecidableEq, Repr

/-- An entry of the specifications: the text of the pattern, whether `re.match` finds it at the start of the names of a
path joined with dots, and the specification. -/
structure Entry where
  text : String
  hits : List String → Bool
  spec : Spec

/-- `ShardSpecError`, with the path of the module. -/
inductive Err where
  | notShardable (path : List String)
  | notValid (path : List String)
  deriving DecidableEq, Repr

/-- `_sharders` (sharder.py:149): what the sharder of a class, if there is one, makes of a module; `none` is a
`ShardSpecError`. -/
abbrev Sharders := Cls → Option (Spec → Mod → Option Mod)

/-- `LinearSharder.shard` (sharder.py:88-105). -/
def shardLinear (spec : Spec) (m : Mod) : Option Mod :=
  if spec.dim = 0 then some (.node (.columnSharded (!spec.regionBoundary)) m.id .nil)
  else if spec.dim = 1 then some (.node (.rowSharded (!spec.regionBoundary)) m.id .nil)
  else none

/-- `EmbeddingSharder.shard` (sharder.py:115-131). -/
def shardEmbedding (spec : Spec) (m : Mod) : Option Mod :=
  if spec.regionBoundary then none
  else if spec.dim = 0 then some (.node .vocabSharded m.id .nil)
  else if spec.dim = 1 then some (.node .dimSharded m.id .nil)
  else none

/-- The registered sharders (src/fairseq2/composition/lib.py:241-243). The sharder of mixtures of experts is a
parameter. -/
def standardSharders (moe : Spec → Mod → Option Mod) : Sharders
  | .standardEmbedding => some shardEmbedding
  | .linear => some shardLinear
  | .moe => some moe
  | _ => none

mutual

/-- `_do_shard` (sharder.py:166-202). -/
def shardMod (S : Sharders) (specs : List Entry) (path : List String) : Mod → Except Err Mod
  | .node c i ks =>
    match shardKids S specs path [] ks with
    | .ok ks => .ok (.node c i ks)
    | .error e => .error e

/-- The loop over `named_children()`, which gives a child that is there under several names once. `memo` holds the
children that were given, as they are then. -/
def shardKids (S : Sharders) (specs : List Entry) (path : List String) : List (Nat × Mod) → Kids → Except Err Kids
  | _, .nil => .ok .nil
  | memo, .kid name m rest =>
    match memo.lookup m.id with
    | some m' =>
      match shardKids S specs path memo rest with
      | .ok rest => .ok (.kid name m' rest)
      | .error e => .error e
    | none =>
      match specs.find? fun e => e.hits (path ++ [name]) with
      | some e =>
        match S m.cls with
        | none => .error (.notShardable (path ++ [name]))
        | some f =>
          match f e.spec m with
          | none => .error (.notValid (path ++ [name]))
          | some m' =>
            match shardKids S specs path ((m.id, m) :: memo) rest with
            | .ok rest => .ok (.kid name m' rest)
            | .error e => .error e
      | none =>
        match shardMod S specs (path ++ [name]) m with
        | .error e => .error e
        | .ok m' =>
          match shardKids S specs path ((m.id, m') :: memo) rest with
          | .ok rest => .ok (.kid name m' rest)
          | .error e => .error e

end

/-- `StandardModelSharder.shard` (sharder.py:152-164). -/
def shardModel (S : Sharders) (specs : List Entry) (tpSize : Nat) (m : Mod) : Except Err Mod :=
  if tpSize = 1 then .ok m else shardMod S specs [] m

/-- `.*\.a$`, for names without dots. -/
def endsWith (a : String) (path : List String) : Bool :=
  match path.reverse with
  | x :: _ :: _ => x == a
  | _ => false

/-- `.*\.a.b$`, for names without dots. That the dot between `a` and `b` stands for any character is left out. -/
def endsWith₂ (a b : String) (path : List String) : Bool :=
  match path.reverse with
  | y :: x :: _ :: _ => x == a && y == b
  | _ => false

/-- `get_llama4_shard_specs` (llama4/sharder.py:23-43). -/
def llama4Specs (shardEmbedDim : Bool) : List Entry :=
  [⟨".*\\.embed$", endsWith "embed", ⟨if shardEmbedDim then 1 else 0, false⟩⟩,
   ⟨".*\\.self_attn.q_proj$", endsWith₂ "self_attn" "q_proj", ⟨0, true⟩⟩,
   ⟨".*\\.self_attn.k_proj$", endsWith₂ "self_attn" "k_proj", ⟨0, true⟩⟩,
   ⟨".*\\.self_attn.v_proj$", endsWith₂ "self_attn" "v_proj", ⟨0, true⟩⟩,
   ⟨".*\\.self_attn.output_proj$", endsWith₂ "self_attn" "output_proj", ⟨1, true⟩⟩,
   ⟨".*\\.ffn.inner_proj$", endsWith₂ "ffn" "inner_proj", ⟨0, true⟩⟩,
   ⟨".*\\.ffn.gate_proj$", endsWith₂ "ffn" "gate_proj", ⟨0, true⟩⟩,
   ⟨".*\\.ffn.output_proj$", endsWith₂ "ffn" "output_proj", ⟨1, true⟩⟩,
   ⟨".*\\.ffn$", endsWith "ffn", ⟨-1, false⟩⟩,
   ⟨"^final_proj$", fun p => p == ["final_proj"], ⟨0, false⟩⟩]

/-- What `LLaMAFactory.create_model` makes (src/fairseq2/models/llama/factory.py:60-110), with the class of the embedding
that `create_embedding` takes (92-99). What else is in the frontend, the decoder and the final projection is a parameter. -/
def llama4Model (shardEmbedDim : Bool) (frontend : Kids) (decoder finalProj : Mod) : Mod :=
  .node (.other "TransformerLM") 0
    (.kid "decoder_frontend"
      (.node (.other "TransformerEmbeddingFrontend") 1
        (.kid "embed" (.node (if shardEmbedDim then .dimSharded else .vocabSharded) 2 .nil) frontend))
      (.kid "decoder" decoder (.kid "final_proj" finalProj .nil)))

/-- `_do_create_model` (family.py:710-720): the sharder is called if the gang of all ranks is larger than the one for data
parallelism; what it raises becomes an `InternalError`. -/
def createModel (S : Sharders) (specs : Option (List Entry)) (rootSize dpSize tpSize : Nat) (m : Mod) : Except Err Mod :=
  if rootSize ≠ dpSize then
    match specs with
    | some specs => shardModel S specs tpSize m
    | none => .ok m
  else .ok m

/-- The dimensions that the loader of a family with specifications gets (family.py:682): they are found by the text of
the pattern. A negative dimension is left out. -/
def specDims (specs : List Entry) (key : String) : Option Nat :=
  (specs.find? fun e => e.text == key).bind fun e => if e.spec.dim < 0 then none else some e.spec.dim.toNat

end Fs2.Sharder
