/-
Model of asset cards, of the asset store and of the names of assets.

Sources: /repo/src/fairseq2/assets/card.py, /repo/src/fairseq2/assets/store.py,
/repo/src/fairseq2/assets/metadata_provider.py.

Strings are lists of characters. Metadata are dictionaries with string keys; a value is a string, a path
(`__base_path__`) or anything else. The providers are those that hold their metadata in memory
(`CachedAssetMetadataProvider`), which return copies; loading YAML files is not modelled beyond the treatment of
the names. White space is what `Char.isWhitespace` says.
-/

namespace Fs2.Asset

abbrev Str := List Char

/-- A value of a field. -/
inductive Val where
  | str (s : Str)
  | path (p : Str)
  | null
  | other (n : Nat)
deriving DecidableEq

/-- A dictionary. -/
abbrev Meta := List (Str × Val)

/-- `d.get(key)`. -/
def lookup {α : Type} (key : Str) : List (Str × α) → Option α
  | [] => none
  | (k, v) :: es => if k = key then some v else lookup key es

/-- `d[key] = v`. -/
def put (key : Str) (v : Val) : Meta → Meta
  | [] => [(key, v)]
  | (k, x) :: es => if k = key then (k, v) :: es else (k, x) :: put key v es

/-- `d.update(other)`. -/
def update (m : Meta) (other : Meta) : Meta := other.foldl (fun m e => put e.1 e.2 m) m

/-- `CachedAssetMetadataProvider` (metadata_provider.py:54-81). -/
structure Provider where
  source : Str
  metadata : List (Str × Meta)

/-- The exceptions: an asset that does not exist, a base card that does not exist, a field that does not exist,
a field that is no URI, and errors in the metadata. -/
inductive Err where
  | notFound (name : Str)
  | noBase (base leaf : Str)
  | noField (card field : Str)
  | noUri (card field : Str)
  | metadata (source : Str)
deriving DecidableEq

/-- `StandardAssetStore`: its environments and providers. -/
structure Store where
  envs : List Str
  providers : List Provider

/-- `s.strip()`. -/
def strip (s : Str) : Str := ((s.dropWhile Char.isWhitespace).reverse.dropWhile Char.isWhitespace).reverse

/-- The environments of a store (store.py:55-60). -/
def storeEnvs (default : Option Str) : List Str :=
  match default with
  | none => ["user".toList]
  | some env => if strip env = [] then ["user".toList] else ["user".toList, strip env]

/-- The checks of the names of one provider against those before it (store.py:67-83). -/
def checkNames (before : List Provider) (p : Provider) : List (Str × Meta) → Except Err Unit
  | [] => .ok ()
  | (name, _) :: es =>
    if name = [] then .error (.metadata p.source)
    else if before.any fun q => (lookup name q.metadata).isSome then .error (.metadata p.source)
    else checkNames before p es

/-- The loop over the providers (store.py:66-85). -/
def addProviders (before : List Provider) : List Provider → Except Err (List Provider)
  | [] => .ok before
  | p :: ps => do
    checkNames before p p.metadata
    addProviders (before ++ [p]) ps

/-- `StandardAssetStore.__init__` (store.py:49-85). -/
def create (providers : List Provider) (default : Option Str) : Except Err Store := do
  let ps ← addProviders [] providers
  return ⟨storeEnvs default, ps⟩

/-- The key under which a provider's name is put into the metadata. -/
def sourceKey : Str := "__source__".toList

/-- `_maybe_get_metadata` (store.py:146-161). The `InternalError` at the end cannot happen: the names of the
store are the names of its providers. -/
def getMeta (key : Str) : List Provider → Option Meta
  | [] => none
  | p :: ps =>
    match lookup key p.metadata with
    | some m => some (put sourceKey (.str p.source) m)
    | none => getMeta key ps

/-- `f"{name}@{env}"`. -/
def tagged (name env : Str) : Str := name ++ '@' :: env

/-- The loop over the environments (store.py:130-135). -/
def applyEnvs (ps : List Provider) (name : Str) : List Str → Meta → Meta
  | [], m => m
  | env :: envs, m =>
    match getMeta (tagged name env) ps with
    | some em => update m em
    | none => applyEnvs ps name envs m

/-- `AssetCard` (card.py:23-32). -/
inductive Card where
  | mk (name : Str) (metadata : Meta) (base : Option Card)

/-- The name of the base card (store.py:138-142). -/
def baseName (m : Meta) : Option Str :=
  match lookup "base".toList m with
  | some (.str b) => some b
  | _ => none

/-- `_do_retrieve_card` (store.py:118-144). `none` at the outside means that it does not end. -/
def doRetrieve (ps : List Provider) (name leaf : Str) (envs : List Str) :
    Option (Except Err (Option Card)) :=
  match getMeta (tagged name []) ps with
  | none => if name ≠ leaf then some (.error (.noBase name leaf)) else some (.ok none)
  | some g =>
    match baseName (applyEnvs ps name envs g) with
    | none => some (.ok (some (.mk name (applyEnvs ps name envs g) none)))
    | some b =>
      do
        let r ← doRetrieve ps b leaf envs
        some (r.map fun base => some (.mk name (applyEnvs ps name envs g) base))
partial_fixpoint

/-- `name.split("@", maxsplit=1)`. -/
def splitName : Str → Str × Option Str
  | [] => ([], none)
  | c :: s => if c = '@' then ([], some s) else ((c :: (splitName s).1), (splitName s).2)

/-- The environments that a name asks for (store.py:99-110). -/
def askedEnvs (S : Store) : Option Str → List Str
  | none => S.envs
  | some env => if strip env = [] then [] else [strip env]

/-- `maybe_retrieve_card` (store.py:95-116). -/
def maybeRetrieve (S : Store) (name : Str) : Option (Except Err (Option Card)) :=
  let base := strip (splitName name).1
  if base = [] then some (.ok none)
  else doRetrieve S.providers base base (askedEnvs S (splitName name).2)

/-- `retrieve_card` (store.py:87-93). -/
def retrieve (S : Store) (name : Str) : Option (Except Err Card) :=
  (maybeRetrieve S name).map fun r =>
    match r with
    | .error e => .error e
    | .ok none => .error (.notFound name)
    | .ok (some card) => .ok card

namespace Card

/-- `name` (card.py:72-74). -/
def name : Card → Str
  | .mk name _ _ => name

/-- `metadata` (card.py:76-78). -/
def metadata : Card → Meta
  | .mk _ m _ => m

/-- `maybe_get_field` (card.py:43-56): the value. -/
def maybeField (field : Str) : Card → Option Val
  | .mk _ m none => lookup field m
  | .mk _ m (some base) =>
    match lookup field m with
    | some v => some v
    | none => maybeField field base

/-- `field` (card.py:34-41). -/
def field (card : Card) (field : Str) : Except Err Val :=
  match card.maybeField field with
  | some v => .ok v
  | none => .error (.noField card.name field)

/-- `has_field` (card.py:58-67). -/
def hasField (field : Str) : Card → Bool
  | .mk _ m none => (lookup field m).isSome
  | .mk _ m (some base) => (lookup field m).isSome || hasField field base

end Card

/-- A URI, or the URI of a path. -/
inductive Uri where
  | uri (s : Str)
  | file (path : Str)
deriving DecidableEq

/-- What `as_uri` takes from elsewhere: whether a string is a URI, whether a path is absolute, and joining
paths. -/
structure Paths where
  isUri : Str → Bool
  isAbsolute : Str → Bool
  join : Str → Str → Str

/-- `as_uri` of a field with this value (card.py:104-127): a relative path is taken relative to the directory
of the card that was asked. -/
def asUri (P : Paths) (card : Card) (field : Str) (v : Val) : Except Err Uri :=
  match v with
  | .str s =>
    if P.isUri s then .ok (.uri s)
    else if P.isAbsolute s then .ok (.file s)
    else match lookup "__base_path__".toList card.metadata with
      | some (.path dir) => .ok (.file (P.join dir s))
      | _ => .error (.noUri card.name field)
  | _ => .error (.noUri card.name field)

/-- `canonicalize_asset_name` (metadata_provider.py:352-366). The split is at every `@`. -/
def canonicalize (name : Str) : Option Str :=
  match splitName name with
  | (n, none) => if strip n = [] then none else some (strip n ++ ['@'])
  | (n, some env) => if '@' ∈ env ∨ strip n = [] then none else some (strip n ++ '@' :: strip env)

/-- `sanitize_base_asset_name` (metadata_provider.py:369-377). -/
def sanitizeBase (name : Str) : Option Str :=
  if '@' ∈ name ∨ strip name = [] then none else some (strip name)

/-- The treatment of the base name of one asset: `store` says whether the sanitized name is written back, as it
is for files (metadata_provider.py:330-343), but not for metadata in memory (metadata_provider.py:267-280). -/
def treatBase (store : Bool) (source : Str) (m : Meta) : Except Err Meta :=
  match lookup "base".toList m with
  | none => .ok m
  | some .null => .ok m
  | some (.str b) =>
    match sanitizeBase b with
    | none => .error (.metadata source)
    | some b => .ok (if store then put "base".toList (.str b) m else m)
  | some _ => .error (.metadata source)

/-- The loop of `load_in_memory_asset_metadata` (metadata_provider.py:242-282), names given separately. -/
def loadInMemory (source : Str) : List (Str × Meta) → List (Str × Meta) → Except Err Provider
  | [], out => .ok ⟨source, out⟩
  | (name, m) :: es, out =>
    match canonicalize name with
    | none => .error (.metadata source)
    | some n =>
      if (lookup n out).isSome then .error (.metadata source)
      else do
        let m ← treatBase false source m
        loadInMemory source es (out ++ [(n, m)])

end Fs2.Asset
