/-
Model of the merge of configurations.

Source: /repo/src/fairseq2/utils/config.py:39-121.

Configurations are the unstructured values that are read from YAML: dictionaries, lists and everything else.
A dictionary is the list of its entries in the order of insertion; assignments keep the place of a key that
exists. Values are immutable here, so `deepcopy` is the identity. The path, which is only used in messages,
is left out.
-/

namespace Fs2.Config

/-- Keys: strings, or anything else that is hashable. -/
inductive Key where
  | str (s : String)
  | other (n : Int)
deriving DecidableEq

/-- Unstructured values. -/
inductive Val where
  | null
  | str (s : String)
  | num (n : Int)
  | list (l : List Val)
  | map (entries : List (Key × Val))

abbrev Entries := List (Key × Val)

/-- `mapping.get(key)`. -/
def lookup (key : Key) : Entries → Option Val
  | [] => none
  | (k, v) :: es => if k = key then some v else lookup key es

/-- `mapping[key] = value`. -/
def put (key : Key) (value : Val) : Entries → Entries
  | [] => [(key, value)]
  | (k, v) :: es => if k = key then (k, value) :: es else (k, v) :: put key value es

def delKey : Key := .str "_del_"
def setKey : Key := .str "_set_"

/-- `isinstance(value, str)`, with the string as a key. -/
def asKey : Val → Option Key
  | .str s => some (.str s)
  | _ => none

/-- The entries of a mapping, or those of `{}` for anything else (config.py:44-45, 94-96). -/
def entriesOf : Option Val → Entries
  | some (.map es) => es
  | _ => []

/-- The keys to delete (config.py:60-79): `none` for the `TypeError`. -/
def delKeys (source : Entries) : Option (List Key) :=
  match lookup delKey source with
  | none => some []
  | some .null => some []
  | some (.list l) => l.mapM asKey
  | some _ => none

/-- One key of `_set_` (config.py:113-121). -/
def setOne (out : Entries) : Key × Val → Option Entries
  | (.str s, v) => some (put (.str s) v out)
  | (.other _, _) => none

/-- The part of `_set_` (config.py:104-121). -/
def applySet (source output : Entries) : Option Entries :=
  match lookup setKey source with
  | none => some output
  | some .null => some output
  | some (.map es) => es.foldlM setOne output
  | some _ => none

mutual

/-- One value of the overrides (config.py:89-100), merged into the value that is there. -/
def mergeVal (target : Option Val) : Val → Option Val
  | .null => some .null
  | .str s => some (.str s)
  | .num n => some (.num n)
  | .list l => some (.list l)
  | .map es => do
    -- `_merge_map`
    let ignored ← delKeys es
    let output ← mergeEntries ((entriesOf target).filter fun e => e.1 ∉ ignored) es
    let output ← applySet es output
    return .map output

/-- The loop over the overrides (config.py:85-102). -/
def mergeEntries (output : Entries) : Entries → Option Entries
  | [] => some output
  | e :: es => do
    let output ← mergeEntry output e
    mergeEntries output es

/-- One round of the loop. -/
def mergeEntry (output : Entries) : Key × Val → Option Entries
  | (key, value) =>
    if key = delKey ∨ key = setKey then some output
    else do
      let v ← mergeVal (lookup key output) value
      return put key v output

end

/-- `merge` (config.py:41-47): overrides that are not a mapping replace the configuration. -/
def merge (config overrides : Val) : Option Val := mergeVal (some config) overrides

end Fs2.Config
