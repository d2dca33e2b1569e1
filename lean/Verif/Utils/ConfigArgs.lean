import Verif.Utils.Config

/-!
# Configuration overrides on the command line

Models `ConfigAction` (src/fairseq2/utils/argparse.py:27-125), the action behind `--config`, and the loop over
the overrides in `_RecipeConfigLoader.load` (src/fairseq2/recipe/cli.py:466-475).

Strings are lists of characters; white space is what `Char.isWhitespace` says. YAML is a function from texts to
values. Nodes of the dictionary that is built are only reached from their parents, so that mutating one is
replacing it.
-/

namespace Fs2.Config

abbrev Str := List Char

/-- What one item says about a path: `get_parent_node` gives the last key apart from the others. -/
inductive What where
  | del
  | set (v : Val)

structure Item where
  init : List String
  last : String
  what : What

/-- `s.lstrip()`. -/
def lstrip (s : Str) : Str := s.dropWhile Char.isWhitespace

/-- `s.rstrip()`. -/
def rstrip (s : Str) : Str := (s.reverse.dropWhile Char.isWhitespace).reverse

/-- `s.split(sep)`, never empty. -/
def splitOn (sep : Char) : Str → List Str
  | [] => [[]]
  | c :: s =>
    if c = sep then [] :: splitOn sep s
    else
      match splitOn sep s with
      | [] => [[c]]
      | w :: ws => (c :: w) :: ws

/-- `s.split("=", maxsplit=1)`, if that gives two parts. -/
def splitFirst (sep : Char) : Str → Option (Str × Str)
  | [] => none
  | c :: s =>
    if c = sep then some ([], s)
    else (splitFirst sep s).map fun r => (c :: r.1, r.2)

/-- `path.split(".")`, as all keys but the last one and the last one. -/
def pathKeys (path : Str) : List String × String :=
  let keys := (splitOn '.' path).map String.ofList
  (keys.dropLast, keys.getLastD "")

/-- One item (argparse.py:70-111); `none` is an `ArgumentError`. -/
def parseItem (yaml : Str → Option Val) (item : Str) : Option Item :=
  let item := lstrip (rstrip item)
  if "del:".toList.isPrefixOf item then
    let path := item.drop 4
    if path.contains '=' then none
    else some ⟨(pathKeys path).1, (pathKeys path).2, .del⟩
  else do
    let (path, value) ← splitFirst '=' item
    let v ← yaml (lstrip value)
    let path := rstrip path
    let path := if "set:".toList.isPrefixOf path then path.drop 4 else path
    some ⟨(pathKeys path).1, (pathKeys path).2, .set v⟩

/-- The walk of `get_parent_node` (argparse.py:52-67), with `f` done to the node it ends in. -/
def within (f : Entries → Entries) : List String → Entries → Entries
  | [], node => f node
  | k :: ks, node => put (.str k) (.map (within f ks (entriesOf (lookup (.str k) node)))) node

/-- `del_keys` (argparse.py:80-85). -/
def delList (node : Entries) : List Val :=
  match lookup delKey node with
  | some (.list l) => l
  | _ => []

/-- What an item does to the node (argparse.py:80-87, 106-113). -/
def touch (it : Item) (node : Entries) : Entries :=
  match it.what with
  | .del => put delKey (.list (delList node ++ [.str it.last])) node
  | .set v => put setKey (.map (put (.str it.last) v (entriesOf (lookup setKey node)))) node

/-- One round of the loop. -/
def addItem (data : Entries) (it : Item) : Entries := within (touch it) it.init data

/-- `data` after the loop (argparse.py:50, 69-113). -/
def itemsData (items : List Item) : Entries := items.foldl addItem []

/-- One `--config` option with its items. -/
def parseOption (yaml : Str → Option Val) (values : List Str) : Option Val := do
  let items ← values.mapM (parseItem yaml)
  return .map (itemsData items)

/-- The loop over the options (cli.py:466-475). -/
def applyOptions (config : Val) : List Val → Option Val
  | [] => some config
  | o :: os => do
    let c ← merge config o
    applyOptions c os

end Fs2.Config
