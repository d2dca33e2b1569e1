/-
Model of the tag that names the output directory of a run.

Source: /repo/src/fairseq2/recipe/internal/sweep_tag.py.

Strings are lists of characters. The configuration is given in its unstructured form; a number is given by the
text that `f"{obj}"` makes of it; keys of dictionaries are strings; objects of other types, for which
`_collect_tags` raises an `InternalError`, do not come up in unstructured values. The set of word characters of
regular expressions and the first eight hexadecimal digits of the SHA-1 of a text are parameters. The
placeholders named in the error message are not sorted.
-/

namespace Fs2.Sweep

abbrev Str := List Char

/-- An unstructured configuration. -/
inductive Cfg where
  | null
  | str (s : Str)
  | bool (b : Bool)
  | num (text : Str)
  | list (es : List Cfg)
  | dict (es : List (Str × Cfg))

/-- `tags`, in the order of insertion. -/
abbrev Tags := List (Str × Str)

/-- What is taken from elsewhere: the word characters (`\w`) and the truncated hash of a text. -/
structure Lib where
  word : Char → Bool
  sha : Str → Str

/-- The validation errors (sweep_tag.py:60-63, 170-173, 203-206, 208-217). -/
inductive Err where
  | emptyFormat
  | emptyPlaceholder
  | unmatched
  | unknown (keys : List Str)
deriving DecidableEq

/-- `tags[key] = v`. -/
def put (key v : Str) : Tags → Tags
  | [] => [(key, v)]
  | (k, x) :: ts => if k = key then (k, v) :: ts else (k, x) :: put key v ts

/-- `tags.get(key)`. -/
def lookup (key : Str) : Tags → Option Str
  | [] => none
  | (k, v) :: ts => if k = key then some v else lookup key ts

/-- `_remove_non_word` (sweep_tag.py:117-119). -/
def removeNonWord (L : Lib) (s : Str) : Str := s.filter fun c => c = '-' || c = '_' || L.word c

/-- The tag of a string (sweep_tag.py:79-87). -/
def strTag (L : Lib) (s : Str) : Str :=
  if 16 ≤ (removeNonWord L s).length then L.sha (removeNonWord L s) else removeNonWord L s

/-- `f"{path}.{key}" if path else f"{key}"` (sweep_tag.py:107-109). -/
def subpath (path key : Str) : Str := if path = [] then key else path ++ '.' :: key

/-- `f"{path}[{idx}]"` (sweep_tag.py:101). -/
def subindex (path : Str) (idx : Nat) : Str := path ++ '[' :: ((toString idx).toList ++ [']'])

mutual

/-- `_collect_tags` (sweep_tag.py:73-115). -/
def collect (L : Lib) : Cfg → Str → Tags → Tags
  | .null, path, tags => put path "none".toList tags
  | .str s, path, tags => put path (strTag L s) tags
  | .bool b, path, tags => put path (if b then "t".toList else "f".toList) tags
  | .num text, path, tags => put path text tags
  | .list es, path, tags => collectList L es 0 path tags
  | .dict es, path, tags => collectDict L es path tags

/-- The loop over a list (sweep_tag.py:99-103). -/
def collectList (L : Lib) : List Cfg → Nat → Str → Tags → Tags
  | [], _, _, tags => tags
  | e :: es, idx, path, tags => collectList L es (idx + 1) path (collect L e (subindex path idx) tags)

/-- The loop over a dictionary (sweep_tag.py:105-111). -/
def collectDict (L : Lib) : List (Str × Cfg) → Str → Tags → Tags
  | [], _, tags => tags
  | e :: es, path, tags => collectDict L es path (collectItem L e path tags)

/-- One item of a dictionary. -/
def collectItem (L : Lib) : Str × Cfg → Str → Tags → Tags
  | (key, value), path, tags => collect L value (subpath path key) tags

end

/-- Insertion into a list sorted by the keys. -/
def insertTag (t : Str × Str) : Tags → Tags
  | [] => [t]
  | u :: ts => if t.1 ≤ u.1 then t :: u :: ts else u :: insertTag t ts

/-- `sorted(tags.items())`: the keys are distinct, so that the values never decide. -/
def sortTags : Tags → Tags
  | [] => []
  | t :: ts => insertTag t (sortTags ts)

/-- The text that is hashed: keys and values one after the other (sweep_tag.py:133-135). -/
def hashInput (ts : Tags) : Str := ts.flatMap fun t => t.1 ++ t.2

/-- `_generate_hash` (sweep_tag.py:129-139). -/
def generateHash (L : Lib) (tags : Tags) : Str := L.sha (hashInput (sortTags tags))

/-- The states of `_safe_format` (sweep_tag.py:142-146). -/
inductive State where
  | literal
  | placeholder
  | openingBrace
  | closingBrace
deriving DecidableEq

/-- The variables of `_safe_format` (sweep_tag.py:148-154). -/
structure Fmt where
  output : Str
  placeholder : Str
  unknown : List Str
  state : State

/-- The body of the loop of `_safe_format` (sweep_tag.py:156-201). -/
def step (tags : Tags) (f : Fmt) (c : Char) : Except Err Fmt :=
  match f.state with
  | .literal =>
    if c = '{' then .ok { f with state := .openingBrace }
    else if c = '}' then .ok { f with state := .closingBrace }
    else .ok { f with output := f.output ++ [c] }
  | .openingBrace =>
    if c = '{' then .ok { f with state := .literal, output := f.output ++ ['{'] }
    else if c = '}' then .error .emptyPlaceholder
    else .ok { f with state := .placeholder, placeholder := f.placeholder ++ [c] }
  | .placeholder =>
    if c = '}' then
      match lookup f.placeholder tags with
      | some tag => .ok ⟨f.output ++ tag, [], f.unknown, .literal⟩
      | none => .ok ⟨f.output ++ f.placeholder, [], f.unknown ++ [f.placeholder], .literal⟩
    else .ok { f with placeholder := f.placeholder ++ [c] }
  | .closingBrace =>
    if c = '}' then .ok { f with state := .literal, output := f.output ++ ['}'] }
    else .ok { f with state := .literal, output := f.output ++ [c] }

/-- The loop of `_safe_format`. -/
def run (tags : Tags) : Str → Fmt → Except Err Fmt
  | [], f => .ok f
  | c :: s, f =>
    match step tags f c with
    | .error e => .error e
    | .ok f => run tags s f

/-- The end of `_safe_format` (sweep_tag.py:203-219). -/
def finish (f : Fmt) : Except Err Str :=
  if f.state ≠ .literal then .error .unmatched
  else if f.unknown ≠ [] then .error (.unknown f.unknown)
  else .ok f.output

/-- `_safe_format` (sweep_tag.py:141-219). -/
def safeFormat (format : Str) (tags : Tags) : Except Err Str :=
  match run tags format ⟨[], [], [], .literal⟩ with
  | .error e => .error e
  | .ok f => finish f

/-- `s.strip()`. -/
def strip (s : Str) : Str := ((s.dropWhile Char.isWhitespace).reverse.dropWhile Char.isWhitespace).reverse

/-- The tags, with the hash (sweep_tag.py:65-69). -/
def allTags (L : Lib) (worldSize : Nat) (cfg : Cfg) : Tags :=
  let tags := collect L cfg [] [("world_size".toList, (toString worldSize).toList)]
  put "hash".toList (generateHash L tags) tags

/-- `maybe_generate` without `no_sweep_dir` (sweep_tag.py:45-71). -/
def generate (L : Lib) (worldSize : Nat) (format : Str) (cfg : Cfg) : Except Err Str :=
  if strip format = [] then .error .emptyFormat
  else safeFormat (strip format) (allTags L worldSize cfg)

end Fs2.Sweep
