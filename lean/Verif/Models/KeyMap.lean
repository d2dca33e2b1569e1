/-!
# Key maps of checkpoints

Models `convert_state_dict` and `create_reverse_key_map` (`src/fairseq2/models/utils/checkpoint.py`).
A state dictionary is a list of keys and values in insertion order; keys and patterns are lists of
characters. Of Python's regular expressions the model has what the key maps use: the anchor `^` at the
start, the escaped dot, literal characters, and the group `([0-9]+)`; of replacements it has literal
characters and `\1`. Anything else is refused with `none`, as is an invalid group reference.
-/

namespace Fs2.Interop

abbrev Key := List Char

/-- A Python dictionary, in insertion order. -/
abbrev Dict (V : Type) := List (Key × V)

namespace Dict
variable {V : Type}

/-- `d[k]`; `none` is a `KeyError`. -/
def get? (d : Dict V) (k : Key) : Option V := (d.find? fun e => e.1 == k).map (·.2)

/-- `k in d`. -/
def has (d : Dict V) (k : Key) : Bool := d.any fun e => e.1 == k

/-- `d[k] = v`: a key that exists keeps its place. -/
def put (d : Dict V) (k : Key) (v : V) : Dict V :=
  if d.has k then d.map fun e => if e.1 == k then (k, v) else e else d ++ [(k, v)]

/-- `del d[k]`; `none` is a `KeyError`. -/
def del (d : Dict V) (k : Key) : Option (Dict V) :=
  if d.has k then some (d.filter fun e => !(e.1 == k)) else none

end Dict

/-! ## Patterns -/

/-- The parts of a pattern: a character, or `([0-9]+)`. -/
inductive Tok
  | ch (c : Char)
  | num
  deriving DecidableEq

/-- The characters with a meaning of their own in a pattern. -/
def special (c : Char) : Bool :=
  ['.', '^', '$', '*', '+', '?', '{', '}', '[', ']', '\\', '|', '(', ')'].contains c

/-- Reads a pattern after its anchor. -/
def parseToks : List Char → Option (List Tok)
  | '\\' :: '.' :: cs => (parseToks cs).map (.ch '.' :: ·)
  | '(' :: '[' :: '0' :: '-' :: '9' :: ']' :: '+' :: ')' :: cs => (parseToks cs).map (.num :: ·)
  | c :: cs => if special c then none else (parseToks cs).map (.ch c :: ·)
  | [] => some []

/-- Reads a pattern with the anchor `^`. -/
def parsePattern : List Char → Option (List Tok)
  | '^' :: cs => parseToks cs
  | _ => none

/-- Reads a replacement: characters, and `\1` not followed by a digit. -/
def parseRepl : List Char → Option (List Tok)
  | '\\' :: '1' :: c :: cs => if c.isDigit then none else (parseRepl (c :: cs)).map (.num :: ·)
  | ['\\', '1'] => some [.num]
  | c :: cs => if c == '\\' then none else (parseRepl cs).map (.ch c :: ·)
  | [] => some []

/-- Matches the pattern at the start of the text: the texts of the groups and what is left. A group takes
as many digits as possible, and fewer if the rest does not match then. -/
def matchToks : List Tok → List Char → Option (List (List Char) × List Char)
  | [], s => some ([], s)
  | .ch c :: ts, s =>
    match s with
    | d :: s => if c = d then matchToks ts s else none
    | [] => none
  | .num :: ts, s =>
    let k := (s.takeWhile Char.isDigit).length
    (List.range k).findSome? fun i =>
      (matchToks ts (s.drop (k - i))).map fun r => (s.take (k - i) :: r.1, r.2)

/-- The replacement with the first group filled in; `none` is an invalid group reference. -/
def expand (groups : List (List Char)) : List Tok → Option (List Char)
  | [] => some []
  | .ch c :: ts => (expand groups ts).map (c :: ·)
  | .num :: ts => do
    let g ← groups[0]?
    let r ← expand groups ts
    some (g ++ r)

/-- `re.sub(pattern, replacement, key)` for a pattern with the anchor `^`, which matches at most once. -/
def sub (toks repl : List Tok) (key : Key) : Option Key :=
  match matchToks toks key with
  | none => some key
  | some (groups, rest) => (expand groups repl).map (· ++ rest)

/-! ## `convert_state_dict` -/

/-- `get_converted_key` (checkpoint.py:111-118): the first pattern that changes the key decides. -/
def getConvertedKey : List (Key × Key) → Key → Option Key
  | [], key => some key
  | (pattern, replacement) :: keyMap, key => do
    let toks ← parsePattern pattern
    let repl ← parseRepl replacement
    let converted ← sub toks repl key
    if converted ≠ key then some converted else getConvertedKey keyMap key

/-- `convert_state_dict` (checkpoint.py:101-124). -/
def convertStateDict {V : Type} (stateDict : Dict V) (keyMap : List (Key × Key)) : Option (Dict V) :=
  stateDict.foldlM (fun converted (e : Key × V) => do
    let key ← getConvertedKey keyMap e.1
    some (Dict.put converted key e.2)) []

/-! ## `create_reverse_key_map` -/

/-- `s.replace(old, new)` for a non-empty `old`: `skip` characters belong to an occurrence already
replaced. -/
def replaceFrom (old new : List Char) : Nat → List Char → List Char
  | _, [] => []
  | skip + 1, _ :: cs => replaceFrom old new skip cs
  | 0, c :: cs =>
    if old.isPrefixOf (c :: cs) then new ++ replaceFrom old new (old.length - 1) cs
    else c :: replaceFrom old new 0 cs

def replace (old new s : List Char) : List Char := replaceFrom old new 0 s

/-- `old in s` -/
def contains (old : List Char) : List Char → Bool
  | [] => old.isEmpty
  | c :: cs => old.isPrefixOf (c :: cs) || contains old cs

def dot : List Char := ['.']
def escapedDot : List Char := ['\\', '.']
def backref : List Char := ['\\', '1']
def group : List Char := ['(', '[', '0', '-', '9', ']', '+', ')']

/-- One round of the loop of `create_reverse_key_map` (checkpoint.py:157-178). -/
def reverseEntry (pattern replacement : Key) : Key × Key :=
  let patternWithoutAnchor := match pattern with
    | '^' :: cs => cs
    | cs => cs
  let newPattern := '^' :: replace backref group (replace dot escapedDot replacement)
  let newReplacement :=
    if contains group patternWithoutAnchor then
      replace escapedDot dot (replace group backref patternWithoutAnchor)
    else replace escapedDot dot patternWithoutAnchor
  (newPattern, newReplacement)

/-- `create_reverse_key_map` (checkpoint.py:153-180). -/
def createReverseKeyMap (keyMap : List (Key × Key)) : List (Key × Key) :=
  keyMap.foldl (fun (reverse : Dict Key) e =>
    let r := reverseEntry e.1 e.2
    reverse.put r.1 r.2) []

end Fs2.Interop
