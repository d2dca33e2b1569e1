/-!
# Locations of assets

The string that an asset card gives for a model, tokenizer or dataset becomes a URI (`as_uri`,
/repo/src/fairseq2/assets/card.py:104-127), and the URI of a local file becomes a path again (`to_path`,
/repo/src/fairseq2/utils/uri.py:76-84), which is then opened (/repo/src/fairseq2/models/family.py:607-609,
/repo/src/fairseq2/data/tokenizers/family.py:317-319, /repo/src/fairseq2/assets/download_manager.py:292-305).

Strings are lists of bytes in UTF-8. From the standard library: `Path.as_uri`, `urlparse` and `urlunparse` as in Python 3.11,
without the checks of brackets in the host and without the removal of white space and control characters; paths are in the normal
form that `Path` keeps, so that making a `Path` changes nothing. Relative paths are joined to the directory of the card before
(modelled in `Assets/Store`).
-/

namespace Fs2.Loc

abbrev Str := List Nat

def isLetter (c : Nat) : Bool := (65 ≤ c && c ≤ 90) || (97 ≤ c && c ≤ 122)

def isDigit (c : Nat) : Bool := 48 ≤ c && c ≤ 57

/-- Bytes that `quote_from_bytes` keeps: letters, digits, `_`, `.`, `-`, `~` and `/`. -/
def kept (c : Nat) : Bool := isLetter c || isDigit c || c == 95 || c == 46 || c == 45 || c == 126 || c == 47

def hexDigit (n : Nat) : Nat := if n < 10 then 48 + n else 55 + n

/-- `quote_from_bytes`. -/
def quote (s : Str) : Str := s.flatMap fun c => if kept c then [c] else [37, hexDigit (c / 16), hexDigit (c % 16)]

/-- `file` -/
def fileScheme : Str := [102, 105, 108, 101]

/-- `ParseResult`; the parameters are always empty for the scheme `file`. -/
structure Uri where
  scheme : Str
  netloc : Str
  path : Str
  query : Str
  fragment : Str
deriving DecidableEq, Repr

/-- The part before the first byte `c`, and what comes after it. -/
def splitAt (c : Nat) (s : Str) : Str × Str := (s.takeWhile (· ≠ c), (s.dropWhile (· ≠ c)).drop 1)

def lower (s : Str) : Str := s.map fun c => if 65 ≤ c ∧ c ≤ 90 then c + 32 else c

/-- The scheme of a string, if it has one, and the rest. -/
def splitScheme (s : Str) : Option (Str × Str) :=
  let head := s.takeWhile (· ≠ 58)
  if head.length < s.length ∧ head.head?.any isLetter ∧ head.all (fun c => isLetter c || isDigit c || c == 43 || c == 45 || c == 46) then
    some (lower head, s.drop (head.length + 1))
  else none

/-- `Uri.parse` (uri.py:20-31); `none` is `UriFormatError`. -/
def parse (s : Str) : Option Uri :=
  match splitScheme s with
  | none => none
  | some (scheme, rest) =>
    let inNetloc := fun c => c ≠ 47 && c ≠ 63 && c ≠ 35
    let netloc := if rest.take 2 = [47, 47] then (rest.drop 2).takeWhile inNetloc else []
    let rest := if rest.take 2 = [47, 47] then (rest.drop 2).dropWhile inNetloc else rest
    let f := splitAt 35 rest
    let q := splitAt 63 f.1
    some ⟨scheme, netloc, q.1, q.2, f.2⟩

/-- `__str__` (uri.py:86-87) of a URI with the scheme `file`. -/
def fileStr (u : Uri) : Str :=
  let path := if u.path ≠ [] ∧ u.path.head? ≠ some 47 then 47 :: u.path else u.path
  fileScheme ++ [58, 47, 47] ++ u.netloc ++ path ++ (if u.query = [] then [] else 63 :: u.query)
    ++ (if u.fragment = [] then [] else 35 :: u.fragment)

/-- `to_path` (uri.py:76-84); `none` is `NotSupportedError`. -/
def toPath (u : Uri) : Option Str :=
  if u.scheme ≠ fileScheme then none else some ((fileStr u).drop 7)

/-- `Uri.from_path` (uri.py:40-48) of an absolute path. -/
def fromPath (p : Str) : Option Uri := parse (fileScheme ++ [58, 47, 47] ++ quote p)

/-- `as_uri` (card.py:104-127) of a string that is a URI or an absolute path. -/
def asUri (value : Str) : Option Uri :=
  match parse value with
  | some u => some u
  | none => fromPath value

/-- The path that is opened for an asset whose card has this string. -/
def opened (value : Str) : Option Str := (asUri value).bind toPath

end Fs2.Loc
