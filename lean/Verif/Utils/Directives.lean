import Verif.Utils.ConfigArgs

/-!
# Directives in configurations, and configurations of assets and recipes

Models `StandardConfigProcessor`, `ReplacePathDirective` and `ReplaceEnvDirective`
(src/fairseq2/utils/config.py:136-229), `StandardAssetConfigLoader.load` (src/fairseq2/assets/card.py:149-217) and
`_RecipeConfigLoader.load` (src/fairseq2/recipe/cli.py:428-513).

The second argument of `ConfigDirective.execute`, the whole configuration, is used by no directive and is left out.
Turning a configuration into plain values and back (`unstructure`, `structure`) is given by functions here; they are
modelled in `Verif.Utils.Structured`. Asset cards are given as the chain from the card to its last base.
-/

namespace Fs2.Config

/-! ### Texts -/

def isNameStart (c : Char) : Bool := ('A' ≤ c ∧ c ≤ 'Z') ∨ ('a' ≤ c ∧ c ≤ 'z') ∨ c = '_'

def isNameChar (c : Char) : Bool := isNameStart c ∨ ('0' ≤ c ∧ c ≤ '9')

/-- `prefix` taken off the front of a text. -/
def dropPrefix : Str → Str → Option Str
  | [], s => some s
  | _ :: _, [] => none
  | p :: ps, c :: s => if p = c then dropPrefix ps s else none

/-- A match of the pattern at the front of a text (config.py:211): the name, the default and what comes after. The
class of a name's characters holds neither `:` nor `}`, so that the engine has nothing to go back to. -/
def matchRef (s : Str) : Option (Str × Option Str × Str) := do
  match ← dropPrefix "${env:".toList s with
  | [] => none
  | c :: s =>
    if isNameStart c then
      let name := c :: s.takeWhile isNameChar
      match s.dropWhile isNameChar with
      | '}' :: r => some (name, none, r)
      | ':' :: r =>
        match r.dropWhile (· ≠ '}') with
        | _ :: r' => some (name, some (r.takeWhile (· ≠ '}')), r')
        | [] => none
      | _ => none
    else none

/-- `_replace` (config.py:220-229). -/
def refValue (env : Str → Option Str) (name : Str) (dflt : Option Str) : Str :=
  (env name).getD (dflt.getD [])

theorem dropPrefix_length {p s r : Str} (h : dropPrefix p s = some r) : r.length + p.length = s.length := by
  induction p generalizing s with
  | nil => cases h; rfl
  | cons a p ih =>
    cases s with
    | nil => cases h
    | cons c s =>
      rw [dropPrefix] at h
      split at h
      · have := ih h; simp only [List.length_cons]; omega
      · cases h

theorem matchRef_length {s : Str} {m : Str × Option Str × Str} (h : matchRef s = some m) :
    m.2.2.length < s.length := by
  unfold matchRef at h
  cases hd : dropPrefix "${env:".toList s with
  | none => rw [hd] at h; cases h
  | some t =>
    have hl := dropPrefix_length hd
    rw [hd] at h
    simp only [Option.bind_eq_bind, Option.bind_some] at h
    cases t with
    | nil => cases h
    | cons c t =>
      simp only at h
      split at h
      · have h1 := (List.dropWhile_sublist isNameChar (l := t)).length_le
        simp only [List.length_cons] at hl
        split at h
        · rename_i r hr
          cases h
          rw [hr, List.length_cons] at h1
          simp only; omega
        · rename_i r hr
          rw [hr, List.length_cons] at h1
          split at h
          · rename_i x r' hr'
            cases h
            have h2 := (List.dropWhile_sublist (fun c => decide (c ≠ '}')) (l := r)).length_le
            rw [hr', List.length_cons] at h2
            simp only; omega
          · cases h
        · cases h
      · cases h

/-- `self._pattern.sub(self._replace, value)` (config.py:217-218): left to right, values are not searched again. -/
def replaceEnv (env : Str → Option Str) : Str → Str
  | [] => []
  | c :: s =>
    match h : matchRef (c :: s) with
    | some (name, dflt, r) =>
      have : r.length < (c :: s).length := matchRef_length h
      refValue env name dflt ++ replaceEnv env r
    | none => c :: replaceEnv env s
  termination_by s => s.length

/-- `value.replace(pattern, by)` for a pattern that is not empty. -/
def replaceAll (pat by' : Str) : Str → Str
  | [] => []
  | c :: s =>
    match h : dropPrefix pat (c :: s) with
    | some r =>
      if hp : pat = [] then c :: s
      else
        have : r.length < (c :: s).length := by
          have := dropPrefix_length h
          have : 0 < pat.length := List.length_pos_iff.2 hp
          omega
        by' ++ replaceAll pat by' r
    | none => c :: replaceAll pat by' s
  termination_by s => s.length

/-! ### Directives -/

/-- A directive; `none` is a `ConfigDirectiveError`. -/
abbrev Directive := String → Option Val

/-- `ReplacePathDirective` (config.py:192-199). -/
def pathDirective (path : Str) : Directive := fun s =>
  some (.str (String.ofList (replaceAll "${dir}".toList path s.toList)))

/-- `ReplaceEnvDirective` (config.py:202-229). -/
def envDirective (env : Str → Option Str) : Directive := fun s =>
  some (.str (String.ofList (replaceEnv env s.toList)))

/-- What becomes of a string (config.py:171-179). -/
def runDirectives : List Directive → String → Option Val
  | [], s => some (.str s)
  | d :: ds, s =>
    match d s with
    | some (.str s') => runDirectives ds s'
    | some v => some v
    | none => none

mutual

/-- `_do_process` (config.py:153-181). -/
def processVal (ds : List Directive) : Val → Option Val
  | .list l => do
    let l ← processList ds l
    return .list l
  | .map es => do
    let es ← processEntries ds es
    return .map es
  | .str s => runDirectives ds s
  | .null => some .null
  | .num n => some (.num n)

def processList (ds : List Directive) : List Val → Option (List Val)
  | [] => some []
  | v :: l => do
    let v ← processVal ds v
    let l ← processList ds l
    return v :: l

def processEntries (ds : List Directive) : Entries → Option Entries
  | [] => some []
  | (k, v) :: es => do
    let v ← processVal ds v
    let es ← processEntries ds es
    return (k, v) :: es

end

/-- `process` (config.py:140-151). -/
def process (defaults directives : List Directive) (v : Val) : Option Val :=
  if defaults.isEmpty ∧ directives.isEmpty then some v else processVal (defaults ++ directives) v

/-! ### Asset configurations -/

/-- What the chain of cards has under the key, from the last base to the card (card.py:165-175, 187). -/
def cardOverrides (cards : List (String × Option Val)) : List (String × Val) :=
  (cards.filterMap fun c => c.2.map fun v => (c.1, v)).reverse

/-- The loop over the overrides (card.py:187-207); an error names a card. -/
def assetLoop (defaults : List Directive) : Val → List (String × Val) → Except String Val
  | c, [] => .ok c
  | c, (name, o) :: os =>
    match merge c o with
    | none => .error name
    | some c1 =>
      match process defaults [] c1 with
      | none => .error name
      | some c2 => assetLoop defaults c2 os

/-- `load` (card.py:164-217); `cards` is the chain, beginning with the card. -/
def assetLoad {C : Type} (defaults : List Directive) (unstructure : C → Option Val) (structure' : Val → Option C)
    (name : String) (cards : List (String × Option Val)) (base : C) : Except String C :=
  if (cardOverrides cards).isEmpty then .ok base
  else
    match unstructure base with
    | none => .error name
    | some c =>
      match assetLoop defaults c (cardOverrides cards) with
      | .error n => .error n
      | .ok c =>
        match structure' c with
        | none => .error name
        | some r => .ok r

/-! ### Recipe configurations -/

/-- The configuration before the command line (cli.py:440-464, 484-513). `file` is the directory and the documents of
the file, if there is one; `none` is a `RecipeConfigParseError`. -/
def fileConfig (defaults : List Directive) (config : Val) : Option (Str × List Val) → Option Val
  | none => some config
  | some (_, []) => none
  | some (dir, doc :: _) => (merge config doc).bind (process defaults [pathDirective dir])

/-- `load` up to `structure` (cli.py:440-475). -/
def recipeLoad (defaults : List Directive) (config : Val) (file : Option (Str × List Val)) (overrides : List Val) :
    Option Val :=
  (fileConfig defaults config file).bind fun c => applyOptions c overrides

end Fs2.Config
