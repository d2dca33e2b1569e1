/-
Model of the validation of objects with all their parts.

Source: /repo/src/fairseq2/utils/validation.py.

An object is a tree: what its own `validate()` returns (if it has one), and its parts. Objects that contain
themselves (the traversal would not end) and `validate()` methods that return one result object more than once
are not modelled. Messages are strings; a key of a mapping is given by its `repr`.
-/

namespace Fs2.Validation

/-- `ValidationResult` (validation.py:170-176): the messages and the results of the parts, by name. -/
inductive Result where
  | mk (errors : List String) (subs : List (String × Result))

/-- `ValidationResult()` (validation.py:174-176). -/
def Result.empty : Result := .mk [] []

/-- `errors` (validation.py:203-209). -/
def Result.errors : Result → List String
  | .mk errors _ => errors

/-- `sub_results` (validation.py:211-214). -/
def Result.subs : Result → List (String × Result)
  | .mk _ subs => subs

/-- `d[name] = r` of a dictionary. -/
def setSub (name : String) (r : Result) : List (String × Result) → List (String × Result)
  | [] => [(name, r)]
  | (n, x) :: subs => if n = name then (n, r) :: subs else (n, x) :: setSub name r subs

/-- `add_sub_result` (validation.py:182-191). -/
def Result.addSub : Result → String → Result → Result
  | .mk errors subs, name, sub => .mk errors (setSub name sub subs)

mutual

/-- `has_error` (validation.py:193-201). -/
def Result.hasError : Result → Bool
  | .mk errors subs => !errors.isEmpty || anyError subs

/-- `any(r.has_error() for r in ...)`. -/
def anyError : List (String × Result) → Bool
  | [] => false
  | x :: subs => pairError x || anyError subs

/-- One of them. -/
def pairError : String × Result → Bool
  | (_, r) => r.hasError

end

/-- An object: the result of its own `validate()` and its parts. -/
inductive Obj where
  /-- An object without parts. -/
  | atom (own : Option Result)
  /-- A dataclass object with its fields. -/
  | data (own : Option Result) (fields : List (String × Obj))
  /-- A mapping, with the `repr` of its keys. -/
  | mapping (own : Option Result) (entries : List (String × Obj))
  /-- A list, tuple or set. -/
  | seq (own : Option Result) (elems : List Obj)

/-- `f"[{s}]"`. -/
def bracket (s : String) : String := "[" ++ s ++ "]"

/-- `if sub_result.has_error(): result.add_sub_result(...)` (validation.py:144-145, 150-151, 156-157). -/
def addIf (result : Result) (name : String) (sub : Result) : Result :=
  if sub.hasError then result.addSub name sub else result

mutual

/-- `_do_validate` (validation.py:132-159). -/
def doValidate : Obj → Result
  | .atom own => own.getD .empty
  | .data own fields => validateFields id fields (own.getD .empty)
  | .mapping own entries => validateFields bracket entries (own.getD .empty)
  | .seq own elems => validateElems 0 elems (own.getD .empty)

/-- The loop over fields or entries (validation.py:139-145, 147-151). -/
def validateFields (label : String → String) : List (String × Obj) → Result → Result
  | [], result => result
  | f :: fields, result => validateFields label fields (validateField label f result)

/-- One of them. -/
def validateField (label : String → String) : String × Obj → Result → Result
  | (name, o), result => addIf result (label name) (doValidate o)

/-- The loop over elements (validation.py:153-157). -/
def validateElems (i : Nat) : List Obj → Result → Result
  | [], result => result
  | o :: elems, result => validateElems (i + 1) elems (addIf result (bracket (toString i)) (doValidate o))

end

/-- `validate` (validation.py:125-130): the result that the `ValidationError` carries, if it is raised. -/
def validate (o : Obj) : Option Result :=
  let result := doValidate o
  if result.hasError then some result else none

/-- The rest of `_build_pathname` (validation.py:243-247). -/
def pathTail : List String → String
  | [] => ""
  | p :: ps =>
    (if p.toList.head? = some '[' ∧ p.toList.getLast? = some ']' then p else "." ++ p) ++ pathTail ps

/-- `_build_pathname` (validation.py:240-249), of a path that is not empty. -/
def pathname : List String → String
  | [] => ""
  | p :: ps => p ++ pathTail ps

/-- What is printed for one object (validation.py:224-231). -/
def line (path errors : List String) : List String :=
  let s := " ".intercalate errors
  if s = "" then []
  else if path = [] then [s]
  else ["`" ++ pathname path ++ "` is not valid: " ++ s]

mutual

/-- `_create_error_string` (validation.py:223-238): the lines of the report. -/
def report (path : List String) : Result → List String
  | .mk errors subs => line path errors ++ reportSubs path subs

/-- The loop over the parts (validation.py:233-238). -/
def reportSubs (path : List String) : List (String × Result) → List String
  | [] => []
  | x :: subs => reportSub path x ++ reportSubs path subs

/-- One of them. -/
def reportSub (path : List String) : String × Result → List String
  | (name, r) => report (path ++ [name]) r

end

end Fs2.Validation
