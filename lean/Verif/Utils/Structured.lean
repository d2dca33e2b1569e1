/-
Model of the conversion between structured and unstructured values.

Source: /repo/src/fairseq2/utils/structured.py.

Python objects are values of an inductive type; types are type expressions. Floats are abstract, and so are
the parsers of Python and of torch (`Env`). Dataclasses, enumerations and their fields are looked up by a
number in `Env`; inheritance, and mappings and sets other than `dict` and `set`, are not modelled. The two
kinds of exceptions are those that are (or become) a `StructureError`, and all others; messages are left out.
-/

namespace Fs2.Structured

/-- Python objects. A set is the list of its elements in the order of iteration. -/
inductive Val (F : Type) where
  | none
  | bool (b : Bool)
  | int (n : Int)
  | float (f : F)
  | str (s : String)
  | path (s : String)
  | dtype (d : Nat)
  | device (d : Nat)
  | enum (kls : Nat) (name : String)
  | list (l : List (Val F))
  | tuple (l : List (Val F))
  | set (l : List (Val F))
  | map (es : List (Val F × Val F))
  | data (kls : Nat) (fields : List (String × Val F))

/-- Type expressions. `list` stands for `list` and `Sequence`, `dict` for `dict` and `Mapping`, `set` for
`set` and `Set`, `tupleOf t` for `tuple[t, ...]`, `union` for both kinds of unions. -/
inductive Ty where
  | object
  | bool
  | int
  | float
  | str
  | none
  | path
  | dtype
  | device
  | enum (kls : Nat)
  | literal (values : List String)
  | list (t : Ty)
  | tupleOf (t : Ty)
  | tuple (ts : List Ty)
  | set (t : Ty)
  | dict (k v : Ty)
  | union (ts : List Ty)
  | data (kls : Nat)

/-- `StructureError`, or any other exception. -/
inductive Err where
  | structure
  | other
deriving DecidableEq

/-- A field of a dataclass. -/
structure Field where
  name : String
  ty : Ty
  init : Bool
  hasDefault : Bool

/-- What the conversion takes from Python, torch and the classes. -/
structure Env (F : Type) where
  /-- `int(s)` of a string. -/
  parseInt : String → Option Int
  /-- `float(s)` of a string. -/
  parseFloat : String → Option F
  /-- `float(n)`; an `OverflowError` is not a `StructureError`. -/
  floatOfInt : Int → Except Err F
  /-- `int(f)`, towards zero; not-a-number gives a `ValueError`, infinity an `OverflowError`. -/
  truncate : F → Except Err Int
  /-- `str(Path(s))`. -/
  normPath : String → String
  /-- `getattr(torch, s)` after the prefix `torch.` is removed. -/
  dtypeOf : String → Option Nat
  /-- The name of a data type, without the prefix. -/
  dtypeName : Nat → String
  /-- `torch.device(s)`. -/
  deviceOf : String → Option Nat
  /-- `str(device)`. -/
  deviceName : Nat → String
  /-- The names of the members of an enumeration. -/
  members : Nat → List String
  /-- The fields of a dataclass. -/
  classes : Nat → List Field
  /-- `kls(**kwargs)`: all fields of the new object, defaults and `__post_init__` included. -/
  construct : Nat → List (String × Val F) → Except Err (List (String × Val F))
  /-- Python's `==`. -/
  same : Val F → Val F → Bool
  /-- Whether `hash()` works. -/
  hashable : Val F → Bool

variable {F : Type}

/-- A part of an object with its conversion. -/
abbrev Kid (F : Type) := Val F × (Ty → Except Err (Val F))

/-- An object with its elements (of a list, tuple or set) or entries (of a dictionary). -/
structure Obj (F : Type) where
  val : Val F
  kids : List (Kid F)
  pairs : List (Kid F × Kid F)

/-- An object without parts. -/
def leaf (v : Val F) : Obj F := ⟨v, [], []⟩

/-- The strings that a string consists of as a sequence. -/
def charsOf (s : String) : List (Val F) := s.toList.map fun c => .str (String.ofList [c])

/-- The elements of a `Sequence`, each converted to one type: strings are sequences, too
(structured.py:325-350 and 398-414). `conv` is the conversion to the type `t`. -/
def elements (conv : Obj F → Except Err (Val F)) (t : Ty) (o : Obj F) : Except Err (List (Val F)) :=
  match o.val with
  | .str s => (charsOf s).mapM fun c => conv (leaf c)
  | .list _ => o.kids.mapM fun k => k.2 t
  | .tuple _ => o.kids.mapM fun k => k.2 t
  | _ => .error .structure

/-- The parts of a `Sequence` one by one: strings as objects, others as parts with a conversion. -/
def parts (o : Obj F) : Option (List (Val F ⊕ Kid F)) :=
  match o.val with
  | .str s => some ((charsOf s).map .inl)
  | .list _ => some (o.kids.map .inr)
  | .tuple _ => some (o.kids.map .inr)
  | _ => none

/-- The set of some objects: the first one of equal ones stays. -/
def dedup (E : Env F) : List (Val F) → List (Val F)
  | [] => []
  | v :: l => v :: (dedup E l).filter fun x => !E.same v x

/-- `set(l)`. -/
def makeSet (E : Env F) (l : List (Val F)) : Except Err (List (Val F)) :=
  if l.all E.hashable then .ok (dedup E l) else .error .other

/-- `output[k] = v` of a dictionary. -/
def put (E : Env F) (k v : Val F) : List (Val F × Val F) → List (Val F × Val F)
  | [] => [(k, v)]
  | (k', v') :: es => if E.same k' k then (k', v) :: es else (k', v') :: put E k v es

/-- The loop of `_structure_dict` (structured.py:241-258), with the conversions of keys and values. -/
def dictLoop (E : Env F) (kt vt : Ty) : List (Kid F × Kid F) → List (Val F × Val F) →
    Except Err (List (Val F × Val F))
  | [], out => .ok out
  | (k, v) :: ps, out => do
    let k ← k.2 kt
    let v ← v.2 vt
    if E.hashable k then dictLoop E kt vt ps (put E k v out) else .error .other

/-- The entry of a dictionary with a string as key. -/
def findKey (name : String) : List (Kid F × Kid F) → Option (Kid F)
  | [] => none
  | ((.str s, _), v) :: ps => if s = name then some v else findKey name ps
  | _ :: ps => findKey name ps

/-- The loop of `_create_dataclass` (structured.py:188-216): the arguments of the constructor. -/
def fieldLoop (ps : List (Kid F × Kid F)) : List Field → Except Err (List (String × Val F))
  | [] => .ok []
  | f :: fs =>
    if f.init then
      match findKey f.name ps with
      | none => if f.hasDefault then fieldLoop ps fs else .error .structure
      | some v => do
        let v ← v.2 f.ty
        let rest ← fieldLoop ps fs
        return (f.name, v) :: rest
    else fieldLoop ps fs

/-- The key is a string. -/
def isStr : Val F → Bool
  | .str _ => true
  | _ => false

/-- The key is the name of a field of the class. -/
def known (E : Env F) (kls : Nat) : Val F → Bool
  | .str s => (E.classes kls).any fun f => f.name == s
  | _ => false

/-- `_structure_dataclass` for a mapping and `_create_dataclass` (structured.py:163-230). -/
def createData (E : Env F) (kls : Nat) (ps : List (Kid F × Kid F)) : Except Err (Val F) :=
  if ps.all fun p => isStr p.1.1 then do
    let kwargs ← fieldLoop ps (E.classes kls)
    if ps.all fun p => known E kls p.1.1 then do
      let fields ← E.construct kls kwargs
      return .data kls fields
    else .error .structure
  else .error .structure

/-- The type is `NoneType`. -/
def isNoneTy : Ty → Bool
  | .none => true
  | _ => false

mutual

/-- `structure` with all structurers (structured.py:105-136, and 138-501 for the single ones). Raising inside a set
comprehension (structured.py:392) is modelled as converting all elements first and hashing them afterwards. -/
def conv (E : Env F) : Ty → Obj F → Except Err (Val F)
  | .object, o => .ok o.val
  | .bool, o => match o.val with
    | .bool _ => .ok o.val
    | _ => .error .structure
  | .int, o => match o.val with
    | .int _ => .ok o.val
    | .bool _ => .ok o.val -- `bool` is a subclass of `int`
    | .float f => (E.truncate f).map .int
    | .str s => match E.parseInt s with
      | some n => .ok (.int n)
      | none => .error .structure
    | _ => .error .structure
  | .float, o => match o.val with
    | .float _ => .ok o.val
    | .int n => (E.floatOfInt n).map .float
    | .bool b => (E.floatOfInt (if b then 1 else 0)).map .float
    | .str s => match E.parseFloat s with
      | some f => .ok (.float f)
      | none => .error .structure
    | _ => .error .structure
  | .str, o => match o.val with
    | .str _ => .ok o.val
    | _ => .error .structure
  | .none, o => match o.val with
    | .none => .ok o.val
    | _ => .error .structure
  | .path, o => match o.val with
    | .path _ => .ok o.val
    | .str s => .ok (.path (E.normPath s))
    | _ => .error .structure
  | .dtype, o => match o.val with
    | .dtype _ => .ok o.val
    | .str s => match E.dtypeOf s with
      | some d => .ok (.dtype d)
      | none => .error .structure
    | _ => .error .structure
  | .device, o => match o.val with
    | .device _ => .ok o.val
    | .str s => match E.deviceOf s with
      | some d => .ok (.device d)
      | none => .error .structure
    | _ => .error .structure
  | .enum kls, o => match o.val with
    | .enum k n => if k = kls then .ok (.enum k n) else .error .structure
    | .str s => if s ∈ E.members kls then .ok (.enum kls s) else .error .structure
    | _ => .error .structure
  | .literal values, o => match o.val with
    | .str s => if s ∈ values then .ok (.str s) else .error .structure
    | _ => .error .structure
  | .list t, o => (elements (conv E t) t o).map .list
  | .tupleOf t, o => (elements (conv E t) t o).map .tuple
  | .tuple ts, o =>
    match parts o with
    | none => .error .structure
    | some ps =>
      if ts.length = 0 then .error .other
      else if ps.length = ts.length then (convTuple E ts ps).map .tuple else .error .structure
  | .set t, o => match o.val with
    | .set _ => do
      let l ← o.kids.mapM fun k => k.2 t
      (makeSet E l).map .set
    | _ => do
      let l ← elements (conv E t) t o
      let s ← makeSet E l
      if s.length = l.length then return .set s else throw .structure
  | .dict kt vt, o => match o.val with
    | .map _ => (dictLoop E kt vt o.pairs []).map .map
    | _ => .error .structure
  | .union ts, o =>
    let optional := decide (ts.length = 2) && ts.any isNoneTy
    match optional, o.val with
    | true, .none => .ok .none
    | _, _ => convUnion E optional ts o
  | .data kls, o => match o.val with
    | .data k fs => if k = kls then .ok (.data k fs) else .error .structure
    | .map _ => createData E kls o.pairs
    | _ => .error .structure

/-- The loop of `_structure_tuple` over the elements and their types (structured.py:450-462). -/
def convTuple (E : Env F) : List Ty → List (Val F ⊕ Kid F) → Except Err (List (Val F))
  | [], _ => .ok []
  | _ :: _, [] => .ok []
  | t :: ts, .inl c :: ps => do
    let v ← conv E t (leaf c)
    let rest ← convTuple E ts ps
    return v :: rest
  | t :: ts, .inr k :: ps => do
    let v ← k.2 t
    let rest ← convTuple E ts ps
    return v :: rest

/-- The loop of `_structure_union` (structured.py:476-501). -/
def convUnion (E : Env F) (optional : Bool) : List Ty → Obj F → Except Err (Val F)
  | [], _ => .error .structure
  | t :: ts, o =>
    match conv E t o with
    | .ok v => .ok v
    | .error .structure => if optional then .error .structure else convUnion E optional ts o
    | .error e => .error e

end

mutual

/-- `structure` (structured.py:105-136). -/
def toType (E : Env F) : Val F → Ty → Except Err (Val F)
  | .list l, t => conv E t ⟨.list l, toTypes E l, []⟩
  | .tuple l, t => conv E t ⟨.tuple l, toTypes E l, []⟩
  | .set l, t => conv E t ⟨.set l, toTypes E l, []⟩
  | .map es, t => conv E t ⟨.map es, [], toTypePairs E es⟩
  | .none, t => conv E t (leaf .none)
  | .bool b, t => conv E t (leaf (.bool b))
  | .int n, t => conv E t (leaf (.int n))
  | .float f, t => conv E t (leaf (.float f))
  | .str s, t => conv E t (leaf (.str s))
  | .path s, t => conv E t (leaf (.path s))
  | .dtype d, t => conv E t (leaf (.dtype d))
  | .device d, t => conv E t (leaf (.device d))
  | .enum k n, t => conv E t (leaf (.enum k n))
  | .data k fs, t => conv E t (leaf (.data k fs))

/-- The elements with their conversions. -/
def toTypes (E : Env F) : List (Val F) → List (Kid F)
  | [] => []
  | v :: l => (v, toType E v) :: toTypes E l

/-- The entries with their conversions. -/
def toTypePairs (E : Env F) : List (Val F × Val F) → List (Kid F × Kid F)
  | [] => []
  | e :: es => toTypePair E e :: toTypePairs E es

/-- One entry. -/
def toTypePair (E : Env F) : Val F × Val F → Kid F × Kid F
  | (k, v) => ((k, toType E k), (v, toType E v))

end

mutual

/-- `unstructure` (structured.py:503-602). `_unstructure_mapping` converts every value twice; the second time
changes nothing (`C65_unstructure_twice`) and is left out. -/
def unstructure (E : Env F) : Val F → Except Err (Val F)
  | .none => .ok .none
  | .bool b => .ok (.bool b)
  | .int n => .ok (.int n)
  | .float f => .ok (.float f)
  | .str s => .ok (.str s)
  | .path s => .ok (.str s)
  | .dtype d => .ok (.str (E.dtypeName d))
  | .device d => .ok (.str (E.deviceName d))
  | .enum _ n => .ok (.str n)
  | .list l => (unstructures E l).map .list
  | .tuple l => (unstructures E l).map .list
  | .set l => (unstructures E l).map .list
  | .map es => (unstructurePairs E es []).map .map
  | .data _ fs => (unstructureFields E fs []).map .map

/-- The elements of a sequence. -/
def unstructures (E : Env F) : List (Val F) → Except Err (List (Val F))
  | [] => .ok []
  | v :: l => do
    let v ← unstructure E v
    let l ← unstructures E l
    return v :: l

/-- The entries of a dictionary, added to `out` one after the other. -/
def unstructurePairs (E : Env F) : List (Val F × Val F) → List (Val F × Val F) →
    Except Err (List (Val F × Val F))
  | [], out => .ok out
  | e :: es, out => do
    let e ← unstructurePair E e
    if E.hashable e.1 then unstructurePairs E es (put E e.1 e.2 out) else .error .other

/-- One entry. -/
def unstructurePair (E : Env F) : Val F × Val F → Except Err (Val F × Val F)
  | (k, v) => do
    let k ← unstructure E k
    let v ← unstructure E v
    return (k, v)

/-- The fields of a dataclass, added to `out` with their names as keys. -/
def unstructureFields (E : Env F) : List (String × Val F) → List (Val F × Val F) →
    Except Err (List (Val F × Val F))
  | [], out => .ok out
  | f :: fs, out => do
    let e ← unstructureField E f
    unstructureFields E fs (put E e.1 e.2 out)

/-- One field. -/
def unstructureField (E : Env F) : String × Val F → Except Err (Val F × Val F)
  | (name, v) => do
    let v ← unstructure E v
    return (.str name, v)

end

end Fs2.Structured
