/-!
# Walking over modules

Models src/fairseq2/nn/utils/module.py: `_get_named_modules` and `visit_module` (69-97, 479-526), `to_device` and
`to_empty` (100-162), `share_parameters` (165-207), `apply_to_parameters` (210-281), `maybe_infer_device` (330-356) and
`broadcast_module` (359-443) and `load_state_dict` (446-475).

Modules and tensors are objects with an identity, given by numbers. The modules below a module are written as a tree in
which a module that is reached in several ways stands in all of these places. Attributes are held in a state. Names of
the parameters, of the buffers and of the children of a module are distinct from each other, and setting an attribute
that exists keeps its place. Slots that hold `None` instead of a tensor are left out. What a tensor holds is a value that
includes its device; the functions on tensors that are passed in neither raise nor look at anything else, except for the
one of `share_parameters`.
-/

namespace Fs2.Mod

mutual

/-- A module with everything below it (`_modules`). -/
inductive Tree where
  | node (id : Nat) (children : Children)

/-- The entries of `_modules`, of which some may be `None`. -/
inductive Children where
  | nil
  | missing (name : String) (rest : Children)
  | child (name : String) (t : Tree) (rest : Children)

end

def Tree.id : Tree → Nat
  | .node i _ => i

/-- The name of something below a module (module.py:509-512). -/
def join (pre name : String) : String := if pre = "" then name else pre ++ "." ++ name

mutual

/-- `_get_named_modules` with `recurse` (module.py:479-526): what is yielded, and the memo. -/
def visit (post : Bool) (pre : String) : Tree → List Nat → List (String × Option Nat) × List Nat
  | .node id cs, memo =>
    if id ∈ memo then ([], memo)
    else
      let r := visitAll post pre cs (id :: memo)
      (if post then r.1 ++ [(pre, some id)] else (pre, some id) :: r.1, r.2)

def visitAll (post : Bool) (pre : String) : Children → List Nat → List (String × Option Nat) × List Nat
  | .nil, memo => ([], memo)
  | .missing name rest, memo =>
    let r := visitAll post pre rest memo
    ((join pre name, none) :: r.1, r.2)
  | .child name t rest, memo =>
    let a := visit post (join pre name) t memo
    let b := visitAll post pre rest a.2
    (a.1 ++ b.1, b.2)

end

/-- A tensor. -/
structure Tn (D : Type) where
  data : D
  grad : Option Nat
  requiresGrad : Bool
  isParam : Bool

/-- All tensors, and the parameters and buffers of the modules. -/
structure St (D : Type) where
  tensors : List (Tn D)
  params : Nat → List (String × Nat)
  buffers : Nat → List (String × Nat)

abbrev Memo := List (Nat × Nat)

inductive Err where
  /-- `ValueError`. -/
  | value
  /-- The `RuntimeError` of `share_parameters`. -/
  | notMemoized
  deriving DecidableEq

variable {D : Type}

/-- What a function does with a tensor: it returns the same one (`none`), or a new one, or it raises. -/
abbrev Fn (D : Type) := D → Except Err (Option D)

/-- `call_fn` (module.py:246-263). -/
def callFn (fn : Fn D) (src : Nat) (isParam requiresGrad : Bool) (st : St D) (memo : Memo) :
    Except Err (Nat × St D × Memo) :=
  match memo.lookup src with
  | some t => .ok (t, st, memo)
  | none =>
    match st.tensors[src]? with
    | none => .error .value
    | some x =>
      match fn x.data with
      | .error e => .error e
      | .ok none => .ok (src, st, (src, src) :: memo)
      | .ok (some d) =>
        let t := st.tensors.length
        .ok (t, { st with tensors := st.tensors ++ [⟨d, none, requiresGrad, isParam⟩] }, (src, t) :: memo)

/-- `t.grad = g`. -/
def setGrad (t : Nat) (g : Option Nat) (st : St D) : St D :=
  { st with tensors := st.tensors.modify t fun x => { x with grad := g } }

/-- `setattr(module, name, t)` for a name that exists. -/
def setSlot (name : String) (t : Nat) (l : List (String × Nat)) : List (String × Nat) :=
  l.map fun s => if s.1 = name then (name, t) else s

/-- The loop over the parameters of one module (module.py:265-281). -/
def paramLoop (fn : Fn D) (m : Nat) : List (String × Nat) → St D → Memo → Except Err (St D × Memo)
  | [], st, memo => .ok (st, memo)
  | (name, p) :: ps, st, memo =>
    match callFn fn p true ((st.tensors[p]?).elim false (·.requiresGrad)) st memo with
    | .error e => .error e
    | .ok (t, st, memo) =>
      let st := { st with params := fun i => if i = m then setSlot name t (st.params m) else st.params i }
      match (st.tensors[p]?).bind (·.grad) with
      | none => paramLoop fn m ps st memo
      | some g =>
        match callFn fn g false ((st.tensors[g]?).elim false (·.requiresGrad)) st memo with
        | .error e => .error e
        | .ok (g', st, memo) => paramLoop fn m ps (setGrad t (some g') st) memo

/-- The loop over the buffers of one module (module.py:283-286). -/
def bufferLoop (fn : Fn D) (m : Nat) : List (String × Nat) → St D → Memo → Except Err (St D × Memo)
  | [], st, memo => .ok (st, memo)
  | (name, b) :: bs, st, memo =>
    match callFn fn b false false st memo with
    | .error e => .error e
    | .ok (t, st, memo) =>
      bufferLoop fn m bs { st with buffers := fun i => if i = m then setSlot name t (st.buffers m) else st.buffers i } memo

/-- `apply_to_parameters` with `recurse=False`. -/
def applyOwn (fn : Fn D) (m : Nat) (st : St D) (memo : Memo) : Except Err (St D × Memo) :=
  match paramLoop fn m (st.params m) st memo with
  | .error e => .error e
  | .ok (st, memo) => bufferLoop fn m (st.buffers m) st memo

mutual

/-- `apply_to_parameters` (module.py:210-286); `seen` is `module_memo`. -/
def apply (fn : Fn D) : Tree → St D → Memo → List Nat → Except Err (St D × Memo × List Nat)
  | .node id cs, st, memo, seen =>
    match applyAll fn cs [] st memo seen with
    | .error e => .error e
    | .ok (st, memo, seen) =>
      match applyOwn fn id st memo with
      | .error e => .error e
      | .ok (st, memo) => .ok (st, memo, seen)

/-- The loop over `module.children()`, which leaves out `None` and what it has given already (`given`). -/
def applyAll (fn : Fn D) : Children → List Nat → St D → Memo → List Nat → Except Err (St D × Memo × List Nat)
  | .nil, _, st, memo, seen => .ok (st, memo, seen)
  | .missing _ rest, given, st, memo, seen => applyAll fn rest given st memo seen
  | .child _ t rest, given, st, memo, seen =>
    if t.id ∈ given then applyAll fn rest given st memo seen
    else if t.id ∈ seen then applyAll fn rest (t.id :: given) st memo seen
    else
      match apply fn t st memo seen with
      | .error e => .error e
      | .ok (st, memo, seen) => applyAll fn rest (t.id :: given) st memo (t.id :: seen)

end

/-- `apply_to_parameters` as it is called. -/
def applyToParameters (fn : Fn D) (memo : Memo) (t : Tree) (st : St D) : Except Err (St D) :=
  match apply fn t st memo [] with
  | .error e => .error e
  | .ok (st, _, _) => .ok st

/-! ### Devices -/

/-- What is known about devices: where a tensor is, which device is `meta`, a copy on another device, a tensor without
contents on another device, and what `reset_parameters` of a module makes of a tensor of the module. -/
structure Devices (D : Type) where
  Dev : Type
  dec : DecidableEq Dev
  dev : D → Dev
  cpu : Dev
  isMeta : Dev → Bool
  move : Dev → D → D
  empty : Dev → D → D
  reset : Nat → D → D

/-- The tensors of one module. -/
def ownTensors (st : St D) (m : Nat) : List Nat := (st.params m).map (·.2) ++ (st.buffers m).map (·.2)

/-- The devices of the tensors of one module. -/
def ownDevices (v : Devices D) (st : St D) (m : Nat) : List v.Dev :=
  (ownTensors st m).filterMap fun t => (st.tensors[t]?).map fun x => v.dev x.data

/-- `maybe_infer_device` with `recurse=False` (module.py:330-356). -/
def inferDevice (v : Devices D) (st : St D) (m : Nat) : Option v.Dev :=
  have := v.dec
  match ownDevices v st m with
  | [] => some v.cpu
  | d :: ds => if ds.all (· = d) then some d else none

/-- The modules to move (module.py:108-123). -/
def toMove (v : Devices D) (target : v.Dev) (st : St D) : List Nat → Except Err (List (Nat × v.Dev))
  | [] => .ok []
  | m :: ms =>
    have := v.dec
    match inferDevice v st m with
    | none => .error .value
    | some d =>
      match toMove v target st ms with
      | .error e => .error e
      | .ok r => .ok (if d = target then r else (m, d) :: r)

/-- `t.to(device)`. -/
def moveFn (v : Devices D) (target : v.Dev) : Fn D := fun d =>
  have := v.dec
  if v.dev d = target then .ok none else .ok (some (v.move target d))

/-- `torch.empty_like(t, device=device)`. -/
def emptyFn (v : Devices D) (target : v.Dev) : Fn D := fun d => .ok (some (v.empty target d))

/-- `reset_parameters(m, recurse=False)`: it writes to the tensors of the module. -/
def resetOwn (v : Devices D) (m : Nat) (st : St D) : St D :=
  (ownTensors st m).foldl (fun st t => { st with tensors := st.tensors.modify t fun x => { x with data := v.reset m x.data } }) st

/-- The second loop (module.py:128-137). -/
def moveLoop (v : Devices D) (target : v.Dev) : List (Nat × v.Dev) → St D → Memo → Except Err (St D × Memo)
  | [], st, memo => .ok (st, memo)
  | (m, d) :: ms, st, memo =>
    if v.isMeta d then
      match applyOwn (emptyFn v target) m st memo with
      | .error e => .error e
      | .ok (st, memo) => moveLoop v target ms (resetOwn v m st) memo
    else
      match applyOwn (moveFn v target) m st memo with
      | .error e => .error e
      | .ok (st, memo) => moveLoop v target ms st memo

/-- `to_device` (module.py:100-137); the state after an error is given as well. -/
def toDevice (v : Devices D) (target : v.Dev) (t : Tree) (st : St D) : Except Err Unit × St D :=
  match toMove v target st ((visit true "module" t []).1.filterMap (·.2)) with
  | .error e => (.error e, st)
  | .ok ms =>
    match moveLoop v target ms st [] with
    | .error e => (.error e, st)
    | .ok (st', _) => (.ok (), st')

/-! ### Sharing -/

/-- `named_parameters()` (`which` gives the slots of a module): modules are walked parents first, every tensor is
given once. -/
def named (which : Nat → List (String × Nat)) (t : Tree) : List (String × Nat) :=
  let all := (visit false "" t []).1.flatMap fun e =>
    match e.2 with
    | none => []
    | some m => (which m).map fun s => (join e.1 s.1, s.2)
  all.foldl (fun r s => if s.2 ∈ r.map (·.2) then r else r ++ [s]) []

/-- The loop of `share_parameters` (module.py:184-200). -/
def pairUp (st : St D) : List ((String × Nat) × (String × Nat)) → Memo → Except Err Memo
  | [], memo => .ok memo
  | ((sn, s), (tn, t)) :: r, memo =>
    if sn ≠ tn then .error .value
    else if ((st.tensors[s]?).bind (·.grad)).isSome then .error .value
    else if ((st.tensors[t]?).bind (·.grad)).isSome then .error .value
    else pairUp st r ((t, s) :: memo)

/-- `share_parameters` (module.py:165-207). -/
def share (source target : Tree) (st : St D) : Except Err (St D) :=
  let sources := named st.params source ++ named st.buffers source
  let targets := named st.params target ++ named st.buffers target
  if sources.length ≠ targets.length then .error .value
  else
    match pairUp st (sources.zip targets) [] with
    | .error e => .error e
    | .ok memo => applyToParameters (fun _ => .error .notMemoized) memo target st

/-! ### Broadcasting -/

/-- Adds tensors that are not in the memo. -/
def collectParams : List Nat → List Nat × List Nat → List Nat × List Nat
  | [], a => a
  | p :: ps, (memo, out) => if p ∈ memo then collectParams ps (memo, out) else collectParams ps (p :: memo, out ++ [p])

/-- The loop over the buffers (module.py:417-431). -/
def collectBuffers (all : Bool) (nonPersistent : String → Bool) :
    List (String × Nat) → List Nat × List Nat → List Nat × List Nat
  | [], a => a
  | (n, b) :: bs, (memo, out) =>
    if b ∈ memo then collectBuffers all nonPersistent bs (memo, out)
    else if !all && nonPersistent n then collectBuffers all nonPersistent bs (b :: memo, out)
    else collectBuffers all nonPersistent bs (b :: memo, out ++ [b])

mutual

/-- `collect_tensors` (module.py:396-431); the second list is `tensors`. -/
def collect (st : St D) (nonPersistent : Nat → String → Bool) (all : Bool) (skip : List Nat) :
    Tree → List Nat × List Nat → List Nat × List Nat
  | .node id cs, a =>
    if id ∈ skip then a
    else
      let a := collectAll st nonPersistent all skip cs [] a
      let a := collectParams ((st.params id).map (·.2)) a
      collectBuffers all (nonPersistent id) (st.buffers id) a

def collectAll (st : St D) (nonPersistent : Nat → String → Bool) (all : Bool) (skip : List Nat) :
    Children → List Nat → List Nat × List Nat → List Nat × List Nat
  | .nil, _, a => a
  | .missing _ rest, given, a => collectAll st nonPersistent all skip rest given a
  | .child _ t rest, given, a =>
    if t.id ∈ given then collectAll st nonPersistent all skip rest given a
    else collectAll st nonPersistent all skip rest (t.id :: given) (collect st nonPersistent all skip t a)

end

/-- The tensors that `broadcast_module` broadcasts, in order. -/
def broadcastTensors (st : St D) (nonPersistent : Nat → String → Bool) (all : Bool) (skip : List Nat) (t : Tree) :
    List Nat := (collect st nonPersistent all skip t ([], [])).2

/-- The values of the tensors that a process sends. -/
def sent (st : St D) (ts : List Nat) : List (Option D) := ts.map fun t => (st.tensors[t]?).map (·.data)

/-- Writes the values that arrive to the tensors, one after the other. -/
def receive : List Nat → List (Option D) → St D → St D
  | t :: ts, d :: ds, st =>
    receive ts ds { st with tensors := st.tensors.modify t fun x => { x with data := d.getD x.data } }
  | _, _, st => st

/-- `broadcast_module` (module.py:359-443) in all processes, given by their states: `_broadcast_coalesced` sends the k-th
tensor of the source to the k-th tensor of every process. `to_device`, which is called before, is left out; so is the
warning. -/
def broadcastModule (nonPersistent : Nat → String → Bool) (all : Bool) (skip : List Nat) (t : Tree) (source : Nat)
    (sts : Nat → St D) : Nat → St D := fun r =>
  receive (broadcastTensors (sts r) nonPersistent all skip t)
    (sent (sts source) (broadcastTensors (sts source) nonPersistent all skip t)) (sts r)

/-! ### Loading -/

/-- The unexpected keys of `load_state_dict` (module.py:446-475): those below what is `None`. The order in which they are
reported and what PyTorch's own `load_state_dict` does are left out. -/
def unexpectedKeys (t : Tree) (keys : List String) : List String :=
  (visit false "" t []).1.flatMap fun e =>
    match e.2 with
    | some _ => []
    | none => keys.filter fun k => (e.1 ++ ".").toList.isPrefixOf k.toList

end Fs2.Mod
