/-
Model of the dependency container.

Source: /repo/src/fairseq2/runtime/dependency.py.

Providers, and the clients of the container, are programs that call the container, look at what it returns
or raises, change the outside world and create objects, and finally return or raise. Registrations of the
container and of its collection are one list; a registration says which one it belongs to. Threads are not
modelled (the container has no locks).
-/

namespace Fs2.Dep

/-- What is raised: `DependencyNotFoundError`, `DependencyCycleError`, the `InternalError` for objects of a
wrong type, `InvalidOperationError`, the use of a registration that was not handed out, and any exception of
a provider. -/
inductive Err (Key : Type) where
  | notFound (key : Key)
  | cycle (keys : List Key)
  | wrongType
  | invalidOperation
  | noSuchMember
  | other (n : Nat)
deriving DecidableEq

/-- A provider or a client. `register` and `resolve` are calls of the container, `collect` is
`collection.resolve`, which gives the registrations it will go through, and `member` is one step of that
iteration. `effect` is anything that happens outside of the container. -/
inductive Prog (Key Obj W : Type) where
  | ret (obj : Option Obj)
  | fail (e : Err Key)
  | effect (f : W → W × Option Obj) (cont : Option Obj → Prog Key Obj W)
  | register (key : Key) (plain : Bool) (provider : Prog Key Obj W) (singleton : Bool)
      (cont : Except (Err Key) Unit → Prog Key Obj W)
  | resolve (key : Key) (cont : Except (Err Key) Obj → Prog Key Obj W)
  | collect (key : Key) (cont : List Nat → Prog Key Obj W)
  | member (i : Nat) (cont : Except (Err Key) (Option Obj) → Prog Key Obj W)

/-- `_DependencyRegistration` (dependency.py:316-331); `plain` tells those of the container from those of
the collection; `obj = none` is `_NOT_SET`, and `some none` a provider that has returned `None`. -/
structure Reg (Key Obj W : Type) where
  key : Key
  plain : Bool
  provider : Prog Key Obj W
  singleton : Bool
  obj : Option (Option Obj)
  inCall : Bool

/-- What happened: a provider has returned an object, an object was handed out. -/
inductive Event (Obj : Type) where
  | created (i : Nat) (obj : Option Obj)
  | given (i : Nat) (obj : Option Obj)

/-- The container (dependency.py:100-104, 215-218), the outside world, and a log of what happened (which
the code does not have). -/
structure State (Key Obj W : Type) where
  regs : List (Reg Key Obj W)
  frozen : Bool
  world : W
  log : List (Event Obj)

/-- A new container. -/
def State.init {Key Obj W : Type} (w : W) : State Key Obj W := ⟨[], false, w, []⟩

variable {Key Obj W : Type} [DecidableEq Key]

/-- The registration of a key in the container. -/
def lookup (key : Key) (regs : List (Reg Key Obj W)) : Option Nat :=
  regs.findIdx? fun r => r.plain && decide (r.key = key)

/-- The registrations of a key in the collection. -/
def members (key : Key) (regs : List (Reg Key Obj W)) : List Nat :=
  (List.range regs.length).filter fun i => (regs[i]?).any fun r => !r.plain && decide (r.key = key)

/-- `_do_register` of the container and of the collection (dependency.py:143-161, 257-272). -/
def register (key : Key) (plain : Bool) (provider : Prog Key Obj W) (singleton : Bool) (s : State Key Obj W) :
    State Key Obj W × Except (Err Key) Unit :=
  if s.frozen then (s, .error .invalidOperation)
  else if plain && (lookup key s.regs).isSome then (s, .error .invalidOperation)
  else ({ s with regs := s.regs ++ [⟨key, plain, provider, singleton, none, false⟩] }, .ok ())

/-- The beginning of both `resolve`s (dependency.py:165, 276). -/
def freeze (s : State Key Obj W) : State Key Obj W := { s with frozen := true }

/-- The result of a run: the state afterwards and what was returned or raised; `none` if the run is cut
off. -/
abbrev Outcome (Key Obj W α : Type) := Option (State Key Obj W × Except (Err Key) α)

/-- `resolve` (dependency.py:163-187), given `get_instance`. -/
def resolveWith (inst : Nat → State Key Obj W → Outcome Key Obj W (Option Obj)) (key : Key)
    (s : State Key Obj W) : Outcome Key Obj W Obj :=
  let s := freeze s
  match lookup key s.regs with
  | none => some (s, .error (.notFound key))
  | some i =>
    match inst i s with
    | none => none
    | some (s, .error e) => some (s, .error e)
    | some (s, .ok none) => some (s, .error (.notFound key))
    | some (s, .ok (some obj)) => some (s, .ok obj)

/-- Runs a program, given `get_instance`. -/
def run (inst : Nat → State Key Obj W → Outcome Key Obj W (Option Obj)) :
    Prog Key Obj W → State Key Obj W → Outcome Key Obj W (Option Obj)
  | .ret obj, s => some (s, .ok obj)
  | .fail e, s => some (s, .error e)
  | .effect f cont, s => run inst (cont (f s.world).2) { s with world := (f s.world).1 }
  | .register key plain provider singleton cont, s =>
    run inst (cont (register key plain provider singleton s).2) (register key plain provider singleton s).1
  | .resolve key cont, s =>
    match resolveWith inst key s with
    | none => none
    | some (s, r) => run inst (cont r) s
  | .collect key cont, s => run inst (cont (members key s.regs)) (freeze s)
  | .member i cont, s =>
    if s.frozen then
      match inst i s with
      | none => none
      | some (s, r) => run inst (cont r) s
    else run inst (cont (.error .noSuchMember)) s

/-- `self.in_call = b`. -/
def setCall (i : Nat) (b : Bool) (s : State Key Obj W) : State Key Obj W :=
  { s with regs := s.regs.modify i fun r => { r with inCall := b } }

/-- `self.obj = obj`. -/
def setObj (i : Nat) (obj : Option Obj) (s : State Key Obj W) : State Key Obj W :=
  { s with regs := s.regs.modify i fun r => { r with obj := some obj } }

/-- Adds to the log. -/
def note (e : Event Obj) (s : State Key Obj W) : State Key Obj W := { s with log := s.log ++ [e] }

/-- The cycle gets longer on the way out (dependency.py:342-347). -/
def wrap (key : Key) : Err Key → Err Key
  | .cycle keys => .cycle (key :: keys)
  | e => e

/-- The end of `get_instance` (dependency.py:356-361). -/
def handOut (isInst : Obj → Key → Bool) (i : Nat) (key : Key) (obj : Option Obj) (s : State Key Obj W) :
    State Key Obj W × Except (Err Key) (Option Obj) :=
  if obj.all fun o => isInst o key then (note (.given i obj) s, .ok obj) else (s, .error .wrongType)

/-- `get_instance` (dependency.py:333-361); `fuel` bounds the depth of nested calls. -/
def getInstance (isInst : Obj → Key → Bool) :
    Nat → Nat → State Key Obj W → Outcome Key Obj W (Option Obj)
  | fuel, i, s =>
    match s.regs[i]? with
    | none => some (s, .error .noSuchMember)
    | some reg =>
      match reg.obj with
      | some obj => some (handOut isInst i reg.key obj s)
      | none =>
        if reg.inCall then some (s, .error (.cycle [reg.key]))
        else
          match fuel with
          | 0 => none
          | fuel + 1 =>
            match run (getInstance isInst fuel) reg.provider (setCall i true s) with
            | none => none
            | some (s, .error e) => some (setCall i false s, .error (wrap reg.key e))
            | some (s, .ok obj) =>
              let s := note (.created i obj) (setCall i false s)
              let s := if reg.singleton then setObj i obj s else s
              some (handOut isInst i reg.key obj s)

/-- `get_instance` with as much depth as there are registrations. -/
def instanceOf (isInst : Obj → Key → Bool) (i : Nat) (s : State Key Obj W) :
    Outcome Key Obj W (Option Obj) := getInstance isInst s.regs.length i s

/-- Runs a client of the container. -/
def exec (isInst : Obj → Key → Bool) (p : Prog Key Obj W) (s : State Key Obj W) :
    Outcome Key Obj W (Option Obj) := run (instanceOf isInst) p s

/-- A call of `resolve`. -/
def request (key : Key) : Prog Key Obj W :=
  .resolve key fun r => match r with
    | .ok obj => .ret (some obj)
    | .error e => .fail e

/-- A call of `maybe_resolve` (dependency.py:189-197). -/
def maybeRequest (key : Key) : Prog Key Obj W :=
  .resolve key fun r => match r with
    | .ok obj => .ret (some obj)
    | .error e => if e = .notFound key then .ret none else .fail e

/-- `wire_object` for a class whose parameters are all of the kind that is resolved with `resolve`
(dependency.py:399-402, 595-606): the dependencies in their order, then the constructor. -/
def wire (build : List Obj → W → W × Obj) : List Key → List Obj → Prog Key Obj W
  | [], args => .effect (fun w => ((build args w).1, some (build args w).2)) fun obj => .ret obj
  | key :: keys, args =>
    .resolve key fun r => match r with
      | .ok obj => wire build keys (args ++ [obj])
      | .error e => .fail e

end Fs2.Dep
