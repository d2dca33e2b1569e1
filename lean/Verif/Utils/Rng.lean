/-!
# Bags of random number generators

Models `RngBag` (src/fairseq2/utils/rng.py:37-151).

Generators are PyTorch objects. They are numbered here, a bag holds numbers, and a world says which state every
generator has. `seeded n` is the state after `manual_seed(n)`. States are values: `get_state` and `clone` copy.
-/

namespace Fs2.RngBag

/-- The states of all generators. -/
abbrev World (S : Type) := Nat → S

def World.set {S : Type} (w : World S) (g : Nat) (s : S) : World S := fun i => if i = g then s else w i

/-- Devices: the index of a CUDA device may be missing. -/
inductive Device where
  | cpu
  | cuda (idx : Option Nat)
  | metaDevice
  | other
  deriving DecidableEq

/-- The number of a device's default generator; `current` is `torch.cuda.current_device()`. -/
def generatorOf (current : Nat) : Device → Option Nat
  | .cpu => some 0
  | .cuda idx => some (idx.getD current + 1)
  | _ => none

/-- The loop of `from_device_defaults` (rng.py:50-77); `none` is the `ValueError`. -/
def defaultsLoop (current : Nat) : List Device → List Device → List Nat → Option (List Nat)
  | [], _, gens => some gens
  | d :: ds, seen, gens =>
    if d ∈ seen ∨ d = .metaDevice then defaultsLoop current ds seen gens
    else
      match generatorOf current d with
      | some g => defaultsLoop current ds (d :: seen) (gens ++ [g])
      | none => none

/-- `from_device_defaults`. -/
def fromDeviceDefaults (current : Nat) (devices : List Device) : Option (List Nat) :=
  defaultsLoop current devices [] []

/-- What an operation ends with. -/
inductive Outcome (A : Type) where
  | ok (a : A)
  | valueError
  | stateDictError
  | raised (e : String)

/-- `for g in generators: g.manual_seed(seed)`. -/
def seedAll {S : Type} (seeded : Nat → S) (seed : Nat) : List Nat → World S → World S
  | [], w => w
  | g :: gs, w => seedAll seeded seed gs (w.set g (seeded seed))

/-- `seed` (rng.py:79-89): `fresh` is the random seed that the first generator takes. -/
def seed {S : Type} (seeded : Nat → S) (fresh : Nat) (bag : List Nat) (w : World S) : World S :=
  match bag with
  | [] => w
  | g :: gs => seedAll seeded fresh gs (w.set g (seeded fresh))

/-- `manual_seed` (rng.py:91-99). -/
def manualSeed {S : Type} (seeded : Nat → S) (bag : List Nat) (n : Int) (w : World S) : Outcome Unit × World S :=
  if n < 0 ∨ n ≥ 2 ^ 32 then (.valueError, w)
  else (.ok (), seedAll seeded n.toNat bag w)

/-- `for g, s in zip(generators, states): g.set_state(s)`. -/
def setStates {S : Type} : List (Nat × S) → World S → World S
  | [], w => w
  | (g, s) :: r, w => setStates r (w.set g s)

/-- A block under `temporary_manual_seed` (rng.py:101-112). `body` is the block, which may raise. -/
def temporarySeed {S A : Type} (seeded : Nat → S) (bag : List Nat) (n : Int)
    (body : World S → Outcome A × World S) (w : World S) : Outcome A × World S :=
  let states := bag.map w
  match manualSeed seeded bag n w with
  | (.ok (), w1) =>
    let r := body w1
    (r.1, setStates (bag.zip states) r.2)
  | (_, w1) => (.valueError, w1)

/-- Values in a state dictionary. -/
inductive Entry (S : Type) where
  | tensor (s : S)
  | list (l : List (Entry S))
  | other

/-- `state_dict` (rng.py:114-116). -/
def stateDict {S : Type} (bag : List Nat) (w : World S) : List (String × Entry S) :=
  [("generators", .list (bag.map fun g => .tensor (w g)))]

/-- The loop over the states (rng.py:142-149). -/
def loadLoop {S : Type} : List (Nat × Entry S) → World S → Bool × World S
  | [], w => (true, w)
  | (g, .tensor s) :: r, w => loadLoop r (w.set g s)
  | _ :: _, w => (false, w)

/-- `load_state_dict` (rng.py:118-151); keys of the dictionary are distinct. -/
def loadStateDict {S : Type} (bag : List Nat) (d : List (String × Entry S)) (w : World S) :
    Outcome Unit × World S :=
  match d.lookup "generators" with
  | some (.list l) =>
    if l.length ≠ bag.length then (.stateDictError, w)
    else
      match loadLoop (bag.zip l) w with
      | (true, w1) =>
        if (d.filter fun e => e.1 != "generators").isEmpty then (.ok (), w1) else (.stateDictError, w1)
      | (false, w1) => (.stateDictError, w1)
  | _ => (.stateDictError, w)

end Fs2.RngBag
