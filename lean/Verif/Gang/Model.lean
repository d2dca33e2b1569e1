/-!
# Gangs

Model of src/fairseq2/gang.py.  A gang is the list of the root ranks of its members; the
rank of a process in a gang is its position.  Constructors of process groups
(`dist.new_group`, `split_group`) are taken to give each listed process the group of its
list; what the code decides, validates and in which order, is modelled.
-/

namespace Fs2.Gang

inductive Err where
  /-- `ValueError` -/
  | value
  /-- `InvalidOperationError` (gang.py:515-518) -/
  | invalidOperation
  /-- `InternalError` (gang.py:975, 1013, 1129, 1168) -/
  | internal
deriving DecidableEq, Repr

abbrev M := Except Err

/-- A gang as one member sees it: all members in order.  `world` marks the gang of the
default process group (`dist.group.WORLD`). -/
structure Gang where
  members : List Nat
  world : Bool := false
deriving DecidableEq, Repr

def Gang.size (g : Gang) : Nat := g.members.length

/-- The rank in `g` of the process with root rank `r`. -/
def Gang.rank (g : Gang) (r : Nat) : Nat := g.members.idxOf r

/-- `FakeGang.__init__` (gang.py:277-291) without the device check: (rank, size). -/
def fakeGang (rank size : Int) : M (Int × Int) :=
  if size ≤ 0 then throw .value
  else if rank < 0 ∨ rank ≥ size then throw .value
  else pure (rank, size)

/-- `_check_ranks` (gang.py:636-645). -/
def checkRanks (ranks : List Int) (gangSize : Int) : M Unit :=
  if ranks.eraseDups.length ≠ ranks.length then throw .value
  else if ranks.any (fun rank => rank < 0 ∨ rank > gangSize) then throw .value
  else pure ()

/-- `FakeGang.create_gang` (gang.py:298-306) of rank `me` of `size`. -/
def FakeGang.createGang (me size : Int) (ranks : List Int) : M (Option (Int × Int)) := do
  checkRanks ranks size
  match ranks.idxOf? me with
  | none => pure none
  | some i => (fakeGang i ranks.length).map some

/-- `ProcessGroupGang.create_gang` (gang.py:512-539) of gang `g` on the process with root
rank `r`; `none` if the process is not listed. -/
def createGang (g : Gang) (r : Nat) (ranks : List Nat) : M (Option Gang) := do
  checkRanks (ranks.map Int.ofNat) g.size
  if g.world then
    if g.rank r ∈ ranks then pure (some ⟨ranks.filterMap (g.members[·]?), false⟩) else pure none
  else throw .invalidOperation

/-- `split_group` (gang.py:957-968, 995-1006): the process gets the group that lists it. -/
def splitGroup (g : Gang) (r : Nat) (groups : List (List Nat)) : Option Gang :=
  (groups.find? fun ranks => g.rank r ∈ ranks).map fun ranks =>
    ⟨ranks.filterMap (g.members[·]?), false⟩

/-- `torch.arange(rows * cols).view(rows, cols)`. -/
def mesh (rows cols : Nat) : List (List Nat) :=
  (List.range rows).map fun i => (List.range cols).map fun j => i * cols + j

/-- `mesh.T`. -/
def meshT (rows cols : Nat) : List (List Nat) :=
  (List.range cols).map fun j => (List.range rows).map fun i => i * cols + j

/-- The loop `for i in range(n): sub = g.create_gang(groups[i]); if i == k: keep = sub`
(gang.py:970-973, 1008-1011, 1124-1127, 1163-1166). -/
def createAll (g : Gang) (r : Nat) (k : Nat) : List (List Nat) → Nat → Option Gang → M (Option Gang)
  | [], _, keep => pure keep
  | ranks :: rest, i, keep => do
    let sub ← createGang g r ranks
    createAll g r k rest (i + 1) (if i = k then sub else keep)

/-- The `match` that builds one family of gangs (gang.py:948-973, 986-1011, 1100-1127,
1139-1166): `size` members each, `groups` the lists, `k` the index of the group of this process.
`cuda`: the device is a cuda device. -/
def family (cuda : Bool) (g : Gang) (r size : Nat) (groups : List (List Nat)) (k : Nat) : M Gang := do
  let o ←
    if size = 1 then pure (some ⟨[r], false⟩)
    else if size = g.size then pure (some g)
    else if cuda then pure (splitGroup g r groups)
    else createAll g r k groups 0 none
  match o with
  | none => throw .internal
  | some g => pure g

/-- `Gangs` on one process. -/
structure Gangs where
  root : Gang
  dp : Gang
  rdp : Gang
  sdp : Gang
  tp : Gang
  pp : Gang
deriving DecidableEq, Repr

/-- `Gangs.__post_init__` (gang.py:690-695); `and` binds tighter than `or`. -/
def Gangs.postInit (gs : Gangs) (r : Nat) : M Unit :=
  if gs.root.rank r = 0 then
    if gs.dp.rank r ≠ 0 ∨ (gs.tp.rank r ≠ 0 ∧ gs.pp.rank r ≠ 0) then throw .value else pure ()
  else pure ()

/-- `create_parallel_gangs` (gang.py:907-1031). -/
def createParallel (cuda : Bool) (root : Gang) (r : Nat) (tpSize : Int) : M Gangs := do
  if tpSize < 1 then throw .value
  if (root.size : Int) % tpSize ≠ 0 then throw .value
  let tp := tpSize.toNat
  let dpSize := root.size / tp
  let dpRank := root.rank r / tp
  let tpRank := root.rank r % tp
  let dpG ← family cuda root r dpSize (meshT dpSize tp) tpRank
  let tpG ← family cuda root r tp (mesh dpSize tp) dpRank
  let gs : Gangs := ⟨root, dpG, dpG, ⟨[r], false⟩, tpG, ⟨[r], false⟩⟩
  gs.postInit r
  pure gs

/-- `create_fsdp_gangs` (gang.py:1034-1180). -/
def createFsdp (cuda : Bool) (gs : Gangs) (r : Nat) (intra : Option Int) : M Gangs :=
  match intra with
  | none => do
    let gs' : Gangs := { gs with rdp := ⟨[r], false⟩, sdp := gs.dp }
    gs'.postInit r
    pure gs'
  | some n => do
    if n ≤ 1 then throw .value
    if (gs.dp.size : Int) % n ≠ 0 then throw .value
    let intra := n.toNat
    let inter := gs.dp.size / intra
    let interRank := gs.dp.rank r / intra
    let intraRank := gs.dp.rank r % intra
    let interG ← family cuda gs.dp r inter (meshT inter intra) intraRank
    let intraG ← family cuda gs.dp r intra (mesh inter intra) interRank
    let gs' : Gangs := { gs with rdp := interG, sdp := intraG }
    gs'.postInit r
    pure gs'

/-- The gang of the default process group of `n` processes. -/
def world (n : Nat) : Gang := ⟨List.range n, true⟩

end Fs2.Gang
