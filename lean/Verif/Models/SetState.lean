import Verif.Nn.ModuleWalk

/-!
# Loading the state of a model

Models `set_model_state` (src/fairseq2/models/utils/checkpoint.py:19-91), which copies a checkpoint into a model, and how
`_do_load_model` (src/fairseq2/models/family.py:549-606) brings the result to the other data parallel ranks. Modules and
tensors are those of `Verif.Nn.Modules`. The progress bar is left out.
-/

namespace Fs2.Mod

variable {D : Type}

mutual

/-- `Module.state_dict(keep_vars=True)` of PyTorch: the parameters of a module, its persistent buffers, and what its
children have. A module that is reached in two ways is there twice. Names of PyTorch contain no dots, so that no entry is
overwritten. -/
def stateDict (st : St D) (nonPersistent : Nat → String → Bool) (pre : String) : Tree → List (String × Nat)
  | .node id cs =>
    (st.params id).map (fun s => (pre ++ s.1, s.2)) ++
      (((st.buffers id).filter fun s => !nonPersistent id s.1).map (fun s => (pre ++ s.1, s.2)) ++
        stateDictAll st nonPersistent pre cs)

def stateDictAll (st : St D) (nonPersistent : Nat → String → Bool) (pre : String) : Children → List (String × Nat)
  | .nil => []
  | .missing _ rest => stateDictAll st nonPersistent pre rest
  | .child n t rest =>
    stateDict st nonPersistent (pre ++ (n ++ ".")) t ++ stateDictAll st nonPersistent pre rest

end

/-- What `set_model_state` needs of tensors: `shape`, and what the first one holds after `copy_` from the second one. -/
structure Copying (D : Type) where
  shape : D → List Nat
  copy : D → D → D

/-- The local variables of `set_model_state`, and the tensors. -/
structure Loading (D : Type) where
  st : St D
  /-- `state_dict`. -/
  left : List (String × Nat)
  /-- `memo`. -/
  memo : List Nat
  /-- The keys in the errors about shapes. -/
  shapes : List String
  /-- `unexpected_keys`. -/
  unexpected : List String

/-- `state_tensor.copy_(tensor)`. -/
def copyInto (c : Copying D) (t : Nat) (d : D) (st : St D) : St D :=
  { st with tensors := st.tensors.modify t fun x => { x with data := c.copy x.data d } }

/-- One iteration of the loop (checkpoint.py:43-67). -/
def loadEntry (c : Copying D) (a : Loading D) (e : String × D) : Loading D :=
  match a.left.lookup e.1 with
  | none => { a with unexpected := a.unexpected ++ [e.1] }
  | some t =>
    let a := { a with left := a.left.filter fun s => !(s.1 == e.1) }
    match a.st.tensors[t]? with
    | none => a
    | some x =>
      if c.shape e.2 ≠ c.shape x.data then { a with shapes := a.shapes ++ [e.1] }
      else { a with st := copyInto c t e.2 a.st, memo := t :: a.memo }

/-- A `ModelCheckpointMismatchError`: the keys that it names. -/
structure Mismatch where
  shapes : List String
  missing : List String
  unexpected : List String
  deriving DecidableEq

/-- `set_model_state` (checkpoint.py:19-91): what it returns or raises, and the tensors afterwards. -/
def setModelState (c : Copying D) (nonPersistent : Nat → String → Bool) (t : Tree) (ckpt : List (String × D))
    (st : St D) : Except Mismatch Unit × St D :=
  let a := ckpt.foldl (loadEntry c) ⟨st, stateDict st nonPersistent "" t, [], [], []⟩
  let missing := (a.left.filter fun s => decide (s.2 ∉ a.memo)).map (·.1)
  if a.shapes = [] ∧ missing = [] ∧ a.unexpected = [] then (.ok (), a.st)
  else (.error ⟨a.shapes, missing, a.unexpected⟩, a.st)

/-- What `_do_load_model` (family.py:561-606) does with the models of the data parallel ranks, with `load_rank0_only`
unset, once they are on their devices: rank 0 reads the checkpoint, and its tensors are broadcast. The initialization of
non-persistent buffers is left out. With an error rank 0 does not get to the barrier, and neither do the others pass. -/
def loadOnRanks (c : Copying D) (nonPersistent : Nat → String → Bool) (t : Tree) (ckpt : List (String × D))
    (sts : Nat → St D) : Except Mismatch Unit × (Nat → St D) :=
  let r := setModelState c nonPersistent t ckpt (sts 0)
  let sts := fun k => if k = 0 then r.2 else sts k
  match r.1 with
  | .ok () => (.ok (), broadcastModule nonPersistent false [] t 0 sts)
  | .error m => (.error m, sts)

end Fs2.Mod
