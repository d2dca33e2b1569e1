/-!
# Stacks of layers: hooks and LayerDrop

Models `StandardTransformerEncoder.forward` and `_drop_iter` (src/fairseq2/models/transformer/encoder.py:139-184), whose
loop `StandardTransformerDecoder` repeats (src/fairseq2/models/transformer/decoder.py:149-209), and the hook with which
`W2VBertModel.forward` takes the output of a layer (src/fairseq2/models/w2vbert/model.py:82-98).

A layer is a function of the sequences: layout, attention bias cache and the dropout inside of a layer are fixed. `norm` is
the final layer norm followed by dropout. The numbers of `torch.rand` are given, one for each layer. Hooks are called with a
world `σ` that they may change, in the order in which they were registered. A hook that raises is not modelled, and a hook
does not change the tensor that it is given. Only the values are modelled, not the gradients of dropped layers.
-/

namespace Fs2.Hooks

variable {X σ : Type}

/-- `TransformerEncoderLayerHook`: index, output and number of layers (encoder.py:73-93). -/
abbrev Hook (X σ : Type) := σ → Nat → X → Nat → Bool × σ

structure Stack (X : Type) where
  layers : List (X → X)
  norm : X → X
  /-- `layer_drop_p` -/
  dropP : Rat
  training : Bool

inductive Exc where
  /-- `InvalidOperationError` -/
  | invalidOperation
  deriving DecidableEq

/-- Whether LayerDrop is on (encoder.py:142, 174). -/
def Stack.drops (s : Stack X) : Bool := s.training && decide (0 < s.dropP)

/-- `_drop_iter` (encoder.py:173-184), as a list; `rand` are the numbers that are drawn. -/
def Stack.dropIter (s : Stack X) (rand : Nat → Rat) : List ((X → X) × Bool) :=
  s.layers.zipIdx.map fun (m, idx) => (m, s.drops && decide (rand idx ≤ s.dropP))

/-- The loop over the hooks (encoder.py:161-163). -/
def callHooks (idx : Nat) (x : X) (numLayers : Nat) : List (Hook X σ) → σ → σ
  | [], w => w
  | hook :: hooks, w =>
    match hook w idx x numLayers with
    | (true, w) => callHooks idx x numLayers hooks w
    | (false, w) => w

/-- The loop over the layers (encoder.py:151-163). -/
def loop (hooks : List (Hook X σ)) (numLayers : Nat) : Nat → List ((X → X) × Bool) → X → σ → X × σ
  | _, [], x, w => (x, w)
  | idx, (layer, drop) :: rest, x, w =>
    let out := layer x
    if drop then loop hooks numLayers (idx + 1) rest x w
    else loop hooks numLayers (idx + 1) rest out (callHooks idx out numLayers hooks w)

/-- `forward` (encoder.py:140-171). -/
def Stack.forward (s : Stack X) (hooks : List (Hook X σ)) (rand : Nat → Rat) (x : X) (w : σ) : Except Exc (X × σ) :=
  if !hooks.isEmpty && s.drops then .error .invalidOperation
  else
    let r := loop hooks s.layers.length 0 (s.dropIter rand) x w
    .ok (s.norm r.1, r.2)

/-- The hook of `W2VBertModel.forward`; the world is `w2v2_features.seqs` (w2vbert/model.py:84-93). -/
def bertHook (numBert : Int) : Hook X X :=
  fun seqs idx out numLayers => (true, if (idx : Int) = (numLayers : Int) - numBert - 1 then out else seqs)

/-- The encoder's output and the features that the contrastive loss gets (w2vbert/model.py:82-100). -/
def bertEncode (s : Stack X) (numBert : Int) (rand : Nat → Rat) (seqs : X) : Except Exc (X × X) :=
  s.forward [bertHook numBert] rand seqs seqs

end Fs2.Hooks
