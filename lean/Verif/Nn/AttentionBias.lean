import Mathlib.Analysis.SpecialFunctions.Pow.Real
import Verif.Nn.BatchLayout

/-!
# Attention biases

Models `src/fairseq2/models/transformer/attention_bias.py`. A tensor is its shape and a function from
indices to entries, which are `-inf` or a number; numbers are exact reals. An exception is `none`.
-/

namespace Fs2.Nn

/-- An entry of a bias tensor. -/
inductive Entry where
  | negInf
  | fin (x : ℝ)

/-- Addition of floats, as far as needed: `-inf + x = -inf`. -/
def Entry.add : Entry → Entry → Entry
  | .fin x, .fin y => .fin (x + y)
  | _, _ => .negInf

/-- A tensor of shape `(q, k)` if `heads` is `none`, or `(heads, q, k)`. The first argument of `at` is
the head; it is ignored by a tensor without that dimension. -/
structure BiasTensor where
  heads : Option Nat
  q : Nat
  k : Nat
  at' : Nat → Nat → Nat → Entry

/-- The subclasses of `AttentionBias`. -/
inductive BiasKind where
  | identity
  | causal (window : Option Int)
  | chunked (size : Nat)
  | alibi (numHeads : Nat)
  deriving DecidableEq

/-- `_create_causal_bias_tensor` (attention_bias.py:208-234) with `from_bottom_right=True`, the only way
it is called: `tril_(d)` keeps the entries with `j - i ≤ d`, `triu_(e)` those with `j - i ≥ e`;
the others become 0, and the logarithm makes 0 of 1 and `-inf` of 0. -/
def causalTensor (q k : Nat) (window : Int) : BiasTensor :=
  let d : Int := (k : Int) - q
  { heads := none, q, k
    at' := fun _ i j =>
      if (j : Int) - i ≤ d ∧ (window < q → d - window + 1 ≤ (j : Int) - i) then .fin 0 else .negInf }

/-- The methods `create_bias_tensor` (attention_bias.py:41-46, 73-92, 116-138, 163-203). A chunk size of
zero and zero heads make torch or Python raise for a division by zero. -/
noncomputable def BiasKind.create (b : BiasKind) (q k : Nat) : Option BiasTensor :=
  match b with
  | .identity => some { heads := none, q, k, at' := fun _ _ _ => .fin 0 }
  | .causal window => some (causalTensor q k (window.getD q))
  | .chunked size =>
    if q ≠ k then none
    else if size = 0 then none
    else some {
      heads := none, q, k
      at' := fun _ i j => .fin (if (j / size = i / size) ∧ (j : Int) - i ≤ 0 then 1 else 0) }
  | .alibi numHeads =>
    if numHeads = 0 then none
    else
      let slope : Nat → ℝ := fun h => ((2 : ℝ) ^ (-8 / (numHeads : ℝ))) ^ (h + 1)
      some {
        heads := some numHeads, q, k
        at' := fun h i j =>
          let bias := Entry.fin (j * slope h)
          if q > 1 then bias.add ((causalTensor q k q).at' h i j) else bias }

/-- `_get_seq_ranges` (attention_bias.py:329-341), from the given start. -/
def seqRanges : Nat → List Nat → List (Nat × Nat)
  | _, [] => []
  | beg, n :: ns => (beg, beg + n) :: seqRanges (beg + n) ns

/-- Whether an index is inside a slice of the first two dimensions. -/
def covers (r c : Nat × Nat) (i j : Nat) : Bool := r.1 ≤ i && i < r.2 && c.1 ≤ j && j < c.2

/-- `tensor[q0:q1, k0:k1] = 0.0` -/
def BiasTensor.zero (t : BiasTensor) (r c : Nat × Nat) : BiasTensor :=
  { t with at' := fun h i j => if covers r c i j then .fin 0 else t.at' h i j }

/-- `tensor[q0:q1, k0:k1] = src` for a tensor without head dimension. Leading dimensions of size one are
dropped from the source; more heads cannot be assigned. -/
def BiasTensor.put (t : BiasTensor) (r c : Nat × Nat) (src : BiasTensor) : Option BiasTensor :=
  if src.heads.getD 1 ≠ 1 then none
  else if r.2 ≤ t.q ∧ c.2 ≤ t.k then
    some { t with
      at' := fun h i j =>
        if covers r c i j then src.at' 0 (i - r.1) (j - c.1) else t.at' h i j }
  else none

/-- The loop of `_create_block_bias_tensor` (attention_bias.py:311-326). -/
noncomputable def blockLoop (b : BiasKind) :
    List ((Nat × Nat) × (Nat × Nat)) → Nat → Nat → BiasTensor → Option BiasTensor
  | [], _, _, t => some t
  | (r, c) :: rest, prevQ, prevK, t =>
    let t := if prevQ ≠ r.1 ∧ prevK ≠ c.1 then t.zero (prevQ, r.1) (prevK, c.1) else t
    if r.1 ≠ r.2 ∧ c.1 ≠ c.2 then do
      let src ← b.create (r.2 - r.1) (c.2 - c.1)
      let t ← t.put r c src
      blockLoop b rest r.2 c.2 t
    else blockLoop b rest r.2 c.2 t

/-- `_create_block_bias_tensor` (attention_bias.py:287-326). -/
noncomputable def blockTensor (b : BiasKind) (qLens : List Nat) (qLen : Nat) (kLens : List Nat)
    (kLen : Nat) : Option BiasTensor :=
  let qr := seqRanges 0 qLens
  let kr := seqRanges 0 kLens
  if qr = [(0, qLen)] ∧ kr.head? = some (0, kLen) then b.create qLen kLen
  else
    blockLoop b ((qr ++ [(qLen, qLen)]).zip (kr ++ [(kLen, kLen)])) 0 0
      { heads := none, q := qLen, k := kLen, at' := fun _ _ _ => .negInf }

/-- What `materialize_attention_bias` returns: a scalar zero, one tensor for the whole batch, or a stack
of one tensor per row of the batch. -/
inductive Materialized where
  | scalar
  | one (t : BiasTensor)
  | stack (ts : List BiasTensor)

/-- The entry of the bias that is added to the score of a query and a key: the dimensions a tensor does
not have are broadcast. -/
def Materialized.entry (m : Materialized) (row head i j : Nat) : Entry :=
  match m with
  | .scalar => .fin 0
  | .one t => t.at' head i j
  | .stack ts =>
    match ts[row]? with
    | none => .fin 0
    | some t => t.at' head i j

/-- `torch.stack` of three-dimensional tensors: all shapes must be equal. -/
def stackTensors (ts : List BiasTensor) : Option Materialized :=
  match ts with
  | [] => none
  | t :: rest =>
    if rest.all fun u => u.heads = t.heads ∧ u.q = t.q ∧ u.k = t.k then some (.stack ts) else none

/-- `materialize_attention_bias` (attention_bias.py:237-284). -/
noncomputable def materialize (b : BiasKind) (Q K : Layout) : Option Materialized :=
  if Q.packed ^^ K.packed then none
  else if Q.seqLens.length ≠ K.seqLens.length then none
  else if Q.seqLens.length = 0 then some .scalar
  else
    let qLen := Q.width.toNat
    let kLen := K.width.toNat
    if Q.packed then
      (blockTensor b (Q.seqLens.map Int.toNat) qLen (K.seqLens.map Int.toNat) kLen).map .one
    else if !Q.padded ∧ !K.padded then (b.create qLen kLen).map .one
    else do
      let ts ← (Q.seqLens.zip K.seqLens).mapM fun (n, m) => do
        let t ← blockTensor b [n.toNat] qLen [m.toNat] kLen
        some { t with heads := some (t.heads.getD 1) }
      stackTensors ts

/-- `maybe_get_attention_bias_tensor` (attention_bias.py:367-388) with an empty cache; the inner `none`
is Python's `None`, no bias at all. -/
noncomputable def maybeGet (b : BiasKind) (Q K : Layout) : Option (Option Materialized) :=
  let full (L : Layout) : Bool := !L.packed && !L.padded
  if b = .identity ∧ full Q ∧ full K then some none
  else
    let skip : Bool := match b with
      | .causal _ | .chunked _ => !Q.packed && Q.maxSeqLen = 1
      | _ => false
    if skip then some none
    else (materialize b Q K).map some

/-- `AttentionBiasCache` (attention_bias.py:347-364): the key of an entry is the bias; the other part of
the key is always "tensor" here. -/
abbrev BiasCache := List (BiasKind × Materialized)

/-- `_get_attention_bias_tensor` (attention_bias.py:391-409): the value and the new cache. -/
noncomputable def getCached (b : BiasKind) (Q K : Layout) (cache : BiasCache) :
    Option (Materialized × BiasCache) :=
  match cache.find? (fun e => e.1 = b) with
  | some e => some (e.2, cache)
  | none => (materialize b Q K).map fun t => (t, (b, t) :: cache)

/-! ## Attention -/

/-- `exp` of a score with a bias added; `exp(-inf) = 0`. -/
noncomputable def expBias (score : ℝ) : Entry → ℝ
  | .negInf => 0
  | .fin x => Real.exp (score + x)

/-- The dot product of the first `d` entries. -/
def dot (d : Nat) (x y : Nat → ℝ) : ℝ := ∑ c ∈ Finset.range d, x c * y c

/-- One output of `naive_scaled_dot_product_attention` (sdpa/naive.py:110-147) in one head, without
dropout: query `x`, `n` keys and values of dimension `d`, the bias row of the query, the output component
`c`. If every key is hidden, the softmax is 0/0 and the output `nan`, here `none`. Exact reals instead of
floats. -/
noncomputable def attend (scale : ℝ) (d n : Nat) (x : Nat → ℝ) (k v : Nat → Nat → ℝ)
    (bias : Nat → Entry) (c : Nat) : Option ℝ :=
  let w (j : Nat) : ℝ := expBias (dot d x (k j) * scale) (bias j)
  let total := ∑ j ∈ Finset.range n, w j
  if total = 0 then none
  else some (∑ j ∈ Finset.range n, w j / total * v j c)

end Fs2.Nn
