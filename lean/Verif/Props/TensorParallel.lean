import Verif.Nn.TensorParallelRun
import Verif.Nn.Encoder
import Verif.Props.Decoder
import Mathlib.Tactic.NormNum

/-!
# C105: tensor parallelism does not change a decoder

`Dec.run m.whole` is the generation of the model on a single device (C96 says what it returns); `Tp.run m T` is that of
`T` ranks, each of which holds its parts of the projections, its parts of the key/value caches and memory of its own.
-/

namespace Fs2.Props
open Fs2.Nn Fs2.Dec
open Fs2.Tp hiding Model Layer Session run forwardLayers

/-- The tokens that a generation feeds are in the vocabulary. -/
def FeedsVocab (num : Nat) (ops : List Op) : Prop :=
  ∀ tokens, Op.feed tokens ∈ ops → ∀ row ∈ tokens, ∀ t ∈ row, t < num

/-- **Generations.** Whatever a generator feeds and reorders, and whatever the memory of the ranks holds at first, every
call returns on each of the `T` ranks what it returns on a single device with some memory, and the ranks raise if and
only if the single device does. -/
theorem C105_generation_partial {m : Tp.Model} {T : Nat} (h : m.Splits T) (junks : Nat → Heads) :
    ∃ junk, ∀ given b ops, FeedsVocab m.embed.num ops →
      (Tp.run m T junks given (Tp.Session.start m T b) ops).map Prod.fst =
        (Dec.run m.whole junk given (Dec.Session.start m.whole b) ops).map fun x => x.1.map (List.replicate T) := by
  obtain ⟨junk, hj⟩ := exists_glued h junks
  refine ⟨junk, fun given b ops hv => ?_⟩
  have := run_agree h hj given ops hv (start_rel m T b)
  revert this
  generalize Dec.run m.whole junk given (Dec.Session.start m.whole b) ops = w
  generalize Tp.run m T junks given (Tp.Session.start m T b) ops = p
  intro this
  cases this with
  | none => rfl
  | some h => simp [h.1, same]

/-- **Sequences.** A generation as the generators make them succeeds on all ranks, and every rank gets for every
sequence the logits of the whole sequence on its own, without cache and without sharding. -/
theorem C105_sequences_partial {m : Tp.Model} {T : Nat} (h : m.Splits T) (junks : Nat → Heads) {limit : Nat}
    (hm : GoodModel m.whole limit) {given : Option Source} {R : List Row} (hR : R ≠ [])
    (hempty : ∀ r ∈ R, r.tokens = []) (hg : NeedsSource m.whole → given ≠ none)
    (hsrc : ∀ g, given = some g → SourceInv g (R.map Row.src)) {M : Int} {inc : Option Int} {b : Bag}
    (hb : Bag.new M inc = some b) (hM : (limit : Int) < M) {ops : List Op} (hs : Sensible m.whole limit 0 R ops)
    (hv : FeedsVocab m.embed.num ops) :
    (Tp.run m T junks given (Tp.Session.start m T b) ops).map Prod.fst =
      some ((expected m.whole R ops).map (List.replicate T)) := by
  obtain ⟨junk, hj⟩ := C105_generation_partial h junks
  obtain ⟨s, e⟩ := C96_session_partial junk hm hR hempty hg hsrc hb hM hs
  rw [hj given b ops hv, e]
  rfl

theorem no_bag_junk (T : Nat) (junks junks' : Nat → Heads) (src : Option Source) (l : Layout) :
    ∀ (Ls : List Tp.Layer) (sts : List (List LayerState)) (xs : List (Batch Vec)),
    Tp.forwardLayers T junks none src l Ls sts xs = Tp.forwardLayers T junks' none src l Ls sts xs := by
  intro Ls
  induction Ls with
  | nil => intro sts xs; rfl
  | cons L Ls ih =>
    intro sts xs
    cases sts with
    | nil => rfl
    | cons st sts =>
      simp only [Tp.forwardLayers, ih]
      rfl

/-- **Batches.** A call without state, as in training and evaluation, returns on every rank what it returns on a single
device, for padded and for packed batches alike, and raises if and only if the single device does. -/
theorem C105_batch_partial {m : Tp.Model} {T : Nat} (h : m.Splits T) (junks : Nat → Heads) (src : Option Source)
    (l : Layout) {tokens : Batch Nat} (ht : ∀ row ∈ tokens, ∀ t ∈ row, t < m.embed.num) :
    (m.forwardAt T junks none src (m.layers.map fun _ => List.replicate T {}) l tokens).map Prod.fst =
      (Enc.decodeAll m.whole src tokens l).map (List.replicate T) := by
  have e : m.forwardAt T junks none src (m.layers.map fun _ => List.replicate T {}) l tokens =
      m.forwardAt T (fun _ _ _ => 0) none src (m.layers.map fun _ => List.replicate T {}) l tokens := by
    unfold Tp.Model.forwardAt
    simp only [no_bag_junk T junks (fun _ _ _ => 0)]
  have := forwardAt_agree h (junk := fun _ _ => 0) (junks := fun _ _ _ => 0) (fun _ _ _ _ _ _ => rfl) none src l
    (start_rel m T ⟨0, 0, none⟩).layers (tokens := tokens) ht
  rw [e]
  unfold Enc.decodeAll
  have e2 : (m.layers.map Tp.Layer.whole).map (fun _ => ({} : LayerState)) = m.whole.layers.map fun _ => {} := rfl
  revert this
  simp only [Dec.Session.start, Tp.Session.start]
  generalize m.forwardAt T (fun _ _ _ => 0) none src (m.layers.map fun _ => List.replicate T {}) l tokens = p
  have e3 : m.whole.pos = m.pos := rfl
  rw [e3]
  cases encode PosEnc.apply m.pos none l (tokens.map (List.map m.whole.embed)) with
  | none =>
    intro this
    cases this
    rfl
  | some xs =>
    simp only [Option.bind_some]
    generalize Dec.forwardLayers (fun _ _ => 0) none src l m.whole.layers (m.whole.layers.map fun _ => {}) xs = w
    intro this
    cases w with
    | none =>
      cases this
      rfl
    | some w =>
      cases this with
      | some h => simp [h.1, same]

/-- **Heads that cannot be spread.** If the number of key/value heads is no multiple of the size of the gang, attention
raises on every rank instead of giving each rank a part of a head. -/
theorem C105_refused {A : Attn} {T : Nat} (hk : A.k.outDim = A.kvHeads * A.headDim) (hd : 0 < A.headDim)
    (hT : 0 < T) (h : ¬ T ∣ A.kvHeads) (junks : Nat → Heads) (bag : Option Bag) (sts : Fin T → Option Cache)
    (l : Layout) (xs : Fin T → Batch Vec) :
    A.forwardSelf T junks bag (List.ofFn sts) l (List.ofFn xs) = none := by
  have hrank : ∀ r, A.rank T r = none := by
    intro r
    unfold Attn.rank
    cases A.q.column T r with
    | none => rfl
    | some q =>
      rw [Option.bind_some]
      unfold Lin.column
      by_cases h0 : A.k.outDim % T ≠ 0
      · rw [if_pos h0]; rfl
      · rw [if_neg h0, Option.bind_some]
        split
        · rfl
        · rw [Option.bind_some]
          cases A.out.row T r with
          | none => rfl
          | some out =>
            rw [Option.bind_some, if_pos]
            right; left
            intro e
            apply h
            obtain ⟨c, hc⟩ := Nat.dvd_of_mod_eq_zero (not_not.1 h0)
            obtain ⟨c', hc'⟩ := Nat.dvd_of_mod_eq_zero e
            simp only [hc, Nat.mul_div_cancel_left _ hT] at hc'
            rw [hk, hc'] at hc
            refine ⟨c', Nat.eq_of_mul_eq_mul_right hd ?_⟩
            rw [hc]
            ring
  unfold Attn.forwardSelf onRanks
  have : ∃ x, x ∈ ((List.ofFn sts).zip (List.ofFn xs)).zipIdx := by
    refine ⟨_, List.getElem_mem (n := 0) ?_⟩
    simp [hT]
  obtain ⟨x, hx⟩ := this
  rw [mapM_none hx (by beta_reduce; rw [hrank]; rfl)]
  rfl

/-- **Dauphin networks.** `DauphinFeedForwardNetwork` cannot be spread: its halves are cut out of the part of a rank,
and so other numbers are multiplied with each other than on a single device. -/
theorem C105_dauphin : ∃ (F : Ffn) (x : Vec), F.kind = .dauphin ∧ F.inner.outDim = 2 * F.out.inDim ∧
    2 ∣ F.out.inDim ∧ F.forward 2 (List.replicate 2 [[x]]) ≠ some (List.replicate 2 [[F.whole x]]) := by
  refine ⟨⟨.dauphin, ⟨1, 4, fun i _ => i + 1, none⟩, ⟨2, 1, fun _ _ => 1, none⟩, fun x => max x 0⟩, fun _ => 1, rfl, rfl,
    by decide, fun h => ?_⟩
  have h' := congrArg (Option.map fun ps => (place ((ps[0]?).getD []) 0 0) 0) h
  simp [Ffn.forward, Ffn.rank, Ffn.gate, Ffn.whole, onRanks, Lin.column, Lin.row, reduceSum, collective, place, hiddenOf,
    Lin.apply, Lin.bias, Finset.sum_range_succ, List.replicate] at h'
  norm_num at h'

/-- **Sparse activations.** `activation_sparsity` cannot be spread: every rank compares with the mean of its own part.
A `GLUFeedForwardNetwork` with a target sparsity of one half, whose inverse distribution function is zero. -/
theorem C105_sparse : ∃ (F : Ffn) (g : Lin) (x : Vec), F.kind = .sparse g 0 ∧ g.outDim = F.inner.outDim ∧
    F.inner.outDim = F.out.inDim ∧ 2 ∣ F.out.inDim ∧
    F.forward 2 (List.replicate 2 [[x]]) ≠ some (List.replicate 2 [[F.whole x]]) := by
  refine ⟨⟨.sparse ⟨1, 2, fun i _ => i, none⟩ 0, ⟨1, 2, fun _ _ => 1, none⟩, ⟨2, 1, fun _ _ => 1, none⟩, fun x => x⟩, _,
    fun _ => 1, rfl, rfl, rfl, by decide, fun h => ?_⟩
  have h' := congrArg (Option.map fun ps => (place ((ps[0]?).getD []) 0 0) 0) h
  simp [Ffn.forward, Ffn.rank, Ffn.gate, Ffn.whole, onRanks, Lin.column, Lin.row, reduceSum, collective, place, hiddenOf,
    Lin.apply, Lin.bias, Finset.sum_range_succ, List.replicate, gaussianTopk, mean] at h'
  norm_num at h'

/-- **The single device.** What the modules compute that are compared with: component `c` of head `h` of a query is row
`h * head_dim + c` of the projection, the output projection sums over all heads and their components, and the networks
and embeddings do what their equations say. -/
theorem C105_single {A : Attn} {T : Nat} (h : A.Splits T) (x : Vec) :
    (∀ n < A.heads, A.whole.q x n = A.qNorm fun c => if c < A.headDim then
      ∑ j ∈ Finset.range A.q.inDim, x j * A.q.w (n * A.headDim + c) j + (A.q.b.getD fun _ => 0) (n * A.headDim + c)
      else 0) ∧
    (∀ n < A.kvHeads, A.whole.k x n = A.kNorm fun c => if c < A.headDim then
      ∑ j ∈ Finset.range A.k.inDim, x j * A.k.w (n * A.headDim + c) j + (A.k.b.getD fun _ => 0) (n * A.headDim + c)
      else 0) ∧
    (∀ n < A.kvHeads, A.whole.v x n = A.vNorm fun c => if c < A.headDim then
      ∑ j ∈ Finset.range A.v.inDim, x j * A.v.w (n * A.headDim + c) j + (A.v.b.getD fun _ => 0) (n * A.headDim + c)
      else 0) ∧
    (∀ (a : Nat → Nat → ℝ), ∀ i < A.out.outDim, A.whole.out (fun n c => some (a n c)) i =
      ((List.range A.heads).map fun n => ∑ c ∈ Finset.range A.headDim, a n c * A.out.w i (n * A.headDim + c)).sum +
        (A.out.b.getD fun _ => 0) i) := by
  have row : ∀ (p : Lin) (H : Nat), p.outDim = H * A.headDim → ∀ n < H, ∀ norm : Vec → Vec,
      splitHeads A.headDim norm (p.apply x) n = norm fun c => if c < A.headDim then
        ∑ j ∈ Finset.range p.inDim, x j * p.w (n * A.headDim + c) j + (p.b.getD fun _ => 0) (n * A.headDim + c)
        else 0 := by
    intro p H hp n hn norm
    unfold splitHeads
    congr 1
    funext c
    by_cases hc : c < A.headDim
    · have : n * A.headDim + c < p.outDim := by rw [hp]; exact index_lt hn hc
      simp only [if_pos hc, Lin.apply, if_pos this, Lin.bias]
    · simp only [if_neg hc]
  refine ⟨fun n hn => row A.q _ h.q n hn _, fun n hn => row A.k _ h.k n hn _, fun n hn => row A.v _ h.v n hn _,
    fun a i hi => ?_⟩
  show A.out.apply _ i = _
  simp only [Lin.apply, if_pos hi, Lin.bias, h.out]
  congr 1
  rw [← sum_ranks]
  congr 1
  refine List.map_congr_left fun n _ => Finset.sum_congr rfl fun c hc => ?_
  have hc := Finset.mem_range.1 hc
  have e1 : (n * A.headDim + c) / A.headDim = n := by
    rw [Nat.add_comm, Nat.add_mul_div_right _ _ h.dim_pos, Nat.div_eq_of_lt hc, Nat.zero_add]
  have e2 : (n * A.headDim + c) % A.headDim = c := by
    rw [Nat.add_comm, Nat.add_mul_mod_self_right, Nat.mod_eq_of_lt hc]
  simp only [joinHeads, e1, e2, Option.getD_some]

/-- The networks and embeddings of the single device. -/
theorem C105_single_ffn {F : Ffn} {T : Nat} (h : F.Splits T) (e : Embed) (x : Vec) :
    (∀ i < F.out.outDim, F.whole x i = ∑ j ∈ Finset.range F.inner.outDim,
      (match F.kind with
        | .glu g => (∑ k ∈ Finset.range F.inner.inDim, x k * F.inner.w j k + (F.inner.b.getD fun _ => 0) j) *
            F.act (∑ k ∈ Finset.range g.inDim, x k * g.w j k + (g.b.getD fun _ => 0) j)
        | _ => F.act (∑ k ∈ Finset.range F.inner.inDim, x k * F.inner.w j k + (F.inner.b.getD fun _ => 0) j)) *
        F.out.w i j + (F.out.b.getD fun _ => 0) i) ∧
    ∀ t, ∀ i < e.dim, e.apply t i = e.w t i := by
  refine ⟨fun i hi => ?_, fun t i hi => by simp [Embed.apply, hi]⟩
  have hin : ∀ j ∈ Finset.range F.inner.outDim, F.inner.apply x j =
      ∑ k ∈ Finset.range F.inner.inDim, x k * F.inner.w j k + (F.inner.b.getD fun _ => 0) j := fun j hj => by
    have := Finset.mem_range.1 hj
    simp [Lin.apply, Lin.bias, this]
  show F.out.apply _ i = _
  simp only [Lin.apply, if_pos hi, h.out]
  congr 1
  · refine Finset.sum_congr rfl fun j hj => ?_
    congr 1
    have hj' := Finset.mem_range.1 hj
    rcases h.kind with hk | ⟨g, hk, hg⟩
    · simp only [hk, hiddenOf, ← hin j hj, Lin.apply]
    · have hgj : g.apply x j = ∑ k ∈ Finset.range g.inDim, x k * g.w j k + (g.b.getD fun _ => 0) j := by
        simp [Lin.apply, Lin.bias, hg, hj']
      simp only [hk, hiddenOf, Ffn.gate, ← hin j hj, ← hgj]
  · simp [Lin.bias, hi]

/-- A Dauphin network on a single device: the first half of the inner projection is activated and multiplied with the
second half. -/
theorem C105_single_dauphin {F : Ffn} (hk : F.kind = .dauphin) (hd : F.inner.outDim = 2 * F.out.inDim) (x : Vec) (i : Nat)
    (hi : i < F.out.outDim) :
    F.whole x i = ∑ j ∈ Finset.range F.out.inDim,
      (F.act (∑ k ∈ Finset.range F.inner.inDim, x k * F.inner.w j k + (F.inner.b.getD fun _ => 0) j) *
        (∑ k ∈ Finset.range F.inner.inDim, x k * F.inner.w (F.out.inDim + j) k +
          (F.inner.b.getD fun _ => 0) (F.out.inDim + j))) * F.out.w i j + (F.out.b.getD fun _ => 0) i := by
  have hin : ∀ j < 2 * F.out.inDim, F.inner.apply x j =
      ∑ k ∈ Finset.range F.inner.inDim, x k * F.inner.w j k + (F.inner.b.getD fun _ => 0) j := fun j hj => by
    rw [← hd] at hj
    simp [Lin.apply, Lin.bias, hj]
  have h2 : F.inner.outDim / 2 = F.out.inDim := by omega
  show F.out.apply _ i = _
  rw [hk]
  have happ : ∀ v : Vec, F.out.apply v i = ∑ j ∈ Finset.range F.out.inDim, v j * F.out.w i j + (F.out.b.getD fun _ => 0) i := by
    intro v
    simp [Lin.apply, Lin.bias, hi]
  rw [happ]
  congr 1
  refine Finset.sum_congr rfl fun j hj => ?_
  have hj' := Finset.mem_range.1 hj
  congr 1
  simp only [hiddenOf, h2]
  rw [hin j (by omega), hin (F.out.inDim + j) (by omega)]

/-! ## A model that the theorems speak of -/

/-- Four query heads and two key/value heads of two numbers, in a model of three numbers. -/
noncomputable def fourHeads (b : BiasKind) (st : StateKind) : Attn where
  heads := 4
  kvHeads := 2
  headDim := 2
  scale := 1
  q := ⟨3, 8, fun i j => i + j, none⟩
  k := ⟨3, 4, fun i j => i * j, some fun i => i⟩
  v := ⟨3, 4, fun i j => i - j, none⟩
  out := ⟨8, 3, fun i j => i + 2 * j, some fun _ => 1⟩
  qNorm := id
  kNorm := id
  vNorm := id
  nan := 0
  pos := some ⟨16, fun row x c => x c + row⟩
  bias := b
  state := st

theorem fourHeads_splits {b : BiasKind} (hb : ∀ n, b ≠ .alibi n) (st : StateKind) : (fourHeads b st).Splits 2 :=
  ⟨⟨1, rfl⟩, ⟨2, rfl⟩, Nat.succ_pos 1, Nat.succ_pos 1, rfl, rfl, rfl, rfl, hb⟩

/-- A language model of one layer with a vocabulary of ten tokens. -/
noncomputable def twoRanks : Tp.Model where
  embed := ⟨.vocab, 10, 3, fun t i => t + i⟩
  scale := id
  pos := none
  layers := [⟨fourHeads (.causal none) .full, bareBlock, none,
    ⟨.glu ⟨3, 6, fun i j => i + j, none⟩, ⟨3, 6, fun i j => i * j, none⟩, ⟨6, 3, fun i j => i - j, none⟩, fun x => max x 0⟩,
    bareBlock⟩]
  norm := id
  proj := ⟨3, 10, fun i j => i * j, none⟩

theorem twoRanks_splits : twoRanks.Splits 2 := by
  refine ⟨by decide, ?_, ?_, ⟨2, ?_⟩, ?_, fun _ => by decide, fun h => by simp [twoRanks] at h, by decide⟩
  · intro L hL
    simp only [twoRanks, List.mem_singleton] at hL
    subst hL
    exact fourHeads_splits (by simp) _
  · intro L hL x hx
    simp only [twoRanks, List.mem_singleton] at hL
    subst hL
    simp at hx
  · intro L hL
    simp only [twoRanks, List.mem_singleton] at hL
    subst hL
    rfl
  · intro L hL
    simp only [twoRanks, List.mem_singleton] at hL
    subst hL
    exact ⟨.inr ⟨_, rfl, rfl⟩, rfl, by decide⟩

theorem twoRanks_good : GoodModel twoRanks.whole 4 := by
  refine ⟨?_, by simp [twoRanks, Tp.Model.whole]⟩
  intro L hL
  simp only [twoRanks, Tp.Model.whole, List.map_cons, List.map_nil, List.mem_singleton] at hL
  subst hL
  refine ⟨⟨.causal, ?_⟩, by simp [Tp.Layer.whole]⟩
  intro e he
  simp only [Tp.Layer.whole, Attn.whole, fourHeads, Option.some.injEq] at he
  subst he
  decide

/-- Two sequences are fed two tokens each, one of them is doubled, and a token is fed to all three, on two ranks. -/
example (junks : Nat → Heads) :
    (Tp.run twoRanks 2 junks none (Tp.Session.start twoRanks 2 ⟨0, 5, some 2⟩)
      [.feed [[1, 2], [3, 4]], .reorder [1, 1, 0], .feed [[5], [7], [9]]]).map Prod.fst =
    some ((expected twoRanks.whole [⟨[], []⟩, ⟨[], []⟩]
      [.feed [[1, 2], [3, 4]], .reorder [1, 1, 0], .feed [[5], [7], [9]]]).map (List.replicate 2)) := by
  have hno : ¬ NeedsSource twoRanks.whole := by
    rintro ⟨L, hL, h⟩
    simp [twoRanks, Tp.Model.whole, Tp.Layer.whole] at hL
    subst hL
    exact absurd rfl h
  have hnw : ¬ HasWindow twoRanks.whole := by
    rintro ⟨L, hL, h⟩
    simp [twoRanks, Tp.Model.whole, Tp.Layer.whole] at hL
    subst hL
    exact absurd rfl h
  refine C105_sequences_partial twoRanks_splits junks twoRanks_good (by simp) (by simp) (fun h => absurd h hno) (by simp)
    (M := 5) (inc := some 2) rfl (by decide) ?_ ?_
  · exact ⟨2, by decide, rfl, by decide, by decide, fun _ => .inl rfl, by decide, by decide, by decide,
      fun h => absurd h hno, 1, by decide, rfl, by decide, by decide, fun h => absurd h hnw, trivial⟩
  · intro tokens ht
    simp at ht
    rcases ht with rfl | rfl <;> decide

/-- A padded batch of two sequences. -/
example (junks : Nat → Heads) : ∃ l, Layout.new [2, 2] (some [2, 1]) false = some l ∧
    (twoRanks.forwardAt 2 junks none none (twoRanks.layers.map fun _ => List.replicate 2 {}) l [[1, 2], [3, 0]]).map
      Prod.fst = (Enc.decodeAll twoRanks.whole none [[1, 2], [3, 0]] l).map (List.replicate 2) :=
  ⟨_, rfl, C105_batch_partial twoRanks_splits junks none _ (by decide)⟩

/-- Two key/value heads cannot be spread over four ranks. -/
example (junks : Nat → Heads) (l : Layout) (xs : Fin 4 → Batch Vec) :
    (fourHeads (.causal none) .full).forwardSelf 4 junks none (List.ofFn fun (_ : Fin 4) => none) l (List.ofFn xs) = none :=
  C105_refused rfl (by decide) (by decide) (by decide) junks none _ l xs

example : ∃ F : Ffn, F.Splits 2 :=
  ⟨⟨.standard, ⟨3, 6, fun _ _ => 1, none⟩, ⟨6, 3, fun _ _ => 1, none⟩, fun x => x⟩, .inl rfl, rfl, by decide⟩

end Fs2.Props
