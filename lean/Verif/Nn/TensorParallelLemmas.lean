import Verif.Nn.TensorParallelCache
import Mathlib.Tactic.Ring
import Mathlib.Algebra.BigOperators.Group.Finset.Basic

/-!
# Lemmas about decoders sharded for tensor parallelism
-/

namespace Fs2.Tp
open Fs2.Nn Fs2.Dec

/-! ## What can be sharded -/

/-- Attention that can be spread over `T` ranks: the projections have the widths that the constructor gives them
(multihead_attention.py:258-300, 356-368), and every rank gets as many key/value heads as the others. -/
structure Attn.Splits (A : Attn) (T : Nat) : Prop where
  share : T ∣ A.kvHeads
  groups : A.kvHeads ∣ A.heads
  kv_pos : 0 < A.kvHeads
  dim_pos : 0 < A.headDim
  q : A.q.outDim = A.heads * A.headDim
  k : A.k.outDim = A.kvHeads * A.headDim
  v : A.v.outDim = A.kvHeads * A.headDim
  out : A.out.inDim = A.heads * A.headDim
  bias : ∀ n, A.bias ≠ .alibi n

/-- A feed-forward network that can be spread over `T` ranks: a `StandardFeedForwardNetwork`, or a
`GLUFeedForwardNetwork` without `activation_sparsity`. -/
structure Ffn.Splits (F : Ffn) (T : Nat) : Prop where
  kind : F.kind = .standard ∨ ∃ g, F.kind = .glu g ∧ g.outDim = F.inner.outDim
  out : F.out.inDim = F.inner.outDim
  share : T ∣ F.inner.outDim

/-- A model that can be spread over `T` ranks. -/
structure Model.Splits (m : Model) (T : Nat) : Prop where
  pos : 0 < T
  attn : ∀ L ∈ m.layers, L.selfAttn.Splits T
  cross : ∀ L ∈ m.layers, ∀ x, L.cross = some x → x.1.Splits T
  heads : ∃ n, ∀ L ∈ m.layers, L.selfAttn.kvHeads = n
  ffn : ∀ L ∈ m.layers, L.ffn.Splits T
  vocab : m.embed.kind = .vocab → T ∣ m.embed.num
  dim : m.embed.kind = .dims → T ∣ m.embed.dim
  proj : T ∣ m.proj.outDim

/-! ## Ranks -/

theorem mapM_range_some {β : Type} {F : Nat → Option β} {y : Nat → β} (T : Nat) (h : ∀ r < T, F r = some (y r)) :
    (List.range T).mapM F = some ((List.range T).map y) := by
  have key : ∀ l : List Nat, (∀ r ∈ l, F r = some (y r)) → l.mapM F = some (l.map y) := by
    intro l
    induction l with
    | nil => intro _; rfl
    | cons a l ih =>
      intro h
      rw [List.mapM_cons, h a (by simp), ih fun r hr => h r (by simp [hr])]
      rfl
  exact key _ fun r hr => h r (List.mem_range.1 hr)

theorem mapM_none {α β : Type} {F : α → Option β} : ∀ {l : List α} {a : α}, a ∈ l → F a = none → l.mapM F = none := by
  intro l
  induction l with
  | nil => intro a h; simp at h
  | cons x l ih =>
    intro a h e
    rw [List.mapM_cons]
    rcases List.mem_cons.1 h with rfl | h
    · rw [e]; rfl
    · rw [ih h e]
      cases F x <;> rfl

theorem zipIdx_range {α : Type} (g : Nat → α) (T : Nat) :
    ((List.range T).map g).zipIdx = (List.range T).map fun r => (g r, r) := by
  refine List.ext_getElem (by simp) fun i h1 h2 => by simp

theorem mapM_map' {α β γ : Type} (F : β → Option γ) (g : α → β) : ∀ l : List α,
    (l.map g).mapM F = l.mapM fun a => F (g a) := by
  intro l
  induction l with
  | nil => rfl
  | cons a l ih => rw [List.map_cons, List.mapM_cons, List.mapM_cons, ih]

theorem onRanks_range {α β : Type} (f : Nat → α → Option β) (g : Nat → α) (T : Nat) :
    onRanks f ((List.range T).map g) = (List.range T).mapM fun r => f r (g r) := by
  rw [onRanks, zipIdx_range, mapM_map']

theorem zip_range {α β : Type} (f : Nat → α) (g : Nat → β) (T : Nat) :
    ((List.range T).map f).zip ((List.range T).map g) = (List.range T).map fun r => (f r, g r) := by
  refine List.ext_getElem (by simp) fun i h1 h2 => by simp

theorem zipWith_range {α β γ : Type} (F : α → β → γ) (f : Nat → α) (g : Nat → β) (T : Nat) :
    List.zipWith F ((List.range T).map f) ((List.range T).map g) = (List.range T).map fun r => F (f r) (g r) := by
  refine List.ext_getElem (by simp) fun i h1 h2 => by simp

theorem mapIdx_rel {α β γ δ : Type} {R : α → β → Prop} {S : γ → δ → Prop} {l : List α} {l' : List β}
    (h : List.Forall₂ R l l') : ∀ {f : Nat → α → γ} {g : Nat → β → δ}, (∀ i a b, R a b → S (f i a) (g i b)) →
    List.Forall₂ S (l.mapIdx f) (l'.mapIdx g) := by
  induction h with
  | nil => intro f g _; simp
  | cons h _ ih =>
    intro f g hf
    rw [List.mapIdx_cons, List.mapIdx_cons]
    exact .cons (hf _ _ _ h) (ih fun i a b hab => hf (i + 1) a b hab)

/-- A collective over values that are made, at every place, of related things. -/
theorem collective_eq {γ δ : Type} {T : Nat} {Q : Nat → γ → δ → Prop} {W : Batch γ} {Wr : Nat → Batch δ}
    (h : ∀ r < T, List.Forall₂ (List.Forall₂ (Q r)) W (Wr r)) {f : List Vec → Vec} {g : γ → Vec}
    {gr : Nat → δ → Vec}
    (hf : ∀ a (b : Nat → δ), (∀ r < T, Q r a (b r)) → f ((List.range T).map fun r => gr r (b r)) = g a) :
    collective f ((List.range T).map fun r => (Wr r).map (List.map (gr r))) =
      (List.range T).map fun _ => W.map (List.map g) := by
  unfold collective
  rw [List.map_map]
  refine List.map_congr_left fun s hs => ?_
  rw [List.mem_range] at hs
  have hlen : ∀ r < T, (Wr r).length = W.length := fun r hr => (h r hr).length_eq.symm
  have hrow : ∀ r < T, ∀ i (h1 : i < W.length) (h2 : i < (Wr r).length), List.Forall₂ (Q r) W[i] (Wr r)[i] :=
    fun r hr i h1 h2 => (h r hr).get h1 h2
  simp only [Function.comp]
  refine List.ext_getElem (by simp [hlen s hs]) fun i h1 h2 => ?_
  have hi : i < W.length := by simpa using h2
  have his : i < (Wr s).length := by rw [hlen s hs]; exact hi
  simp only [List.getElem_mapIdx, List.getElem_map]
  refine List.ext_getElem (by simp [(hrow s hs i hi his).length_eq]) fun j h3 h4 => ?_
  have hj : j < W[i].length := by simpa using h4
  simp only [List.getElem_mapIdx, List.getElem_map]
  have hjr : ∀ r < T, ∀ h' : i < (Wr r).length, j < (Wr r)[i].length := fun r hr h' => by
    rw [← (hrow r hr i hi h').length_eq]; exact hj
  classical
  have hne : Nonempty δ := ⟨(Wr s)[i][j]'(hjr s hs his)⟩
  let b : Nat → δ := fun r => if h : r < T then
      ((Wr r)[i]'(by rw [hlen r h]; exact hi))[j]'(hjr r h (by rw [hlen r h]; exact hi))
    else Classical.choice hne
  rw [← hf W[i][j] b ?_]
  · congr 1
    simp only [List.map_map]
    refine List.map_congr_left fun r hr => ?_
    rw [List.mem_range] at hr
    have hir : i < (Wr r).length := by rw [hlen r hr]; exact hi
    simp [place, b, hr, hir, hjr r hr hir]
  · intro r hr
    simp only [b, hr, dif_pos]
    exact (hrow r hr i hi _).get hj _

/-! ## Projections -/

theorem sum_ranks (f : Nat → ℝ) (n : Nat) : ∀ T : Nat,
    ((List.range T).map fun r => ∑ j ∈ Finset.range n, f (r * n + j)).sum = ∑ j ∈ Finset.range (T * n), f j := by
  intro T
  induction T with
  | zero => simp
  | succ T ih =>
    rw [List.range_succ, List.map_append, List.sum_append, ih, Nat.succ_mul, Finset.sum_range_add]
    simp

theorem column_ok {l : Lin} {T n : Nat} (hT : 0 < T) (h : l.outDim = T * n) (r : Nat) :
    l.column T r = some ⟨l.inDim, n, fun i j => l.w (r * n + i) j, l.b.map fun b i => b (r * n + i)⟩ := by
  have e : l.outDim / T = n := by rw [h]; exact Nat.mul_div_cancel_left n hT
  simp [Lin.column, h, Nat.mul_div_cancel_left n hT]

theorem index_lt {T n r i : Nat} (hr : r < T) (hi : i < n) : r * n + i < T * n := by
  have : (r + 1) * n ≤ T * n := Nat.mul_le_mul_right n hr
  rw [Nat.succ_mul] at this
  omega

theorem column_apply {l : Lin} {T n : Nat} (h : l.outDim = T * n) {r : Nat} (hr : r < T) (x : Vec) {i : Nat}
    (hi : i < n) :
    (Lin.mk l.inDim n (fun i j => l.w (r * n + i) j) (l.b.map fun b i => b (r * n + i))).apply x i =
      l.apply x (r * n + i) := by
  have := index_lt hr hi
  simp only [Lin.apply, Lin.bias, h, if_pos hi, if_pos this]
  cases l.b <;> simp

theorem row_ok {l : Lin} {T n : Nat} (hT : 0 < T) (h : l.inDim = T * n) (r : Nat) :
    l.row T r = some ⟨n, l.outDim, fun i j => l.w i (r * n + j), none⟩ := by
  simp [Lin.row, h, Nat.mul_div_cancel_left n hT]

theorem row_sum {l : Lin} {T n : Nat} (h : l.inDim = T * n) {a : Vec} {b : Nat → Vec}
    (hb : ∀ r < T, ∀ j < n, b r j = a (r * n + j)) (c : Nat) :
    ((List.range T).map fun r => (Lin.mk n l.outDim (fun i j => l.w i (r * n + j)) none).apply (b r) c).sum + l.bias c =
      l.apply a c := by
  by_cases hc : c < l.outDim
  · simp only [Lin.apply, if_pos hc, h]
    congr 1
    rw [← sum_ranks fun j => a j * l.w c j]
    congr 1
    refine List.map_congr_left fun r hr => ?_
    rw [List.mem_range] at hr
    simp only [Lin.bias]
    simp only [Option.getD_none, ite_self, add_zero]
    refine Finset.sum_congr rfl fun j hj => ?_
    rw [hb r hr j (Finset.mem_range.1 hj)]
  · simp [Lin.apply, Lin.bias, if_neg hc]

/-! ## Attention -/

/-- The heads of a rank are those from `r * n` on. -/
def Share (n r : Nat) (x y : Heads) : Prop := ∀ h < n, y h = x (r * n + h)

/-- The attention of the heads of a rank. -/
def ShareAtt (n r : Nat) (a b : Nat → Nat → Option ℝ) : Prop := ∀ h < n, b h = a (r * n + h)

/-- What a rank makes of attention that can be sharded. -/
def Attn.part (A : Attn) (T r : Nat) : Mha where
  groups := A.heads / A.kvHeads
  kvHeads := A.kvHeads / T
  headDim := A.headDim
  scale := A.scale
  q x := splitHeads A.headDim A.qNorm ((Lin.mk A.q.inDim (A.heads / T * A.headDim)
    (fun i j => A.q.w (r * (A.heads / T * A.headDim) + i) j)
    (A.q.b.map fun b i => b (r * (A.heads / T * A.headDim) + i))).apply x)
  k x := splitHeads A.headDim A.kNorm ((Lin.mk A.k.inDim (A.kvHeads / T * A.headDim)
    (fun i j => A.k.w (r * (A.kvHeads / T * A.headDim) + i) j)
    (A.k.b.map fun b i => b (r * (A.kvHeads / T * A.headDim) + i))).apply x)
  v x := splitHeads A.headDim A.vNorm ((Lin.mk A.v.inDim (A.kvHeads / T * A.headDim)
    (fun i j => A.v.w (r * (A.kvHeads / T * A.headDim) + i) j)
    (A.v.b.map fun b i => b (r * (A.kvHeads / T * A.headDim) + i))).apply x)
  pos := A.pos
  bias := A.bias
  state := A.state
  out a := (Lin.mk (A.heads / T * A.headDim) A.out.outDim
    (fun i j => A.out.w i (r * (A.heads / T * A.headDim) + j)) none).apply (joinHeads A.headDim A.nan a)

variable {A : Attn} {T : Nat}

theorem Attn.Splits.heads_share (h : A.Splits T) : T ∣ A.heads := h.share.trans h.groups

theorem Attn.Splits.q' (h : A.Splits T) : A.q.outDim = T * (A.heads / T * A.headDim) := by
  rw [h.q, ← Nat.mul_assoc, Nat.mul_div_cancel' h.heads_share]

theorem Attn.Splits.k' (h : A.Splits T) : A.k.outDim = T * (A.kvHeads / T * A.headDim) := by
  rw [h.k, ← Nat.mul_assoc, Nat.mul_div_cancel' h.share]

theorem Attn.Splits.v' (h : A.Splits T) : A.v.outDim = T * (A.kvHeads / T * A.headDim) := by
  rw [h.v, ← Nat.mul_assoc, Nat.mul_div_cancel' h.share]

theorem Attn.Splits.out' (h : A.Splits T) : A.out.inDim = T * (A.heads / T * A.headDim) := by
  rw [h.out, ← Nat.mul_assoc, Nat.mul_div_cancel' h.heads_share]

theorem rank_ok (h : A.Splits T) (hT : 0 < T) (r : Nat) : A.rank T r = some (A.part T r) := by
  simp only [Attn.rank, column_ok hT h.q', column_ok hT h.k', column_ok hT h.v', row_ok hT h.out', Option.bind_some]
  simp [Attn.part, Nat.mul_div_cancel _ h.dim_pos]

theorem split_share {l : Lin} {n d : Nat} (h : l.outDim = T * (n * d)) {r : Nat} (hr : r < T) (norm : Vec → Vec)
    (x : Vec) :
    Share n r (splitHeads d norm (l.apply x)) (splitHeads d norm ((Lin.mk l.inDim (n * d)
      (fun i j => l.w (r * (n * d) + i) j) (l.b.map fun b i => b (r * (n * d) + i))).apply x)) := by
  intro k hk
  unfold splitHeads
  congr 1
  funext c
  by_cases hc : c < d
  · rw [if_pos hc, if_pos hc, column_apply h hr x (index_lt hk hc)]
    congr 1
    ring
  · rw [if_neg hc, if_neg hc]

theorem encode_rel {β : Type} {R : β → β → Prop} {f : PosEnc → Int → β → β}
    (hf : ∀ p row x y, R x y → R (f p row x) (f p row y)) (p : Option PosEnc) (bag : Option Bag) (l : Layout)
    {xs ys : Batch β} (h : List.Forall₂ (List.Forall₂ R) xs ys) :
    Option.Rel (List.Forall₂ (List.Forall₂ R)) (encode f p bag l xs) (encode f p bag l ys) := by
  cases p with
  | none => exact .some h
  | some p =>
    simp only [encode]
    cases l.tableRows p.maxLen false bag with
    | none => exact .none
    | some rows =>
      refine .some ?_
      have inner : ∀ (row : List Int) {x y : List β}, List.Forall₂ R x y →
          List.Forall₂ R (List.zipWith (f p) row x) (List.zipWith (f p) row y) := by
        intro row x y h
        induction h generalizing row with
        | nil => simp
        | cons h _ ih =>
          cases row with
          | nil => simp
          | cons a row => exact .cons (hf _ _ _ _ h) (ih row)
      induction h generalizing rows with
      | nil => simp
      | cons h _ ih =>
        cases rows with
        | nil => simp
        | cons a rows => exact .cons (inner a h) (ih rows)

theorem same_rel {α β γ : Type} {R : β → γ → Prop} {f : α → β} {g : α → γ} (h : ∀ a, R (f a) (g a)) (xs : Batch α) :
    List.Forall₂ (List.Forall₂ R) (xs.map (List.map f)) (xs.map (List.map g)) := by
  simp only [List.forall₂_map_left_iff, List.forall₂_map_right_iff]
  exact List.forall₂_same.2 fun x _ => List.forall₂_same.2 fun y _ => h y

theorem onHeads_share (n r : Nat) (p : PosEnc) (row : Int) (x y : Heads) (h : Share n r x y) :
    Share n r (p.onHeads row x) (p.onHeads row y) := fun k hk => by
  simp only [PosEnc.onHeads, h k hk]

variable {r : Nat}

theorem projectQ_rel (h : A.Splits T) (hr : r < T) (bag : Option Bag) (l : Layout) (xs : Batch Vec) :
    Option.Rel (List.Forall₂ (List.Forall₂ (Share (A.heads / T) r))) (A.whole.projectQ bag l xs)
      ((A.part T r).projectQ bag l xs) :=
  encode_rel (fun p row x y => onHeads_share _ _ p row x y) _ _ _ (same_rel (fun x => split_share h.q' hr _ x) xs)

theorem projectK_rel (h : A.Splits T) (hr : r < T) (bag : Option Bag) (l : Layout) (xs : Batch Vec) :
    Option.Rel (List.Forall₂ (List.Forall₂ (Share (A.kvHeads / T) r))) (A.whole.projectK bag l xs)
      ((A.part T r).projectK bag l xs) :=
  encode_rel (fun p row x y => onHeads_share _ _ p row x y) _ _ _ (same_rel (fun x => split_share h.k' hr _ x) xs)

theorem projectV_rel (h : A.Splits T) (hr : r < T) (xs : Batch Vec) :
    List.Forall₂ (List.Forall₂ (Share (A.kvHeads / T) r)) (A.whole.projectV xs) ((A.part T r).projectV xs) :=
  same_rel (fun x => split_share h.v' hr _ x) xs

/-! ## Biases without heads -/

/-- The heads of a tensor are alike. -/
def Headless (t : BiasTensor) : Prop := ∀ h h' i j, t.at' h i j = t.at' h' i j

theorem create_headless {b : BiasKind} (hb : ∀ n, b ≠ .alibi n) {q k : Nat} {t : BiasTensor}
    (h : b.create q k = some t) : Headless t := by
  cases b with
  | identity => simp only [BiasKind.create, Option.some.injEq] at h; subst h; intro _ _ _ _; rfl
  | causal w => simp only [BiasKind.create, Option.some.injEq] at h; subst h; intro _ _ _ _; rfl
  | chunked size =>
    simp only [BiasKind.create] at h
    split at h
    · cases h
    · split at h
      · cases h
      · simp only [Option.some.injEq] at h; subst h; intro _ _ _ _; rfl
  | alibi n => exact absurd rfl (hb n)

theorem loop_headless {b : BiasKind} : ∀ (rs : List ((Nat × Nat) × (Nat × Nat))) (p p' : Nat) (t u : BiasTensor),
    Headless t → blockLoop b rs p p' t = some u → Headless u := by
  intro rs
  induction rs with
  | nil => intro p p' t u ht h; simp only [blockLoop, Option.some.injEq] at h; subst h; exact ht
  | cons x rs ih =>
    obtain ⟨r, c⟩ := x
    intro p p' t u ht h
    simp only [blockLoop] at h
    obtain ⟨t', ht', h⟩ : ∃ t', Headless t' ∧ (if r.1 ≠ r.2 ∧ c.1 ≠ c.2 then
        (b.create (r.2 - r.1) (c.2 - c.1)).bind fun src => (t'.put r c src).bind fun t => blockLoop b rs r.2 c.2 t
        else blockLoop b rs r.2 c.2 t') = some u := by
      refine ⟨_, ?_, h⟩
      split
      · intro a a' i j
        simp only [BiasTensor.zero]
        split
        · rfl
        · exact ht a a' i j
      · exact ht
    split at h
    · cases hc : b.create (r.2 - r.1) (c.2 - c.1) with
      | none => rw [hc] at h; cases h
      | some src =>
        rw [hc, Option.bind_some] at h
        cases hp : t'.put r c src with
        | none => rw [hp] at h; cases h
        | some t'' =>
          rw [hp, Option.bind_some] at h
          refine ih _ _ _ _ ?_ h
          unfold BiasTensor.put at hp
          split at hp
          · cases hp
          · split at hp
            · simp only [Option.some.injEq] at hp
              subst hp
              intro a a' i j
              simp only
              split
              · rfl
              · exact ht' a a' i j
            · cases hp
    · exact ih _ _ _ _ ht' h

theorem block_headless {b : BiasKind} (hb : ∀ n, b ≠ .alibi n) {ql kl : List Nat} {q k : Nat} {t : BiasTensor}
    (h : blockTensor b ql q kl k = some t) : Headless t := by
  unfold blockTensor at h
  dsimp only at h
  split at h
  · exact create_headless hb h
  · exact loop_headless _ _ _ _ _ (fun _ _ _ _ => rfl) h

theorem mapM_all {α β : Type} {P : β → Prop} {f : α → Option β} (hf : ∀ a b, f a = some b → P b) :
    ∀ {l : List α} {ys : List β}, l.mapM f = some ys → ∀ y ∈ ys, P y := by
  intro l
  induction l with
  | nil => intro ys h; cases h; simp
  | cons a l ih =>
    intro ys h
    rw [List.mapM_cons] at h
    cases ha : f a with
    | none => rw [ha] at h; cases h
    | some y =>
      rw [ha] at h
      cases hl : l.mapM f with
      | none => rw [hl] at h; cases h
      | some zs =>
        rw [hl] at h
        cases h
        intro z hz
        rcases List.mem_cons.1 hz with rfl | hz
        · exact hf _ _ ha
        · exact ih hl z hz

theorem entry_headless {b : BiasKind} (hb : ∀ n, b ≠ .alibi n) {Q K : Layout} {M : Materialized}
    (h : materialize b Q K = some M) (r h₁ h₂ i j : Nat) : M.entry r h₁ i j = M.entry r h₂ i j := by
  unfold materialize at h
  split at h
  · cases h
  · split at h
    · cases h
    · split at h
      · cases h; rfl
      · dsimp only at h
        split at h
        · cases ht : blockTensor b (Q.seqLens.map Int.toNat) Q.width.toNat (K.seqLens.map Int.toNat) K.width.toNat with
          | none => rw [ht] at h; cases h
          | some t => rw [ht] at h; cases h; exact block_headless hb ht _ _ _ _
        · split at h
          · cases ht : b.create Q.width.toNat K.width.toNat with
            | none => rw [ht] at h; cases h
            | some t => rw [ht] at h; cases h; exact create_headless hb ht _ _ _ _
          · rcases hts : (Q.seqLens.zip K.seqLens).mapM (fun (x : Int × Int) =>
                (blockTensor b [x.1.toNat] Q.width.toNat [x.2.toNat] K.width.toNat).bind fun t =>
                  some { t with heads := some (t.heads.getD 1) }) with _ | ts
            · have : (none : Option Materialized) = some M := by
                rw [← h]
                exact (congrArg (fun o => Option.bind o stackTensors) hts).symm
              cases this
            · have h' : stackTensors ts = some M := by
                rw [← h]
                exact (congrArg (fun o => Option.bind o stackTensors) hts).symm
              have hall := mapM_all (P := Headless) (fun x t e => by
                cases hb' : blockTensor b [x.1.toNat] Q.width.toNat [x.2.toNat] K.width.toNat with
                | none => rw [hb'] at e; cases e
                | some u =>
                  rw [hb'] at e
                  cases e
                  have := block_headless hb hb'
                  exact this) hts
              have hM : M = .stack ts := by
                unfold stackTensors at h'
                split at h'
                · cases h'
                · split at h'
                  · cases h'; rfl
                  · cases h'
              subst hM
              simp only [Materialized.entry]
              cases he : ts[r]? with
              | none => rfl
              | some t => exact hall t (List.mem_of_getElem? he) _ _ _ _

theorem skip_some {α : Type} (c : Bool) (o : Option α) {M : α}
    (h : (if c = true then some none else o.map some) = some (some M)) : o = some M := by
  cases c with
  | true => cases h
  | false =>
    cases o with
    | none => cases h
    | some x => cases h; rfl

theorem bias_headless {b : BiasKind} (hb : ∀ n, b ≠ .alibi n) {Q K : Layout} {M : Option Materialized}
    (h : maybeGet b Q K = some M) (r h₁ h₂ i j : Nat) : biasEntry M r h₁ i j = biasEntry M r h₂ i j := by
  cases M with
  | none => rfl
  | some M =>
    refine entry_headless (Q := Q) (K := K) hb ?_ r h₁ h₂ i j
    unfold maybeGet at h
    dsimp only at h
    split at h
    · cases h
    · exact skip_some _ _ h

/-! ## The attention of all ranks -/

theorem elem_share {n : Nat} {k k' : Batch Heads} (h : List.Forall₂ (List.Forall₂ (Share n r)) k k') (i j : Nat) :
    Share n r (elem k i j) (elem k' i j) := by
  unfold elem
  have h1 : List.Forall₂ (Share n r) (k[i]?.getD []) (k'[i]?.getD []) := by
    have := rel_getElem? h i
    revert this
    generalize k[i]? = a
    generalize k'[i]? = b
    intro this
    cases this with
    | some h => exact h
    | none => exact .nil
  have := rel_getElem? h1 j
  revert this
  generalize (k[i]?.getD [])[j]? = a
  generalize (k'[i]?.getD [])[j]? = b
  intro this
  cases this with
  | some h => exact h
  | none => intro _ _; rfl

/-- The outcome of an attention on one device and on all ranks: all raise, or the outputs are made of shared
attention. -/
def Joint {σ : Type} (A : Attn) (T : Nat) (S : Nat → σ → σ → Prop) (w : Option (Batch Vec × σ))
    (p : Nat → Option (Batch Vec × σ)) : Prop :=
  (w = none ∧ ∀ r < T, p r = none) ∨
    ∃ (W : Batch (Nat → Nat → Option ℝ)) (Wr : Nat → Batch (Nat → Nat → Option ℝ)) (st : σ) (sts : Nat → σ), w = some (W.map (List.map A.whole.out), st) ∧
      ∀ r < T, p r = some ((Wr r).map (List.map (A.part T r).out), sts r) ∧
        List.Forall₂ (List.Forall₂ (ShareAtt (A.heads / T) r)) W (Wr r) ∧ S r st (sts r)

theorem rel_cases {α β : Type} {R : Nat → α → β → Prop} {w : Option α} {p : Nat → Option β}
    (h : ∀ r < T, Option.Rel (R r) w (p r)) (hT : 0 < T) :
    (w = none ∧ ∀ r < T, p r = none) ∨ ∃ a, ∃ b : Nat → β, w = some a ∧ ∀ r < T, p r = some (b r) ∧ R r a (b r) := by
  cases w with
  | none =>
    refine .inl ⟨rfl, fun r hr => ?_⟩
    have := h r hr
    revert this
    generalize p r = x
    intro this
    cases this
    rfl
  | some a =>
    right
    have : ∀ r < T, ∃ b, p r = some b ∧ R r a b := by
      intro r hr
      have := h r hr
      revert this
      generalize p r = x
      intro this
      cases this with
      | some h => exact ⟨_, rfl, h⟩
    obtain ⟨b0, _⟩ := this 0 hT
    have hb : ∀ r, ∃ b, r < T → p r = some b ∧ R r a b := fun r => by
      by_cases hr : r < T
      · obtain ⟨b, hb⟩ := this r hr
        exact ⟨b, fun _ => hb⟩
      · exact ⟨b0, fun h => absurd h hr⟩
    choose b hb using hb
    exact ⟨a, b, rfl, hb⟩

theorem sdpa_joint {σ : Type} (h : A.Splits T) (Q K : Layout) {q k v : Batch Heads} {qs ks vs : Nat → Batch Heads}
    (hT : 0 < T)
    (hq : ∀ r < T, List.Forall₂ (List.Forall₂ (Share (A.heads / T) r)) q (qs r))
    (hk : ∀ r < T, List.Forall₂ (List.Forall₂ (Share (A.kvHeads / T) r)) k (ks r))
    (hv : ∀ r < T, List.Forall₂ (List.Forall₂ (Share (A.kvHeads / T) r)) v (vs r))
    {S : Nat → σ → σ → Prop} {st : σ} {sts : Nat → σ} (hS : ∀ r < T, S r st (sts r)) :
    Joint A T S ((A.whole.sdpa Q K q k v).map fun y => (y, st))
      fun r => ((A.part T r).sdpa Q K (qs r) (ks r) (vs r)).map fun y => (y, sts r) := by
  by_cases hl : q.length ≠ k.length
  · left
    refine ⟨by simp [Mha.sdpa, hl], fun r hr => ?_⟩
    have e1 := (hq r hr).length_eq
    have e2 := (hk r hr).length_eq
    beta_reduce
    rw [Mha.sdpa, if_pos (by rw [← e1, ← e2]; exact hl)]
    rfl
  · have hl' : ∀ r < T, ¬ (qs r).length ≠ (ks r).length := fun r hr => by
      rw [← (hq r hr).length_eq, ← (hk r hr).length_eq]; exact hl
    cases hb : maybeGet A.bias Q K with
    | none =>
      left
      refine ⟨?_, fun r hr => ?_⟩
      · rw [Mha.sdpa, if_neg hl]
        simp [Attn.whole, hb]
      · beta_reduce
        rw [Mha.sdpa, if_neg (hl' r hr)]
        simp [Attn.part, hb]
    | some bias =>
      right
      refine ⟨q.mapIdx fun r row => row.mapIdx fun i x => fun h c =>
          attend A.scale A.headDim K.width.toNat (x h) (fun j => elem k r j (h / (A.heads / A.kvHeads)))
            (fun j => elem v r j (h / (A.heads / A.kvHeads))) (biasEntry bias r h i) c,
        fun s => (qs s).mapIdx fun r row => row.mapIdx fun i x => fun h c =>
          attend A.scale A.headDim K.width.toNat (x h) (fun j => elem (ks s) r j (h / (A.heads / A.kvHeads)))
            (fun j => elem (vs s) r j (h / (A.heads / A.kvHeads))) (biasEntry bias r h i) c, st, sts, ?_, fun s hs => ⟨?_, ?_, hS s hs⟩⟩
      · rw [Mha.sdpa, if_neg hl]
        simp only [Attn.whole, hb, Option.map_some]
        congr 2
        refine List.ext_getElem (by simp) fun i h1 h2 => ?_
        simp only [List.getElem_mapIdx, List.getElem_map]
        refine List.ext_getElem (by simp) fun j h1 h2 => ?_
        simp only [List.getElem_mapIdx, List.getElem_map]
      · beta_reduce
        rw [Mha.sdpa, if_neg (hl' s hs)]
        simp only [Attn.part, hb, Option.map_some]
        congr 2
        refine List.ext_getElem (by simp) fun i h1 h2 => ?_
        simp only [List.getElem_mapIdx, List.getElem_map]
        refine List.ext_getElem (by simp) fun j h1 h2 => ?_
        simp only [List.getElem_mapIdx, List.getElem_map]
      · refine mapIdx_rel (hq s hs) fun i row row' hrow => ?_
        refine mapIdx_rel hrow fun j x y hxy => ?_
        intro n hn
        obtain ⟨g, hg⟩ := h.groups
        obtain ⟨m, hm⟩ := h.share
        have hkv := h.kv_pos
        have hm0 : 0 < m := by
          rcases Nat.eq_zero_or_pos m with rfl | h'
          · rw [hm] at hkv; simp at hkv
          · exact h'
        have e1 : A.kvHeads / T = m := by rw [hm]; exact Nat.mul_div_cancel_left m hT
        have e2 : A.heads / A.kvHeads = g := by rw [hg]; exact Nat.mul_div_cancel_left g hkv
        have e3 : A.heads / T = m * g := by rw [hg, hm, Nat.mul_assoc]; exact Nat.mul_div_cancel_left _ hT
        have hg0 : 0 < g := by
          rcases Nat.eq_zero_or_pos g with rfl | h'
          · rw [e3] at hn; simp at hn
          · exact h'
        rw [e3] at hn hxy ⊢
        have hdiv : (s * (m * g) + n) / g = s * m + n / g := by
          rw [← Nat.mul_assoc, Nat.add_comm, Nat.add_mul_div_right _ _ hg0, Nat.add_comm]
        have hlt : n / g < m := Nat.div_lt_of_lt_mul (by rw [Nat.mul_comm]; exact hn)
        have hk' : ∀ j, elem (ks s) i j (n / g) = elem k i j (s * m + n / g) := fun j => by
          have := elem_share (hk s hs) i j (n / g)
          rw [e1] at this
          exact this hlt
        have hv' : ∀ j, elem (vs s) i j (n / g) = elem v i j (s * m + n / g) := fun j => by
          have := elem_share (hv s hs) i j (n / g)
          rw [e1] at this
          exact this hlt
        funext c
        simp only [e2, hdiv, hk', hv', hxy n hn]
        congr 1
        funext j'
        exact bias_headless h.bias hb _ _ _ _ _

theorem ten_rel {k k' : Batch Heads} (len : Nat)
    (h : List.Forall₂ (List.Forall₂ (Share (A.kvHeads / T) r)) k k') :
    TenRel [A.kvHeads, A.headDim] [A.kvHeads / T, A.headDim] (Share (A.kvHeads / T) r) (A.whole.ten len k)
      ((A.part T r).ten len k') := ⟨rfl, rfl, rfl, h⟩

/-- The states of self attention on one device and on a rank. -/
abbrev SelfRel (A : Attn) (T r : Nat) (st st' : Option Cache) : Prop :=
  Option.Rel (CacheRel [A.kvHeads, A.headDim] [A.kvHeads / T, A.headDim] (Share (A.kvHeads / T) r)) st st'

abbrev CrossRel (A : Attn) (T r : Nat) (st st' : Option (Static Heads)) : Prop :=
  Option.Rel (StaticRel [A.kvHeads, A.headDim] [A.kvHeads / T, A.headDim] (Share (A.kvHeads / T) r)) st st'

theorem none_joint {σ : Type} {S : Nat → σ → σ → Prop} {w : Option (Batch Vec × σ)} {p : Nat → Option (Batch Vec × σ)}
    (h1 : w = none) (h2 : ∀ r < T, p r = none) : Joint A T S w p := .inl ⟨h1, h2⟩

theorem joint_congr {σ : Type} {S : Nat → σ → σ → Prop} {w : Option (Batch Vec × σ)}
    {p p' : Nat → Option (Batch Vec × σ)} (h : Joint A T S w p') (e : ∀ r < T, p r = p' r) : Joint A T S w p := by
  rcases h with ⟨h1, h2⟩ | ⟨W, Wr, st, sts, h1, h2⟩
  · exact .inl ⟨h1, fun r hr => by rw [e r hr, h2 r hr]⟩
  · exact .inr ⟨W, Wr, st, sts, h1, fun r hr => by rw [e r hr]; exact h2 r hr⟩

theorem self_joint (h : A.Splits T) (hT : 0 < T) {junk : Heads} {junks : Nat → Heads}
    (hj : ∀ r < T, Share (A.kvHeads / T) r junk (junks r)) (bag : Option Bag) {st : Option Cache}
    {sts : Nat → Option Cache} (hst : ∀ r < T, SelfRel A T r st (sts r)) (l : Layout) (xs : Batch Vec) :
    Joint A T (SelfRel A T) (A.whole.forwardSelf junk bag st l xs)
      fun r => (A.part T r).forwardSelf (junks r) bag (sts r) l xs := by
  unfold Mha.forwardSelf
  rcases rel_cases (fun r hr => projectQ_rel h hr bag l xs) hT with ⟨e1, e2⟩ | ⟨q, qs, e1, e2⟩
  · exact none_joint (by rw [e1]; rfl) fun r hr => by rw [e2 r hr]; rfl
  have hv : ∀ r < T, List.Forall₂ (List.Forall₂ (Share (A.kvHeads / T) r)) (A.whole.projectV xs)
      ((A.part T r).projectV xs) := fun r hr => projectV_rel h hr xs
  cases bag with
  | none =>
    rcases rel_cases (fun r hr => projectK_rel h hr none l xs) hT with ⟨f1, f2⟩ | ⟨k, ks, f1, f2⟩
    · exact none_joint (by rw [e1, Option.bind_some]; simp only [f1]; rfl)
        fun r hr => by rw [(e2 r hr).1, Option.bind_some]; simp only [f2 r hr]; rfl
    · simp only [e1, f1, Option.bind_some]
      refine joint_congr (sdpa_joint h l l hT (fun r hr => (e2 r hr).2) (fun r hr => (f2 r hr).2) hv hst) fun r hr => ?_
      simp only [(e2 r hr).1, (f2 r hr).1, Option.bind_some]
  | some b =>
    by_cases hp : (l.packed || l.padded) = true
    · exact none_joint (by simp only [e1, Option.bind_some, hp, if_true])
        fun r hr => by simp only [(e2 r hr).1, Option.bind_some, hp, if_true]
    rcases rel_cases (fun r hr => projectK_rel h hr (some b) l xs) hT with ⟨f1, f2⟩ | ⟨k, ks, f1, f2⟩
    · exact none_joint (by simp only [e1, Option.bind_some, hp, f1, Option.bind_none]; rfl)
        fun r hr => by simp only [(e2 r hr).1, Option.bind_some, hp, f2 r hr, Option.bind_none]; rfl
    simp only [e1, f1, Option.bind_some, hp]
    have hkt : ∀ r < T, _ := fun r hr => ten_rel (A := A) (T := T) (r := r) l.width.toNat (f2 r hr).2
    have hvt : ∀ r < T, _ := fun r hr => ten_rel (A := A) (T := T) (r := r) l.width.toNat (hv r hr)
    cases st with
    | none =>
      have hs : ∀ r < T, sts r = none := fun r hr => by
        have := hst r hr
        revert this
        generalize sts r = x
        intro this
        cases this
        rfl
      simp only [Mha.firstStep]
      rcases rel_cases (fun r hr => cache_new_rel (hkt r hr) (hvt r hr) (hj r hr) A.state b) hT with
        ⟨g1, g2⟩ | ⟨c, cs, g1, g2⟩
      · refine none_joint ?_ fun r hr => ?_
        · show Option.bind (Cache.new junk A.state _ _ b) _ = none
          rw [g1]; rfl
        · simp only [(e2 r hr).1, (f2 r hr).1, Option.bind_some, hs r hr]
          show Option.bind (Cache.new (junks r) A.state _ _ b) _ = none
          rw [g2 r hr]; rfl
      · have e0 : Cache.new junk A.whole.state (A.whole.ten l.width.toNat k)
          (A.whole.ten l.width.toNat (A.whole.projectV xs)) b = some c := g1
        simp only [e0, Option.bind_some]
        refine joint_congr (sdpa_joint (st := some c) (sts := fun r => some (cs r)) h l l hT
          (fun r hr => (e2 r hr).2) (fun r hr => (f2 r hr).2) hv (fun r hr => .some (g2 r hr).2)) fun r hr => ?_
        have e0' : Cache.new (junks r) (A.part T r).state ((A.part T r).ten l.width.toNat (ks r))
          ((A.part T r).ten l.width.toNat ((A.part T r).projectV xs)) b = some (cs r) := (g2 r hr).1
        simp only [(e2 r hr).1, (f2 r hr).1, Option.bind_some, hs r hr, e0']
        rfl
    | some c =>
      have hs : ∀ r < T, ∃ c', sts r = some c' ∧
          CacheRel [A.kvHeads, A.headDim] [A.kvHeads / T, A.headDim] (Share (A.kvHeads / T) r) c c' := fun r hr => by
        have := hst r hr
        revert this
        generalize sts r = x
        intro this
        cases this with
        | some h => exact ⟨_, rfl, h⟩
      have hap : ∀ r < T, Option.Rel (CacheRel [A.kvHeads, A.headDim] [A.kvHeads / T, A.headDim]
          (Share (A.kvHeads / T) r)) (c.append junk (A.whole.ten l.width.toNat k)
            (A.whole.ten l.width.toNat (A.whole.projectV xs)))
          ((sts r).bind fun c' => c'.append (junks r) ((A.part T r).ten l.width.toNat (ks r))
            ((A.part T r).ten l.width.toNat ((A.part T r).projectV xs))) := by
        intro r hr
        obtain ⟨c', e, hc⟩ := hs r hr
        rw [e]
        exact cache_append_rel hc (hkt r hr) (hvt r hr) (hj r hr)
      simp only [Mha.laterStep]
      rcases rel_cases hap hT with ⟨g1, g2⟩ | ⟨d, ds, g1, g2⟩
      · refine none_joint (by rw [g1]; rfl) fun r hr => ?_
        obtain ⟨c', e, _⟩ := hs r hr
        have := g2 r hr
        rw [e, Option.bind_some] at this
        simp only [(e2 r hr).1, (f2 r hr).1, Option.bind_some, e, this, Option.bind_none]
        rfl
      · simp only [g1, Option.bind_some]
        have hget := fun r (hr : r < T) => cache_get_rel (g2 r hr).2
        have hd : ∀ r < T, ∃ c', sts r = some c' ∧ c'.append (junks r) ((A.part T r).ten l.width.toNat (ks r))
            ((A.part T r).ten l.width.toNat ((A.part T r).projectV xs)) = some (ds r) := by
          intro r hr
          obtain ⟨c', e, _⟩ := hs r hr
          have := (g2 r hr).1
          rw [e, Option.bind_some] at this
          exact ⟨c', e, this⟩
        cases hK : Layout.new [(d.get.1.rows.length : Int), (d.get.1.len : Int)] none false with
        | none =>
          refine none_joint rfl fun r hr => ?_
          obtain ⟨c', e, ha⟩ := hd r hr
          have h1 := (hget r hr).1.rows.length_eq
          have h2 := (hget r hr).1.len
          simp only [(e2 r hr).1, (f2 r hr).1, Option.bind_some, e, ha, ← h1, ← h2, hK, Option.bind_none]
          rfl
        | some K =>
          simp only [Option.bind_some]
          refine joint_congr (sdpa_joint (st := some d) (sts := fun r => some (ds r)) h l K hT
            (fun r hr => (e2 r hr).2) (fun r hr => (hget r hr).1.rows) (fun r hr => (hget r hr).2.rows)
            (fun r hr => .some (g2 r hr).2)) fun r hr => ?_
          obtain ⟨c', e, ha⟩ := hd r hr
          have h1 := (hget r hr).1.rows.length_eq
          have h2 := (hget r hr).1.len
          simp only [(e2 r hr).1, (f2 r hr).1, Option.bind_some, e, ha, ← h1, ← h2, hK]
          rfl

end Fs2.Tp
