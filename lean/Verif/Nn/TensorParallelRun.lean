import Verif.Nn.TensorParallelLemmas

/-!
# Sharded decoders compute what whole ones compute
-/

namespace Fs2.Tp
open Fs2.Nn Fs2.Dec

variable {A : Attn} {T : Nat}

/-- The same value on every rank. -/
abbrev same {α : Type} (T : Nat) (x : α) : List α := (List.range T).map fun _ => x

/-! ## Attention -/

theorem join_share {n d : Nat} (hd : 0 < d) (nan : ℝ) {r : Nat} {a b : Nat → Nat → Option ℝ} (h : ShareAtt n r a b)
    {j : Nat} (hj : j < n * d) : joinHeads d nan b j = joinHeads d nan a (r * (n * d) + j) := by
  have e : r * (n * d) + j = j + d * (r * n) := by ring
  unfold joinHeads
  rw [e, Nat.add_mul_div_left _ _ hd, Nat.add_mul_mod_self_left, Nat.add_comm (j / d), h _ (Nat.div_lt_of_lt_mul (by rw [Nat.mul_comm]; exact hj))]

theorem reduce_att (h : A.Splits T) {W : Batch (Nat → Nat → Option ℝ)} {Wr : Nat → Batch (Nat → Nat → Option ℝ)}
    (hW : ∀ r < T, List.Forall₂ (List.Forall₂ (ShareAtt (A.heads / T) r)) W (Wr r)) :
    reduceSum A.out.bias ((List.range T).map fun r => (Wr r).map (List.map (A.part T r).out)) =
      same T (W.map (List.map A.whole.out)) := by
  refine collective_eq hW fun a b hab => ?_
  funext c
  rw [List.map_map]
  exact row_sum h.out' (fun r hr j hj => join_share h.dim_pos _ (hab r hr) hj) c

/-- One device and all ranks: both raise, or every rank has the output of the one device, and the states are related. -/
abbrev Agree {σ : Type} (T : Nat) (S : Nat → σ → σ → Prop) : Option (Batch Vec × σ) →
    Option (List (Batch Vec) × List σ) → Prop :=
  Option.Rel fun w p => p.1 = same T w.1 ∧ ∃ sts : Nat → σ, p.2 = (List.range T).map sts ∧ ∀ r < T, S r w.2 (sts r)

theorem agree_joint {σ : Type} {S : Nat → σ → σ → Prop} {w : Option (Batch Vec × σ)}
    {p : Nat → Option (Batch Vec × σ)} (h : A.Splits T) (hT : 0 < T) (hj : Joint A T S w p) :
    Agree T S w (((List.range T).mapM p).map fun ys => (reduceSum A.out.bias (ys.map Prod.fst), ys.map Prod.snd)) := by
  rcases hj with ⟨h1, h2⟩ | ⟨W, Wr, st, sts, h1, h2⟩
  · rw [h1, mapM_none (List.mem_range.2 hT) (h2 0 hT)]
    exact .none
  · rw [h1, mapM_range_some T fun r hr => (h2 r hr).1]
    refine .some ⟨?_, sts, ?_, fun r hr => (h2 r hr).2.2⟩
    · simp only [List.map_map]
      exact reduce_att h fun r hr => (h2 r hr).2.1
    · simp only [List.map_map]
      rfl

theorem self_agree (h : A.Splits T) (hT : 0 < T) {junk : Heads} {junks : Nat → Heads}
    (hj : ∀ r < T, Share (A.kvHeads / T) r junk (junks r)) (bag : Option Bag) {st : Option Cache}
    {sts : Nat → Option Cache} (hst : ∀ r < T, SelfRel A T r st (sts r)) (l : Layout) (xs : Batch Vec) :
    Agree T (SelfRel A T) (A.whole.forwardSelf junk bag st l xs)
      (A.forwardSelf T junks bag ((List.range T).map sts) l (same T xs)) := by
  unfold Attn.forwardSelf
  rw [zip_range, onRanks_range]
  simp only [rank_ok h hT, Option.bind_some]
  exact agree_joint h hT (self_joint h hT hj bag hst l xs)

theorem cross_joint (h : A.Splits T) (hT : 0 < T) (bag : Option Bag) {st : Option (Static Heads)}
    {sts : Nat → Option (Static Heads)} (hst : ∀ r < T, CrossRel A T r st (sts r)) (l : Layout) (xs : Batch Vec)
    (src : Source) :
    Joint A T (CrossRel A T) (A.whole.forwardCross bag st l xs src)
      fun r => (A.part T r).forwardCross bag (sts r) l xs src := by
  unfold Mha.forwardCross
  rcases rel_cases (fun r hr => projectQ_rel h hr bag l xs) hT with ⟨e1, e2⟩ | ⟨q, qs, e1, e2⟩
  · exact none_joint (by rw [e1]; rfl) fun r hr => by rw [e2 r hr]; rfl
  have hv : ∀ r < T, List.Forall₂ (List.Forall₂ (Share (A.kvHeads / T) r)) (A.whole.projectV src.rows)
      ((A.part T r).projectV src.rows) := fun r hr => projectV_rel h hr src.rows
  have hK := rel_cases (fun r hr => projectK_rel h hr none src.layout src.rows) hT
  cases bag with
  | none =>
    rcases hK with ⟨f1, f2⟩ | ⟨k, ks, f1, f2⟩
    · exact none_joint (by rw [e1, Option.bind_some]; simp only [f1]; rfl)
        fun r hr => by rw [(e2 r hr).1, Option.bind_some]; simp only [f2 r hr]; rfl
    · simp only [e1, f1, Option.bind_some]
      refine joint_congr (sdpa_joint h l src.layout hT (fun r hr => (e2 r hr).2) (fun r hr => (f2 r hr).2) hv hst)
        fun r hr => ?_
      simp only [(e2 r hr).1, (f2 r hr).1, Option.bind_some]
  | some b =>
    cases st with
    | none =>
      have hs : ∀ r < T, sts r = none := fun r hr => by
        have := hst r hr
        revert this
        generalize sts r = x
        intro this
        cases this
        rfl
      rcases hK with ⟨f1, f2⟩ | ⟨k, ks, f1, f2⟩
      · exact none_joint (by rw [e1, Option.bind_some]; simp only [f1]; rfl)
          fun r hr => by rw [(e2 r hr).1, Option.bind_some]; simp only [hs r hr, f2 r hr]; rfl
      · simp only [e1, f1, Option.bind_some]
        refine joint_congr (sdpa_joint (S := CrossRel A T) (st := some (Static.mk (A.whole.ten src.width k)
          (A.whole.ten src.width (A.whole.projectV src.rows)))) (sts := fun r => some (Static.mk
            ((A.part T r).ten src.width (ks r)) ((A.part T r).ten src.width ((A.part T r).projectV src.rows)))) h l src.layout hT (fun r hr => (e2 r hr).2)
          (fun r hr => (f2 r hr).2) hv (fun r hr => .some ⟨ten_rel _ (f2 r hr).2, ten_rel _ (hv r hr)⟩)) fun r hr => ?_
        simp only [(e2 r hr).1, hs r hr, (f2 r hr).1, Option.bind_some]
    | some s =>
      have hs : ∀ r, ∃ s', r < T → sts r = some s' ∧
          StaticRel [A.kvHeads, A.headDim] [A.kvHeads / T, A.headDim] (Share (A.kvHeads / T) r) s s' := fun r => by
        by_cases hr : r < T
        · have := hst r hr
          revert this
          generalize sts r = x
          intro this
          cases this with
          | some h => exact ⟨_, fun _ => ⟨rfl, h⟩⟩
        · exact ⟨s, fun h => absurd h hr⟩
      choose ss hs using hs
      simp only [e1, Option.bind_some]
      refine joint_congr (sdpa_joint (st := some s) (sts := fun r => some (ss r)) h l src.layout hT
        (fun r hr => (e2 r hr).2) (fun r hr => (hs r hr).2.k.rows) (fun r hr => (hs r hr).2.v.rows)
        (fun r hr => .some (hs r hr).2)) fun r hr => ?_
      simp only [(e2 r hr).1, (hs r hr).1, Option.bind_some]
      rfl

theorem cross_agree (h : A.Splits T) (hT : 0 < T) (bag : Option Bag) {st : Option (Static Heads)}
    {sts : Nat → Option (Static Heads)} (hst : ∀ r < T, CrossRel A T r st (sts r)) (l : Layout) (xs : Batch Vec)
    (src : Source) :
    Agree T (CrossRel A T) (A.whole.forwardCross bag st l xs src)
      (A.forwardCross T bag ((List.range T).map sts) l (same T xs) src) := by
  unfold Attn.forwardCross
  rw [zip_range, onRanks_range]
  simp only [rank_ok h hT, Option.bind_some]
  exact agree_joint h hT (cross_joint h hT bag hst l xs src)

/-! ## Feed-forward networks -/

theorem ffn_agree {F : Ffn} (h : F.Splits T) (hT : 0 < T) (xs : Batch Vec) :
    F.forward T (same T xs) = some (same T (xs.map (List.map F.whole))) := by
  obtain ⟨n, hn⟩ := h.share
  have ho : F.out.inDim = T * n := by rw [h.out, hn]
  have hg : F.gate.outDim = T * n := by
    rcases h.kind with e | ⟨g, e, hg⟩
    · simp only [Ffn.gate, e, hn]
    · simp only [Ffn.gate, e, hg, hn]
  unfold Ffn.forward
  rw [onRanks_range]
  simp only [Ffn.rank, column_ok hT hg, column_ok hT hn, row_ok hT ho, Option.bind_some, Option.map_some]
  rw [mapM_range_some T fun r _ => rfl, Option.map_some]
  congr 1
  refine collective_eq (Q := fun _ a b => a = b) (Wr := fun _ => xs) (fun r _ => ?_) fun a b hab => ?_
  · exact List.forall₂_same.2 fun x _ => List.forall₂_same.2 fun y _ => rfl
  · funext c
    rw [List.map_map]
    refine row_sum (a := hiddenOf F.kind F.act F.gate F.inner a) ho (fun r hr j hj => ?_) c
    rw [← hab r hr]
    rcases h.kind with e | ⟨g, e, _⟩
    · simp only [e, hiddenOf, column_apply hn hr a hj]
    · simp only [e, hiddenOf, column_apply hn hr a hj, column_apply hg hr a hj]

/-! ## The final projection and embeddings -/

theorem gather_eq {γ : Type} (hT : 0 < T) {Q : γ → Prop} {n : Nat} {W : Batch γ} (hW : ∀ row ∈ W, ∀ x ∈ row, Q x) {g : γ → Vec}
    {gr : Nat → γ → Vec} (h : ∀ r < T, ∀ a, Q a → ∀ i < n, gr r a i = g a (r * n + i))
    (hz : ∀ a, Q a → ∀ i, T * n ≤ i → g a i = 0) (hz' : ∀ r < T, ∀ a, n = 0 → gr r a = fun _ => 0) :
    gatherLast n ((List.range T).map fun r => W.map (List.map (gr r))) = same T (W.map (List.map g)) := by
  refine collective_eq (Q := fun _ a b => a = b ∧ Q a) (Wr := fun _ => W) (fun r _ => ?_) fun a b hab => ?_
  · exact List.forall₂_same.2 fun x hx => List.forall₂_same.2 fun y hy => ⟨rfl, hW x hx y hy⟩
  · funext c
    by_cases hc : c / n < T
    · have e : ((List.range T).map fun r => gr r (b r))[c / n]? = some (gr (c / n) (b (c / n))) := by
        rw [List.getElem?_map, List.getElem?_range hc]; rfl
      have hq := (hab _ hc).2
      rw [e, Option.getD_some, ← (hab _ hc).1]
      rcases Nat.eq_zero_or_pos n with rfl | hn
      · rw [hz' _ hc a rfl, hz a hq c (by simp)]
      · rw [h _ hc a hq _ (Nat.mod_lt _ hn)]
        congr 1
        rw [Nat.mul_comm]
        exact Nat.div_add_mod c n
    · have e : ((List.range T).map fun r => gr r (b r))[c / n]? = none := by
        rw [List.getElem?_eq_none]; simp; omega
      rw [e, Option.getD_none]
      rw [hz a (hab 0 hT).2 c]
      rcases Nat.eq_zero_or_pos n with rfl | hn
      · simp
      · exact (Nat.le_div_iff_mul_le hn).1 (by omega)

theorem project_agree {p : Lin} (h : T ∣ p.outDim) (hT : 0 < T) (xs : Batch Vec) :
    projectAll p T (same T xs) = some (same T (xs.map (List.map p.apply))) := by
  obtain ⟨n, hn⟩ := h
  unfold projectAll
  rw [onRanks_range]
  simp only [column_ok hT hn, Option.map_some]
  rw [mapM_range_some T fun r _ => rfl, Option.map_some]
  have e : p.outDim / T = n := by rw [hn]; exact Nat.mul_div_cancel_left n hT
  rw [e]
  congr 1
  refine gather_eq hT (Q := fun _ => True) (fun _ _ _ _ => trivial) (fun r hr a _ i hi => column_apply hn hr a hi)
    (fun a _ i hi => ?_) (fun r hr a h0 => ?_)
  · rw [Lin.apply, if_neg (by rw [hn]; omega)]
  · funext i
    rw [Lin.apply, if_neg (by simp [h0])]

theorem sum_one (T k : Nat) (hk : k < T) (x : ℝ) {f : Nat → ℝ} (h : ∀ r < T, f r = if r = k then x else 0) :
    ((List.range T).map f).sum = x := by
  have e : (List.range T).map f = (List.range T).map fun r => ∑ j ∈ Finset.range 1, (if r * 1 + j = k then x else 0) := by
    refine List.map_congr_left fun r hr => ?_
    rw [h r (List.mem_range.1 hr)]
    simp
  rw [e, sum_ranks (fun j => if j = k then x else 0) 1 T]
  simp [hk]

theorem embed_agree {e : Embed} (hv : e.kind = .vocab → T ∣ e.num) (hd : e.kind = .dims → T ∣ e.dim) (hT : 0 < T)
    {tokens : Batch Nat} (ht : e.kind = .vocab → ∀ row ∈ tokens, ∀ t ∈ row, t < e.num) :
    e.forward T tokens = some (same T (tokens.map (List.map e.apply))) := by
  unfold Embed.forward
  have er : List.replicate T tokens = same T tokens := by simp [same]
  rw [er, onRanks_range]
  cases hk : e.kind with
  | whole =>
    simp only [Embed.rank, hk, Option.map_some]
    rw [mapM_range_some T fun r _ => rfl, Option.map_some]
  | vocab =>
    obtain ⟨n, hn⟩ := hv hk
    have hmod : ¬ e.num % T ≠ 0 := by rw [hn]; simp
    have hdiv : e.num / T = n := by rw [hn]; exact Nat.mul_div_cancel_left n hT
    simp only [Embed.rank, hk, if_neg hmod, hdiv, Option.map_some]
    rw [mapM_range_some T fun r _ => rfl, Option.map_some]
    congr 1
    refine collective_eq (Q := fun _ a b => a = b ∧ a < e.num) (Wr := fun _ => tokens) (fun r _ => ?_) fun a b hab => ?_
    · exact List.forall₂_same.2 fun x hx => List.forall₂_same.2 fun y hy => ⟨rfl, ht hk x hx y hy⟩
    · funext c
      rw [List.map_map, add_zero]
      have ha := (hab 0 hT).2
      rw [hn] at ha
      have hn0 : 0 < n := by
        rcases Nat.eq_zero_or_pos n with rfl | h
        · simp at ha
        · exact h
      refine sum_one T (a / n) (Nat.div_lt_of_lt_mul (by rw [Nat.mul_comm]; exact ha)) _ fun r hr => ?_
      have hb := (hab r hr).1
      simp only [Function.comp, ← hb]
      have hda := Nat.div_add_mod a n
      have hma := Nat.mod_lt a hn0
      by_cases hra : r = a / n
      · have h1 : r * n ≤ a := by rw [hra, Nat.mul_comm]; omega
        have h2 : a < (r + 1) * n := by rw [hra, Nat.succ_mul, Nat.mul_comm]; omega
        have h3 : (decide (a < r * n) || decide (a ≥ (r + 1) * n)) = false := by
          rw [Bool.or_eq_false_iff, decide_eq_false_iff_not, decide_eq_false_iff_not]; omega
        rw [if_pos hra]
        simp only [h3, Bool.false_eq_true, if_false, Embed.apply]
        rw [Nat.add_sub_cancel' h1]
      · have h3 : (decide (a < r * n) || decide (a ≥ (r + 1) * n)) = true := by
          rw [Bool.or_eq_true, decide_eq_true_iff, decide_eq_true_iff]
          rcases Nat.lt_or_ge a (r * n) with h | h
          · exact .inl h
          · refine .inr ?_
            have h5 : r ≤ a / n := (Nat.le_div_iff_mul_le hn0).2 h
            exact (Nat.le_div_iff_mul_le hn0).1 (by omega)
        rw [if_neg hra]
        simp only [h3, if_true]
  | dims =>
    obtain ⟨n, hn⟩ := hd hk
    have hmod : ¬ e.dim % T ≠ 0 := by rw [hn]; simp
    have hdiv : e.dim / T = n := by rw [hn]; exact Nat.mul_div_cancel_left n hT
    simp only [Embed.rank, hk, if_neg hmod, hdiv, Option.map_some]
    rw [mapM_range_some T fun r _ => rfl, Option.map_some]
    congr 1
    refine gather_eq hT (Q := fun _ => True) (fun _ _ _ _ => trivial) (fun r hr a _ i hi => ?_) (fun a _ i hi => ?_)
      (fun r hr a h0 => ?_)
    · rw [if_pos hi, Embed.apply, if_pos (by rw [hn]; exact index_lt hr hi)]
    · rw [Embed.apply, if_neg (by rw [hn]; omega)]
    · funext i
      rw [if_neg (by simp [h0])]

/-! ## Layers -/

/-- The states of a layer on one device and on a rank. -/
structure StateRel (L : Layer) (T r : Nat) (st st' : LayerState) : Prop where
  self : SelfRel L.selfAttn T r st.self st'.self
  cross : ∀ x, L.cross = some x → CrossRel x.1 T r st.cross st'.cross
  absent : L.cross = none → st.cross = none ∧ st'.cross = none

theorem layer_agree {L : Layer} (hT : 0 < T) (ha : L.selfAttn.Splits T) (hc : ∀ x, L.cross = some x → x.1.Splits T)
    (hf : L.ffn.Splits T) {junk : Heads} {junks : Nat → Heads}
    (hj : ∀ r < T, Share (L.selfAttn.kvHeads / T) r junk (junks r)) (bag : Option Bag) (src : Option Source)
    (l : Layout) {st : LayerState} {sts : Nat → LayerState} (hst : ∀ r < T, StateRel L T r st (sts r))
    (xs : Batch Vec) :
    Agree T (StateRel L T) (L.whole.forward junk bag src l st xs)
      (L.forward T junks bag src l ((List.range T).map sts) (same T xs)) := by
  unfold Dec.Layer.forward Layer.forward Dec.Layer.forwardSelf
  simp only [List.map_map]
  have hself := self_agree ha hT hj bag (sts := fun r => (sts r).self) (fun r hr => (hst r hr).self) l
    (L.selfBlock.enter xs)
  rw [Option.bind_map]
  refine rel_bind hself ?_
  rintro ⟨y, st1⟩ ⟨ys, sts1⟩ ⟨h1, f, h2, h3⟩
  simp only at h1 h2 h3
  subst h1 h2
  simp only [Function.comp, zipWith_range]
  have hcross : Agree T (fun r c c' => (∀ x, L.cross = some x → CrossRel x.1 T r c c') ∧
      (L.cross = none → c = none ∧ c' = none))
      (L.whole.forwardCross bag st.cross l src (L.selfBlock.leave y xs))
      (L.forwardCross T bag src l ((List.range T).map fun r => (sts r).cross)
        (same T (L.selfBlock.leave y xs))) := by
    cases hx : L.cross with
    | none =>
      simp only [Layer.forwardCross, Dec.Layer.forwardCross, Layer.whole, hx, Option.map_none]
      exact .some ⟨rfl, _, rfl, fun r hr => ⟨fun x h => by simp at h, fun _ => (hst r hr).absent hx⟩⟩
    | some x =>
      obtain ⟨B, b⟩ := x
      simp only [Layer.forwardCross, Dec.Layer.forwardCross, Layer.whole, hx, Option.map_some]
      cases src with
      | none => exact .none
      | some src =>
        simp only [Option.bind_some, List.map_map]
        refine rel_omap (cross_agree (hc _ hx) hT bag (sts := fun r => (sts r).cross)
          (fun r hr => (hst r hr).cross _ hx) l (b.enter (L.selfBlock.leave y xs)) src) ?_
        rintro ⟨z, c1⟩ ⟨zs, cs1⟩ ⟨g1, g, g2, g3⟩
        simp only at g1 g2 g3
        subst g1 g2
        refine ⟨by simp only [zipWith_range], g, rfl, fun r hr => ⟨fun x e => ?_, fun e => by simp at e⟩⟩
        cases e
        exact g3 r hr
  have hsb : L.whole.selfBlock = L.selfBlock := rfl
  rw [hsb]
  rw [Option.map_eq_bind]
  refine rel_bind hcross ?_
  rintro ⟨z, c⟩ ⟨zs, cs⟩ ⟨g1, g, g2, g3⟩
  simp only at g1 g2 g3
  subst g1 g2
  simp only [List.map_map]
  have e := ffn_agree hf hT (L.ffnBlock.enter z)
  have e' : (List.range T).map (L.ffnBlock.enter ∘ fun _ => z) = same T (L.ffnBlock.enter z) := rfl
  rw [e', e]
  refine .some ⟨?_, _, zipWith_range _ _ _ _, fun r hr => ⟨h3 r hr, (g3 r hr).1, (g3 r hr).2⟩⟩
  simp only [zipWith_range]
  rfl

/-- The states of all layers. -/
def StatesRel (T : Nat) : List Layer → List LayerState → List (List LayerState) → Prop
  | [], [], [] => True
  | L :: Ls, st :: sts, ss :: sss =>
    (∃ f : Nat → LayerState, ss = (List.range T).map f ∧ ∀ r < T, StateRel L T r st (f r)) ∧ StatesRel T Ls sts sss
  | _, _, _ => False

theorem layers_agree (hT : 0 < T) {junk : Heads} {junks : Nat → Heads} (bag : Option Bag) (src : Option Source)
    (l : Layout) : ∀ {Ls : List Layer}, (∀ L ∈ Ls, L.selfAttn.Splits T) →
    (∀ L ∈ Ls, ∀ x, L.cross = some x → x.1.Splits T) → (∀ L ∈ Ls, L.ffn.Splits T) →
    (∀ L ∈ Ls, ∀ r < T, Share (L.selfAttn.kvHeads / T) r junk (junks r)) → ∀ {sts : List LayerState}
    {sss : List (List LayerState)}, StatesRel T Ls sts sss → ∀ xs : Batch Vec,
    Option.Rel (fun w p => p.1 = same T w.1 ∧ StatesRel T Ls w.2 p.2)
      (Dec.forwardLayers junk bag src l (Ls.map Layer.whole) sts xs)
      (forwardLayers T junks bag src l Ls sss (same T xs)) := by
  intro Ls
  induction Ls with
  | nil =>
    intro _ _ _ _ sts sss h xs
    cases sts with
    | cons => exact h.elim
    | nil =>
      cases sss with
      | cons => exact h.elim
      | nil => exact .some ⟨rfl, trivial⟩
  | cons L Ls ih =>
    intro ha hc hf hj sts sss h xs
    cases sts with
    | nil => cases sss <;> exact h.elim
    | cons st sts =>
      cases sss with
      | nil => exact h.elim
      | cons ss sss =>
        obtain ⟨⟨f, rfl, hst⟩, hrest⟩ := h
        simp only [List.map_cons, Dec.forwardLayers, forwardLayers]
        refine rel_bind (layer_agree hT (ha L (by simp)) (hc L (by simp)) (hf L (by simp)) (hj L (by simp)) bag src l
          hst xs) ?_
        rintro ⟨y, st1⟩ ⟨ys, ss1⟩ ⟨h1, g, h2, h3⟩
        simp only at h1 h2 h3
        subst h1 h2
        refine rel_omap (ih (fun L h => ha L (by simp [h])) (fun L h => hc L (by simp [h]))
          (fun L h => hf L (by simp [h])) (fun L h => hj L (by simp [h])) hrest y) ?_
        rintro ⟨z, sts2⟩ ⟨zs, sss2⟩ ⟨g1, g2⟩
        exact ⟨g1, ⟨g, rfl, h3⟩, g2⟩

/-! ## Models -/

/-- The memory of the ranks, put together. -/
def GluedFor (m : Model) (T : Nat) (junk : Heads) (junks : Nat → Heads) : Prop :=
  ∀ L ∈ m.layers, ∀ r < T, Share (L.selfAttn.kvHeads / T) r junk (junks r)

theorem exists_glued {m : Model} (h : m.Splits T) (junks : Nat → Heads) : ∃ junk, GluedFor m T junk junks := by
  obtain ⟨n, hn⟩ := h.heads
  refine ⟨fun k => junks (k / (n / T)) (k % (n / T)), fun L hL r _ k hk => ?_⟩
  rw [hn L hL] at hk ⊢
  beta_reduce
  rw [Nat.add_comm, Nat.add_mul_div_right _ _ (by omega), Nat.add_mul_mod_self_right, Nat.div_eq_of_lt hk,
    Nat.mod_eq_of_lt hk, Nat.zero_add]

/-- Every token is in the vocabulary. -/
def InTable (m : Model) (tokens : Batch Nat) : Prop := ∀ row ∈ tokens, ∀ t ∈ row, t < m.embed.num

theorem forwardAt_agree {m : Model} (h : m.Splits T) {junk : Heads} {junks : Nat → Heads}
    (hj : GluedFor m T junk junks) (bag : Option Bag) (src : Option Source) (l : Layout) {sts : List LayerState}
    {sss : List (List LayerState)} (hst : StatesRel T m.layers sts sss) {tokens : Batch Nat}
    (ht : InTable m tokens) :
    Option.Rel (fun w p => p.1 = same T w.1 ∧ StatesRel T m.layers w.2 p.2)
      ((encode PosEnc.apply m.pos bag l (tokens.map (List.map m.whole.embed))).bind fun xs =>
        (Dec.forwardLayers junk bag src l m.whole.layers sts xs).map fun (xs, sts) =>
          (xs.map (List.map fun x => m.whole.proj (m.whole.norm x)), sts))
      (m.forwardAt T junks bag src sss l tokens) := by
  have hT := h.pos
  unfold Model.forwardAt
  rw [embed_agree h.vocab h.dim hT fun _ => ht, Option.bind_some, onRanks_range]
  have e0 : (tokens.map (List.map m.embed.apply)).map (List.map m.scale) = tokens.map (List.map m.whole.embed) := by
    simp only [List.map_map]
    refine List.map_congr_left fun row _ => ?_
    simp [Function.comp, Model.whole]
  simp only [e0]
  cases he : encode PosEnc.apply m.pos bag l (tokens.map (List.map m.whole.embed)) with
  | none =>
    rw [mapM_none (List.mem_range.2 hT) rfl]
    exact .none
  | some xs =>
    rw [mapM_range_some T fun r _ => rfl, Option.bind_some, Option.bind_some, Option.map_eq_bind]
    refine rel_bind (layers_agree hT bag src l h.attn h.cross h.ffn hj hst xs) ?_
    rintro ⟨y, sts1⟩ ⟨ys, sss1⟩ ⟨h1, h2⟩
    simp only at h1 h2
    subst h1
    have e1 : (same T y).map (List.map (List.map m.norm)) = same T (y.map (List.map m.norm)) := by
      simp [same]
    simp only [e1, project_agree h.proj hT, Option.map_some]
    refine .some ⟨?_, h2⟩
    simp only [List.map_map]
    have e2 : y.map (List.map m.proj.apply ∘ List.map m.norm) =
        y.map (List.map fun x => m.whole.proj (m.whole.norm x)) := by
      refine List.map_congr_left fun row _ => ?_
      simp [Function.comp, Model.whole]
    rw [e2]

theorem forward_agree {m : Model} (h : m.Splits T) {junk : Heads} {junks : Nat → Heads}
    (hj : GluedFor m T junk junks) (bag : Option Bag) (src : Option Source) {sts : List LayerState}
    {sss : List (List LayerState)} (hst : StatesRel T m.layers sts sss) {tokens : Batch Nat}
    (ht : InTable m tokens) :
    Option.Rel (fun w p => p.1 = same T w.1 ∧ StatesRel T m.layers w.2 p.2)
      (m.whole.forward junk bag src sts tokens) (m.forward T junks bag src sss tokens) := by
  unfold Dec.Model.forward Model.forward
  cases Layout.new [(tokens.length : Int), (width tokens : Int)] none false with
  | none => exact .none
  | some l => exact forwardAt_agree h hj bag src l hst ht

/-! ## Generations -/

structure SessionRel (m : Model) (T : Nat) (s : Dec.Session) (t : Session) : Prop where
  bag : s.bag = t.bag
  source : s.source = t.source
  layers : StatesRel T m.layers s.layers t.layers

theorem feed_agree {m : Model} (h : m.Splits T) {junk : Heads} {junks : Nat → Heads} (hj : GluedFor m T junk junks)
    (given : Option Source) {s : Dec.Session} {t : Session} (hs : SessionRel m T s t) {tokens : Batch Nat}
    (ht : InTable m tokens) :
    Option.Rel (fun w p => p.1 = same T w.1 ∧ SessionRel m T w.2 p.2) (s.feed m.whole junk given tokens)
      (t.feed m T junks given tokens) := by
  unfold Dec.Session.feed Session.feed
  rw [← hs.bag, ← hs.source]
  refine rel_bind (forward_agree h hj (some s.bag) (s.source.or given) hs.layers ht) ?_
  rintro ⟨y, sts⟩ ⟨ys, sss⟩ ⟨h1, h2⟩
  simp only
  cases s.bag.increment (width tokens) with
  | none => exact .none
  | some b => exact .some ⟨h1, rfl, rfl, h2⟩

theorem state_reorder {L : Layer} {r : Nat} {st st' : LayerState} (h : StateRel L T r st st') (order : List Nat) :
    Option.Rel (StateRel L T r) (st.reorder order) (st'.reorder order) := by
  unfold LayerState.reorder
  have h1 : Option.Rel (SelfRel L.selfAttn T r) (st.self.mapM fun (c : Cache) => c.reorder order)
      (st'.self.mapM fun (c : Cache) => c.reorder order) := by
    have := h.self
    revert this
    generalize st.self = a
    generalize st'.self = b
    intro this
    cases this with
    | none => exact .some .none
    | some h => exact rel_omap (cache_reorder_rel h order) fun _ _ h => .some h
  refine rel_bind h1 fun a b hab => ?_
  cases hc : L.cross with
  | none =>
    obtain ⟨e1, e2⟩ := h.absent hc
    rw [e1, e2]
    exact .some ⟨hab, fun x e => by rw [hc] at e; simp at e, fun _ => ⟨rfl, rfl⟩⟩
  | some x =>
    have := h.cross x hc
    revert this
    generalize st.cross = c
    generalize st'.cross = d
    intro this
    cases this with
    | none => exact .some ⟨hab, fun _ _ => .none, fun e => by rw [hc] at e; simp at e⟩
    | some hs =>
      have h3 := static_reorder_rel hs order
      simp only [Option.mapM_some]
      refine rel_omap (rel_omap (S := CrossRel x.1 T r) h3 fun _ _ h => .some h) fun u v huv => ?_
      exact ⟨hab, fun y e => by rw [hc] at e; cases e; exact huv, fun e => by rw [hc] at e; simp at e⟩

theorem states_reorder (hT : 0 < T) (order : List Nat) : ∀ {Ls : List Layer} {sts : List LayerState}
    {sss : List (List LayerState)}, StatesRel T Ls sts sss →
    Option.Rel (StatesRel T Ls) (sts.mapM fun (st : LayerState) => st.reorder order)
      (sss.mapM fun (sts : List LayerState) => sts.mapM fun (st : LayerState) => st.reorder order) := by
  intro Ls
  induction Ls with
  | nil =>
    intro sts sss h
    cases sts with
    | cons => exact h.elim
    | nil =>
      cases sss with
      | cons => exact h.elim
      | nil => exact .some trivial
  | cons L Ls ih =>
    intro sts sss h
    cases sts with
    | nil => cases sss <;> exact h.elim
    | cons st sts =>
      cases sss with
      | nil => exact h.elim
      | cons ss sss =>
        obtain ⟨⟨f, rfl, hst⟩, hrest⟩ := h
        rw [List.mapM_cons, List.mapM_cons, mapM_map']
        have h1 : Option.Rel (fun st ss => ∃ f : Nat → LayerState, ss = (List.range T).map f ∧
            ∀ r < T, StateRel L T r st (f r)) (st.reorder order)
            ((List.range T).mapM fun r => (f r).reorder order) := by
          rcases rel_cases (fun r hr => state_reorder (hst r hr) order) hT with ⟨e1, e2⟩ | ⟨a, b, e1, e2⟩
          · rw [e1, mapM_none (List.mem_range.2 hT) (e2 0 hT)]; exact .none
          · rw [e1, mapM_range_some T fun r hr => (e2 r hr).1]
            exact .some ⟨b, rfl, fun r hr => (e2 r hr).2⟩
        refine rel_bind h1 fun a b hab => rel_bind (ih hrest) fun as bs habs => .some ⟨hab, habs⟩

theorem reorder_agree {m : Model} (hT : 0 < T) {s : Dec.Session} {t : Session} (hs : SessionRel m T s t)
    (order : List Nat) : Option.Rel (SessionRel m T) (s.reorder order) (t.reorder order) := by
  unfold Dec.Session.reorder Session.reorder
  rw [← hs.source]
  refine rel_bind (states_reorder hT order hs.layers) fun a b hab => ?_
  cases s.source.mapM fun (src : Source) => src.reorder order with
  | none => exact .none
  | some source => exact .some ⟨hs.bag, rfl, hab⟩

theorem run_agree {m : Model} (h : m.Splits T) {junk : Heads} {junks : Nat → Heads} (hj : GluedFor m T junk junks)
    (given : Option Source) : ∀ (ops : List Op), (∀ tokens, .feed tokens ∈ ops → InTable m tokens) →
    ∀ {s : Dec.Session} {t : Session}, SessionRel m T s t →
    Option.Rel (fun w p => p.1 = w.1.map (same T) ∧ SessionRel m T w.2 p.2) (Dec.run m.whole junk given s ops)
      (run m T junks given t ops) := by
  intro ops
  induction ops with
  | nil => intro _ s t hs; exact .some ⟨rfl, hs⟩
  | cons op ops ih =>
    intro ht s t hs
    have ih' := fun {s t} => ih (fun tokens h => ht tokens (by simp [h])) (s := s) (t := t)
    cases op with
    | feed tokens =>
      simp only [Dec.run, run]
      refine rel_bind (feed_agree h hj given hs (ht tokens (by simp))) ?_
      rintro ⟨y, s1⟩ ⟨ys, t1⟩ ⟨h1, h2⟩
      simp only at h1
      subst h1
      refine rel_omap (ih' h2) ?_
      rintro ⟨zs, s2⟩ ⟨zss, t2⟩ ⟨g1, g2⟩
      simp only at g1
      exact ⟨by simp [g1], g2⟩
    | reorder order =>
      simp only [Dec.run, run]
      exact rel_bind (reorder_agree h.pos hs order) fun _ _ h => ih' h

theorem start_rel (m : Model) (T : Nat) (b : Bag) : SessionRel m T (Dec.Session.start m.whole b) (Session.start m T b) := by
  refine ⟨rfl, rfl, ?_⟩
  have : ∀ Ls : List Layer, StatesRel T Ls ((Ls.map Layer.whole).map fun _ => {}) (Ls.map fun _ => List.replicate T {}) := by
    intro Ls
    induction Ls with
    | nil => trivial
    | cons L Ls ih =>
      exact ⟨⟨fun _ => {}, by simp, fun r _ => ⟨.none, fun _ _ => .none, fun _ => ⟨rfl, rfl⟩⟩⟩, ih⟩
  exact this m.layers

end Fs2.Tp
