import Verif.Nn.MoeLemmas
import Verif.Shard.ModuleLemmas
import Mathlib.Algebra.Order.Ring.Rat
import Mathlib.Tactic.Linarith
import Mathlib.Tactic.Ring

/-!
# C95: a mixture of experts sends each token to its experts

The specification is about one token: what the shared expert gives, plus, for each of the `k` experts with the highest router scores, what
this expert gives for the token times the sigmoid of its score.
-/

namespace Fs2.Props

open Fs2.Moe Finset

set_option linter.unusedSectionVars false

variable {F : Type} [CommSemiring F]

/-- The score of the expert `e` for a token. -/
def routed (l : Layer F) (dim : Nat) (x : Nat → F) (e : Nat) : F := ∑ i ∈ range dim, x i * l.router i e

/-- A gated linear unit with the given weights. -/
def gatedUnit (act : F → F) (dim innerDim : Nat) (gate inner output : Nat → Nat → F) (x : Nat → F) (d : Nat) : F :=
  ∑ j ∈ range innerDim, act (∑ i ∈ range dim, x i * gate i j) * (∑ i ∈ range dim, x i * inner i j) * output j d

/-- The expert `e`: its weights are the blocks with the number `e` of the folded weights. -/
def expertOf (act : F → F) (ex : Experts F) (dim innerDim e : Nat) : (Nat → F) → Nat → F :=
  gatedUnit act dim innerDim (fun i j => ex.gate.at_ (e * dim + i) j) (fun i j => ex.inner.at_ (e * dim + i) j)
    (fun j d => ex.output.at_ (e * innerDim + j) d)

/-- The shared expert, whose weights have a row for each output, or nothing. -/
def sharedOf (act : F → F) (dim innerDim : Nat) : Option (Shared F) → (Nat → F) → Nat → F
  | none => fun _ _ => 0
  | some s => gatedUnit act dim innerDim (fun i j => s.gate.at_ j i) (fun i j => s.inner.at_ j i) (fun j d => s.output.at_ d j)

/-- What a token becomes if it goes to the experts `chosen`. -/
def tokenOut (ops : Ops F) (l : Layer F) (dim innerDim : Nat) (chosen : List Nat) (x : Nat → F) (d : Nat) : F :=
  sharedOf ops.act dim innerDim l.shared x d +
    (chosen.map fun e => expertOf ops.act l.experts dim innerDim e (fun i => ops.sig (routed l dim x e) * x i) d).sum

/-- `chosen` are `k` of the first `n` indices, and no other one has a higher entry. -/
structure IsChoice [LE F] (k n : Nat) (row : Nat → F) (chosen : List Nat) : Prop where
  length : chosen.length = k
  distinct : chosen.Nodup
  bound : ∀ e ∈ chosen, e < n
  highest : ∀ e ∈ chosen, ∀ e' < n, e' ∉ chosen → row e' ≤ row e

/-- `topk` gives the entries at such indices. -/
def GoodTopk [LE F] (ops : Ops F) : Prop :=
  ∀ k n row, k ≤ n → IsChoice k n row ((ops.topk k n row).map Prod.snd) ∧ ∀ p ∈ ops.topk k n row, p.1 = row p.2

theorem exists_choice (k n : Nat) (row : Nat → ℚ) (h : k ≤ n) : ∃ chosen, IsChoice k n row chosen := by
  let le (i j : Nat) : Bool := decide (row j ≤ row i)
  have trans : ∀ a b c, le a b → le b c → le a c := by
    intro a b c h1 h2
    simp only [le, decide_eq_true_eq] at *
    linarith
  have total : ∀ a b, le a b || le b a := by
    intro a b
    simp only [le, Bool.or_eq_true, decide_eq_true_eq]
    exact le_total _ _
  have hp : ((List.range n).mergeSort le).Perm (List.range n) := List.mergeSort_perm _ _
  have hs := List.pairwise_mergeSort (le := le) trans total (List.range n)
  generalize hS : (List.range n).mergeSort le = s at hp hs
  have hnd : s.Nodup := hp.nodup_iff.mpr List.nodup_range
  refine ⟨s.take k, ⟨?_, hnd.sublist (List.take_sublist _ _), ?_, ?_⟩⟩
  · rw [List.length_take, hp.length_eq, List.length_range]; omega
  · intro e he
    simpa using hp.mem_iff.mp (List.mem_of_mem_take he)
  · intro e he e' he' hne
    have hmem : e' ∈ s.drop k := by
      have : e' ∈ s.take k ++ s.drop k := by
        rw [List.take_append_drop, hp.mem_iff, List.mem_range]
        exact he'
      exact (List.mem_append.1 this).resolve_left hne
    rw [← List.take_append_drop k s, List.pairwise_append] at hs
    simpa [le] using hs.2.2 e he e' hmem

/-- There is such a `topk`, with any activation and any sigmoid. -/
theorem exists_ops (act sig : ℚ → ℚ) : ∃ ops : Ops ℚ, GoodTopk ops ∧ ops.act = act ∧ ops.sig = sig := by
  classical
  refine ⟨⟨act, sig, fun k n row => if h : k ≤ n then (exists_choice k n row h).choose.map fun e => (row e, e) else []⟩, ?_, rfl, rfl⟩
  intro k n row h
  simp only [dif_pos h, List.map_map]
  refine ⟨?_, ?_⟩
  · have := (exists_choice k n row h).choose_spec
    rw [show (Prod.snd ∘ fun e => (row e, e)) = id from rfl, List.map_id]
    exact this
  · intro p hp
    obtain ⟨e, _, rfl⟩ := List.mem_map.1 hp
    rfl

/-- The shapes of the weights of a layer. -/
structure LayerShape (l : Layer F) (dim innerDim : Nat) : Prop where
  experts : l.experts.Shape dim innerDim
  shared : ∀ s, l.shared = some s → s.gate.rows = innerDim ∧ s.gate.cols = dim ∧ s.inner.rows = innerDim ∧ s.inner.cols = dim ∧
    s.output.rows = dim ∧ s.output.cols = innerDim

theorem sharedOut_eq (act : F → F) {l : Layer F} {dim innerDim : Nat} (h : LayerShape l dim innerDim) (x : Nat → F) (d : Nat) :
    sharedOut act l.shared x d = sharedOf act dim innerDim l.shared x d := by
  cases hs : l.shared with
  | none => rfl
  | some s =>
    obtain ⟨_, h1, _, h2, _, h3⟩ := h.shared s hs
    simp only [sharedOut, Shared.forward, sharedOf, gatedUnit, h1, h2, h3]

theorem chosen_sum {n : Nat} {chosen : List Nat} (hd : chosen.Nodup) (hb : ∀ e ∈ chosen, e < n) (f : Nat → F) :
    (∑ e ∈ range n, if e ∈ chosen then f e else 0) = (chosen.map f).sum := by
  rw [← List.sum_toFinset f hd, ← sum_filter]
  refine sum_congr ?_ fun _ _ => rfl
  ext e
  simp only [mem_filter, mem_range, List.mem_toFinset]
  exact ⟨fun h => h.2, fun h => ⟨hb e h, h⟩⟩

/-- C95: every token of a batch becomes the output of the shared expert plus those of `k` experts, of which none of the others has a higher
score; what an expert gets is the token times the sigmoid of its score. -/
theorem C95_forward [LE F] {ops : Ops F} (hops : GoodTopk ops) {l : Layer F} {dim innerDim : Nat} (hl : LayerShape l dim innerDim)
    (hk : l.topK ≤ l.experts.num) (numTokens : Nat) (x : Nat → Nat → F) :
    ∃ out, l.forward ops dim numTokens x = some out ∧ ∀ t < numTokens,
      ∃ chosen, IsChoice l.topK l.experts.num (routed l dim (x t)) chosen ∧
        ∀ d, out t d = tokenOut ops l dim innerDim chosen (x t) d := by
  obtain ⟨out, ho, hout⟩ := forward_eq ops l dim numTokens x hk fun row => (hops _ _ row hk).2
  refine ⟨out, ho, fun t ht => ⟨_, (hops _ _ _ hk).1, fun d => ?_⟩⟩
  rw [hout t ht d, sharedOut_eq _ hl, tokenOut]
  congr 1
  have hc := (hops l.topK l.experts.num (routed l dim (x t)) hk).1
  refine Eq.trans ?_ (chosen_sum hc.distinct hc.bound _)
  refine sum_congr rfl fun e he => ?_
  refine if_congr Iff.rfl ?_ rfl
  rw [one_eq _ _ hl.experts (mem_range.1 he)]
  simp only [expertOf, gatedUnit, routed, mul_comm]

/-- A layer with three experts, of which each token goes to two; tokens have two entries and the inner dimension is four. -/
def threeExperts : Layer ℚ :=
  ⟨2, fun i e => i + 2 * e, ⟨3, ⟨6, 4, fun i j => i * j⟩, ⟨6, 4, fun i j => i + j⟩, ⟨12, 2, fun i j => i - j⟩⟩,
    some ⟨⟨4, 2, fun i _ => i + 1⟩, ⟨4, 2, fun _ j => j⟩, ⟨2, 4, fun i j => 3 * i + j⟩⟩⟩

theorem threeExperts_shape : LayerShape threeExperts 2 4 :=
  ⟨⟨rfl, rfl, rfl, rfl, rfl, rfl⟩, fun s hs => by cases hs; exact ⟨rfl, rfl, rfl, rfl, rfl, rfl⟩⟩

example : ∃ ops : Ops ℚ, GoodTopk ops ∧ LayerShape threeExperts 2 4 ∧ threeExperts.topK ≤ threeExperts.experts.num :=
  (exists_ops (fun x => max x 0) (fun x => x)).elim fun ops h => ⟨ops, h.1, threeExperts_shape, by decide⟩

/-- Its router prefers the experts with the numbers 1 and 2 for the token with two ones. -/
example : IsChoice 2 3 (routed threeExperts 2 fun _ => 1) [2, 1] := by
  refine ⟨rfl, by decide, by decide, ?_⟩
  simp only [List.mem_cons, List.not_mem_nil, or_false, forall_eq_or_imp, forall_eq]
  refine ⟨?_, ?_⟩ <;> intro e he hn <;> (have : e = 0 := by omega) <;> subst this <;> decide +kernel

/-- C95: what a token becomes depends neither on the other tokens of its batch nor on its place among them. -/
theorem C95_tokens [LE F] {ops : Ops F} (hops : GoodTopk ops) {l : Layer F} {dim innerDim : Nat} (hl : LayerShape l dim innerDim)
    {n m : Nat} {x y out out' : Nat → Nat → F} (hx : l.forward ops dim n x = some out) (hy : l.forward ops dim m y = some out')
    {t s : Nat} (ht : t < n) (hs : s < m) (h : ∀ i < dim, x t i = y s i) (d : Nat) :
    out t d = out' s d := by
  have hk : l.topK ≤ l.experts.num := by
    unfold Layer.forward at hx
    split at hx
    · cases hx
    · omega
  obtain ⟨o, ho, hout⟩ := forward_eq ops l dim n x hk fun row => (hops _ _ row hk).2
  obtain ⟨o', ho', hout'⟩ := forward_eq ops l dim m y hk fun row => (hops _ _ row hk).2
  rw [hx] at ho
  rw [hy] at ho'
  cases ho
  cases ho'
  have hsum : ∀ w : Nat → F, ∑ i ∈ range dim, x t i * w i = ∑ i ∈ range dim, y s i * w i :=
    fun w => sum_congr rfl fun i hi => by rw [h i (mem_range.1 hi)]
  rw [hout t ht d, hout' s hs d, sharedOut_eq _ hl, sharedOut_eq _ hl]
  simp only [hsum]
  congr 1
  · cases l.shared with
    | none => rfl
    | some s => simp only [sharedOf, gatedUnit, hsum]
  · refine sum_congr rfl fun e he => if_congr Iff.rfl ?_ rfl
    have hm : ∀ (c : F) (w : Nat → F), ∑ i ∈ range dim, x t i * c * w i = ∑ i ∈ range dim, y s i * c * w i :=
      fun c w => sum_congr rfl fun i hi => by rw [h i (mem_range.1 hi)]
    rw [one_eq _ _ hl.experts (mem_range.1 he), one_eq _ _ hl.experts (mem_range.1 he)]
    simp only [hm]

example : ∃ (ops : Ops ℚ) (out out' : Nat → Nat → ℚ), GoodTopk ops ∧ threeExperts.forward ops 2 3 (fun t i => t + i) = some out ∧
    threeExperts.forward ops 2 5 (fun t i => 3 - t + i) = some out' ∧ ∀ i < 2, ((2 : Nat) + i : ℚ) = 3 - (1 : Nat) + i :=
  (exists_ops (fun x => max x 0) (fun x => x)).elim fun ops h => ⟨ops, _, _, h.1, rfl, rfl, fun i _ => by push_cast; ring⟩

/-- C95: more experts than there are cannot be asked for. -/
theorem C95_too_many (ops : Ops F) (l : Layer F) (dim numTokens : Nat) (x : Nat → Nat → F) :
    l.forward ops dim numTokens x = none ↔ l.experts.num < l.topK := by
  unfold Layer.forward
  split
  · next h => exact ⟨fun _ => h, fun _ => rfl⟩
  · next h => exact ⟨nofun, fun h' => absurd h' h⟩

theorem shard_shared (act : F → F) {l : Layer F} {dim innerDim size : Nat} (hl : LayerShape l dim innerDim)
    (hd : innerDim % size = 0) (x : Nat → F) (d : Nat) :
    (∀ rank, ∃ s', shardShared size rank l.shared = some s') ∧
    ∀ f : Nat → Option (Shared F), (∀ r < size, shardShared size r l.shared = some (f r)) →
      ∑ r ∈ range size, sharedOut act (f r) x d = sharedOf act dim innerDim l.shared x d := by
  cases hs : l.shared with
  | none =>
    refine ⟨fun _ => ⟨_, rfl⟩, fun f hf => ?_⟩
    refine sum_eq_zero fun r hr => ?_
    have := hf r (mem_range.1 hr)
    simp only [shardShared, Option.some.injEq] at this
    rw [← this]
    rfl
  | some s =>
    obtain ⟨h1, h2, h3, h4, h5, h6⟩ := hl.shared s hs
    have hsh : ∀ r, shardShared size r (some s) = some (some ⟨⟨innerDim / size, dim, fun j i => s.gate.at_ (r * (innerDim / size) + j) i⟩,
        ⟨innerDim / size, dim, fun j i => s.inner.at_ (r * (innerDim / size) + j) i⟩,
        ⟨dim, innerDim / size, fun d j => s.output.at_ d (r * (innerDim / size) + j)⟩⟩) := by
      intro r
      simp only [shardShared, Shared.shard, h1, h2, h3, h4, h5, h6, hd]
      simp
    refine ⟨fun r => ⟨_, hsh r⟩, fun f hf => ?_⟩
    have hI : size * (innerDim / size) = innerDim := Nat.mul_div_cancel' (Nat.dvd_of_mod_eq_zero hd)
    rw [sharedOf, gatedUnit]
    conv => rhs; rw [← hI]
    rw [sum_mul_range]
    refine sum_congr rfl fun r hr => ?_
    have := hf r (mem_range.1 hr)
    rw [hsh r, Option.some.injEq] at this
    rw [← this]
    rfl

/-- C95: a layer can be sharded over a tensor parallel gang whose size divides the inner dimension, and then what all ranks together compute
is what the whole layer computes. -/
theorem C95_shard [LE F] {ops : Ops F} (hops : GoodTopk ops) {l : Layer F} {dim innerDim : Nat} (hl : LayerShape l dim innerDim)
    (hk : l.topK ≤ l.experts.num) {size : Nat} (hd : innerDim % size = 0) (numTokens : Nat) (x : Nat → Nat → F) :
    ∃ ranks out out', (List.range size).mapM (l.shard innerDim size) = some ranks ∧ l.forward ops dim numTokens x = some out ∧
      forwardAll ops ranks dim numTokens x = some out' ∧ ∀ t < numTokens, ∀ d, out' t d = out t d := by
  have hsome : ∀ r, ∃ l', l.shard innerDim size r = some l' ∧ l'.topK = l.topK ∧ l'.router = l.router ∧
      shardShared size r l.shared = some l'.shared ∧ l.experts.shard innerDim size r = some l'.experts := by
    intro r
    obtain ⟨s', hs'⟩ := (shard_shared ops.act hl hd (fun _ => 0) 0).1 r
    obtain ⟨ex', hex⟩ : ∃ ex', l.experts.shard innerDim size r = some ex' := ⟨_, if_neg (by simp [hd])⟩
    refine ⟨⟨l.topK, l.router, ex', s'⟩, ?_, rfl, rfl, hs', hex⟩
    rw [Layer.shard, hs', hex]
    rfl
  choose g hg htop hrouter hshared hexperts using hsome
  have hnum : ∀ r, (g r).experts.num = l.experts.num := by
    intro r
    have := hexperts r
    unfold Experts.shard at this
    split at this
    · cases this
    · rw [Option.some.injEq] at this
      rw [← this]
  have hfwd : ∀ r, ∃ out, (g r).forward ops dim numTokens x = some out ∧ ∀ t < numTokens, ∀ d,
      out t d = sharedOut ops.act (g r).shared (x t) d + ∑ e ∈ range l.experts.num,
        if e ∈ (ops.topk l.topK l.experts.num fun e => ∑ i ∈ range dim, x t i * l.router i e).map Prod.snd then
          (g r).experts.one ops.act e (fun i => x t i * ops.sig (∑ i ∈ range dim, x t i * l.router i e)) d else 0 := by
    intro r
    have := forward_eq ops (g r) dim numTokens x (by rw [htop, hnum]; exact hk)
      (fun row => by rw [htop, hnum]; exact (hops _ _ row hk).2)
    rw [htop, hrouter, hnum] at this
    exact this
  choose o ho hout using hfwd
  obtain ⟨out, hw, hwhole⟩ := forward_eq ops l dim numTokens x hk fun row => (hops _ _ row hk).2
  have hr : forwardAll ops ((List.range size).map g) dim numTokens x =
      some fun t d => (((List.range size).map o).map fun out => out t d).sum := by
    rw [forwardAll, Shard.mapM_map_of _ (List.range size) g o fun r _ => ho r]
    rfl
  refine ⟨_, out, _, Shard.mapM_some_of _ g _ fun r _ => hg r, hw, hr, fun t ht d => ?_⟩
  have hI : size * (innerDim / size) = innerDim := Nat.mul_div_cancel' (Nat.dvd_of_mod_eq_zero hd)
  rw [List.map_map, sum_list_range, hwhole t ht d, sharedOut_eq _ hl]
  simp only [Function.comp_apply, hout _ t ht d]
  rw [sum_add_distrib, (shard_shared ops.act hl hd (x t) d).2 (fun r => (g r).shared) fun r _ => hshared r, sum_comm]
  congr 1
  refine sum_congr rfl fun e he => ?_
  have he := mem_range.1 he
  split
  · rw [one_eq _ _ hl.experts he]
    conv => rhs; rw [← hI]
    rw [sum_mul_range]
    refine sum_congr rfl fun r _ => ?_
    rw [shard_one ops.act hl.experts (hexperts r) he, hI]
  · simp

example : 4 % 2 = 0 ∧ LayerShape threeExperts 2 4 := ⟨rfl, threeExperts_shape⟩

/-- C95: over a gang of another size it cannot be sharded. -/
theorem C95_shard_refused (l : Layer F) {innerDim size : Nat} (hd : innerDim % size ≠ 0) (rank : Nat) : l.shard innerDim size rank = none := by
  unfold Layer.shard Experts.shard
  rw [if_pos hd]
  cases shardShared size rank l.shared <;> rfl

example : 4 % 3 ≠ 0 := by decide

end Fs2.Props
