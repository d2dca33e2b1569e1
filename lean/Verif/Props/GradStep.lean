import Verif.Optim.GradStep
import Mathlib.Algebra.BigOperators.Group.List.Basic
import Mathlib.Data.Rat.Cast.Order
import Mathlib.Tactic.Linarith
import Mathlib.Tactic.NormNum
import Mathlib.Tactic.Positivity

/-!
# C78, C79: gradient norms and gradients in all processes
-/

namespace Fs2.Props

open Fs2.Grad

/-! ## C78: `check_grad_norms` -/

/-- **Finite norms.** Between two or more processes with finite norms the check passes exactly if every
norm is within a relative `1e-6` of the norm of the first process. -/
theorem C78_finite_partial (n0 : ℚ) (ns : List ℚ) (h0 : 0 ≤ n0) (hne : ns ≠ []) :
    checkNorms (.fin n0 :: ns.map .fin) = true ↔
      ∀ n ∈ ns, |n - n0| < 1 / 1000000 * (n0 + 1 / 1000000) := by
  have hpos : (0 : ℚ) < n0 + 1 / 1000000 := by positivity
  have hlen : ¬ (Norm.fin n0 :: ns.map Norm.fin).length = 1 := by
    have := List.length_pos_iff.2 hne
    simp only [List.length_cons, List.length_map]; omega
  have hfin : (Norm.fin n0 :: ns.map Norm.fin).all Norm.isFinite = true := by
    simp [Norm.isFinite]
  unfold checkNorms
  simp only [if_neg hlen, hfin, if_true, List.headD_cons, Norm.val, List.all_cons, Bool.and_eq_true,
    List.all_eq_true, List.mem_map, forall_exists_index, and_imp,
    forall_apply_eq_imp_iff₂]
  constructor
  · intro h n hn
    exact (div_lt_iff₀ hpos).1 (of_decide_eq_true (h.2 n hn))
  · intro h
    refine ⟨?_, fun n hn => decide_eq_true ((div_lt_iff₀ hpos).2 (h n hn))⟩
    simp

/-- Three processes, one of which has lost its gradients. -/
example : checkNorms [.fin 2, .fin 2, .fin 0] = false ∧ checkNorms [.fin 2, .fin 2, .fin 2] = true := by
  have h1 := C78_finite_partial 2 [2, 0] (by norm_num) (by simp)
  have h2 := C78_finite_partial 2 [2, 2] (by norm_num) (by simp)
  constructor
  · rw [Bool.eq_false_iff]
    intro h
    have := h1.1 h 0 (by simp)
    norm_num at this
  · exact h2.2 (by intro n hn; simp at hn; subst hn; norm_num)

/-- **No norm is finite.** Then the check passes, as documented. -/
theorem C78_all_nonfinite (norms : List Norm) (h : ∀ n ∈ norms, n.isFinite = false) (hne : norms ≠ []) :
    checkNorms norms = true := by
  unfold checkNorms
  split
  · rfl
  · obtain ⟨n, rest, rfl⟩ := List.exists_cons_of_ne_nil hne
    simp [h n (by simp)]

example : ∀ n ∈ [Norm.inf, Norm.nan], n.isFinite = false := by decide

/-- **Violation.** If the norm is infinite or not a number in one process the check passes, whatever the
others have; it was meant to pass only if that is so in all of them. -/
theorem C78_nonfinite_negation (norms : List Norm) (n : Norm) (hn : n ∈ norms) (h : n.isFinite = false) :
    checkNorms norms = true := by
  unfold checkNorms
  split
  · rfl
  · have : norms.all Norm.isFinite = false := by
      rw [Bool.eq_false_iff]
      intro hc
      rw [List.all_eq_true] at hc
      rw [hc n hn] at h
      cases h
    simp [this]

example : checkNorms [.fin 1, .inf, .fin 7] = true :=
  C78_nonfinite_negation _ .inf (by simp) rfl

/-- **One process.** There is nothing to compare. -/
theorem C78_single (n : Norm) : checkNorms [n] = true := rfl

/-! ## C79: training in several processes is training in one -/

variable {β : Type} {O : Type}

/-- The gradient of all batches together: if the unit counts targets, the sum of the gradients divided by
the number of targets, otherwise the mean of the gradients of the batches. -/
def wholeGrad (u : Work β) (counts : Bool) (params : Vec) (all : List β) : Vec := fun i =>
  (all.map fun b => u.grad params b i).sum /
    (if counts then ((all.map fun b => (u.targets b).getD 0).sum : Nat) else (all.length : Nat))

/-- The batches of a step: as many in each process, at least one, and either no batch has a number of
targets or all have and every process has at least one target. -/
structure GoodStep (u : Work β) (counts : Bool) (w : Nat) (bs : Nat → List β) : Prop where
  same : ∀ r, r < w → (bs r).length = (bs 0).length
  some : 0 < (bs 0).length
  none : counts = false → ∀ r, r < w → ∀ b ∈ bs r, u.targets b = none
  every : counts = true → ∀ r, r < w → (∀ b ∈ bs r, (u.targets b).isSome) ∧
    0 < ((bs r).map fun b => (u.targets b).getD 0).sum

/-- The batches of all processes. -/
def allBatches (w : Nat) (bs : Nat → List β) : List β := (List.range w).flatMap bs

private def total (w : Nat) (x : Nat → Vec) (i : Nat) : ℚ := ∑ r ∈ Finset.range w, x r i

private theorem mean_eq (w : Nat) (x : Nat → Vec) (i : Nat) : mean w x i = total w x i / w := rfl

private theorem total_mean (w : Nat) (hw : 0 < w) (x : Nat → Vec) (i : Nat) :
    total w (fun _ => mean w x) i = total w x i := by
  have : (w : ℚ) ≠ 0 := by exact_mod_cast hw.ne'
  unfold total
  rw [Finset.sum_const, Finset.card_range, nsmul_eq_mul, mean_eq]
  field_simp
  rfl

private theorem total_add (w : Nat) (x y : Nat → Vec) (i : Nat) :
    total w (fun r i => x r i + y r i) i = total w x i + total w y i := Finset.sum_add_distrib

private theorem total_const (w : Nat) (x : Vec) (i : Nat) :
    total w (fun _ => x) i = w * x i := by
  unfold total
  rw [Finset.sum_const, Finset.card_range, nsmul_eq_mul]

/-- What the buffers look like between backward passes. -/
private def Fine (dp : Dp) (a : Acc) : Prop :=
  (dp = .ddp → a.collected = fun _ _ => 0) ∧ (dp = .fsdp → ∀ r, a.kept r = a.kept 0)

private theorem backward_spec (dp : Dp) (w : Nat) (hw : 0 < w) (sync : Bool) (g : Nat → Vec) (a : Acc)
    (ha : Fine dp a) :
    Fine dp (backward dp w sync g a) ∧
    (∀ i, total w (backward dp w sync g a).kept i + total w (backward dp w sync g a).collected i =
      total w a.kept i + total w a.collected i + total w g i) ∧
    (sync = true → ∀ r i, (backward dp w sync g a).kept r i =
      (total w a.kept i + total w a.collected i + total w g i) / w) := by
  have hw' : (w : ℚ) ≠ 0 := by exact_mod_cast hw.ne'
  have hz : ∀ i, total w (fun _ _ => (0 : ℚ)) i = 0 := by
    intro i; rw [total_const]; simp
  cases dp with
  | ddp =>
    have hc := ha.1 rfl
    cases sync with
    | true =>
      refine ⟨⟨fun _ => hc, fun h => by cases h⟩, ?_, ?_⟩
      · intro i
        simp only [backward, if_true]
        rw [total_mean w hw, total_add]; ring
      · intro _ r i
        simp only [backward, if_true]
        rw [mean_eq, total_add, hc, hz]; ring
    | false =>
      refine ⟨⟨fun _ => hc, fun h => by cases h⟩, ?_, fun h => by cases h⟩
      intro i
      simp only [backward, Bool.false_eq_true, if_false]
      rw [total_add]; ring
  | fsdp =>
    have hk := ha.2 rfl
    have hk' : a.kept = fun _ => a.kept 0 := funext hk
    cases sync with
    | true =>
      refine ⟨⟨fun h => (by cases h), fun _ r => ?_⟩, ?_, ?_⟩
      · simp only [backward, if_true, hk r]
      · intro i
        simp only [backward, if_true]
        rw [total_add, total_mean w hw, total_add, hz]; ring
      · intro _ r i
        simp only [backward, if_true]
        rw [mean_eq, total_add, hk r]
        have : total w a.kept i = w * a.kept 0 i := by
          rw [hk']; exact total_const w _ i
        rw [this]
        field_simp
        ring
    | false =>
      refine ⟨⟨fun h => (by cases h), fun _ r => hk r⟩, ?_, fun h => by cases h⟩
      intro i
      simp only [backward, Bool.false_eq_true, if_false]
      rw [total_add]; ring

private theorem loop_spec (c : Cfg) (u : Work β) (params : Nat → Vec) (scale : ℚ) (k : Nat)
    (hw : 0 < c.world) :
    ∀ (left : Nat) (bs : Nat → List β) (a : Acc), Fine c.dp a →
      (∀ r, r < c.world → (bs r).length = left + 1) → ∀ r i,
      (loop c u params scale k (left + 1) bs a).kept r i =
        (total c.world a.kept i + total c.world a.collected i +
          ∑ r ∈ Finset.range c.world, ((bs r).map fun b => batchGrad u (params r) scale k b i).sum) /
          c.world := by
  intro left
  induction left with
  | zero =>
    intro bs a ha hl r i
    have hs : synced c (0 + 1) = true := by simp [synced]
    rw [loop, loop]
    rw [hs]
    rw [(backward_spec c.dp c.world hw true _ a ha).2.2 rfl r i]
    congr 2
    unfold total
    refine Finset.sum_congr rfl fun r hr => ?_
    have := hl r (Finset.mem_range.1 hr)
    obtain ⟨b, hb⟩ := List.length_eq_one_iff.1 this
    simp only [hb]
    simp [headGrad]
  | succ left ih =>
    intro bs a ha hl r i
    rw [loop]
    obtain ⟨h1, h2, -⟩ := backward_spec c.dp c.world hw (synced c (left + 1 + 1))
      (fun r => headGrad u (params r) scale k (bs r)) a ha
    rw [ih _ _ h1 (by intro r hr; rw [List.length_tail, hl r hr]; rfl) r i, h2 i]
    rw [add_assoc]
    congr 2
    unfold total
    rw [← Finset.sum_add_distrib]
    refine Finset.sum_congr rfl fun r hr => ?_
    have := hl r (Finset.mem_range.1 hr)
    obtain ⟨b, rest, hb⟩ := List.exists_cons_of_length_pos (by rw [this]; omega : 0 < (bs r).length)
    simp only [hb]
    simp [headGrad]

private theorem list_sum_mul {α : Type} (l : List α) (f : α → ℚ) (x : ℚ) :
    (l.map fun a => x * f a).sum = x * (l.map f).sum := by
  induction l with
  | nil => simp
  | cons a l ih => simp only [List.map_cons, List.sum_cons, ih]; ring

private theorem sum_all (w : Nat) (bs : Nat → List β) (f : β → ℚ) :
    ((allBatches w bs).map f).sum = ∑ r ∈ Finset.range w, ((bs r).map f).sum := by
  unfold allBatches
  induction w with
  | zero => simp
  | succ w ih =>
    rw [List.range_succ, List.flatMap_append, List.map_append, List.sum_append, ih,
      Finset.sum_range_succ]
    simp

private theorem sum_all_nat (w : Nat) (bs : Nat → List β) (f : β → Nat) :
    ((allBatches w bs).map f).sum = ∑ r ∈ Finset.range w, ((bs r).map f).sum := by
  unfold allBatches
  induction w with
  | zero => simp
  | succ w ih =>
    rw [List.range_succ, List.flatMap_append, List.map_append, List.sum_append, ih,
      Finset.sum_range_succ]
    simp

private theorem all_length (w k : Nat) (bs : Nat → List β) (h : ∀ r, r < w → (bs r).length = k) :
    (allBatches w bs).length = w * k := by
  unfold allBatches
  induction w with
  | zero => simp
  | succ w ih =>
    rw [List.range_succ, List.flatMap_append, List.length_append,
      ih fun r hr => h r (Nat.lt_succ_of_lt hr)]
    simp [h w (Nat.lt_succ_self w)]
    ring

private theorem numTargets_none (u : Work β) (bs : List β) (h : ∀ b ∈ bs, u.targets b = none) :
    numTargets u bs = 0 := by
  unfold numTargets
  induction bs with
  | nil => rfl
  | cons b bs ih =>
    simp [h b (by simp), ih fun b hb => h b (by simp [hb])]

private theorem check_equal (n : ℚ) (k : Nat) : checkNorms (List.replicate (k + 1) (.fin n)) = true := by
  unfold checkNorms
  split
  · rfl
  · have : (List.replicate (k + 1) (Norm.fin n)).all Norm.isFinite = true := by
      simp [Norm.isFinite]
    simp only [this, if_true]
    rw [List.all_eq_true]
    intro m hm
    rw [List.mem_replicate] at hm
    rw [hm.2, List.replicate_succ]
    simp [Norm.val]

/-- **One step.** In every process the optimizer sees the same gradient: that of all batches of all
processes together, clipped. It does not matter whether gradients are exchanged after each batch or only
after the last one, nor how the loss is scaled, and the check of the norms passes. -/
theorem C79_step (c : Cfg) (hw : 0 < c.world) (u : Work β) (counts : Bool) (scale : ℚ) (hs : scale ≠ 0)
    (params : Nat → Vec) (p : Vec) (hp : ∀ r, r < c.world → params r = p) (bs : Nat → List β)
    (hb : GoodStep u counts c.world bs) :
    ∃ g, stepGrads c u scale params bs = .ok g ∧
      ∀ r, r < c.world → g r = clip c.maxNorm c.norm (wholeGrad u counts p (allBatches c.world bs)) := by
  have hwq : (c.world : ℚ) ≠ 0 := by exact_mod_cast hw.ne'
  obtain ⟨k, hk⟩ : ∃ k, (bs 0).length = k + 1 := ⟨(bs 0).length - 1, by have := hb.some; omega⟩
  have hlen : ∀ r, r < c.world → (bs r).length = k + 1 := fun r hr => (hb.same r hr).trans hk
  -- every process makes the same calls
  have hcalls : ∀ r, r < c.world → calls c u (bs r) = calls c u (bs 0) := by
    intro r hr
    have : (0 < numTargets u (bs r)) = (0 < numTargets u (bs 0)) := by
      cases counts with
      | false =>
        rw [numTargets_none u _ (hb.none rfl r hr), numTargets_none u _ (hb.none rfl 0 hw)]
      | true =>
        exact propext ⟨fun _ => (hb.every rfl 0 hw).2, fun _ => (hb.every rfl r hr).2⟩
    unfold calls
    rw [hb.same r hr]
    simp only [this]
  have hall : (List.range c.world).all (fun r => decide (calls c u (bs r) = calls c u (bs 0))) = true := by
    rw [List.all_eq_true]
    intro r hr
    simpa using hcalls r (List.mem_range.1 hr)
  have hloop := loop_spec c u params scale (k + 1) hw k bs .zero
    ⟨fun _ => rfl, fun _ _ => rfl⟩ hlen
  have hzero : ∀ i, total c.world Acc.zero.kept i + total c.world Acc.zero.collected i = 0 := by
    intro i
    simp [total, Acc.zero]
  -- the gradients before clipping
  have hg : ∀ r i, (if 0 < numTargets u (bs 0) then
      normalize c.world (∑ r ∈ Finset.range c.world, numTargets u (bs r))
        (loop c u params scale (k + 1) (k + 1) bs .zero).kept
      else (loop c u params scale (k + 1) (k + 1) bs .zero).kept) r i * (1 / scale) =
      wholeGrad u counts p (allBatches c.world bs) i := by
    intro r i
    cases counts with
    | false =>
      have h0 : ¬ 0 < numTargets u (bs 0) := by
        rw [numTargets_none u _ (hb.none rfl 0 hw)]; omega
      rw [if_neg h0, hloop, hzero, zero_add]
      have hin : ∀ r ∈ Finset.range c.world,
          ((bs r).map fun b => batchGrad u (params r) scale (k + 1) b i).sum =
          scale / ((k + 1 : Nat) : ℚ) * ((bs r).map fun b => u.grad p b i).sum := by
        intro r hr
        rw [← list_sum_mul]
        congr 1
        refine List.map_congr_left fun b hbr => ?_
        unfold batchGrad
        rw [hb.none rfl r (Finset.mem_range.1 hr) b hbr, hp r (Finset.mem_range.1 hr)]
        simp only
        ring
      rw [Finset.sum_congr rfl hin, ← Finset.mul_sum, ← sum_all]
      unfold wholeGrad
      rw [all_length c.world (k + 1) bs hlen]
      have hk1 : ((k + 1 : Nat) : ℚ) ≠ 0 := by exact_mod_cast Nat.succ_ne_zero k
      rw [if_neg (by simp), Nat.cast_mul]
      field_simp
    | true =>
      have h0 : 0 < numTargets u (bs 0) := (hb.every rfl 0 hw).2
      rw [if_pos h0]
      unfold normalize
      rw [hloop, hzero, zero_add]
      have hin : ∀ r ∈ Finset.range c.world,
          ((bs r).map fun b => batchGrad u (params r) scale (k + 1) b i).sum =
          scale * ((bs r).map fun b => u.grad p b i).sum := by
        intro r hr
        rw [← list_sum_mul]
        congr 1
        refine List.map_congr_left fun b hbr => ?_
        unfold batchGrad
        have := (hb.every rfl r (Finset.mem_range.1 hr)).1 b hbr
        rw [hp r (Finset.mem_range.1 hr)]
        cases ht : u.targets b with
        | none => rw [ht] at this; cases this
        | some t => rfl
      rw [Finset.sum_congr rfl hin, ← Finset.mul_sum, ← sum_all]
      unfold wholeGrad
      rw [if_pos rfl, sum_all_nat]
      have ht : ((∑ r ∈ Finset.range c.world, numTargets u (bs r) : Nat) : ℚ) ≠ 0 := by
        have : 0 < ∑ r ∈ Finset.range c.world, numTargets u (bs r) :=
          Nat.lt_of_lt_of_le h0 (Finset.single_le_sum (f := fun r => numTargets u (bs r))
            (fun _ _ => Nat.zero_le _) (Finset.mem_range.2 hw))
        exact_mod_cast this.ne'
      unfold numTargets at ht ⊢
      field_simp
  unfold stepGrads
  rw [if_pos hall, hk]
  simp only [hg]
  have hnorms : ((List.range c.world).map fun _ =>
      Norm.fin (c.norm fun i => wholeGrad u counts p (allBatches c.world bs) i)) =
      List.replicate ((c.world - 1) + 1) (.fin (c.norm (wholeGrad u counts p (allBatches c.world bs)))) := by
    rw [List.map_const', List.length_range, Nat.sub_add_cancel hw]
  rw [hnorms, check_equal]
  simp only [Bool.not_true, Bool.and_false, Bool.false_eq_true, if_false]
  exact ⟨_, rfl, fun _ _ => rfl⟩

/-- Training as it is meant: one model, and in each step the gradient of all batches together. -/
def reference (u : Work β) (counts : Bool) (maxNorm : Option ℚ) (norm : Vec → ℚ)
    (optStep : O → Vec → Vec → Vec × O) : List (List β) → Vec × O → Vec × O
  | [], s => s
  | all :: rest, (p, o) =>
    reference u counts maxNorm norm optStep rest
      (optStep o p (clip maxNorm norm (wholeGrad u counts p all)))

private theorem train_reference (c : Cfg) (hw : 0 < c.world) (u : Work β) (counts : Bool)
    (optStep : O → Vec → Vec → Vec × O) (steps : List (ℚ × (Nat → List β))) :
    ∀ (s : St O) (p : Vec) (o : O), (∀ r, r < c.world → s.params r = p ∧ s.opt r = o) →
    (∀ x ∈ steps, x.1 ≠ 0 ∧ GoodStep u counts c.world x.2) →
    ∃ s', train c u optStep steps s = .ok s' ∧ ∀ r, r < c.world → (s'.params r, s'.opt r) =
      reference u counts c.maxNorm c.norm optStep (steps.map fun x => allBatches c.world x.2) (p, o) := by
  induction steps with
  | nil =>
    intro s p o h _
    exact ⟨s, rfl, fun r hr => by rw [(h r hr).1, (h r hr).2]; rfl⟩
  | cons x rest ih =>
    obtain ⟨scale, bs⟩ := x
    intro s p o h hx
    obtain ⟨hs, hb⟩ := hx (scale, bs) (by simp)
    obtain ⟨g, hg, hgr⟩ := C79_step c hw u counts scale hs s.params p (fun r hr => (h r hr).1) bs hb
    rw [train, hg]
    simp only
    refine ih _ _ _ (fun r hr => ?_) (fun y hy => hx y (by simp [hy]))
    simp only [hgr r hr, (h r hr).1, (h r hr).2]
    trivial

/-- **Data parallel training.** Whatever the number of steps, in the end every process holds the same
parameters and the same optimizer state, namely those of training one model on all batches. -/
theorem C79_train (c : Cfg) (hw : 0 < c.world) (u : Work β) (counts : Bool)
    (optStep : O → Vec → Vec → Vec × O) (steps : List (ℚ × (Nat → List β))) (p : Vec) (o : O)
    (hx : ∀ x ∈ steps, x.1 ≠ 0 ∧ GoodStep u counts c.world x.2) :
    ∃ s, train c u optStep steps ⟨fun _ => p, fun _ => o⟩ = .ok s ∧
      ∀ r, r < c.world → (s.params r, s.opt r) =
        reference u counts c.maxNorm c.norm optStep (steps.map fun x => allBatches c.world x.2) (p, o) :=
  train_reference c hw u counts optStep steps _ p o (fun _ _ => ⟨rfl, rfl⟩) hx

/-- **Several processes or one.** Training in several processes gives the parameters that one process
gets from the batches of all of them, with gradient accumulation, whatever the wrapper and whether or not
`no_sync` is used. -/
theorem C79_one_process (c : Cfg) (hw : 0 < c.world) (u : Work β) (counts : Bool)
    (optStep : O → Vec → Vec → Vec × O) (steps : List (ℚ × (Nat → List β))) (p : Vec) (o : O)
    (hx : ∀ x ∈ steps, x.1 ≠ 0 ∧ GoodStep u counts c.world x.2) (dp : Dp) (noSync gradCheck : Bool) :
    ∃ s s₁, train c u optStep steps ⟨fun _ => p, fun _ => o⟩ = .ok s ∧
      train { c with world := 1, dp, noSync, gradCheck } u optStep
        (steps.map fun x => (x.1, fun _ => allBatches c.world x.2)) ⟨fun _ => p, fun _ => o⟩ = .ok s₁ ∧
      ∀ r, r < c.world → s.params r = s₁.params 0 ∧ s.opt r = s₁.opt 0 := by
  obtain ⟨s, h1, h2⟩ := C79_train c hw u counts optStep steps p o hx
  obtain ⟨s₁, h3, h4⟩ := C79_train { c with world := 1, dp, noSync, gradCheck } Nat.one_pos u counts
    optStep (steps.map fun x => (x.1, fun _ => allBatches c.world x.2)) p o (by
      intro y hy
      obtain ⟨x, hxm, rfl⟩ := List.mem_map.1 hy
      obtain ⟨hs, hb⟩ := hx x hxm
      refine ⟨hs, ⟨fun _ _ => rfl, ?_, ?_, ?_⟩⟩
      · show 0 < (allBatches c.world x.2).length
        rw [all_length _ _ _ hb.same]
        exact Nat.mul_pos hw hb.some
      · intro hc r _ b hbm
        obtain ⟨r', hr', hb'⟩ := List.mem_flatMap.1 hbm
        exact hb.none hc r' (List.mem_range.1 hr') b hb'
      · intro hc r _
        refine ⟨fun b hbm => ?_, ?_⟩
        · obtain ⟨r', hr', hb'⟩ := List.mem_flatMap.1 hbm
          exact (hb.every hc r' (List.mem_range.1 hr')).1 b hb'
        · show 0 < ((allBatches c.world x.2).map fun b => (u.targets b).getD 0).sum
          rw [sum_all_nat]
          exact Nat.lt_of_lt_of_le (hb.every hc 0 hw).2
            (Finset.single_le_sum (f := fun r => ((x.2 r).map fun b => (u.targets b).getD 0).sum)
              (fun _ _ => Nat.zero_le _) (Finset.mem_range.2 hw)))
  refine ⟨s, s₁, h1, h3, fun r hr => ?_⟩
  have e1 := h2 r hr
  have e2 := h4 0 Nat.one_pos
  have : (steps.map fun x => (x.1, fun _ => allBatches c.world x.2)).map
      (fun x : ℚ × (Nat → List β) => allBatches 1 x.2) =
      steps.map fun x => allBatches c.world x.2 := by
    rw [List.map_map]
    refine List.map_congr_left fun x _ => ?_
    simp [allBatches]
  simp only [this] at e2
  rw [← e2] at e1
  exact ⟨(Prod.mk.inj e1).1, (Prod.mk.inj e1).2⟩

/-- A task for the examples: the gradient at `x` of a batch `(a, n)` is `a - x`, and `n` are its targets. -/
private def toy : Work (ℚ × Option Nat) := ⟨fun p b i => b.1 - p i, fun b => b.2⟩

/-- Two processes with two batches each, of different sizes. -/
example : GoodStep toy true 2 (fun r => if r = 0 then [(1, some 3), (2, some 0)] else [(5, some 1), (7, some 4)]) := by
  refine ⟨?_, by decide, by simp, ?_⟩
  · intro r hr; match r, hr with
    | 0, _ => rfl
    | 1, _ => rfl
  · intro _ r hr; match r, hr with
    | 0, _ => exact ⟨by simp [toy], by simp [toy]⟩
    | 1, _ => exact ⟨by simp [toy], by simp [toy]⟩

/-- **Violation.** If one process happens to have no targets in a step, it does not take part in summing
up the numbers of targets, while the others do: the processes no longer call the same operations. One
process with all the batches has no such trouble. -/
theorem C79_no_targets_negation (c : Cfg) (u : Work β) (scale : ℚ) (params : Nat → Vec)
    (bs : Nat → List β) (r₀ r₁ : Nat) (h0 : r₀ < c.world) (h1 : r₁ < c.world)
    (hz : ((bs r₀).map fun b => (u.targets b).getD 0).sum = 0)
    (hp : 0 < ((bs r₁).map fun b => (u.targets b).getD 0).sum) (hlen : (bs r₀).length = (bs r₁).length) :
    stepGrads c u scale params bs = .error .mismatch := by
  have hne : calls c u (bs r₀) ≠ calls c u (bs r₁) := by
    intro h
    have := congrArg List.length h
    unfold calls at this
    rw [hlen] at this
    have z : numTargets u (bs r₀) = 0 := hz
    have q : 0 < numTargets u (bs r₁) := hp
    rw [z] at this
    simp only [List.length_append, if_pos q, Nat.lt_irrefl, if_false, List.length_nil,
      List.length_cons] at this
    omega
  unfold stepGrads
  rw [if_neg]
  intro h
  rw [List.all_eq_true] at h
  have a := h r₀ (List.mem_range.2 h0)
  have b := h r₁ (List.mem_range.2 h1)
  simp only [decide_eq_true_eq] at a b
  exact hne (a.trans b.symm)

example : stepGrads ⟨2, .ddp, false, none, fun _ => 1, false⟩ toy 1 (fun _ _ => 0)
    (fun r => if r = 0 then [(1, some 0)] else [(2, some 5)]) = .error .mismatch :=
  C79_no_targets_negation _ _ _ _ _ 0 1 (by decide) (by decide) (by simp [toy]) (by simp [toy]) rfl

/-- **Clipping.** For a norm of which multiples are multiples, a clipped gradient points in the same direction, its norm
is at most the limit and at most what it was, and a gradient whose norm is below the limit by `1e-6` stays. -/
theorem C79_clip (norm : Vec → ℚ) (h0 : ∀ g, 0 ≤ norm g)
    (hmul : ∀ (g : Vec) (a : ℚ), 0 ≤ a → norm (fun i => g i * a) = norm g * a) (m : ℚ) (hm : 0 ≤ m) (g : Vec) :
    (∃ a : ℚ, 0 ≤ a ∧ a ≤ 1 ∧ clip (some m) norm g = fun i => g i * a) ∧
    norm (clip (some m) norm g) ≤ m ∧ norm (clip (some m) norm g) ≤ norm g ∧
    (norm g + 1 / 1000000 ≤ m → clip (some m) norm g = g) := by
  have hpos : 0 < norm g + 1 / 1000000 := by have := h0 g; positivity
  have ha : 0 ≤ min 1 (m / (norm g + 1 / 1000000)) := le_min zero_le_one (div_nonneg hm hpos.le)
  have e : clip (some m) norm g = fun i => g i * min 1 (m / (norm g + 1 / 1000000)) := rfl
  refine ⟨⟨_, ha, min_le_left _ _, e⟩, ?_, ?_, ?_⟩
  · rw [e, hmul g _ ha]
    calc norm g * min 1 (m / (norm g + 1 / 1000000)) ≤ norm g * (m / (norm g + 1 / 1000000)) :=
          mul_le_mul_of_nonneg_left (min_le_right _ _) (h0 g)
      _ ≤ (norm g + 1 / 1000000) * (m / (norm g + 1 / 1000000)) :=
          mul_le_mul_of_nonneg_right (by linarith [hpos]) (div_nonneg hm hpos.le)
      _ = m := mul_div_cancel₀ m hpos.ne'
  · rw [e, hmul g _ ha]
    calc norm g * min 1 (m / (norm g + 1 / 1000000)) ≤ norm g * 1 :=
          mul_le_mul_of_nonneg_left (min_le_left _ _) (h0 g)
      _ = norm g := mul_one _
  · intro h
    rw [e]
    have : (1 : ℚ) ≤ m / (norm g + 1 / 1000000) := (one_le_div hpos).2 h
    funext i
    rw [min_eq_left this, mul_one]

/-- The absolute value of the first component. -/
example : (∀ g : Vec, 0 ≤ |g 0|) ∧ ∀ (g : Vec) (a : ℚ), 0 ≤ a → |(fun i => g i * a) 0| = |g 0| * a :=
  ⟨fun _ => abs_nonneg _, fun g a h => by simp [abs_mul, abs_of_nonneg h]⟩

/-- **Without a limit** gradients stay, and **without the check** a step never fails because of the norms. -/
theorem C79_unchecked (c : Cfg) (u : Work β) (scale : ℚ) (params : Nat → Vec) (bs : Nat → List β) :
    (∀ g, clip none c.norm g = g) ∧
    (stepGrads c u scale params bs = .error .inconsistentNorms → c.gradCheck = true) := by
  refine ⟨fun _ => rfl, ?_⟩
  intro h
  by_contra hc
  rw [Bool.not_eq_true] at hc
  unfold stepGrads at h
  simp only [hc, Bool.false_and, Bool.false_eq_true, if_false] at h
  split at h <;> cases h

end Fs2.Props
