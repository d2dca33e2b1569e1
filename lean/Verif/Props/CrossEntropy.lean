import Verif.Nn.CrossEntropy
import Mathlib.Tactic.Ring
import Mathlib.Tactic.FieldSimp
import Mathlib.Tactic.Linarith

/-!
Property C94: cross entropy.
-/

namespace Fs2.Props

open Fs2.Loss

/-! ### Specification -/

/-- One position: its logits, its target, and whether the mask keeps it. -/
structure Position where
  row : List ℝ
  target : Int
  keep : Bool

/-- The probability that a row of logits gives to an entry of the vocabulary. -/
noncomputable def softmaxAt (row : List ℝ) (v : Nat) : ℝ := Real.exp (row.getD v 0) / (row.map Real.exp).sum

/-- The distribution that is aimed at: the target gets all but the smoothing, of which all others get an equal share. -/
noncomputable def aim (vocab : Nat) (smoothing : ℝ) (target v : Nat) : ℝ :=
  if v = target then 1 - smoothing else smoothing / ((vocab : ℝ) - 1)

/-- The cross entropy of this distribution and the one of the logits. -/
noncomputable def entropyAt (vocab : Nat) (smoothing : ℝ) (p : Position) : ℝ :=
  ((List.range vocab).map fun v => aim vocab smoothing p.target.toNat v * - Real.log (softmaxAt p.row v)).sum

/-- Positions that count: the mask keeps them and the target is no padding. -/
def countsIn (pad : Option Int) (p : Position) : Bool := p.keep && pad ≠ some p.target

/-- The target is an entry of the vocabulary. -/
def InVocab (vocab : Nat) (p : Position) : Prop := 0 ≤ p.target ∧ p.target.toNat < vocab

/-- The loss of all positions. -/
noncomputable def lossOf (vocab : Nat) (pad : Option Int) (smoothing : ℝ) (batch : Option Nat) (ps : List Position) : Reduction → Out
  | .sum => .scalar (some ((ps.filter (countsIn pad)).map (entropyAt vocab smoothing)).sum)
  | .mean => .scalar (if ps.filter (countsIn pad) = [] then none
      else some (((ps.filter (countsIn pad)).map (entropyAt vocab smoothing)).sum / (ps.filter (countsIn pad)).length))
  | .none => match batch with
    | none => .vector (ps.map fun p => if countsIn pad p then entropyAt vocab smoothing p else 0)
    | some n => .matrix ((List.range n).map fun i =>
        ((ps.map fun p => if countsIn pad p then entropyAt vocab smoothing p else 0).drop (i * (ps.length / n))).take (ps.length / n))

/-- The function applied to positions; a mask may be left out if it keeps all of them. -/
noncomputable def lossCall (vocab : Nat) (pad : Option Int) (smoothing : ℝ) (batch : Option Nat) (useMask : Bool) (ps : List Position)
    (reduction : Reduction) : Except Exc Out :=
  crossEntropy vocab (ps.map (·.row)) batch (ps.map (·.target)) pad smoothing
    (if useMask then some (ps.map (·.keep)) else none) reduction

/-! ### Lemmas -/

private theorem mapM_ok {α β γ : Type} (f : β → Except Exc γ) (k : α → β) (g : α → γ) (l : List α) (h : ∀ x ∈ l, f (k x) = .ok (g x)) :
    (l.map k).mapM f = .ok (l.map g) := by
  induction l with
  | nil => rfl
  | cons x l ih =>
    rw [List.map_cons, List.mapM_cons, h x (by simp), ih fun y hy => h y (by simp [hy])]
    rfl

private theorem exp_sum_pos (row : List ℝ) (h : row ≠ []) : 0 < (row.map Real.exp).sum := by
  cases row with
  | nil => exact absurd rfl h
  | cons x row =>
    rw [List.map_cons, List.sum_cons]
    have : 0 ≤ (row.map Real.exp).sum := List.sum_nonneg (by
      intro y hy
      obtain ⟨z, _, rfl⟩ := List.mem_map.1 hy
      exact (Real.exp_pos z).le)
    have := Real.exp_pos x
    linarith

private theorem logSoftmax_get (row : List ℝ) (v : Nat) (h : v < row.length) :
    (logSoftmax row)[v]? = some (Real.log (softmaxAt row v)) := by
  have hne : row ≠ [] := by rintro rfl; simp at h
  unfold logSoftmax softmaxAt
  rw [List.getElem?_map, List.getElem?_eq_getElem h, Option.map_some, List.getD_eq_getElem?_getD, List.getElem?_eq_getElem h]
  rw [Option.getD_some, Real.log_div (Real.exp_ne_zero _) (exp_sum_pos row hne).ne', Real.log_exp]

private theorem logSoftmax_sum (row : List ℝ) :
    (logSoftmax row).sum = ((List.range row.length).map fun v => Real.log (softmaxAt row v)).sum := by
  congr 1
  apply List.ext_getElem?
  intro i
  by_cases h : i < row.length
  · rw [logSoftmax_get row i h, List.getElem?_map, List.getElem?_range h]
    rfl
  · rw [List.getElem?_eq_none (by simp [logSoftmax]; omega), List.getElem?_eq_none (by simp; omega)]

private theorem pick_ok (vocab : Nat) (p : Position) (hr : p.row.length = vocab) (h : InVocab vocab p) :
    (pick (logSoftmax p.row) p.target).map (- ·) = .ok (- Real.log (softmaxAt p.row p.target.toNat)) := by
  unfold pick
  rw [if_neg (by have := h.1; omega), logSoftmax_get _ _ (by rw [hr]; exact h.2)]
  rfl

/-- Splitting a sum over the vocabulary at the target. -/
private theorem sum_aim (n t : Nat) (a b : ℝ) (f : Nat → ℝ) :
    ((List.range n).map fun v => (if v = t then a else b) * f v).sum =
      (if t < n then (a - b) * f t else 0) + b * ((List.range n).map f).sum := by
  induction n with
  | zero => simp
  | succ n ih =>
    rw [List.range_succ, List.map_append, List.sum_append, ih, List.map_append, List.sum_append]
    simp only [List.map_cons, List.map_nil, List.sum_cons, List.sum_nil, add_zero]
    by_cases h1 : t < n
    · rw [if_pos h1, if_neg (show ¬ n = t by omega), if_pos (show t < n + 1 by omega)]; ring
    · by_cases h2 : t = n
      · subst h2
        rw [if_neg h1, if_pos rfl, if_pos (show t < t + 1 by omega)]; ring
      · rw [if_neg h1, if_neg (show ¬ n = t by omega), if_neg (show ¬ t < n + 1 by omega)]; ring

private theorem entropy_smooth (vocab : Nat) (smoothing : ℝ) (p : Position) (hr : p.row.length = vocab) (h : InVocab vocab p) :
    entropyAt vocab smoothing p =
      (1 - smoothing - smoothing / ((vocab : ℝ) - 1)) * - Real.log (softmaxAt p.row p.target.toNat) +
        smoothing / ((vocab : ℝ) - 1) * - (logSoftmax p.row).sum := by
  unfold entropyAt aim
  rw [sum_aim, if_pos h.2, logSoftmax_sum, hr]
  congr 2
  generalize List.range vocab = l
  induction l with
  | nil => simp
  | cons v l ih => simp only [List.map_cons, List.sum_cons, ih]; ring

private theorem entropy_plain (vocab : Nat) (p : Position) (h : InVocab vocab p) :
    entropyAt vocab 0 p = - Real.log (softmaxAt p.row p.target.toNat) := by
  unfold entropyAt aim
  rw [sum_aim, if_pos h.2]
  simp

private theorem zip_maps {α β γ : Type} (f : α → β) (g : α → γ) (l : List α) : (l.map f).zip (l.map g) = l.map fun x => (f x, g x) := by
  induction l with
  | nil => rfl
  | cons x l ih => simp [ih]

private theorem filter_sum (q : Position → Bool) (f : Position → ℝ) (ps : List Position) :
    ((ps.filter q).map f).sum = (ps.map fun p => if q p then f p else 0).sum := by
  induction ps with
  | nil => rfl
  | cons p ps ih =>
    rw [List.filter_cons]
    by_cases h : q p = true
    · rw [if_pos h]; simp [ih, h]
    · rw [if_neg h]; simp [ih, h]

/-- What is common to both branches. -/
private theorem reduce_eq (vocab : Nat) (pad : Option Int) (smoothing : ℝ) (batch : Option Nat) (ps : List Position) :
    lossOf vocab pad smoothing batch ps .sum =
        .scalar (some (ps.map fun p => if countsIn pad p then entropyAt vocab smoothing p else 0).sum) ∧
    lossOf vocab pad smoothing batch ps .mean =
        .scalar (over (ps.map fun p => if countsIn pad p then entropyAt vocab smoothing p else 0).sum (ps.countP (countsIn pad))) ∧
    lossOf vocab pad smoothing batch ps .none =
        unflatten batch (ps.map fun p => if countsIn pad p then entropyAt vocab smoothing p else 0) := by
  refine ⟨?_, ?_, ?_⟩
  · simp only [lossOf, filter_sum]
  · simp only [lossOf, filter_sum, over, List.countP_eq_length_filter, List.length_eq_zero_iff]
  · cases batch <;> simp only [lossOf, unflatten, List.length_map]

private theorem plain_eq (vocab : Nat) (pad : Option Int) (batch : Option Nat) (useMask : Bool) (ps : List Position)
    (hrow : ∀ p ∈ ps, p.row.length = vocab) (hmask : useMask = false → ∀ p ∈ ps, p.keep = true)
    (ht : ∀ p ∈ ps, InVocab vocab p ∨ pad = some p.target) (reduction : Reduction) :
    lossCall vocab pad 0 batch useMask ps reduction = .ok (lossOf vocab pad 0 batch ps reduction) := by
  have hign : ∀ p ∈ ps, (p.target = pad.getD (-100) ↔ pad = some p.target) := by
    intro p hp
    cases pad with
    | none =>
      have h := ht p hp
      simp only [reduceCtorEq, or_false] at h
      have := h.1
      simp only [Option.getD_none, reduceCtorEq, iff_false]
      omega
    | some q => simp [eq_comm]
  have hnll : nll ((ps.map (·.row)).map logSoftmax) (ps.map (·.target)) (pad.getD (-100)) =
      .ok (ps.map fun p => if pad = some p.target then 0 else entropyAt vocab 0 p) := by
    unfold nll
    rw [List.map_map, zip_maps]
    apply mapM_ok
    intro p hp
    simp only [Function.comp, hign p hp]
    by_cases h : pad = some p.target
    · rw [if_pos h, if_pos h]
    · rw [if_neg h, if_neg h]
      have hin := (ht p hp).resolve_right h
      rw [pick_ok vocab p (hrow p hp) hin, entropy_plain vocab p hin]
  obtain ⟨h1, h2, h3⟩ := reduce_eq vocab pad 0 batch ps
  unfold lossCall crossEntropy
  simp only [if_true]
  unfold plain
  simp only [hnll]
  cases useMask with
  | false =>
    have hk : (ps.map fun p => if pad = some p.target then 0 else entropyAt vocab 0 p) =
        ps.map fun p => if countsIn pad p then entropyAt vocab 0 p else 0 := by
      apply List.map_congr_left
      intro p hp
      by_cases h : pad = some p.target <;> simp [countsIn, hmask rfl p hp, h]
    have hc : (ps.map (·.target)).countP (· ≠ pad.getD (-100)) = ps.countP (countsIn pad) := by
      rw [List.countP_map]
      apply List.countP_congr
      intro p hp
      simp [countsIn, hmask rfl p hp, hign p hp]
    rw [hk]
    simp only [Bool.false_eq_true, if_false, Except.map]
    cases reduction with
    | sum => rw [h1]
    | mean => rw [h2, hc]
    | none => rw [h3]
  | true =>
    have hk : masked (ps.map fun p => if pad = some p.target then 0 else entropyAt vocab 0 p) (ps.map (·.keep)) =
        ps.map fun p => if countsIn pad p then entropyAt vocab 0 p else 0 := by
      unfold masked
      rw [zip_maps, List.map_map]
      apply List.map_congr_left
      intro p hp
      by_cases h : pad = some p.target <;> cases hkeep : p.keep <;> simp [countsIn, hkeep, h]
    have hc : ((ps.map (·.keep)).zip (ps.map (·.target))).countP (fun x => x.1 && x.2 ≠ pad.getD (-100)) =
        ps.countP (countsIn pad) := by
      rw [zip_maps, List.countP_map]
      apply List.countP_congr
      intro p hp
      simp [countsIn, hign p hp]
    simp only [if_true, Except.map, hk]
    cases reduction with
    | sum => rw [h1]
    | mean => rw [h2, hc]
    | none => rw [h3]

private theorem sum_mix (a b : ℝ) (f g : Position → ℝ) (ps : List Position) :
    a * (ps.map f).sum + b * (ps.map g).sum = (ps.map fun p => a * f p + b * g p).sum := by
  induction ps with
  | nil => simp
  | cons p ps ih => simp only [List.map_cons, List.sum_cons, ← ih]; ring

private theorem smooth_eq (vocab : Nat) (pad : Option Int) (smoothing : ℝ) (h0 : 0 < smoothing) (hv : vocab ≠ 1) (batch : Option Nat)
    (useMask : Bool) (ps : List Position)
    (hrow : ∀ p ∈ ps, p.row.length = vocab) (hmask : useMask = false → ∀ p ∈ ps, p.keep = true)
    (ht : ∀ p ∈ ps, InVocab vocab p) (reduction : Reduction) :
    lossCall vocab pad smoothing batch useMask ps reduction = .ok (lossOf vocab pad smoothing batch ps reduction) := by
  have hfill : ∀ f : Position → ℝ, fillPadding (ps.map f) (ps.map (·.target)) pad =
      ps.map fun p => if pad = some p.target then 0 else f p := by
    intro f
    unfold fillPadding
    cases pad with
    | none => simp
    | some q =>
      simp only [zip_maps, List.map_map]
      apply List.map_congr_left
      intro p _
      simp [Function.comp, eq_comm]
  have hboth : ∀ f : Position → ℝ, maskAll (if useMask = true then some (ps.map (·.keep)) else none)
        (fillPadding (ps.map f) (ps.map (·.target)) pad) =
      ps.map fun p => if countsIn pad p then f p else 0 := by
    intro f
    cases useMask with
    | false =>
      simp only [Bool.false_eq_true, if_false, hfill, maskAll]
      apply List.map_congr_left
      intro p hp
      by_cases h : pad = some p.target <;> simp [countsIn, hmask rfl p hp, h]
    | true =>
      simp only [if_true, hfill, maskAll]
      unfold masked
      rw [zip_maps, List.map_map]
      apply List.map_congr_left
      intro p hp
      by_cases h : pad = some p.target <;> cases hkeep : p.keep <;> simp [countsIn, hkeep, h]
  have hcount : meanCount (ps.map (·.target)) pad (if useMask = true then some (ps.map (·.keep)) else none) =
      ps.countP (countsIn pad) := by
    cases useMask with
    | false =>
      cases pad with
      | none =>
        simp only [Bool.false_eq_true, if_false, meanCount, List.length_map]
        symm
        rw [List.countP_eq_length]
        intro p hp
        simp [countsIn, hmask rfl p hp]
      | some q =>
        simp only [Bool.false_eq_true, if_false, meanCount, List.countP_map]
        apply List.countP_congr
        intro p hp
        have : q = p.target ↔ p.target = q := eq_comm
        simp [countsIn, hmask rfl p hp, this]
    | true =>
      cases pad with
      | none =>
        simp only [if_true, meanCount, List.countP_map]
        apply List.countP_congr
        intro p hp
        simp [countsIn]
      | some q =>
        simp only [if_true, meanCount, zip_maps, List.countP_map]
        apply List.countP_congr
        intro p hp
        have : q = p.target ↔ p.target = q := eq_comm
        simp [countsIn, this]
  have hpick : (((ps.map (·.row)).map logSoftmax).zip (ps.map (·.target))).mapM (fun x => (pick x.1 x.2).map (- ·)) =
      .ok (ps.map fun p => - Real.log (softmaxAt p.row p.target.toNat)) := by
    rw [List.map_map, zip_maps]
    apply mapM_ok
    intro p hp
    exact pick_ok vocab p (hrow p hp) (ht p hp)
  have hmix : ∀ p ∈ ps, (1 - smoothing - smoothing / ((vocab : ℝ) - 1)) *
        (if countsIn pad p then - Real.log (softmaxAt p.row p.target.toNat) else 0) +
      smoothing / ((vocab : ℝ) - 1) * (if countsIn pad p then - (logSoftmax p.row).sum else 0) =
      if countsIn pad p then entropyAt vocab smoothing p else 0 := by
    intro p hp
    split
    · rw [entropy_smooth vocab smoothing p (hrow p hp) (ht p hp)]
    · simp
  obtain ⟨h1, h2, h3⟩ := reduce_eq vocab pad smoothing batch ps
  unfold lossCall crossEntropy
  simp only [h0.ne', if_false]
  unfold smoothed
  rw [hpick]
  simp only [h0, hv, and_false, if_false, if_true, List.map_map]
  rw [hboth, hboth, hcount]
  simp only [Function.comp]
  congr 1
  cases reduction with
  | sum => simp only [h1, sum_mix, List.map_congr_left hmix]
  | mean =>
    rw [h2]
    simp only [over]
    split
    · rfl
    · simp only [Option.bind_some, Option.map_some]
      rw [← List.map_congr_left hmix, ← sum_mix]
      congr 2
      ring
  | none =>
    rw [h3]
    simp only [zip_maps, List.map_map]
    exact congrArg (unflatten batch) (List.map_congr_left hmix)

/-! ### C94 -/

/-- The loss is the cross entropy of the smoothed targets, summed or averaged over exactly the positions that count; without
reduction there is one number for each position, in the shape of the batch, which is 0 if it does not count. -/
theorem C94_loss (vocab : Nat) (pad : Option Int) (smoothing : ℝ) (h0 : 0 ≤ smoothing) (hv : smoothing = 0 ∨ vocab ≠ 1)
    (batch : Option Nat) (useMask : Bool) (ps : List Position) (hrow : ∀ p ∈ ps, p.row.length = vocab)
    (hmask : useMask = false → ∀ p ∈ ps, p.keep = true)
    (ht : ∀ p ∈ ps, InVocab vocab p ∨ (smoothing = 0 ∧ pad = some p.target)) (reduction : Reduction) :
    lossCall vocab pad smoothing batch useMask ps reduction = .ok (lossOf vocab pad smoothing batch ps reduction) := by
  by_cases h : smoothing = 0
  · subst h
    exact plain_eq vocab pad batch useMask ps hrow hmask (fun p hp => (ht p hp).imp id (·.2)) reduction
  · exact smooth_eq vocab pad smoothing (lt_of_le_of_ne h0 (Ne.symm h)) (hv.resolve_left h) batch useMask ps hrow hmask
      (fun p hp => (ht p hp).resolve_right fun h' => h h'.1) reduction

/-- What is aimed at is a distribution. -/
theorem C94_aim (vocab : Nat) (smoothing : ℝ) (target : Nat) (hv : 2 ≤ vocab) (ht : target < vocab) :
    ((List.range vocab).map (aim vocab smoothing target)).sum = 1 ∧
    (0 ≤ smoothing → smoothing ≤ 1 → ∀ v, 0 ≤ aim vocab smoothing target v) := by
  have hpos : (0 : ℝ) < (vocab : ℝ) - 1 := by
    have : (2 : ℝ) ≤ vocab := by exact_mod_cast hv
    linarith
  constructor
  · have := sum_aim vocab target (1 - smoothing) (smoothing / ((vocab : ℝ) - 1)) fun _ => 1
    simp only [mul_one] at this
    unfold aim
    rw [this, if_pos ht]
    simp only [List.map_const', List.length_range, List.sum_replicate, nsmul_eq_mul, mul_one]
    field_simp
    ring
  · intro h0 h1 v
    unfold aim
    split
    · linarith
    · positivity

/-- What a row of logits gives is a distribution as well, so that no position has a negative loss. -/
theorem C94_nonneg (vocab : Nat) (smoothing : ℝ) (hv : 2 ≤ vocab) (h0 : 0 ≤ smoothing) (h1 : smoothing ≤ 1) (p : Position)
    (hrow : p.row.length = vocab) (ht : InVocab vocab p) :
    ((List.range vocab).map (softmaxAt p.row)).sum = 1 ∧ 0 ≤ entropyAt vocab smoothing p := by
  have hne : p.row ≠ [] := by rintro h; rw [h] at hrow; simp at hrow; omega
  have hsum := exp_sum_pos p.row hne
  have hlist : (List.range vocab).map (fun v => Real.exp (p.row.getD v 0)) = p.row.map Real.exp := by
    apply List.ext_getElem?
    intro i
    by_cases h : i < vocab
    · rw [List.getElem?_map, List.getElem?_range h, List.getElem?_map, List.getElem?_eq_getElem (by omega)]
      simp [List.getD_eq_getElem?_getD, List.getElem?_eq_getElem (show i < p.row.length by omega)]
    · rw [List.getElem?_eq_none (by simp; omega), List.getElem?_eq_none (by simp; omega)]
  have hone : ((List.range vocab).map (softmaxAt p.row)).sum = 1 := by
    unfold softmaxAt
    have : ∀ (l : List Nat) (c : ℝ) (f : Nat → ℝ), (l.map fun v => f v / c).sum = (l.map f).sum / c := by
      intro l c f
      induction l with
      | nil => simp
      | cons v l ih => simp only [List.map_cons, List.sum_cons, ih]; ring
    rw [this, hlist, div_self hsum.ne']
  refine ⟨hone, ?_⟩
  unfold entropyAt
  apply List.sum_nonneg
  intro x hx
  obtain ⟨v, hvm, rfl⟩ := List.mem_map.1 hx
  have hvv := List.mem_range.1 hvm
  apply mul_nonneg ((C94_aim vocab smoothing _ hv ht.2).2 h0 h1 v)
  have hle : softmaxAt p.row v ≤ 1 := by
    rw [← hone]
    exact List.single_le_sum (by
      intro y hy
      obtain ⟨w, _, rfl⟩ := List.mem_map.1 hy
      exact div_nonneg (Real.exp_pos _).le hsum.le) _ (List.mem_map.2 ⟨v, hvm, rfl⟩)
  have hge : 0 ≤ softmaxAt p.row v := div_nonneg (Real.exp_pos _).le hsum.le
  have := Real.log_nonpos hge hle
  linarith

/-- The summed loss of a batch is the sum of the losses of its parts, however it is divided; so it is the same for micro-batches. -/
theorem C94_parts (vocab : Nat) (pad : Option Int) (smoothing : ℝ) (h0 : 0 ≤ smoothing) (hv : smoothing = 0 ∨ vocab ≠ 1)
    (batch batch' batch'' : Option Nat) (useMask : Bool) (ps qs : List Position) (hrow : ∀ p ∈ ps ++ qs, p.row.length = vocab)
    (hmask : useMask = false → ∀ p ∈ ps ++ qs, p.keep = true)
    (ht : ∀ p ∈ ps ++ qs, InVocab vocab p ∨ (smoothing = 0 ∧ pad = some p.target)) :
    ∃ x y : ℝ, lossCall vocab pad smoothing batch useMask ps .sum = .ok (.scalar (some x)) ∧
      lossCall vocab pad smoothing batch' useMask qs .sum = .ok (.scalar (some y)) ∧
      lossCall vocab pad smoothing batch'' useMask (ps ++ qs) .sum = .ok (.scalar (some (x + y))) := by
  refine ⟨_, _, C94_loss vocab pad smoothing h0 hv batch useMask ps (fun p hp => hrow p (by simp [hp]))
      (fun h p hp => hmask h p (by simp [hp])) (fun p hp => ht p (by simp [hp])) .sum,
    C94_loss vocab pad smoothing h0 hv batch' useMask qs (fun p hp => hrow p (by simp [hp]))
      (fun h p hp => hmask h p (by simp [hp])) (fun p hp => ht p (by simp [hp])) .sum, ?_⟩
  rw [C94_loss vocab pad smoothing h0 hv batch'' useMask (ps ++ qs) hrow hmask ht]
  simp [lossOf]

/-- Padding changes nothing: positions that do not count may be added or removed anywhere. -/
theorem C94_padding (vocab : Nat) (pad : Option Int) (smoothing : ℝ) (h0 : 0 ≤ smoothing) (hv : smoothing = 0 ∨ vocab ≠ 1)
    (batch batch' : Option Nat) (useMask useMask' : Bool) (ps qs : List Position) (hrow : ∀ p ∈ ps ++ qs, p.row.length = vocab)
    (hmask : useMask = false → ∀ p ∈ ps, p.keep = true) (hmask' : useMask' = false → ∀ p ∈ qs, p.keep = true)
    (ht : ∀ p ∈ ps ++ qs, InVocab vocab p ∨ (smoothing = 0 ∧ pad = some p.target))
    (hsame : (ps.filter fun p => p.keep ∧ pad ≠ some p.target) = qs.filter fun p => p.keep ∧ pad ≠ some p.target)
    (reduction : Reduction) (hred : reduction ≠ .none) :
    lossCall vocab pad smoothing batch useMask ps reduction = lossCall vocab pad smoothing batch' useMask' qs reduction := by
  have hf : ∀ l : List Position, (l.filter fun p => p.keep ∧ pad ≠ some p.target) = l.filter (countsIn pad) := by
    intro l
    congr 1
    funext p
    simp [countsIn]
  rw [hf, hf] at hsame
  rw [C94_loss vocab pad smoothing h0 hv batch useMask ps (fun p hp => hrow p (by simp [hp])) hmask (fun p hp => ht p (by simp [hp])),
    C94_loss vocab pad smoothing h0 hv batch' useMask' qs (fun p hp => hrow p (by simp [hp])) hmask' (fun p hp => ht p (by simp [hp]))]
  cases reduction with
  | none => exact absurd rfl hred
  | sum => simp only [lossOf, hsame]
  | mean => simp only [lossOf, hsame]

/-- Without label smoothing, and without a padding index, targets of -100 do not count either. -/
theorem C94_default (vocab : Nat) (batch : Option Nat) (useMask : Bool) (ps : List Position) (reduction : Reduction) :
    lossCall vocab none 0 batch useMask ps reduction = lossCall vocab (some (-100)) 0 batch useMask ps reduction := by
  unfold lossCall crossEntropy
  simp only [if_true]
  rfl

/-- With label smoothing, padding has to be an entry of the vocabulary: targets that are to be ignored raise an error if they are
not, and no amount of masking helps. So the two branches disagree. -/
theorem C94_outside (vocab : Nat) (pad : Option Int) (smoothing : ℝ) (h0 : 0 < smoothing) (batch : Option Nat) (useMask : Bool)
    (ps : List Position) (hrow : ∀ p ∈ ps, p.row.length = vocab) (p : Position) (hp : p ∈ ps) (hout : ¬ InVocab vocab p)
    (reduction : Reduction) :
    lossCall vocab pad smoothing batch useMask ps reduction = .error .index := by
  have hpick : ∀ q ∈ ps, ¬ InVocab vocab q → (pick (logSoftmax q.row) q.target).map (- ·) = .error .index := by
    intro q hq h
    unfold pick
    by_cases h1 : q.target < 0
    · rw [if_pos h1]; rfl
    · rw [if_neg h1, List.getElem?_eq_none]
      · rfl
      · simp only [logSoftmax, List.length_map, hrow q hq]
        by_contra h2
        exact h ⟨by omega, by omega⟩
  have hm : (ps.map fun q => (logSoftmax q.row, q.target)).mapM (fun x => (pick x.1 x.2).map (- ·)) = .error .index := by
    induction ps with
    | nil => simp at hp
    | cons q ps ih =>
      rw [List.map_cons, List.mapM_cons]
      by_cases h : InVocab vocab q
      · rw [pick_ok vocab q (hrow q (by simp)) h]
        have hp' : p ∈ ps := by
          rcases List.mem_cons.1 hp with rfl | h'
          · exact absurd h hout
          · exact h'
        rw [ih (fun r hr => hrow r (by simp [hr])) hp' fun r hr => hpick r (by simp [hr])]
        rfl
      · rw [hpick q (by simp) h]
        rfl
  unfold lossCall crossEntropy
  simp only [h0.ne', if_false]
  unfold smoothed
  rw [List.map_map, zip_maps]
  simp only [Function.comp, hm]

/-- The property that fails: with a padding index outside of the vocabulary there is a loss without smoothing, and none with it. -/
theorem C94_outside_negation : ∃ (ps : List Position), (∀ p ∈ ps, p.row.length = 2 ∧ (InVocab 2 p ∨ p.target = -1)) ∧
    (∃ x, lossCall 2 (some (-1)) 0 none false ps .sum = .ok (.scalar (some x))) ∧
    lossCall 2 (some (-1)) (1 / 10) none false ps .sum = .error .index := by
  refine ⟨[⟨[0, 1], 1, true⟩, ⟨[0, 1], -1, true⟩], ?_, ?_, ?_⟩
  · simp [InVocab]
  · refine ⟨_, C94_loss 2 (some (-1)) 0 le_rfl (.inl rfl) none false _ ?_ ?_ ?_ .sum⟩ <;> simp [InVocab]
  · exact C94_outside 2 _ _ (by norm_num) none false _ (by simp) ⟨[0, 1], -1, true⟩ (by simp) (by simp [InVocab]) .sum

/-- With a vocabulary of one entry, label smoothing divides by zero. -/
theorem C94_single (pad : Option Int) (smoothing : ℝ) (h0 : 0 < smoothing) (batch : Option Nat) (useMask : Bool)
    (ps : List Position) (hrow : ∀ p ∈ ps, p.row.length = 1) (ht : ∀ p ∈ ps, InVocab 1 p) (reduction : Reduction) :
    lossCall 1 pad smoothing batch useMask ps reduction = .error .zeroDivision := by
  have hpick : (((ps.map (·.row)).map logSoftmax).zip (ps.map (·.target))).mapM (fun x => (pick x.1 x.2).map (- ·)) =
      .ok (ps.map fun p => - Real.log (softmaxAt p.row p.target.toNat)) := by
    rw [List.map_map, zip_maps]
    apply mapM_ok
    intro p hp
    exact pick_ok 1 p (hrow p hp) (ht p hp)
  unfold lossCall crossEntropy
  simp only [h0.ne', if_false]
  unfold smoothed
  rw [hpick]
  simp only [h0, and_self, if_true]

/-! ### Examples -/

example : let ps : List Position := [⟨[0, 1, 2], 1, true⟩, ⟨[3, 1, 2], 0, true⟩, ⟨[0, 0, 0], 2, false⟩]
    (∀ p ∈ ps, p.row.length = 3) ∧ (∀ p ∈ ps, InVocab 3 p ∨ ((1 / 10 : ℝ) = 0 ∧ some 0 = some p.target)) ∧
    ps.filter (countsIn (some 0)) = [⟨[0, 1, 2], 1, true⟩] := by
  refine ⟨by simp, by simp [InVocab], ?_⟩
  simp [countsIn]

example : let ps : List Position := [⟨[0, 1, 2], 1, true⟩, ⟨[3, 1, 2], -1, true⟩]
    ∀ p ∈ ps, InVocab 3 p ∨ ((0 : ℝ) = 0 ∧ some (-1) = some p.target) := by
  simp [InVocab]

end Fs2.Props
