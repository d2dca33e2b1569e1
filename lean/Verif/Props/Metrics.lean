import Verif.Metrics.Aggregate
import Mathlib.Algebra.Order.Ring.Rat
import Mathlib.Algebra.BigOperators.Group.List.Basic
import Mathlib.Tactic.Ring
import Mathlib.Tactic.Linarith

/-!
Properties C90 and C91: the values of metrics over all ranks, and what a trainer publishes.
-/

namespace Fs2.Props

open Fs2.Tally

variable {U S V : Type}

/-! ### Specification -/

/-- What is reported for a metric if rank 0 made the updates `us` and the other ranks made those in `rest`. -/
def reported (m : Metric U S V) (us : List U) (rest : List (List U)) : V := m.synced (m.after us) (rest.map m.after)

/-- The value that one process would report that made all the updates. -/
def alone (m : Metric U S V) (us : List U) : V := m.compute (m.after us)

/-- Values do not depend on which rank made which updates, and when. -/
def Spreads (m : Metric U S V) : Prop :=
  ∀ us rest all, (us ++ rest.flatten).Perm all → reported m us rest = alone m all

/-! ### Lemmas -/

/-- Metrics whose states can be added up in any order. -/
private structure Adds (m : Metric U S V) (add : S → S → S) (part : U → S) (P : S → Prop) : Prop where
  pinit : P m.init
  ppart : ∀ u, P (part u)
  padd : ∀ s t, P s → P t → P (add s t)
  comm : ∀ s t, add s t = add t s
  assoc : ∀ s t u, add (add s t) u = add s (add t u)
  zero : ∀ s, P s → add m.init s = s
  update : ∀ s u, P s → m.update s u = add s (part u)
  merge : ∀ s l, P s → (∀ t ∈ l, P t) → m.merge s l = l.foldl add s

private theorem Adds.foldl {m : Metric U S V} {add part P} (h : Adds m add part P) (us : List U) {s : S} (hs : P s) :
    P (us.foldl m.update s) ∧ us.foldl m.update s = add s (m.after us) := by
  induction us generalizing s with
  | nil => exact ⟨hs, by rw [Metric.after, List.foldl_nil, List.foldl_nil, h.comm, h.zero s hs]⟩
  | cons u us ih =>
    have hu : P (m.update s u) := by rw [h.update s u hs]; exact h.padd _ _ hs (h.ppart u)
    refine ⟨(ih hu).1, ?_⟩
    have hi : P (m.update m.init u) := by rw [h.update _ u h.pinit]; exact h.padd _ _ h.pinit (h.ppart u)
    have ha : m.after (u :: us) = us.foldl m.update (m.update m.init u) := rfl
    rw [List.foldl_cons, (ih hu).2, ha, (ih hi).2, h.update s u hs, h.update _ u h.pinit, h.zero _ (h.ppart u), h.assoc]

private theorem Adds.after {m : Metric U S V} {add part P} (h : Adds m add part P) (us : List U) : P (m.after us) :=
  (h.foldl us h.pinit).1

private theorem Adds.append {m : Metric U S V} {add part P} (h : Adds m add part P) (us vs : List U) :
    m.after (us ++ vs) = add (m.after us) (m.after vs) := by
  exact (List.foldl_append ..).trans (h.foldl vs (h.after us)).2

private theorem Adds.perm {m : Metric U S V} {add part P} (h : Adds m add part P) {us vs : List U} (hp : us.Perm vs) :
    m.after us = m.after vs := by
  induction hp with
  | nil => rfl
  | @cons x l l' _ ih =>
    rw [show x :: l = [x] ++ l from rfl, show x :: l' = [x] ++ l' from rfl, h.append, h.append, ih]
  | swap x y l =>
    rw [show y :: x :: l = [y] ++ ([x] ++ l) from rfl, show x :: y :: l = [x] ++ ([y] ++ l) from rfl, h.append, h.append,
      h.append, h.append, ← h.assoc, h.comm (m.after [y]), h.assoc]
  | trans _ _ ih₁ ih₂ => rw [ih₁, ih₂]

private theorem Adds.synced {m : Metric U S V} {add part P} (h : Adds m add part P) (us : List U) (rest : List (List U)) :
    reported m us rest = m.compute (m.after (us ++ rest.flatten)) := by
  have key : ∀ (rest : List (List U)) us,
      (rest.map m.after).foldl add (m.after us) = m.after (us ++ rest.flatten) := by
    intro rest
    induction rest with
    | nil => intro us; simp
    | cons r rest ih =>
      intro us
      rw [List.map_cons, List.foldl_cons, ← h.append, ih, List.flatten_cons, List.append_assoc]
  unfold reported Metric.synced
  cases rest with
  | nil => simp
  | cons r rest =>
    rw [if_neg (by simp), h.merge _ _ (h.after us) (by
      intro t ht
      obtain ⟨x, _, rfl⟩ := List.mem_map.1 ht
      exact h.after x), key]

private theorem Adds.spreads {m : Metric U S V} {add part P} (h : Adds m add part P) : Spreads m := by
  intro us rest all hp
  rw [h.synced, h.perm hp, alone]

private theorem sum_adds : Adds sum (fun s t : Rat => s + t) (fun u => u.1 * u.2) (fun _ => True) :=
  ⟨trivial, fun _ => trivial, fun _ _ _ _ => trivial, fun s t => Rat.add_comm s t, fun s t u => Rat.add_assoc s t u,
    fun s _ => Rat.zero_add s, fun _ _ _ => rfl, fun _ _ _ _ => rfl⟩

private theorem mean_adds : Adds mean (fun s t : Rat × Rat => (s.1 + t.1, s.2 + t.2)) (fun u => (u.1 * u.2, u.2))
    (fun _ => True) :=
  ⟨trivial, fun _ => trivial, fun _ _ _ _ => trivial,
    fun _ _ => Prod.ext (Rat.add_comm _ _) (Rat.add_comm _ _),
    fun _ _ _ => Prod.ext (Rat.add_assoc _ _ _) (Rat.add_assoc _ _ _),
    fun _ _ => Prod.ext (Rat.zero_add _) (Rat.zero_add _), fun _ _ _ => rfl, fun _ _ _ _ => rfl⟩

private theorem maxOf_comm (s t : Option Rat) : maxOf s t = maxOf t s := by
  cases s <;> cases t <;> simp [maxOf, max_comm]

private theorem maxOf_assoc (s t u : Option Rat) : maxOf (maxOf s t) u = maxOf s (maxOf t u) := by
  cases s <;> cases t <;> cases u <;> simp [maxOf, max_assoc]

private theorem max_adds : Adds maximum maxOf some (fun _ => True) :=
  ⟨trivial, fun _ => trivial, fun _ _ _ _ => trivial,
    maxOf_comm, maxOf_assoc, fun s _ => by cases s <;> rfl, fun _ _ _ => rfl, fun _ _ _ _ => rfl⟩

private theorem wer_part {W A : Type} (dW : List W → List W → Nat) (dA : List A → List A → Nat) (ps : List (Pair W A))
    (s : WerState) : (wer dW dA).update s ps =
      ⟨s.unitErr + (ps.map fun p => dA p.hypUnits p.refUnits).sum, s.unitLen + (ps.map fun p => p.refUnits.length).sum,
        s.wordErr + (ps.map fun p => dW p.hypWords p.refWords).sum, s.wordLen + (ps.map fun p => p.refWords.length).sum⟩ := by
  show ps.foldl _ s = _
  induction ps generalizing s with
  | nil => simp
  | cons p ps ih => rw [List.foldl_cons, ih]; simp [Nat.add_assoc]

private theorem wer_foldl {W A : Type} (dW : List W → List W → Nat) (dA : List A → List A → Nat)
    (l : List (List (Pair W A))) (s : WerState) : l.foldl (wer dW dA).update s = (wer dW dA).update s l.flatten := by
  induction l generalizing s with
  | nil => rfl
  | cons x l ih =>
    rw [List.foldl_cons, ih, List.flatten_cons]
    exact (List.foldl_append ..).symm

private def werAdd (s t : WerState) : WerState :=
  ⟨s.unitErr + t.unitErr, s.unitLen + t.unitLen, s.wordErr + t.wordErr, s.wordLen + t.wordLen⟩

private theorem werAdd_comm (s t : WerState) : werAdd s t = werAdd t s := by simp [werAdd, Nat.add_comm]

private theorem werAdd_assoc (s t u : WerState) : werAdd (werAdd s t) u = werAdd s (werAdd t u) := by
  simp [werAdd, Nat.add_assoc]

private theorem werAdd_zero (s : WerState) : werAdd ⟨0, 0, 0, 0⟩ s = s := by cases s; simp [werAdd]

private theorem wer_update {W A : Type} (dW : List W → List W → Nat) (dA : List A → List A → Nat) (s : WerState)
    (ps : List (Pair W A)) : (wer dW dA).update s ps = werAdd s ((wer dW dA).update ⟨0, 0, 0, 0⟩ ps : WerState) := by
  have h := wer_part dW dA ps ⟨0, 0, 0, 0⟩
  refine (wer_part dW dA ps s).trans ?_
  refine Eq.trans ?_ (congrArg (werAdd s) h.symm)
  simp [werAdd]

private theorem wer_adds {W A : Type} (dW : List W → List W → Nat) (dA : List A → List A → Nat) :
    Adds (wer dW dA) werAdd (fun ps => (wer dW dA).update ⟨0, 0, 0, 0⟩ ps) (fun _ => True) :=
  ⟨trivial, fun _ => trivial, fun _ _ _ _ => trivial, werAdd_comm, werAdd_assoc, fun s _ => werAdd_zero s,
    fun s u _ => wer_update dW dA s u, fun _ _ _ _ => rfl⟩

private theorem addVec_length {n : Nat} {x y : List Nat} (hx : x.length = n) (hy : y.length = n) :
    (addVec x y).length = n := by simp [addVec, hx, hy]

private theorem addVec_comm (x y : List Nat) : addVec x y = addVec y x := by
  unfold addVec
  induction x generalizing y with
  | nil => simp
  | cons a x ih => cases y with
    | nil => simp
    | cons b y => simp [ih, Nat.add_comm]

private theorem addVec_assoc (x y z : List Nat) : addVec (addVec x y) z = addVec x (addVec y z) := by
  unfold addVec
  induction x generalizing y z with
  | nil => simp
  | cons a x ih => cases y with
    | nil => simp
    | cons b y => cases z with
      | nil => simp
      | cons c z => simp [ih, Nat.add_assoc]

private theorem addVec_zero {n : Nat} {x : List Nat} (h : x.length = n) : addVec (List.replicate n 0) x = x := by
  unfold addVec
  induction x generalizing n with
  | nil => cases n <;> simp_all
  | cons a x ih => cases n with
    | zero => simp at h
    | succ n => simp at h; simp [List.replicate_succ, ih h]

private theorem foldl_addVec {n : Nat} (l : List (List Nat)) (hl : ∀ x ∈ l, x.length = n) {s : List Nat} (hs : s.length = n) :
    (l.foldl addVec s).length = n ∧ l.foldl addVec s = addVec s (l.foldl addVec (List.replicate n 0)) := by
  induction l generalizing s with
  | nil => exact ⟨hs, by rw [List.foldl_nil, List.foldl_nil, addVec_comm, addVec_zero hs]⟩
  | cons x l ih =>
    have hx : x.length = n := hl x (by simp)
    have hr := fun y hy => hl y (List.mem_cons_of_mem x hy)
    refine ⟨(ih hr (addVec_length hs hx)).1, ?_⟩
    rw [List.foldl_cons, (ih hr (addVec_length hs hx)).2, List.foldl_cons,
      (ih hr (addVec_length (List.length_replicate ..) hx)).2, addVec_zero hx, addVec_assoc]

private theorem counts_adds {B Z : Type} {n : Nat} {stats : B → List (List Nat)} (score : List Nat → Z)
    (h : ∀ b, ∀ x ∈ stats b, x.length = n) :
    Adds (counts n stats score) addVec (fun b => (stats b).foldl addVec (List.replicate n 0)) (fun s => s.length = n) := by
  have hz : (List.replicate n 0).length = n := List.length_replicate ..
  exact ⟨hz, fun b => (foldl_addVec _ (h b) hz).1, fun _ _ => addVec_length, addVec_comm, addVec_assoc,
    fun _ => addVec_zero, fun s b hs => (foldl_addVec _ (h b) hs).2, fun _ _ _ _ => rfl⟩

private theorem sum_after (us : List (Rat × Rat)) : sum.after us = (us.map fun u => u.1 * u.2).sum := by
  have key : ∀ (us : List (Rat × Rat)) (s : Rat), us.foldl sum.update s = s + (us.map fun u => u.1 * u.2).sum := by
    intro us
    induction us with
    | nil => intro s; simp
    | cons u us ih => intro s; rw [List.foldl_cons, ih]; show s + u.1 * u.2 + _ = _; simp [add_assoc]
  exact (key us 0).trans (zero_add _)

private theorem mean_after (us : List (Rat × Rat)) :
    mean.after us = ((us.map fun u => u.1 * u.2).sum, (us.map fun u => u.2).sum) := by
  have key : ∀ (us : List (Rat × Rat)) (s : Rat × Rat), us.foldl mean.update s =
      (s.1 + (us.map fun u => u.1 * u.2).sum, s.2 + (us.map fun u => u.2).sum) := by
    intro us
    induction us with
    | nil => intro s; simp
    | cons u us ih => intro s; rw [List.foldl_cons, ih]; simp [mean, add_assoc]
  exact (key us (0, 0)).trans (by simp)

private theorem max_after (us : List Rat) : maximum.after us = us.max? := by
  have key : ∀ (us : List Rat) (s : Rat), us.foldl maximum.update (some s) = some (us.foldl max s) := by
    intro us
    induction us with
    | nil => intro s; rfl
    | cons u us ih => intro s; exact ih (max s u)
  cases us with
  | nil => rfl
  | cons u us => exact key us u

/-! ### C90 -/

/-- `Sum` gives the sum over all ranks of values times weights. -/
theorem C90_sum (us : List (Rat × Rat)) (rest : List (List (Rat × Rat))) :
    reported sum us rest = ((us ++ rest.flatten).map fun u => u.1 * u.2).sum := by
  rw [sum_adds.synced]; exact sum_after _

/-- `Mean` gives the weighted mean over all ranks, not the mean of the means of the ranks. -/
theorem C90_mean (us : List (Rat × Rat)) (rest : List (List (Rat × Rat))) :
    reported mean us rest =
      ((us ++ rest.flatten).map fun u => u.1 * u.2).sum / ((us ++ rest.flatten).map fun u => u.2).sum := by
  rw [mean_adds.synced, mean_after]
  show (if _ = (0 : Rat) then (0 : Rat) else _) = _
  split
  · next h => rw [show ((us ++ rest.flatten).map fun u => u.1 * u.2).sum = 0 from h]; simp
  · rfl

/-- `Max` gives the largest value of all ranks; there is none if no rank made an update. -/
theorem C90_max (us : List Rat) (rest : List (List Rat)) :
    reported maximum us rest = (us ++ rest.flatten).max? := by
  rw [max_adds.synced]; exact max_after _

/-- The throughput is the number of items of all ranks in the time of the slowest rank. -/
theorem C90_throughput (us : List (Nat × Rat)) (rest : List (List (Nat × Rat))) :
    ∃ time : Rat, (∃ r ∈ us :: rest, time = (r.map (·.2)).sum) ∧ (∀ r ∈ us :: rest, (r.map (·.2)).sum ≤ time) ∧
      reported throughput us rest = (((us ++ rest.flatten).map (·.1)).sum : Nat) / time := by
  have after : ∀ us : List (Nat × Rat), throughput.after us = ((us.map (·.1)).sum, (us.map (·.2)).sum) := by
    have key : ∀ (us : List (Nat × Rat)) (s : Nat × Rat), us.foldl throughput.update s =
        (s.1 + (us.map (·.1)).sum, s.2 + (us.map (·.2)).sum) := by
      intro us
      induction us with
      | nil => intro s; simp
      | cons u us ih => intro s; rw [List.foldl_cons, ih]; simp [throughput, add_assoc]
    intro us
    exact (key us (0, 0)).trans (by simp)
  have merge : ∀ (rest : List (List (Nat × Rat))) (k : Nat) (x : Rat),
      ∃ time : Rat, (time = x ∨ ∃ r ∈ rest, time = (r.map (·.2)).sum) ∧ x ≤ time ∧ (∀ r ∈ rest, (r.map (·.2)).sum ≤ time) ∧
        throughput.merge (k, x) (rest.map throughput.after) = (k + (rest.flatten.map (·.1)).sum, time) := by
    intro rest
    induction rest with
    | nil => intro k x; exact ⟨x, .inl rfl, le_refl _, by simp, by simp [throughput]⟩
    | cons r rest ih =>
      intro k x
      obtain ⟨time, h1, h2, h3, h4⟩ := ih (k + (r.map (·.1)).sum) (max x (r.map (·.2)).sum)
      refine ⟨time, ?_, le_trans (le_max_left _ _) h2, ?_, ?_⟩
      · rcases h1 with h1 | ⟨r', hr', h1⟩
        · rcases max_choice x (r.map (·.2)).sum with hm | hm
          · exact .inl (h1.trans hm)
          · exact .inr ⟨r, by simp, h1.trans hm⟩
        · exact .inr ⟨r', by simp [hr'], h1⟩
      · intro r' hr'
        rcases List.mem_cons.1 hr' with h | h
        · subst h; exact le_trans (le_max_right _ _) h2
        · exact h3 r' h
      · have he : throughput.merge (k, x) ((r :: rest).map throughput.after) =
            throughput.merge (k + (r.map (·.1)).sum, max x (r.map (·.2)).sum) (rest.map throughput.after) := by
          rw [List.map_cons, after r]; rfl
        rw [he, h4]; simp [Nat.add_assoc]
  obtain ⟨time, h1, h2, h3, h4⟩ := merge rest (us.map (·.1)).sum (us.map (·.2)).sum
  refine ⟨time, ?_, ?_, ?_⟩
  · rcases h1 with h1 | ⟨r, hr, h1⟩
    · exact ⟨us, by simp, h1⟩
    · exact ⟨r, by simp [hr], h1⟩
  · intro r hr
    rcases List.mem_cons.1 hr with h | h
    · subst h; exact h2
    · exact h3 r h
  · have hm : reported throughput us rest = throughput.compute (throughput.merge (throughput.after us) (rest.map throughput.after)) := by
      unfold reported Metric.synced
      cases rest with
      | nil => rfl
      | cons r rest => rw [if_neg (by simp)]
    rw [hm, after us, h4]
    show (if time = 0 then (0 : Rat) else _) = _
    split
    · next h => rw [h]; simp
    · simp

/-- Error rates are the number of errors over all sentences of all ranks in percent of the length of all references, in units
and in words. -/
theorem C90_wer {W A : Type} (dW : List W → List W → Nat) (dA : List A → List A → Nat)
    (us : List (List (Pair W A))) (rest : List (List (List (Pair W A)))) (ps : List (Pair W A))
    (hps : ps = (us ++ rest.flatten).flatten)
    (hu : ∃ p ∈ ps, p.refUnits ≠ []) (hw : ∃ p ∈ ps, p.refWords ≠ []) :
    reported (wer dW dA) us rest =
      ((((ps.map fun p => dA p.hypUnits p.refUnits).sum : Nat) : Rat) * 100 / ((ps.map fun p => p.refUnits.length).sum : Nat),
       (((ps.map fun p => dW p.hypWords p.refWords).sum : Nat) : Rat) * 100 / ((ps.map fun p => p.refWords.length).sum : Nat)) := by
  rw [(wer_adds dW dA).synced, Metric.after, wer_foldl, ← hps]
  rw [wer_part]
  have pos : ∀ f : Pair W A → Nat, (∃ p ∈ ps, f p ≠ 0) → (ps.map f).sum ≠ 0 := by
    rintro f ⟨p, hp, hf⟩ h0
    exact hf (List.sum_eq_zero_iff_forall_eq_nat.1 h0 _ (List.mem_map.2 ⟨p, hp, rfl⟩))
  have h1 := pos (fun p => p.refUnits.length) (by obtain ⟨p, hp, h⟩ := hu; exact ⟨p, hp, by simpa using h⟩)
  have h2 := pos (fun p => p.refWords.length) (by obtain ⟨p, hp, h⟩ := hw; exact ⟨p, hp, by simpa using h⟩)
  exact (if_pos ⟨by simpa [wer] using h1, by simpa [wer] using h2⟩).trans (by simp [wer])

/-- Both rates are -1 if the references have no words or no units, however many errors there are. -/
theorem C90_wer_empty {W A : Type} (dW : List W → List W → Nat) (dA : List A → List A → Nat)
    (us : List (List (Pair W A))) (rest : List (List (List (Pair W A)))) (ps : List (Pair W A))
    (hps : ps = (us ++ rest.flatten).flatten)
    (h : (∀ p ∈ ps, p.refUnits = []) ∨ ∀ p ∈ ps, p.refWords = []) : reported (wer dW dA) us rest = (-1, -1) := by
  rw [(wer_adds dW dA).synced, Metric.after, wer_foldl, ← hps, wer_part]
  have zero : ∀ f : Pair W A → Nat, (∀ p ∈ ps, f p = 0) → (ps.map f).sum = 0 := by
    intro f hf
    rw [List.sum_eq_zero_iff_forall_eq_nat]
    intro x hx
    obtain ⟨p, hp, rfl⟩ := List.mem_map.1 hx
    exact hf p hp
  refine if_neg ?_
  rintro ⟨h1, h2⟩
  rcases h with h | h
  · exact h1 (by have := zero (fun p => p.refUnits.length) fun p hp => by rw [h p hp]; rfl
                 simp [wer, this])
  · exact h2 (by have := zero (fun p => p.refWords.length) fun p hp => by rw [h p hp]; rfl
                 simp [wer, this])

/-- `Sum`, `Mean`, `Max`, error rates, BLEU and chrF++ do not depend on how the batches are spread over the ranks, nor on
their order. -/
theorem C90_spread {W A B Z : Type} (dW : List W → List W → Nat) (dA : List A → List A → Nat) (n : Nat)
    (stats : B → List (List Nat)) (score : List Nat → Z) (h : ∀ b, ∀ x ∈ stats b, x.length = n) :
    Spreads sum ∧ Spreads mean ∧ Spreads maximum ∧ Spreads (wer dW dA) ∧ Spreads (counts n stats score) :=
  ⟨sum_adds.spreads, mean_adds.spreads, max_adds.spreads, (wer_adds dW dA).spreads, (counts_adds score h).spreads⟩

/-- Throughput does: it is another one if one process does all the work. -/
example : ¬ Spreads throughput := by
  intro h
  have := h [(1, 1)] [[(1, 1)]] [(1, 1), (1, 1)] (List.Perm.refl _)
  revert this
  decide +kernel

/-- With the number of targets of every batch at hand, the reported loss is the loss per target over all ranks. -/
theorem C90_nll_partial (us : List (Rat × Nat)) (rest : List (List (Rat × Nat))) (hn : ∀ r ∈ us :: rest, ∀ b ∈ r, 0 < b.2) :
    reported mean (us.map fun b => nllUpdate b.1 (some b.2)) (rest.map fun r => r.map fun b => nllUpdate b.1 (some b.2)) =
      ((us ++ rest.flatten).map (·.1)).sum / (((us ++ rest.flatten).map (·.2)).sum : Nat) := by
  have hall : ∀ b ∈ us ++ rest.flatten, 0 < b.2 := by
    intro b hb
    rcases List.mem_append.1 hb with h | h
    · exact hn us (by simp) b h
    · obtain ⟨r, hr, hb⟩ := List.mem_flatten.1 h
      exact hn r (by simp [hr]) b hb
  have hl : (us.map fun b => nllUpdate b.1 (some b.2)) ++ (rest.map fun r => r.map fun b => nllUpdate b.1 (some b.2)).flatten =
      (us ++ rest.flatten).map fun b => nllUpdate b.1 (some b.2) := by
    rw [List.map_append, List.map_flatten]
  rw [C90_mean, hl]
  generalize us ++ rest.flatten = l at hall
  have key : ∀ l : List (Rat × Nat), (∀ b ∈ l, 0 < b.2) →
      ((l.map fun b => nllUpdate b.1 (some b.2)).map fun u => u.1 * u.2).sum = (l.map (·.1)).sum ∧
      ((l.map fun b => nllUpdate b.1 (some b.2)).map fun u => u.2).sum = ((l.map (·.2)).sum : Nat) := by
    intro l
    induction l with
    | nil => intro _; simp
    | cons b l ih =>
      intro hb
      obtain ⟨h1, h2⟩ := ih fun x hx => hb x (by simp [hx])
      obtain ⟨x, n⟩ := b
      cases n with
      | zero => exact absurd (hb (x, 0) (by simp)) (by simp)
      | succ n =>
        have hx : nllUpdate x (some (n + 1)) = (x / ((n + 1 : Nat) : Rat), ((n + 1 : Nat) : Rat)) := rfl
        have hn0 : ((n + 1 : Nat) : Rat) ≠ 0 := by exact_mod_cast Nat.succ_ne_zero n
        simp only [List.map_cons, List.sum_cons, h1, h2, hx, div_mul_cancel₀ _ hn0, true_and]
        push_cast
        ring
  rw [(key l hall).1, (key l hall).2]

/-- Without numbers of targets, the reported loss is the mean of the losses of the batches. -/
theorem C90_nll_mean (us : List Rat) (rest : List (List Rat)) :
    reported mean (us.map fun x => nllUpdate x none) (rest.map fun r => r.map fun x => nllUpdate x none) =
      (us ++ rest.flatten).sum / ((us ++ rest.flatten).length : Nat) := by
  have hl : (us.map fun x => nllUpdate x none) ++ (rest.map fun r => r.map fun x => nllUpdate x none).flatten =
      (us ++ rest.flatten).map fun x => nllUpdate x none := by
    rw [List.map_append, List.map_flatten]
  rw [C90_mean, hl]
  generalize us ++ rest.flatten = l
  have key : ((l.map fun x => nllUpdate x none).map fun u => u.1 * u.2).sum = l.sum ∧
      ((l.map fun x => nllUpdate x none).map fun u => u.2).sum = (l.length : Rat) := by
    induction l with
    | nil => simp
    | cons x l ih =>
      have hx : nllUpdate x none = (x / ((1 : Nat) : Rat), ((1 : Nat) : Rat)) := rfl
      simp only [List.map_cons, List.sum_cons, ih.1, ih.2, hx, List.length_cons]
      constructor
      · simp
      · push_cast; ring
  rw [key.1, key.2]

/-- A batch without targets counts as one with a single target: here the loss of 10 targets is 20 in all, but what is
reported is not 2. -/
theorem C90_nll_negation : ∃ us : List (Rat × Nat),
    reported mean (us.map fun b => nllUpdate b.1 (some b.2)) [] ≠ (us.map (·.1)).sum / ((us.map (·.2)).sum : Nat) ∧
    ∃ b ∈ us, b = (0, 0) :=
  ⟨[(20, 10), (0, 0)], by decide +kernel, by decide +kernel⟩

/-- Derived values: with the elements and the padding of all ranks, the padding ratio is the share of the padding in all
cells; and batch sizes are averages over the steps, rounded down. -/
theorem C90_derived (v : Values) (numBatches : Nat) (time : Rat) :
    (∀ n p, v.numElements = some n → v.padding = some p → 0 < n →
      ∃ x, (derive v numBatches time).paddingRatio = some x ∧ 0 ≤ x ∧ x < 1 ∧ x * (n + p) = p) ∧
    (∀ n, v.numExamples = some n → 0 < numBatches →
      ∃ k, (derive v numBatches time).batchSize = some k ∧ k * numBatches ≤ n ∧ n < (k + 1) * numBatches) ∧
    (∀ n, v.numElements = some n → 0 < numBatches →
      ∃ k, (derive v numBatches time).elementsPerBatch = some k ∧ k * numBatches ≤ n ∧ n < (k + 1) * numBatches) ∧
    (∀ n, v.numElements = some n → 0 < time →
      ∃ x, (derive v numBatches time).elementsPerSecond = some x ∧ x * time = n) ∧
    (numBatches = 0 → ∀ k, ((derive v numBatches time).batchSize = some k ∨
      (derive v numBatches time).elementsPerBatch = some k) → k = 0) := by
  have hdiv : ∀ n, 0 < numBatches → n / numBatches * numBatches ≤ n ∧ n < (n / numBatches + 1) * numBatches := by
    intro n h
    exact ⟨Nat.div_mul_le_self n numBatches, by rw [Nat.mul_comm]; exact Nat.lt_mul_div_succ n h⟩
  refine ⟨?_, ?_, ?_, ?_, ?_⟩
  · intro n p hn hp h0
    refine ⟨(p : Rat) / ((n + p : Nat) : Rat), by simp [derive, hn, hp, h0], ?_, ?_, ?_⟩
    · exact div_nonneg (Nat.cast_nonneg _) (Nat.cast_nonneg _)
    · rw [Rat.div_lt_iff (by exact_mod_cast (by omega : 0 < n + p)), one_mul]
      exact_mod_cast (by omega : p < n + p)
    · have : ((n + p : Nat) : Rat) ≠ 0 := by exact_mod_cast (by omega : n + p ≠ 0)
      rw [show ((n : Rat) + p) = ((n + p : Nat) : Rat) by push_cast; rfl, div_mul_cancel₀ _ this]
  · intro n hn h0
    exact ⟨n / numBatches, by simp [derive, hn, h0], hdiv n h0⟩
  · intro n hn h0
    exact ⟨n / numBatches, by simp [derive, hn, h0], hdiv n h0⟩
  · intro n hn h0
    exact ⟨(n : Rat) / time, by simp [derive, hn, h0], div_mul_cancel₀ _ (ne_of_gt h0)⟩
  · intro h0 k hk
    subst h0
    cases h1 : v.numExamples <;> cases h2 : v.numElements <;> simp_all [derive] <;> omega

/-- A case: two ranks, with three batches. -/
example : reported mean [nllUpdate 6 (some 3)] [[nllUpdate 4 (some 1), nllUpdate 5 (some 1)]] = 3 := by decide +kernel

example : ∃ ps : List (Pair Nat Nat), (∃ p ∈ ps, p.refUnits ≠ []) ∧ ∃ p ∈ ps, p.refWords ≠ [] :=
  ⟨[⟨[1], [], [1, 2], [1]⟩], by simp, by simp⟩

example : (derive ⟨some 7, some 30, some 10⟩ 2 4).batchSize = some 3 ∧ (derive ⟨some 7, some 30, some 10⟩ 2 4).paddingRatio = some (1 / 4) := by
  decide +kernel

end Fs2.Props
