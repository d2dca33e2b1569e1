import Verif.Eval.Model
import Mathlib.Algebra.Order.Ring.Rat
import Mathlib.Algebra.BigOperators.Group.List.Basic

/-!
Property C92: validation and evaluation.
-/

namespace Fs2.Props

open Fs2.Eval

variable {D B M : Type}

/-! ### Specification -/

/-- From one state a reader returns the batches of some steps and then ends in another state. -/
inductive ReadsAll (rd : Reader D B) : D → List (List B) → D → Prop where
  | nil {d} : rd.next d = none → ReadsAll rd d [] d
  | cons {d bs d' gs e} : rd.next d = some (bs, d') → ReadsAll rd d' gs e → ReadsAll rd d (bs :: gs) e

/-- What a unit makes of the batches of all ranks: all of them, each once and in order, with a bag of its own. -/
def evaluated (u : EUnit B M) (n : Nat) (batches : Nat → List B) : Dict :=
  u.post ((u.values ((List.range (n + 1)).map fun k => u.finalize ((batches k).foldl u.process u.prepare))).filter
    fun e => !e.1.startsWith "total_")

/-- What a unit scores: the value of the metric, with the sign that makes more better. -/
inductive Scores (d : Descriptor) (values : Dict) : Option (Option Rat) → Prop where
  | absent : values.lookup d.name = none → Scores d values none
  | nan : values.lookup d.name = some (.num none) → Scores d values (some none)
  | more {x} : d.higherBetter = true → values.lookup d.name = some (.num (some x)) → Scores d values (some (some x))
  | less {x} : d.higherBetter = false → values.lookup d.name = some (.num (some x)) → Scores d values (some (some (-x)))

/-- The readers of all units: `data i k` are the steps that unit `i` reads on rank `k`, `ends` are the states of the
readers in the end. -/
def Supplied (rd : Reader D B) (n : Nat) (readers : List (Nat → D)) (data : Nat → Nat → List (List B))
    (ends : Nat → Nat → D) : Prop :=
  ∀ i ds, readers[i]? = some ds → ∀ k, k ≤ n → ReadsAll rd (ds k) (data i k) (ends i k)

/-- The records of all units. -/
def allRecords (category : Option String → String) (n : Nat) (units : List (EUnit B M)) (data : Nat → Nat → List (List B))
    (stepNr : Option Nat) : List Record :=
  units.mapIdx fun i u => ⟨category u.name, evaluated u n fun k => (data i k).flatten, stepNr⟩

/-- Runs of a validator, each followed by a reset: what was saved when it was run, its step, and its score. -/
inductive Session (rd : Reader D B) (n : Nat) (d : Descriptor) (units : List (EUnit B M)) :
    Validator D → List (List (Rat × Nat) × Nat × Option Rat) → Validator D → Prop where
  | nil (v) : Session rd n d units v [] v
  | snoc {v rs v' saved stepNr records r v''} : Session rd n d units v rs v' →
      run rd n (some d) units saved stepNr v' = some (records, .ok (r, v'')) →
      ∀ score, r.rank0 = some score → Session rd n d units v (rs ++ [(saved, stepNr, score)]) (v''.reset rd)

/-- The pair is the first one with the largest score of a list, or the list is empty. -/
def Leading (known : List (Rat × Nat)) (bestScore : Option Rat) (bestStep : Int) : Prop :=
  match bestScore with
  | none => known = []
  | some best => (∀ e ∈ known, e.1 ≤ best) ∧
      ∃ l e l', known = l ++ e :: l' ∧ e.1 = best ∧ bestStep = (e.2 : Int) ∧ ∀ x ∈ l, x.1 < best

/-! ### Lemmas -/

private theorem runStep_eq (u : EUnit B M) (bs : List B) (m : M) : runStep u bs m = bs.foldl u.process m := by
  unfold runStep
  rw [List.foldr_reverse]

private theorem drain_reads {rd : Reader D B} (u : EUnit B M) {d : D} {gs : List (List B)} {e : D} (h : ReadsAll rd d gs e) (m : M) :
    drain rd u none d m = some (.ok (rd.reset e, gs.flatten.foldl u.process m)) := by
  induction h generalizing m with
  | nil h => rw [drain.eq_def]; simp [h]
  | cons h _ ih =>
    rw [drain.eq_def]
    simp only [reduceCtorEq, if_false, h, Option.map_none]
    rw [ih, runStep_eq, List.flatten_cons, List.foldl_append]

private theorem drain_stop {rd : Reader D B} (u : EUnit B M) {d : D} {gs : List (List B)} {e : D} (h : ReadsAll rd d gs e) (m : M)
    (s : Nat) : drain rd u (some s) d m =
      if s ≤ gs.length then some (.error .stopped) else some (.ok (rd.reset e, gs.flatten.foldl u.process m)) := by
  induction h generalizing m s with
  | nil h =>
    rw [drain.eq_def]
    cases s with
    | zero => simp
    | succ s => simp [h]
  | cons h _ ih =>
    rw [drain.eq_def]
    cases s with
    | zero => simp
    | succ s =>
      simp only [Option.some.injEq, Nat.succ_ne_zero, if_false, h, Option.map_some, Nat.add_sub_cancel, ih, List.length_cons,
        Nat.add_le_add_iff_right, runStep_eq, List.flatten_cons, List.foldl_append]

private theorem mapM_option {α β : Type} (f : α → Option β) (g : α → β) (l : List α) (h : ∀ x ∈ l, f x = some (g x)) :
    l.mapM f = some (l.map g) := by
  induction l with
  | nil => rfl
  | cons x l ih =>
    rw [List.mapM_cons, h x (by simp), ih fun y hy => h y (by simp [hy])]
    rfl

private theorem gather_ok {α : Type} (l : List α) : gather (l.map .ok) = .ok l := by
  induction l with
  | nil => rfl
  | cons x l ih => rw [List.map_cons, gather, ih]

private theorem runUnit_reads {rd : Reader D B} (n : Nat) (u : EUnit B M) (stopAt : Option Nat) (ds : Nat → D)
    (data : Nat → List (List B)) (ends : Nat → D) (h : ∀ k, k ≤ n → ReadsAll rd (ds k) (data k) (ends k))
    (hs : ∀ s, stopAt = some s → ∀ k, k ≤ n → (data k).length < s) :
    runUnit rd n u stopAt ds = some (.ok (fun k => if k ≤ n then rd.reset (ends k) else ds k,
      evaluated u n fun k => (data k).flatten)) := by
  unfold runUnit
  rw [mapM_option _ (fun k => (.ok (rd.reset (ends k), (data k).flatten.foldl u.process u.prepare) : Except Exc (D × M)))]
  · rw [Option.map_some, show (List.range (n + 1)).map (fun k =>
        (.ok (rd.reset (ends k), (data k).flatten.foldl u.process u.prepare) : Except Exc (D × M))) =
      ((List.range (n + 1)).map fun k => (rd.reset (ends k), (data k).flatten.foldl u.process u.prepare)).map .ok by
        rw [List.map_map]; rfl, gather_ok]
    simp only [Option.some.injEq, Except.ok.injEq, Prod.mk.injEq]
    constructor
    · funext k
      by_cases hk : k ≤ n
      · rw [List.getElem?_map, List.getElem?_range (by omega), if_pos hk]; rfl
      · rw [List.getElem?_eq_none (by simp; omega), if_neg hk]; rfl
    · unfold evaluated noTotals
      rw [List.map_map]
      rfl
  · intro k hk
    have hk : k ≤ n := by have := List.mem_range.1 hk; omega
    cases stopAt with
    | none => exact drain_reads u (h k hk) u.prepare
    | some s => rw [drain_stop u (h k hk), if_neg (by have := hs s rfl k hk; omega)]

private theorem mem_zip_get {α β : Type} {l : List α} {l' : List β} {i : Nat} {x : α} {y : β} (h : l[i]? = some x)
    (h' : l'[i]? = some y) : (l.zip l')[i]? = some (x, y) := by
  rw [List.getElem?_zip_eq_some]; exact ⟨h, h'⟩

/-- What the loop over the units does if all scores are fine. -/
private theorem runUnits_ok {rd : Reader D B} (n : Nat) (category : Option String → String) (stepNr : Option Nat)
    (score : Dict → Except Exc (Option (Option Rat))) (units : List (EUnit B M)) (stops : Nat → Option Nat)
    (readers : List (Nat → D)) (hlen : units.length = readers.length)
    (data : Nat → Nat → List (List B)) (ends : Nat → Nat → D) (hd : Supplied rd n readers data ends)
    (hs : ∀ i s, stops i = some s → ∀ k, k ≤ n → (data i k).length < s)
    (sc : Nat → Option (Option Rat))
    (hsc : ∀ i u, units[i]? = some u → score (evaluated u n fun k => (data i k).flatten) = .ok (sc i)) :
    runUnits rd n category stepNr score ((units.zip readers).mapIdx fun i x => (x.1, stops i, x.2)) =
      some (allRecords category n units data stepNr,
        .ok (readers.mapIdx fun i ds k => if k ≤ n then rd.reset (ends i k) else ds k,
          (List.range units.length).flatMap fun i => (sc i).toList)) := by
  induction units generalizing readers data ends stops sc with
  | nil =>
    cases readers with
    | nil => rfl
    | cons _ _ => simp at hlen
  | cons u units ih =>
    cases readers with
    | nil => simp at hlen
    | cons ds readers =>
      have h1 := runUnit_reads n u (stops 0) ds (data 0) (ends 0) (hd 0 ds rfl) (hs 0)
      have h2 := ih (fun i => stops (i + 1)) readers (by simpa using hlen) (fun i => data (i + 1)) (fun i => ends (i + 1))
        (fun i ds h => hd (i + 1) ds h) (fun i => hs (i + 1)) (fun i => sc (i + 1)) (fun i u h => hsc (i + 1) u h)
      rw [List.zip_cons_cons, List.mapIdx_cons, runUnits]
      simp only [h1, hsc 0 u rfl, h2]
      simp only [allRecords, List.mapIdx_cons, List.length_cons, List.range_succ_eq_map, List.flatMap_cons, List.flatMap_map]

private theorem zip_stops (units : List (EUnit B M)) (readers : List (Nat → D)) :
    ((units.zip readers).map fun x => (x.1, (none : Option Nat), x.2)) =
      (units.zip readers).mapIdx fun i x => (x.1, (fun _ => none : Nat → Option Nat) i, x.2) := by
  rw [List.mapIdx_eq_zipIdx_map]
  apply List.ext_getElem <;> simp

private theorem scores_ok {d : Descriptor} {values : Dict} {s : Option (Option Rat)} (h : Scores d values s) :
    unitScore (some d) values = .ok s := by
  cases h with
  | absent h => simp [unitScore, h]
  | nan h => simp [unitScore, h]
  | more hb h => simp [unitScore, h, hb]
  | less hb h => simp [unitScore, h, hb]

private theorem restore_readers (desc : Option Descriptor) (saved : List (Rat × Nat)) (v : Validator D) :
    (restoreBest desc saved v).readers = v.readers := by
  unfold restoreBest
  split
  · rfl
  · split
    · rfl
    · split <;> rfl

/-- The sum of scores. -/
private theorem foldl_addScore (l : List (Option Rat)) (a : Rat) :
    l.foldl addScore (some a) = if none ∈ l then none else some (a + (l.filterMap id).sum) := by
  have hnone : ∀ l : List (Option Rat), l.foldl addScore none = none := by
    intro l; induction l with
    | nil => rfl
    | cons x l ih => exact ih
  induction l generalizing a with
  | nil => simp
  | cons x l ih =>
    cases x with
    | none => rw [List.foldl_cons]; simp [addScore, hnone]
    | some x =>
      rw [List.foldl_cons, show addScore (some a) (some x) = some (a + x) from rfl, ih]
      simp [add_assoc]


private theorem flags (desc : Option Descriptor) (saved : List (Rat × Nat)) (v : Validator D) :
    (restoreBest desc saved { v with hasRun := true }).hasRun = true := by
  unfold restoreBest
  split
  · rfl
  · split
    · rfl
    · split <;> rfl

/-- A run on readers that end, with scores that are fine. -/
private theorem run_reads {rd : Reader D B} (n : Nat) (desc : Option Descriptor) (units : List (EUnit B M)) (saved : List (Rat × Nat))
    (stepNr : Nat) (v : Validator D) (hr : v.hasRun = false) (hlen : units.length = v.readers.length)
    (data : Nat → Nat → List (List B)) (ends : Nat → Nat → D) (hd : Supplied rd n v.readers data ends)
    (sc : Nat → Option (Option Rat))
    (hsc : ∀ i u, units[i]? = some u → unitScore desc (evaluated u n fun k => (data i k).flatten) = .ok (sc i)) :
    ∃ w : Validator D, w.hasRun = true ∧
      w.readers = (v.readers.mapIdx fun i ds k => if k ≤ n then rd.reset (ends i k) else ds k) ∧
      run rd n desc units saved stepNr v =
        if desc.isNone then
          some (allRecords (fun name => match name with | none => "valid" | some s => "valid/" ++ s) n units data (some stepNr),
            .ok (⟨none, none⟩, w))
        else match scoreRun stepNr ((List.range units.length).flatMap fun i => (sc i).toList) w with
          | .error e =>
            some (allRecords (fun name => match name with | none => "valid" | some s => "valid/" ++ s) n units data (some stepNr),
              .error e)
          | .ok (score, v) =>
            some (allRecords (fun name => match name with | none => "valid" | some s => "valid/" ++ s) n units data (some stepNr),
              .ok (⟨some score, some (some 0)⟩, v)) := by
  have hrun := runUnits_ok n validCategory (some stepNr) (unitScore desc) units (fun _ => none) v.readers hlen data ends hd
    (by simp) sc hsc
  have hrec : allRecords validCategory n units data (some stepNr) =
      allRecords (fun name => match name with | none => "valid" | some s => "valid/" ++ s) n units data (some stepNr) := by
    unfold allRecords
    congr 1
  refine ⟨{ restoreBest desc saved { v with hasRun := true } with
    readers := v.readers.mapIdx fun i ds k => if k ≤ n then rd.reset (ends i k) else ds k }, flags desc saved v, rfl, ?_⟩
  unfold run
  rw [hr]
  simp only [Bool.false_eq_true, if_false, restore_readers]
  rw [zip_stops, hrun, hrec]
  rfl

private theorem readers_reset {rd : Reader D B} {n : Nat} {readers : List (Nat → D)} {ends : Nat → Nat → D} {w : Validator D}
    (hw : w.readers = readers.mapIdx fun i ds k => if k ≤ n then rd.reset (ends i k) else ds k) :
    ∀ i ds, w.readers[i]? = some ds → ∀ k, k ≤ n → ds k = rd.reset (ends i k) := by
  intro i ds h k hk
  rw [hw] at h
  simp only [List.getElem?_mapIdx, Option.map_eq_some_iff] at h
  obtain ⟨ds', _, rfl⟩ := h
  exact if_pos hk

private theorem scoreRun_ok (stepNr : Nat) {scores : List (Option Rat)} (h : scores ≠ []) (w : Validator D) :
    scoreRun stepNr scores w = .ok (scores.foldl addScore (some 0),
      if better (scores.foldl addScore (some 0)) w.bestScore then
        { w with bestScore := scores.foldl addScore (some 0), bestStep := stepNr } else w) := by
  cases scores with
  | nil => exact absurd rfl h
  | cons s ss => rfl

private theorem scores_sum (units : List (EUnit B M)) (sc : Nat → Option (Option Rat)) (hany : ∃ i, i < units.length ∧ (sc i).isSome)
    (hnum : ∀ i, i < units.length → sc i ≠ some none) :
    ((List.range units.length).flatMap fun i => (sc i).toList) ≠ [] ∧
    ((List.range units.length).flatMap fun i => (sc i).toList).foldl addScore (some 0) =
      some ((List.range units.length).map fun i => ((sc i).bind id).getD 0).sum := by
  constructor
  · obtain ⟨i, hi, hs⟩ := hany
    intro h
    have := List.flatMap_eq_nil_iff.1 h i (List.mem_range.2 hi)
    cases hc : sc i with
    | none => rw [hc] at hs; simp at hs
    | some x => rw [hc] at this; simp at this
  · rw [foldl_addScore, if_neg]
    · rw [zero_add]
      congr 1
      have : ∀ l : List Nat, (∀ i ∈ l, sc i ≠ some none) →
          ((l.flatMap fun i => (sc i).toList).filterMap id).sum = (l.map fun i => ((sc i).bind id).getD 0).sum := by
        intro l hl
        induction l with
        | nil => rfl
        | cons i l ih =>
          rw [List.flatMap_cons, List.filterMap_append, List.sum_append, ih fun j hj => hl j (by simp [hj]), List.map_cons,
            List.sum_cons]
          congr 1
          have := hl i (by simp)
          cases hc : sc i with
          | none => simp
          | some x => cases x with
            | none => exact absurd hc this
            | some x => simp
      exact this _ fun i hi => hnum i (List.mem_range.1 hi)
    · intro h
      obtain ⟨i, hi, hx⟩ := List.mem_flatMap.1 h
      refine hnum i (List.mem_range.1 hi) ?_
      cases hc : sc i with
      | none => rw [hc] at hx; simp at hx
      | some x => rw [hc] at hx; simp at hx; rw [← hx]

/-- What a run that returns a score does to the best score. -/
private theorem run_best {rd : Reader D B} {n : Nat} {desc : Option Descriptor} {units : List (EUnit B M)} {saved : List (Rat × Nat)}
    {stepNr : Nat} {v : Validator D} {records : List Record} {r : Returned} {v' : Validator D} {score : Option Rat}
    (h : run rd n desc units saved stepNr v = some (records, .ok (r, v'))) (hs : r.rank0 = some score) :
    desc.isSome ∧ (v'.bestScore, v'.bestStep) =
      if better score (restoreBest desc saved { v with hasRun := true }).bestScore then (score, (stepNr : Int))
      else ((restoreBest desc saved { v with hasRun := true }).bestScore,
        (restoreBest desc saved { v with hasRun := true }).bestStep) := by
  unfold run at h
  split at h
  · simp at h
  · dsimp only at h
    split at h
    · simp at h
    · simp at h
    · next recs readers scores _ =>
      split at h
      · simp only [Option.some.injEq, Prod.mk.injEq, Except.ok.injEq] at h
        obtain ⟨_, rfl, _⟩ := h
        simp at hs
      · next hdesc =>
        split at h
        · simp at h
        · next sc w hsr =>
          simp only [Option.some.injEq, Prod.mk.injEq, Except.ok.injEq] at h
          obtain ⟨_, rfl, rfl⟩ := h
          simp only [Option.some.injEq] at hs
          subst hs
          refine ⟨by cases desc <;> simp_all, ?_⟩
          cases scores with
          | nil => simp [scoreRun] at hsr
          | cons s ss =>
            simp only [scoreRun, Except.ok.injEq, Prod.mk.injEq] at hsr
            obtain ⟨rfl, rfl⟩ := hsr
            split <;> rfl

/-- If the loop over the units raises nothing, all scores are fine. -/
private theorem runUnits_inv {rd : Reader D B} (n : Nat) (category : Option String → String) (stepNr : Option Nat)
    (score : Dict → Except Exc (Option (Option Rat))) (units : List (EUnit B M))
    (readers : List (Nat → D)) (hlen : units.length = readers.length)
    (data : Nat → Nat → List (List B)) (ends : Nat → Nat → D) (hd : Supplied rd n readers data ends) (x : List Record)
    (y : List (Nat → D) × List (Option Rat))
    (h : runUnits rd n category stepNr score ((units.zip readers).map fun x => (x.1, none, x.2)) = some (x, .ok y)) :
    ∀ i u, units[i]? = some u → ∃ s, score (evaluated u n fun k => (data i k).flatten) = .ok s := by
  induction units generalizing readers data ends x y with
  | nil => intro i u h; simp at h
  | cons u units ih =>
    cases readers with
    | nil => simp at hlen
    | cons ds readers =>
      have h1 := runUnit_reads n u none ds (data 0) (ends 0) (hd 0 ds rfl) (by simp)
      rw [List.zip_cons_cons, List.map_cons, runUnits] at h
      simp only [h1] at h
      split at h
      · simp at h
      · next s hs =>
        split at h
        · simp at h
        · simp at h
        · next recs readers' scores hrest =>
          intro i u' hi
          cases i with
          | zero =>
            simp only [List.getElem?_cons_zero, Option.some.injEq] at hi
            subst hi
            exact ⟨s, hs⟩
          | succ i =>
            exact ih readers (by simpa using hlen) (fun i => data (i + 1)) (fun i => ends (i + 1))
              (fun i ds h => hd (i + 1) ds h) recs _ hrest i u' (by simpa using hi)

private theorem leading_add {known : List (Rat × Nat)} {bestScore : Option Rat} {bestStep : Int} (h : Leading known bestScore bestStep)
    (score : Option Rat) (step : Nat) :
    Leading (known ++ (score.map fun s => (s, step)).toList) (if better score bestScore then (score, (step : Int)) else (bestScore, bestStep)).1
      (if better score bestScore then (score, (step : Int)) else (bestScore, bestStep)).2 := by
  cases score with
  | none => simpa [better] using h
  | some x =>
    cases bestScore with
    | none =>
      simp only [Leading] at h
      subst h
      simp only [better, if_true, Leading]
      exact ⟨by simp, [], (x, step), [], rfl, rfl, rfl, by simp⟩
    | some y =>
      obtain ⟨h1, l, e, l', h2, h3, h4, h5⟩ := h
      by_cases hxy : x > y
      · have hb : better (some x) (some y) = true := by simp [better, hxy]
        simp only [hb, if_true]
        refine ⟨?_, known, (x, step), [], rfl, rfl, rfl, fun z hz => lt_of_le_of_lt (h1 z hz) hxy⟩
        intro z hz
        rcases List.mem_append.1 hz with hz | hz
        · exact le_of_lt (lt_of_le_of_lt (h1 z hz) hxy)
        · simp at hz; rw [hz]
      · have hb : better (some x) (some y) = false := by simp [better, not_lt.1 hxy]
        simp only [hb, Bool.false_eq_true, if_false]
        refine ⟨?_, l, e, l' ++ [(x, step)], by rw [h2]; simp, h3, h4, h5⟩
        intro z hz
        rcases List.mem_append.1 hz with hz | hz
        · exact h1 z hz
        · simp at hz; rw [hz]; exact not_lt.1 hxy

private theorem session_nil {rd : Reader D B} {n : Nat} {d : Descriptor} {units : List (EUnit B M)} {v v' : Validator D}
    {L : List (List (Rat × Nat) × Nat × Option Rat)} (h : Session rd n d units v L v') (hL : L = []) : v' = v := by
  cases h with
  | nil => rfl
  | snoc => simp at hL

private theorem session_best {rd : Reader D B} {n : Nat} {d : Descriptor} {units : List (EUnit B M)} {readers : List (Nat → D)}
    {saved : List (Rat × Nat)} (hsaved : saved.Pairwise fun a b => a.1 ≥ b.1) {step0 : Nat} {score0 : Option Rat}
    {rs : List (List (Rat × Nat) × Nat × Option Rat)} {v : Validator D}
    (h : Session rd n d units (Validator.fresh readers) ((saved, step0, score0) :: rs) v) :
    Leading (saved ++ ((step0, score0) :: rs.map (·.2)).filterMap fun r => r.2.map fun s => (s, r.1)) v.bestScore v.bestStep ∧
      v.bestStep ≥ 0 := by
  generalize hL : (saved, step0, score0) :: rs = L at h
  generalize hv : Validator.fresh readers = v0 at h
  induction h generalizing rs with
  | nil => simp at hL
  | @snoc rs0 v' sv st records r v'' hsess hrun score hscore ih =>
    obtain ⟨_, hb⟩ := run_best hrun hscore
    rw [Prod.mk.injEq] at hb
    cases rs0 with
    | nil =>
      simp only [List.nil_append, List.cons.injEq, Prod.mk.injEq] at hL
      obtain ⟨⟨rfl, rfl, rfl⟩, rfl⟩ := hL
      have hfresh := session_nil hsess rfl
      subst hfresh
      subst hv
      have hlead : Leading saved (restoreBest (some d) saved { Validator.fresh readers with hasRun := true }).bestScore
          (restoreBest (some d) saved { Validator.fresh readers with hasRun := true }).bestStep := by
        cases saved with
        | nil => rfl
        | cons e saved =>
          refine ⟨?_, [], e, saved, rfl, rfl, rfl, by simp⟩
          intro z hz
          rcases List.mem_cons.1 hz with rfl | hz
          · exact le_refl _
          · exact (List.pairwise_cons.1 hsaved).1 z hz
      have hpos : (restoreBest (some d) saved { Validator.fresh readers with hasRun := true }).bestStep ≥ 0 := by
        cases saved with
        | nil => simp [restoreBest, Validator.fresh]
        | cons e saved => simp [restoreBest, Validator.fresh]
      have := leading_add hlead score0 step0
      refine ⟨?_, ?_⟩
      · show Leading _ v''.bestScore v''.bestStep
        rw [hb.1, hb.2]
        convert this using 2
        cases score0 <;> rfl
      · show v''.bestStep ≥ 0
        rw [hb.2]
        split
        · simp
        · exact hpos
    | cons x rs0 =>
      simp only [List.cons_append, List.cons.injEq] at hL
      obtain ⟨rfl, rfl⟩ := hL
      obtain ⟨hlead, hpos⟩ := ih (rs := rs0) rfl
      have hkeep : restoreBest (some d) sv { v' with hasRun := true } = { v' with hasRun := true } := by
        unfold restoreBest
        rw [if_neg (by simp), if_pos hpos]
      rw [hkeep] at hb
      have := leading_add hlead score st
      refine ⟨?_, ?_⟩
      · show Leading _ v''.bestScore v''.bestStep
        rw [hb.1, hb.2]
        convert this using 1
        rw [List.map_append, ← List.cons_append, List.filterMap_append, List.append_assoc]
        cases score <;> rfl
      · show v''.bestStep ≥ 0
        rw [hb.2]
        split
        · simp
        · exact hpos

/-- The loop over the units is stopped in some unit. -/
private theorem runUnits_stop {rd : Reader D B} (n : Nat) (category : Option String → String)
    (units : List (EUnit B M)) (u : EUnit B M) (rest : List (EUnit B M × Option Nat × (Nat → D)))
    (readers : List (Nat → D)) (ds : Nat → D) (hlen : units.length = readers.length) (data : Nat → Nat → List (List B))
    (ends : Nat → Nat → D) (hd : Supplied rd n (readers ++ [ds]) data ends) (s : Nat)
    (hs : ∀ k, k ≤ n → s ≤ (data units.length k).length) :
    runUnits rd n category none (fun _ => .ok none) ((units.zip readers).map (fun x => (x.1, none, x.2)) ++ (u, some s, ds) :: rest) =
      some (allRecords category n units data none, .error .stopped) := by
  induction units generalizing readers data ends with
  | nil =>
    cases readers with
    | cons _ _ => simp at hlen
    | nil =>
      have h1 : runUnit rd n u (some s) ds = some (.error .stopped) := by
        unfold runUnit
        rw [mapM_option _ (fun _ => (.error .stopped : Except Exc (D × M)))]
        · rw [List.range_succ_eq_map]
          rfl
        · intro k hk
          have hk : k ≤ n := by have := List.mem_range.1 hk; omega
          rw [drain_stop u (hd 0 ds rfl k hk), if_pos (show s ≤ (data 0 k).length from hs k hk)]
      simp only [List.zip_nil_left, List.map_nil, List.nil_append]
      rw [runUnits]
      simp only [h1]
      rfl
  | cons u' units ih =>
    cases readers with
    | nil => simp at hlen
    | cons ds' readers =>
      have h1 := runUnit_reads n u' none ds' (data 0) (ends 0) (hd 0 ds' rfl) (by simp)
      have h2 := ih readers (by simpa using hlen) (fun i => data (i + 1)) (fun i => ends (i + 1))
        (fun i ds h => hd (i + 1) ds (by simpa using h)) hs
      rw [List.zip_cons_cons, List.map_cons, List.cons_append, runUnits]
      simp only [h1, h2]
      simp only [allRecords, List.mapIdx_cons]

private theorem eval_category : evalCategory =
    fun name => match name with | none => "eval" | some s => if s = "" then "eval" else "eval/" ++ s := by
  funext name
  cases name <;> rfl

/-! ### C92 -/

/-- A run without a score metric: every unit gets every batch that its reader has on any rank, once and in order, its
values over all ranks are recorded under its name and the step, and no rank returns a score. The readers are reset. -/
theorem C92_run (rd : Reader D B) (n : Nat) (units : List (EUnit B M)) (saved : List (Rat × Nat)) (stepNr : Nat) (v : Validator D)
    (hr : v.hasRun = false) (hlen : units.length = v.readers.length) (data : Nat → Nat → List (List B)) (ends : Nat → Nat → D)
    (hd : Supplied rd n v.readers data ends) :
    ∃ v', run rd n none units saved stepNr v =
        some (allRecords (fun name => match name with | none => "valid" | some s => "valid/" ++ s) n units data (some stepNr),
          .ok (⟨none, none⟩, v')) ∧
      v'.hasRun = true ∧
      ∀ i ds, v'.readers[i]? = some ds → ∀ k, k ≤ n → ds k = rd.reset (ends i k) := by
  obtain ⟨w, h1, h2, h3⟩ := run_reads n none units saved stepNr v hr hlen data ends hd (fun _ => none) (fun _ _ _ => rfl)
  exact ⟨w, by rw [h3]; rfl, h1, readers_reset h2⟩

/-- With a score metric, if its value is a number for every unit that has it, and some unit does, rank 0 returns the sum of what
these units score, and the other ranks return 0; the records are the same. -/
theorem C92_score (rd : Reader D B) (n : Nat) (d : Descriptor) (units : List (EUnit B M)) (saved : List (Rat × Nat)) (stepNr : Nat)
    (v : Validator D) (hr : v.hasRun = false) (hlen : units.length = v.readers.length) (data : Nat → Nat → List (List B))
    (ends : Nat → Nat → D) (hd : Supplied rd n v.readers data ends) (sc : Nat → Option (Option Rat))
    (hsc : ∀ i u, units[i]? = some u → Scores d (evaluated u n fun k => (data i k).flatten) (sc i))
    (hany : ∃ i, i < units.length ∧ (sc i).isSome) (hnum : ∀ i, i < units.length → sc i ≠ some none) :
    ∃ v', run rd n (some d) units saved stepNr v =
        some (allRecords (fun name => match name with | none => "valid" | some s => "valid/" ++ s) n units data (some stepNr),
          .ok (⟨some (some ((List.range units.length).map fun i => ((sc i).bind id).getD 0).sum), some (some 0)⟩, v')) ∧
      v'.hasRun = true ∧
      ∀ i ds, v'.readers[i]? = some ds → ∀ k, k ≤ n → ds k = rd.reset (ends i k) := by
  obtain ⟨w, h1, h2, h3⟩ := run_reads n (some d) units saved stepNr v hr hlen data ends hd sc fun i u h => scores_ok (hsc i u h)
  obtain ⟨hne, hsum⟩ := scores_sum units sc hany hnum
  rw [scoreRun_ok stepNr hne] at h3
  rw [hsum] at h3
  refine ⟨_, h3, ?_, readers_reset (readers := v.readers) ?_⟩
  · split <;> exact h1
  · split <;> exact h2

/-- If no unit has the score metric, all is recorded as usual and `InternalError` is raised. -/
theorem C92_no_score (rd : Reader D B) (n : Nat) (d : Descriptor) (units : List (EUnit B M)) (saved : List (Rat × Nat)) (stepNr : Nat)
    (v : Validator D) (hr : v.hasRun = false) (hlen : units.length = v.readers.length) (data : Nat → Nat → List (List B))
    (ends : Nat → Nat → D) (hd : Supplied rd n v.readers data ends)
    (hsc : ∀ i u, units[i]? = some u → (evaluated u n fun k => (data i k).flatten).lookup d.name = none) :
    run rd n (some d) units saved stepNr v =
      some (allRecords (fun name => match name with | none => "valid" | some s => "valid/" ++ s) n units data (some stepNr),
        .error .internal) := by
  obtain ⟨w, h1, h2, h3⟩ := run_reads n (some d) units saved stepNr v hr hlen data ends hd (fun _ => none)
    fun i u h => scores_ok (.absent (hsc i u h))
  rw [h3, show ((List.range units.length).flatMap fun _ => (none : Option (Option Rat)).toList) = [] by simp]
  rfl

/-- A validator that was run and not reset refuses to run and records nothing. -/
theorem C92_refused (rd : Reader D B) (n : Nat) (desc : Option Descriptor) (units : List (EUnit B M)) (saved saved' : List (Rat × Nat))
    (stepNr stepNr' : Nat) (v v' : Validator D) (records : List Record) (r : Returned)
    (h : run rd n desc units saved stepNr v = some (records, .ok (r, v'))) :
    run rd n desc units saved' stepNr' v' = some ([], .error .alreadyRun) := by
  have : v'.hasRun = true := by
    unfold run at h
    split at h
    · simp at h
    · dsimp only at h
      split at h
      · simp at h
      · simp at h
      · split at h
        · simp only [Option.some.injEq, Prod.mk.injEq, Except.ok.injEq] at h
          obtain ⟨_, _, rfl⟩ := h
          exact flags desc saved v
        · split at h
          · simp at h
          · next recs readers scores _ _ _ sc w hsr =>
            simp only [Option.some.injEq, Prod.mk.injEq, Except.ok.injEq] at h
            obtain ⟨_, _, rfl⟩ := h
            cases scores with
            | nil => simp [scoreRun] at hsr
            | cons s ss =>
              simp only [scoreRun, Except.ok.injEq, Prod.mk.injEq] at hsr
              obtain ⟨_, rfl⟩ := hsr
              split <;> exact flags desc saved v
  unfold run
  rw [if_pos this]

/-- Whenever a run returns on all ranks, either all of them get a score or none does, so that they agree on whether to take part
in the decision on an early stop; and they get one exactly if there is a score metric. -/
theorem C92_ranks (rd : Reader D B) (n : Nat) (desc : Option Descriptor) (units : List (EUnit B M)) (saved : List (Rat × Nat))
    (stepNr : Nat) (v v' : Validator D) (records : List Record) (r : Returned)
    (h : run rd n desc units saved stepNr v = some (records, .ok (r, v'))) :
    r.rank0.isSome = desc.isSome ∧ r.others.isSome = desc.isSome := by
  unfold run at h
  split at h
  · simp at h
  · dsimp only at h
    split at h
    · simp at h
    · simp at h
    · split at h
      · next hdesc =>
        simp only [Option.some.injEq, Prod.mk.injEq, Except.ok.injEq] at h
        obtain ⟨_, rfl, rfl⟩ := h
        cases desc <;> simp_all
      · next hdesc =>
        split at h
        · simp at h
        · simp only [Option.some.injEq, Prod.mk.injEq, Except.ok.injEq] at h
          obtain ⟨_, rfl, rfl⟩ := h
          cases desc <;> simp_all

/-- Readers that start over when they are reset can be used for any number of validations: after a run and a reset every reader is
where it was, so that with an unchanged model each run records the same as the first. -/
theorem C92_again (rd : Reader D B) (n : Nat) (desc : Option Descriptor) (units : List (EUnit B M)) (saved saved' : List (Rat × Nat))
    (stepNr stepNr' : Nat) (v : Validator D)
    (hr : v.hasRun = false) (hlen : units.length = v.readers.length) (data : Nat → Nat → List (List B)) (ends : Nat → Nat → D)
    (hd : Supplied rd n v.readers data ends)
    (hstart : ∀ i ds, v.readers[i]? = some ds → ∀ k, k ≤ n → rd.reset (ends i k) = ds k ∧ rd.reset (ds k) = ds k)
    (records : List Record) (r : Returned) (v' : Validator D)
    (h : run rd n desc units saved stepNr v = some (records, .ok (r, v'))) :
    ∃ v'', run rd n desc units saved' stepNr' (v'.reset rd) =
        some (records.map (fun e => { e with stepNr := some stepNr' }), .ok (r, v'')) := by
  have hfine : ∀ i u, units[i]? = some u → ∃ s, unitScore desc (evaluated u n fun k => (data i k).flatten) = .ok s := by
    have h := h
    unfold run at h
    rw [hr] at h
    simp only [Bool.false_eq_true, if_false, restore_readers] at h
    split at h
    · simp at h
    · simp at h
    · next hrun => exact runUnits_inv n _ _ _ units v.readers hlen data ends hd _ _ hrun
  obtain ⟨sc, hsc⟩ : ∃ sc : Nat → Option (Option Rat),
      ∀ i u, units[i]? = some u → unitScore desc (evaluated u n fun k => (data i k).flatten) = .ok (sc i) := by
    refine ⟨fun i => match units[i]? with
      | none => none
      | some u => match unitScore desc (evaluated u n fun k => (data i k).flatten) with
        | .ok s => s
        | .error _ => none, fun i u hi => ?_⟩
    obtain ⟨s, hs⟩ := hfine i u hi
    simp only [hi, hs]
  obtain ⟨w, _, h2, h3⟩ := run_reads n desc units saved stepNr v hr hlen data ends hd sc hsc
  rw [h3] at h
  have hrec : ∀ s : Option Nat,
      (allRecords (fun name => match name with | none => "valid" | some s => "valid/" ++ s) n units data s).map
        (fun e => { e with stepNr := some stepNr' }) =
      allRecords (fun name => match name with | none => "valid" | some s => "valid/" ++ s) n units data (some stepNr') := by
    intro s
    unfold allRecords
    apply List.ext_getElem <;> simp
  have hv : v'.readers = w.readers := by
    split at h
    · simp only [Option.some.injEq, Prod.mk.injEq, Except.ok.injEq] at h
      rw [← h.2.2]
    · split at h
      · simp at h
      · next sc' w' hsr =>
        simp only [Option.some.injEq, Prod.mk.injEq, Except.ok.injEq] at h
        rw [← h.2.2]
        generalize ((List.range units.length).flatMap fun i => (sc i).toList) = l at hsr
        cases l with
        | nil => simp [scoreRun] at hsr
        | cons s ss =>
          simp only [scoreRun, Except.ok.injEq, Prod.mk.injEq] at hsr
          rw [← hsr.2]
          split <;> rfl
  have hr' : (v'.reset rd).readers = v.readers.mapIdx fun i ds k => rd.reset (if k ≤ n then rd.reset (ends i k) else ds k) := by
    show v'.readers.map _ = _
    rw [hv, h2]
    apply List.ext_getElem <;> simp
  have hd' : Supplied rd n (v'.reset rd).readers data ends := by
    intro i ds hi k hk
    rw [hr'] at hi
    simp only [List.getElem?_mapIdx, Option.map_eq_some_iff] at hi
    obtain ⟨ds0, h0, rfl⟩ := hi
    obtain ⟨ha, hb⟩ := hstart i ds0 h0 k hk
    simp only [if_pos hk, ha, hb]
    exact hd i ds0 h0 k hk
  obtain ⟨w', _, _, h3'⟩ := run_reads n desc units saved' stepNr' (v'.reset rd) rfl (by rw [hr', List.length_mapIdx]; exact hlen)
    data ends hd' sc hsc
  rw [h3']
  split at h
  · next hn =>
    simp only [Option.some.injEq, Prod.mk.injEq, Except.ok.injEq] at h
    obtain ⟨rfl, rfl, _⟩ := h
    rw [if_pos hn, hrec]
    exact ⟨_, rfl⟩
  · next hn =>
    rw [if_neg hn]
    generalize ((List.range units.length).flatMap fun i => (sc i).toList) = l at h
    cases l with
    | nil => simp [scoreRun] at h
    | cons s ss =>
      simp only [scoreRun, Option.some.injEq, Prod.mk.injEq, Except.ok.injEq] at h
      obtain ⟨rfl, rfl, _⟩ := h
      rw [hrec]
      exact ⟨_, rfl⟩

/-- The best score is the largest one of the saved scores and of the scores of all runs since, and its step is a step with this
score; a run takes over only with a larger score. Scores that are not a number are never the best. -/
theorem C92_best (rd : Reader D B) (n : Nat) (d : Descriptor) (units : List (EUnit B M)) (readers : List (Nat → D))
    (saved : List (Rat × Nat)) (hsaved : saved.Pairwise fun a b => a.1 ≥ b.1) (step0 : Nat) (score0 : Option Rat)
    (rs : List (List (Rat × Nat) × Nat × Option Rat)) (v : Validator D)
    (h : Session rd n d units (Validator.fresh readers) ((saved, step0, score0) :: rs) v) :
    Leading (saved ++ ((step0, score0) :: rs.map (·.2)).filterMap fun r => r.2.map fun s => (s, r.1)) v.bestScore v.bestStep :=
  (session_best hsaved h).1

/-- An evaluation records for every unit what it makes of all batches of all ranks. -/
theorem C92_evaluate (rd : Reader D B) (n : Nat) (units : List (EUnit B M)) (readers : List (Nat → D))
    (hlen : units.length = readers.length) (data : Nat → Nat → List (List B)) (ends : Nat → Nat → D)
    (hd : Supplied rd n readers data ends) :
    ∃ out, evaluate rd n ((units.zip readers).map fun x => (x.1, none, x.2)) =
      some (allRecords (fun name => match name with | none => "eval" | some s => if s = "" then "eval" else "eval/" ++ s) n units
        data none, .ok out) := by
  unfold evaluate
  rw [zip_stops, runUnits_ok n _ _ _ units (fun _ => none) readers hlen data ends hd (by simp) (fun _ => none) (fun _ _ _ => rfl),
    eval_category]
  exact ⟨_, rfl⟩

/-- A stop request that all ranks see in the same step of some unit ends the evaluation: the units before are recorded in full and
nothing else is. -/
theorem C92_stop (rd : Reader D B) (n : Nat) (units : List (EUnit B M)) (u : EUnit B M) (rest : List (EUnit B M × Option Nat × (Nat → D)))
    (readers : List (Nat → D)) (ds : Nat → D)
    (hlen : units.length = readers.length) (data : Nat → Nat → List (List B)) (ends : Nat → Nat → D)
    (hd : Supplied rd n (readers ++ [ds]) data ends) (s : Nat) (hs : ∀ k, k ≤ n → s ≤ (data units.length k).length) :
    evaluate rd n ((units.zip readers).map (fun x => (x.1, none, x.2)) ++ (u, some s, ds) :: rest) =
      some (allRecords (fun name => match name with | none => "eval" | some s => if s = "" then "eval" else "eval/" ++ s) n units
        data none, .error .stopped) := by
  unfold evaluate
  rw [runUnits_stop n _ units u rest readers ds hlen data ends hd s hs, eval_category]

/-! ### Examples -/

/-- A reader over a list: what is left, and all of it. -/
private def listReader : Reader (List (List Nat) × List (List Nat)) Nat where
  next d := match d.1 with
    | [] => none
    | bs :: rest => some (bs, (rest, d.2))
  reset d := (d.2, d.2)

/-- A unit that sums numbers. -/
private def summing (name : Option String) : EUnit Nat Nat where
  name := name
  prepare := 0
  process m b := m + b
  finalize m := m
  values ms := [("loss", .num (some (ms.sum : Nat))), ("total_loss", .num (some (ms.sum : Nat)))]
  post d := d

/-- Two units, two ranks. -/
private def twoUnits : List (EUnit Nat Nat) := [summing none, summing (some "b")]

private def twoData : Nat → Nat → List (List Nat) := fun i k => [[i, k], [5], [i + k]]

private def twoReaders : List (Nat → List (List Nat) × List (List Nat)) :=
  [fun k => (twoData 0 k, twoData 0 k), fun k => (twoData 1 k, twoData 1 k)]

private theorem list_reads (l all : List (List Nat)) : ReadsAll listReader (l, all) l ([], all) := by
  induction l with
  | nil => exact .nil rfl
  | cons x l ih => exact .cons rfl ih

private theorem two_supplied : Supplied listReader 1 twoReaders twoData fun i k => ([], twoData i k) := by
  intro i ds h k _
  match i, h with
  | 0, h => cases h; exact list_reads _ _
  | 1, h => cases h; exact list_reads _ _
  | (i + 2), h => simp [twoReaders] at h

/-- The hypotheses of `C92_run`, `C92_score` and `C92_again` are met, and what is recorded is the sum of both ranks. -/
example : ∃ v', run listReader 1 (some ⟨"loss", false⟩) twoUnits [] 10 (Validator.fresh twoReaders) =
    some ([⟨"valid", [("loss", .num (some 12))], some 10⟩, ⟨"valid/b", [("loss", .num (some 16))], some 10⟩],
      .ok (⟨some (some (-28)), some (some 0)⟩, v')) := by
  obtain ⟨v', h, _⟩ := C92_score listReader 1 ⟨"loss", false⟩ twoUnits [] 10 (Validator.fresh twoReaders) rfl rfl twoData
    (fun i k => ([], twoData i k)) two_supplied
    (fun i => if i = 0 then some (some (-12)) else some (some (-16)))
    (by
      intro i u h
      match i, h with
      | 0, h => cases h; exact .less rfl (by decide +kernel)
      | 1, h => cases h; exact .less rfl (by decide +kernel)
      | (i + 2), h => simp [twoUnits] at h)
    ⟨0, by decide, rfl⟩ (by intro i _; split <;> simp)
  refine ⟨v', ?_⟩
  rw [h]
  have h1 : evaluated (summing none) 1 (fun k => (twoData 0 k).flatten) = [("loss", .num (some 12))] := by decide +kernel
  have h2 : evaluated (summing (some "b")) 1 (fun k => (twoData 1 k).flatten) = [("loss", .num (some 16))] := by decide +kernel
  have hr : ∀ s, allRecords (fun name => match name with | none => "valid" | some s => "valid/" ++ s) 1 twoUnits twoData s =
      [⟨"valid", [("loss", .num (some 12))], s⟩, ⟨"valid/b", [("loss", .num (some 16))], s⟩] := by
    intro s
    show [_, _] = _
    rw [← h1, ← h2]
    rfl
  rw [hr, show ((List.range twoUnits.length).map fun i =>
    (((if i = 0 then some (some (-12)) else some (some (-16)) : Option (Option Rat))).bind id).getD 0).sum = -28 by decide +kernel]

example : ∀ i ds, (Validator.fresh twoReaders).readers[i]? = some ds → ∀ k, k ≤ 1 →
    listReader.reset ([], twoData i k) = ds k ∧ listReader.reset (ds k) = ds k := by
  intro i ds h k _
  match i, h with
  | 0, h => cases h; exact ⟨rfl, rfl⟩
  | 1, h => cases h; exact ⟨rfl, rfl⟩
  | (i + 2), h => simp [Validator.fresh, twoReaders] at h

/-- A metric that no unit has. -/
example : ∀ i u, twoUnits[i]? = some u → (evaluated u 1 fun k => (twoData i k).flatten).lookup "wer" = none := by
  intro i u h
  match i, h with
  | 0, h => cases h; decide +kernel
  | 1, h => cases h; decide +kernel
  | (i + 2), h => simp [twoUnits] at h

/-- A session with one run. -/
example : ∃ v, Session listReader 1 ⟨"loss", true⟩ twoUnits (Validator.fresh twoReaders) [([(30, 3), (2, 1)], 10, some 28)] v ∧
    v.bestScore = some 30 ∧ v.bestStep = 3 := by
  obtain ⟨v', h, _⟩ := C92_score listReader 1 ⟨"loss", true⟩ twoUnits [(30, 3), (2, 1)] 10 (Validator.fresh twoReaders) rfl rfl twoData
    (fun i k => ([], twoData i k)) two_supplied
    (fun i => if i = 0 then some (some 12) else some (some 16))
    (by
      intro i u h
      match i, h with
      | 0, h => cases h; exact .more rfl (by decide +kernel)
      | 1, h => cases h; exact .more rfl (by decide +kernel)
      | (i + 2), h => simp [twoUnits] at h)
    ⟨0, by decide, rfl⟩ (by intro i _; split <;> simp)
  rw [show ((List.range twoUnits.length).map fun i =>
    (((if i = 0 then some (some 12) else some (some 16) : Option (Option Rat))).bind id).getD 0).sum = 28 by decide +kernel] at h
  have hb := (run_best h rfl).2
  refine ⟨_, Session.snoc (.nil _) h (some 28) rfl, ?_⟩
  rw [Prod.mk.injEq] at hb
  refine ⟨hb.1.trans (by decide +kernel), hb.2.trans (by decide +kernel)⟩

/-- A stop request in the second step of the second unit. -/
example : Supplied listReader 1 ([fun k => (twoData 0 k, twoData 0 k)] ++ [fun k => (twoData 1 k, twoData 1 k)]) twoData
    (fun i k => ([], twoData i k)) ∧ ∀ k, k ≤ 1 → 2 ≤ (twoData [summing none].length k).length :=
  ⟨two_supplied, fun _ _ => by simp [twoData]⟩

end Fs2.Props
