import Verif.Props.Metrics

/-!
Property C91: what a trainer publishes, across steps that overflow, publications, checkpoints and restarts.
-/

namespace Fs2.Props

open Fs2.Tally

variable {U S V : Type}

/-! ### Specification -/

/-- What comes first in what happens later, if anything, is a checkpoint and not a restart. -/
def survives : List (Ev U) → Bool
  | [] => true
  | .save :: _ => true
  | .restart :: _ => false
  | _ :: h => survives h

/-- Nothing is published later, and training is not restarted. -/
def unpublished : List (Ev U) → Bool
  | [] => true
  | .publish :: _ => false
  | .restart :: _ => false
  | _ :: h => unpublished h

/-- The steps of a history that did not overflow and whose future is as asked for; of every step, the updates of all
ranks. -/
def stepsWith (P : List (Ev U) → Bool) : List (Ev U) → List (Nat → List U)
  | [] => []
  | .step u false :: h => if P h then u :: stepsWith P h else stepsWith P h
  | _ :: h => stepsWith P h

/-- The steps that were not undone by going back to a checkpoint. -/
def trainedSteps (h : List (Ev U)) : List (Nat → List U) := stepsWith survives h

/-- The steps since values were last published or training was restarted. -/
def lapseSteps (h : List (Ev U)) : List (Nat → List U) := stepsWith unpublished h

/-- The updates that rank `k` made in some steps. -/
def updatesOf (k : Nat) (steps : List (Nat → List U)) : List U := steps.flatMap fun u => u k

/-- What is reported if `n + 1` ranks ran some steps. -/
def reportedFor (m : Metric U S V) (n : Nat) (steps : List (Nat → List U)) : V :=
  reported m (updatesOf 0 steps) ((List.range n).map fun k => updatesOf (k + 1) steps)

/-- The last thing that was published in a history. -/
def lastReport (m : Metric U S V) (name : String) (fp16 : Bool) (n : Nat) (h : List (Ev U)) : Option (Report V) :=
  (applyAll m name fp16 n (Run.fresh m) h).bind fun x => x.1.getLast?

/-- Gradients overflow only with a loss scaler. -/
def Scaled (fp16 : Bool) (h : List (Ev U)) : Prop := fp16 = true ∨ ∀ u, Ev.step u true ∉ h

/-! ### Lemmas -/

private theorem trained_step (h : List (Ev U)) (u : Nat → List U) :
    trainedSteps (h ++ [.step u false]) = trainedSteps h ++ [u] := by
  have hs : ∀ h : List (Ev U), survives (h ++ [.step u false]) = survives h := by
    intro h; induction h with
    | nil => rfl
    | cons e h ih => cases e <;> simp [survives, ih]
  unfold trainedSteps
  induction h with
  | nil => rfl
  | cons e h ih =>
    cases e with
    | step v b => cases b
                  · simp only [List.cons_append, stepsWith, hs, ih]; split <;> simp
                  · simpa [stepsWith] using ih
    | _ => simpa [stepsWith] using ih

private theorem trained_congr (t t' : List (Ev U)) (ht : stepsWith survives t = stepsWith survives t')
    (hs : survives t = survives t') (h : List (Ev U)) : trainedSteps (h ++ t) = trainedSteps (h ++ t') := by
  have hss : ∀ h : List (Ev U), survives (h ++ t) = survives (h ++ t') := by
    intro h; induction h with
    | nil => exact hs
    | cons e h ih => cases e <;> simp [survives, ih]
  unfold trainedSteps
  induction h with
  | nil => exact ht
  | cons e h ih =>
    cases e with
    | step v b => cases b
                  · simp only [List.cons_append, stepsWith, hss, ih]
                  · simpa [stepsWith] using ih
    | _ => simpa [stepsWith] using ih

private theorem lapse_step (h : List (Ev U)) (u : Nat → List U) :
    lapseSteps (h ++ [.step u false]) = lapseSteps h ++ [u] := by
  have hs : ∀ h : List (Ev U), unpublished (h ++ [.step u false]) = unpublished h := by
    intro h; induction h with
    | nil => rfl
    | cons e h ih => cases e <;> simp [unpublished, ih]
  unfold lapseSteps
  induction h with
  | nil => rfl
  | cons e h ih =>
    cases e with
    | step v b => cases b
                  · simp only [List.cons_append, stepsWith, hs, ih]; split <;> simp
                  · simpa [stepsWith] using ih
    | _ => simpa [stepsWith] using ih

private theorem lapse_congr (t t' : List (Ev U)) (ht : stepsWith unpublished t = stepsWith unpublished t')
    (hs : unpublished t = unpublished t') (h : List (Ev U)) : lapseSteps (h ++ t) = lapseSteps (h ++ t') := by
  have hss : ∀ h : List (Ev U), unpublished (h ++ t) = unpublished (h ++ t') := by
    intro h; induction h with
    | nil => exact hs
    | cons e h ih => cases e <;> simp [unpublished, ih]
  unfold lapseSteps
  induction h with
  | nil => exact ht
  | cons e h ih =>
    cases e with
    | step v b => cases b
                  · simp only [List.cons_append, stepsWith, hss, ih]
                  · simpa [stepsWith] using ih
    | _ => simpa [stepsWith] using ih

private theorem lapse_nil (e : Ev U) (he : e = .publish ∨ e = .restart) (h : List (Ev U)) : lapseSteps (h ++ [e]) = [] := by
  have hs : ∀ h : List (Ev U), unpublished (h ++ [e]) = false := by
    intro h; induction h with
    | nil => rcases he with rfl | rfl <;> rfl
    | cons e' h ih => cases e' <;> simp [unpublished, ih]
  unfold lapseSteps
  induction h with
  | nil => rcases he with rfl | rfl <;> rfl
  | cons e' h ih =>
    cases e' with
    | step v b => cases b
                  · simp only [List.cons_append, stepsWith, hs, ih]; simp
                  · simpa [stepsWith] using ih
    | _ => simpa [stepsWith] using ih

/-- What holds after a history. -/
private structure Holds (m : Metric U S V) (name : String) (h : List (Ev U)) (r : Run S) : Prop where
  bag : ∀ k, r.bag k = m.after (updatesOf k (if name.startsWith "total_" then trainedSteps h else lapseSteps h))
  num : r.numBatches = (lapseSteps h).length
  ckpt : name.startsWith "total_" = true →
    ∀ k, (r.ckpt.getD fun _ => m.init) k = m.after (updatesOf k (trainedSteps (h ++ [.restart])))

private theorem after_snoc (m : Metric U S V) (k : Nat) (l : List (Nat → List U)) (u : Nat → List U) :
    m.after (updatesOf k (l ++ [u])) = (u k).foldl m.update (m.after (updatesOf k l)) := by
  simp [Metric.after, updatesOf, List.flatMap_append, List.foldl_append]

private theorem holds_fresh (m : Metric U S V) (name : String) : Holds m name [] (Run.fresh m) := by
  refine ⟨fun k => ?_, rfl, fun _ k => rfl⟩
  split <;> rfl

private theorem holds_apply {m : Metric U S V} {name : String} {fp16 : Bool} {n : Nat} {h : List (Ev U)} {r : Run S}
    (hr : Holds m name h r) {e : Ev U} {o : List (Report V)} {r' : Run S} (ha : apply m name fp16 n r e = some (o, r')) :
    Holds m name (h ++ [e]) r' := by
  have assoc : ∀ e e' : Ev U, h ++ [e] ++ [e'] = h ++ [e, e'] := by simp
  cases e with
  | step u b =>
    cases b with
    | false =>
      simp only [apply, runStep, Bool.false_eq_true, if_false, Option.map_some, Option.some.injEq, Prod.mk.injEq] at ha
      obtain ⟨-, rfl⟩ := ha
      refine ⟨fun k => ?_, ?_, fun ht k => ?_⟩
      · show (u k).foldl m.update (r.bag k) = _
        rw [hr.bag k, trained_step, lapse_step]
        split <;> rw [after_snoc]
      · show r.numBatches + 1 = _
        rw [hr.num, lapse_step]; simp
      · rw [assoc, trained_congr [.step u false, .restart] [.restart] rfl rfl]
        exact hr.ckpt ht k
    | true =>
      have hb : trainedSteps (h ++ [.step u true]) = trainedSteps h := by
        rw [trained_congr [.step u true] [] rfl rfl]; simp
      have hl : lapseSteps (h ++ [.step u true]) = lapseSteps h := by
        rw [lapse_congr [.step u true] [] rfl rfl]; simp
      cases fp16 with
      | false => simp [apply, runStep] at ha
      | true =>
        simp only [apply, runStep, if_true, Option.map_some, Option.some.injEq, Prod.mk.injEq] at ha
        obtain ⟨-, rfl⟩ := ha
        refine ⟨fun k => ?_, ?_, fun ht k => ?_⟩
        · rw [hb, hl]; exact hr.bag k
        · rw [hl]; exact hr.num
        · rw [assoc, trained_congr [.step u true, .restart] [.restart] rfl rfl]
          exact hr.ckpt ht k
  | publish =>
    simp only [apply, publish, Option.some.injEq, Prod.mk.injEq] at ha
    obtain ⟨-, rfl⟩ := ha
    refine ⟨fun k => ?_, ?_, fun ht k => ?_⟩
    · show resetNonTotal m name r.bag k = _
      unfold resetNonTotal
      rw [lapse_nil _ (.inl rfl), trained_congr [.publish] [] rfl rfl, List.append_nil]
      cases hn : name.startsWith "total_"
      · rfl
      · have := hr.bag k; rw [hn] at this; exact this
    · rw [lapse_nil _ (.inl rfl)]; rfl
    · rw [assoc, trained_congr [.publish, .restart] [.restart] rfl rfl]
      exact hr.ckpt ht k
  | save =>
    simp only [apply, Option.some.injEq, Prod.mk.injEq] at ha
    obtain ⟨-, rfl⟩ := ha
    refine ⟨fun k => ?_, ?_, fun ht k => ?_⟩
    · rw [trained_congr [.save] [] rfl rfl, lapse_congr [.save] [] rfl rfl, List.append_nil]
      exact hr.bag k
    · rw [lapse_congr [.save] [] rfl rfl, List.append_nil]
      exact hr.num
    · rw [assoc, trained_congr [.save, .restart] [] rfl rfl, List.append_nil]
      have := hr.bag k; rw [ht] at this; exact this
  | restart =>
    have hb : ∀ k, r'.bag k = resetNonTotal m name (r.ckpt.getD fun _ => m.init) k := by
      intro k
      cases hc : r.ckpt with
      | none => simp only [apply, hc, Option.some.injEq, Prod.mk.injEq] at ha
                obtain ⟨-, rfl⟩ := ha
                unfold resetNonTotal
                split <;> rfl
      | some s => simp only [apply, hc, Option.some.injEq, Prod.mk.injEq] at ha
                  obtain ⟨-, rfl⟩ := ha
                  rfl
    have hk : r'.ckpt = r.ckpt ∧ r'.numBatches = 0 := by
      cases hc : r.ckpt with
      | none => simp only [apply, hc, Option.some.injEq, Prod.mk.injEq] at ha
                obtain ⟨-, rfl⟩ := ha
                exact ⟨rfl, rfl⟩
      | some s => simp only [apply, hc, Option.some.injEq, Prod.mk.injEq] at ha
                  obtain ⟨-, rfl⟩ := ha
                  exact ⟨rfl, rfl⟩
    refine ⟨fun k => ?_, ?_, fun ht k => ?_⟩
    · rw [hb k, lapse_nil _ (.inr rfl)]
      unfold resetNonTotal
      cases hn : name.startsWith "total_"
      · rfl
      · exact hr.ckpt hn k
    · rw [lapse_nil _ (.inr rfl), hk.2]; rfl
    · rw [assoc, trained_congr [.restart, .restart] [.restart] rfl rfl, hk.1]
      exact hr.ckpt ht k

private theorem applyAll_snoc (m : Metric U S V) (name : String) (fp16 : Bool) (n : Nat) (r : Run S) (h : List (Ev U))
    (e : Ev U) : applyAll m name fp16 n r (h ++ [e]) =
      (applyAll m name fp16 n r h).bind fun x => (apply m name fp16 n x.2 e).map fun y => (x.1 ++ y.1, y.2) := by
  induction h generalizing r with
  | nil =>
    simp only [List.nil_append, applyAll, Option.bind_some]
    cases apply m name fp16 n r e <;> simp
  | cons e' h ih =>
    simp only [List.cons_append, applyAll]
    cases ha : apply m name fp16 n r e' with
    | none => rfl
    | some x =>
      simp only [ih]
      cases applyAll m name fp16 n x.2 h with
      | none => rfl
      | some y =>
        simp only [Option.bind_some]
        cases apply m name fp16 n y.2 e <;> simp

private theorem holds_all {m : Metric U S V} {name : String} {fp16 : Bool} {n : Nat} {h : List (Ev U)} (hs : Scaled fp16 h) :
    ∃ o r, applyAll m name fp16 n (Run.fresh m) h = some (o, r) ∧ Holds m name h r := by
  have key : ∀ g : List (Ev U), Scaled fp16 g.reverse →
      ∃ o r, applyAll m name fp16 n (Run.fresh m) g.reverse = some (o, r) ∧ Holds m name g.reverse r := by
    intro g
    induction g with
    | nil => intro _; exact ⟨[], _, rfl, holds_fresh m name⟩
    | cons e g ih =>
      intro hs
      rw [List.reverse_cons] at hs ⊢
      obtain ⟨o, r, h1, h2⟩ := ih (hs.imp id fun h u hu => h u (List.mem_append_left _ hu))
      have : ∃ y, apply m name fp16 n r e = some y := by
        cases e with
        | step u b =>
          cases b with
          | false => exact ⟨_, rfl⟩
          | true =>
            have : fp16 = true := by
              rcases hs with h | h
              · exact h
              · exact absurd (List.mem_append_right _ (List.mem_singleton.2 rfl)) (h u)
            subst this
            exact ⟨_, rfl⟩
        | publish => exact ⟨_, rfl⟩
        | save => exact ⟨_, rfl⟩
        | restart => cases hc : r.ckpt <;> simp [apply, hc]
      obtain ⟨y, hy⟩ := this
      refine ⟨o ++ y.1, y.2, ?_, holds_apply h2 hy⟩
      rw [applyAll_snoc, h1, Option.bind_some, hy, Option.map_some]
  have := key h.reverse
  rw [List.reverse_reverse] at this
  exact this hs

private theorem last_publish {m : Metric U S V} {name : String} {fp16 : Bool} {n : Nat} {h : List (Ev U)} (hs : Scaled fp16 h) :
    lastReport m name fp16 n (h ++ [.publish]) =
      some ⟨reportedFor m n (if name.startsWith "total_" then trainedSteps h else lapseSteps h), (lapseSteps h).length⟩ := by
  obtain ⟨o, r, h1, h2⟩ := holds_all (m := m) (name := name) (n := n) hs
  unfold lastReport
  rw [applyAll_snoc, h1]
  simp only [Option.bind_some, apply, publish, Option.map_some]
  rw [List.getLast?_append]
  simp only [List.getLast?_singleton, Option.some_or]
  rw [h2.num, h2.bag 0]
  unfold reportedFor reported
  rw [List.map_map]
  congr 3
  exact List.map_congr_left fun k _ => h2.bag (k + 1)

/-! ### C91 -/

/-- What a trainer publishes for a metric, unless its name starts with `total_`, is the value over all ranks and exactly
the steps since it last published values or was restarted; steps whose gradients overflowed do not count. Averages are over
the number of these steps. -/
theorem C91_lapse (m : Metric U S V) (name : String) (hn : name.startsWith "total_" = false) (fp16 : Bool) (n : Nat)
    (h : List (Ev U)) (hs : Scaled fp16 h) :
    lastReport m name fp16 n (h ++ [.publish]) = some ⟨reportedFor m n (lapseSteps h), (lapseSteps h).length⟩ := by
  rw [last_publish hs, hn]; rfl

/-- For a metric whose name starts with `total_`, it is the value over all steps that the model was trained with, whatever
was published on the way, however often training was restarted, and without the steps that were lost by that. -/
theorem C91_total (m : Metric U S V) (name : String) (hn : name.startsWith "total_" = true) (fp16 : Bool) (n : Nat)
    (h : List (Ev U)) (hs : Scaled fp16 h) :
    lastReport m name fp16 n (h ++ [.publish]) = some ⟨reportedFor m n (trainedSteps h), (lapseSteps h).length⟩ := by
  rw [last_publish hs, hn]; rfl

/-- An interruption does not show in the totals: what happened between the last checkpoint and the restart does not count,
and the rest counts once. -/
theorem C91_resume (m : Metric U S V) (name : String) (hn : name.startsWith "total_" = true) (fp16 : Bool) (n : Nat)
    (before lost later : List (Ev U)) (hlost : ∀ e ∈ lost, e ≠ .save ∧ e ≠ .restart)
    (hs : Scaled fp16 (before ++ lost ++ later)) :
    (lastReport m name fp16 n (before ++ [.save] ++ lost ++ [.restart] ++ later ++ [.publish])).map (·.value) =
      (lastReport m name fp16 n (before ++ [.save] ++ later ++ [.publish])).map (·.value) := by
  have hs1 : Scaled fp16 (before ++ [.save] ++ lost ++ [.restart] ++ later) := by
    refine hs.imp id fun h u hu => h u ?_
    simp only [List.append_assoc, List.mem_append, List.mem_cons, List.not_mem_nil, or_false, reduceCtorEq, false_or] at hu ⊢
    exact hu
  have hs2 : Scaled fp16 (before ++ [.save] ++ later) := by
    refine hs.imp id fun h u hu => h u ?_
    simp only [List.append_assoc, List.mem_append, List.mem_cons, List.not_mem_nil, or_false, reduceCtorEq, false_or] at hu ⊢
    exact hu.imp id .inr
  have hdrop : ∀ l : List (Ev U), (∀ e ∈ l, e ≠ .save ∧ e ≠ .restart) →
      stepsWith survives (l ++ .restart :: later) = stepsWith survives later ∧
      survives (l ++ .restart :: later) = false := by
    intro l
    induction l with
    | nil => intro _; exact ⟨rfl, rfl⟩
    | cons e l ih =>
      intro hl
      obtain ⟨h1, h2⟩ := ih fun e he => hl e (List.mem_cons_of_mem _ he)
      have := hl e (List.mem_cons_self ..)
      cases e with
      | step u b => cases b <;> simp [stepsWith, survives, h1, h2]
      | publish => simp [stepsWith, survives, h1, h2]
      | save => exact absurd rfl this.1
      | restart => exact absurd rfl this.2
  have htr : trainedSteps (before ++ [.save] ++ lost ++ [.restart] ++ later) = trainedSteps (before ++ [.save] ++ later) := by
    have hkey : ∀ t : List (Ev U), stepsWith survives (before ++ (.save :: t)) =
        trainedSteps before ++ stepsWith survives t := by
      intro t
      have hss : ∀ b : List (Ev U), survives (b ++ .save :: t) = survives b := by
        intro b; induction b with
        | nil => rfl
        | cons e b ih => cases e <;> simp [survives, ih]
      unfold trainedSteps
      generalize before = b
      induction b with
      | nil => rfl
      | cons e b ih =>
        cases e with
        | step v c => cases c
                      · simp only [List.cons_append, stepsWith, hss, ih]; split <;> simp
                      · simpa [stepsWith] using ih
        | _ => simpa [stepsWith] using ih
    simp only [List.append_assoc, List.cons_append, List.nil_append]
    show stepsWith survives _ = stepsWith survives _
    rw [hkey, hkey, (hdrop lost hlost).1]
  rw [C91_total m name hn fp16 n _ hs1, C91_total m name hn fp16 n _ hs2, htr]
  rfl

/-- It does show in the other values: steps between the last publication and the checkpoint are then never reported. -/
theorem C91_resume_negation : ∃ (before later : List (Ev (Rat × Rat))),
    lastReport sum "num_examples" false 0 (before ++ [.save] ++ [.restart] ++ later ++ [.publish]) ≠
      lastReport sum "num_examples" false 0 (before ++ [.save] ++ later ++ [.publish]) := by
  refine ⟨[.step (fun _ => [(8, 1)]) false], [.step (fun _ => [(4, 1)]) false], ?_⟩
  rw [C91_lapse _ _ (by decide +kernel) _ _ _ (.inr (by simp)), C91_lapse _ _ (by decide +kernel) _ _ _ (.inr (by simp))]
  intro h
  have := congrArg (fun o : Option (Report Rat) => o.map (·.numBatches)) h
  simp [lapseSteps, stepsWith, unpublished] at this

/-- The loss that is published is the loss per target of all batches of all ranks in these steps, if all have targets. -/
theorem C91_nll_partial (fp16 : Bool) (n : Nat) (h : List (Ev (Rat × Rat))) (hs : Scaled fp16 h)
    (batches : Nat → List (Rat × Nat)) (hb : ∀ k, updatesOf k (lapseSteps h) = (batches k).map fun b => nllUpdate b.1 (some b.2))
    (hpos : ∀ k, ∀ b ∈ batches k, 0 < b.2) :
    (lastReport mean "nll_loss" fp16 n (h ++ [.publish])).map (·.value) =
      some ((((List.range (n + 1)).flatMap batches).map (·.1)).sum / ((((List.range (n + 1)).flatMap batches).map (·.2)).sum : Nat)) := by
  rw [C91_lapse _ _ (by decide +kernel) _ _ _ hs]
  have := C90_nll_partial (batches 0) ((List.range n).map fun k => batches (k + 1)) (by
    intro r hr b hbm
    rcases List.mem_cons.1 hr with rfl | hr
    · exact hpos _ _ hbm
    · obtain ⟨k, _, rfl⟩ := List.mem_map.1 hr
      exact hpos _ _ hbm)
  have hl : batches 0 ++ ((List.range n).map fun k => batches (k + 1)).flatten = (List.range (n + 1)).flatMap batches := by
    rw [List.range_succ_eq_map, List.flatMap_cons, List.flatMap_map]
    rfl
  rw [hl] at this
  rw [Option.map_some, ← this]
  unfold reportedFor
  rw [hb 0, List.map_map]
  refine congrArg some (congrArg (reported mean _) (List.map_congr_left fun k _ => ?_))
  exact hb (k + 1)

/-- A history with an overflow, a publication, a checkpoint, a lost step and a restart. -/
example : Scaled true [Ev.step (fun _ => [((1 : Rat), (1 : Rat))]) true, .publish, .save, .restart] := .inl rfl

example : (trainedSteps [Ev.step (fun _ => [1]) false, .publish, .save, .step (fun _ => [2]) false, .restart,
      .step (fun _ => [3]) false, .step (fun _ => [4]) true]).map (· 0) = [[1], [3]] ∧
    (lapseSteps [Ev.step (fun _ => [1]) false, .publish, .step (fun _ => [2]) false, .save,
      .step (fun _ => [3]) false, .step (fun _ => [4]) true]).map (· 0) = [[2], [3]] := by
  decide +kernel

example : (lastReport sum "total_num_examples" true 1 [.step (fun _ => [(8, 1)]) false, .publish, .save,
      .step (fun _ => [(5, 1)]) false, .restart, .step (fun k => [(k, 1)]) false, .publish]).map (·.value) = some 17 := by
  decide +kernel

end Fs2.Props
