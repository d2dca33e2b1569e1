import Verif.Checkpoint.KeptLemmas
import Verif.Checkpoint.KeptRuns
import Verif.Props.Trainer

/-!
# C112: which checkpoints are on disk in the course of training
-/

namespace Fs2.Props
open Fs2.Keep Fs2.Train

/-- Four checkpoints; the process dies before it deletes what step 3 made stale. -/
private def story : List Ev :=
  [⟨.begin, 1, 0, none⟩, ⟨.scored, 1, 5, none⟩, ⟨.commit, 1, 0, none⟩, ⟨.begin, 2, 0, none⟩, ⟨.commit, 2, 0, none⟩,
    ⟨.begin, 3, 0, none⟩, ⟨.commit, 3, 0, some 0⟩, ⟨.begin, 4, 0, none⟩, ⟨.commit, 4, 0, none⟩]

private theorem story_orderly : Orderly story := by
  have h : OrderlyFrom [] story := by
    refine .cons (by decide) (.cons (by decide) (.cons (by decide) (.cons (by decide) (.cons (by decide) (.cons (by decide) (.cons
      (by decide) (.cons (by decide) (.cons (by decide) ?_))))))))
    intro a e b h
    simp at h
  intro a e b hab m hm
  exact h a e b hab m (by simpa using hm)

/-- Whatever the policy, and wherever processes die while they delete stale checkpoints: retention never fails, and at any time every committed
checkpoint that the policy wants of *all* those committed so far is on disk, with its score. Those deleted earlier do not change what is
deleted later, nothing is on disk that was not committed, and the newest on disk is the one committed last. -/
theorem C112_never_lost {p : Policy} {evs : List Ev} (hp : p.Valid) (h : Orderly evs) :
    ∃ d, actAll p .empty evs = some d ∧ (∀ s ∈ d.steps, s ∈ committed evs ∧ d.score s = scoreOf evs s) ∧
      (∀ s ∈ committed evs, Wanted p (committed evs) (scoreOf evs) s → s ∈ d.steps) ∧
      d.steps.getLast? = (committed evs).getLast? := by
  obtain ⟨d, h1, ho, ⟨ts, hs, hts⟩, hsc⟩ := actAll_inv hp (empty_inv p) (a := []) (evs := evs) h
  simp only [List.nil_append] at ho hs hts hsc
  have hin : ∀ s ∈ committed evs, Wanted p (committed evs) (scoreOf evs) s → s ∈ d.steps := by
    intro s hm hk
    rw [hs, List.mem_filter]
    refine ⟨hm, ?_⟩
    simp only [List.contains_eq_mem, Bool.not_eq_true', decide_eq_false_iff_not]
    exact fun h => (hts s h).2 hk
  refine ⟨d, h1, fun s hm => ⟨?_, hsc s (.inl hm)⟩, hin, ?_⟩
  · rw [hs] at hm
    exact (List.mem_filter.1 hm).1
  · cases hl : (committed evs).getLast? with
    | none => rw [hs, List.getLast?_eq_none_iff.1 hl]; rfl
    | some m =>
      have hk := hin m (List.mem_of_getLast? hl) (.inr (.inl (newest ho hl)))
      obtain ⟨pre, hpre⟩ := List.getLast?_eq_some_iff.1 hl
      rw [hs] at hk ⊢
      have hb := (List.mem_filter.1 hk).2
      rw [hpre, List.filter_append, List.filter_cons_of_pos (p := fun x => !ts.contains x) hb]
      simp

/-- The last one and multiples of two are kept: the process dies after step 3 is committed. -/
example : Policy.Valid ⟨some 1, none, some 2⟩ ∧ Orderly story ∧ committed story = [1, 2, 3, 4] ∧
    (actAll ⟨some 1, none, some 2⟩ .empty (story.take 7)).map (·.steps) = some [2, 3] :=
  ⟨⟨by simp, by simp, by simp⟩, story_orderly, rfl, by decide +kernel⟩

/-- The best one is kept although it is the oldest. -/
example : ∃ d, actAll ⟨none, some 1, none⟩ .empty story = some d ∧ d.steps = [1, 4] := by
  refine ⟨_, by simp [story, actAll, act, deleteStale, Ckpt.stale, Ckpt.addKept, Ckpt.loadScores, Disk.empty, Disk.delete, Disk.add, Disk.rate]; rfl, rfl⟩

/-- When a checkpoint has just been committed, and the process did not die meanwhile, there are exactly those that the policy wants,
however often processes died before. -/
theorem C112_exact {p : Policy} {evs : List Ev} {e : Ev} (hp : p.Valid) (h : Orderly (evs ++ [e])) (hk : e.kind = .commit)
    (hc : e.cut = none) : ∃ d, actAll p .empty (evs ++ [e]) = some d ∧
      ∀ s, s ∈ d.steps ↔ s ∈ committed (evs ++ [e]) ∧ Wanted p (committed (evs ++ [e])) (scoreOf (evs ++ [e])) s := by
  have ho : Orderly evs := fun a x b hx m hm => h a x (b ++ [e]) (by simp [hx]) m hm
  obtain ⟨d, h1, hi⟩ := actAll_inv hp (empty_inv p) (a := []) (evs := evs) ho
  rw [List.nil_append] at hi
  obtain ⟨d', h2, hi', h3⟩ := act_inv hp hi (h evs e [] rfl)
  have hall : actAll p .empty (evs ++ [e]) = some d' := by rw [actAll_snoc, h1]; exact h2
  obtain ⟨d'', h4, h5, h6, -⟩ := C112_never_lost hp h
  rw [hall] at h4
  cases h4
  exact ⟨d', hall, fun s => ⟨fun hm => ⟨(h5 s hm).1, h3 hk hc s hm⟩, fun hm => h6 s hm.1 hm.2⟩⟩

example : ∃ evs e, story = evs ++ [e] ∧ Orderly (evs ++ [e]) ∧ e.kind = .commit ∧ e.cut = none ∧
    (actAll ⟨some 1, none, some 2⟩ .empty (evs ++ [e])).map (·.steps) = some [2, 4] :=
  ⟨story.take 8, ⟨.commit, 4, 0, none⟩, rfl, story_orderly, rfl, rfl, by decide +kernel⟩

/-- A training that crashes any number of times, each time resumed from the checkpoint committed last or begun anew if there is none:
at any time the newest checkpoint on disk is the one committed last, so that this is indeed the one found on resuming, and every committed one that
the policy wants, judged by everything that was ever committed, is on disk. Missing for the full claim (C112): a limit on epochs and saving
by epochs, stop requests, and `save_model_only`, see `C112_early_stop_unscored`, `C70_saved_twice` and `C112_restart_loses`. -/
theorem C112_training_partial {E : Env} {c : Cfg} {p : Policy} {o : List (Out E)} {evs : List Ev} (hp : p.Valid)
    (hpos : ∀ n, c.maxSteps = some n → 0 < n) (hm : c.maxEpochs = none) (he : c.checkpoint.everyEpochs = none)
    (h : Lives c o) (hd : Does o evs) :
    ∃ d, actAll p .empty evs = some d ∧ (∀ s ∈ d.steps, s ∈ commits o ∧ d.score s = scoreOf evs s) ∧
      (∀ s ∈ commits o, Wanted p (commits o) (scoreOf evs) s → s ∈ d.steps) ∧
      d.steps.getLast? = (commits o).getLast? := by
  have := C112_never_lost hp (lives_orderly h hpos hm he hd)
  rw [committed_does hd] at this
  exact this

/-- When `run` returns there are exactly the saved checkpoints that the policy wants. The early stopper may end the run. Missing for the full claim (C112): as
for `C112_training_partial`. -/
theorem C112_finished_partial {E : Env} {c : Cfg} {P : World → Prop} {p : Policy} {dt : E.D} {t : E.T} {o : List (Out E)} {s : S E}
    {evs : List Ev} (hp : p.Valid) (hpos : ∀ n, c.maxSteps = some n → 0 < n) (hm : c.maxEpochs = none)
    (he : c.checkpoint.everyEpochs = none) (hP : ∀ w, P w → w.stop = false) (h : Run c P (fresh c dt t) o s)
    (hst : s.st = .stopped) (hd : Does o evs) (hc : ∀ e ∈ evs, e.cut = none) :
    ∃ d, actAll p .empty evs = some d ∧
      ∀ n, n ∈ d.steps ↔ n ∈ saves o ∧ Wanted p (saves o) (scoreOf evs) n := by
  have hcs : commits o = saves o := C40_committed_plain_partial h hst (.inl hm)
  have hor : Orderly evs := by
    have := fresh_orderly h hP hpos he (List.prefix_refl o) hd
    intro a e b hab m hm
    exact this a e b hab m (by simpa using hm)
  have hpend : s.pending = none := by
    have h1 : saves o = commits o ++ s.pending.toList := by simpa [fresh] using h.saved
    rw [hcs] at h1
    cases hq : s.pending with
    | none => rfl
    | some q => rw [hq] at h1; simp at h1
  have hpr : prot none o = some none := by
    have := Run.prot h
    rw [hpend] at this
    exact this
  rcases prot_last hpr with ⟨-, h1⟩ | ⟨l, n, h1⟩
  · have : evs = [] := by simpa [Does, h1] using hd
    subst this
    have h2 : commits o = [] := by rw [← committed_does hd]; rfl
    exact ⟨.empty, rfl, fun n => by simp [← hcs, h2, Disk.empty]⟩
  · unfold Does at hd
    rw [h1] at hd
    obtain ⟨ev, last, hev, -, hl⟩ := List.map_eq_append_iff.1 hd
    obtain ⟨e, rfl, hk⟩ := List.map_eq_singleton_iff.1 hl
    subst hev
    obtain ⟨d, h2, h3⟩ := C112_exact hp hor (by exact congrArg Prod.fst hk) (hc e (by simp))
    have h4 : committed (ev ++ [e]) = saves o := by
      rw [← hcs]
      exact committed_does (by unfold Does; rw [h1]; exact hd)
    rw [h4] at h3
    exact ⟨d, h2, h3⟩

/-- Five steps, each saved, and the last two are kept. -/
example : ∃ s o evs, Run (E := steady 3) { maxSteps := some 5, checkpoint := { everySteps := some 1 } } (fun w => w.stop = false)
      (fresh { maxSteps := some 5, checkpoint := { everySteps := some 1 } } (3 : Nat) (0 : Nat)) o s ∧ s.st = .stopped ∧ Does o evs ∧
      (∀ e ∈ evs, e.cut = none) ∧ saves o = [1, 2, 3, 4, 5] ∧
      (actAll { last := some 2 } .empty evs).map (·.steps) = some [4, 5] :=
  ⟨_, _, [⟨.begin, 1, 0, none⟩, ⟨.commit, 1, 0, none⟩, ⟨.begin, 2, 0, none⟩, ⟨.commit, 2, 0, none⟩, ⟨.begin, 3, 0, none⟩,
      ⟨.commit, 3, 0, none⟩, ⟨.begin, 4, 0, none⟩, ⟨.commit, 4, 0, none⟩, ⟨.begin, 5, 0, none⟩, ⟨.commit, 5, 0, none⟩],
    runFor_run (k := 30) (ws := fun _ => slow) (fun _ => rfl) rfl, rfl, rfl, by simp, rfl, by decide +kernel⟩

/-- A run that crashes when step 2 has been committed and step 3 is being saved, resumed from step 2. -/
example : ∃ o, Lives (E := steady 3) { maxSteps := some 4, checkpoint := { everySteps := some 1 } } o ∧ saves o = [1, 2, 3, 3, 4] ∧
    commits o = [1, 2, 3, 4] :=
  ⟨_, .resume (k := ⟨2, 0, (1 : Nat), (2 : Nat), 2⟩) (.start .nil rfl (d := (3 : Nat)) (t := (0 : Nat))
      (runFor_run (k := 9) (ws := fun _ => calm) (fun _ => calm_quiet) rfl) (List.prefix_refl _)) rfl rfl
      (runFor_run (k := 30) (ws := fun _ => calm) (fun _ => calm_quiet) rfl) (List.prefix_refl _), rfl, rfl⟩

/-- The claim fails for runs with `save_model_only`, which are not resumed but begin anew although there are checkpoints: with
`keep_last_n_checkpoints` 1 the second run commits step 1 and at once deletes it; what is on disk is step 3 of the first run. -/
theorem C112_restart_loses : ∃ s₁ s₂ o₁ o₂ evs,
    Run (E := steady 3) { modelOnly := true, checkpoint := { everySteps := some 1 } } Quiet
      (fresh { modelOnly := true, checkpoint := { everySteps := some 1 } } (3 : Nat) (0 : Nat)) o₁ s₁ ∧
    Run (E := steady 3) { modelOnly := true, checkpoint := { everySteps := some 1 } } Quiet
      (fresh { modelOnly := true, checkpoint := { everySteps := some 1 } } (3 : Nat) (0 : Nat)) o₂ s₂ ∧
    Does (o₁ ++ o₂) evs ∧ (∀ e ∈ evs, e.cut = none) ∧ commits o₁ = [1, 2, 3] ∧ commits o₂ = [1] ∧
    (actAll { last := some 1 } .empty evs).map (·.steps) = some [3] :=
  ⟨_, _, _, _, [⟨.begin, 1, 0, none⟩, ⟨.commit, 1, 0, none⟩, ⟨.begin, 2, 0, none⟩, ⟨.commit, 2, 0, none⟩, ⟨.begin, 3, 0, none⟩,
      ⟨.commit, 3, 0, none⟩, ⟨.begin, 1, 0, none⟩, ⟨.commit, 1, 0, none⟩],
    runFor_run (k := 13) (ws := fun _ => calm) (fun _ => calm_quiet) rfl,
    runFor_run (k := 5) (ws := fun _ => calm) (fun _ => calm_quiet) rfl, rfl, by simp, rfl, rfl, by decide +kernel⟩

/-- It fails as well when the early stopper ends a run in which the end of an epoch was saved and validated: the step is saved once more, and its
score, which had been saved, is gone at the end. -/
theorem C112_early_stop_unscored : ∃ (c : Cfg) (s : S (steady 1)) (o : List (Out (steady 1))),
    c.validator = true ∧ c.earlyStopper = true ∧ Run c (fun w => w.stop = false) (fresh c (1 : Nat) (0 : Nat)) o s ∧
    s.st = .stopped ∧
    o.filterMap seen = [(.begin, 1), (.scored, 1), (.commit, 1), (.begin, 1), (.commit, 1)] ∧
    ∀ evs, Does o evs → (actAll {} .empty evs).map (fun d => (d.steps, d.score 1)) = some ([1], none) := by
  refine ⟨{ validator := true, earlyStopper := true, validate := { everyEpochs := some 1 }, checkpoint := { everyEpochs := some 1 } }, _, _,
    rfl, rfl, runFor_run (k := 10) (ws := fun _ => ⟨false, true, true, true⟩) (fun _ => rfl) rfl, rfl, rfl, ?_⟩
  intro evs hd
  unfold Does at hd
  replace hd : evs.map (fun e => (e.kind, e.step)) = [(.begin, 1), (.scored, 1), (.commit, 1), (.begin, 1), (.commit, 1)] := hd
  obtain ⟨e1, evs, rfl, h1, hd⟩ := List.map_eq_cons_iff.1 hd
  obtain ⟨e2, evs, rfl, h2, hd⟩ := List.map_eq_cons_iff.1 hd
  obtain ⟨e3, evs, rfl, h3, hd⟩ := List.map_eq_cons_iff.1 hd
  obtain ⟨e4, evs, rfl, h4, hd⟩ := List.map_eq_cons_iff.1 hd
  obtain ⟨e5, evs, rfl, h5, hd⟩ := List.map_eq_cons_iff.1 hd
  obtain rfl := List.map_eq_nil_iff.1 hd
  simp only [Prod.mk.injEq] at h1 h2 h3 h4 h5
  have hs : ∀ steps score, Ckpt.stale steps score none none none = some [] := fun _ _ => rfl
  have hds : ∀ cut d, deleteStale {} cut d = some d := by
    intro cut d
    simp only [deleteStale, hs]
    cases cut <;> simp
  simp [actAll, act, h1, h2, h3, h4, h5, hds, Disk.empty, Disk.delete, Disk.add, Disk.rate]

end Fs2.Props
