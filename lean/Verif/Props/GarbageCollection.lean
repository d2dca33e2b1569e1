import Mathlib.Data.List.Induction
import Verif.Utils.GarbageCollection

/-!
# C131: what is collected during training, and when

Collections happen at every n-th step since the start of the run; nothing that is reachable is freed; what becomes unreachable before
its first collection is freed within n steps. Objects that once survived a collection are never freed while the trainer runs.
-/

namespace Fs2.Props

open Fs2.Gc

/-- The number of steps among the events. -/
def gcSteps (evs : List Ev) : Nat := evs.count .step

/-- A period is refused exactly if it is less than 1; otherwise the collector has the period of the configuration, and without one
it does nothing. -/
theorem C131_refused (x : Option Int) :
    (create x = none ↔ ∃ n : Int, x = some n ∧ n < 1) ∧
    (∀ n : Nat, create x = some (some n) ↔ x = some (n : Int) ∧ 1 ≤ n) ∧
    (create x = some none ↔ x = none) := by
  cases x with
  | none => simp [create]
  | some k =>
    by_cases hk : k < 1
    · simp only [create, if_pos hk]
      refine ⟨by simpa using hk, ?_, by simp⟩
      intro n
      simp only [reduceCtorEq, Option.some.injEq, false_iff, not_and]
      omega
    · simp only [create, if_neg hk]
      refine ⟨by simpa using hk, ?_, by simp⟩
      intro n
      simp only [Option.some.injEq]
      omega

example : create (some 0) = none ∧ create (some 5) = some (some 5) := by decide

theorem exec_snoc (c : Option Nat) (evs : List Ev) (e : Ev) (s : St) :
    exec c (evs ++ [e]) s = exec1 c (exec c evs s) e := by simp [exec]

theorem gc_exec_append (c : Option Nat) (a b : List Ev) (s : St) : exec c (a ++ b) s = exec c b (exec c a s) := by
  simp [exec]

/-- The invariant of the counter: the steps since the last collection. -/
theorem gc_counter {n : Nat} (hn : 1 ≤ n) (s : St) (h0 : s.count = 0) (hl : s.log = []) (evs : List Ev) :
    (exec (some n) evs s).count < n ∧
    (∃ q, gcSteps evs = n * q + (exec (some n) evs s).count) ∧
    (exec (some n) evs s).stepNr = s.stepNr + gcSteps evs ∧
    (exec (some n) evs s).auto = s.auto ∧
    (exec (some n) evs s).log =
      (List.range' (s.stepNr + 1) (gcSteps evs)).filter fun t => decide (n ∣ t - s.stepNr) := by
  induction evs using List.reverseRecOn with
  | nil => exact ⟨by simp [exec, h0]; omega, ⟨0, by simp [exec, h0, gcSteps]⟩, by simp [exec, gcSteps], rfl,
      by simp [exec, gcSteps, hl]⟩
  | append_singleton evs e ih =>
    rw [exec_snoc]
    obtain ⟨h1, ⟨q, h2⟩, h3, ha, h4⟩ := ih
    cases e with
    | alloc i =>
      have : gcSteps (evs ++ [.alloc i]) = gcSteps evs := by simp [gcSteps, List.count_append]
      rw [this]; exact ⟨h1, ⟨q, h2⟩, h3, ha, h4⟩
    | drop i =>
      have : gcSteps (evs ++ [.drop i]) = gcSteps evs := by simp [gcSteps, List.count_append]
      rw [this]; exact ⟨h1, ⟨q, h2⟩, h3, ha, h4⟩
    | step =>
      have hs : gcSteps (evs ++ [.step]) = gcSteps evs + 1 := by simp [gcSteps, List.count_append]
      rw [hs, List.range'_concat, List.filter_append, ← h4]
      have ht : s.stepNr + 1 + 1 * gcSteps evs - s.stepNr = gcSteps evs + 1 := by omega
      by_cases hc : (exec (some n) evs s).count + 1 = n
      · have hd : n ∣ gcSteps evs + 1 := ⟨q + 1, by rw [h2, Nat.mul_add]; omega⟩
        simp only [exec1, step, if_pos hc, collect]
        refine ⟨by omega, ⟨q + 1, by rw [h2, Nat.mul_add]; omega⟩, by omega, ha, ?_⟩
        rw [List.filter_cons_of_pos (by rw [ht]; simpa using hd), h3]
        simp only [List.filter_nil, List.append_cancel_left_eq, List.cons.injEq, and_true]
        omega
      · have hd : ¬ n ∣ gcSteps evs + 1 := by
          intro hd
          rw [h2, Nat.add_assoc] at hd
          have := Nat.le_of_dvd (by omega) ((Nat.dvd_add_right ⟨q, rfl⟩).1 hd)
          omega
        simp only [exec1, step, if_neg hc]
        refine ⟨by omega, ⟨q, by omega⟩, by omega, ha, ?_⟩
        rw [List.filter_cons_of_neg (by rw [ht]; simpa using hd)]
        simp

/-- In a run that starts after the step `s.stepNr`, collections happen exactly at the steps whose distance from that step is a
multiple of the period. -/
theorem C131_when {n : Nat} (hn : 1 ≤ n) (s : St) (h0 : s.count = 0) (hl : s.log = []) (evs : List Ev) :
    (run (some n) evs s).log =
      (List.range' (s.stepNr + 1) (gcSteps evs)).filter fun t => decide (n ∣ t - s.stepNr) := by
  have := (gc_counter hn (enable (some n) true s) (by simpa [enable, collect] using h0)
    (by simpa [enable, collect] using hl) evs).2.2.2.2
  simpa [run, enable, collect] using this

example : (run (some 2) [.step, .alloc 1, .step, .step, .step, .step] ⟨true, [], 0, 0, []⟩).log = [2, 4] := by decide

/-- After a resumed run the collections are not at the multiples of the period, unless the restored step is one: then none of them
is. -/
theorem C131_resumed_negation {n : Nat} (hn : 1 ≤ n) (s : St) (h0 : s.count = 0) (hl : s.log = []) (evs : List Ev)
    (hr : ¬ n ∣ s.stepNr) : ∀ t ∈ (run (some n) evs s).log, ¬ n ∣ t := by
  intro t ht hd
  rw [C131_when hn s h0 hl, List.mem_filter, List.mem_range'_1] at ht
  obtain ⟨⟨h1, -⟩, h2⟩ := ht
  have h2 : n ∣ t - s.stepNr := by simpa using h2
  have : n ∣ t - (t - s.stepNr) := Nat.dvd_sub hd h2
  rw [Nat.sub_sub_self (by omega)] at this
  exact hr this

example : (run (some 2) [.step, .step, .step, .step] ⟨true, [], 0, 5, []⟩).log = [7, 9] := by decide

/-- While the trainer runs, the automatic collections of CPython are off; afterwards they are on, unless no collector is configured:
then the setting is not touched. -/
theorem C131_automatic (c : Option Nat) (hc : ∀ n, c = some n → 1 ≤ n) (s : St) (h0 : s.count = 0) (hl : s.log = [])
    (evs : List Ev) :
    (exec c evs (enable c true s)).auto = (c.isNone && s.auto) ∧ (run c evs s).auto = (c.isSome || s.auto) := by
  cases c with
  | some n =>
    refine ⟨?_, by simp [run, enable]⟩
    have := (gc_counter (hc n rfl) (enable (some n) true s) (by simpa [enable, collect] using h0)
      (by simpa [enable, collect] using hl) evs).2.2.2.1
    simpa [enable, collect] using this
  | none =>
    have : ∀ evs : List Ev, (exec none evs s).auto = s.auto := by
      intro evs
      induction evs using List.reverseRecOn with
      | nil => rfl
      | append_singleton evs e ih => rw [exec_snoc]; cases e <;> simpa [exec1, step] using ih
    simp [run, enable, this]

/-- A program that had turned automatic collections off finds them on after training. -/
theorem C131_setting_negation (n : Nat) (s : St) (evs : List Ev) (hs : s.auto = false) :
    (run (some n) evs s).auto ≠ s.auto := by simp [run, enable, hs]

theorem mem_collect_of {g : Nat} {s : St} {o : Obj} (ho : o ∈ s.heap) (h : g < o.gen ∨ o.live = true) :
    (if o.gen ≤ g then { o with gen := min (g + 1) 2 } else o) ∈ (collect g s).heap := by
  simp only [collect, List.mem_map, List.mem_filter]
  exact ⟨o, ⟨ho, by simpa using h⟩, rfl⟩

/-- When training starts, all garbage is freed, also that of the oldest generation. -/
theorem C131_start (n : Nat) (s : St) (hg : ∀ o ∈ s.heap, o.gen ≤ 2) : ∀ o ∈ (enable (some n) true s).heap, o.live = true := by
  intro o ho
  simp only [enable, if_true, collect, List.mem_map, List.mem_filter] at ho
  obtain ⟨p, ⟨hp, hk⟩, rfl⟩ := ho
  have := hg p hp
  have hl : p.live = true := by
    simp only [Bool.or_eq_true, decide_eq_true_eq] at hk
    exact hk.resolve_left (by omega)
  split <;> exact hl

example : (enable (some 3) true ⟨true, [⟨1, 2, false⟩, ⟨2, 0, true⟩], 0, 0, []⟩).heap = [⟨2, 2, true⟩] := by decide

/-- Nothing that the program still reaches is freed. -/
theorem C131_live (c : Option Nat) (s : St) (evs : List Ev) {o : Obj} (ho : o ∈ s.heap) (hl : o.live = true)
    (hd : Ev.drop o.id ∉ evs) : ∃ o' ∈ (run c evs s).heap, o'.id = o.id ∧ o'.live = true := by
  have key : ∀ (evs : List Ev) (s : St), Ev.drop o.id ∉ evs → (∃ o' ∈ s.heap, o'.id = o.id ∧ o'.live = true) →
      ∃ o' ∈ (exec c evs s).heap, o'.id = o.id ∧ o'.live = true := by
    intro evs
    induction evs with
    | nil => exact fun _ _ h => h
    | cons e evs ih =>
      intro s hd h
      simp only [List.mem_cons, not_or] at hd
      apply ih (exec1 c s e) hd.2
      obtain ⟨o', h1, h2, h3⟩ := h
      cases e with
      | alloc i => exact ⟨o', by simp [exec1, h1], h2, h3⟩
      | drop i =>
        refine ⟨o', ?_, h2, h3⟩
        simp only [exec1, List.mem_map]
        refine ⟨o', h1, if_neg ?_⟩
        intro hi
        exact hd.1 (by rw [← h2, hi])
      | step =>
        cases c with
        | none => exact ⟨o', h1, h2, h3⟩
        | some n =>
          simp only [exec1, step]
          split
          · refine ⟨_, mem_collect_of (s := { s with stepNr := s.stepNr + 1 }) (g := 1) h1 (Or.inr h3), ?_⟩
            split <;> exact ⟨h2, h3⟩
          · exact ⟨o', h1, h2, h3⟩
  have hin : ∃ o' ∈ (enable c true s).heap, o'.id = o.id ∧ o'.live = true := by
    cases c with
    | none => exact ⟨o, ho, rfl, hl⟩
    | some n =>
      refine ⟨_, mem_collect_of (s := { s with auto := false }) (g := 2) ho (Or.inr hl), ?_⟩
      split <;> exact ⟨rfl, hl⟩
  have := key evs _ hd hin
  cases c <;> simpa [run, enable] using this

/-- What is unreachable and has not survived a collection, is freed when `n` steps have ended. -/
theorem gc_young {n : Nat} {i : Nat} (evs : List Ev) (s : St) (hc : s.count < n) (ha : Ev.alloc i ∉ evs)
    (hy : ∀ o ∈ s.heap, o.id = i → o.live = false ∧ o.gen ≤ 1) (hs : n ≤ s.count + gcSteps evs) :
    ∀ o ∈ (exec (some n) evs s).heap, o.id ≠ i := by
  have stay : ∀ (evs : List Ev) (s : St), Ev.alloc i ∉ evs → (∀ o ∈ s.heap, o.id ≠ i) →
      ∀ o ∈ (exec (some n) evs s).heap, o.id ≠ i := by
    intro evs
    induction evs with
    | nil => exact fun _ _ h => h
    | cons e evs ih =>
      intro s ha h
      simp only [List.mem_cons, not_or] at ha
      apply ih (exec1 (some n) s e) ha.2
      cases e with
      | alloc j =>
        intro o ho
        simp only [exec1, List.mem_append, List.mem_singleton] at ho
        rcases ho with ho | rfl
        · exact h o ho
        · rintro rfl; exact ha.1 rfl
      | drop j =>
        intro o ho
        simp only [exec1, List.mem_map] at ho
        obtain ⟨p, hp, rfl⟩ := ho
        split <;> exact h p hp
      | step =>
        simp only [exec1, step]
        split
        · intro o ho
          simp only [collect, List.mem_map, List.mem_filter] at ho
          obtain ⟨p, ⟨hp, -⟩, rfl⟩ := ho
          split <;> exact h p hp
        · exact h
  induction evs generalizing s with
  | nil => simp [gcSteps] at hs; omega
  | cons e evs ih =>
    have ha' := ha
    simp only [List.mem_cons, not_or] at ha
    cases e with
    | alloc j =>
      refine ih (exec1 (some n) s (.alloc j)) hc ha.2 ?_ (by simpa [gcSteps, exec1] using hs)
      intro o ho hi
      simp only [exec1, List.mem_append, List.mem_singleton] at ho
      rcases ho with ho | rfl
      · exact hy o ho hi
      · exact absurd (by simpa using hi.symm) (fun h : i = j => ha.1 (by rw [h]))
    | drop j =>
      refine ih (exec1 (some n) s (.drop j)) hc ha.2 ?_ (by simpa [gcSteps, exec1] using hs)
      intro o ho
      simp only [exec1, List.mem_map] at ho
      obtain ⟨p, hp, rfl⟩ := ho
      split
      · exact fun hi => ⟨rfl, (hy p hp hi).2⟩
      · exact hy p hp
    | step =>
      by_cases h : s.count + 1 = n
      · refine stay evs (exec1 (some n) s .step) ha.2 ?_
        simp only [exec1, step, if_pos h]
        intro o ho
        simp only [collect, List.mem_map, List.mem_filter] at ho
        obtain ⟨p, ⟨hp, hk⟩, rfl⟩ := ho
        have : p.id ≠ i := by
          intro hi
          obtain ⟨h1, h2⟩ := hy p hp hi
          simp [h1] at hk
          omega
        split <;> exact this
      · refine ih (exec1 (some n) s .step) ?_ ha.2 ?_ ?_
        · simp only [exec1, step, if_neg h]; omega
        · simpa only [exec1, step, if_neg h] using hy
        · simp only [exec1, step, if_neg h]
          simp [gcSteps] at hs ⊢
          omega

/-- An object that is allocated and becomes unreachable within one step of the trainer is freed before `n` further steps have
ended. -/
theorem C131_young {n i : Nat} (hn : 1 ≤ n) (s : St) (h0 : s.count = 0) (hl : s.log = []) (pre mid post : List Ev)
    (hi : ∀ o ∈ s.heap, o.id ≠ i) (hpre : Ev.alloc i ∉ pre) (hmid : Ev.alloc i ∉ mid) (hpost : Ev.alloc i ∉ post)
    (hstep : Ev.step ∉ mid) (hs : n ≤ gcSteps post) :
    ∀ o ∈ (run (some n) (pre ++ .alloc i :: mid ++ .drop i :: post) s).heap, o.id ≠ i := by
  have fresh : ∀ evs : List Ev, Ev.alloc i ∉ evs → ∀ o ∈ (exec (some n) evs (enable (some n) true s)).heap, o.id ≠ i := by
    intro evs
    induction evs using List.reverseRecOn with
    | nil =>
      intro _ o ho
      simp only [exec, List.foldl_nil, enable, if_true, collect, List.mem_map, List.mem_filter] at ho
      obtain ⟨p, ⟨hp, -⟩, rfl⟩ := ho
      split <;> exact hi p hp
    | append_singleton evs e ih =>
      intro ha
      simp only [List.mem_append, List.mem_singleton, not_or] at ha
      have ih := ih ha.1
      rw [exec_snoc]
      cases e with
      | alloc j =>
        intro o ho
        simp only [exec1, List.mem_append, List.mem_singleton] at ho
        rcases ho with ho | rfl
        · exact ih o ho
        · rintro rfl; exact ha.2 rfl
      | drop j =>
        intro o ho
        simp only [exec1, List.mem_map] at ho
        obtain ⟨p, hp, rfl⟩ := ho
        split <;> exact ih p hp
      | step =>
        simp only [exec1, step]
        split
        · intro o ho
          simp only [collect, List.mem_map, List.mem_filter] at ho
          obtain ⟨p, ⟨hp, -⟩, rfl⟩ := ho
          split <;> exact ih p hp
        · exact ih
  have mids : ∀ (mid : List Ev) (t : St), Ev.alloc i ∉ mid → Ev.step ∉ mid → (∀ o ∈ t.heap, o.id = i → o.gen = 0) →
      ∀ o ∈ (exec (some n) mid t).heap, o.id = i → o.gen = 0 := by
    intro mid
    induction mid with
    | nil => exact fun _ _ _ h => h
    | cons e mid ih =>
      intro t ha hs h
      simp only [List.mem_cons, not_or] at ha hs
      apply ih (exec1 (some n) t e) ha.2 hs.2
      cases e with
      | alloc j =>
        intro o ho
        simp only [exec1, List.mem_append, List.mem_singleton] at ho
        rcases ho with ho | rfl
        · exact h o ho
        · exact fun _ => rfl
      | drop j =>
        intro o ho
        simp only [exec1, List.mem_map] at ho
        obtain ⟨p, hp, rfl⟩ := ho
        split <;> exact h p hp
      | step => exact absurd rfl hs.1
  have hcount := fun evs => (gc_counter hn (enable (some n) true s) (by simpa [enable, collect] using h0)
    (by simpa [enable, collect] using hl) evs).1
  have hsplit : pre ++ .alloc i :: mid ++ .drop i :: post = ((pre ++ [.alloc i]) ++ mid ++ [.drop i]) ++ post := by simp
  have hrun : ∀ evs, (run (some n) evs s).heap = (exec (some n) evs (enable (some n) true s)).heap := fun _ => rfl
  rw [hrun, hsplit, gc_exec_append]
  refine gc_young post _ (hcount _) hpost ?_ (by omega)
  intro o ho hoi
  rw [exec_snoc] at ho
  simp only [exec1, List.mem_map] at ho
  obtain ⟨p, hp, rfl⟩ := ho
  have hpi : p.id = i := by revert hoi; split <;> exact id
  rw [if_pos hpi]
  rw [gc_exec_append] at hp
  have := mids mid _ hmid hstep (fun o ho hoi => by
    rw [exec_snoc] at ho
    simp only [exec1, List.mem_append, List.mem_singleton] at ho
    rcases ho with ho | rfl
    · exact absurd hoi (fresh pre hpre o ho)
    · rfl) p hp hpi
  exact ⟨rfl, by simp [this]⟩

example : (run (some 2) [.step, .alloc 7, .drop 7, .step, .step] ⟨true, [⟨1, 0, true⟩], 0, 0, []⟩).heap = [⟨1, 2, true⟩] := by
  decide

theorem gc_old (n : Nat) (i : Nat) (evs : List Ev) (s : St)
    (h : ∃ o ∈ s.heap, o.id = i ∧ o.gen = 2 ∧ o.live = false) :
    ∃ o ∈ (exec (some n) evs s).heap, o.id = i ∧ o.gen = 2 ∧ o.live = false := by
  induction evs generalizing s with
  | nil => exact h
  | cons e evs ih =>
    apply ih (exec1 (some n) s e)
    obtain ⟨o, h1, h2, h3, h4⟩ := h
    cases e with
    | alloc j => exact ⟨o, by simp [exec1, h1], h2, h3, h4⟩
    | drop j =>
      refine ⟨_, by simp only [exec1, List.mem_map]; exact ⟨o, h1, rfl⟩, ?_⟩
      split
      · exact ⟨h2, h3, rfl⟩
      · exact ⟨h2, h3, h4⟩
    | step =>
      simp only [exec1, step]
      split
      · refine ⟨o, ?_, h2, h3, h4⟩
        have := mem_collect_of (s := { s with stepNr := s.stepNr + 1 }) (g := 1) h1 (Or.inl (by omega))
        rwa [if_neg (by omega)] at this
      · exact ⟨o, h1, h2, h3, h4⟩

/-- Although the configuration says that `gc.collect()` is called every `n` steps, only the younger generations are collected: what
is reachable when training starts, is never freed while the trainer runs, whatever happens after it became unreachable. -/
theorem C131_old_negation (n : Nat) (s : St) {o : Obj} (ho : o ∈ s.heap) (hl : o.live = true) (hg : o.gen ≤ 2) (evs : List Ev) :
    ∃ o' ∈ (run (some n) (.drop o.id :: evs) s).heap, o'.id = o.id ∧ o'.live = false := by
  have hin := mem_collect_of (s := { s with auto := false }) (g := 2) ho (Or.inr hl)
  rw [if_pos hg] at hin
  obtain ⟨p, h1, h2, -, h4⟩ := gc_old n o.id evs (exec1 (some n) (enable (some n) true s) (.drop o.id))
    ⟨{ o with gen := 2, live := false }, by
      simp only [exec1, enable, if_true, List.mem_map]
      exact ⟨_, hin, by simp⟩, rfl, rfl, rfl⟩
  exact ⟨p, h1, h2, h4⟩

/-- The same for what was allocated during the run and was reachable at a collection. -/
theorem C131_survivor_negation (n : Nat) (s : St) {o : Obj} (ho : o ∈ s.heap) (hl : o.live = true) (hg : o.gen ≤ 2)
    (hc : s.count + 1 = n) (evs : List Ev) :
    ∃ o' ∈ (exec (some n) (.step :: .drop o.id :: evs) s).heap, o'.id = o.id ∧ o'.live = false := by
  have hin := mem_collect_of (s := { s with stepNr := s.stepNr + 1 }) (g := 1) ho (Or.inr hl)
  have hin2 : { o with gen := 2 } ∈ (exec1 (some n) s .step).heap := by
    simp only [exec1, step, if_pos hc]
    split at hin
    · exact hin
    · have : o.gen = 2 := by omega
      rw [← this]; exact hin
  obtain ⟨p, h1, h2, -, h4⟩ := gc_old n o.id evs (exec1 (some n) (exec1 (some n) s .step) (.drop o.id))
    ⟨{ o with gen := 2, live := false }, by
      rw [exec1]
      simp only [List.mem_map]
      exact ⟨_, hin2, by simp⟩, rfl, rfl, rfl⟩
  exact ⟨p, h1, h2, h4⟩

example : (run (some 1) [.alloc 3, .step, .drop 3, .step, .step] ⟨true, [], 0, 0, []⟩).heap = [⟨3, 2, false⟩] := by decide

end Fs2.Props
