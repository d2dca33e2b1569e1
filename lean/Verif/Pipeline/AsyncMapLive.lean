import Verif.Pipeline.AsyncMap

/-!
# The non-deterministic parallel map: results, and when calls return

Helper lemmas for `Verif/Props/ParallelMap.lean`.
-/

namespace Fs2.AsyncMap

variable {f : Data → Except Err Data} {g : Data → Data} {n : Nat} {S : Source}

theorem exec_results {xs out : List Data} {s s' : St S.σ} {as : List Answer}
    (hf : ∀ x, f x = .ok (g x)) (h : Inv g S xs out s) (hx : Exec f n S s as s') :
    ∃ ys k rest, results as = ys.map .yield ++ List.replicate k .eod ∧
      (out ++ ys ++ rest).Perm (xs.map g) ∧ (0 < k → rest = []) := by
  induction hx generalizing out with
  | nil s =>
    obtain ⟨-, -, ⟨got, rest, h3, -, h5, -⟩, -, -⟩ := h
    refine ⟨[], 0, s.queue ++ (pending s.tasks).map g ++ rest.map g, rfl, ?_, by simp⟩
    subst h3
    rw [List.map_append]
    simp only [List.append_nil, ← List.append_assoc]
    exact h5.append_right _
  | @step s l s' as s'' hs he ih =>
    obtain ⟨h1, h2, h3⟩ := h.step hf hs
    obtain ⟨ys, k, rest, e1, e2, e3⟩ := ih h1
    cases l with
    | ret a =>
      cases a with
      | res r =>
        cases r with
        | yield x =>
          refine ⟨x :: ys, k, rest, ?_, by simpa [output] using e2, e3⟩
          simp [Lab.shown, results, e1]
        | eod =>
          have hp := (h3 rfl).1
          simp only [output, List.append_nil] at e2
          have hl1 := e2.length_eq
          have hl2 := hp.length_eq
          simp only [List.length_append] at hl1
          have hys : ys = [] := List.eq_nil_of_length_eq_zero (by omega)
          have hrest : rest = [] := List.eq_nil_of_length_eq_zero (by omega)
          subst hys hrest
          refine ⟨[], k + 1, [], ?_, e2, fun _ => rfl⟩
          simp [Lab.shown, results, e1, List.replicate_succ]
        | err e => exact absurd rfl (h2 e)
      | saved tp => exact ⟨ys, k, rest, by simpa [Lab.shown, results] using e1,
          by simpa [output] using e2, e3⟩
      | failed e => exact ⟨ys, k, rest, by simpa [Lab.shown, results] using e1,
          by simpa [output] using e2, e3⟩
    | _ => exact ⟨ys, k, rest, by simpa [Lab.shown] using e1, by simpa [output] using e2, e3⟩

/-! ## Steps inside a call -/

def Stage.weight : Stage → Nat
  | .run _ => 6 | .pushed => 4 | .counted => 3

def PC.weight (n : Nat) : PC → Nat
  | .idle => 0 | .fill i => 8 * (n - i) + 10 | .cond₁ => 9 | .cond₂ => 8 | .cond₃ => 7
  | .wait => 3 | .held => 2 | .asleep => 1 | .saveWait => 3 | .saveHeld => 2 | .saveAsleep => 1

def weight (n : Nat) (s : St S.σ) : Nat := (s.tasks.map Stage.weight).sum + s.pc.weight n

/-- `k` steps in a row in which no call begins or returns and nobody wakes up
without being notified. -/
inductive Quietly (f : Data → Except Err Data) (n : Nat) (S : Source) : St S.σ → Nat → St S.σ → Prop where
  | nil (s) : Quietly f n S s 0 s
  | step {s l s' s'' k} : Step f n S s l s' → l = .tau ∨ l = .closing → Quietly f n S s' k s'' →
      Quietly f n S s (k + 1) s''

theorem weight_step {s s' : St S.σ} {l : Lab} (hs : Step f n S s l s') (hl : l = .tau ∨ l = .closing) :
    weight n s' < weight n s := by
  cases hs <;> first | (simp at hl; done) | skip
  case read i x j hp hi hn =>
    simp only [weight, hp, PC.weight, List.map_append, List.map_cons, List.map_nil, List.sum_append,
      List.sum_cons, List.sum_nil, Stage.weight]
    omega
  case push l r x y ht _ _ => simp [weight, ht, Stage.weight]
  case throw l r x y ht _ _ => simp [weight, ht, Stage.weight]
  case count l r ht => simp [weight, ht, Stage.weight]
  case notify l r ht =>
    cases hp : s.pc <;> simp [weight, ht, Stage.weight, hp, wake, PC.weight] <;> omega
  all_goals
    simp_all [weight, PC.weight]
    try omega

theorem quietly_bound {s s' : St S.σ} {k : Nat} (h : Quietly f n S s k s') : k ≤ weight n s := by
  induction h with
  | nil => omega
  | step hs hl _ ih =>
    have := weight_step hs hl
    omega

theorem weight_le (s : St S.σ) : weight n s ≤ 6 * s.tasks.length + 8 * n + 10 := by
  have h1 : s.pc.weight n ≤ 8 * n + 10 := by cases s.pc <;> simp [PC.weight] <;> omega
  have h2 : ∀ l : List Stage, (l.map Stage.weight).sum ≤ 6 * l.length := by
    intro l
    induction l with
    | nil => simp
    | cons t l ih => cases t <;> simp [Stage.weight] <;> omega
  have := h2 s.tasks
  simp only [weight]
  omega

/-! ## Tasks that finish at once -/

/-- A task that has stored its result but has not yet left. -/
def Closing (s : St S.σ) : Prop := ∃ t ∈ s.tasks, t = .pushed ∨ t = .counted

/-- Executions in which nothing happens between a task storing its result and the task
decrementing the counter and notifying. -/
inductive Prompt (f : Data → Except Err Data) (n : Nat) (S : Source) : St S.σ → Prop where
  | init : Prompt f n S (init S)
  | step {s l s'} : Prompt f n S s → Step f n S s l s' → l = .closing ∨ ¬ Closing s →
      Prompt f n S s'

def Running (s : St S.σ) : Prop := ∃ x, Stage.run x ∈ s.tasks

def Work (s : St S.σ) : Prop := s.queue ≠ [] ∨ s.exc ≠ none ∨ Running s

structure Live (s : St S.σ) : Prop where
  count : s.inflight = flying s.tasks
  fill : ∀ i, s.pc = .fill i → 0 < i → Work s
  cond₁ : s.pc = .cond₁ → s.finished = true ∨ Work s
  wait : s.pc = .wait → Work s
  held : s.pc = .held → Running s
  asleep : s.pc = .asleep → Running s ∨ ((s.queue ≠ [] ∨ s.exc ≠ none) ∧ Closing s)
  saveHeld : s.pc = .saveHeld → Running s
  saveAsleep : s.pc = .saveAsleep → Running s ∨ Closing s

theorem running_of_flying {s : St S.σ} (h : ¬ Closing s) (h' : flying s.tasks ≠ 0) : Running s := by
  unfold Closing at h
  unfold Running
  generalize s.tasks = ts at *
  cases ts with
  | nil => simp [flying] at h'
  | cons t ts =>
    cases t with
    | run x => exact ⟨x, by simp⟩
    | pushed => exact absurd ⟨_, List.mem_cons_self, .inl rfl⟩ h
    | counted => exact absurd ⟨_, List.mem_cons_self, .inr rfl⟩ h

theorem live_init : Live (init S) := by constructor <;> simp [init, flying]

theorem Live.step {s s' : St S.σ} {l : Lab} (hn : 0 < n) (h : Live s) (hs : Step f n S s l s')
    (hl : l = .closing ∨ ¬ Closing s) : Live s' := by
  obtain ⟨h1, h2, h3, h4, h5, h6, h7, h8⟩ := h
  cases hs
  case callNext hp =>
    refine ⟨h1, ?_, by simp, by simp, by simp, by simp, by simp, by simp⟩
    intro i hi hpos
    cases hi
    rcases hl with hl | hl
    · cases hl
    · exact .inr (.inr (running_of_flying (s := s) hl (by omega)))
  case read i x j hp hi hnx =>
    refine ⟨by simp [h1, flying_append, flying], ?_, by simp, by simp, by simp, by simp, by simp, by simp⟩
    intro _ _ _
    exact .inr (.inr ⟨x, by simp⟩)
  case full i hp hi =>
    exact ⟨h1, by simp, fun _ => .inr (h2 i hp (by omega)), by simp, by simp, by simp, by simp, by simp⟩
  case open₁ hp hfin =>
    refine ⟨h1, by simp, by simp, fun _ => ?_, by simp, by simp, by simp, by simp⟩
    rcases h3 hp with h | h
    · simp [hfin] at h
    · exact h
  case open₂ hp hi =>
    refine ⟨h1, by simp, by simp, fun _ => ?_, by simp, by simp, by simp, by simp⟩
    rcases hl with hl | hl
    · cases hl
    · exact .inr (.inr (running_of_flying (s := s) hl (by omega)))
  case open₃ hp hi =>
    exact ⟨h1, by simp, by simp, fun _ => .inl hi, by simp, by simp, by simp, by simp⟩
  case block hp hq he =>
    refine ⟨h1, by simp, by simp, by simp, fun _ => ?_, by simp, by simp, by simp⟩
    rcases h4 hp with h | h | h
    · exact absurd hq h
    · exact absurd he h
    · exact h
  case sleep hp =>
    exact ⟨h1, by simp, by simp, by simp, by simp, fun _ => .inl (h5 hp), by simp, by simp⟩
  case wakeSpurious hp =>
    refine ⟨h1, by simp, by simp, fun _ => ?_, by simp, by simp, by simp, by simp⟩
    rcases h6 hp with h | ⟨h | h, -⟩
    · exact .inr (.inr h)
    · exact .inl h
    · exact .inr (.inl h)
  case push l r x y ht hlk hy =>
    have hq : s.queue ++ [y] ≠ [] := by simp
    have hc : Closing { s with tasks := l ++ .pushed :: r, queue := s.queue ++ [y] } :=
      ⟨.pushed, by simp, .inl rfl⟩
    refine ⟨by simp [h1, ht, flying_append, flying], fun _ _ _ => .inl hq, fun _ => .inr (.inl hq),
      fun _ => .inl hq, ?_, fun _ => .inr ⟨.inl hq, hc⟩, ?_, fun _ => .inr hc⟩
    · intro hp; simp only at hp; simp [hp, PC.locked] at hlk
    · intro hp; simp only at hp; simp [hp, PC.locked] at hlk
  case throw l r x e ht hlk hy =>
    have hq : some e ≠ none := by simp
    have hc : Closing { s with tasks := l ++ .pushed :: r, exc := some e } :=
      ⟨.pushed, by simp, .inl rfl⟩
    refine ⟨by simp [h1, ht, flying_append, flying], fun _ _ _ => .inr (.inl hq),
      fun _ => .inr (.inr (.inl hq)), fun _ => .inr (.inl hq), ?_, fun _ => .inr ⟨.inr hq, hc⟩, ?_,
      fun _ => .inr hc⟩
    · intro hp; simp only at hp; simp [hp, PC.locked] at hlk
    · intro hp; simp only at hp; simp [hp, PC.locked] at hlk
  case count l r ht =>
    have hR : Running s → Running { s with tasks := l ++ .counted :: r, inflight := s.inflight - 1 } := by
      rintro ⟨x, hx⟩
      refine ⟨x, ?_⟩
      rw [ht] at hx
      simpa using hx
    have hW : Work s → Work { s with tasks := l ++ .counted :: r, inflight := s.inflight - 1 } :=
      Or.imp id (Or.imp id hR)
    have hc : Closing { s with tasks := l ++ .counted :: r, inflight := s.inflight - 1 } :=
      ⟨.counted, by simp, .inr rfl⟩
    exact ⟨by simp only [h1, ht, flying_append, flying]; omega, fun i hi h => hW (h2 i hi h),
      fun hp => (h3 hp).imp id hW, fun hp => hW (h4 hp), fun hp => hR (h5 hp),
      fun hp => (h6 hp).imp hR (fun h => ⟨h.1, hc⟩), fun hp => hR (h7 hp), fun _ => .inr hc⟩
  case notify l r ht =>
    have hR : Running s → Running { s with tasks := l ++ r, pc := wake s.pc } := by
      rintro ⟨x, hx⟩
      refine ⟨x, ?_⟩
      rw [ht] at hx
      simpa using hx
    have hW : Work s → Work { s with tasks := l ++ r, pc := wake s.pc } :=
      Or.imp id (Or.imp id hR)
    have hcount : s.inflight = flying (l ++ r) := by
      rw [h1, ht]
      simp [flying_append, flying]
    cases hp : s.pc <;> simp only [hp, wake] at hR hW ⊢ <;>
      constructor <;> simp only [reduceCtorEq, false_implies, PC.fill.injEq, implies_true] <;>
      first
      | exact hcount
      | skip
    · intro i hi hpos
      subst hi
      exact hW (h2 _ hp hpos)
    · exact fun _ => (h3 hp).imp id hW
    · exact fun _ => hW (h4 hp)
    · exact fun _ => hR (h5 hp)
    · intro _
      rcases h6 hp with h | ⟨h | h, -⟩
      · exact hW (.inr (.inr h))
      · exact .inl h
      · exact .inr (.inl h)
    · exact fun _ => hR (h7 hp)
  case saveBlock hp hi he =>
    refine ⟨h1, by simp, by simp, by simp, by simp, by simp, fun _ => ?_, by simp⟩
    rcases hl with hl | hl
    · cases hl
    · exact running_of_flying (s := s) hl (by omega)
  case saveSleep hp =>
    exact ⟨h1, by simp, by simp, by simp, by simp, by simp, by simp, fun _ => .inl (h7 hp)⟩
  case readEod => exact ⟨h1, by simp, fun _ => .inl rfl, by simp, by simp, by simp, by simp, by simp⟩
  all_goals exact ⟨h1, by simp, by simp, by simp, by simp, by simp, by simp, by simp⟩

theorem live {s : St S.σ} (hn : 0 < n) (h : Prompt f n S s) : Live s := by
  induction h with
  | init => exact live_init
  | step _ hs hl ih => exact ih.step hn hs hl

/-- Inside a call some step is possible, if tasks finish at once. -/
theorem not_stuck {s : St S.σ} (h : Live s) (hpc : s.pc ≠ .idle)
    (hnext : ∃ r, S.next s.inner = some r) :
    ∃ l s', Step f n S s l s' ∧ (l = .closing ∨ ¬ Closing s) ∧ l ≠ .spurious ∧ l ≠ .call := by
  by_cases hcl : Closing s
  · obtain ⟨t, ht, rfl | rfl⟩ := hcl
    · obtain ⟨l, r, hlr⟩ := List.append_of_mem ht
      exact ⟨_, _, .count hlr, .inl rfl, by simp, by simp⟩
    · obtain ⟨l, r, hlr⟩ := List.append_of_mem ht
      exact ⟨_, _, .notify hlr, .inl rfl, by simp, by simp⟩
  have hrun : s.pc.locked = false → Running s →
      ∃ l s', Step f n S s l s' ∧ (l = .closing ∨ ¬ Closing s) ∧ l ≠ .spurious ∧ l ≠ .call := by
    rintro hlk ⟨x, hx⟩
    obtain ⟨l, r, hlr⟩ := List.append_of_mem hx
    cases hfx : f x with
    | ok y => exact ⟨_, _, .push hlr hlk hfx, .inr hcl, by simp, by simp⟩
    | error e => exact ⟨_, _, .throw hlr hlk hfx, .inr hcl, by simp, by simp⟩
  obtain ⟨⟨r, j⟩, hn⟩ := hnext
  cases hp : s.pc with
  | idle => exact absurd hp hpc
  | fill i =>
    by_cases hi : i < n
    · cases r with
      | yield x => exact ⟨_, _, .read hp hi hn, .inr hcl, by simp, by simp⟩
      | eod => exact ⟨_, _, .readEod hp hi hn, .inr hcl, by simp, by simp⟩
      | err e => exact ⟨_, _, .readErr hp hi hn, .inr hcl, by simp, by simp⟩
    · exact ⟨_, _, .full hp (by omega), .inr hcl, by simp, by simp⟩
  | cond₁ =>
    cases hfin : s.finished with
    | true => exact ⟨_, _, .shut₁ hp hfin, .inr hcl, by simp, by simp⟩
    | false => exact ⟨_, _, .open₁ hp hfin, .inr hcl, by simp, by simp⟩
  | cond₂ =>
    by_cases h0 : s.inflight = 0
    · exact ⟨_, _, .shut₂ hp h0, .inr hcl, by simp, by simp⟩
    · exact ⟨_, _, .open₂ hp h0, .inr hcl, by simp, by simp⟩
  | cond₃ =>
    by_cases h0 : s.queue = []
    · exact ⟨_, _, .shut₃ hp h0, .inr hcl, by simp, by simp⟩
    · exact ⟨_, _, .open₃ hp h0, .inr hcl, by simp, by simp⟩
  | wait =>
    cases he : s.exc with
    | some e => exact ⟨_, _, .rethrow hp he, .inr hcl, by simp, by simp⟩
    | none =>
      cases hq : s.queue with
      | nil => exact ⟨_, _, .block hp hq he, .inr hcl, by simp, by simp⟩
      | cons x q => exact ⟨_, _, .take hp he hq, .inr hcl, by simp, by simp⟩
  | held => exact ⟨_, _, .sleep hp, .inr hcl, by simp, by simp⟩
  | asleep =>
    rcases h.asleep hp with h | ⟨-, h⟩
    · exact hrun (by simp [hp, PC.locked]) h
    · exact absurd h hcl
  | saveWait =>
    cases he : s.exc with
    | some e => exact ⟨_, _, .saveThrow hp he, .inr hcl, by simp, by simp⟩
    | none =>
      by_cases h0 : s.inflight = 0
      · cases hr : S.record true s.inner with
        | ok t => exact ⟨_, _, .save hp h0 he hr, .inr hcl, by simp, by simp⟩
        | error e => exact ⟨_, _, .saveErr hp h0 he hr, .inr hcl, by simp, by simp⟩
      · exact ⟨_, _, .saveBlock hp h0 he, .inr hcl, by simp, by simp⟩
  | saveHeld => exact ⟨_, _, .saveSleep hp, .inr hcl, by simp, by simp⟩
  | saveAsleep =>
    rcases h.saveAsleep hp with h | h
    · exact hrun (by simp [hp, PC.locked]) h
    · exact absurd h hcl

/-! ## Waiting for ever -/

/-- The caller waits for a result and none will come. -/
structure Hopeless (s : St S.σ) : Prop where
  pc : s.pc = .wait ∨ s.pc = .held ∨ s.pc = .asleep
  tasks : s.tasks = []
  queue : s.queue = []
  exc : s.exc = none

theorem Hopeless.step {s s' : St S.σ} {l : Lab} (h : Hopeless s) (hs : Step f n S s l s') :
    Hopeless s' ∧ l.shown = [] := by
  obtain ⟨h1, h2, h3, h4⟩ := h
  cases hs <;> simp_all [Lab.shown] <;> constructor <;> simp_all

theorem Hopeless.exec {s s' : St S.σ} {as : List Answer} (h : Hopeless s)
    (hx : Exec f n S s as s') : as = [] := by
  induction hx with
  | nil => rfl
  | step hs _ ih =>
    obtain ⟨h1, h2⟩ := h.step hs
    rw [h2, ih h1]
    rfl

end Fs2.AsyncMap
