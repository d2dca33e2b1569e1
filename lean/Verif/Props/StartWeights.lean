import Verif.Trainer.StartWeights

/-!
# C125: the weights with which a run begins

All processes of a run begin with the same parameters: those of the last checkpoint from which the run can go on, or else those
of the model that was loaded or made when the run began.
-/

namespace Fs2.Props

open Fs2.Start

/-- `s` is the step of the last checkpoint that has the state of the trainer. -/
def LastFullIs (dir : List Ckpt) (s : Nat) : Prop :=
  (∃ c ∈ dir, c.full = true ∧ c.step = s) ∧ ∀ c ∈ dir, c.full = true → c.step ≤ s

/-- All checkpoints, if any, are of the model only. -/
def NoneFull (dir : List Ckpt) : Prop := ∀ c ∈ dir, c.full = false

theorem mem_stepNumbers_full {dir : List Ckpt} {n : Nat} :
    n ∈ stepNumbers true dir ↔ ∃ c ∈ dir, c.full = true ∧ c.step = n := by
  simp [stepNumbers, and_assoc]

theorem lastFull_of {dir : List Ckpt} {s : Nat} (h : LastFullIs dir s) : lastFull dir = some s := by
  unfold lastFull
  rw [List.max?_eq_some_iff]
  refine ⟨mem_stepNumbers_full.2 h.1, fun b hb => ?_⟩
  obtain ⟨c, hc, hf, rfl⟩ := mem_stepNumbers_full.1 hb
  exact h.2 c hc hf

theorem stepNumbers_noneFull {dir : List Ckpt} (h : NoneFull dir) : stepNumbers true dir = [] := by
  apply List.eq_nil_iff_forall_not_mem.2
  intro n hn
  obtain ⟨c, hc, hf, -⟩ := mem_stepNumbers_full.1 hn
  rw [h c hc] at hf
  cases hf

theorem lastFull_noneFull {dir : List Ckpt} (h : NoneFull dir) : lastFull dir = none := by
  rw [lastFull, stepNumbers_noneFull h]; rfl

theorem hasFull_noneFull {dir : List Ckpt} (h : NoneFull dir) : hasCheckpoint true dir = false := by
  rw [hasCheckpoint, stepNumbers_noneFull h]; rfl

theorem hasFull_of {dir : List Ckpt} {s : Nat} (h : LastFullIs dir s) : hasCheckpoint true dir = true := by
  have hm := mem_stepNumbers_full.2 h.1
  simp only [hasCheckpoint, decide_eq_true_eq]
  exact List.length_pos_of_mem hm

theorem hasAny_iff {dir : List Ckpt} : hasCheckpoint false dir = true ↔ dir ≠ [] := by
  cases dir <;> simp [hasCheckpoint, stepNumbers]

/-- Without a checkpoint to go on from, rank 0 has the model that the run begins with. -/
theorem bootstrap_zero {o : Origin} {m : Bool} {dir : List Ckpt} (h : NoneFull dir) : bootstrap o m dir 0 = some .initial := by
  cases o <;> simp [bootstrap, hasFull_noneFull h, loadModel, createNew]

/-- And every other process has none, or one of its own. -/
theorem bootstrap_pos {o : Origin} {m : Bool} {dir : List Ckpt} (h : NoneFull dir) {r : Nat} (hr : 0 < r) :
    bootstrap o m dir r = if m then none else some (.fresh r) := by
  have : r ≠ 0 := by omega
  cases o <;> simp [bootstrap, hasFull_noneFull h, loadModel, createNew, this]

theorem fsdp_never_refused {o : Origin} {m : Bool} {g : Gangs} {dir : List Ckpt} {r : Nat} (hs : 1 < g.sdp) :
    ∃ v, toFsdpVal g (!hasCheckpoint false dir) (bootstrap o m dir) r = .ok v := by
  have h1 : g.sdp ≠ 1 := by omega
  unfold toFsdpVal
  rw [if_neg h1]
  by_cases hd : dir = []
  · subst hd
    have hn : NoneFull [] := by intro c hc; cases hc
    by_cases hr : r = 0
    · subst hr
      rw [bootstrap_zero hn]
      exact ⟨_, rfl⟩
    · rw [bootstrap_pos hn (by omega)]
      cases m <;> simp [hasCheckpoint, stepNumbers, heldOf, Fs2.Fsdp.initializerOf, hr]
  · rw [hasAny_iff.2 hd]
    cases hb : bootstrap o m dir r <;> simp [heldOf, Fs2.Fsdp.initializerOf]

/-- **C125.** A run is refused exactly if it asks for DDP although the gangs shard; in particular it is not refused if it asks
for FSDP and the gangs do not shard. -/
theorem C125_accepted (o : Origin) (m : Bool) (mode : Mode) (g : Gangs) (dir : List Ckpt) (r : Nat) (hr : r < g.rdp * g.sdp) :
    (∃ e, begin o m mode g dir r = .error e) ↔ mode = .ddp ∧ 1 < g.sdp := by
  have hpos : 0 < g.rdp * g.sdp := by omega
  have hs : 0 < g.sdp := Nat.pos_of_mul_pos_left hpos
  have hd : 0 < g.rdp := Nat.pos_of_mul_pos_right hpos
  unfold begin wrap
  by_cases h1 : g.rdp * g.sdp = 1
  · have : g.sdp = 1 := Nat.eq_one_of_mul_eq_one_left h1
    rw [if_pos h1]
    simp [this]
  · rw [if_neg h1]
    by_cases h2 : g.sdp = 1
    · have h3 : 1 < g.rdp := by rw [h2] at h1; omega
      cases mode <;> simp [effectiveMode, h2, h3, toDdp]
    · have h3 : 1 < g.sdp := by omega
      cases mode
      · simp [effectiveMode, toDdp, h3]
      · obtain ⟨v, hv⟩ := fsdp_never_refused (o := o) (m := m) (dir := dir) (r := r) h3
        simp [effectiveMode, h2, hv]

example : ∃ e, begin .loaded true .ddp ⟨1, 2⟩ [] 1 = .error e :=
  (C125_accepted .loaded true .ddp ⟨1, 2⟩ [] 1 (by decide)).2 ⟨rfl, by decide⟩

example : ¬ ∃ e, begin .loaded true .fsdp ⟨4, 1⟩ [] 3 = .error e := fun h =>
  absurd ((C125_accepted .loaded true .fsdp ⟨4, 1⟩ [] 3 (by decide)).1 h).1 (by decide)

theorem ok_of_accepted {o : Origin} {m : Bool} {mode : Mode} {g : Gangs} {dir : List Ckpt} {r : Nat} (hr : r < g.rdp * g.sdp)
    (ha : mode = .fsdp ∨ g.sdp = 1) : ∃ v, wrap mode g dir (bootstrap o m dir) r = .ok v := by
  have hn : ¬ ∃ e, begin o m mode g dir r = .error e := by
    intro h
    obtain ⟨h1, h2⟩ := (C125_accepted o m mode g dir r hr).1 h
    rcases ha with ha | ha
    · rw [h1] at ha; cases ha
    · omega
  cases hw : wrap mode g dir (bootstrap o m dir) r with
  | ok v => exact ⟨v, rfl⟩
  | error e => exact absurd ⟨e, by unfold begin; rw [hw]⟩ hn

/-- **C125.** If the directory has a checkpoint with the state of the trainer, every process of the run begins with the parameters
of the last such checkpoint, whatever the model, the gangs and the other checkpoints are. -/
theorem C125_resumed (o : Origin) (m : Bool) (mode : Mode) (g : Gangs) (dir : List Ckpt) (s : Nat) (hl : LastFullIs dir s)
    (ha : mode = .fsdp ∨ g.sdp = 1) (r : Nat) (hr : r < g.rdp * g.sdp) : begin o m mode g dir r = .ok (.saved s) := by
  obtain ⟨v, hv⟩ := ok_of_accepted (o := o) (m := m) (dir := dir) hr ha
  unfold begin
  rw [hv]
  simp only [restore, lastFull_of hl]

example : begin .loaded true .fsdp ⟨2, 4⟩ [⟨30, false⟩, ⟨10, true⟩, ⟨20, true⟩] 5 = .ok (.saved 20) :=
  C125_resumed _ _ _ _ _ 20 ⟨⟨⟨20, true⟩, by simp, rfl, rfl⟩, by simp⟩ (.inl rfl) 5 (by decide)

theorem begin_ddp {o : Origin} {m : Bool} {mode : Mode} {g : Gangs} {dir : List Ckpt} (hn : NoneFull dir) (hs : g.sdp = 1) {r : Nat}
    (hr : r < g.rdp * g.sdp) : begin o m mode g dir r = .ok .initial := by
  unfold begin wrap
  by_cases h1 : g.rdp * g.sdp = 1
  · have : r = 0 := by omega
    subst this
    simp [h1, bootstrap_zero hn, toDevice, restore, lastFull_noneFull hn]
  · have h3 : 1 < g.rdp := by rw [hs] at h1 hr; omega
    rw [if_neg h1]
    cases mode <;>
      simp [hs, effectiveMode, h3, toDdp, bootstrap_zero hn, toDevice, restore, lastFull_noneFull hn]

/-- **C125, without model-only checkpoints in a sharded run.** If the directory has no checkpoint to go on from, every process
begins with the model that rank 0 loaded or made — provided that the gangs do not shard, or that the directory has no checkpoint
at all. What is missing is the case of `C125_fsdp_negation`. -/
theorem C125_initial_partial (o : Origin) (m : Bool) (mode : Mode) (g : Gangs) (dir : List Ckpt) (hn : NoneFull dir)
    (ha : mode = .fsdp ∨ g.sdp = 1) (hc : g.sdp = 1 ∨ dir = []) (r : Nat) (hr : r < g.rdp * g.sdp) :
    begin o m mode g dir r = .ok .initial := by
  by_cases hs : g.sdp = 1
  · exact begin_ddp hn hs hr
  · have hd : dir = [] := hc.resolve_left hs
    have hm : mode = .fsdp := ha.resolve_right hs
    subst hd hm
    have hpos : 0 < g.rdp * g.sdp := by omega
    have hsp : 0 < g.sdp := Nat.pos_of_mul_pos_left hpos
    have h1 : g.rdp * g.sdp ≠ 1 := fun h => hs (Nat.eq_one_of_mul_eq_one_left h)
    unfold begin wrap
    rw [if_neg h1]
    by_cases h0 : r = 0
    · subst h0
      simp [effectiveMode, hs, toFsdpVal, bootstrap_zero hn, heldOf, Fs2.Fsdp.initializerOf, hasCheckpoint, stepNumbers, restore,
        lastFull_noneFull hn]
    · cases m <;>
        simp [effectiveMode, hs, toFsdpVal, bootstrap_zero hn, bootstrap_pos hn (Nat.pos_of_ne_zero h0), heldOf,
          Fs2.Fsdp.initializerOf, hasCheckpoint, stepNumbers, restore, lastFull_noneFull hn, h0]

example : begin .loaded true .fsdp ⟨2, 4⟩ [] 5 = .ok .initial :=
  C125_initial_partial _ _ _ _ _ (by intro c hc; cases hc) (.inl rfl) (.inr rfl) 5 (by decide)

example : begin .created false .ddp ⟨8, 1⟩ [⟨7, false⟩] 5 = .ok .initial :=
  C125_initial_partial _ _ _ _ _ (by simp [NoneFull]) (.inr rfl) (.inl rfl) 5 (by decide)

/-- **C125 fails.** If a run with FSDP begins in a directory whose checkpoints are all of the model only, the model is loaded or
made on rank 0, but is not given to the others, and nothing is restored: every other process begins with parameters that it made
itself, with every model, all sizes of the gangs and all such checkpoints. -/
theorem C125_fsdp_negation (o : Origin) (m : Bool) (g : Gangs) (hs : 1 < g.sdp) (dir : List Ckpt) (hne : dir ≠ [])
    (hn : NoneFull dir) (r : Nat) (hr : r < g.rdp * g.sdp) :
    begin o m .fsdp g dir r = .ok (if r = 0 then .initial else .fresh r) := by
  have h2 : g.sdp ≠ 1 := by omega
  have h1 : g.rdp * g.sdp ≠ 1 := fun h => h2 (Nat.eq_one_of_mul_eq_one_left h)
  unfold begin wrap
  rw [if_neg h1]
  by_cases h0 : r = 0
  · subst h0
    simp [effectiveMode, h2, toFsdpVal, bootstrap_zero hn, heldOf, Fs2.Fsdp.initializerOf, hasAny_iff.2 hne, restore,
      lastFull_noneFull hn]
  · cases m <;>
      simp [effectiveMode, h2, toFsdpVal, bootstrap_pos hn (Nat.pos_of_ne_zero h0), heldOf, Fs2.Fsdp.initializerOf,
        hasAny_iff.2 hne, restore, lastFull_noneFull hn, h0]

example : begin .loaded true .fsdp ⟨1, 8⟩ [⟨1000, false⟩] 3 = .ok (.fresh 3) :=
  C125_fsdp_negation .loaded true ⟨1, 8⟩ (by decide) _ (by simp) (by simp [NoneFull]) 3 (by decide)

end Fs2.Props
