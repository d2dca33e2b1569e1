import Verif.Checkpoint.Hist
import Verif.Checkpoint.RetentionLaws
import Verif.Checkpoint.Example
import Verif.Props.Gang

/-!
# Properties of checkpoints (C30–C35)

`Hist pol fs evs as`: the files `fs` are what any number of sessions leave behind, each run by
any number of ranks in any interleaving and ended by a crash at any point; `evs` are the
commits and deletions that happened and `as` the saves that were asked for.
-/

namespace Fs2.Props

open Fs2.Ckpt Fs2.Gang

variable {C : Type} {N : Nat} {pol : Bool}

/-! ## C30: a listed checkpoint is complete -/

/-- Whatever the history and the crash points: a step that `get_step_numbers` lists and whose
deletion had not begun was committed, and its directory holds all the records that all the ranks
gave to the save call, completely, and nothing else. -/
theorem C30_listed_complete {fs : FS C} {evs : List (Event C)} {as : List (Nat × List (Rec C))}
    (h : Hist pol fs evs as) {n : Nat} (hl : Listed fs n) (ht : ¬ Torn evs n) :
    ∃ recs, (n, recs) ∈ as ∧ CommittedLast evs n recs ∧ Exactly recs fs (.final n) ∧
      ∃ x ∈ recs, x.file.kind = .trainer := by
  have h1 := (hist_files h).1 n
  have h2 := status_spec evs n
  generalize hst : status evs n = st at h1 h2
  cases st with
  | absent => exact absurd (h1 .top) hl.1
  | complete recs =>
    obtain ⟨pre, post, he, hp⟩ := id h2
    exact ⟨recs, hist_asked h (by simp [he]), h2, h1, h1.kinds _ _ hl.2⟩
  | stripping recs => exact absurd h2.1 ht
  | stripped recs => exact absurd (h1.2.2 (.dir .trainer []) rfl) hl.2
  | deleting => exact absurd h2.torn ht

/-- The same for the listing that includes steps with nothing but a model. -/
theorem C30_listed_model {fs : FS C} {evs : List (Event C)} {as : List (Nat × List (Rec C))}
    (h : Hist pol fs evs as) {n : Nat} (hl : ListedAny fs n) (ht : ¬ Torn evs n) :
    ∃ recs, (n, recs) ∈ as ∧ KeptSince evs n recs ∧ ModelKept recs fs n := by
  have h1 := (hist_files h).1 n
  have h2 := status_spec evs n
  generalize hst : status evs n = st at h1 h2
  cases st with
  | absent => exact absurd (h1 .top) hl
  | complete recs =>
    obtain ⟨pre, post, he, hp⟩ := id h2
    exact ⟨recs, hist_asked h (by simp [he]), ⟨pre, post, he, fun e hm hs => absurd hs (hp e hm)⟩,
      fun x hx _ => h1.file x hx⟩
  | stripping recs => exact absurd h2.1 ht
  | stripped recs =>
    obtain ⟨pre, post, he, hp⟩ := id h2
    exact ⟨recs, hist_asked h (by simp [he]), h2, h1.1⟩
  | deleting => exact absurd h2.torn ht

/-- Conversely a step that was committed and not touched since is complete, and is listed unless
it was saved with the model alone. -/
theorem C30_committed_listed {fs : FS C} {evs : List (Event C)} {as : List (Nat × List (Rec C))}
    (h : Hist pol fs evs as) {n : Nat} {recs : List (Rec C)} (hc : CommittedLast evs n recs) :
    Exactly recs fs (.final n) ∧ ListedAny fs n ∧
    ((∃ r c, (⟨⟨.trainer, [r]⟩, c⟩ : Rec C) ∈ recs) → Listed fs n) := by
  have h1 := (hist_files h).1 n
  rw [hc.status] at h1
  have h2 : fs (.final n) .top ≠ none := by rw [h1.top]; simp
  refine ⟨h1, h2, ?_⟩
  rintro ⟨r, c, hx⟩
  have := h1.dir _ hx
  exact ⟨h2, by rw [show Item.dir .trainer [] = .dir Kind.trainer ([r].dropLast) from rfl, this]; simp⟩

/-! A session of one rank that saves step 1, ended right after the call. -/

/-- The hypotheses can be met: one save of one rank, and a crash after it. -/
theorem C30_example : ∃ (fs : FS Nat) (evs : List (Event Nat)) (as : List (Nat × List (Rec Nat))),
    Hist true fs evs as ∧ Listed fs 1 ∧ ¬ Torn evs 1 ∧ newest evs = some 1 := by
  obtain ⟨s, e, h1⟩ := save_exec
  refine ⟨s.fs, _, _, .session .empty (by decide) ?_ ?_ e, ?_⟩
  · exact ⟨by simp [newest], trivial⟩
  · intro sv b hb
    exact grid_apart sv
  · exact ⟨h1, by
      rintro ⟨pre, post, ⟨h, h'⟩ | ⟨h, h'⟩⟩
      · rcases pre with _ | ⟨a, _ | ⟨b, _ | ⟨c, pre⟩⟩⟩ <;> simp at h
        subst h
        have := h' (.deleted 1) (by simp) rfl
        simp at this
      · rcases pre with _ | ⟨a, _ | ⟨b, _ | ⟨c, pre⟩⟩⟩ <;> simp at h, by simp [newest]⟩

/-! ## C31: a crash never loses the last good checkpoint -/

/-- If no call saves or deletes the step that was committed last (`Hist true`), then after a crash at any
point the checkpoint committed last is complete.  The original statement has no such condition; it
fails without it (`C31_saving_again_loses`). -/
theorem C31_newest_survives_partial {fs : FS C} {evs : List (Event C)} {as : List (Nat × List (Rec C))}
    (h : Hist true fs evs as) {b : Nat} (hb : newest evs = some b) :
    ∃ recs, (b, recs) ∈ as ∧ CommittedLast evs b recs ∧ Exactly recs fs (.final b) := by
  obtain ⟨recs, hr⟩ := (hist_files h).2 rfl b hb
  have h2 := status_spec evs b
  have h1 := (hist_files h).1 b
  rw [hr] at h1 h2
  obtain ⟨pre, post, he, hp⟩ := id h2
  exact ⟨recs, hist_asked h (by simp [he]), h2, h1⟩

/-- The retention policy meets the condition as long as step numbers grow: what
`get_stale_step_numbers` returns does not contain the step committed last. -/
theorem C31_retention_spares_newest {fs : FS C} {evs : List (Event C)} {as : List (Nat × List (Rec C))}
    (h : Hist true fs evs as) {b : Nat} (hb : newest evs = some b)
    (hgrow : (commits evs).Pairwise (· < ·))
    {steps : List Nat} (hsort : steps.Pairwise (· < ·)) (hsteps : ∀ n, n ∈ steps ↔ ListedAny fs n)
    {score : Nat → Option Rat} {last best every : Option Int} {l : List Nat}
    (hl : stale steps score last best every = some l) : b ∉ l := by
  obtain ⟨recs, -, -, hx⟩ := C31_newest_survives_partial h hb
  have hbm : b ∈ steps := (hsteps b).2 (by unfold ListedAny; rw [hx.top]; simp)
  have hmax : ∀ n ∈ steps, n ≤ b := by
    intro n hn
    have hc : n ∈ commits evs := by
      refine Classical.byContradiction fun hc => ?_
      have h1 := (hist_files h).1 n
      rw [status_commits hc] at h1
      exact (hsteps n).1 hn (h1 .top)
    rw [newest_eq] at hb
    obtain ⟨pre, hpre⟩ := List.getLast?_eq_some_iff.1 hb
    rw [hpre] at hc hgrow
    rcases List.mem_append.1 hc with h1 | h1
    · exact Nat.le_of_lt ((List.pairwise_append.1 hgrow).2.2 n h1 b (by simp))
    · simp at h1; omega
  have hlast : steps.getLast? = some b := by
    obtain ⟨pre, post, rfl⟩ := List.append_of_mem hbm
    rcases List.eq_nil_or_concat post with rfl | ⟨post', x, rfl⟩
    · simp
    · have h1 := hmax x (by simp)
      have h2 := (List.pairwise_append.1 hsort).2.1
      have h3 := (List.pairwise_cons.1 h2).1 x (by simp)
      omega
  intro hm
  simp only [stale, hlast] at hl
  split at hl
  · cases hl; simp at hm
  · simp only [Option.bind_eq_some_iff, Option.some.injEq] at hl
    obtain ⟨k1, e1, k2, e2, k3, e3, rfl⟩ := hl
    have m1 : b ∈ k1 := addKept_mem e1 (by simp)
    have m2 : b ∈ k2 := addKept_mem e2 m1
    have m3 : b ∈ k3 := addKept_mem e3 m2
    simp [m3] at hm

/-- Saving a step again loses it: `_begin_checkpoint` deletes the committed directory first
(manager.py:289).  After a crash during that deletion the step is still listed, no step
has a model that can be loaded, and nothing else was ever committed. -/
theorem C31_saving_again_loses : ∃ (fs : FS Nat) (evs : List (Event Nat)) (as : List (Nat × List (Rec Nat))),
    Hist false fs evs as ∧ newest evs = some 1 ∧ Listed fs 1 ∧
    ∀ n, load (grid 1 1 1) fs n 0 .model = .notFound := by
  obtain ⟨evs, s, e, h1, h2, h3, h4, h5⟩ := resave_exec
  refine ⟨s.fs, _, _, .session .empty (by decide) ?_ ?_ e, ?_, ?_, ?_⟩
  · exact ⟨by simp, by simp, trivial⟩
  · intro sv b hb
    exact grid_apart sv
  · simpa using h1
  · exact ⟨by rw [h2]; simp, by rw [h3]; simp⟩
  · intro n
    simp only [load, loadFile, fileOf, grid, Nat.div_one, Nat.mod_one]
    rw [h4 n]

/-! ## C32: committed only after every rank wrote its part -/

/-- In any session, after any history and in any interleaving: a step by which anything appears in
`step_n` is the commit of a save of step `n`, and at that point every record of every rank is
completely written, no background thread has anything to do, and every rank but the one that
renames waits at a barrier; the directory then has exactly the records of all ranks. -/
theorem C32_commit_after_all {fs : FS C} {evs : List (Event C)} {as : List (Nat × List (Rec C))}
    (h : Hist pol fs evs as) (hN : 0 < N) {t : Topo N} {cs : List (Cmd N C)}
    (hS : Sane pol (newest evs) none cs) (hA : AllApart t cs) {evs' e : List (Event C)} {s s' : St N C}
    (hE : Exec (start t fs cs) evs' s) (hs : Step s e s') {n : Nat} {i : Item}
    (h0 : s.fs (.final n) i = none) (h1 : s'.fs (.final n) i ≠ none) :
    ∃ sv b, Cmd.save sv b ∈ cs ∧ sv.step = n ∧
      (∀ r, ∀ x ∈ records t sv r, s.fs (.tmp n) (.file x.file) = some (.full x.state)) ∧
      (∀ r, s.bg r = []) ∧
      (∃ r0, ∀ r, r ≠ r0 → ∃ q, s.prog r = .barrier :: q) ∧
      Exactly (allRecords t sv) s'.fs (.final n) := by
  have hF := hist_files h
  have hI : Ckpt.Inv t pol evs (start t fs cs) := ⟨hF.1, hF.2,
    .enter (p := none) (pre := fun _ => []) hS hA (fun r => rfl) (fun r => ⟨rfl, rfl⟩)⟩
  have hI := hI.exec hN hE
  have hK := (Asked.exec (Asked.start fs cs) hE).1
  obtain ⟨r, recs, q, hr, hmv, -⟩ := appear hK hs h0 h1
  obtain ⟨b1, b2, b3, b4, b5⟩ := rename_at hI.«at» hr
  have hmem := hK.prog r n recs (by simp [hr])
  simp only [asked, List.mem_filterMap] at hmem
  obtain ⟨c, hc, hce⟩ := hmem
  cases c with
  | save sv b =>
    simp only [Option.some.injEq, Prod.mk.injEq] at hce
    obtain ⟨rfl, rfl⟩ := hce
    refine ⟨sv, b, hc, rfl, fun r x hx => b2.file x ?_, b1, ⟨r, b5⟩, ?_⟩
    · exact List.mem_flatMap.2 ⟨r, List.mem_finRange r, hx⟩
    · have : ∀ i, s'.fs (.final sv.step) i = s.fs (.tmp sv.step) i := by
        intro i; rw [hmv]; simp [FS.move]
      exact ⟨by rw [this]; exact b2.top, fun x hx => by rw [this]; exact b2.file x hx,
        fun x hx => by rw [this]; exact b2.dir x hx, fun f hf => b2.only f (by rwa [this] at hf),
        fun k p hk => b2.kinds k p (by rwa [this] at hk)⟩
  | complete => cases hce
  | poll => cases hce
  | delete _ _ => cases hce

/-- The hypotheses can be met: two ranks save a sharded model asynchronously. -/
example : ∃ (evs : List (Event Nat)) (s s' : St 2 Nat) (e : List (Event Nat)),
    Exec (start (grid 2 1 2) FS.empty [.save pair false, .complete]) evs s ∧ Step s e s' ∧
    s.fs (.final 5) .top = none ∧ s'.fs (.final 5) .top ≠ none := pair_exec

example : Sane (N := 2) true (newest ([] : List (Event Nat))) none [.save pair false, .complete] ∧
    AllApart (grid 2 1 2) [.save pair false, .complete] :=
  ⟨⟨by simp [newest], trivial⟩, fun sv _ _ => grid_apart sv⟩

/-! ## C33: every rank finds its files -/

/-- Ranks that hold the same part of the state of kind `k`. -/
def SamePart (t : Topo N) (k : Kind) (r r' : Fin N) : Prop :=
  match k with
  | .trainer => r' = r
  | .model | .optimizer => (t r').pp = (t r).pp ∧ (t r').tp = (t r).tp ∧ (t r').sdp = (t r).sdp
  | .dataReader => (t r').dp = (t r).dp

/-- In every grid (tensor parallel size `tp`, shard size `m`) and after every history: if step `n` was
committed last from a save of this topology, then every rank can load every kind of state; the
file it opens was written by exactly one rank, that rank holds the same part, and what is
loaded is what that rank gave to the save.  A model-only save has the model.  Pipeline parallelism
(which `create_parallel_gangs` never makes) is missing, see `C33_pipeline_overwrites`. -/
theorem C33_load_partial {fs : FS C} {evs : List (Event C)} {as : List (Nat × List (Rec C))}
    (h : Hist pol fs evs as) {tp m : Nat} (htp : 0 < tp) (hm : 0 < m) {sv : Save N C}
    (hc : CommittedLast evs sv.step (allRecords (grid N tp m) sv)) (r : Fin N) (k : Kind)
    (hk : sv.full = true ∨ k = .model) :
    ∃ r', SamePart (grid N tp m) k r r' ∧
      load (grid N tp m) fs sv.step r k = .ok (sv.state r' k) ∧
      (∃ x ∈ records (grid N tp m) sv r', x.file = fileOf (grid N tp m) r k) ∧
      ∀ r'', (∃ x ∈ records (grid N tp m) sv r'', x.file = fileOf (grid N tp m) r k) → r'' = r' := by
  have hex := (C30_committed_listed h hc).1
  -- a rank that writes the file
  have key : ∃ r' : Fin N, SamePart (grid N tp m) k r r' ∧
      (⟨fileOf (grid N tp m) r k, sv.state r' k⟩ : Rec C) ∈ records (grid N tp m) sv r' := by
    have hmod : ∃ r' : Fin N, (grid N tp m r').rdp = 0 ∧ (grid N tp m r').tp = (grid N tp m r).tp ∧
        (grid N tp m r').sdp = (grid N tp m r).sdp := by
      have hlt := Nat.mod_lt (r.val / tp) hm
      have hle : r.val / tp % m * tp + r.val % tp ≤ r.val := by
        conv => rhs; rw [← pos_eq r.val tp]
        have := Nat.mul_le_mul_right tp (Nat.mod_le (r.val / tp) m)
        omega
      refine ⟨⟨r.val / tp % m * tp + r.val % tp, Nat.lt_of_le_of_lt hle r.isLt⟩, ?_⟩
      have hc := Nat.mod_lt r.val htp
      simp only [grid, pos_row hc, pos_col hc]
      exact ⟨Nat.div_eq_of_lt hlt, trivial, Nat.mod_mod _ _⟩
    cases k with
    | trainer =>
      have hf : sv.full = true := by simpa using hk
      exact ⟨r, rfl, by simp [records, fileOf, hf]⟩
    | model =>
      obtain ⟨r', h1, h2, h3⟩ := hmod
      exact ⟨r', ⟨rfl, h2, h3⟩, by simp [records, fileOf, h1, h2, h3]; simp [grid]⟩
    | optimizer =>
      have hf : sv.full = true := by simpa using hk
      obtain ⟨r', h1, h2, h3⟩ := hmod
      exact ⟨r', ⟨rfl, h2, h3⟩, by simp [records, fileOf, h1, h2, h3, hf]; simp [grid]⟩
    | dataReader =>
      have hf : sv.full = true := by simpa using hk
      have hle : r.val / tp * tp + 0 ≤ r.val := by
        conv => rhs; rw [← pos_eq r.val tp]
        omega
      have h1 : (grid N tp m ⟨r.val / tp * tp + 0, Nat.lt_of_le_of_lt hle r.isLt⟩).tp = 0 := by
        simp only [grid, pos_col htp]
      have h2 : (grid N tp m ⟨r.val / tp * tp + 0, Nat.lt_of_le_of_lt hle r.isLt⟩).dp = (grid N tp m r).dp := by
        simp only [grid, pos_row htp]
      exact ⟨_, h2, by
        unfold records fileOf
        rw [h1, h2]
        simp [hf]⟩
  obtain ⟨r', h1, h2⟩ := key
  refine ⟨r', h1, ?_, ⟨_, h2, rfl⟩, ?_⟩
  · have := hex.file _ (List.mem_flatMap.2 ⟨r', List.mem_finRange r', h2⟩)
    simp only [load, loadFile, this]
  · rintro r'' ⟨x, hx, hxf⟩
    obtain ⟨i, hi⟩ := List.getElem?_of_mem hx
    obtain ⟨j, hj⟩ := List.getElem?_of_mem h2
    exact (grid_apart sv r'' r' i j x _ hi hj hxf).1

/-- The hypotheses can be met. -/
example : ∃ (fs : FS Nat) (evs : List (Event Nat)) (as : List (Nat × List (Rec Nat))),
    Hist true fs evs as ∧ CommittedLast evs one.step (allRecords (grid 1 1 1) one) := by
  obtain ⟨s, e, -⟩ := save_exec
  refine ⟨s.fs, _, _, .session .empty (by decide) ?_ (fun sv _ _ => grid_apart sv) e,
    [.deleting 1, .deleted 1], [], rfl, by simp⟩
  exact ⟨by simp [newest], trivial⟩

/-- The gangs that the recipes build are grids: plain data parallelism (with or without tensor
parallelism) has shard size 1, … -/
theorem C33_grid_ddp (cuda : Bool) {n tp : Nat} (htp : 0 < tp) (hd : tp ∣ n) (r : Fin n) :
    ∃ gs, createParallel cuda (world n) r tp = .ok gs ∧ coords gs r = grid n tp 1 r := by
  obtain ⟨gs, h1, -, -, -, h4, h5, h6, h7, h8, -⟩ := createParallel_ok (cuda := cuda) r.isLt htp hd
  refine ⟨gs, h1, ?_⟩
  simp only [coords, grid, h6, h4, h5]
  simp [h7, h8, Gang.rank, Nat.mod_one]

/-- … full sharding has the size of the data parallel gang, … -/
theorem C33_grid_fsdp (cuda : Bool) {n tp : Nat} (htp : 0 < tp) (hd : tp ∣ n) (r : Fin n) :
    ∃ gs gs', createParallel cuda (world n) r tp = .ok gs ∧ createFsdp cuda gs r none = .ok gs' ∧
      coords gs' r = grid n tp (n / tp) r := by
  obtain ⟨gs, h1, -, -, -, h4, h5, h6, h7, h8, -⟩ := createParallel_ok (cuda := cuda) r.isLt htp hd
  refine ⟨gs, _, h1, createFsdp_none (postInit_of_ok h1), ?_⟩
  have hlt : r.val / tp < n / tp := by
    obtain ⟨k, rfl⟩ := hd
    rw [Nat.mul_div_cancel_left _ htp]
    exact Nat.div_lt_of_lt_mul r.isLt
  simp only [coords, grid, h4, h5]
  simp [h8, Gang.rank, Nat.mod_eq_of_lt hlt, Nat.div_eq_of_lt hlt]

/-- … and hybrid sharding the intra node size. -/
theorem C33_grid_hybrid (cuda : Bool) {n tp m : Nat} (htp : 0 < tp) (hd : tp ∣ n)
    (hm : 1 < m) (hdm : m ∣ n / tp) (hdev : cuda = true ∨ tp = 1) (r : Fin n) :
    ∃ gs gs', createParallel cuda (world n) r tp = .ok gs ∧ createFsdp cuda gs r (some m) = .ok gs' ∧
      coords gs' r = grid n tp m r := by
  obtain ⟨gs, h1, -, h2, h3, h4, h5, h6, h7, h8, h9⟩ := createParallel_ok (cuda := cuda) r.isLt htp hd
  obtain ⟨g, gs', e1, f1, -, -, f4, f5, f6, f7, f8⟩ := C45_hybrid_partial cuda r.isLt htp hd hm hdm hdev
  rw [h1] at e1
  cases e1
  refine ⟨gs, gs', h1, f1, ?_⟩
  simp only [coords, grid, f4, f5, f6, f7, f8, h4, h5]
  simp [h8, Gang.rank]

/-- With more than one pipeline stage the data reader file is written by several ranks: the
condition that the tensor parallel rank is 0 does not look at the pipeline rank
(manager.py:385-387). -/
theorem C33_pipeline_overwrites : ∃ (t : Topo 2) (sv : Save 2 Nat),
    (∀ r, t r = ⟨0, 0, 0, 0, r⟩) ∧
    ∃ x ∈ records t sv 0, ∃ y ∈ records t sv 1, x.file = y.file ∧ x.state ≠ y.state :=
  ⟨fun r => ⟨0, 0, 0, 0, r⟩, ⟨1, true, fun r _ => r⟩, fun _ => rfl,
    ⟨⟨.dataReader, [0]⟩, 0⟩, by simp [records], ⟨⟨.dataReader, [0]⟩, 1⟩, by simp [records], rfl, by decide⟩

/-! ## C34: retention -/

/-- What an active policy keeps, on the steps `steps`: the last `n` steps (fewer than `n` are after
it), the best `n` (fewer than `n` have a better score, or the same score and a later step), the
multiples of `n`. -/
def Keeps (steps : List Nat) (score : Nat → Option Rat) (last best every : Option Int) (s : Nat) : Prop :=
  (∃ n, last = some n ∧ (after steps s : Int) < n) ∨
  (∃ n x, best = some n ∧ score s = some x ∧ (better steps score x s : Int) < n) ∨
  (∃ n, every = some n ∧ (s : Int) % n = 0)

/-- With positive policy values the result has exactly the steps that are not the newest and that no
active policy keeps. -/
theorem C34_stale {steps : List Nat} (hs : steps.Pairwise (· < ·)) (score : Nat → Option Rat)
    {last best every : Option Int} (hany : last ≠ none ∨ best ≠ none ∨ every ≠ none)
    (hl : ∀ n, last = some n → 0 < n) (hb : ∀ n, best = some n → 0 < n) (he : ∀ n, every = some n → 0 < n) :
    ∃ l, stale steps score last best every = some l ∧
      ∀ s, s ∈ l ↔ s ∈ steps ∧ (∃ q ∈ steps, s < q) ∧ ¬ Keeps steps score last best every s := by
  have hno : ¬ (last = none ∧ best = none ∧ every = none) := by
    rintro ⟨h1, h2, h3⟩
    rcases hany with h | h | h
    · exact h h1
    · exact h h2
    · exact h h3
  cases hlast : steps.getLast? with
  | none =>
    have : steps = [] := by simpa using hlast
    subst this
    exact ⟨[], by simp [stale], by simp⟩
  | some b =>
    have hnd : steps.Nodup := hs.imp (fun h => Nat.ne_of_lt h)
    have hnew : ∀ s ∈ steps, (∃ q ∈ steps, s < q) ↔ s ≠ b := by
      obtain ⟨pre, rfl⟩ := List.getLast?_eq_some_iff.1 hlast
      have h1 := (List.pairwise_append.1 hs).2.2
      intro s hm
      constructor
      · rintro ⟨q, hq, hlt⟩ rfl
        rcases List.mem_append.1 hq with hq | hq
        · have := h1 q hq s (by simp); omega
        · simp at hq; omega
      · intro hne
        rcases List.mem_append.1 hm with hm | hm
        · exact ⟨b, by simp, h1 s hm b (by simp)⟩
        · simp at hm; exact absurd hm hne
    -- one policy at a time
    have p1 : ∀ keep : List Nat, ∃ k, addKept last keep (fun n => steps.drop (steps.length - n.toNat)) = some k ∧
        ∀ s ∈ steps, s ∈ k ↔ s ∈ keep ∨ ∃ n, last = some n ∧ (after steps s : Int) < n := by
      intro keep
      cases last with
      | none => exact ⟨keep, rfl, by simp⟩
      | some n =>
        have := hl n rfl
        refine ⟨keep ++ steps.drop (steps.length - n.toNat), by simp only [addKept]; rw [if_neg (by omega)], ?_⟩
        intro s hm
        rw [List.mem_append, drop_eq hs]
        simp only [hm, true_and, Option.some.injEq, exists_eq_left']
        constructor <;> (rintro (h | h) <;> first | exact .inl h | (right; omega))
    have p2 : ∀ keep : List Nat, ∃ k, addKept best keep (fun n => ((loadScores score steps).take n.toNat).map (·.2)) = some k ∧
        ∀ s ∈ steps, s ∈ k ↔ s ∈ keep ∨ ∃ n x, best = some n ∧ score s = some x ∧ (better steps score x s : Int) < n := by
      intro keep
      cases best with
      | none => exact ⟨keep, rfl, by simp⟩
      | some n =>
        have := hb n rfl
        refine ⟨keep ++ ((loadScores score steps).take n.toNat).map (·.2), by simp only [addKept]; rw [if_neg (by omega)], ?_⟩
        intro s hm
        rw [List.mem_append, mem_best hnd]
        simp only [hm, true_and, Option.some.injEq]
        constructor
        · rintro (h | ⟨x, h1, h2⟩)
          · exact .inl h
          · exact .inr ⟨n, x, rfl, h1, by omega⟩
        · rintro (h | ⟨_, x, rfl, h1, h2⟩)
          · exact .inl h
          · exact .inr ⟨x, h1, by omega⟩
    have p3 : ∀ keep : List Nat, ∃ k, addKept every keep (fun n => steps.filter fun s : Nat => decide ((s : Int) % n = 0)) = some k ∧
        ∀ s ∈ steps, s ∈ k ↔ s ∈ keep ∨ ∃ n, every = some n ∧ (s : Int) % n = 0 := by
      intro keep
      cases every with
      | none => exact ⟨keep, rfl, by simp⟩
      | some n =>
        have := he n rfl
        refine ⟨keep ++ steps.filter fun s : Nat => decide ((s : Int) % n = 0), by simp only [addKept]; rw [if_neg (by omega)], ?_⟩
        intro s hm
        simp [hm]
    obtain ⟨k1, e1, m1⟩ := p1 [b]
    obtain ⟨k2, e2, m2⟩ := p2 k1
    obtain ⟨k3, e3, m3⟩ := p3 k2
    refine ⟨steps.filter fun s => !k3.contains s, ?_, ?_⟩
    · simp only [stale, hlast]
      rw [if_neg hno]
      simp only [Option.bind_eq_some_iff]
      exact ⟨k1, e1, k2, e2, k3, e3, rfl⟩
    · intro s
      simp only [List.mem_filter, Bool.not_eq_true', List.contains_eq_mem, decide_eq_false_iff_not]
      constructor
      · rintro ⟨hm, hk⟩
        rw [m3 s hm, m2 s hm, m1 s hm] at hk
        simp only [not_or, List.mem_singleton] at hk
        refine ⟨hm, (hnew s hm).2 hk.1.1.1, ?_⟩
        rintro (h | h | h)
        · exact hk.1.1.2 h
        · exact hk.1.2 h
        · exact hk.2 h
      · rintro ⟨hm, hq, hk⟩
        refine ⟨hm, ?_⟩
        rw [m3 s hm, m2 s hm, m1 s hm]
        simp only [List.mem_singleton]
        rintro (((h | h) | h) | h)
        · exact (hnew s hm).1 hq h
        · exact hk (.inl h)
        · exact hk (.inr (.inl h))
        · exact hk (.inr (.inr h))

/-- Keep the last two and multiples of 4. -/
example : stale [1, 2, 3, 4, 5, 6] (fun _ => none) (some 2) none (some 4) = some [1, 2, 3] := by decide

/-- Without a policy nothing is returned. -/
theorem C34_no_policy (steps : List Nat) (score : Nat → Option Rat) :
    stale steps score none none none = some [] := rfl

/-- A value that is not positive is refused, unless there is nothing to do. -/
theorem C34_refuses (steps : List Nat) (score : Nat → Option Rat) (last best every : Option Int) :
    stale steps score last best every = none ↔
      steps ≠ [] ∧ ∃ n, n ≤ 0 ∧ (last = some n ∨ best = some n ∨ every = some n) := by
  unfold stale
  split
  · next h => obtain ⟨rfl, rfl, rfl⟩ := h; simp
  · cases hlast : steps.getLast? with
    | none => simp [List.getLast?_eq_none_iff.1 hlast]
    | some b =>
      have hne : steps ≠ [] := by rintro rfl; simp at hlast
      simp only [Option.bind_eq_none_iff, hne, ne_eq, not_false_eq_true, true_and]
      constructor
      · intro h
        refine Classical.byContradiction fun hc => ?_
        have hpos : ∀ n, last = some n ∨ best = some n ∨ every = some n → 0 < n := by
          intro n hn
          refine Classical.byContradiction fun h0 => hc ⟨n, by omega, hn⟩
        obtain ⟨k1, e1⟩ := addKept_some (keep := [b]) (fun n h => hpos n (.inl h)) _
        obtain ⟨k2, e2⟩ := addKept_some (keep := k1) (fun n h => hpos n (.inr (.inl h))) _
        obtain ⟨k3, e3⟩ := addKept_some (keep := k2) (fun n h => hpos n (.inr (.inr h))) _
        exact absurd (h k1 e1 k2 e2 k3 e3) (by simp)
      · rintro ⟨n, hn, hp⟩ k1 e1 k2 e2 k3 e3
        have hno : ∀ {keep k : List Nat} {f : Int → List Nat}, addKept (some n) keep f ≠ some k := by
          intro keep k f; simp [addKept, hn]
        rcases hp with rfl | rfl | rfl
        · exact absurd e1 hno
        · exact absurd e2 hno
        · exact absurd e3 hno

/-! ## C35: deleting with keep_model -/

/-- After a commit followed by nothing but deletions that keep the model, finished or cut off by a crash
at any point, the model files of all ranks are there, complete, with what was saved. -/
theorem C35_model_kept {fs : FS C} {evs : List (Event C)} {as : List (Nat × List (Rec C))}
    (h : Hist pol fs evs as) {n : Nat} {recs : List (Rec C)} (hk : KeptSince evs n recs) :
    ListedAny fs n ∧ ∀ x ∈ recs, x.file.kind = .model → loadFile fs n x.file = .ok x.state := by
  have h1 := (hist_files h).1 n
  rcases hk.status with he | he | he <;> rw [he] at h1
  · exact ⟨by unfold ListedAny; rw [h1.top]; simp, fun x hx _ => by simp [loadFile, h1.file x hx]⟩
  · exact ⟨by unfold ListedAny; rw [h1.2]; simp, fun x hx hm => by simp [loadFile, h1.1 x hx hm]⟩
  · exact ⟨by unfold ListedAny; rw [h1.2.1]; simp, fun x hx hm => by simp [loadFile, h1.1 x hx hm]⟩

/-- Once the deletion has finished, the step is no longer listed as a checkpoint to resume from,
and loading anything but the model says it is not found. -/
theorem C35_rest_gone {fs : FS C} {evs : List (Event C)} {as : List (Nat × List (Rec C))}
    (h : Hist pol fs evs as) {n : Nat} {recs : List (Rec C)} (hk : KeptSince evs n recs)
    {pre post : List (Event C)} (he : evs = pre ++ .stripped n :: post) (hp : ∀ e ∈ post, e.step ≠ n) :
    ¬ Listed fs n ∧ ∀ {N : Nat} (t : Topo N) (r : Fin N) (k : Kind), k ≠ .model → load t fs n r k = .notFound := by
  have h1 := (hist_files h).1 n
  rw [status_stripped hk he hp] at h1
  refine ⟨fun hl => hl.2 (h1.2.2 (.dir .trainer []) rfl), ?_⟩
  intro N t r k hk
  have : fs (.final n) (.file (fileOf t r k)) = none := h1.2.2 _ (by simp [kept, fileOf, hk])
  simp [load, loadFile, this]

/-- The hypotheses can be met. -/
example : ∃ (fs : FS Nat) (evs : List (Event Nat)) (as : List (Nat × List (Rec Nat))),
    Hist false fs evs as ∧ KeptSince evs 1 (allRecords (grid 1 1 1) one) ∧
    ∃ pre post, evs = pre ++ .stripped 1 :: post ∧ ∀ e ∈ post, e.step ≠ 1 := by
  obtain ⟨s, e⟩ := strip_exec
  refine ⟨s.fs, _, _, .session .empty (by decide) ?_ (fun sv _ _ => grid_apart sv) e,
    ⟨[.deleting 1, .deleted 1], [.stripping 1, .stripped 1], rfl, by simp⟩,
    [.deleting 1, .deleted 1, .committed 1 (allRecords (grid 1 1 1) one), .stripping 1], [], rfl, by simp⟩
  simp [Sane]

end Fs2.Props
