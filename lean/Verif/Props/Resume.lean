import Verif.Props.Buffering
import Verif.Pipeline.ComposeLaws

/-!
# Saving and loading, end of data, reset: C01, C03, C04

For every pipeline composed from the operators (`Pipe`, `Verif/Pipeline/Compose.lean`).
-/

namespace Fs2.Props
open Fs2 Source

variable (R : Rng)

/-- The pipeline a user holds: `and_return(max_num_warnings=max)`. -/
abbrev built (max : Nat) (p : Pipe) : Source := pipeline true max (p.denote R)

/-- The states into which a user can bring a pipeline without breaking it: by
building it, by `next()`, by `reset()`, and by loading a state saved from a pipeline
built the same way (into a pipeline that can take over, see `Pipe.Fits`). -/
inductive Used (max : Nat) (p : Pipe) : PipeSt (p.denote R).σ → Prop where
  | fresh : Used max p (built R max p).init
  | next {s r s'} : Used max p s → (built R max p).next s = some (r, s') → ¬ r.fatal →
      Used max p s'
  | reset {s} (b : Bool) : Used max p s → Used max p ((built R max p).reset b s)
  | load {s t t' d} : Used max p s → Used max p t →
      PipeFits (p.Fits R) (p.denote R).init s t →
      stateDict (p.denote R) true s = .ok d → loadStateDict (p.denote R) t d = .ok t' →
      Used max p t'

theorem load_of_resumes {S : Source} {max : Nat} {I : PipeSt S.σ → Prop} {s t : PipeSt S.σ}
    (h : Resumes (pipeline true max S) I s t) :
    ∃ d t', stateDict S true s = .ok d ∧ loadStateDict S t d = .ok t' ∧
      (pipeline true max S).Same t' s ∧ I t' := by
  obtain ⟨d, h1, h2⟩ := h
  obtain ⟨t', h3, h4, h5⟩ := h2 []
  refine ⟨d, t', h1, ?_, h4, h5⟩
  rw [List.append_nil] at h3
  change pipeReload S t d = _ at h3
  unfold pipeReload at h3
  unfold loadStateDict
  split at h3
  · cases h3
  · next hb =>
    rw [if_neg hb]
    split at h3
    · cases h3
    · cases h3; simp
    · split at h3
      · cases h3
      · split at h3
        · cases h3
        · cases h3; simp

variable {R} {p : Pipe} {max : Nat}

theorem top_resumes (hp : p.Accepted R) {s t : PipeSt (p.denote R).σ}
    (hs : PipeInvQ true max p.Quiet (p.Inv R) s) (ht : PipeInvQ true max p.Quiet (p.Inv R) t)
    (hf : PipeFits (p.Fits R) (p.denote R).init s t) :
    Resumes (built R max p) (PipeInvQ true max p.Quiet (p.Inv R)) s t := by
  have L := Pipe.laws R p hp
  refine pipeline_resumesQ hs ht hf.1 hf.2.1 fun i hi => ?_
  have h := hf.2.2 i hi
  have h1 := hs.1.2.2
  have h2 := ht.1.2.2
  rw [hi] at h1
  refine L.resumes h1 ?_ h
  cases ht' : t.src with
  | none => exact L.init
  | some j => rw [ht'] at h2; exact h2

theorem Used.inv (hp : p.Accepted R) {s : PipeSt (p.denote R).σ} (h : Used R max p s) :
    PipeInvQ true max p.Quiet (p.Inv R) s := by
  have L := Pipe.laws R p hp
  have hI : Invar (built R max p) _ := pipeline_invQ (lazy := true) (max := max) L.inv L.init L.silent
  induction h with
  | fresh => exact ⟨⟨rfl, Nat.zero_le _, rfl⟩, fun _ => rfl⟩
  | next _ hn hf ih => exact hI.next ih hn hf
  | reset b _ ih => exact hI.reset b ih
  | load _ _ hf h1 h2 ihs iht =>
    obtain ⟨d, t', h3, h4, -, h5⟩ := load_of_resumes (top_resumes hp ihs iht hf)
    rw [h1] at h3; cases h3
    rw [h2] at h4; cases h4
    exact h5

/-! ## C01 -/

/-- Saving the state of a pipeline in use and loading it into another pipeline in use,
built the same way, works, and from then on no sequence of `next()` and `reset()`
calls can tell the second from the first.  Missing from C01: the conditions `Fits`
on what is not saved; without them the claim is false (below). -/
theorem C01_resume_partial (hp : p.Accepted R) {s t : PipeSt (p.denote R).σ}
    (hs : Used R max p s) (ht : Used R max p t)
    (hf : PipeFits (p.Fits R) (p.denote R).init s t) :
    ∃ d t', stateDict (p.denote R) true s = .ok d ∧ loadStateDict (p.denote R) t d = .ok t' ∧
      (built R max p).Same t' s := by
  obtain ⟨d, t', h1, h2, h3, -⟩ := load_of_resumes (top_resumes hp (hs.inv hp) (ht.inv hp) hf)
  exact ⟨d, t', h1, h2, h3⟩

/-- Loading into a freshly built pipeline, for the compositions described by
`LoadsFresh` (no `repeat`, no bucket creation function, ...), whatever was done to
the first pipeline before. -/
theorem C01_resume_fresh_partial (hp : p.Accepted R) (hl : p.LoadsFresh R)
    (hm : max = 0 ∨ p.Quiet) {s : PipeSt (p.denote R).σ} (hs : Used R max p s) :
    ∃ d t', stateDict (p.denote R) true s = .ok d ∧
      loadStateDict (p.denote R) (built R max p).init d = .ok t' ∧ (built R max p).Same t' s := by
  have h := hs.inv hp
  refine C01_resume_partial hp hs .fresh ⟨?_, fun _ => rfl, fun i hi => ?_⟩
  · rcases hm with hm | hm
    · exact Nat.le_zero.mp (hm ▸ h.1.2.1)
    · exact h.2 hm
  · have := h.1.2.2
    rw [hi] at this
    exact (Pipe.laws R p hp).fresh hl this

/-- Loading into a pipeline that has itself been used, for the same compositions
without `pack`, when the first pipeline has been started. -/
theorem C01_resume_used_partial (hp : p.Accepted R) (hl : p.LoadsFresh R) (hk : p.NoPack)
    (hm : max = 0 ∨ p.Quiet) {s t : PipeSt (p.denote R).σ} (hs : Used R max p s)
    (ht : Used R max p t) (h0 : s.src ≠ none) :
    ∃ d t', stateDict (p.denote R) true s = .ok d ∧ loadStateDict (p.denote R) t d = .ok t' ∧
      (built R max p).Same t' s := by
  have h := hs.inv hp
  have h' := ht.inv hp
  have L := Pipe.laws R p hp
  refine C01_resume_partial hp hs ht ⟨?_, fun h => absurd h h0, fun i hi => ?_⟩
  · rcases hm with hm | hm
    · have h1 := h.1.2.1
      have h2 := h'.1.2.1
      omega
    · rw [h.2 hm, h'.2 hm]
  · have h1 := h.1.2.2
    have h2 := h'.1.2.2
    rw [hi] at h1
    refine L.anywhere hl hk h1 ?_
    cases ht' : t.src with
    | none => exact L.init
    | some j => rw [ht'] at h2; exact h2

/-! ## C03 -/

/-- Once `next()` has reported end of data it does so for ever (until `reset()` or
`load_state_dict()`).  Missing from C03: compositions with `round_robin`, and `zip`
of pipelines that may raise exceptions or search for ever. -/
theorem C03_end_is_final_partial (hp : p.Accepted R) (he : p.EndsForGood)
    {s s' : PipeSt (p.denote R).σ} (hs : Used R max p s)
    (hn : (built R max p).next s = some (.eod, s')) : (built R max p).Ended s' :=
  have L := Pipe.laws R p hp
  pipeline_eod (lazy := true) (max := max) L.inv L.init (L.eod he) (hs.inv hp).1 hn

/-! ## C04 -/

/-- After `reset(reset_rng=True)` a pipeline cannot be told from a freshly built one.
Missing from C04: compositions that are not `Tidy`. -/
theorem C04_reset_partial (hp : p.Accepted R) (ht : p.Tidy) (hm : max = 0 ∨ p.Quiet)
    {s : PipeSt (p.denote R).σ} (hs : Used R max p s) :
    (built R max p).Same ((built R max p).reset true s) (built R max p).init := by
  have h := hs.inv hp
  have L := Pipe.laws R p hp
  refine pipeline_rewinds h.1.1 ?_ (fun _ => rfl) L.restarts fun i hi => ?_
  · rcases hm with hm | hm
    · exact Nat.le_zero.mp (hm ▸ h.1.2.1)
    · exact h.2 hm
  · have := h.1.2.2
    rw [hi] at this
    exact L.rewinds this (L.tidy ht this)

/-- The same for any composition, if no warnings have been counted and no example
waits in a `dynamic_bucket`. -/
theorem C04_reset_clean_partial (hp : p.Accepted R) {s : PipeSt (p.denote R).σ}
    (hs : Used R max p s) (hw : s.warnings = 0) (hc : ∀ i, s.src = some i → p.Clean R i) :
    (built R max p).Same ((built R max p).reset true s) (built R max p).init := by
  have h := hs.inv hp
  have L := Pipe.laws R p hp
  refine pipeline_rewinds h.1.1 hw (fun _ => rfl) L.restarts fun i hi => ?_
  have := h.1.2.2
  rw [hi] at this
  exact L.rewinds this (hc i hi)

/-! ## The hypotheses can be met -/

def both (p q : Pipe) : Fin 2 → Pipe
  | 0 => p
  | 1 => q

/-- Shuffle two sequences one after the other, bucket, pick buckets that are full,
and sample from this and from a sequence. -/
def recipe : Pipe :=
  .sample 2 (fun _ => 0)
    (both
      (.filter (fun x => match x with | .list xs => .ok (xs.length == 2) | _ => .ok false)
        (.bucket 2 false (.shuffle 3 7
          (.concat 2 (fun _ => 0) (both (.list (ints 5)) (.take 3 (.count 0 1 none)))))))
      (.list [.list (ints 2)]))
    [1/2, 1/2] 5 false

example : recipe.Accepted lcg ∧ recipe.LoadsFresh lcg ∧ recipe.NoPack ∧ recipe.EndsForGood ∧
    recipe.Tidy := by
  have h2 : ∀ P : Fin 2 → Prop, P 0 → P 1 → ∀ i, P i := fun P a b i => by
    match i with
    | 0 => exact a
    | 1 => exact b
  refine ⟨h2 _ ⟨by decide, h2 _ trivial trivial⟩ trivial,
    ⟨by decide, h2 _ ⟨.inl rfl, by decide, h2 _ ⟨.inl rfl, trivial⟩ ⟨.inl rfl, trivial⟩⟩
      ⟨.inl rfl, trivial⟩⟩,
    h2 _ (h2 _ trivial trivial) trivial, trivial,
    h2 _ ⟨.inl rfl, h2 _ ⟨.inl rfl, trivial⟩ ⟨.inl rfl, trivial⟩⟩ ⟨.inl rfl, trivial⟩⟩

/-- A state after some calls. -/
example : ∃ s, Used lcg 0 (.bucket 2 false (.list (ints 5))) s ∧ s.src ≠ none := by
  refine ⟨_, .next (r := .yield (.list (ints 2))) .fresh rfl (by simp [Res.fatal]), by simp⟩

/-- A composition and states that satisfy `Fits` without being `LoadsFresh`: `repeat`
in the middle of a round. -/
example : ∃ s : PipeSt (Pipe.denote lcg (.again none false (.list (ints 3)))).σ,
    Used lcg 0 (.again none false (.list (ints 3))) s ∧
    PipeFits (Pipe.Fits lcg (.again none false (.list (ints 3))))
      (Pipe.denote lcg (.again none false (.list (ints 3)))).init s
      (built lcg 0 (.again none false (.list (ints 3)))).init := by
  refine ⟨⟨some ⟨true, 0, (1 : Nat)⟩, 0, false⟩, .next (r := .yield (.int 1)) .fresh ?_ (by simp [Res.fatal]), rfl,
    fun _ => rfl, fun i hi => ?_⟩
  · show pipeNext (repeatSrc none false (listSource (ints 3))) 0 ⟨none, 0, false⟩ = _
    simp [pipeNext, pipeLoop, repeatSrc, repeatLoop, listSource, ints, List.range_succ]
    rfl
  · cases hi
    exact ⟨.inr ⟨.int 2, (2 : Nat), rfl⟩, trivial⟩

/-! ## Disagreements

Each is a run of the model: `h₁` is done to one pipeline and `h₂` to another, the
state of the first is saved and loaded into the second, and then both are used the
same way. -/

/-- The state after some operations. -/
def after {S : Source} : List Op → S.σ → Option S.σ
  | [], s => some s
  | .next :: ops, s => match S.next s with
    | none => none
    | some (_, s') => after ops s'
  | .reset b :: ops, s => after ops (S.reset b s)

/-- What the second pipeline returns after loading. -/
def resumed (max : Nat) (S : Source) (h₁ h₂ later : List Op) : Option (List (Option Res)) :=
  match after (S := pipeline true max S) h₁ (pipeline true max S).init,
      after (S := pipeline true max S) h₂ (pipeline true max S).init with
  | some s, some t => match stateDict S true s with
    | .error _ => none
    | .ok d => match loadStateDict S t d with
      | .ok t' => some ((pipeline true max S).run later t')
      | .error .. => none
  | _, _ => none

/-- What the first pipeline returns. -/
def continued (max : Nat) (S : Source) (h₁ later : List Op) : Option (List (Option Res)) :=
  (after (S := pipeline true max S) h₁ (pipeline true max S).init).map
    ((pipeline true max S).run later)

/-- `repeat`: saved at the end of a round, the state says nothing about examples seen,
so the resumed pipeline takes the upstream for empty and ends. -/
theorem C01_repeat_at_boundary :
    continued 0 (repeatSrc none false (listSource (ints 1))) [.next] [.next]
      = some [some (.yield (.int 1))] ∧
    resumed 0 (repeatSrc none false (listSource (ints 1))) [.next] [] [.next]
      = some [some .eod] := by
  constructor <;>
  simp [continued, resumed, after, run, pipeline, pipeNext, pipeLoop, repeatSrc, repeatLoop,
    listSource, ints, stateDict, loadStateDict, pipeRecord, readBool, readNat]

/-- A bucket creation function that returns each example as a bucket of its own. -/
def singles : DynCfg where
  threshold := 2
  cost _ := .ok 1
  create := some fun b => .ok (b.map fun x => .list [x], [])
  min := none
  max := none
  drop := false

/-- The numbers 1 and 2, in buckets. -/
def twoSingles : Source := dynamicBucket singles (listSource (ints 2))

/-- Its state with buckets `r` waiting and `n` examples read. -/
def twoSinglesAt (r : List Data) (n : Nat) : twoSingles.σ := (⟨r, [], n⟩ : DynSt Nat)

theorem twoSingles_first : twoSingles.next (twoSinglesAt [] 0) =
    some (.yield (.list [.int 1]), twoSinglesAt [.list [.int 2]] 2) := by
  show dynNext (listSource (ints 2)) singles ⟨[], [], (0 : Nat)⟩ = _
  simp only [dynNext]
  rw [dynFill]
  simp [singles, DynCfg.ready, ints, List.range_succ, listSource]
  rw [if_neg (by decide), dynFill]
  simp [DynCfg.ready]
  rw [if_neg (by grind), dynFill]
  simp [DynCfg.ready]
  rw [if_pos (by grind)]
  rfl

theorem twoSingles_second (n : Nat) : twoSingles.next (twoSinglesAt [.list [.int 2]] n) =
    some (.yield (.list [.int 2]), twoSinglesAt [] n) := rfl

theorem twoSingles_third : twoSingles.next (twoSinglesAt [] 2) =
    some (.eod, twoSinglesAt [] 2) := by
  show dynNext (listSource (ints 2)) singles ⟨[], [], (2 : Nat)⟩ = _
  simp [dynNext, dynFill, singles, DynCfg.ready, ints, List.range_succ, listSource]
  rfl

theorem twoSingles_record (r : List Data) :
    twoSingles.record true (twoSinglesAt r 2) = .ok [.list [], .int 2] := rfl

theorem twoSingles_reload (r : List Data) (n : Nat) :
    twoSingles.reload true (twoSinglesAt r n) [.list [], .int 2] = .ok (twoSinglesAt r 2, []) := rfl

theorem twoSingles_init : twoSingles.init = twoSinglesAt [] 0 := rfl

theorem twoSingles_reset (r : List Data) (n : Nat) :
    twoSingles.reset true (twoSinglesAt r n) = twoSinglesAt r 0 := rfl

/-- `dynamic_bucket`: buckets created but not returned yet are lost by saving. -/
theorem C01_dynamic_bucket_loses :
    continued 0 twoSingles [.next] [.next] = some [some (.yield (.list [.int 2]))] ∧
    resumed 0 twoSingles [.next] [] [.next] = some [some .eod] := by
  constructor <;>
  simp [continued, resumed, after, run, pipeline, pipeNext, pipeLoop, stateDict, loadStateDict,
    pipeRecord, readBool, twoSingles_first, twoSingles_second, twoSingles_third,
    twoSingles_record, twoSingles_reload, twoSingles_init]

/-- `dynamic_bucket`: buckets waiting in the pipeline that is loaded are returned. -/
theorem C01_dynamic_bucket_stale :
    continued 0 twoSingles [.next, .next] [.next] = some [some .eod] ∧
    resumed 0 twoSingles [.next, .next] [.next] [.next]
      = some [some (.yield (.list [.int 2]))] := by
  constructor <;>
  simp [continued, resumed, after, run, pipeline, pipeNext, pipeLoop, stateDict, loadStateDict,
    pipeRecord, readBool, twoSingles_first, twoSingles_second, twoSingles_third,
    twoSingles_record, twoSingles_reload, twoSingles_init]

/-- Two sequences that do not fit in one pack. -/
def twoPacks : Source :=
  pack ⟨3, 3, 0, false, false⟩ (listSource [.tensor [1, 2], .tensor [3, 4]])

def onePack (xs : List Int) : Data := .dict [("seqs", .tensor xs), ("seq_lens", .list [.int 2])]

/-- Its state with a sequence waiting after both have been read. -/
def twoPacksAt (r : Option (List Int)) : twoPacks.σ := (⟨r, (2 : Nat)⟩ : PackSt Nat)

theorem twoPacks_first : twoPacks.next twoPacks.init =
    some (.yield (onePack [1, 2, 0]), twoPacksAt (some [3, 4])) := by
  show packLoop (listSource _).next _ _ ⟨none, (0 : Nat)⟩ = _
  simp [packLoop, packStep, packEnd, packOut, listSource, onePack, twoPacksAt]
  rfl

theorem twoPacks_second : twoPacks.next (twoPacksAt (some [3, 4])) =
    some (.yield (onePack [3, 4, 0]), twoPacksAt none) := by
  show packLoop (listSource _).next _ _ ⟨_, (2 : Nat)⟩ = _
  simp [packLoop, packStep, packEnd, packOut, listSource, onePack, twoPacksAt]
  rfl

theorem twoPacks_third : twoPacks.next (twoPacksAt none) = some (.eod, twoPacksAt none) := by
  show packLoop (listSource _).next _ _ ⟨_, (2 : Nat)⟩ = _
  simp [packLoop, packEnd, listSource, twoPacksAt]
  rfl

theorem twoPacks_record : twoPacks.record true (twoPacksAt none) = .ok [.bool false, .int 2] := rfl

theorem twoPacks_reload : twoPacks.reload true (twoPacksAt (some [3, 4])) [.bool false, .int 2]
    = .ok (twoPacksAt (some [3, 4]), []) := rfl

/-- `pack`: the sequence waiting in the pipeline that is loaded is returned. -/
theorem C01_pack_stale :
    continued 0 twoPacks [.next, .next] [.next] = some [some .eod] ∧
    resumed 0 twoPacks [.next, .next] [.next] [.next]
      = some [some (.yield (onePack [3, 4, 0]))] := by
  constructor <;>
  simp [continued, resumed, after, run, pipeline, pipeNext, pipeLoop, stateDict, loadStateDict,
    pipeRecord, readBool, twoPacks_first, twoPacks_second, twoPacks_third,
    twoPacks_record, twoPacks_reload]

/-- A state saved before the first call of `next()` does not hold the random number
generators, and loading it does not reset them. -/
theorem C01_unstarted :
    continued 0 (shuffle lcg 2 0 (listSource (ints 2))) [] [.next] = some [some (.yield (.int 2))] ∧
    resumed 0 (shuffle lcg 2 0 (listSource (ints 2))) [] [.next] [.next]
      = some [some (.yield (.int 1))] := by
  constructor <;> rfl

/-- A function that raises a recoverable exception for the number 1. -/
def notOne (x : Data) : Except Err Data :=
  match x with
  | .int 1 => .error ⟨true, "one"⟩
  | x => .ok x

/-- The number of warnings so far is not restored: the pipeline that is loaded raises
an exception where the first one skips the example. -/
theorem C01_warnings :
    continued 1 (map notOne (listSource [.int 0, .int 1, .int 2])) [.next] [.next]
      = some [some (.yield (.int 2))] ∧
    resumed 1 (map notOne (listSource [.int 0, .int 1, .int 2])) [.next] [.next, .next] [.next]
      = some [some (.err ⟨true, "one"⟩)] := by
  constructor <;> rfl

/-- A seed of 2^63 or more is saved but cannot be loaded (`tape-inl.h` goes through a
signed integer). -/
theorem C01_large_seed :
    (∃ s d, (pipeline true 0 (shuffle lcg 2 (2 ^ 63) (listSource (ints 2)))).next
        (pipeline true 0 (shuffle lcg 2 (2 ^ 63) (listSource (ints 2)))).init
          = some (.yield (.int 2), s) ∧
      stateDict (shuffle lcg 2 (2 ^ 63) (listSource (ints 2))) true s = .ok d) ∧
    resumed 0 (shuffle lcg 2 (2 ^ 63) (listSource (ints 2))) [.next] [] [.next] = none := by
  refine ⟨⟨_, _, rfl, rfl⟩, ?_⟩
  with_unfolding_all rfl

/-- `yield_from` of the numbers 1 and 2, with a function that raises a recoverable
exception for 1. -/
def yieldTwo : Source :=
  yieldFrom ⟨fun x => pipe [x], fun x => match x with
    | .int 1 => some ⟨true, "one"⟩
    | _ => none⟩ (listSource (ints 2))

/-- `yield_from`: after such an exception the state saved cannot be loaded. -/
theorem C01_yield_from_error :
    (after (S := pipeline true 0 yieldTwo) [.next] (pipeline true 0 yieldTwo).init).map
      (fun s => (stateDict yieldTwo true s).isOk) = some true ∧
    resumed 0 yieldTwo [.next] [] [.next] = none := by
  constructor <;>
  simp [resumed, after, pipeline, pipeNext, pipeLoop, yieldTwo, yieldFrom, yieldNext,
    yieldCur, ints, List.range_succ, listSource, stateDict, loadStateDict, pipeRecord, readBool,
    Except.isOk, Except.toBool, readOpt, readData]

/-- `round_robin`: end of data is followed by another example. -/
theorem C03_round_robin :
    (pipeline true 0 (roundRobin (two (pipe (ints 3)) (pipe (ints 1))) false false)).run
      [.next, .next, .next, .next, .next]
      (pipeline true 0 (roundRobin (two (pipe (ints 3)) (pipe (ints 1))) false false)).init
    = [some (.yield (.int 1)), some (.yield (.int 1)), some (.yield (.int 2)), some .eod,
       some (.yield (.int 3))] := rfl

/-- `zip`: after end of data the longer pipeline is still read, and its exceptions
come out. -/
theorem C03_zip_raises :
    (pipeline true 0 (zip (two (pipe []) (pipeline false 0
        (map notOne (listSource [.int 0, .int 1])))) [] true false)).run
      [.next, .next]
      (pipeline true 0 (zip (two (pipe []) (pipeline false 0
        (map notOne (listSource [.int 0, .int 1])))) [] true false)).init
    = [some .eod, some (.err ⟨true, "one"⟩)] := rfl

/-- `dynamic_bucket`: buckets waiting are returned after a full reset. -/
theorem C04_dynamic_bucket_stale :
    continued 0 twoSingles [.next, .reset true] [.next]
      = some [some (.yield (.list [.int 2]))] ∧
    continued 0 twoSingles [] [.next] = some [some (.yield (.list [.int 1]))] := by
  constructor <;>
  simp [continued, after, run, pipeline, pipeNext, pipeLoop, pipeReset, twoSingles_first,
    twoSingles_reset, twoSingles_second, twoSingles_init]

/-- The number of warnings is not reset. -/
theorem C04_warnings :
    continued 1 (map notOne (listSource [.int 1, .int 2])) [.next, .reset true] [.next]
      = some [some (.err ⟨true, "one"⟩)] ∧
    continued 1 (map notOne (listSource [.int 1, .int 2])) [] [.next]
      = some [some (.yield (.int 2))] := by
  constructor <;> rfl

end Fs2.Props
