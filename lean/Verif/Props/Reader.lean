import Verif.Reader.Resume
import Verif.Props.Resume
import Verif.Props.Errors

/-!
# The data reader: C27, C28, C29

`reply c x i r` is what call `i` (counted from 0) of `next(reader)` gives on rank `r` when all ranks of a data
parallel gang of size `n` iterate over their readers, which are in states `x` to begin with.
-/

namespace Fs2.Props

open Fs2.Reader

variable {n : Nat} {S : Fin n → Source}

/-- The batches that the first `i` calls give on rank `r`. -/
def got (c : Reader.Cfg) (x : ∀ r, RS (S r)) (r : Fin n) : Nat → List Data
  | 0 => []
  | i + 1 => got c x r i ++ match reply c x i r with
    | .batches xs => xs
    | _ => []

/-! ## C27 -/

/-- In one call: all ranks get the same positive number of batches, or all stop, or the pipeline of one raised or never
returned. -/
theorem step_first {c : Reader.Cfg} (hs : c.sync = true) (hn : 1 < n) (hf : c.mode = .untilFirst) {x : ∀ r, RS (S r)}
    (hx : (∀ r, (x r).eod = false) ∨ ∀ r, (x r).eod = true) :
    ((∃ k, 0 < k ∧ ∀ r, (nextAll c x r).2.eod = false ∧ ∃ l, (nextAll c x r).1 = .batches l ∧ l.length = k) ∨
      (∀ r, (nextAll c x r).1 = .stop ∧ (nextAll c x r).2.eod = true)) ∨
    ∃ r, (∃ e, (nextAll c x r).1 = .fails e) ∨ (nextAll c x r).1 = .never := by
  rcases hx with hx | hx
  · by_cases ha : ∀ r, (arrive c (x r)).count.isSome
    · left
      have hcol : ∀ r, collective c (fun r => arrive c (x r)) r =
          some (least fun r => ((arrive c (x r)).count.getD 0)) := by
        intro r
        unfold collective
        simp only [hs, hn, decide_true, Bool.and_self, if_true, if_pos ha, hf]
      have hcm : ∀ r, ∃ l s, arrive c (x r) = .came l s := by
        intro r
        have := ha r
        cases h : arrive c (x r) with
        | came l s => exact ⟨l, s, rfl⟩
        | past | never | failed => rw [h] at this; simp [Arrival.count] at this
      by_cases h0 : least (fun r => ((arrive c (x r)).count.getD 0)) = 0
      · right
        intro r
        obtain ⟨l, s, h⟩ := hcm r
        unfold nextAll
        rw [hcol, h0, h]
        exact ⟨rfl, rfl⟩
      · left
        refine ⟨_, Nat.pos_of_ne_zero h0, fun r => ?_⟩
        obtain ⟨l, s, h⟩ := hcm r
        have hle := least_le (fun r => ((arrive c (x r)).count.getD 0)) r
        simp only [h, Arrival.count, Option.getD_some] at hle
        unfold nextAll
        rw [hcol, h]
        simp only [leave, if_neg h0, hf, if_true]
        exact ⟨trivial, _, rfl, by rw [List.length_take]; exact Nat.min_eq_left hle⟩
    · right
      have : ∃ r, (arrive c (x r)).count = none := by
        refine Classical.byContradiction fun h => ha fun r => ?_
        cases hr : (arrive c (x r)).count with
        | none => exact absurd ⟨r, hr⟩ h
        | some => rfl
      obtain ⟨r, hr⟩ := this
      refine ⟨r, ?_⟩
      unfold nextAll
      cases h : arrive c (x r) with
      | came l s => rw [h] at hr; cases hr
      | past =>
        unfold arrive at h
        rw [hx r] at h
        simp only [Bool.false_eq_true, if_false] at h
        split at h <;> cases h
      | never => exact .inr rfl
      | failed e s => exact .inl ⟨e, rfl⟩
  · left; right
    intro r
    rw [nextAll_over hx]
    exact ⟨rfl, hx r⟩

/-- `UNTIL_FIRST`, for any pipelines on any number of ranks: as long as no pipeline raises or hangs, every call gives all
ranks the same number of batches, or raises `StopIteration` on all of them, and no rank waits.  Missing from C27: pipelines
that raise an exception, for which it is false (`C27_error_waits`). -/
theorem C27_lockstep_partial {c : Reader.Cfg} (hs : c.sync = true) (hn : 1 < n) (hf : c.mode = .untilFirst) (s : ∀ r, (S r).σ) (i : Nat)
    (hok : ∀ j, j ≤ i → ∀ r, (∀ e, reply c (start s) j r ≠ .fails e) ∧ reply c (start s) j r ≠ .never) :
    (∃ k, 0 < k ∧ ∀ r, ∃ l, reply c (start s) i r = .batches l ∧ l.length = k) ∨ ∀ r, reply c (start s) i r = .stop := by
  have flags : ∀ j, j ≤ i → (∀ r, (Reader.after c (start s) j r).eod = false) ∨ ∀ r, (Reader.after c (start s) j r).eod = true := by
    intro j
    induction j with
    | zero => intro _; exact .inl fun _ => rfl
    | succ j ih =>
      intro hj
      rcases step_first hs hn hf (ih (by omega)) with (⟨k, -, h⟩ | h) | ⟨r, ⟨e, h⟩ | h⟩
      · exact .inl fun r => (h r).1
      · exact .inr fun r => (h r).2
      · exact absurd h ((hok j (by omega) r).1 e)
      · exact absurd h (hok j (by omega) r).2
  rcases step_first hs hn hf (flags i (Nat.le_refl _)) with (⟨k, h0, h⟩ | h) | ⟨r, ⟨e, h⟩ | h⟩
  · exact .inl ⟨k, h0, fun r => (h r).2⟩
  · exact .inr fun r => (h r).1
  · exact absurd h ((hok i (Nat.le_refl _) r).1 e)
  · exact absurd h (hok i (Nat.le_refl _) r).2

theorem live_start {s : ∀ r, (S r).σ} {xs : Fin n → List Data} (h : ∀ r, (S r).Yields (s r) (xs r)) :
    Live (start s) xs := ⟨fun _ => rfl, h⟩

theorem take_blocks (xs : List Data) (k m i : Nat) :
    xs.take (min (i * k) m) ++ (if i * k < m then (xs.drop (i * k)).take (min k (m - i * k)) else []) =
      xs.take (min ((i + 1) * k) m) := by
  rw [Nat.succ_mul]
  by_cases h : i * k < m
  · rw [if_pos h, Nat.min_eq_left (Nat.le_of_lt h)]
    rw [show min (i * k + k) m = i * k + min k (m - i * k) from by omega, List.take_add]
  · rw [if_neg h, List.append_nil, Nat.min_eq_right (by omega), Nat.min_eq_right (by omega)]

/-- `UNTIL_FIRST` with streams that end: with `m` the length of the shortest one (rounded down to a multiple of
`num_accumulate` if the remainder is dropped), each rank gets exactly its first `m` batches, `num_accumulate` at a time, and
all ranks stop after the same calls. -/
theorem C27_shortest {c : Reader.Cfg} (hk : 0 < c.accumulate) (hs : c.sync = true) (hn : 1 < n) (hf : c.mode = .untilFirst)
    {s : ∀ r, (S r).σ} {xs : Fin n → List Data} (h : ∀ r, (S r).Yields (s r) (xs r)) {m : Nat}
    (hm : (∀ r, m ≤ (xs r).length) ∧ ∃ r, (xs r).length = m) (r : Fin n) :
    let q := if c.dropRemainder then m / c.accumulate * c.accumulate else m
    (∀ i, got c (start s) r i = (xs r).take (min (i * c.accumulate) q)) ∧
    (∀ i, reply c (start s) i r = .stop ↔ q ≤ i * c.accumulate) := by
  intro q
  have hl : least (fun r => (xs r).length) = m := least_eq hm.1 hm.2
  have hq : kept c (least fun r => (xs r).length) = q := by
    rw [hl]
    show _ = if c.dropRemainder then m / c.accumulate * c.accumulate else m
    unfold kept
    rw [Nat.mul_comm]
  have key := fun i => reply_first (live_start h) hk hs hn hf i r
  simp only [hq] at key
  constructor
  · intro i
    induction i with
    | zero => simp [got]
    | succ i ih =>
      simp only [got]
      rw [ih, key i, ← take_blocks]
      congr 1
      by_cases hi : i * c.accumulate < q <;> simp [hi]
  · intro i
    rw [key i]
    by_cases hi : i * c.accumulate < q
    · rw [if_pos hi]
      constructor
      · intro h; cases h
      · intro h; omega
    · rw [if_neg hi]
      exact ⟨fun _ => by omega, fun _ => rfl⟩

/-- Three and five batches, two at a time. -/
example :
    let S : Fin 2 → Source := fun r => listSource (if r = 0 then ints 3 else ints 5)
    let s : ∀ r, (S r).σ := fun r => (S r).init
    let c : Reader.Cfg := { accumulate := 2 }
    (∀ i, got c (start s) 1 i = (ints 5).take (min (i * 2) 3)) ∧ (∀ i, reply c (start s) i 1 = .stop ↔ 3 ≤ i * 2) :=
  C27_shortest (n := 2) (S := fun r => listSource (if r = 0 then ints 3 else ints 5)) (c := { accumulate := 2 }) (by decide) rfl
    (by omega) rfl (xs := fun r => if r = 0 then ints 3 else ints 5) (fun r => C05_read_sequence _) (m := 3)
    ⟨fun r => by split <;> simp [ints], 0, by simp [ints]⟩ 1

/-- A rank whose pipeline raises leaves the others waiting in the collective. -/
theorem C27_error_waits {c : Reader.Cfg} (hs : c.sync = true) (hn : 1 < n) {x : ∀ r, RS (S r)} {r r' : Fin n} {e : Err}
    (h : (nextAll c x r).1 = .fails e) {l : List Data} {s' : (S r').σ} (h' : arrive c (x r') = .came l s') :
    (nextAll c x r').1 = .waits := by
  have hr : (arrive c (x r)).count = none := by
    unfold nextAll at h
    cases ha : arrive c (x r) with
    | came l s =>
      rw [ha] at h
      simp only [leave] at h
      split at h
      · cases h
      · split at h <;> cases h
    | past | never | failed => rfl
  have hc : collective c (fun r => arrive c (x r)) r' = none := by
    unfold collective
    simp only [hs, hn, decide_true, Bool.and_self, if_true]
    rw [if_neg]
    intro h
    have := h r
    rw [hr] at this
    cases this
  unfold nextAll
  rw [hc, h']
  rfl

/-- Two ranks; the pipeline of the second raises an exception in the first call. -/
example :
    let S : Fin 2 → Source := fun r => map (if r = 0 then .ok else failsOn 1) (listSource (ints 3))
    let x : ∀ r, RS (S r) := start fun r => (S r).init
    (∃ e, reply {} x 0 1 = .fails e) ∧ reply {} x 0 0 = .waits := by
  intro S x
  have h1 : ∃ e, (nextAll {} x 1).1 = .fails e := ⟨_, rfl⟩
  exact ⟨h1, h1.elim fun e h1 => C27_error_waits (r := 1) (r' := 0) rfl (by omega) h1 (l := [.int 1]) (s' := (1 : Nat)) rfl⟩

/-! ## C28 -/

/-- `UNTIL_LAST`: no rank stops before the longest stream has ended (rounded down if the remainder is dropped), all stop
then, each rank gets its whole stream, `num_accumulate` batches at a time, and then empty lists. -/
theorem C28_longest {c : Reader.Cfg} (hk : 0 < c.accumulate) (hs : c.sync = true) (hn : 1 < n) (hf : c.mode = .untilLast)
    (hd : c.dropRemainder = false) {s : ∀ r, (S r).σ} {xs : Fin n → List Data} (h : ∀ r, (S r).Yields (s r) (xs r)) {m : Nat}
    (hm : (∀ r, (xs r).length ≤ m) ∧ ∃ r, (xs r).length = m) (r : Fin n) :
    (∀ i, got c (start s) r i = (xs r).take (i * c.accumulate)) ∧
    (∀ i, reply c (start s) i r = if i * c.accumulate < m then
      .batches (((xs r).drop (i * c.accumulate)).take c.accumulate) else .stop) ∧
    (∀ i, m ≤ i * c.accumulate → got c (start s) r i = xs r) := by
  have hl : most (fun r => (xs r).length) = m := by
    obtain ⟨h1, r₀, h2⟩ := hm
    have a := le_most (fun r => (xs r).length) r₀
    obtain ⟨r₁, b⟩ := most_mem (fun r => (xs r).length) (by omega)
    have := h1 r₁
    omega
  have key : ∀ i, reply c (start s) i r = if i * c.accumulate < m then
      .batches (((xs r).drop (i * c.accumulate)).take c.accumulate) else .stop := by
    intro i
    rw [reply_last (live_start h) hk hs hn hf i r, hl]
    simp [kept, hd, part]
  have g : ∀ i, got c (start s) r i = (xs r).take (i * c.accumulate) := by
    intro i
    induction i with
    | zero => simp [got]
    | succ i ih =>
      simp only [got]
      rw [ih, key i, Nat.succ_mul, List.take_add]
      congr 1
      by_cases hi : i * c.accumulate < m
      · rw [if_pos hi]
      · rw [if_neg hi, List.drop_eq_nil_of_le (by have := hm.1 r; omega)]
        simp
  refine ⟨g, key, fun i hi => ?_⟩
  rw [g i, List.take_of_length_le]
  have := hm.1 r
  omega

/-- If the remainder is dropped, each rank's stream is cut to a multiple of `num_accumulate`. -/
theorem C28_drop_remainder {c : Reader.Cfg} (hk : 0 < c.accumulate) (hs : c.sync = true) (hn : 1 < n) (hf : c.mode = .untilLast)
    (hd : c.dropRemainder = true) {s : ∀ r, (S r).σ} {xs : Fin n → List Data} (h : ∀ r, (S r).Yields (s r) (xs r)) {m : Nat}
    (hm : (∀ r, (xs r).length ≤ m) ∧ ∃ r, (xs r).length = m) (r : Fin n) :
    (∀ i, reply c (start s) i r = if (i + 1) * c.accumulate ≤ m then
      .batches (if (i + 1) * c.accumulate ≤ (xs r).length then ((xs r).drop (i * c.accumulate)).take c.accumulate else [])
      else .stop) := by
  have hl : most (fun r => (xs r).length) = m := by
    obtain ⟨h1, r₀, h2⟩ := hm
    have a := le_most (fun r => (xs r).length) r₀
    obtain ⟨r₁, b⟩ := most_mem (fun r => (xs r).length) (by omega)
    have := h1 r₁
    omega
  intro i
  rw [reply_last (live_start h) hk hs hn hf i r, hl]
  have e : (i * c.accumulate < kept c m) = ((i + 1) * c.accumulate ≤ m) := by
    unfold kept
    rw [hd, if_pos rfl, Nat.mul_comm c.accumulate, Nat.mul_lt_mul_right hk, ← Nat.le_div_iff_mul_le hk]
    rfl
  simp only [e]
  split
  · congr 1
    unfold part
    rw [hd, Nat.succ_mul]
    by_cases hx : i * c.accumulate + c.accumulate ≤ (xs r).length
    · rw [if_pos hx, if_neg]
      simp
      omega
    · rw [if_neg hx, if_pos]
      simp
      omega
  · rfl

example :
    let S : Fin 2 → Source := fun r => listSource (if r = 0 then ints 3 else ints 5)
    let s : ∀ r, (S r).σ := fun r => (S r).init
    let c : Reader.Cfg := { accumulate := 2, mode := .untilLast }
    got c (start s) 0 3 = ints 3 ∧ got c (start s) 1 3 = ints 5 ∧ (∀ r, reply c (start s) 3 r = .stop) := by
  intro S s c
  have h := fun r => C28_longest (n := 2) (S := S) (c := c) (by decide) rfl (by omega) rfl rfl
    (s := s) (xs := fun r => if r = 0 then ints 3 else ints 5) (fun r => C05_read_sequence _) (m := 5)
    ⟨fun r => by split <;> simp [ints], 1, by simp [ints]⟩ r
  refine ⟨(h 0).2.2 3 (by simp [c]), (h 1).2.2 3 (by simp [c]), fun r => ?_⟩
  rw [(h r).2.1 3]
  rfl

/-! ## C29 -/

/-- Readers whose pipelines cannot be told apart give the same, for every sequence of calls of `next` and `reset`. -/
theorem C29_same_pipelines (c : Reader.Cfg) {x : ∀ r, RS (S r)} (hx : ∀ r, (x r).eod = false) {t : ∀ r, (S r).σ}
    (ht : ∀ r, (S r).Same (t r) (x r).pipe) (ops : List ROp) :
    runAll c ops (fun r => loaded (t r)) = runAll c ops x :=
  runAll_same c ops fun r => ⟨ht r, (hx r).symm⟩

/-- Readers over pipelines as `Pipe` describes them (for the compositions for which a pipeline can be resumed, see
`C01_resume_fresh_partial`): saving the state on every rank after any calls, as long as the end has not been reached, and
loading it into new readers works, and the new readers go on as the first ones would have: every further sequence of calls of
`next` and `reset` gives the same on every rank.  Missing for the full claim: the compositions for which C01 fails. -/
theorem C29_resume_partial (R : Rng) {max : Nat} {p : Fin n → Pipe} (hp : ∀ r, (p r).Accepted R) (hl : ∀ r, (p r).LoadsFresh R)
    (hm : ∀ r, max = 0 ∨ (p r).Quiet) (c : Reader.Cfg) {x : ∀ r, RS (built R max (p r))}
    (hu : ∀ r, Used R max (p r) (x r).pipe) (hx : ∀ r, (x r).eod = false) :
    ∃ (d : Fin n → List Data) (t : ∀ r, (built R max (p r)).σ),
      (∀ r, stateDict ((p r).denote R) true (x r).pipe = .ok (d r) ∧
        loadStateDict ((p r).denote R) (built R max (p r)).init (d r) = .ok (t r)) ∧
      ∀ ops, runAll c ops (fun r => loaded (t r)) = runAll c ops x := by
  have h := fun r => C01_resume_fresh_partial (hp r) (hl r) (hm r) (hu r)
  refine ⟨fun r => (h r).choose, fun r => (h r).choose_spec.choose, fun r => ?_, fun ops => ?_⟩
  · exact ⟨(h r).choose_spec.choose_spec.1, (h r).choose_spec.choose_spec.2.1⟩
  · exact C29_same_pipelines c hx (fun r => (h r).choose_spec.choose_spec.2.2) ops

/-- Two ranks that have read one bucket each. -/
example :
    let p : Fin 2 → Pipe := fun r => .bucket 2 false (.list (if r = 0 then ints 5 else ints 6))
    ∃ x : ∀ r, RS (built lcg 0 (p r)), (∀ r, (p r).Accepted lcg) ∧ (∀ r, (p r).LoadsFresh lcg) ∧
      (∀ r, Used lcg 0 (p r) (x r).pipe) ∧ (∀ r, (x r).eod = false) ∧
      x = Reader.after {} (start fun r => (built lcg 0 (p r)).init) 1 ∧
      ∀ r, reply {} x 0 r = .batches [.list [.int 3, .int 4]] := by
  intro p
  refine ⟨Reader.after {} (start fun r => (built lcg 0 (p r)).init) 1, fun r => ⟨by decide, trivial⟩, fun r => trivial, fun r => ?_, fun r => ?_, rfl,
    fun r => ?_⟩
  · match r with
    | 0 => exact .next (r := .yield (.list (ints 2))) .fresh rfl (by simp [Res.fatal])
    | 1 => exact .next (r := .yield (.list (ints 2))) .fresh rfl (by simp [Res.fatal])
  · match r with
    | 0 => rfl
    | 1 => rfl
  · match r with
    | 0 => rfl
    | 1 => rfl

end Fs2.Props
