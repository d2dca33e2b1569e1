import Verif.Pipeline.TapeFrame
import Verif.Props.Resume

/-!
# C02: a state is read back as it was recorded, and other states are refused

`TapeObj`, `Ty.record` and `Ty.read` are the model of the class `tape`
(Verif/Pipeline/Tape.lean).  The statements only use those, `load_state_dict` and
lists.
-/

namespace Fs2.Props
open Source

/-- A value together with the C++ type it is recorded as. -/
abbrev Typed := (t : Ty) × t.Val

/-- Recording several values one after the other. -/
def recordAll : List Typed → TapeObj → Except Err TapeObj
  | [], tp => .ok tp
  | v :: vs, tp => match v.1.record v.2 tp with
    | .error e => .error e
    | .ok tp => recordAll vs tp

/-- Reading values of given types one after the other. -/
def readAll : List Ty → TapeObj → Except Err (List Typed × TapeObj)
  | [], tp => .ok ([], tp)
  | t :: ts, tp => match t.read tp with
    | .error e => .error e
    | .ok (v, tp) => match readAll ts tp with
      | .error e => .error e
      | .ok (vs, tp) => .ok (⟨t, v⟩ :: vs, tp)

/-- The values a single recording of `v` puts on an empty tape. -/
def Recorded (t : Ty) (v : t.Val) (ds : List Data) : Prop :=
  t.record v {} = .ok ⟨ds, ds.length⟩

theorem recorded_enc {t : Ty} {v : t.Val} : Recorded t v (t.enc v) := by
  have := Ty.record_end t v []
  simpa [Recorded] using this

theorem recorded_iff {t : Ty} {v : t.Val} {ds : List Data} : Recorded t v ds ↔ ds = t.enc v := by
  constructor
  · intro h
    rw [Recorded, recorded_enc] at h
    simp only [Except.ok.injEq, TapeObj.mk.injEq] at h
    exact h.1.symm
  · rintro rfl; exact recorded_enc

theorem recordAll_end : ∀ (vs : List Typed) (st : List Data),
    recordAll vs ⟨st, st.length⟩ =
      .ok ⟨st ++ vs.flatMap fun v => v.1.enc v.2,
        (st ++ vs.flatMap fun v => v.1.enc v.2).length⟩
  | [], st => by simp [recordAll]
  | v :: vs, st => by
    simp only [recordAll, Ty.record_end]
    rw [recordAll_end vs]
    simp [List.flatMap_cons]

theorem readAll_enc : ∀ (vs : List Typed) (tp : TapeObj) (rest : List Data),
    (∀ v ∈ vs, v.1.Fits v.2) → tp.unread = (vs.flatMap fun v => v.1.enc v.2) ++ rest →
    ∃ tp', readAll (vs.map (·.1)) tp = .ok (vs, tp') ∧ tp'.unread = rest ∧
      tp'.storage = tp.storage ∧ tp'.pos = tp.pos + (vs.flatMap fun v => v.1.enc v.2).length
  | [], tp, rest, _, h => ⟨tp, rfl, by simpa using h, rfl, by simp⟩
  | v :: vs, tp, rest, hf, h => by
    rw [List.flatMap_cons, List.append_assoc] at h
    obtain ⟨tp1, h1, h2, h3, h4⟩ := Ty.read_enc v.1 v.2 tp _ (hf v List.mem_cons_self) h
    obtain ⟨tp2, h5, h6, h7, h8⟩ :=
      readAll_enc vs tp1 rest (fun w hw => hf w (List.mem_cons_of_mem _ hw)) h2
    refine ⟨tp2, ?_, h6, by rw [h7, h3], by
      simp only [List.flatMap_cons, List.length_append]; omega⟩
    simp only [List.map_cons, readAll, h1, h5]

/-- Whatever values are recorded (numbers, strings, tensors, nested lists, vectors and
optionals, in any order) are read back unchanged and in order, and reading consumes
exactly what was recorded.  `Ty.Fits` excludes `std::size_t` values of 2^63 and more
(see `C02_large_size`). -/
theorem C02_round_trip_partial (vs : List Typed) (hf : ∀ v ∈ vs, v.1.Fits v.2) :
    ∃ tp tp', recordAll vs {} = .ok tp ∧ readAll (vs.map (·.1)) tp.rewind = .ok (vs, tp') ∧
      tp'.isEod = true := by
  have h1 := recordAll_end vs []
  obtain ⟨tp', h2, h3, h4, h5⟩ := readAll_enc vs
    (TapeObj.mk (vs.flatMap fun v => v.1.enc v.2) 0) [] hf (by simp [TapeObj.unread])
  refine ⟨_, tp', by simpa using h1, ?_, ?_⟩
  · simpa [TapeObj.rewind] using h2
  · simp [TapeObj.isEod, h4, h5]

example : ∃ tp tp', recordAll [⟨.size, (3 : Nat)⟩, ⟨.vec (.opt .data), [some (.int 1), none]⟩,
      ⟨.opt (.vec .bool), some [true, false]⟩] {} = .ok tp ∧
    readAll [.size, .vec (.opt .data), .opt (.vec .bool)] tp.rewind =
      .ok ([⟨.size, (3 : Nat)⟩, ⟨.vec (.opt .data), [some (.int 1), none]⟩,
        ⟨.opt (.vec .bool), some [true, false]⟩], tp') ∧ tp'.isEod = true :=
  C02_round_trip_partial [⟨.size, (3 : Nat)⟩, ⟨.vec (.opt .data), [some (.int 1), none]⟩,
      ⟨.opt (.vec .bool), some [true, false]⟩] (by
    intro v hv
    simp only [List.mem_cons, List.not_mem_nil, or_false] at hv
    rcases hv with rfl | rfl | rfl
    · show (3 : Nat) < 2 ^ 63; decide
    · refine ⟨by decide, ?_⟩
      intro v hv
      simp only [List.mem_cons, List.not_mem_nil, or_false] at hv
      rcases hv with rfl | rfl <;> trivial
    · refine ⟨by decide, fun v _ => trivial⟩)

/-- `read<T>` succeeds exactly if the unread part of the tape begins with what
recording some value of type `T` produces, and then it returns that value and leaves
the rest: a tape that is too short or holds a value of another kind is refused, never
misread. -/
theorem C02_reads_only_recordings (t : Ty) (tp : TapeObj) (v : t.Val) (rest : List Data)
    (hw : Ty.Words tp.storage) :
    (∃ tp', t.read tp = .ok (v, tp') ∧ tp'.storage = tp.storage ∧ tp'.unread = rest) ↔
      t.Fits v ∧ ∃ ds, Recorded t v ds ∧ tp.unread = ds ++ rest := by
  constructor
  · rintro ⟨tp', h, _, rfl⟩
    obtain ⟨f, u, _⟩ := Ty.read_sound t tp tp' v hw h
    exact ⟨f, _, recorded_enc, u⟩
  · rintro ⟨f, ds, hr, hu⟩
    rw [recorded_iff] at hr
    subst hr
    obtain ⟨tp', h1, h2, h3, _⟩ := Ty.read_enc t v tp rest f hu
    exact ⟨tp', h1, h3, h2⟩

/-- Every refusal is the same error, whatever was found. -/
theorem C02_refuses_with_error (t : Ty) (tp : TapeObj) (hw : Ty.Words tp.storage)
    (h : ∀ v ds, t.Fits v → Recorded t v ds → ¬ ds <+: tp.unread) :
    ∃ e, t.read tp = .error e := by
  cases hr : t.read tp with
  | error e => exact ⟨e, rfl⟩
  | ok r =>
    obtain ⟨v, tp'⟩ := r
    obtain ⟨f, u, _⟩ := Ty.read_sound t tp tp' v hw hr
    exact absurd ⟨_, u.symm⟩ (h v _ f recorded_enc)

/-- A boolean where a vector's size should be, and a vector cut short. -/
example : (Ty.vec .bool).read ⟨[.bool true], 0⟩ = .error corrupt := rfl
example : (Ty.vec .bool).read ⟨[.int 2, .bool true], 0⟩ = .error corrupt := rfl
example : (Ty.vec .bool).read ⟨[.int 1, .bool true, .str "x"], 0⟩ =
    .ok ([true], ⟨[.int 1, .bool true, .str "x"], 2⟩) := rfl

/-- Recording is only possible at the end of the tape: a tape that is being read is not
overwritten. -/
theorem C02_record_at_end (t : Ty) (v : t.Val) (tp : TapeObj) (h : tp.pos < tp.storage.length) :
    ∃ e, t.record v tp = .error e := by
  have hd : ∀ d, ∃ e, tp.recordData d = .error e := by
    intro d
    refine ⟨_, by rw [TapeObj.recordData, if_pos (by omega)]⟩
  cases t with
  | vec t => obtain ⟨e, he⟩ := hd (.int (Ty.asSigned (show List t.Val from v).length))
             exact ⟨e, by simp only [Ty.record, he]⟩
  | opt t =>
    cases v with
    | none => exact hd _
    | some v => obtain ⟨e, he⟩ := hd (.bool true); exact ⟨e, by simp only [Ty.record, he]⟩
  | _ => exact hd _

/-- `load_state_dict` of a pipeline, whatever it is composed of, refuses a state that
it would accept if values at its end were missing. -/
theorem C02_too_long (R : Rng) (p : Pipe) (s s' : PipeSt (p.denote R).σ) (t extra : Tape)
    (h : loadStateDict (p.denote R) s t = .ok s') (hx : extra ≠ []) :
    ∃ e s'', loadStateDict (p.denote R) s (t ++ extra) = .error e s'' := by
  simp only [loadStateDict] at h ⊢
  split at h
  · cases h
  rename_i hb
  rw [if_neg hb]
  split at h
  · cases h
  · rename_i t1 h1
    rw [framed_readBool _ _ _ extra h1]
    exact ⟨_, _, if_neg (by simp [hx])⟩
  · rename_i t1 h1
    rw [framed_readBool _ _ _ extra h1]
    dsimp only
    split at h
    · cases h
    rename_i st t2 h2
    rw [framed_readBool _ _ _ extra h2]
    dsimp only
    split at h
    · cases h
    rename_i i t3 h3
    rw [p.frame R _ _ _ _ _ extra h3]
    exact ⟨_, _, if_neg (by simp [hx])⟩

/-- … and a state that it would accept if values were added at its end. -/
theorem C02_too_short (R : Rng) (p : Pipe) (s s' : PipeSt (p.denote R).σ) (t extra : Tape)
    (h : loadStateDict (p.denote R) s (t ++ extra) = .ok s') (hx : extra ≠ []) :
    ∃ e s'', loadStateDict (p.denote R) s t = .error e s'' := by
  cases h1 : loadStateDict (p.denote R) s t with
  | error e s'' => exact ⟨e, s'', rfl⟩
  | ok s'' =>
    obtain ⟨e, s₃, h2⟩ := C02_too_long R p s s'' t extra h1 hx
    rw [h2] at h; cases h

/-- The state of `read_sequence([1, 2]).take(5)` after one example: `True, True, 1, 1`. -/
def taken : Pipe := .take 5 (.list [.int 1, .int 2])

example : loadStateDict (taken.denote lcg) (pipeline true 0 (taken.denote lcg)).init
    [.bool true, .bool true, .int 1, .int 1] = .ok ⟨some ((1, 1) : Nat × Nat), 0, false⟩ := rfl

example : ∃ e s, loadStateDict (taken.denote lcg) (pipeline true 0 (taken.denote lcg)).init
    ([.bool true, .bool true, .int 1, .int 1] ++ [.int 0]) = .error e s :=
  C02_too_long lcg taken _ _ _ _ rfl (by simp)

example : ∃ e s, loadStateDict (taken.denote lcg) (pipeline true 0 (taken.denote lcg)).init
    [.bool true, .bool true, .int 1] = .error e s :=
  C02_too_short lcg taken _ _ [.bool true, .bool true, .int 1] [.int 1] rfl (by simp)

/-! ## Where the code falls short -/

/-- A `std::size_t` of 2^63 or more (a seed) is recorded as a negative number and
cannot be read back; it is refused, not misread. -/
theorem C02_large_size (n : Nat) (h1 : 2 ^ 63 ≤ n) (h2 : n < 2 ^ 64) :
    ∃ tp, Ty.record .size n {} = .ok tp ∧ Ty.read .size tp.rewind = .error corrupt := by
  refine ⟨_, rfl, ?_⟩
  have hneg : Ty.asSigned n < 0 := by
    simp only [Ty.asSigned, if_neg (Nat.not_lt.2 h1)]; omega
  simp only [TapeObj.rewind, Ty.read, TapeObj.readData, List.nil_append, List.getElem?_cons_zero]
  cases hx : Ty.asSigned n with
  | ofNat k => rw [hx] at hneg; exact absurd hneg (by simp)
  | negSucc k => rfl

/-- A state that is too long is refused with an error, but only after the pipeline has
been moved to the position in it: the fresh pipeline goes on with the second example. -/
theorem C02_refused_state_moves :
    ∃ e s, loadStateDict (taken.denote lcg) (pipeline true 0 (taken.denote lcg)).init
        [.bool true, .bool true, .int 1, .int 1, .int 0] = .error e s ∧
      (pipeline true 0 (taken.denote lcg)).run [.next] s = [some (.yield (.int 2))] ∧
      (pipeline true 0 (taken.denote lcg)).run [.next] (pipeline true 0 (taken.denote lcg)).init =
        [some (.yield (.int 1))] := ⟨_, _, rfl, rfl, rfl⟩

end Fs2.Props
