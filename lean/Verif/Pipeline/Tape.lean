import Verif.Pipeline.Basic

/-!
# `tape`: storage plus cursor

Model of native/src/fairseq2n/data/{tape.h,tape.cc,tape-inl.h}.  The operators in
this development see a tape as the list of its unread values (`Tape`); here is the
class itself, with every type it can record, and the link between the two views.
-/

namespace Fs2

/-- The class `tape` (tape.h:20-73): `storage_` and the iterator `pos_`. -/
structure TapeObj where
  storage : List Data := []
  pos : Nat := 0

namespace TapeObj

/-- `tape::record_data` (tape.cc:14-25). -/
def recordData (d : Data) (t : TapeObj) : Except Err TapeObj :=
  if t.pos ≠ t.storage.length then
    .error ⟨false, "New data can only be recorded to the end of the tape."⟩
  else .ok ⟨t.storage ++ [d], t.storage.length + 1⟩

/-- `tape::read_data` (tape.cc:27-34). -/
def readData (t : TapeObj) : Except Err (Data × TapeObj) :=
  match t.storage[t.pos]? with
  | none => .error corrupt
  | some d => .ok (d, ⟨t.storage, t.pos + 1⟩)

/-- `tape::rewind` (tape.h:52-56). -/
def rewind (t : TapeObj) : TapeObj := ⟨t.storage, 0⟩

/-- `tape::is_eod` (tape.h:58-62). -/
def isEod (t : TapeObj) : Bool := t.pos = t.storage.length

end TapeObj

/-- The types `tape::record` and `tape::read` are instantiated at (tape-inl.h:36-151).
Left out: memory blocks, Python objects and integer types narrower than 64 bits.
`vec` is `std::vector<T>` with `T ≠ data`; `std::vector<data>` is `list`. -/
inductive Ty where
  | data | bool | int64 | size | float | str | tensor | list | dict
  | vec (t : Ty)
  | opt (t : Ty)

namespace Ty

/-- The C++ values of each type.  64-bit bounds are stated where they matter
(`Fits`). -/
@[reducible] def Val : Ty → Type
  | data => Data
  | bool => Bool
  | int64 => Int
  | size => Nat
  | float => Rat
  | str => String
  | tensor => List Int
  | list => List Data
  | dict => List (String × Data)
  | vec t => List t.Val
  | opt t => Option t.Val

/-- `conditional_cast<std::int64_t>` of a `std::size_t` (tape-inl.h:44-46): the same
64 bits read as a signed number. -/
def asSigned (n : Nat) : Int := if n < 2 ^ 63 then n else (n : Int) - 2 ^ 64

/-- `tape::record` (tape-inl.h:36-85). -/
def record : (t : Ty) → t.Val → TapeObj → Except Err TapeObj
  | data, d, tp => tp.recordData d
  | bool, b, tp => tp.recordData (.bool b)
  | int64, i, tp => tp.recordData (.int i)
  | size, n, tp => tp.recordData (.int (asSigned n))
  | float, q, tp => tp.recordData (.num q)
  | str, s, tp => tp.recordData (.str s)
  | tensor, xs, tp => tp.recordData (.tensor xs)
  | list, xs, tp => tp.recordData (.list xs)
  | dict, kvs, tp => tp.recordData (.dict kvs)
  | vec t, vs, tp =>
    match tp.recordData (.int (asSigned vs.length)) with
    | .error e => .error e
    | .ok tp => vs.foldlM (fun tp v => record t v tp) tp
  | opt _, none, tp => tp.recordData (.bool false)
  | opt t, some v, tp =>
    match tp.recordData (.bool true) with
    | .error e => .error e
    | .ok tp => record t v tp

/-- The loop of `tape::read<std::vector<U>>` (tape-inl.h:133-134). -/
def readLoop {α : Type} (rd : TapeObj → Except Err (α × TapeObj)) :
    Nat → TapeObj → Except Err (List α × TapeObj)
  | 0, tp => .ok ([], tp)
  | n + 1, tp =>
    match rd tp with
    | .error e => .error e
    | .ok (a, tp) =>
      match readLoop rd n tp with
      | .error e => .error e
      | .ok (as, tp) => .ok (a :: as, tp)

/-- `tape::read` (tape-inl.h:87-151).  `maybe_narrow` from `int64_t` to `size_t`
refuses negative values.  Simplification: `output.reserve(size)` (line 131) may throw
`std::length_error` or `std::bad_alloc` for a huge size before the tape runs out. -/
def read : (t : Ty) → TapeObj → Except Err (t.Val × TapeObj)
  | data, tp => tp.readData
  | bool, tp => match tp.readData with
    | .ok (.bool b, tp) => .ok (b, tp)
    | _ => .error corrupt
  | int64, tp => match tp.readData with
    | .ok (.int i, tp) => .ok (i, tp)
    | _ => .error corrupt
  | size, tp => match tp.readData with
    | .ok (.int (.ofNat n), tp) => .ok (n, tp)
    | _ => .error corrupt
  | float, tp => match tp.readData with
    | .ok (.num q, tp) => .ok (q, tp)
    | _ => .error corrupt
  | str, tp => match tp.readData with
    | .ok (.str s, tp) => .ok (s, tp)
    | _ => .error corrupt
  | tensor, tp => match tp.readData with
    | .ok (.tensor xs, tp) => .ok (xs, tp)
    | _ => .error corrupt
  | list, tp => match tp.readData with
    | .ok (.list xs, tp) => .ok (xs, tp)
    | _ => .error corrupt
  | dict, tp => match tp.readData with
    | .ok (.dict kvs, tp) => .ok (kvs, tp)
    | _ => .error corrupt
  | vec t, tp => match tp.readData with
    | .ok (.int (.ofNat n), tp) => readLoop (read t) n tp
    | _ => .error corrupt
  | opt t, tp => match tp.readData with
    | .ok (.bool false, tp) => .ok (none, tp)
    | .ok (.bool true, tp) => match read t tp with
      | .error e => .error e
      | .ok (v, tp) => .ok (some v, tp)
    | _ => .error corrupt

end Ty

/-! ## Lemmas -/

namespace TapeObj

/-- The unread values: what the operators of this development call a tape. -/
def unread (t : TapeObj) : Tape := t.storage.drop t.pos

theorem readData_cons {t : TapeObj} {d : Data} {ds : List Data} (h : t.unread = d :: ds) :
    t.readData = .ok (d, ⟨t.storage, t.pos + 1⟩) ∧
      (TapeObj.mk t.storage (t.pos + 1)).unread = ds := by
  obtain ⟨st, p⟩ := t
  simp only [unread] at h
  have hp : p < st.length := by
    refine Nat.lt_of_not_le fun hle => ?_
    rw [List.drop_eq_nil_of_le hle] at h; cases h
  rw [List.drop_eq_getElem_cons hp] at h
  simp only [List.cons.injEq] at h
  refine ⟨?_, h.2⟩
  simp [readData, List.getElem?_eq_getElem hp, h.1]

theorem readData_nil {t : TapeObj} (h : t.unread = []) : t.readData = .error corrupt := by
  obtain ⟨st, p⟩ := t
  simp only [unread, List.drop_eq_nil_iff] at h
  simp [readData, List.getElem?_eq_none h]

theorem readData_ok {t t' : TapeObj} {d : Data} (h : t.readData = .ok (d, t')) :
    t.unread = d :: t'.unread ∧ t' = ⟨t.storage, t.pos + 1⟩ := by
  cases hu : t.unread with
  | nil => rw [readData_nil hu] at h; cases h
  | cons x xs =>
    obtain ⟨h1, h2⟩ := readData_cons hu
    rw [h1] at h
    simp only [Except.ok.injEq, Prod.mk.injEq] at h
    obtain ⟨rfl, rfl⟩ := h
    exact ⟨by rw [h2], rfl⟩

end TapeObj

namespace Ty

/-- Values whose sizes are below 2^63 (every container in memory; a `std::size_t`
such as a seed need not be). -/
def Fits : (t : Ty) → t.Val → Prop
  | size, n => (show Nat from n) < 2 ^ 63
  | vec t, vs => (show List t.Val from vs).length < 2 ^ 63 ∧ ∀ v ∈ (show List t.Val from vs), t.Fits v
  | opt _, none => True
  | opt t, some v => t.Fits v
  | _, _ => True

/-- What recording a value appends. -/
def enc : (t : Ty) → t.Val → List Data
  | data, d => [d]
  | bool, b => [.bool b]
  | int64, i => [.int i]
  | size, n => [.int (asSigned n)]
  | float, q => [.num q]
  | str, s => [.str s]
  | tensor, xs => [.tensor xs]
  | list, xs => [.list xs]
  | dict, kvs => [.dict kvs]
  | vec t, vs => .int (asSigned (show List t.Val from vs).length) ::
      (show List t.Val from vs).flatMap (enc t)
  | opt _, none => [.bool false]
  | opt t, some v => .bool true :: enc t v

theorem recordData_end (d : Data) (st : List Data) :
    (TapeObj.mk st st.length).recordData d = .ok ⟨st ++ [d], (st ++ [d]).length⟩ := by
  simp [TapeObj.recordData]

theorem record_end : (t : Ty) → (v : t.Val) → (st : List Data) →
    record t v ⟨st, st.length⟩ = .ok ⟨st ++ enc t v, (st ++ enc t v).length⟩
  | data, _, _ | bool, _, _ | int64, _, _ | size, _, _ | float, _, _ | str, _, _
  | tensor, _, _ | list, _, _ | dict, _, _ => recordData_end _ _
  | vec t, vs, st => by
    have key : ∀ (vs : List t.Val) (st : List Data),
        vs.foldlM (fun tp v => record t v tp) (TapeObj.mk st st.length) =
          Except.ok (ε := Err)
            ⟨st ++ vs.flatMap (enc t), (st ++ vs.flatMap (enc t)).length⟩ := by
      intro vs
      induction vs with
      | nil => intro st; simp [pure, Except.pure]
      | cons v vs ih =>
        intro st
        rw [List.foldlM_cons, record_end t v st]
        simp only [bind, Except.bind]
        rw [ih]
        simp [List.flatMap_cons, List.append_assoc]
    simp only [record, recordData_end, enc]
    rw [key]
    simp
  | opt _, none, _ => recordData_end _ _
  | opt t, some v, st => by
    simp only [record, recordData_end, enc]
    rw [record_end t v]
    simp

theorem readLoop_enc {t : Ty}
    (ih : ∀ (v : t.Val) (tp : TapeObj) (rest : List Data), t.Fits v →
      tp.unread = enc t v ++ rest →
      ∃ tp', read t tp = .ok (v, tp') ∧ tp'.unread = rest ∧ tp'.storage = tp.storage ∧
        tp'.pos = tp.pos + (enc t v).length) :
    ∀ (vs : List t.Val) (tp : TapeObj) (rest : List Data), (∀ v ∈ vs, t.Fits v) →
      tp.unread = vs.flatMap (enc t) ++ rest →
      ∃ tp', readLoop (read t) vs.length tp = .ok (vs, tp') ∧ tp'.unread = rest ∧
        tp'.storage = tp.storage ∧ tp'.pos = tp.pos + (vs.flatMap (enc t)).length := by
  intro vs
  induction vs with
  | nil => intro tp rest _ h; exact ⟨tp, rfl, by simpa using h, rfl, by simp⟩
  | cons v vs ihv =>
    intro tp rest hf h
    rw [List.flatMap_cons, List.append_assoc] at h
    obtain ⟨tp1, h1, h2, h3, h4⟩ := ih v tp _ (hf v List.mem_cons_self) h
    obtain ⟨tp2, h5, h6, h7, h8⟩ := ihv tp1 rest (fun w hw => hf w (List.mem_cons_of_mem _ hw)) h2
    refine ⟨tp2, ?_, h6, by rw [h7, h3], by simp only [List.flatMap_cons, List.length_append]; omega⟩
    simp only [List.length_cons, readLoop, h1, h5]

theorem asSigned_small {n : Nat} (h : n < 2 ^ 63) : asSigned n = .ofNat n := by
  simp only [asSigned, if_pos h]; rfl

theorem read_enc : (t : Ty) → (v : t.Val) → (tp : TapeObj) → (rest : List Data) → t.Fits v →
    tp.unread = enc t v ++ rest →
    ∃ tp', read t tp = .ok (v, tp') ∧ tp'.unread = rest ∧ tp'.storage = tp.storage ∧
      tp'.pos = tp.pos + (enc t v).length
  | data, _, _, _, _, h | bool, _, _, _, _, h | int64, _, _, _, _, h | float, _, _, _, _, h
  | str, _, _, _, _, h | tensor, _, _, _, _, h | list, _, _, _, _, h | dict, _, _, _, _, h
  | opt _, none, _, _, _, h => by
    obtain ⟨h1, h2⟩ := TapeObj.readData_cons h
    exact ⟨_, by simp only [read, h1], h2, rfl, rfl⟩
  | size, n, tp, rest, hf, h => by
    simp only [enc, asSigned_small hf] at h
    obtain ⟨h1, h2⟩ := TapeObj.readData_cons h
    exact ⟨_, by simp only [read, h1], h2, rfl, rfl⟩
  | opt t, some v, tp, rest, hf, h => by
    obtain ⟨h1, h2⟩ := TapeObj.readData_cons h
    obtain ⟨tp', h3, h4, h5, h6⟩ := read_enc t v _ rest hf h2
    exact ⟨tp', by simp only [read, h1, h3], h4, h5, by simp only [enc, List.length_cons]; simp only at h6; omega⟩
  | vec t, vs, tp, rest, hf, h => by
    simp only [enc, asSigned_small hf.1] at h
    obtain ⟨h1, h2⟩ := TapeObj.readData_cons h
    obtain ⟨tp', h3, h4, h5, h6⟩ := readLoop_enc (read_enc t) vs _ rest hf.2 h2
    exact ⟨tp', by simp only [read, h1, h3], h4, h5, by simp only [enc, List.length_cons]; simp only at h6; omega⟩

/-- The integers on a tape are 64-bit integers, as they are in a `data` object
(data.h) and after the conversion from Python. -/
def Words (st : List Data) : Prop := ∀ n : Nat, Data.int n ∈ st → n < 2 ^ 63

theorem readLoop_sound {t : Ty}
    (ih : ∀ (tp tp' : TapeObj) (v : t.Val), Words tp.storage → read t tp = .ok (v, tp') →
      t.Fits v ∧ tp.unread = enc t v ++ tp'.unread ∧ tp'.storage = tp.storage) :
    ∀ (n : Nat) (tp tp' : TapeObj) (vs : List t.Val), Words tp.storage →
      readLoop (read t) n tp = .ok (vs, tp') →
      vs.length = n ∧ (∀ v ∈ vs, t.Fits v) ∧ tp.unread = vs.flatMap (enc t) ++ tp'.unread ∧
        tp'.storage = tp.storage := by
  intro n
  induction n with
  | zero =>
    intro tp tp' vs _ h
    simp only [readLoop, Except.ok.injEq, Prod.mk.injEq] at h
    obtain ⟨rfl, rfl⟩ := h
    simp
  | succ n ihn =>
    intro tp tp' vs hw h
    simp only [readLoop] at h
    split at h
    · cases h
    · rename_i a tp1 h1
      split at h
      · cases h
      · rename_i as tp2 h2
        simp only [Except.ok.injEq, Prod.mk.injEq] at h
        obtain ⟨rfl, rfl⟩ := h
        obtain ⟨f1, u1, s1⟩ := ih _ _ _ hw h1
        obtain ⟨l2, f2, u2, s2⟩ := ihn _ _ _ (by rw [s1]; exact hw) h2
        refine ⟨by simp [l2], ?_, ?_, by rw [s2, s1]⟩
        · intro v hv
          rcases List.mem_cons.1 hv with rfl | hv
          · exact f1
          · exact f2 v hv
        · rw [u1, u2, List.flatMap_cons, List.append_assoc]

theorem word_of_unread {tp : TapeObj} {n : Nat} {ds : List Data} (hw : Words tp.storage)
    (h : tp.unread = .int (.ofNat n) :: ds) : n < 2 ^ 63 :=
  hw n (List.mem_of_mem_drop (i := tp.pos) (by
    show _ ∈ tp.unread; rw [h]; exact List.mem_cons_self))

theorem read_sound : (t : Ty) → (tp tp' : TapeObj) → (v : t.Val) → Words tp.storage →
    read t tp = .ok (v, tp') →
    t.Fits v ∧ tp.unread = enc t v ++ tp'.unread ∧ tp'.storage = tp.storage
  | data, tp, tp', v, _, h => by
    obtain ⟨h1, h2⟩ := TapeObj.readData_ok h
    exact ⟨trivial, h1, by rw [h2]⟩
  | bool, tp, tp', v, _, h | int64, tp, tp', v, _, h | float, tp, tp', v, _, h
  | str, tp, tp', v, _, h | tensor, tp, tp', v, _, h | list, tp, tp', v, _, h
  | dict, tp, tp', v, _, h => by
    simp only [read] at h
    split at h
    · rename_i hr
      simp only [Except.ok.injEq, Prod.mk.injEq] at h
      obtain ⟨rfl, rfl⟩ := h
      obtain ⟨h1, h2⟩ := TapeObj.readData_ok hr
      exact ⟨trivial, h1, by rw [h2]⟩
    · cases h
  | size, tp, tp', v, hw, h => by
    simp only [read] at h
    split at h
    · rename_i n _ hr
      simp only [Except.ok.injEq, Prod.mk.injEq] at h
      obtain ⟨rfl, rfl⟩ := h
      obtain ⟨h1, h2⟩ := TapeObj.readData_ok hr
      have hn := word_of_unread hw h1
      exact ⟨hn, by simp only [enc, asSigned_small hn]; exact h1, by rw [h2]⟩
    · cases h
  | opt t, tp, tp', v, hw, h => by
    simp only [read] at h
    split at h
    · rename_i hr
      simp only [Except.ok.injEq, Prod.mk.injEq] at h
      obtain ⟨rfl, rfl⟩ := h
      obtain ⟨h1, h2⟩ := TapeObj.readData_ok hr
      exact ⟨trivial, h1, by rw [h2]⟩
    · rename_i tp1 hr
      obtain ⟨h1, h2⟩ := TapeObj.readData_ok hr
      split at h
      · cases h
      · rename_i hv
        simp only [Except.ok.injEq, Prod.mk.injEq] at h
        obtain ⟨rfl, rfl⟩ := h
        obtain ⟨f, u, s⟩ := read_sound t _ _ _ (by rw [h2]; exact hw) hv
        exact ⟨f, by rw [h1, u]; rfl, by rw [s, h2]⟩
    · cases h
  | vec t, tp, tp', v, hw, h => by
    simp only [read] at h
    split at h
    · rename_i n tp1 hr
      obtain ⟨h1, h2⟩ := TapeObj.readData_ok hr
      have hn := word_of_unread hw h1
      obtain ⟨l, f, u, s⟩ := readLoop_sound (read_sound t) n _ _ _ (by rw [h2]; exact hw) h
      refine ⟨⟨by rw [l]; exact hn, f⟩, ?_, by rw [s, h2]⟩
      rw [h1, u]
      simp only [enc, l, asSigned_small hn]
      rfl
    · cases h

/-! ## The list view -/

theorem read_bool_unread (tp : TapeObj) :
    (read bool tp).map (fun r => (r.1, r.2.unread)) = readBool tp.unread := by
  cases hu : tp.unread with
  | nil => simp [read, TapeObj.readData_nil hu, readBool, Except.map]
  | cons d ds =>
    obtain ⟨h1, h2⟩ := TapeObj.readData_cons hu
    cases d <;> simp [read, h1, readBool, Except.map, h2]

theorem read_size_unread (tp : TapeObj) :
    (read size tp).map (fun r => (r.1, r.2.unread)) = readNat tp.unread := by
  cases hu : tp.unread with
  | nil => simp [read, TapeObj.readData_nil hu, readNat, Except.map]
  | cons d ds =>
    obtain ⟨h1, h2⟩ := TapeObj.readData_cons hu
    cases d with
    | int i => cases i <;> simp [read, h1, readNat, Except.map, h2]
    | _ => simp [read, h1, readNat, Except.map]

theorem readLoop_unread {t : Ty} {rd : Tape → Except Err (t.Val × Tape)}
    (ih : ∀ tp, (read t tp).map (fun r => (r.1, r.2.unread)) = rd tp.unread) :
    ∀ (n : Nat) (tp : TapeObj), (readLoop (read t) n tp).map (fun r => (r.1, r.2.unread)) =
      readMany rd n tp.unread := by
  intro n
  induction n with
  | zero => intro tp; rfl
  | succ n ihn =>
    intro tp
    have := ih tp
    simp only [readLoop, readMany, ← this]
    cases h : read t tp with
    | error e => rfl
    | ok r =>
      obtain ⟨a, tp1⟩ := r
      have h2 := ihn tp1
      simp only [Except.map, ← h2]
      cases readLoop (read t) n tp1 <;> rfl

/-- Reading a vector through the class is `readVec` on the unread values, and so for
every other reader of Basic.lean. -/
theorem read_vec_unread {t : Ty} {rd : Tape → Except Err (t.Val × Tape)}
    (ih : ∀ tp, (read t tp).map (fun r => (r.1, r.2.unread)) = rd tp.unread) (tp : TapeObj) :
    (read (vec t) tp).map (fun r => (r.1, r.2.unread)) = readVec rd tp.unread := by
  cases hu : tp.unread with
  | nil => simp [read, TapeObj.readData_nil hu, readVec, readNat, Except.map]
  | cons d ds =>
    obtain ⟨h1, h2⟩ := TapeObj.readData_cons hu
    cases d with
    | int i =>
      cases i with
      | ofNat n =>
        simp only [read, h1, readVec, readNat]
        rw [readLoop_unread ih n, h2]
      | negSucc n => simp [read, h1, readVec, readNat, Except.map]
    | _ => simp [read, h1, readVec, readNat, Except.map]

theorem read_opt_unread {t : Ty} {rd : Tape → Except Err (t.Val × Tape)}
    (ih : ∀ tp, (read t tp).map (fun r => (r.1, r.2.unread)) = rd tp.unread) (tp : TapeObj) :
    (read (opt t) tp).map (fun r => (r.1, r.2.unread)) = readOpt rd tp.unread := by
  cases hu : tp.unread with
  | nil => simp [read, TapeObj.readData_nil hu, readOpt, readBool, Except.map]
  | cons d ds =>
    obtain ⟨h1, h2⟩ := TapeObj.readData_cons hu
    cases d with
    | bool b =>
      cases b with
      | false => simp [read, h1, readOpt, readBool, Except.map, h2]
      | true =>
        simp only [read, h1, readOpt, readBool, ← h2]
        have := ih ⟨tp.storage, tp.pos + 1⟩
        rw [← this]
        cases read t ⟨tp.storage, tp.pos + 1⟩ <;> rfl
    | _ => simp [read, h1, readOpt, readBool, Except.map]

end Ty
end Fs2
