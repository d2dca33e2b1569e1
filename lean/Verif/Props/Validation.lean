import Std.Data.String.ToNat
import Verif.Utils.Validation

/-!
C69: validation of an object with all its parts.

Specification. `Within o p x`: the object `x` is reached from `o` along the names `p`, that is, through fields
of dataclass objects, values of mappings, and elements of lists, tuples and sets. `Faulty r`: a result carries
a message somewhere.
-/

namespace Fs2.Props

open Fs2.Validation

inductive Within : Obj → List String → Obj → Prop
  | here (o) : Within o [] o
  | field {own fields name c p x} (hc : (name, c) ∈ fields) (h : Within c p x) :
      Within (.data own fields) (name :: p) x
  | entry {own entries key c p x} (hc : (key, c) ∈ entries) (h : Within c p x) :
      Within (.mapping own entries) (("[" ++ key ++ "]") :: p) x
  | elem {own elems c p x} {i : Nat} (hc : elems[i]? = some c) (h : Within c p x) :
      Within (.seq own elems) (("[" ++ toString i ++ "]") :: p) x

inductive Faulty : Result → Prop
  | message {errors subs} (h : errors ≠ []) : Faulty (.mk errors subs)
  | part {errors subs n r} (hr : (n, r) ∈ subs) (h : Faulty r) : Faulty (.mk errors subs)

/-- What the object's own `validate()` returns, if it has one. -/
def ownResult : Obj → Option Result
  | .atom own => own
  | .data own _ => own
  | .mapping own _ => own
  | .seq own _ => own

/-- The object's own validation fails. -/
def Fails (o : Obj) : Prop := ∃ r, ownResult o = some r ∧ Faulty r

/-- Parts have different names, and no `validate()` reports about parts itself (it must not, says the
documentation). -/
inductive Orderly : Obj → Prop
  | atom {own} (ho : ∀ r, own = some r → r.subs = []) : Orderly (.atom own)
  | data {own fields} (ho : ∀ r, own = some r → r.subs = []) (hn : (fields.map (·.1)).Nodup)
      (h : ∀ f ∈ fields, Orderly f.2) : Orderly (.data own fields)
  | mapping {own entries} (ho : ∀ r, own = some r → r.subs = []) (hn : (entries.map (·.1)).Nodup)
      (h : ∀ e ∈ entries, Orderly e.2) : Orderly (.mapping own entries)
  | seq {own elems} (ho : ∀ r, own = some r → r.subs = []) (h : ∀ e ∈ elems, Orderly e) :
      Orderly (.seq own elems)

/-! ### Lemmas -/

private def elemKids (i : Nat) : List Obj → List (String × Obj)
  | [] => []
  | o :: l => (bracket (toString i), o) :: elemKids (i + 1) l

private def kids : Obj → List (String × Obj)
  | .atom _ => []
  | .data _ fields => fields
  | .mapping _ entries => entries.map fun e => (bracket e.1, e.2)
  | .seq _ elems => elemKids 0 elems

private def addKid (r : Result) (k : String × Obj) : Result := addIf r k.1 (doValidate k.2)

private theorem validateFields_eq (label : String → String) (fields : List (String × Obj)) (r : Result) :
    validateFields label fields r = (fields.map fun e => (label e.1, e.2)).foldl addKid r := by
  induction fields generalizing r with
  | nil => rw [validateFields]; rfl
  | cons f fields ih => obtain ⟨n, o⟩ := f; rw [validateFields, validateField, ih]; rfl

private theorem validateElems_eq (i : Nat) (l : List Obj) (r : Result) :
    validateElems i l r = (elemKids i l).foldl addKid r := by
  induction l generalizing i r with
  | nil => rw [validateElems]; rfl
  | cons o l ih => rw [validateElems, ih]; rfl

private theorem doValidate_eq (o : Obj) :
    doValidate o = (kids o).foldl addKid ((ownResult o).getD .empty) := by
  cases o with
  | atom own => rw [doValidate]; rfl
  | data own fields => rw [doValidate, validateFields_eq]; simp [kids, ownResult]
  | mapping own entries => rw [doValidate, validateFields_eq]; rfl
  | seq own elems => rw [doValidate, validateElems_eq]; rfl

private theorem mem_elemKids (i : Nat) (l : List Obj) (k : String × Obj) :
    k ∈ elemKids i l ↔ ∃ j : Nat, k.1 = bracket (toString (i + j)) ∧ l[j]? = some k.2 := by
  induction l generalizing i with
  | nil => simp [elemKids]
  | cons o l ih =>
    rw [elemKids, List.mem_cons, ih]
    constructor
    · rintro (rfl | ⟨j, h1, h2⟩)
      · exact ⟨0, rfl, rfl⟩
      · exact ⟨j + 1, by rw [h1]; congr 2; omega, h2⟩
    · rintro ⟨j, h1, h2⟩
      match j with
      | 0 => left; cases h2; exact Prod.ext h1 rfl
      | j + 1 => right; exact ⟨j, by rw [h1]; congr 2; omega, h2⟩

private theorem within_iff (o : Obj) (p : List String) (x : Obj) :
    Within o p x ↔ (p = [] ∧ x = o) ∨ ∃ k ∈ kids o, ∃ q, p = k.1 :: q ∧ Within k.2 q x := by
  constructor
  · intro h
    cases h with
    | here => exact .inl ⟨rfl, rfl⟩
    | field hc h => exact .inr ⟨_, hc, _, rfl, h⟩
    | entry hc h => exact .inr ⟨_, List.mem_map.2 ⟨_, hc, rfl⟩, _, rfl, h⟩
    | elem hc h =>
      rename_i i
      exact .inr ⟨(bracket (toString i), _), (mem_elemKids 0 _ _).2 ⟨i, by simp, hc⟩, _, rfl, h⟩
  · rintro (⟨rfl, rfl⟩ | ⟨k, hk, q, rfl, h⟩)
    · exact .here _
    · cases o with
      | atom own => cases hk
      | data own fields => exact .field hk h
      | mapping own entries =>
        obtain ⟨e, he, rfl⟩ := List.mem_map.1 hk
        exact .entry he h
      | seq own elems =>
        obtain ⟨j, h1, h2⟩ := (mem_elemKids 0 elems k).1 hk
        rw [h1, Nat.zero_add]
        exact .elem h2 h

private theorem kids_size (o : Obj) (k : String × Obj) (hk : k ∈ kids o) : sizeOf k.2 < sizeOf o := by
  cases o with
  | atom own => cases hk
  | data own fields =>
    have := List.sizeOf_lt_of_mem (show k ∈ fields from hk)
    obtain ⟨n, c⟩ := k
    simp only [Obj.data.sizeOf_spec, Prod.mk.sizeOf_spec] at this ⊢
    omega
  | mapping own entries =>
    obtain ⟨e, he, rfl⟩ := List.mem_map.1 hk
    have := List.sizeOf_lt_of_mem he
    obtain ⟨n, c⟩ := e
    simp only [Obj.mapping.sizeOf_spec, Prod.mk.sizeOf_spec] at this ⊢
    omega
  | seq own elems =>
    obtain ⟨j, -, h⟩ := (mem_elemKids 0 elems k).1 hk
    have := List.sizeOf_lt_of_mem (List.mem_of_getElem? h)
    simp only [Obj.seq.sizeOf_spec]
    omega

private theorem obj_induction {P : Obj → Prop} (h : ∀ o, (∀ k ∈ kids o, P k.2) → P o) (o : Obj) : P o := by
  suffices ∀ n o, sizeOf o < n → P o from this (sizeOf o + 1) o (Nat.lt_succ_self _)
  intro n
  induction n with
  | zero => intro o ho; omega
  | succ n ih =>
    intro o ho
    refine h o fun k hk => ih k.2 ?_
    have := kids_size o k hk
    omega

private theorem anyError_iff (subs : List (String × Result)) :
    anyError subs = true ↔ ∃ x ∈ subs, x.2.hasError = true := by
  induction subs with
  | nil => simp [anyError]
  | cons x subs ih =>
    obtain ⟨n, r⟩ := x
    rw [anyError, pairError, Bool.or_eq_true, ih]
    simp

private theorem hasError_mk (errors : List String) (subs : List (String × Result)) :
    (Result.mk errors subs).hasError = true ↔ errors ≠ [] ∨ ∃ x ∈ subs, x.2.hasError = true := by
  rw [Result.hasError, Bool.or_eq_true, anyError_iff]
  simp

private theorem faulty_of_hasError : ∀ (n : Nat) (r : Result), sizeOf r < n → r.hasError = true → Faulty r := by
  intro n
  induction n with
  | zero => intro r hr; omega
  | succ n ih =>
    intro r hr h
    obtain ⟨errors, subs⟩ := r
    rcases (hasError_mk errors subs).1 h with h | ⟨x, hx, h⟩
    · exact .message h
    · obtain ⟨m, r⟩ := x
      refine .part hx (ih r ?_ h)
      have := List.sizeOf_lt_of_mem hx
      simp only [Result.mk.sizeOf_spec, Prod.mk.sizeOf_spec] at this hr
      omega

private theorem hasError_iff (r : Result) : r.hasError = true ↔ Faulty r := by
  constructor
  · exact faulty_of_hasError _ r (Nat.lt_succ_self _)
  · intro h
    induction h with
    | message h => exact (hasError_mk _ _).2 (.inl h)
    | part hr h ih => exact (hasError_mk _ _).2 (.inr ⟨_, hr, ih⟩)

private theorem setSub_any (name : String) (r : Result) (hr : r.hasError = true) (subs : List (String × Result)) :
    ∃ x ∈ setSub name r subs, x.2.hasError = true := by
  induction subs with
  | nil => exact ⟨(name, r), by simp [setSub], hr⟩
  | cons x subs ih =>
    obtain ⟨n, y⟩ := x
    rw [setSub]
    split
    · exact ⟨(n, r), by simp, hr⟩
    · obtain ⟨z, hz, h⟩ := ih
      exact ⟨z, by simp [hz], h⟩

private theorem addKid_error (r : Result) (k : String × Obj) :
    (addKid r k).hasError = true ↔ r.hasError = true ∨ (doValidate k.2).hasError = true := by
  rw [addKid, addIf]
  split
  · rename_i h
    obtain ⟨errors, subs⟩ := r
    refine ⟨fun _ => .inr h, fun _ => ?_⟩
    rw [Result.addSub]
    exact (hasError_mk _ _).2 (.inr (setSub_any _ _ h subs))
  · rename_i h
    exact ⟨.inl, fun h' => h'.resolve_right h⟩

private theorem foldl_error (ks : List (String × Obj)) (r : Result) :
    (ks.foldl addKid r).hasError = true ↔
      r.hasError = true ∨ ∃ k ∈ ks, (doValidate k.2).hasError = true := by
  induction ks generalizing r with
  | nil => simp
  | cons k ks ih =>
    rw [List.foldl_cons, ih, addKid_error]
    simp [or_assoc]

private theorem own_error (o : Obj) : ((ownResult o).getD .empty).hasError = true ↔ Fails o := by
  unfold Fails
  cases h : ownResult o with
  | none => simp [Result.empty, Result.hasError, anyError]
  | some r => simp [hasError_iff]

private theorem doValidate_error (o : Obj) :
    (doValidate o).hasError = true ↔ ∃ p x, Within o p x ∧ Fails x := by
  induction o using obj_induction with
  | h o ih =>
    rw [doValidate_eq, foldl_error, own_error]
    constructor
    · rintro (h | ⟨k, hk, h⟩)
      · exact ⟨[], o, .here o, h⟩
      · obtain ⟨p, x, h1, h2⟩ := (ih k hk).1 h
        exact ⟨k.1 :: p, x, (within_iff _ _ _).2 (.inr ⟨k, hk, p, rfl, h1⟩), h2⟩
    · rintro ⟨p, x, h1, h2⟩
      rcases (within_iff _ _ _).1 h1 with ⟨-, rfl⟩ | ⟨k, hk, q, -, h1⟩
      · exact .inl h2
      · exact .inr ⟨k, hk, (ih k hk).2 ⟨q, x, h1, h2⟩⟩

private theorem setSub_new (name : String) (r : Result) (subs : List (String × Result))
    (h : name ∉ subs.map (·.1)) : setSub name r subs = subs ++ [(name, r)] := by
  induction subs with
  | nil => rfl
  | cons x subs ih =>
    obtain ⟨n, y⟩ := x
    simp only [List.map_cons, List.mem_cons, not_or] at h
    rw [setSub, if_neg (fun e => h.1 e.symm), ih h.2]
    rfl

private theorem foldl_subs (ks : List (String × Obj)) (errors : List String) (subs : List (String × Result))
    (hn : (ks.map (·.1)).Nodup) (hd : ∀ k ∈ ks, k.1 ∉ subs.map (·.1)) :
    ks.foldl addKid (.mk errors subs) =
      .mk errors (subs ++ (ks.filter fun k => (doValidate k.2).hasError).map fun k => (k.1, doValidate k.2)) := by
  induction ks generalizing subs with
  | nil => simp
  | cons k ks ih =>
    have hn := List.nodup_cons.1 (by simpa using hn : (k.1 :: ks.map (·.1)).Nodup)
    rw [List.foldl_cons, addKid, addIf]
    split
    · rename_i h
      rw [Result.addSub, setSub_new _ _ _ (hd k (by simp)), ih _ hn.2]
      · simp [h]
      · intro k' hk' hm
        rw [List.map_append, List.mem_append] at hm
        rcases hm with hm | hm
        · exact hd k' (by simp [hk']) hm
        · simp only [List.map_cons, List.map_nil, List.mem_singleton] at hm
          exact hn.1 (hm ▸ List.mem_map.2 ⟨k', hk', rfl⟩)
    · rename_i h
      rw [ih _ hn.2 (fun k' hk' => hd k' (by simp [hk']))]
      simp [h]

private theorem reportSubs_mem (path : List String) (subs : List (String × Result)) (l : String) :
    l ∈ reportSubs path subs ↔ ∃ x ∈ subs, l ∈ report (path ++ [x.1]) x.2 := by
  induction subs with
  | nil => simp [reportSubs]
  | cons x subs ih =>
    obtain ⟨n, r⟩ := x
    rw [reportSubs, reportSub, List.mem_append, ih]
    simp

private theorem report_clean (r : Result) (l : String) (path : List String) (h : l ∈ report path r) :
    r.hasError = true := by
  suffices ∀ n r path, sizeOf r < n → l ∈ report path r → r.hasError = true from
    this (sizeOf r + 1) r path (Nat.lt_succ_self _) h
  intro n
  induction n with
  | zero => intro r path hr; omega
  | succ n ih =>
    intro r path hr h
    obtain ⟨errors, subs⟩ := r
    rw [report, List.mem_append, reportSubs_mem] at h
    rcases h with h | ⟨x, hx, h⟩
    · refine (hasError_mk _ _).2 (.inl ?_)
      rintro rfl
      simp [line] at h
    · refine (hasError_mk _ _).2 (.inr ⟨x, hx, ih x.2 _ ?_ h⟩)
      have := List.sizeOf_lt_of_mem hx
      obtain ⟨m, y⟩ := x
      simp only [Result.mk.sizeOf_spec, Prod.mk.sizeOf_spec] at this hr
      simp only
      omega

private theorem bracket_inj {a b : String} (h : bracket a = bracket b) : a = b := by
  have := congrArg String.toList h
  simp only [bracket, String.toList_append] at this
  have := List.append_cancel_right this
  have := List.append_cancel_left this
  exact String.toList_inj.1 this

private theorem elemKids_nodup (i : Nat) (l : List Obj) : ((elemKids i l).map (·.1)).Nodup := by
  induction l generalizing i with
  | nil => exact List.nodup_nil
  | cons o l ih =>
    rw [elemKids, List.map_cons, List.nodup_cons]
    refine ⟨fun h => ?_, ih _⟩
    obtain ⟨k, hk, he⟩ := List.mem_map.1 h
    obtain ⟨j, h1, -⟩ := (mem_elemKids _ _ _).1 hk
    rw [h1] at he
    have := Nat.repr_inj.1 (bracket_inj he)
    omega

private theorem orderly_spec {o : Obj} (h : Orderly o) :
    (∃ errors, (ownResult o).getD .empty = .mk errors []) ∧ ((kids o).map (·.1)).Nodup ∧
      ∀ k ∈ kids o, Orderly k.2 := by
  have own : ∀ own : Option Result, (∀ r, own = some r → r.subs = []) →
      ∃ errors, own.getD .empty = .mk errors [] := by
    intro own ho
    cases own with
    | none => exact ⟨[], rfl⟩
    | some r =>
      obtain ⟨errors, subs⟩ := r
      have := ho _ rfl
      simp only [Result.subs] at this
      subst this
      exact ⟨errors, rfl⟩
  cases h with
  | atom ho => exact ⟨own _ ho, List.nodup_nil, fun k hk => nomatch hk⟩
  | data ho hn h => exact ⟨own _ ho, hn, h⟩
  | mapping ho hn h =>
    refine ⟨own _ ho, ?_, fun k hk => ?_⟩
    · rename_i es
      show ((es.map fun e => (bracket e.1, e.2)).map (·.1)).Nodup
      rw [List.map_map]
      have : (es.map ((fun x : String × Obj => x.1) ∘ fun e => (bracket e.1, e.2))) =
          (es.map (·.1)).map bracket := by rw [List.map_map]; rfl
      rw [this]
      exact List.Pairwise.map _ (fun a b hab he => hab (bracket_inj he)) hn
    · obtain ⟨e, he, rfl⟩ := List.mem_map.1 hk
      exact h e he
  | seq ho h =>
    refine ⟨own _ ho, elemKids_nodup _ _, fun k hk => ?_⟩
    obtain ⟨j, -, hj⟩ := (mem_elemKids _ _ _).1 hk
    exact h _ (List.mem_of_getElem? hj)

private theorem doValidate_report (o : Obj) (h : Orderly o) (path : List String) (l : String) :
    l ∈ report path (doValidate o) ↔
      ∃ p x r, Within o p x ∧ ownResult x = some r ∧ l ∈ line (path ++ p) r.errors := by
  induction o using obj_induction generalizing path with
  | h o ih =>
    obtain ⟨⟨errors, hown⟩, hn, hk⟩ := orderly_spec h
    rw [doValidate_eq, hown, foldl_subs _ _ _ hn (fun _ _ hm => absurd hm (by simp)), report, List.mem_append,
      reportSubs_mem]
    constructor
    · rintro (h | ⟨x, hx, h⟩)
      · cases ho : ownResult o with
        | none =>
          rw [ho] at hown
          cases hown
          simp [line] at h
        | some r =>
          rw [ho] at hown
          refine ⟨[], o, r, .here o, ho, ?_⟩
          rw [List.append_nil, show r = .mk errors [] from hown]
          exact h
      · simp only [List.nil_append, List.mem_map, List.mem_filter] at hx
        obtain ⟨k, ⟨hk', -⟩, rfl⟩ := hx
        obtain ⟨p, x, r, h1, h2, h3⟩ := (ih k hk' (hk k hk') _).1 h
        exact ⟨k.1 :: p, x, r, (within_iff _ _ _).2 (.inr ⟨k, hk', p, rfl, h1⟩), h2, by simpa using h3⟩
    · rintro ⟨p, x, r, h1, h2, h3⟩
      rcases (within_iff _ _ _).1 h1 with ⟨rfl, rfl⟩ | ⟨k, hk', q, rfl, h4⟩
      · left
        rw [h2] at hown
        rw [List.append_nil, show r = .mk errors [] from hown] at h3
        exact h3
      · right
        have hrep := (ih k hk' (hk k hk') (path ++ [k.1])).2 ⟨q, x, r, h4, h2, by simpa using h3⟩
        refine ⟨(k.1, doValidate k.2), ?_, hrep⟩
        simp only [List.nil_append, List.mem_map, List.mem_filter]
        exact ⟨k, ⟨hk', report_clean _ _ _ hrep⟩, rfl⟩

/-! ### Theorems -/

/-- **C69 (exactly then).** A `ValidationError` is raised exactly when the own validation of the object, or of
an object within it, fails. -/
theorem C69_error_iff (o : Obj) : (∃ r, validate o = some r) ↔ ∃ p x, Within o p x ∧ Fails x := by
  rw [← doValidate_error]
  unfold validate
  cases h : (doValidate o).hasError <;> simp [h]

/-- **C69 (report).** When parts have different names, the report has a line for an object within the given one
exactly when the own validation of that object gives a message; the line has the path to the object. -/
theorem C69_report_partial (o : Obj) (h : Orderly o) (r : Result) (hr : validate o = some r) (l : String) :
    l ∈ report [] r ↔ ∃ p x rx, Within o p x ∧ ownResult x = some rx ∧ " ".intercalate rx.errors ≠ "" ∧
      l = if p = [] then " ".intercalate rx.errors
        else "`" ++ pathname p ++ "` is not valid: " ++ " ".intercalate rx.errors := by
  have hr' : r = doValidate o := by
    unfold validate at hr
    dsimp only at hr
    split at hr
    · cases hr; rfl
    · cases hr
  rw [hr', doValidate_report o h]
  have hline : ∀ p es, l ∈ line p es ↔ " ".intercalate es ≠ "" ∧
      l = if p = [] then " ".intercalate es else "`" ++ pathname p ++ "` is not valid: " ++ " ".intercalate es := by
    intro p es
    unfold line
    dsimp only
    split
    · rename_i h; simp [h]
    · rename_i h
      split <;> simp [h]
  simp only [List.nil_append, hline]

/-- **C69 (same `repr`).** Two keys of a mapping may have the same `repr`: then only one of two failing values
is reported. -/
theorem C69_same_repr : ∃ o r, validate o = some r ∧ (∃ p x rx, Within o p x ∧ ownResult x = some rx ∧
    rx.errors = ["first"]) ∧ report [] r = ["`[k]` is not valid: second"] :=
  ⟨.mapping none [("k", .atom (some (.mk ["first"] []))), ("k", .atom (some (.mk ["second"] [])))], _, rfl,
    ⟨_, _, _, .entry (key := "k") (c := .atom (some (.mk ["first"] []))) (by simp) (.here _), rfl, rfl⟩,
    by decide⟩

/-- **C69 (empty message).** An empty message raises the error, but the report is empty. -/
theorem C69_empty_message (p : String) : ∃ o r, validate o = some r ∧
    Within o [p] (.atom (some (.mk [""] []))) ∧ report [] r = [] := by
  refine ⟨.data none [(p, .atom (some (.mk [""] [])))], _, rfl, .field (List.mem_singleton.2 rfl) (.here _), ?_⟩
  show report [] (.mk [] [(p, .mk [""] [])]) = []
  simp [report, reportSubs, reportSub, line]

/-! ### The hypotheses can be met -/

private def trainer : Obj :=
  .data none [("optimizer", .data (some (.mk ["`lr` must be positive."] [])) [("lr", .atom none)]),
    ("splits", .seq none [.atom none, .atom (some (.mk ["Empty."] []))])]

private theorem trainer_orderly : Orderly trainer := by
  refine .data nofun (by decide) ?_
  simp only [List.mem_cons, List.not_mem_nil, or_false]
  rintro f (rfl | rfl)
  · refine .data (by rintro r ⟨⟩; rfl) (by decide) ?_
    simp only [List.mem_singleton]
    rintro f rfl
    exact .atom nofun
  · refine .seq nofun ?_
    simp only [List.mem_cons, List.not_mem_nil, or_false]
    rintro f (rfl | rfl)
    · exact .atom nofun
    · exact .atom (by rintro r ⟨⟩; rfl)

example : ∃ r, validate trainer = some r := ⟨_, rfl⟩

example : ∃ r, validate trainer = some r ∧ "`splits[1]` is not valid: Empty." ∈ report [] r := by
  obtain ⟨r, hr⟩ : ∃ r, validate trainer = some r := ⟨_, rfl⟩
  refine ⟨r, hr, (C69_report_partial trainer trainer_orderly r hr _).2
    ⟨["splits", "[1]"], .atom (some (.mk ["Empty."] [])), .mk ["Empty."] [],
      .field (List.mem_cons_of_mem _ (List.mem_singleton.2 rfl)) (.elem (i := 1) rfl (.here _)), rfl, by decide, by decide⟩⟩

end Fs2.Props
