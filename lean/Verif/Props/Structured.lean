import Verif.Utils.StructuredLemmas

/-!
C65: the conversion between structured and unstructured values.

Specification. `HasType E v t`: the Python object `v` is of the type `t`; for paths and dictionaries the
object is one that Python can have (normal path, distinct hashable keys), keys are scalars, a dataclass object
is what its constructor makes of its fields, and of the unions only `t | None` is included. `Conforms E v t`:
`v` is an instance of `t` in the sense of `isinstance`, container elements included. `Plain E v`: `v` consists
of `None`, booleans, numbers, strings, lists and dictionaries only.
-/

namespace Fs2.Props

open Fs2.Structured

variable {F : Type}

/-- What is assumed of Python and torch: a name of a data type or device leads back to it; strings, numbers
and the other scalars are hashable and equal only to themselves. -/
structure Sane (E : Env F) : Prop where
  dtype : ∀ d, E.dtypeOf (E.dtypeName d) = some d
  device : ∀ d, E.deviceOf (E.deviceName d) = some d
  hash_str : ∀ s, E.hashable (.str s) = true
  hash_int : ∀ n, E.hashable (.int n) = true
  hash_bool : ∀ b, E.hashable (.bool b) = true
  same_str : ∀ a b, E.same (.str a) (.str b) = decide (a = b)
  same_path : ∀ a b, E.same (.path a) (.path b) = decide (a = b)
  same_dtype : ∀ a b, E.same (.dtype a) (.dtype b) = decide (a = b)
  same_device : ∀ a b, E.same (.device a) (.device b) = decide (a = b)
  same_enum : ∀ k a b, E.same (.enum k a) (.enum k b) = decide (a = b)

/-- `None`, booleans, numbers, strings, lists and dictionaries, all the way down. -/
inductive Plain (E : Env F) : Val F → Prop
  | none : Plain E .none
  | bool (b) : Plain E (.bool b)
  | int (n) : Plain E (.int n)
  | float (f) : Plain E (.float f)
  | str (s) : Plain E (.str s)
  | list {l} (h : ∀ v ∈ l, Plain E v) : Plain E (.list l)
  | map {es} (hk : ∀ e ∈ es, Plain E e.1) (hv : ∀ e ∈ es, Plain E e.2)
      (hh : ∀ e ∈ es, E.hashable e.1 = true)
      (hd : es.Pairwise fun a b => E.same a.1 b.1 = false) : Plain E (.map es)

/-- The types of keys of dictionaries. -/
def ScalarTy : Ty → Prop
  | .bool | .int | .str | .path | .dtype | .device | .enum _ | .literal _ => True
  | _ => False

/-- The fields of an object that its constructor takes. -/
def initArgs (cs : List Field) (fs : List (String × Val F)) : List (String × Val F) :=
  ((cs.zip fs).filter fun x => x.1.init).map fun x => x.2

inductive HasType (E : Env F) : Val F → Ty → Prop
  | object {v} (h : Plain E v) : HasType E v .object
  | bool (b) : HasType E (.bool b) .bool
  | int (n) : HasType E (.int n) .int
  | boolInt (b) : HasType E (.bool b) .int
  | float (f) : HasType E (.float f) .float
  | str (s) : HasType E (.str s) .str
  | none : HasType E .none .none
  | path {s} (h : E.normPath s = s) : HasType E (.path s) .path
  | dtype (d) : HasType E (.dtype d) .dtype
  | device (d) : HasType E (.device d) .device
  | enum {k n} (h : n ∈ E.members k) : HasType E (.enum k n) (.enum k)
  | literal {s values} (h : s ∈ values) : HasType E (.str s) (.literal values)
  | list {l t} (h : ∀ v ∈ l, HasType E v t) : HasType E (.list l) (.list t)
  | tupleOf {l t} (h : ∀ v ∈ l, HasType E v t) : HasType E (.tuple l) (.tupleOf t)
  | tuple {l ts} (hne : ts ≠ []) (hlen : l.length = ts.length)
      (h : ∀ (i : Nat) v t, l[i]? = some v → ts[i]? = some t → HasType E v t) :
      HasType E (.tuple l) (.tuple ts)
  | set {l t} (h : ∀ v ∈ l, HasType E v t) (hh : ∀ v ∈ l, E.hashable v = true)
      (hd : l.Pairwise fun a b => E.same a b = false) : HasType E (.set l) (.set t)
  | dict {es kt vt} (hs : ScalarTy kt) (hk : ∀ e ∈ es, HasType E e.1 kt)
      (hv : ∀ e ∈ es, HasType E e.2 vt) (hh : ∀ e ∈ es, E.hashable e.1 = true)
      (hd : es.Pairwise fun a b => E.same a.1 b.1 = false) : HasType E (.map es) (.dict kt vt)
  | data {k fs} (hn : fs.map (·.1) = (E.classes k).map (·.name)) (hnd : (fs.map (·.1)).Nodup)
      (h : ∀ (i : Nat) f c, fs[i]? = some f → (E.classes k)[i]? = some c → HasType E f.2 c.ty)
      (hc : E.construct k (initArgs (E.classes k) fs) = .ok fs) : HasType E (.data k fs) (.data k)
  | optionalNone {t} : HasType E .none (.union [t, .none])
  | optional {v t} (h : HasType E v t) : HasType E v (.union [t, .none])

inductive Conforms (E : Env F) : Val F → Ty → Prop
  | object (v) : Conforms E v .object
  | bool (b) : Conforms E (.bool b) .bool
  | int (n) : Conforms E (.int n) .int
  | boolInt (b) : Conforms E (.bool b) .int
  | float (f) : Conforms E (.float f) .float
  | str (s) : Conforms E (.str s) .str
  | none : Conforms E .none .none
  | path (s) : Conforms E (.path s) .path
  | dtype (d) : Conforms E (.dtype d) .dtype
  | device (d) : Conforms E (.device d) .device
  | enum (k n) : Conforms E (.enum k n) (.enum k)
  | literal {s values} (h : s ∈ values) : Conforms E (.str s) (.literal values)
  | list {l t} (h : ∀ v ∈ l, Conforms E v t) : Conforms E (.list l) (.list t)
  | tupleOf {l t} (h : ∀ v ∈ l, Conforms E v t) : Conforms E (.tuple l) (.tupleOf t)
  | tuple {l ts} (hlen : l.length = ts.length)
      (h : ∀ (i : Nat) v t, l[i]? = some v → ts[i]? = some t → Conforms E v t) :
      Conforms E (.tuple l) (.tuple ts)
  | set {l t} (h : ∀ v ∈ l, Conforms E v t) (hd : l.Pairwise fun a b => E.same a b = false) :
      Conforms E (.set l) (.set t)
  | dict {es kt vt} (hk : ∀ e ∈ es, Conforms E e.1 kt) (hv : ∀ e ∈ es, Conforms E e.2 vt)
      (hd : es.Pairwise fun a b => E.same a.1 b.1 = false) : Conforms E (.map es) (.dict kt vt)
  | union {v t ts} (ht : t ∈ ts) (h : Conforms E v t) : Conforms E v (.union ts)
  | data (k fs) : Conforms E (.data k fs) (.data k)

/-! ### Lemmas -/

private theorem choose_list {α β : Type} {P : Nat → α → β → Prop} (l : List α)
    (h : ∀ (i : Nat) a, l[i]? = some a → ∃ b, P i a b) :
    ∃ r : List β, r.length = l.length ∧
      ∀ (i : Nat) a b, l[i]? = some a → r[i]? = some b → P i a b := by
  induction l generalizing P with
  | nil => exact ⟨[], rfl, by simp⟩
  | cons a l ih =>
    obtain ⟨b, hb⟩ := h 0 a rfl
    obtain ⟨r, h1, h2⟩ := ih (P := fun i => P (i + 1)) (fun i a ha => h (i + 1) a ha)
    refine ⟨b :: r, by simp [h1], fun i a' b' ha hb' => ?_⟩
    match i with
    | 0 => cases ha; cases hb'; exact hb
    | i + 1 => exact h2 i a' b' ha hb'

private theorem mapM_idx {α β : Type} {f : α → Except Err β} (l : List α) (r : List β)
    (hlen : r.length = l.length)
    (h : ∀ (i : Nat) a b, l[i]? = some a → r[i]? = some b → f a = .ok b) : l.mapM f = .ok r := by
  induction l generalizing r with
  | nil =>
    match r, hlen with
    | [], _ => rfl
  | cons a l ih =>
    match r, hlen with
    | b :: r, hlen =>
      rw [List.mapM_cons, h 0 a b rfl rfl, ih r (by simpa using hlen) (fun i a b ha hb => h (i + 1) a b ha hb)]
      rfl

private theorem kids_mapM (E : Env F) (t : Ty) (us l : List (Val F)) (hlen : l.length = us.length)
    (h : ∀ (i : Nat) u v, us[i]? = some u → l[i]? = some v → toType E u t = .ok v) :
    (toTypes E us).mapM (fun k => k.2 t) = .ok l := by
  rw [toTypes_eq]
  refine mapM_idx _ _ (by simp [hlen]) fun i a b ha hb => ?_
  rw [List.getElem?_map] at ha
  cases hu : us[i]? with
  | none => rw [hu] at ha; cases ha
  | some u => rw [hu] at ha; cases ha; exact h i u b hu hb

private theorem kids_tuple (E : Env F) (ts : List Ty) (us l : List (Val F)) (h1 : us.length = ts.length)
    (h2 : l.length = ts.length)
    (h : ∀ (i : Nat) t u v, ts[i]? = some t → us[i]? = some u → l[i]? = some v → toType E u t = .ok v) :
    convTuple E ts ((toTypes E us).map .inr) = .ok l := by
  induction ts generalizing us l with
  | nil =>
    match l, h2 with
    | [], _ => rw [convTuple]
  | cons t ts ih =>
    match us, l, h1, h2 with
    | u :: us, v :: l, h1, h2 =>
      rw [toTypes, List.map_cons, convTuple]
      rw [show ((u, toType E u) : Kid F).2 t = .ok v from h 0 t u v rfl rfl rfl,
        ih us l (by simpa using h1) (by simpa using h2) (fun i t u v a b c => h (i + 1) t u v a b c)]
      rfl

private theorem findKey_spec (E : Env F) (us : List (Val F × Val F)) (names : List String)
    (hlen : us.length = names.length) (hn : ∀ (i : Nat) u n, us[i]? = some u → names[i]? = some n → u.1 = .str n)
    (hnd : names.Nodup) (i : Nat) (u : Val F × Val F) (n : String) (hu : us[i]? = some u)
    (hni : names[i]? = some n) : findKey n (toTypePairs E us) = some (u.2, toType E u.2) := by
  induction us generalizing names i with
  | nil => simp at hu
  | cons x us ih =>
    match names, hlen with
    | m :: names, hlen =>
      obtain ⟨k, v⟩ := x
      have hk : k = .str m := hn 0 (k, v) m rfl rfl
      subst hk
      have hnd' := List.nodup_cons.1 hnd
      rw [toTypePairs, toTypePair, findKey]
      match i with
      | 0 => cases hu; cases hni; rw [if_pos rfl]
      | i + 1 =>
        have hne : m ≠ n := by
          rintro rfl
          exact hnd'.1 (List.mem_of_getElem? hni)
        rw [if_neg hne]
        exact ih names (by simpa using hlen) (fun i u n a b => hn (i + 1) u n a b) hnd'.2 i hu hni

private theorem fieldLoop_spec (ps : List (Kid F × Kid F)) (cs : List Field) (fs : List (String × Val F))
    (hlen : fs.length = cs.length)
    (h : ∀ (i : Nat) c f, cs[i]? = some c → fs[i]? = some f → c.name = f.1 ∧
      ∃ kid, findKey c.name ps = some kid ∧ kid.2 c.ty = .ok f.2) :
    fieldLoop ps cs = .ok (initArgs cs fs) := by
  induction cs generalizing fs with
  | nil =>
    match fs, hlen with
    | [], _ => rfl
  | cons c cs ih =>
    match fs, hlen with
    | f :: fs, hlen =>
      obtain ⟨hn, kid, h1, h2⟩ := h 0 c f rfl rfl
      have hrest := ih fs (by simpa using hlen) (fun i c f a b => h (i + 1) c f a b)
      rw [fieldLoop]
      cases hi : c.init with
      | false =>
        rw [if_neg (by decide), hrest]
        simp [initArgs, hi]
      | true =>
        rw [if_pos rfl, h1]
        show (do let v ← kid.2 c.ty; let rest ← fieldLoop ps cs; return (c.name, v) :: rest) = _
        rw [h2, hrest, hn]
        simp only [initArgs, List.zip_cons_cons, List.filter_cons, hi, if_true, List.map_cons]
        rfl

private theorem plain_unstructure {E : Env F} {v : Val F} (h : Plain E v) : unstructure E v = .ok v := by
  induction h with
  | none => rw [unstructure]
  | bool => rw [unstructure]
  | int => rw [unstructure]
  | float => rw [unstructure]
  | str => rw [unstructure]
  | list h ih =>
    rename_i l
    rw [unstructure, unstructures_ok E l l rfl]
    · rfl
    · intro i v u h1 h2
      rw [h1] at h2
      cases h2
      exact ih v (List.mem_of_getElem? h1)
  | map hk hv hh hd ihk ihv =>
    rename_i es
    rw [unstructure, unstructurePairs_ok E es es [] rfl _ _ hh hd]
    · rfl
    · intro i v u h1 h2
      rw [h1] at h2
      cases h2
      exact ihk v (List.mem_of_getElem? h1)
    · intro i v u h1 h2
      rw [h1] at h2
      cases h2
      exact ihv v (List.mem_of_getElem? h1)

private theorem toType_object (E : Env F) (v : Val F) : toType E v .object = .ok v := by
  cases v <;> rw [toType, conv] <;> rfl

/-- Unstructured keys of one scalar type are hashable, and equal only when the keys are. -/
private theorem scalar_keys {E : Env F} (hE : Sane E) {t : Ty} (ht : ScalarTy t) {a b ua ub : Val F}
    (ha : HasType E a t) (hb : HasType E b t) (h1 : unstructure E a = .ok ua)
    (h2 : unstructure E b = .ok ub) (hne : E.same a b = false) : E.same ua ub = false := by
  cases ha with
  | bool x => cases hb; rw [unstructure] at h1 h2; cases h1; cases h2; exact hne
  | int x => cases hb <;> (rw [unstructure] at h1; rw [unstructure] at h2; cases h1; cases h2; exact hne)
  | boolInt x => cases hb <;> (rw [unstructure] at h1; rw [unstructure] at h2; cases h1; cases h2; exact hne)
  | str x => cases hb; rw [unstructure] at h1 h2; cases h1; cases h2; exact hne
  | path x =>
    cases hb; rw [unstructure] at h1 h2; cases h1; cases h2
    rw [hE.same_str, ← hE.same_path]; exact hne
  | dtype x =>
    cases hb; rw [unstructure] at h1 h2; cases h1; cases h2
    rename_i y
    rw [hE.same_dtype] at hne
    rw [hE.same_str]
    refine decide_eq_false fun h => of_decide_eq_false hne ?_
    have := congrArg E.dtypeOf h
    rw [hE.dtype, hE.dtype] at this
    exact Option.some.inj this
  | device x =>
    cases hb; rw [unstructure] at h1 h2; cases h1; cases h2
    rename_i y
    rw [hE.same_device] at hne
    rw [hE.same_str]
    refine decide_eq_false fun h => of_decide_eq_false hne ?_
    have := congrArg E.deviceOf h
    rw [hE.device, hE.device] at this
    exact Option.some.inj this
  | enum x =>
    cases hb; rw [unstructure] at h1 h2; cases h1; cases h2
    rw [hE.same_str, ← hE.same_enum]; exact hne
  | literal x => cases hb; rw [unstructure] at h1 h2; cases h1; cases h2; exact hne
  | _ => exact ht.elim

private theorem scalar_hash {E : Env F} (hE : Sane E) {t : Ty} (ht : ScalarTy t) {a ua : Val F}
    (ha : HasType E a t) (h1 : unstructure E a = .ok ua) : E.hashable ua = true := by
  cases ha with
  | bool x => rw [unstructure] at h1; cases h1; exact hE.hash_bool _
  | int x => rw [unstructure] at h1; cases h1; exact hE.hash_int _
  | boolInt x => rw [unstructure] at h1; cases h1; exact hE.hash_bool _
  | str x => rw [unstructure] at h1; cases h1; exact hE.hash_str _
  | path x => rw [unstructure] at h1; cases h1; exact hE.hash_str _
  | dtype x => rw [unstructure] at h1; cases h1; exact hE.hash_str _
  | device x => rw [unstructure] at h1; cases h1; exact hE.hash_str _
  | enum x => rw [unstructure] at h1; cases h1; exact hE.hash_str _
  | literal x => rw [unstructure] at h1; cases h1; exact hE.hash_str _
  | _ => exact ht.elim

private theorem conv_set_list (E : Env F) (t : Ty) (us : List (Val F)) (ks : List (Kid F)) (l : List (Val F))
    (hk : ks.mapM (fun k => k.2 t) = .ok l) (hh : ∀ v ∈ l, E.hashable v = true)
    (hd : l.Pairwise fun a b => E.same a b = false) :
    conv E (.set t) ⟨.list us, ks, []⟩ = .ok (.set l) ∧ conv E (.set t) ⟨.set us, ks, []⟩ = .ok (.set l) := by
  have hm : makeSet E l = .ok l := by
    rw [makeSet, if_pos (List.all_eq_true.2 hh), dedup_of_distinct E l hd]
  constructor
  · rw [conv]
    show (do let l ← ks.mapM (fun k : Kid F => k.2 t); let s ← makeSet E l
             if s.length = l.length then return Val.set s else throw Err.structure : Except Err (Val F)) = _
    rw [hk]
    show (do let s ← makeSet E l
             if s.length = l.length then return Val.set s else throw Err.structure : Except Err (Val F)) = _
    rw [hm]
    show (if l.length = l.length then _ else _) = _
    rw [if_pos rfl]
    rfl
  · rw [conv]
    show (do let l ← ks.mapM (fun k : Kid F => k.2 t); (makeSet E l).map Val.set : Except Err (Val F)) = _
    rw [hk]
    show (makeSet E l).map Val.set = _
    rw [hm]
    rfl

private theorem conv_optional {E : Env F} {t : Ty} {o : Obj F} {v : Val F} (h : conv E t o = .ok v)
    (hn : o.val = .none → v = .none) : conv E (.union [t, .none]) o = .ok v := by
  rw [conv]
  have hopt : (decide ([t, Ty.none].length = 2) && [t, Ty.none].any isNoneTy) = true := by
    simp [isNoneTy]
  rw [hopt]
  show (match true, o.val with
    | true, .none => Except.ok Val.none
    | _, _ => convUnion E true [t, .none] o) = _
  split
  · rename_i hv
    rw [hn hv]
  · rw [convUnion, h]

private theorem toType_optional {E : Env F} {t : Ty} {u v : Val F} (h : toType E u t = .ok v)
    (hn : u = .none → v = .none) : toType E u (.union [t, .none]) = .ok v := by
  cases u <;> rw [toType] at h ⊢ <;> exact conv_optional h hn

private theorem unstructure_none {E : Env F} {v : Val F} (h : unstructure E v = .ok .none) : v = .none := by
  cases v with
  | none => rfl
  | list l => rw [unstructure] at h; cases hu : unstructures E l <;> rw [hu] at h <;> cases h
  | tuple l => rw [unstructure] at h; cases hu : unstructures E l <;> rw [hu] at h <;> cases h
  | set l => rw [unstructure] at h; cases hu : unstructures E l <;> rw [hu] at h <;> cases h
  | map l => rw [unstructure] at h; cases hu : unstructurePairs E l [] <;> rw [hu] at h <;> cases h
  | data k l => rw [unstructure] at h; cases hu : unstructureFields E l [] <;> rw [hu] at h <;> cases h
  | _ => rw [unstructure] at h; cases h

private theorem elems_round {E : Env F} {l : List (Val F)} {t : Ty}
    (ih : ∀ v ∈ l, ∃ u, unstructure E v = .ok u ∧ toType E u t = .ok v) :
    ∃ us, unstructures E l = .ok us ∧ (toTypes E us).mapM (fun k => k.2 t) = .ok l := by
  obtain ⟨us, hlen, hus⟩ := choose_list (P := fun _ v u => unstructure E v = .ok u ∧ toType E u t = .ok v) l
    (fun i v hv => ih v (List.mem_of_getElem? hv))
  exact ⟨us, unstructures_ok E l us hlen (fun i v u h1 h2 => (hus i v u h1 h2).1),
    kids_mapM E t us l hlen.symm (fun i u v h1 h2 => (hus i v u h2 h1).2)⟩

private theorem elems_same {E : Env F} {l : List (Val F)} {t : Ty} (ih : ∀ v ∈ l, toType E v t = .ok v) :
    (toTypes E l).mapM (fun k => k.2 t) = .ok l := by
  refine kids_mapM E t l l rfl fun i u v h1 h2 => ?_
  rw [h1] at h2
  cases h2
  exact ih u (List.mem_of_getElem? h1)

private theorem parts_list (us : List (Val F)) (ks : List (Kid F)) :
    parts ⟨.list us, ks, []⟩ = some (ks.map .inr) := rfl

private theorem toTypes_length (E : Env F) (us : List (Val F)) : (toTypes E us).length = us.length := by
  rw [toTypes_eq, List.length_map]

private theorem toTypePairs_length (E : Env F) (us : List (Val F × Val F)) :
    (toTypePairs E us).length = us.length := by
  rw [toTypePairs_eq, List.length_map]

/-- The parts of an object are converted to what is asked for. -/
private def KidOk (E : Env F) (k : Kid F) : Prop := ∀ t y, k.2 t = .ok y → Conforms E y t

private def PartsOk (E : Env F) (o : Obj F) : Prop :=
  (∀ k ∈ o.kids, KidOk E k) ∧ ∀ p ∈ o.pairs, KidOk E p.1 ∧ KidOk E p.2

private theorem leaf_ok (E : Env F) (v : Val F) : PartsOk E (leaf v) :=
  ⟨fun _ hk => (nomatch hk), fun _ hp => (nomatch hp)⟩

private theorem elements_sound {E : Env F} {f : Obj F → Except Err (Val F)} {t : Ty} {o : Obj F}
    {r : List (Val F)} (hf : ∀ o y, PartsOk E o → f o = .ok y → Conforms E y t) (ho : PartsOk E o)
    (h : elements f t o = .ok r) : ∀ v ∈ r, Conforms E v t := by
  intro v hv
  unfold elements at h
  split at h
  · obtain ⟨c, -, hc⟩ := mapM_ok_inv h v hv
    exact hf _ _ (leaf_ok E c) hc
  · obtain ⟨k, hk, hc⟩ := mapM_ok_inv h v hv
    exact ho.1 k hk t v hc
  · obtain ⟨k, hk, hc⟩ := mapM_ok_inv h v hv
    exact ho.1 k hk t v hc
  · cases h

private theorem map_ok {α β : Type} {x : Except Err α} {f : α → β} {y : β} (h : x.map f = .ok y) :
    ∃ a, x = .ok a ∧ y = f a := by
  cases x with
  | error e => cases h
  | ok a => cases h; exact ⟨a, rfl, rfl⟩

private theorem makeSet_sound {E : Env F} {l r : List (Val F)} (h : makeSet E l = .ok r) :
    (∀ v ∈ r, v ∈ l) ∧ r.Pairwise fun a b => E.same a b = false := by
  unfold makeSet at h
  split at h
  · cases h
    exact ⟨mem_of_mem_dedup E l, dedup_distinct E l⟩
  · cases h

private theorem bind_ok {α β : Type} {x : Except Err α} {f : α → Except Err β} {y : β}
    (h : (x >>= f) = .ok y) : ∃ a, x = .ok a ∧ f a = .ok y := by
  cases x with
  | error e => cases h
  | ok a => exact ⟨a, rfl, h⟩

mutual

private theorem conv_sound (E : Env F) : ∀ (t : Ty) (o : Obj F) (y : Val F), PartsOk E o → conv E t o = .ok y →
    Conforms E y t
  | .object, o, y, ho, h => .object y
  | .bool, o, y, ho, h => by
    rw [conv] at h
    split at h
    · rename_i hv; cases h; rw [hv]; exact .bool _
    · cases h
  | .int, o, y, ho, h => by
    rw [conv] at h
    split at h
    · rename_i hv; cases h; rw [hv]; exact .int _
    · rename_i hv; cases h; rw [hv]; exact .boolInt _
    · obtain ⟨a, -, rfl⟩ := map_ok h; exact .int _
    · split at h
      · cases h; exact .int _
      · cases h
    · cases h
  | .float, o, y, ho, h => by
    rw [conv] at h
    split at h
    · rename_i hv; cases h; rw [hv]; exact .float _
    · obtain ⟨a, -, rfl⟩ := map_ok h; exact .float _
    · obtain ⟨a, -, rfl⟩ := map_ok h; exact .float _
    · split at h
      · cases h; exact .float _
      · cases h
    · cases h
  | .str, o, y, ho, h => by
    rw [conv] at h
    split at h
    · rename_i hv; cases h; rw [hv]; exact .str _
    · cases h
  | .none, o, y, ho, h => by
    rw [conv] at h
    split at h
    · rename_i hv; cases h; rw [hv]; exact .none
    · cases h
  | .path, o, y, ho, h => by
    rw [conv] at h
    split at h
    · rename_i hv; cases h; rw [hv]; exact .path _
    · cases h; exact .path _
    · cases h
  | .dtype, o, y, ho, h => by
    rw [conv] at h
    split at h
    · rename_i hv; cases h; rw [hv]; exact .dtype _
    · split at h
      · cases h; exact .dtype _
      · cases h
    · cases h
  | .device, o, y, ho, h => by
    rw [conv] at h
    split at h
    · rename_i hv; cases h; rw [hv]; exact .device _
    · split at h
      · cases h; exact .device _
      · cases h
    · cases h
  | .enum kls, o, y, ho, h => by
    rw [conv] at h
    split at h
    · split at h
      · rename_i hk; cases h; rw [hk]; exact .enum _ _
      · cases h
    · split at h
      · cases h; exact .enum _ _
      · cases h
    · cases h
  | .literal values, o, y, ho, h => by
    rw [conv] at h
    split at h
    · split at h
      · rename_i hs; cases h; exact .literal hs
      · cases h
    · cases h
  | .list t, o, y, ho, h => by
    rw [conv] at h
    obtain ⟨a, ha, rfl⟩ := map_ok h
    exact .list (elements_sound (conv_sound E t) ho ha)
  | .tupleOf t, o, y, ho, h => by
    rw [conv] at h
    obtain ⟨a, ha, rfl⟩ := map_ok h
    exact .tupleOf (elements_sound (conv_sound E t) ho ha)
  | .tuple ts, o, y, ho, h => by
    rw [conv] at h
    split at h
    · cases h
    · rename_i ps hps
      split at h
      · cases h
      · split at h
        · rename_i hlen
          obtain ⟨a, ha, rfl⟩ := map_ok h
          have hp : ∀ k, Sum.inr k ∈ ps → KidOk E k := by
            intro k hk
            unfold parts at hps
            split at hps
            · cases hps; simp at hk
            · cases hps; simp only [List.mem_map, Sum.inr.injEq, exists_eq_right] at hk; exact ho.1 k hk
            · cases hps; simp only [List.mem_map, Sum.inr.injEq, exists_eq_right] at hk; exact ho.1 k hk
            · cases hps
          obtain ⟨h1, h2⟩ := convTuple_sound E ts ps a hlen hp ha
          exact .tuple h1 h2
        · cases h
  | .set t, o, y, ho, h => by
    rw [conv] at h
    split at h
    · obtain ⟨l, hl, h⟩ := bind_ok h
      obtain ⟨r, hr, rfl⟩ := map_ok h
      obtain ⟨h1, h2⟩ := makeSet_sound hr
      refine .set (fun v hv => ?_) h2
      obtain ⟨k, hk, hc⟩ := mapM_ok_inv hl v (h1 v hv)
      exact ho.1 k hk t v hc
    · obtain ⟨l, hl, h⟩ := bind_ok h
      obtain ⟨r, hr, h⟩ := bind_ok h
      split at h
      · cases h
        obtain ⟨h1, h2⟩ := makeSet_sound hr
        exact .set (fun v hv => elements_sound (conv_sound E t) ho hl v (h1 v hv)) h2
      · cases h
  | .dict kt vt, o, y, ho, h => by
    rw [conv] at h
    split at h
    · obtain ⟨r, hr, rfl⟩ := map_ok h
      obtain ⟨h1, h2⟩ := dictLoop_inv E kt vt (fun v => Conforms E v kt) (fun v => Conforms E v vt) o.pairs [] r hr
        (fun p hp y hy => (ho.2 p hp).1 kt y hy) (fun p hp y hy => (ho.2 p hp).2 vt y hy)
        (fun e he => nomatch he) List.Pairwise.nil
      exact .dict (fun e he => (h1 e he).1) (fun e he => (h1 e he).2) h2
    · cases h
  | .union ts, o, y, ho, h => by
    rw [conv] at h
    split at h
    · rename_i hopt hv
      cases h
      have := (Bool.and_eq_true_iff.1 hopt).2
      obtain ⟨t, ht, hn⟩ := List.any_eq_true.1 this
      cases t <;> first | exact .union ht .none | cases hn
    · obtain ⟨t, ht, hc⟩ := convUnion_sound E _ ts o y ho h
      exact .union ht hc
  | .data kls, o, y, ho, h => by
    rw [conv] at h
    split at h
    · split at h
      · rename_i hk; cases h; rw [hk]; exact .data _ _
      · cases h
    · unfold createData at h
      split at h
      · obtain ⟨a, -, h⟩ := bind_ok h
        split at h
        · obtain ⟨c, -, h⟩ := bind_ok h
          cases h
          exact .data _ _
        · cases h
      · cases h
    · cases h

private theorem convTuple_sound (E : Env F) : ∀ (ts : List Ty) (ps : List (Val F ⊕ Kid F)) (r : List (Val F)),
    ps.length = ts.length → (∀ k, Sum.inr k ∈ ps → KidOk E k) → convTuple E ts ps = .ok r →
    r.length = ts.length ∧ ∀ (i : Nat) v t, r[i]? = some v → ts[i]? = some t → Conforms E v t
  | [], ps, r, _, _, h => by rw [convTuple] at h; cases h; exact ⟨rfl, fun i v t hv => by simp at hv⟩
  | t :: ts, [], r, hlen, _, h => nomatch hlen
  | t :: ts, .inl c :: ps, r, hlen, hk, h => by
    rw [convTuple] at h
    obtain ⟨v, hv, h⟩ := bind_ok h
    obtain ⟨rest, hr, h⟩ := bind_ok h
    cases h
    obtain ⟨h1, h2⟩ := convTuple_sound E ts ps rest (by simpa using hlen)
      (fun k hm => hk k (List.mem_cons_of_mem _ hm)) hr
    refine ⟨by simp [h1], fun i w u hw hu => ?_⟩
    match i with
    | 0 => cases hw; cases hu; exact conv_sound E t _ _ (leaf_ok E c) hv
    | i + 1 => exact h2 i w u hw hu
  | t :: ts, .inr k :: ps, r, hlen, hk, h => by
    rw [convTuple] at h
    obtain ⟨v, hv, h⟩ := bind_ok h
    obtain ⟨rest, hr, h⟩ := bind_ok h
    cases h
    obtain ⟨h1, h2⟩ := convTuple_sound E ts ps rest (by simpa using hlen)
      (fun k hm => hk k (List.mem_cons_of_mem _ hm)) hr
    refine ⟨by simp [h1], fun i w u hw hu => ?_⟩
    match i with
    | 0 => cases hw; cases hu; exact hk k (by simp) t v hv
    | i + 1 => exact h2 i w u hw hu

private theorem convUnion_sound (E : Env F) (optional : Bool) : ∀ (ts : List Ty) (o : Obj F) (y : Val F),
    PartsOk E o → convUnion E optional ts o = .ok y → ∃ t ∈ ts, Conforms E y t
  | [], o, y, _, h => by rw [convUnion] at h; cases h
  | t :: ts, o, y, ho, h => by
    rw [convUnion] at h
    split at h
    · rename_i hv
      cases h
      exact ⟨t, by simp, conv_sound E t o _ ho hv⟩
    · split at h
      · cases h
      · obtain ⟨u, hu, hc⟩ := convUnion_sound E optional ts o y ho h
        exact ⟨u, by simp [hu], hc⟩
    · cases h

end

mutual

private theorem toType_sound (E : Env F) : ∀ (v : Val F), KidOk E (v, toType E v)
  | .list l => fun t y h => by
    change toType E (.list l) t = _ at h
    rw [toType] at h
    exact conv_sound E t _ y ⟨toTypes_sound E l, fun _ hp => absurd hp List.not_mem_nil⟩ h
  | .tuple l => fun t y h => by
    change toType E (.tuple l) t = _ at h
    rw [toType] at h
    exact conv_sound E t _ y ⟨toTypes_sound E l, fun _ hp => absurd hp List.not_mem_nil⟩ h
  | .set l => fun t y h => by
    change toType E (.set l) t = _ at h
    rw [toType] at h
    exact conv_sound E t _ y ⟨toTypes_sound E l, fun _ hp => absurd hp List.not_mem_nil⟩ h
  | .map es => fun t y h => by
    change toType E (.map es) t = _ at h
    rw [toType] at h
    exact conv_sound E t _ y ⟨fun _ hp => absurd hp List.not_mem_nil, toTypePairs_sound E es⟩ h
  | .none => fun t y h => by
    change toType E .none t = _ at h
    rw [toType] at h; exact conv_sound E t _ y (leaf_ok E _) h
  | .bool b => fun t y h => by
    change toType E (.bool b) t = _ at h
    rw [toType] at h; exact conv_sound E t _ y (leaf_ok E _) h
  | .int b => fun t y h => by
    change toType E (.int b) t = _ at h
    rw [toType] at h; exact conv_sound E t _ y (leaf_ok E _) h
  | .float b => fun t y h => by
    change toType E (.float b) t = _ at h
    rw [toType] at h; exact conv_sound E t _ y (leaf_ok E _) h
  | .str b => fun t y h => by
    change toType E (.str b) t = _ at h
    rw [toType] at h; exact conv_sound E t _ y (leaf_ok E _) h
  | .path b => fun t y h => by
    change toType E (.path b) t = _ at h
    rw [toType] at h; exact conv_sound E t _ y (leaf_ok E _) h
  | .dtype b => fun t y h => by
    change toType E (.dtype b) t = _ at h
    rw [toType] at h; exact conv_sound E t _ y (leaf_ok E _) h
  | .device b => fun t y h => by
    change toType E (.device b) t = _ at h
    rw [toType] at h; exact conv_sound E t _ y (leaf_ok E _) h
  | .enum k b => fun t y h => by
    change toType E (.enum k b) t = _ at h
    rw [toType] at h; exact conv_sound E t _ y (leaf_ok E _) h
  | .data k b => fun t y h => by
    change toType E (.data k b) t = _ at h
    rw [toType] at h; exact conv_sound E t _ y (leaf_ok E _) h

private theorem toTypes_sound (E : Env F) : ∀ (l : List (Val F)), ∀ k ∈ toTypes E l, KidOk E k
  | [] => fun k hk => by rw [toTypes] at hk; cases hk
  | v :: l => fun k hk => by
    rw [toTypes] at hk
    rcases List.mem_cons.1 hk with rfl | hk
    · exact toType_sound E v
    · exact toTypes_sound E l k hk

private theorem toTypePairs_sound (E : Env F) : ∀ (es : List (Val F × Val F)), ∀ p ∈ toTypePairs E es,
    KidOk E p.1 ∧ KidOk E p.2
  | [] => fun k hk => by rw [toTypePairs] at hk; cases hk
  | e :: es => fun p hp => by
    rw [toTypePairs] at hp
    rcases List.mem_cons.1 hp with rfl | hp
    · exact toTypePair_sound E e
    · exact toTypePairs_sound E es p hp

private theorem toTypePair_sound (E : Env F) : ∀ (e : Val F × Val F),
    KidOk E (toTypePair E e).1 ∧ KidOk E (toTypePair E e).2
  | (k, v) => by
    rw [toTypePair]
    exact ⟨toType_sound E k, toType_sound E v⟩

end

mutual

private theorem un_plain (E : Env F) (hs : ∀ s, E.hashable (.str s) = true) :
    ∀ (v u : Val F), unstructure E v = .ok u → Plain E u
  | .none, u, h => by rw [unstructure] at h; cases h; exact .none
  | .bool b, u, h => by rw [unstructure] at h; cases h; exact .bool b
  | .int b, u, h => by rw [unstructure] at h; cases h; exact .int b
  | .float b, u, h => by rw [unstructure] at h; cases h; exact .float b
  | .str b, u, h => by rw [unstructure] at h; cases h; exact .str b
  | .path b, u, h => by rw [unstructure] at h; cases h; exact .str b
  | .dtype b, u, h => by rw [unstructure] at h; cases h; exact .str _
  | .device b, u, h => by rw [unstructure] at h; cases h; exact .str _
  | .enum _ b, u, h => by rw [unstructure] at h; cases h; exact .str _
  | .list l, u, h => by
    rw [unstructure] at h
    obtain ⟨us, hu, rfl⟩ := map_ok h
    refine .list fun u hm => ?_
    obtain ⟨v, hv, h⟩ := unstructures_inv E l us hu u hm
    exact uns_plain E hs l v hv u h
  | .tuple l, u, h => by
    rw [unstructure] at h
    obtain ⟨us, hu, rfl⟩ := map_ok h
    refine .list fun u hm => ?_
    obtain ⟨v, hv, h⟩ := unstructures_inv E l us hu u hm
    exact uns_plain E hs l v hv u h
  | .set l, u, h => by
    rw [unstructure] at h
    obtain ⟨us, hu, rfl⟩ := map_ok h
    refine .list fun u hm => ?_
    obtain ⟨v, hv, h⟩ := unstructures_inv E l us hu u hm
    exact uns_plain E hs l v hv u h
  | .map es, u, h => by
    rw [unstructure] at h
    obtain ⟨us, hu, rfl⟩ := map_ok h
    obtain ⟨h1, h2⟩ := unstructurePairs_inv E (Plain E) es [] us hu
      (fun e he y hy => (unpairs_plain E hs es e he).1 y hy) (fun e he y hy => (unpairs_plain E hs es e he).2 y hy)
      (fun e he => nomatch he) List.Pairwise.nil
    exact .map (fun e he => (h1 e he).1) (fun e he => (h1 e he).2.1) (fun e he => (h1 e he).2.2) h2
  | .data k fs, u, h => by
    rw [unstructure] at h
    obtain ⟨us, hu, rfl⟩ := map_ok h
    obtain ⟨h1, h2⟩ := unstructureFields_inv E (Plain E) fs [] us hu (fun s => ⟨.str s, hs s⟩)
      (fun f hf y hy => unfields_plain E hs fs f hf y hy) (fun e he => nomatch he) List.Pairwise.nil
    exact .map (fun e he => (h1 e he).1) (fun e he => (h1 e he).2.1) (fun e he => (h1 e he).2.2) h2

private theorem uns_plain (E : Env F) (hs : ∀ s, E.hashable (.str s) = true) :
    ∀ (l : List (Val F)), ∀ v ∈ l, ∀ u, unstructure E v = .ok u → Plain E u
  | [] => fun v hv => nomatch hv
  | w :: l => fun v hv u h => by
    cases hv with
    | head => exact un_plain E hs w u h
    | tail _ hv => exact uns_plain E hs l v hv u h

private theorem unpairs_plain (E : Env F) (hs : ∀ s, E.hashable (.str s) = true) :
    ∀ (es : List (Val F × Val F)), ∀ e ∈ es, (∀ u, unstructure E e.1 = .ok u → Plain E u) ∧
      ∀ u, unstructure E e.2 = .ok u → Plain E u
  | [] => fun v hv => nomatch hv
  | w :: l => fun v hv => by
    cases hv with
    | head => exact unpair_plain E hs w
    | tail _ hv => exact unpairs_plain E hs l v hv

private theorem unpair_plain (E : Env F) (hs : ∀ s, E.hashable (.str s) = true) :
    ∀ (e : Val F × Val F), (∀ u, unstructure E e.1 = .ok u → Plain E u) ∧
      ∀ u, unstructure E e.2 = .ok u → Plain E u
  | (k, v) => ⟨fun u h => un_plain E hs k u h, fun u h => un_plain E hs v u h⟩

private theorem unfields_plain (E : Env F) (hs : ∀ s, E.hashable (.str s) = true) :
    ∀ (fs : List (String × Val F)), ∀ f ∈ fs, ∀ u, unstructure E f.2 = .ok u → Plain E u
  | [] => fun v hv => nomatch hv
  | w :: l => fun v hv => by
    cases hv with
    | head => exact unfield_plain E hs w
    | tail _ hv => exact unfields_plain E hs l v hv

private theorem unfield_plain (E : Env F) (hs : ∀ s, E.hashable (.str s) = true) :
    ∀ (f : String × Val F), ∀ u, unstructure E f.2 = .ok u → Plain E u
  | (_, v) => fun u h => un_plain E hs v u h

end

/-! ### Theorems -/

/-- **C65 (round trip).** An object of a type, unstructured and structured again as that type, is the same
object. -/
theorem C65_round_trip_partial (E : Env F) (hE : Sane E) (v : Val F) (t : Ty) (h : HasType E v t) :
    ∃ u, unstructure E v = .ok u ∧ toType E u t = .ok v := by
  induction h with
  | object h => exact ⟨_, plain_unstructure h, toType_object E _⟩
  | bool b => exact ⟨_, by rw [unstructure], by rw [toType, conv]; rfl⟩
  | int n => exact ⟨_, by rw [unstructure], by rw [toType, conv]; rfl⟩
  | boolInt b => exact ⟨_, by rw [unstructure], by rw [toType, conv]; rfl⟩
  | float f => exact ⟨_, by rw [unstructure], by rw [toType, conv]; rfl⟩
  | str s => exact ⟨_, by rw [unstructure], by rw [toType, conv]; rfl⟩
  | none => exact ⟨_, by rw [unstructure], by rw [toType, conv]; rfl⟩
  | path h => exact ⟨_, by rw [unstructure], by rw [toType, conv]; simp [leaf, h]⟩
  | dtype d => exact ⟨_, by rw [unstructure], by rw [toType, conv]; simp [leaf, hE.dtype]⟩
  | device d => exact ⟨_, by rw [unstructure], by rw [toType, conv]; simp [leaf, hE.device]⟩
  | enum h => exact ⟨_, by rw [unstructure], by rw [toType, conv]; simp [leaf, h]⟩
  | literal h => exact ⟨_, by rw [unstructure], by rw [toType, conv]; simp [leaf, h]⟩
  | list h ih =>
    obtain ⟨us, h1, h2⟩ := elems_round ih
    exact ⟨.list us, by rw [unstructure, h1]; rfl, by rw [toType, conv]; simp [elements, h2, Except.map]⟩
  | tupleOf h ih =>
    obtain ⟨us, h1, h2⟩ := elems_round ih
    exact ⟨.list us, by rw [unstructure, h1]; rfl, by rw [toType, conv]; simp [elements, h2, Except.map]⟩
  | set h hh hd ih =>
    obtain ⟨us, h1, h2⟩ := elems_round ih
    exact ⟨.list us, by rw [unstructure, h1]; rfl,
      by rw [toType]; exact (conv_set_list E _ us _ _ h2 hh hd).1⟩
  | tuple hne hlen h ih =>
    rename_i l ts
    obtain ⟨us, h1, h2⟩ := choose_list
      (P := fun i v u => ∀ t, ts[i]? = some t → unstructure E v = .ok u ∧ toType E u t = .ok v) l
      (fun i v hv => by
        have hi : i < ts.length := by
          rw [← hlen]; exact (List.getElem?_eq_some_iff.1 hv).1
        obtain ⟨u, hu⟩ := ih i v ts[i] hv (List.getElem?_eq_getElem hi)
        refine ⟨u, fun t ht => ?_⟩
        rw [List.getElem?_eq_getElem hi] at ht
        cases ht
        exact hu)
    refine ⟨.list us, ?_, ?_⟩
    · rw [unstructure, unstructures_ok E l us h1]
      · rfl
      · intro i v u hv hu
        have hi : i < ts.length := by
          rw [← hlen]; exact (List.getElem?_eq_some_iff.1 hv).1
        exact (h2 i v u hv hu ts[i] (List.getElem?_eq_getElem hi)).1
    · rw [toType, conv, parts_list]
      show (if ts.length = 0 then _ else if ((toTypes E us).map Sum.inr).length = ts.length then
        (convTuple E ts ((toTypes E us).map .inr)).map Val.tuple else _) = _
      rw [if_neg (by simpa using hne), if_pos (by rw [List.length_map, toTypes_length, h1, hlen]),
        kids_tuple E ts us l (by rw [h1, hlen]) hlen (fun i t u v ht hu hv => (h2 i v u hv hu t ht).2)]
      rfl
  | dict hs hk hv hh hd ihk ihv =>
    rename_i es kt vt
    obtain ⟨us, h1, h2⟩ := choose_list
      (P := fun _ (e u : Val F × Val F) => (unstructure E e.1 = .ok u.1 ∧ toType E u.1 kt = .ok e.1) ∧
        unstructure E e.2 = .ok u.2 ∧ toType E u.2 vt = .ok e.2) es
      (fun i e he => by
        obtain ⟨a, ha⟩ := ihk e (List.mem_of_getElem? he)
        obtain ⟨b, hb⟩ := ihv e (List.mem_of_getElem? he)
        exact ⟨(a, b), ha, hb⟩)
    have hget : ∀ (i : Nat) u, us[i]? = some u → ∃ e, es[i]? = some e := fun i u hu =>
      ⟨es[i]'(by rw [← h1]; exact (List.getElem?_eq_some_iff.1 hu).1), List.getElem?_eq_getElem _⟩
    refine ⟨.map us, ?_, ?_⟩
    · rw [unstructure, unstructurePairs_ok E es us [] h1 (fun i e u he hu => (h2 i e u he hu).1.1)
        (fun i e u he hu => (h2 i e u he hu).2.1)]
      · rfl
      · intro u hu
        obtain ⟨i, hi⟩ := List.getElem?_of_mem hu
        obtain ⟨e, he⟩ := hget i u hi
        exact scalar_hash hE hs (hk e (List.mem_of_getElem? he)) (h2 i e u he hi).1.1
      · show us.Pairwise _
        refine List.pairwise_iff_getElem.2 fun i j hi hj hij => ?_
        have hi' : i < es.length := by rw [← h1]; exact hi
        have hj' : j < es.length := by rw [← h1]; exact hj
        have a := h2 i es[i] us[i] (List.getElem?_eq_getElem hi') (List.getElem?_eq_getElem hi)
        have b := h2 j es[j] us[j] (List.getElem?_eq_getElem hj') (List.getElem?_eq_getElem hj)
        exact scalar_keys hE hs (hk _ (List.getElem_mem hi')) (hk _ (List.getElem_mem hj')) a.1.1 b.1.1
          (List.pairwise_iff_getElem.1 hd i j hi' hj' hij)
    · rw [toType, conv]
      show (dictLoop E kt vt (toTypePairs E us) []).map Val.map = _
      rw [toTypePairs_eq, dictLoop_ok E kt vt es _ [] (by simp [h1]) _ _ hh hd]
      · rfl
      · intro i p e hp he
        rw [List.getElem?_map] at hp
        cases hu : us[i]? with
        | none => rw [hu] at hp; cases hp
        | some u => rw [hu] at hp; cases hp; exact (h2 i e u he hu).1.2
      · intro i p e hp he
        rw [List.getElem?_map] at hp
        cases hu : us[i]? with
        | none => rw [hu] at hp; cases hp
        | some u => rw [hu] at hp; cases hp; exact (h2 i e u he hu).2.2
  | data hn hnd h hc ih =>
    rename_i k fs
    have hlen : fs.length = (E.classes k).length := by simpa using congrArg List.length hn
    have hname : ∀ (i : Nat) f c, fs[i]? = some f → (E.classes k)[i]? = some c → f.1 = c.name := by
      intro i f c hf hc
      have := congrArg (fun l => l[i]?) hn
      simp only [List.getElem?_map, hf, hc, Option.map_some] at this
      exact Option.some.inj this
    obtain ⟨us, h1, h2⟩ := choose_list
      (P := fun i (f : String × Val F) (u : Val F × Val F) => u.1 = .str f.1 ∧ unstructure E f.2 = .ok u.2 ∧
        ∀ c, (E.classes k)[i]? = some c → toType E u.2 c.ty = .ok f.2) fs
      (fun i f hf => by
        have hi : i < (E.classes k).length := by
          rw [← hlen]; exact (List.getElem?_eq_some_iff.1 hf).1
        obtain ⟨u, hu1, hu2⟩ := ih i f _ hf (List.getElem?_eq_getElem hi)
        refine ⟨(.str f.1, u), rfl, hu1, fun c hc => ?_⟩
        rw [List.getElem?_eq_getElem hi] at hc
        cases hc
        exact hu2)
    have hget : ∀ (i : Nat) u, us[i]? = some u → ∃ f, fs[i]? = some f := fun i u hu =>
      ⟨fs[i]'(by rw [← h1]; exact (List.getElem?_eq_some_iff.1 hu).1), List.getElem?_eq_getElem _⟩
    refine ⟨.map us, ?_, ?_⟩
    · rw [unstructure, unstructureFields_ok E fs us [] h1 (fun i f u hf hu => (h2 i f u hf hu).1)
        (fun i f u hf hu => (h2 i f u hf hu).2.1)]
      · rfl
      · show us.Pairwise _
        refine List.pairwise_iff_getElem.2 fun i j hi hj hij => ?_
        have hi' : i < fs.length := by rw [← h1]; exact hi
        have hj' : j < fs.length := by rw [← h1]; exact hj
        have a := h2 i fs[i] us[i] (List.getElem?_eq_getElem hi') (List.getElem?_eq_getElem hi)
        have b := h2 j fs[j] us[j] (List.getElem?_eq_getElem hj') (List.getElem?_eq_getElem hj)
        rw [a.1, b.1, hE.same_str]
        refine decide_eq_false fun heq => ?_
        have := List.pairwise_iff_getElem.1 hnd i j (by simpa using hi') (by simpa using hj') hij
        rw [List.getElem_map, List.getElem_map] at this
        exact this heq
    · rw [toType, conv]
      show createData E k (toTypePairs E us) = _
      have hall : ∀ p ∈ toTypePairs E us, ∃ f ∈ fs, p.1.1 = .str f.1 := by
        rw [toTypePairs_eq]
        intro p hp
        obtain ⟨u, hu, rfl⟩ := List.mem_map.1 hp
        obtain ⟨i, hi⟩ := List.getElem?_of_mem hu
        obtain ⟨f, hf⟩ := hget i u hi
        exact ⟨f, List.mem_of_getElem? hf, (h2 i f u hf hi).1⟩
      have hstr : (toTypePairs E us).all (fun p => isStr p.1.1) = true := by
        refine List.all_eq_true.2 fun p hp => ?_
        obtain ⟨f, -, hf⟩ := hall p hp
        rw [hf]; rfl
      have hknown : (toTypePairs E us).all (fun p => known E k p.1.1) = true := by
        refine List.all_eq_true.2 fun p hp => ?_
        obtain ⟨f, hf, hp1⟩ := hall p hp
        rw [hp1]
        show (E.classes k).any (fun c => c.name == f.1) = true
        have hm : f.1 ∈ (E.classes k).map (·.name) := hn ▸ List.mem_map.2 ⟨f, hf, rfl⟩
        obtain ⟨c, hc, he⟩ := List.mem_map.1 hm
        exact List.any_eq_true.2 ⟨c, hc, by simpa using he⟩
      have hfield : fieldLoop (toTypePairs E us) (E.classes k) = .ok (initArgs (E.classes k) fs) := by
        refine fieldLoop_spec _ _ _ hlen fun i c f hc hf => ?_
        refine ⟨(hname i f c hf hc).symm, ?_⟩
        have hi : i < us.length := by rw [h1]; exact (List.getElem?_eq_some_iff.1 hf).1
        have hu := List.getElem?_eq_getElem hi
        refine ⟨_, findKey_spec E us (fs.map (·.1)) (by simp [h1]) ?_ hnd i us[i] c.name hu ?_,
          (h2 i f us[i] hf hu).2.2 c hc⟩
        · intro j u n hu hn
          rw [List.getElem?_map] at hn
          cases hf : fs[j]? with
          | none => rw [hf] at hn; cases hn
          | some f => rw [hf] at hn; cases hn; exact (h2 j f u hf hu).1
        · rw [List.getElem?_map, hf, ← hname i f c hf hc]; rfl
      rw [createData, if_pos hstr, hfield]
      show (if (toTypePairs E us).all (fun p => known E k p.1.1) then
        (do let fields ← E.construct k (initArgs (E.classes k) fs); return Val.data k fields)
        else _ : Except Err (Val F)) = _
      rw [if_pos hknown, hc]
      rfl
  | optionalNone => exact ⟨.none, by rw [unstructure], by rw [toType, conv]; simp [leaf, isNoneTy]⟩
  | optional h ih =>
    obtain ⟨u, h1, h2⟩ := ih
    refine ⟨u, h1, toType_optional h2 ?_⟩
    rintro rfl
    exact unstructure_none h1

/-- **C65 (no needless change).** An object that is of the requested type already is returned as it is. -/
theorem C65_typed_unchanged (E : Env F) (v : Val F) (t : Ty) (h : HasType E v t) : toType E v t = .ok v := by
  induction h with
  | object h => exact toType_object E _
  | list h ih => rw [toType, conv]; simp [elements, elems_same ih, Except.map]
  | tupleOf h ih => rw [toType, conv]; simp [elements, elems_same ih, Except.map]
  | set h hh hd ih => rw [toType]; exact (conv_set_list E _ _ _ _ (elems_same ih) hh hd).2
  | tuple hne hlen h ih =>
    rename_i l ts
    rw [toType, conv]
    show (if ts.length = 0 then _ else if ((toTypes E l).map Sum.inr).length = ts.length then
      (convTuple E ts ((toTypes E l).map .inr)).map Val.tuple else _) = _
    rw [if_neg (by simpa using hne), if_pos (by rw [List.length_map, toTypes_length, hlen]),
      kids_tuple E ts l l hlen hlen (fun i t u v ht hu hv => by
        rw [hu] at hv; cases hv; exact ih i u t hu ht)]
    rfl
  | dict hs hk hv hh hd ihk ihv =>
    rename_i es kt vt
    rw [toType, conv]
    show (dictLoop E kt vt (toTypePairs E es) []).map Val.map = _
    rw [toTypePairs_eq, dictLoop_ok E kt vt es _ [] (by simp) _ _ hh hd]
    · rfl
    · intro i p e hp he
      rw [List.getElem?_map, he] at hp
      cases hp
      exact ihk e (List.mem_of_getElem? he)
    · intro i p e hp he
      rw [List.getElem?_map, he] at hp
      cases hp
      exact ihv e (List.mem_of_getElem? he)
  | optional h ih => exact toType_optional ih id
  | optionalNone => rw [toType, conv]; simp [leaf, isNoneTy]
  | literal h => rw [toType, conv]; simp [leaf, h]
  | _ => rw [toType, conv]; simp [leaf]

/-- **C65 (the result has the type).** Whatever the input, a value that `structure` returns is an instance of
the requested type, elements of containers included. -/
theorem C65_sound (E : Env F) (v y : Val F) (t : Ty) (h : toType E v t = .ok y) : Conforms E y t :=
  toType_sound E v t y h

/-- **C65 (scalars are not coerced).** For `bool`, `str`, `None` and literals: a value of the type is returned
as it is, and every other value is rejected. -/
theorem C65_strict (E : Env F) (v : Val F) (t : Ty)
    (ht : t = .bool ∨ t = .str ∨ t = .none ∨ ∃ values, t = .literal values) :
    (Conforms E v t → toType E v t = .ok v) ∧ (¬ Conforms E v t → toType E v t = .error .structure) := by
  rcases ht with rfl | rfl | rfl | ⟨values, rfl⟩
  · cases v with
    | bool b => exact ⟨fun _ => (by rw [toType, conv]; rfl), fun h => absurd (.bool b) h⟩
    | _ => exact ⟨fun h => (nomatch h), fun _ => by rw [toType, conv] <;> rfl⟩
  · cases v with
    | str s => exact ⟨fun _ => (by rw [toType, conv]; rfl), fun h => absurd (.str s) h⟩
    | _ => exact ⟨fun h => (nomatch h), fun _ => by rw [toType, conv] <;> rfl⟩
  · cases v with
    | none => exact ⟨fun _ => (by rw [toType, conv]; rfl), fun h => absurd .none h⟩
    | _ => exact ⟨fun h => (nomatch h), fun _ => by rw [toType, conv] <;> rfl⟩
  · cases v with
    | str s =>
      constructor
      · intro h
        cases h with
        | literal hs => rw [toType, conv]; simp [leaf, hs]
      · intro h
        have hs : s ∉ values := fun hs => h (.literal hs)
        rw [toType, conv]; simp [leaf, hs]
    | _ => exact ⟨fun h => (nomatch h), fun _ => by rw [toType, conv] <;> rfl⟩

/-- **C65 (dataclasses).** A dictionary with a key that is not a field, or without a field that has no default,
is rejected. -/
theorem C65_fields (E : Env F) (k : Nat) (es : List (Val F × Val F))
    (h : (∃ e ∈ es, ∀ c ∈ E.classes k, e.1 ≠ .str c.name) ∨
      ∃ c ∈ E.classes k, c.init = true ∧ c.hasDefault = false ∧ ∀ e ∈ es, e.1 ≠ .str c.name) :
    ∃ err, toType E (.map es) (.data k) = .error err := by
  cases hr : toType E (.map es) (.data k) with
  | error err => exact ⟨err, rfl⟩
  | ok y =>
    exfalso
    rw [toType, conv] at hr
    change createData E k (toTypePairs E es) = _ at hr
    unfold createData at hr
    split at hr
    · obtain ⟨kw, hkw, hr⟩ := bind_ok hr
      split at hr
      · rename_i hall
        have hall := List.all_eq_true.1 hall
        rcases h with ⟨e, he, hne⟩ | ⟨c, hc, hi, hd, hne⟩
        · have := hall ((e.1, toType E e.1), (e.2, toType E e.2)) (by
            rw [toTypePairs_eq]; exact List.mem_map.2 ⟨e, he, rfl⟩)
          simp only [known] at this
          split at this
          · rename_i s hs
            obtain ⟨c, hc, hcs⟩ := List.any_eq_true.1 this
            exact hne c hc (by rw [hs, ← eq_of_beq hcs])
          · cases this
        · have hfind : ∀ es : List (Val F × Val F), (∀ e ∈ es, e.1 ≠ .str c.name) →
              findKey c.name (toTypePairs E es) = none := by
            intro es
            induction es with
            | nil => intro _; rw [toTypePairs]; rfl
            | cons e es ih =>
              intro hes
              obtain ⟨a, b⟩ := e
              have ih := ih (fun e he => hes e (by simp [he]))
              rw [toTypePairs, toTypePair]
              cases a with
              | str s =>
                rw [findKey, if_neg (fun hs => hes (.str s, b) (by simp) (by rw [hs]))]
                exact ih
              | _ => rw [findKey]; exact ih; intro s; exact nofun
          have hfind := hfind es hne
          generalize toTypePairs E es = ps at hfind hkw
          clear hall hr hne
          generalize E.classes k = cs at hc hkw
          induction cs generalizing kw with
          | nil => cases hc
          | cons x cs ih =>
            rw [fieldLoop] at hkw
            rcases List.mem_cons.1 hc with rfl | hc
            · rw [if_pos hi, hfind] at hkw
              simp only [hd] at hkw
              cases hkw
            · split at hkw
              · split at hkw
                · split at hkw
                  · exact ih kw hc hkw
                  · cases hkw
                · obtain ⟨_, -, hkw⟩ := bind_ok hkw
                  obtain ⟨rest, hrest, -⟩ := bind_ok hkw
                  exact ih rest hc hrest
              · exact ih kw hc hkw
      · cases hr
    · cases hr

/-- **C65 (unstructured values are plain).** The result of `unstructure` consists of `None`, booleans, numbers,
strings, lists and dictionaries only. -/
theorem C65_plain (E : Env F) (hs : ∀ s, E.hashable (.str s) = true) (v u : Val F)
    (h : unstructure E v = .ok u) : Plain E u :=
  un_plain E hs v u h

/-- **C65 (twice).** Unstructuring what is unstructured already changes nothing. -/
theorem C65_unstructure_twice (E : Env F) (hs : ∀ s, E.hashable (.str s) = true) (v u : Val F)
    (h : unstructure E v = .ok u) : unstructure E u = .ok u :=
  plain_unstructure (C65_plain E hs v u h)

private theorem toType_union {E : Env F} {ts : List Ty} (v : Val F)
    (hopt : (decide (ts.length = 2) && ts.any isNoneTy) = false) (pre post : List Ty) (t : Ty)
    (hts : ts = pre ++ t :: post) (hpre : ∀ p ∈ pre, toType E v p = .error .structure) (y : Val F)
    (h : toType E v t = .ok y) : toType E v (.union ts) = .ok y := by
  have key : ∀ o : Obj F, (∀ p ∈ pre, conv E p o = .error .structure) → conv E t o = .ok y →
      conv E (.union ts) o = .ok y := by
    intro o hp ht
    rw [conv, hopt]
    show convUnion E false ts o = .ok y
    subst hts
    clear hopt hpre
    induction pre with
    | nil => rw [List.nil_append, convUnion, ht]
    | cons p pre ih =>
      rw [List.cons_append, convUnion, hp p (by simp)]
      exact ih (fun q hq => hp q (by simp [hq]))
  cases v <;> (rw [toType] at h ⊢; refine key _ (fun p hp => ?_) h; have := hpre p hp; rwa [toType] at this)

/-- **C65 (unions, partial).** For a union other than `t | None`, the object comes back if no alternative
before its own one accepts its unstructured form. Missing: unions in general, see `C65_union_order`. -/
theorem C65_union_partial (E : Env F) (hE : Sane E) (v : Val F) (pre post : List Ty) (t : Ty)
    (hopt : (pre ++ t :: post).length ≠ 2 ∨ Ty.none ∉ pre ++ t :: post) (h : HasType E v t)
    (hpre : ∀ u, unstructure E v = .ok u → ∀ p ∈ pre, toType E u p = .error .structure) :
    ∃ u, unstructure E v = .ok u ∧ toType E u (.union (pre ++ t :: post)) = .ok v := by
  obtain ⟨u, h1, h2⟩ := C65_round_trip_partial E hE v t h
  refine ⟨u, h1, toType_union u ?_ pre post t rfl (hpre u h1) v h2⟩
  rcases hopt with hopt | hopt
  · simp only [hopt, decide_false, Bool.false_and]
  · rw [Bool.and_eq_false_iff]
    right
    rw [List.any_eq_false]
    intro x hx hn
    cases x <;> first | exact hopt hx | cases hn

/-! ### Where the code does not do this -/

/-- **C65 (order of unions).** A string that reads as a number, in a field of type `int | str`, comes back as
the number. -/
theorem C65_union_order (E : Env F) (s : String) (n : Int) (h : E.parseInt s = some n) :
    Conforms E (.str s) (.union [.int, .str]) ∧ unstructure E (.str s) = .ok (.str s) ∧
      toType E (.str s) (.union [.int, .str]) = .ok (.int n) := by
  refine ⟨.union (t := .str) (by simp) (.str s), by rw [unstructure], ?_⟩
  refine toType_union (.str s) rfl [] [.str] .int rfl (fun p hp => nomatch hp) _ ?_
  rw [toType, conv]
  simp [leaf, h]

/-- **C65 (`None` first).** In a field of type `None | t` every value but `None` is rejected, also those of
type `t`. -/
theorem C65_none_first (E : Env F) (v : Val F) (t : Ty) (hv : v ≠ .none) :
    toType E v (.union [.none, t]) = .error .structure := by
  have key : ∀ o : Obj F, o.val ≠ .none → conv E (.union [.none, t]) o = .error .structure := by
    intro o ho
    rw [conv]
    have hopt : (decide ([Ty.none, t].length = 2) && [Ty.none, t].any isNoneTy) = true := rfl
    rw [hopt]
    have hc : conv E .none o = .error .structure := by
      rw [conv]
      split
      · rename_i h; exact absurd h ho
      · rfl
    show (match true, o.val with
      | true, .none => Except.ok Val.none
      | _, _ => convUnion E true [.none, t] o) = _
    split
    · rename_i h; exact absurd h ho
    · rw [convUnion, hc]; rfl
  cases v <;> first | exact absurd rfl hv | (rw [toType]; exact key _ hv)

/-- **C65 (numbers are coerced).** Strings that read as numbers are accepted as numbers, fractions are cut off
when an integer is asked for, and truth values are accepted as numbers. -/
theorem C65_coerced_numbers (E : Env F) :
    (∀ s n, E.parseInt s = some n → toType E (.str s) .int = .ok (.int n)) ∧
    (∀ f n, E.truncate f = .ok n → toType E (.float f) .int = .ok (.int n)) ∧
    (∀ s f, E.parseFloat s = some f → toType E (.str s) .float = .ok (.float f)) ∧
    (∀ b, toType E (.bool b) .int = .ok (.bool b)) := by
  refine ⟨fun s n h => ?_, fun f n h => ?_, fun s f h => ?_, fun b => ?_⟩
  · rw [toType, conv]; simp [leaf, h]
  · rw [toType, conv]; simp [leaf, h, Except.map]
  · rw [toType, conv]; simp [leaf, h]
  · rw [toType, conv]; rfl

/-- **C65 (strings as lists).** A string, where a list of strings is asked for, is not rejected: it becomes the
list of its characters. -/
theorem C65_coerced_strings (E : Env F) (s : String) :
    toType E (.str s) (.list .str) = .ok (.list (s.toList.map fun c => .str (String.ofList [c]))) := by
  rw [toType, conv]
  have : elements (conv E .str) .str (leaf (.str s)) = .ok (charsOf s) := by
    show (charsOf s).mapM _ = _
    rw [mapM_ok_of (g := id) (l := charsOf s)]
    · rw [List.map_id]
    · intro a ha
      obtain ⟨c, -, rfl⟩ := List.mem_map.1 ha
      rw [conv]; rfl
  rw [this]
  rfl

/-- **C65 (untyped fields).** A path in a field of type `object` comes back as a string. -/
theorem C65_object_path (E : Env F) (s : String) :
    unstructure E (.path s) = .ok (.str s) ∧ toType E (.str s) .object = .ok (.str s) :=
  ⟨by rw [unstructure], toType_object E _⟩

/-- **C65 (tuples as keys).** A dictionary with tuples as keys cannot be unstructured: the key becomes a list,
and the exception is not a `StructureError`. -/
theorem C65_tuple_keys (E : Env F) (a b v : Val F) (h : ∀ l, E.hashable (.list l) = false) (ua ub uv : Val F)
    (ha : unstructure E a = .ok ua) (hb : unstructure E b = .ok ub) (hv : unstructure E v = .ok uv) :
    unstructure E (.map [(.tuple [a, b], v)]) = .error .other := by
  have ht : unstructure E (.tuple [a, b]) = .ok (.list [ua, ub]) := by
    rw [unstructure, unstructures_ok E [a, b] [ua, ub] rfl]
    · rfl
    · intro i x y hx hy
      match i with
      | 0 => cases hx; cases hy; exact ha
      | 1 => cases hx; cases hy; exact hb
  rw [unstructure, unstructurePairs, unstructurePair, ht, hv]
  show ((if E.hashable (.list [ua, ub]) then _ else _ : Except Err _)).map Val.map = _
  rw [h]
  rfl

/-! ### The hypotheses can be met -/

/-- Equality of scalars. -/
private def sameScalar : Val Nat → Val Nat → Bool
  | .str a, .str b => decide (a = b)
  | .path a, .path b => decide (a = b)
  | .dtype a, .dtype b => decide (a = b)
  | .device a, .device b => decide (a = b)
  | .enum k a, .enum k' b => decide (k = k') && decide (a = b)
  | .int a, .int b => decide (a = b)
  | .bool a, .bool b => decide (a = b)
  | _, _ => false

/-- A small world: one data type, one device, one dataclass with a path, an optional number and a table.
Floats are counted in tenths. -/
private def world : Env Nat where
  parseInt s := if s = "12" then some 12 else none
  parseFloat s := if s = "1.5" then some 15 else none
  floatOfInt n := .ok (n.toNat * 10)
  truncate f := .ok (f / 10 : Nat)
  normPath s := s
  dtypeOf s := if s = "float32" then some 0 else s.toList.length
  dtypeName d := String.ofList (List.replicate d 'x')
  deviceOf s := s.toList.length
  deviceName d := String.ofList (List.replicate d 'x')
  members _ := ["A", "B"]
  classes _ := [⟨"dir", .path, true, false⟩, ⟨"seed", .union [.int, .none], true, true⟩,
    ⟨"table", .dict .str (.list .float), true, false⟩]
  construct _ kwargs := .ok kwargs
  same := sameScalar
  hashable v := match v with
    | .list _ => false
    | .map _ => false
    | .set _ => false
    | _ => true

private def thing : Val Nat :=
  .data 0 [("dir", .path "/data"), ("seed", .int 2), ("table", .map [(.str "a", .list [.float 15]), (.str "b", .list [])])]

private theorem world_sane : Sane world where
  dtype d := by
    show (if String.ofList (List.replicate d 'x') = "float32" then some 0
      else some (String.ofList (List.replicate d 'x')).toList.length) = some d
    rw [if_neg]
    · simp
    · intro h
      have := congrArg String.toList h
      rw [String.toList_ofList] at this
      have hf : 'f' ∈ List.replicate d 'x' := this ▸ (by decide)
      exact absurd (List.eq_of_mem_replicate hf) (by decide)
  device d := by
    show some (String.ofList (List.replicate d 'x')).toList.length = some d
    simp
  hash_str _ := rfl
  hash_int _ := rfl
  hash_bool _ := rfl
  same_str _ _ := rfl
  same_path _ _ := rfl
  same_dtype _ _ := rfl
  same_device _ _ := rfl
  same_enum k a b := by simp [world, sameScalar]

private theorem thing_typed : HasType world thing (.data 0) := by
  refine .data rfl (by decide) ?_ rfl
  intro i f c hf hc
  match i with
  | 0 => cases hf; cases hc; exact .path rfl
  | 1 => cases hf; cases hc; exact .optional (.int 2)
  | 2 =>
    cases hf; cases hc
    refine .dict trivial ?_ ?_ ?_ ?_
    · simp only [List.mem_cons, List.not_mem_nil, or_false]
      rintro e (rfl | rfl) <;> exact .str _
    · simp only [List.mem_cons, List.not_mem_nil, or_false]
      rintro e (rfl | rfl)
      · exact .list (by simp only [List.mem_singleton]; rintro v rfl; exact .float _)
      · exact .list (fun v hv => nomatch hv)
    · simp only [List.mem_cons, List.not_mem_nil, or_false]
      rintro e (rfl | rfl) <;> rfl
    · refine List.pairwise_cons.2 ⟨?_, List.pairwise_singleton _ _⟩
      simp only [List.mem_singleton]
      rintro e rfl
      decide

example : ∃ u, unstructure world thing = .ok u ∧ toType world u (.data 0) = .ok thing :=
  C65_round_trip_partial world world_sane thing _ thing_typed

example : toType world thing (.data 0) = .ok thing := C65_typed_unchanged world thing _ thing_typed

example : ∃ y, toType world (.list [.str "12", .int 3]) (.set .int) = .ok y ∧ Conforms world y (.set .int) :=
  ⟨.set [.int 12, .int 3], rfl, C65_sound world (.list [.str "12", .int 3]) _ _ rfl⟩

example : toType world (.int 1) .bool = .error .structure :=
  (C65_strict world (.int 1) .bool (.inl rfl)).2 nofun

example : ∃ err, toType world (.map [(.str "dri", .str "/data")]) (.data 0) = .error err :=
  C65_fields world 0 _ (.inl ⟨(.str "dri", .str "/data"), by simp, by
    intro c hc
    simp only [world, List.mem_cons, List.not_mem_nil, or_false] at hc
    rcases hc with rfl | rfl | rfl <;> simp⟩)

example : Plain world (.map [(.str "a", .list [.str "/data"])]) :=
  C65_plain world (fun _ => rfl) (.map [(.str "a", .tuple [.path "/data"])]) _ rfl

example : ∃ u, unstructure world (.str "a") = .ok u ∧
    toType world u (.union [.bool, .int, .str]) = .ok (.str "a") :=
  C65_union_partial world world_sane (.str "a") [.bool, .int] [] .str (.inl (by decide)) (.str "a") (by
    intro u hu p hp
    rw [unstructure] at hu
    cases hu
    simp only [List.mem_cons, List.not_mem_nil, or_false] at hp
    rcases hp with rfl | rfl <;> rfl)

example : toType world (.str "12") (.union [.int, .str]) = .ok (.int 12) :=
  (C65_union_order world "12" 12 rfl).2.2

example : toType world (.int 3) (.union [.none, .int]) = .error .structure :=
  C65_none_first world (.int 3) .int nofun

example : toType world (.float 37) .int = .ok (.int 3) := (C65_coerced_numbers world).2.1 37 3 rfl

example : unstructure world (.map [(.tuple [.int 1, .int 2], .none)]) = .error .other :=
  C65_tuple_keys world (.int 1) (.int 2) .none (fun _ => rfl) (.int 1) (.int 2) .none
    (by rw [unstructure]) (by rw [unstructure]) (by rw [unstructure])

end Fs2.Props
