import Verif.Utils.Directives
import Verif.Props.ConfigMerge

/-!
Property C82: directives in configurations.
-/

namespace Fs2.Props

open Fs2.Config

/-! ### Specification -/

/-- Names of variables. -/
def EnvName (n : Str) : Prop :=
  ∃ c r, n = c :: r ∧ c ∈ "ABCDEFGHIJKLMNOPQRSTUVWXYZabcdefghijklmnopqrstuvwxyz_".toList ∧
    ∀ x ∈ r, x ∈ "ABCDEFGHIJKLMNOPQRSTUVWXYZabcdefghijklmnopqrstuvwxyz_0123456789".toList

/-- A text that refers to a variable, with a default or without. -/
inductive EnvRef : Str → Str → Option Str → Prop where
  | plain (n : Str) : EnvName n → EnvRef ("${env:".toList ++ n ++ ['}']) n none
  | dflt (n d : Str) : EnvName n → '}' ∉ d → EnvRef ("${env:".toList ++ n ++ ':' :: (d ++ ['}'])) n (some d)

/-- A text with its references, from left to right, replaced by what the environment or the default says. -/
inductive Expands (env : Str → Option Str) : Str → Str → Prop where
  | nil : Expands env [] []
  | ref (t n s out v : Str) (d : Option Str) : EnvRef t n d →
      (env n = some v ∨ env n = none ∧ (d = some v ∨ d = none ∧ v = [])) →
      Expands env s out → Expands env (t ++ s) (v ++ out)
  | char (c : Char) (s out : Str) : (¬ ∃ t n d, EnvRef t n d ∧ t <+: c :: s) →
      Expands env s out → Expands env (c :: s) (c :: out)

/-- A text with all occurrences of `pat`, from left to right, replaced. -/
inductive Replaces (pat by' : Str) : Str → Str → Prop where
  | nil : Replaces pat by' [] []
  | hit (s out : Str) : Replaces pat by' s out → Replaces pat by' (pat ++ s) (by' ++ out)
  | char (c : Char) (s out : Str) : ¬ pat <+: c :: s → Replaces pat by' s out → Replaces pat by' (c :: s) (c :: out)

/-- A step into a value: the value of a key, or the element at an index. -/
inductive Into where
  | key (k : Key)
  | idx (i : Nat)

/-- The value at a place. -/
def placed : List Into → Val → Option Val
  | [], v => some v
  | .key k :: p, .map es => (lookup k es).bind (placed p)
  | .idx i :: p, .list l => l[i]?.bind (placed p)
  | _ :: _, _ => none

/-- Directives that give strings for strings. -/
def TextOnly (ds : List Directive) : Prop := ∀ d ∈ ds, ∀ s, ∃ s', d s = some (.str s')

/-! ### Lemmas on texts -/

private theorem dropPrefix_iff {p s r : Str} : dropPrefix p s = some r ↔ s = p ++ r := by
  induction p generalizing s with
  | nil => simp [dropPrefix]
  | cons a p ih =>
    cases s with
    | nil => simp [dropPrefix]
    | cons c s =>
      rw [dropPrefix]
      by_cases h : a = c
      · subst h; rw [if_pos rfl, ih]; simp
      · rw [if_neg h]
        simp only [List.cons_append, List.cons.injEq]
        constructor
        · intro hc; cases hc
        · intro hc; exact (h hc.1.symm).elim

private theorem char_cases (c : Char) (P : Char → Prop) [DecidablePred P]
    (h : ∀ n : Fin 128, P (Char.ofNat n.val)) (hc : c.toNat < 128) : P c := by
  have := h ⟨c.toNat, hc⟩
  simpa using this

private theorem nameStart_iff (c : Char) :
    isNameStart c = true ↔ c ∈ "ABCDEFGHIJKLMNOPQRSTUVWXYZabcdefghijklmnopqrstuvwxyz_".toList := by
  by_cases hc : c.toNat < 128
  · exact char_cases c (fun c => isNameStart c = true ↔
      c ∈ "ABCDEFGHIJKLMNOPQRSTUVWXYZabcdefghijklmnopqrstuvwxyz_".toList) (by decide +kernel) hc
  · constructor
    · intro h
      exfalso
      simp only [isNameStart, Bool.decide_or, Bool.decide_and, Bool.or_eq_true, Bool.and_eq_true,
        decide_eq_true_eq] at h
      have hz : ('Z' : Char).toNat = 90 := rfl
      have hz' : ('z' : Char).toNat = 122 := rfl
      rcases h with h | h | h
      · have : c.toNat ≤ 90 := h.2; omega
      · have : c.toNat ≤ 122 := h.2; omega
      · subst h; exact hc (by decide)
    · intro h
      exfalso
      have : ∀ x ∈ "ABCDEFGHIJKLMNOPQRSTUVWXYZabcdefghijklmnopqrstuvwxyz_".toList, x.toNat < 128 := by decide
      exact hc (this c h)

private theorem nameChar_iff (c : Char) :
    isNameChar c = true ↔ c ∈ "ABCDEFGHIJKLMNOPQRSTUVWXYZabcdefghijklmnopqrstuvwxyz_0123456789".toList := by
  by_cases hc : c.toNat < 128
  · exact char_cases c (fun c => isNameChar c = true ↔
      c ∈ "ABCDEFGHIJKLMNOPQRSTUVWXYZabcdefghijklmnopqrstuvwxyz_0123456789".toList) (by decide +kernel) hc
  · constructor
    · intro h
      exfalso
      unfold isNameChar at h
      rw [decide_eq_true_eq] at h
      rcases h with h | h
      · have := (nameStart_iff c).1 h
        have hall : ∀ x ∈ "ABCDEFGHIJKLMNOPQRSTUVWXYZabcdefghijklmnopqrstuvwxyz_".toList, x.toNat < 128 := by decide
        exact hc (hall c this)
      · have : c.toNat ≤ 57 := h.2; omega
    · intro h
      exfalso
      have : ∀ x ∈ "ABCDEFGHIJKLMNOPQRSTUVWXYZabcdefghijklmnopqrstuvwxyz_0123456789".toList, x.toNat < 128 := by
        decide
      exact hc (this c h)

private theorem envName_iff (n : Str) :
    EnvName n ↔ ∃ c r, n = c :: r ∧ isNameStart c = true ∧ ∀ x ∈ r, isNameChar x = true := by
  unfold EnvName
  constructor
  · rintro ⟨c, r, h, h1, h2⟩; exact ⟨c, r, h, (nameStart_iff c).2 h1, fun x hx => (nameChar_iff x).2 (h2 x hx)⟩
  · rintro ⟨c, r, h, h1, h2⟩; exact ⟨c, r, h, (nameStart_iff c).1 h1, fun x hx => (nameChar_iff x).1 (h2 x hx)⟩

private theorem while_append {p : Char → Bool} {a : Str} {c : Char} {s : Str} (ha : ∀ x ∈ a, p x = true)
    (hc : p c = false) :
    (a ++ c :: s).takeWhile p = a ∧ (a ++ c :: s).dropWhile p = c :: s := by
  induction a with
  | nil => simp [hc]
  | cons x a ih =>
    have := ih fun y hy => ha y (by simp [hy])
    rw [List.cons_append, List.takeWhile_cons, List.dropWhile_cons, if_pos (ha x (by simp)),
      if_pos (ha x (by simp)), this.1, this.2]
    exact ⟨rfl, rfl⟩

private theorem matchRef_complete {t n : Str} {d : Option Str} (h : EnvRef t n d) (r : Str) :
    matchRef (t ++ r) = some (n, d, r) := by
  cases h with
  | plain n hn =>
    obtain ⟨c, r', rfl, h1, h2⟩ := (envName_iff n).1 hn
    have hs : dropPrefix "${env:".toList ("${env:".toList ++ (c :: r') ++ ['}'] ++ r) =
        some (c :: (r' ++ '}' :: r)) := dropPrefix_iff.2 (by simp)
    have hw := while_append (c := '}') (s := r) h2 (by decide)
    unfold matchRef
    rw [hs]
    simp only [Option.bind_eq_bind, Option.bind_some, h1, if_true, hw.1, hw.2]
  | dflt n d' hn hd =>
    obtain ⟨c, r', rfl, h1, h2⟩ := (envName_iff n).1 hn
    have hs : dropPrefix "${env:".toList ("${env:".toList ++ (c :: r') ++ ':' :: (d' ++ ['}']) ++ r) =
        some (c :: (r' ++ ':' :: (d' ++ '}' :: r))) := dropPrefix_iff.2 (by simp)
    have hw := while_append (c := ':') (s := d' ++ '}' :: r) h2 (by decide)
    have hw2 := while_append (p := fun x => decide (x ≠ '}')) (a := d') (c := '}') (s := r)
      (fun x hx => by simp only [decide_eq_true_eq]; intro e; subst e; exact hd hx) (by decide)
    unfold matchRef
    rw [hs]
    simp only [Option.bind_eq_bind, Option.bind_some, h1, if_true, hw.1, hw.2, hw2.1, hw2.2]

private theorem takeWhile_all {p : Char → Bool} (s : Str) : ∀ x ∈ s.takeWhile p, p x = true := by
  induction s with
  | nil => simp
  | cons c s ih =>
    rw [List.takeWhile_cons]
    split
    · rename_i h
      intro x hx
      rcases List.mem_cons.1 hx with rfl | hx
      · exact h
      · exact ih x hx
    · simp

private theorem dropWhile_head {p : Char → Bool} {s r : Str} {c : Char} (h : s.dropWhile p = c :: r) :
    p c = false := by
  induction s with
  | nil => cases h
  | cons x s ih =>
    rw [List.dropWhile_cons] at h
    split at h
    · exact ih h
    · rename_i hx
      cases h
      simpa using hx

private theorem matchRef_sound {s n r : Str} {d : Option Str} (h : matchRef s = some (n, d, r)) :
    ∃ t, EnvRef t n d ∧ s = t ++ r := by
  unfold matchRef at h
  cases hd : dropPrefix "${env:".toList s with
  | none => rw [hd] at h; cases h
  | some u =>
    have hs := dropPrefix_iff.1 hd
    rw [hd] at h
    simp only [Option.bind_eq_bind, Option.bind_some] at h
    cases u with
    | nil => cases h
    | cons c u =>
      simp only at h
      split at h
      · rename_i hc
        have hu := (List.takeWhile_append_dropWhile (p := isNameChar) (l := u)).symm
        have hn : EnvName (c :: u.takeWhile isNameChar) :=
          (envName_iff _).2 ⟨c, _, rfl, hc, takeWhile_all u⟩
        split at h
        · rename_i r' hr'
          cases h
          refine ⟨_, .plain _ hn, ?_⟩
          rw [hs]
          simp only [List.cons_append, List.append_assoc, List.append_cancel_left_eq, List.cons.injEq, true_and,
            List.nil_append]
          rw [← hr']; exact hu
        · rename_i r' hr'
          split at h
          · rename_i x r'' hr''
            have hx : x = '}' := by
              have := dropWhile_head hr''
              simpa using this
            subst hx
            cases h
            refine ⟨_, .dflt _ _ hn ?_, ?_⟩
            · intro hm
              have := takeWhile_all r' _ hm
              simp at this
            · rw [hs]
              simp only [List.cons_append, List.append_assoc, List.append_cancel_left_eq, List.cons.injEq, true_and,
                List.nil_append]
              have h2 := (List.takeWhile_append_dropWhile (p := fun c => decide (c ≠ '}')) (l := r')).symm
              rw [hr''] at h2
              rw [hr'] at hu
              rw [← h2]; exact hu
          · cases h
        · cases h
      · cases h

private theorem replaceEnv_cons (env : Str → Option Str) (c : Char) (s : Str) :
    replaceEnv env (c :: s) =
      match matchRef (c :: s) with
      | some (name, dflt, r) => refValue env name dflt ++ replaceEnv env r
      | none => c :: replaceEnv env s := by
  rw [replaceEnv]
  split <;> rename_i h <;> simp only [h]

private theorem replaceAll_cons (pat by' : Str) (hp : pat ≠ []) (c : Char) (s : Str) :
    replaceAll pat by' (c :: s) =
      match dropPrefix pat (c :: s) with
      | some r => by' ++ replaceAll pat by' r
      | none => c :: replaceAll pat by' s := by
  rw [replaceAll]
  split <;> rename_i h <;> simp only [h, hp, dite_false]

private theorem refValue_iff (env : Str → Option Str) (n v : Str) (d : Option Str) :
    (env n = some v ∨ env n = none ∧ (d = some v ∨ d = none ∧ v = [])) ↔ refValue env n d = v := by
  unfold refValue
  cases env n with
  | some x => simp
  | none =>
    cases d with
    | some x => simp
    | none => simp [eq_comm]

private theorem envRef_ne {t n : Str} {d : Option Str} (h : EnvRef t n d) : t ≠ [] := by
  cases h <;> simp

/-! ### C82 -/

/-- **References to the environment.** All references, found from left to right, are replaced by the value of the
variable, by the default if there is no such variable, and by nothing if there is no default either; the rest
of the text stays, and values are not searched for references. -/
theorem C82_env (env : Str → Option Str) (s out : Str) : Expands env s out ↔ replaceEnv env s = out := by
  constructor
  · intro h
    induction h with
    | nil => rw [replaceEnv]
    | ref t n s out v d hr hv _ ih =>
      obtain ⟨c, t', ht⟩ := List.exists_cons_of_ne_nil (envRef_ne hr)
      have hm := matchRef_complete hr s
      rw [ht, List.cons_append] at hm ⊢
      rw [replaceEnv_cons, hm]
      simp only [ih, (refValue_iff env n v d).1 hv]
    | char c s out hno _ ih =>
      rw [replaceEnv_cons]
      cases hm : matchRef (c :: s) with
      | none => simp only [ih]
      | some m =>
        obtain ⟨n, d, r⟩ := m
        obtain ⟨t, ht, hs⟩ := matchRef_sound hm
        exact (hno ⟨t, n, d, ht, ⟨r, hs.symm⟩⟩).elim
  · intro h
    subst h
    have : ∀ k s, s.length ≤ k → Expands env s (replaceEnv env s) := by
      intro k
      induction k with
      | zero =>
        intro s hs
        cases s with
        | nil => rw [replaceEnv]; exact .nil
        | cons c s => simp at hs
      | succ k ih =>
        intro s hs
        cases s with
        | nil => rw [replaceEnv]; exact .nil
        | cons c s =>
          rw [replaceEnv_cons]
          cases hm : matchRef (c :: s) with
          | none =>
            refine .char c s _ ?_ (ih s (by simpa using hs))
            rintro ⟨t, n, d, ht, r, hr⟩
            rw [← hr, matchRef_complete ht r] at hm
            cases hm
          | some m =>
            obtain ⟨n, d, r⟩ := m
            obtain ⟨t, ht, hs'⟩ := matchRef_sound hm
            have hlen := matchRef_length hm
            rw [hs']
            refine .ref t n r _ _ d ht ((refValue_iff env n _ d).2 rfl) (ih r ?_)
            simp only [List.length_cons] at hlen hs
            omega
    exact this _ s (Nat.le_refl _)

/-- The text `a${env:X}`, and what it gives where `X` is `${env:Y}`. -/
example : EnvRef "${env:X}".toList "X".toList none ∧
    Expands (fun _ => some "${env:Y}".toList) ("${env:X}".toList ++ []) ("${env:Y}".toList ++ []) := by
  have h : EnvRef "${env:X}".toList "X".toList none := .plain ['X'] ⟨'X', [], rfl, by decide, by simp⟩
  exact ⟨h, .ref _ _ _ _ _ _ h (.inl rfl) .nil⟩

/-- A text in which no reference begins anywhere stays as it is. -/
theorem C82_plain (env : Str → Option Str) (s : Str) (h : ∀ t n d, EnvRef t n d → ¬ t <:+: s) :
    replaceEnv env s = s := by
  rw [← C82_env]
  induction s with
  | nil => exact .nil
  | cons c s ih =>
    refine .char c s s ?_ (ih fun t n d ht hc => h t n d ht ?_)
    · rintro ⟨t, n, d, ht, hp⟩
      exact h t n d ht hp.isInfix
    · obtain ⟨a, b, hab⟩ := hc
      exact ⟨c :: a, b, by rw [← hab]; rfl⟩

/-- `"abc"`: a reference has a `$`. -/
example : ∀ t n d, EnvRef t n d → ¬ t <:+: "abc".toList := by
  intro t n d h hc
  have : '$' ∈ t := by cases h <;> simp
  exact absurd (hc.subset this) (by decide)

/-- **The directory of the file.** All occurrences of `${dir}`, found from left to right, are replaced. -/
theorem C82_dir (path s out : Str) :
    Replaces "${dir}".toList path s out ↔ replaceAll "${dir}".toList path s = out := by
  have hp : "${dir}".toList ≠ [] := by decide
  constructor
  · intro h
    induction h with
    | nil => rw [replaceAll]
    | hit s out _ ih =>
      have hd : dropPrefix "${dir}".toList ("${dir}".toList ++ s) = some s := dropPrefix_iff.2 rfl
      have e : "${dir}".toList ++ s = '$' :: ("{dir}".toList ++ s) := rfl
      rw [e] at hd ⊢
      rw [replaceAll_cons _ _ hp, hd]
      simp only [ih]
    | char c s out hno _ ih =>
      rw [replaceAll_cons _ _ hp]
      cases hm : dropPrefix "${dir}".toList (c :: s) with
      | none => simp only [ih]
      | some r => exact (hno ⟨r, (dropPrefix_iff.1 hm).symm⟩).elim
  · intro h
    subst h
    have : ∀ k s, s.length ≤ k → Replaces "${dir}".toList path s (replaceAll "${dir}".toList path s) := by
      intro k
      induction k with
      | zero =>
        intro s hs
        cases s with
        | nil => rw [replaceAll]; exact .nil
        | cons c s => simp at hs
      | succ k ih =>
        intro s hs
        cases s with
        | nil => rw [replaceAll]; exact .nil
        | cons c s =>
          rw [replaceAll_cons _ _ hp]
          cases hm : dropPrefix "${dir}".toList (c :: s) with
          | none =>
            refine .char c s _ ?_ (ih s (by simpa using hs))
            rintro ⟨r, hr⟩
            rw [← hr, dropPrefix_iff.2 rfl] at hm
            cases hm
          | some r =>
            have hlen := dropPrefix_length hm
            rw [dropPrefix_iff.1 hm]
            refine .hit r _ (ih r ?_)
            have : "${dir}".toList.length = 6 := rfl
            simp only [List.length_cons] at hlen hs
            omega
    exact this _ s (Nat.le_refl _)

/-! #### Processing -/

private theorem processList_get (ds : List Directive) (l out : List Val) (h : processList ds l = some out) (i : Nat) :
    (l[i]? = none ∧ out[i]? = none) ∨ ∃ v v', l[i]? = some v ∧ out[i]? = some v' ∧ processVal ds v = some v' := by
  induction l generalizing out i with
  | nil => rw [processList] at h; cases h; exact .inl ⟨by simp, by simp⟩
  | cons v l ih =>
    rw [processList] at h
    cases hv : processVal ds v with
    | none => rw [hv] at h; cases h
    | some v' =>
      cases hl : processList ds l with
      | none => rw [hv, hl] at h; cases h
      | some l' =>
        rw [hv, hl] at h; cases h
        cases i with
        | zero => exact .inr ⟨v, v', rfl, rfl, hv⟩
        | succ i => simpa using ih l' hl i

private theorem processEntries_get (ds : List Directive) (es out : Entries) (h : processEntries ds es = some out)
    (k : Key) :
    (lookup k es = none ∧ lookup k out = none) ∨
      ∃ v v', lookup k es = some v ∧ lookup k out = some v' ∧ processVal ds v = some v' := by
  induction es generalizing out with
  | nil => rw [processEntries] at h; cases h; exact .inl ⟨rfl, rfl⟩
  | cons e es ih =>
    obtain ⟨a, v⟩ := e
    rw [processEntries] at h
    cases hv : processVal ds v with
    | none => rw [hv] at h; cases h
    | some v' =>
      cases hl : processEntries ds es with
      | none => rw [hv, hl] at h; cases h
      | some l' =>
        rw [hv, hl] at h; cases h
        by_cases hk : a = k
        · exact .inr ⟨v, v', by simp [lookup, hk], by simp [lookup, hk], hv⟩
        · simpa [lookup, hk] using ih l' hl

theorem run_text (ds : List Directive) (ht : TextOnly ds) (s : String) :
    ∃ s', runDirectives ds s = some (.str s') := by
  induction ds generalizing s with
  | nil => exact ⟨s, rfl⟩
  | cons d ds ih =>
    obtain ⟨s', hs⟩ := ht d (by simp) s
    rw [runDirectives, hs]
    exact ih (fun d hd => ht d (by simp [hd])) s'

mutual

theorem process_total (ds : List Directive) (ht : TextOnly ds) (v : Val) :
    ∃ v', processVal ds v = some v' := by
  cases v with
  | null => exact ⟨_, by rw [processVal]⟩
  | num n => exact ⟨_, by rw [processVal]⟩
  | str s => obtain ⟨s', h⟩ := run_text ds ht s; exact ⟨_, by rw [processVal]; exact h⟩
  | list l => obtain ⟨l', h⟩ := process_total_list ds ht l; exact ⟨.list l', by rw [processVal, h]; rfl⟩
  | map es => obtain ⟨l', h⟩ := process_total_entries ds ht es; exact ⟨.map l', by rw [processVal, h]; rfl⟩

theorem process_total_list (ds : List Directive) (ht : TextOnly ds) (l : List Val) :
    ∃ l', processList ds l = some l' := by
  cases l with
  | nil => exact ⟨_, by rw [processList]⟩
  | cons v l =>
    obtain ⟨v', hv⟩ := process_total ds ht v
    obtain ⟨l', hl⟩ := process_total_list ds ht l
    exact ⟨v' :: l', by rw [processList, hv, hl]; rfl⟩

theorem process_total_entries (ds : List Directive) (ht : TextOnly ds) (es : Entries) :
    ∃ l', processEntries ds es = some l' := by
  cases es with
  | nil => exact ⟨_, by rw [processEntries]⟩
  | cons e es =>
    obtain ⟨k, v⟩ := e
    obtain ⟨v', hv⟩ := process_total ds ht v
    obtain ⟨l', hl⟩ := process_total_entries ds ht es
    exact ⟨(k, v') :: l', by rw [processEntries, hv, hl]; rfl⟩

end

private theorem process_id (v : Val) : processVal [] v = some v :=
  Val.rec (motive_1 := fun v => processVal [] v = some v)
    (motive_2 := fun l => processList [] l = some l) (motive_3 := fun es => processEntries [] es = some es)
    (motive_4 := fun e => processVal [] e.2 = some e.2)
    (by rw [processVal]) (fun s => by rw [processVal]; rfl) (fun n => by rw [processVal])
    (fun l h => by rw [processVal, h]; rfl) (fun l h => by rw [processVal, h]; rfl)
    (by rw [processList]) (fun v l h1 h2 => by rw [processList, h1, h2]; rfl)
    (by rw [processEntries])
    (fun e l h1 h2 => by obtain ⟨k, v⟩ := e; rw [processEntries]; simp only at h1; rw [h1, h2]; rfl)
    (fun k v h => h) v

theorem process_some (defaults ds : List Directive) (ht : TextOnly (defaults ++ ds)) (v : Val) :
    ∃ v', process defaults ds v = some v' ∧ processVal (defaults ++ ds) v = some v' := by
  unfold process
  by_cases h : defaults.isEmpty ∧ ds.isEmpty
  · have h1 : defaults = [] := by simpa using h.1
    have h2 : ds = [] := by simpa using h.2
    subst h1 h2
    exact ⟨v, rfl, process_id v⟩
  · obtain ⟨v', hv⟩ := process_total _ ht v
    exact ⟨v', by rw [if_neg h]; exact hv, hv⟩

theorem placed_process (ds : List Directive) (p : List Into) (v v' : Val) (ht : TextOnly ds)
    (h : processVal ds v = some v') :
    (placed p v = none ∧ placed p v' = none) ∨
      ∃ x x', placed p v = some x ∧ placed p v' = some x' ∧ processVal ds x = some x' := by
  induction p generalizing v v' with
  | nil => exact .inr ⟨v, v', rfl, rfl, h⟩
  | cons st p ih =>
    cases v with
    | null => rw [processVal] at h; cases h; exact .inl ⟨by cases st <;> rfl, by cases st <;> rfl⟩
    | num n => rw [processVal] at h; cases h; exact .inl ⟨by cases st <;> rfl, by cases st <;> rfl⟩
    | str s =>
      rw [processVal] at h
      obtain ⟨s', hs⟩ := run_text ds ht s
      rw [hs] at h; cases h
      exact .inl ⟨by cases st <;> rfl, by cases st <;> rfl⟩
    | list l =>
      rw [processVal] at h
      cases hl : processList ds l with
      | none => rw [hl] at h; cases h
      | some l' =>
        rw [hl] at h; cases h
        cases st with
        | key k => exact .inl ⟨rfl, rfl⟩
        | idx i =>
          rcases processList_get ds l l' hl i with ⟨h1, h2⟩ | ⟨x, x', h1, h2, h3⟩
          · exact .inl ⟨by simp [placed, h1], by simp [placed, h2]⟩
          · simpa [placed, h1, h2] using ih x x' h3
    | map es =>
      rw [processVal] at h
      cases hl : processEntries ds es with
      | none => rw [hl] at h; cases h
      | some l' =>
        rw [hl] at h; cases h
        cases st with
        | idx i => exact .inl ⟨rfl, rfl⟩
        | key k =>
          rcases processEntries_get ds es l' hl k with ⟨h1, h2⟩ | ⟨x, x', h1, h2, h3⟩
          · exact .inl ⟨by simp [placed, h1], by simp [placed, h2]⟩
          · simpa [placed, h1, h2] using ih x x' h3

/-- The strings that directives make of a string, one after the other. -/
def Chain : List Directive → String → String → Prop
  | [], s, s' => s' = s
  | d :: ds, s, s' => ∃ m, d s = some (.str m) ∧ Chain ds m s'

theorem run_chain (ds : List Directive) (ht : TextOnly ds) (s s' : String) :
    runDirectives ds s = some (.str s') ↔ Chain ds s s' := by
  induction ds generalizing s with
  | nil => simp [runDirectives, Chain, eq_comm]
  | cons d ds ih =>
    obtain ⟨m, hm⟩ := ht d (by simp) s
    rw [runDirectives, hm, Chain]
    simp only [hm]
    rw [ih fun d hd => ht d (by simp [hd])]
    constructor
    · intro h; exact ⟨m, rfl, h⟩
    · rintro ⟨m', h1, h2⟩
      cases h1
      exact h2

/-- One of the directives, applied in turn, fails on a text. -/
inductive Breaks : List Directive → String → Prop
  | here (d : Directive) (ds : List Directive) (s : String) (h : d s = none) : Breaks (d :: ds) s
  | later (d : Directive) (ds : List Directive) (s s' : String) (h : d s = some (.str s')) (hr : Breaks ds s') :
      Breaks (d :: ds) s

private theorem run_breaks {ds : List Directive} {s : String} (h : Breaks ds s) : runDirectives ds s = none := by
  induction h with
  | here d ds s h => rw [runDirectives, h]
  | later d ds s s' h _ ih => rw [runDirectives, h]; exact ih

private theorem processList_none (ds : List Directive) : ∀ (l : List Val) (x : Val), x ∈ l → processVal ds x = none →
    processList ds l = none
  | v :: l, x, hx, h => by
    rw [processList]
    rcases List.mem_cons.1 hx with rfl | hx
    · rw [h]; rfl
    · rw [processList_none ds l x hx h]
      cases processVal ds v <;> rfl

private theorem processEntries_none (ds : List Directive) : ∀ (es : Entries) (k : Key) (x : Val), lookup k es = some x →
    processVal ds x = none → processEntries ds es = none
  | [], k, x, hx, _ => by simp [lookup] at hx
  | (k', v) :: es, k, x, hx, h => by
    rw [processEntries]
    by_cases hk : processVal ds v = none
    · rw [hk]; rfl
    · have : lookup k es = some x := by
        simp only [lookup] at hx ⊢
        split at hx
        · cases hx; exact absurd h hk
        · exact hx
      rw [processEntries_none ds es k x this h]
      cases processVal ds v <;> rfl

private theorem placed_none (ds : List Directive) : ∀ (p : List Into) (v x : Val), placed p v = some x →
    processVal ds x = none → processVal ds v = none
  | [], v, x, h, hx => by simp only [placed, Option.some.injEq] at h; rw [h]; exact hx
  | .key k :: p, .map es, x, h, hx => by
    simp only [placed] at h
    obtain ⟨y, h1, h2⟩ := Option.bind_eq_some_iff.1 h
    rw [processVal, processEntries_none ds es k y h1 (placed_none ds p y x h2 hx)]
    rfl
  | .idx i :: p, .list l, x, h, hx => by
    simp only [placed] at h
    obtain ⟨y, h1, h2⟩ := Option.bind_eq_some_iff.1 h
    rw [processVal, processList_none ds l y (List.mem_of_getElem? h1) (placed_none ds p y x h2 hx)]
    rfl
  | .key _ :: _, .list _, _, h, _ => by cases h
  | .key _ :: _, .str _, _, h, _ => by cases h
  | .key _ :: _, .num _, _, h, _ => by cases h
  | .key _ :: _, .null, _, h, _ => by cases h
  | .idx _ :: _, .map _, _, h, _ => by cases h
  | .idx _ :: _, .str _, _, h, _ => by cases h
  | .idx _ :: _, .num _, _, h, _ => by cases h
  | .idx _ :: _, .null, _, h, _ => by cases h

/-- **Errors are not swallowed.** If a directive fails on a string at any place, processing fails. -/
theorem C82_fails (defaults ds : List Directive) (v : Val) (p : List Into) (s : String)
    (hp : placed p v = some (.str s)) (h : Breaks (defaults ++ ds) s) : process defaults ds v = none := by
  have hne : ¬ (defaults.isEmpty ∧ ds.isEmpty) := by
    rintro ⟨h1, h2⟩
    rw [List.isEmpty_iff] at h1 h2
    subst h1 h2
    cases h
  unfold process
  rw [if_neg hne]
  exact placed_none _ p v _ hp (by rw [processVal]; exact run_breaks h)

example : Breaks [fun s => some (.str (s ++ "!")), fun s => if s = "a!" then none else some (.str s)] "a" :=
  .later _ _ _ "a!" rfl (.here _ _ _ rfl)

/-- **Only strings change.** Processing never fails with directives that give strings; at every place that holds a
string, however deep, it puts what the default directives and then the given ones make of it; numbers and nulls stay;
no place, and so no key, comes or goes. -/
theorem C82_process (defaults ds : List Directive) (ht : TextOnly (defaults ++ ds)) (v : Val) :
    ∃ v', process defaults ds v = some v' ∧ ∀ p,
      (∀ s, placed p v = some (.str s) → ∃ s', placed p v' = some (.str s') ∧ Chain (defaults ++ ds) s s') ∧
      (∀ x, placed p v = some x → x = .null ∨ (∃ n, x = .num n) → placed p v' = some x) ∧
      (placed p v = none ↔ placed p v' = none) := by
  have key := process_some defaults ds ht v
  obtain ⟨v', h1, h2⟩ := key
  refine ⟨v', h1, fun p => ?_⟩
  rcases placed_process _ p v v' ht h2 with ⟨e1, e2⟩ | ⟨x, x', e1, e2, e3⟩
  · rw [e1, e2]
    exact ⟨nofun, nofun, Iff.rfl⟩
  · rw [e1, e2]
    refine ⟨fun s hs => ?_, fun y hy hn => ?_, by simp⟩
    · cases hs
      rw [processVal] at e3
      obtain ⟨s', hs'⟩ := run_text _ ht s
      rw [hs'] at e3; cases e3
      exact ⟨s', rfl, (run_chain _ ht s s').1 hs'⟩
    · cases hy
      rcases hn with rfl | ⟨n, rfl⟩
      · rw [processVal] at e3; exact e3.symm
      · rw [processVal] at e3; exact e3.symm

/-- The two directives there are. -/
example (env : Str → Option Str) (dir : Str) : TextOnly ([envDirective env] ++ [pathDirective dir]) := by
  intro d hd s
  simp only [List.cons_append, List.nil_append, List.mem_cons, List.not_mem_nil, or_false] at hd
  rcases hd with rfl | rfl <;> exact ⟨_, rfl⟩

end Fs2.Props
