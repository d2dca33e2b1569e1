import Verif.Pipeline.Spec

/-!
# Helper lemmas about streams, indistinguishable states and shared loops
-/

namespace Fs2

theorem raised_nil {rs : List Res} (h : raised rs = []) (he : ∀ r ∈ rs, r ≠ .eod) :
    rs = (yielded rs).map .yield := by
  induction rs with
  | nil => rfl
  | cons r rs ih =>
    cases r with
    | yield x =>
      have := ih h (fun r hr => he r (by simp [hr]))
      simp [yielded, ← this]
    | eod => exact absurd rfl (he .eod (by simp))
    | err e => simp [raised] at h

namespace Source

variable {S : Source}

theorem Emits.cons_inv {s s'' : S.σ} {x : Data} {xs : List Data} (h : S.Emits s (x :: xs) s'') :
    ∃ s', S.next s = some (.yield x, s') ∧ S.Emits s' xs s'' := by
  cases h with
  | cons a b => exact ⟨_, a, b⟩

theorem Emits.append {s s' s'' : S.σ} {xs ys : List Data}
    (h : S.Emits s xs s') (h' : S.Emits s' ys s'') : S.Emits s (xs ++ ys) s'' := by
  induction h with
  | nil => exact h'
  | cons hn _ ih => exact .cons hn (ih h')

theorem Emits.snoc {s s' s'' : S.σ} {xs : List Data} {x : Data}
    (h : S.Emits s xs s') (h' : S.next s' = some (.yield x, s'')) :
    S.Emits s (xs ++ [x]) s'' := h.append (.cons h' (.nil _))

theorem Emits.split {s s'' : S.σ} {xs ys : List Data}
    (h : S.Emits s (xs ++ ys) s'') : ∃ s', S.Emits s xs s' ∧ S.Emits s' ys s'' := by
  induction xs generalizing s with
  | nil => exact ⟨s, .nil s, h⟩
  | cons x xs ih =>
    cases h with
    | cons hn h =>
      obtain ⟨s', h1, h2⟩ := ih h
      exact ⟨s', .cons hn h1, h2⟩

theorem Emits.nil_inv {s s' : S.σ} (h : S.Emits s [] s') : s' = s := by
  cases h
  rfl

theorem Emits.snoc_inv {s s'' : S.σ} {xs : List Data} {x : Data}
    (h : S.Emits s (xs ++ [x]) s'') :
    ∃ s', S.Emits s xs s' ∧ S.next s' = some (.yield x, s'') := by
  obtain ⟨s', h1, h2⟩ := h.split
  obtain ⟨t, h3, h4⟩ := h2.cons_inv
  cases h4
  exact ⟨s', h1, h3⟩

theorem Emits.det {s s₁ s₂ : S.σ} {xs : List Data}
    (h : S.Emits s xs s₁) (h' : S.Emits s xs s₂) : s₁ = s₂ := by
  induction h with
  | nil => cases h'; rfl
  | cons hn _ ih =>
    cases h' with
    | cons hn' h' =>
      rw [hn] at hn'
      cases hn'
      exact ih h'

theorem Ended.next {s : S.σ} (h : S.Ended s) : ∃ s', S.next s = some (.eod, s') ∧ S.Ended s' := by
  obtain ⟨P, hs, hP⟩ := h
  obtain ⟨s', hn, hs'⟩ := hP s hs
  exact ⟨s', hn, P, hs', hP⟩

/-- Coinduction for `Ended`. -/
theorem Ended.coind {s : S.σ} (P : S.σ → Prop) (hs : P s)
    (h : ∀ t, P t → ∃ t', S.next t = some (.eod, t') ∧ P t') : S.Ended s := ⟨P, hs, h⟩

theorem Ended.of_next {s s' : S.σ} (h : S.next s = some (.eod, s')) (h' : S.Ended s') :
    S.Ended s :=
  .coind (fun t => t = s ∨ S.Ended t) (.inl rfl) (by
    rintro t (rfl | ht)
    · exact ⟨s', h, .inr h'⟩
    · obtain ⟨t', h1, h2⟩ := ht.next
      exact ⟨t', h1, .inr h2⟩)

theorem Yields.cons {s s' : S.σ} {x : Data} {xs : List Data}
    (h : S.next s = some (.yield x, s')) (h' : S.Yields s' xs) : S.Yields s (x :: xs) := by
  obtain ⟨t, h1, h2⟩ := h'
  exact ⟨t, .cons h h1, h2⟩

theorem Yields.nil_of {s s' : S.σ} (h : S.next s = some (.eod, s')) (h' : S.Ended s') :
    S.Yields s [] := ⟨s, .nil s, .of_next h h'⟩

theorem Yields.nil_inv {s : S.σ} (h : S.Yields s []) : S.Ended s := by
  obtain ⟨t, h1, h2⟩ := h
  cases h1
  exact h2

theorem Yields.cons_inv {s : S.σ} {x : Data} {xs : List Data} (h : S.Yields s (x :: xs)) :
    ∃ s', S.next s = some (.yield x, s') ∧ S.Yields s' xs := by
  obtain ⟨t, h1, h2⟩ := h
  cases h1 with
  | cons hn h1 => exact ⟨_, hn, t, h1, h2⟩

theorem Yields.det {s : S.σ} {xs ys : List Data} (h : S.Yields s xs) (h' : S.Yields s ys) :
    xs = ys := by
  induction xs generalizing s ys with
  | nil =>
    obtain ⟨s', hn, _⟩ := h.nil_inv.next
    cases ys with
    | nil => rfl
    | cons y ys =>
      obtain ⟨t, ht, _⟩ := h'.cons_inv
      rw [hn] at ht
      cases ht
  | cons x xs ih =>
    obtain ⟨s', hn, hx⟩ := h.cons_inv
    cases ys with
    | nil =>
      obtain ⟨t, ht, _⟩ := h'.nil_inv.next
      rw [hn] at ht
      cases ht
    | cons y ys =>
      obtain ⟨t, ht, hy⟩ := h'.cons_inv
      rw [hn] at ht
      cases ht
      rw [ih hx hy]

theorem Emits.yields {s s' : S.σ} {xs ys : List Data} (h : S.Emits s xs s')
    (h' : S.Yields s' ys) : S.Yields s (xs ++ ys) := by
  obtain ⟨t, h1, h2⟩ := h'
  exact ⟨t, h.append h1, h2⟩

theorem Yields.split {s : S.σ} {xs ys : List Data} (h : S.Yields s (xs ++ ys)) :
    ∃ s', S.Emits s xs s' ∧ S.Yields s' ys := by
  obtain ⟨t, h1, h2⟩ := h
  obtain ⟨s', h3, h4⟩ := h1.split
  exact ⟨s', h3, t, h4, h2⟩

/-! ## Traces -/

theorem Trace.cons {s s' : S.σ} {r : Res} {rs : List Res} (h : S.next s = some (r, s'))
    (h' : S.Trace s' rs) : S.Trace s (r :: rs) := by
  obtain ⟨t, h1, h2⟩ := h'
  exact ⟨t, .cons h h1, h2⟩

theorem Trace.nil {s : S.σ} (h : S.Ended s) : S.Trace s [] := ⟨s, .nil s, h⟩

theorem Ended.of_next_eq {s t : S.σ} (h : S.next s = S.next t) (h' : S.Ended t) : S.Ended s := by
  obtain ⟨t', h1, h2⟩ := h'.next
  exact .of_next (h.trans h1) h2

/-- A source that answers the next call as if it were in state `t`. -/
theorem Trace.of_next_eq {s t : S.σ} {rs : List Res} (h : S.next s = S.next t)
    (h' : S.Trace t rs) : S.Trace s rs := by
  obtain ⟨t', h1, h2⟩ := h'
  cases h1 with
  | nil => exact .nil (.of_next_eq h h2)
  | cons hn h3 => exact ⟨t', .cons (h.trans hn) h3, h2⟩

theorem Trace.yields {s : S.σ} {xs : List Data} (h : S.Trace s (xs.map .yield)) :
    S.Yields s xs := by
  obtain ⟨t, h1, h2⟩ := h
  refine ⟨t, ?_, h2⟩
  clear h2
  induction xs generalizing s with
  | nil => cases h1; exact .nil _
  | cons x xs ih =>
    cases h1 with
    | cons hn h3 => exact .cons hn (ih h3)

theorem Emits.ex_of_next_eq {s t t' : S.σ} {xs : List Data} (h : S.next s = S.next t)
    (h' : S.Emits t xs t') : ∃ s', S.Emits s xs s' := by
  cases h' with
  | nil => exact ⟨s, .nil s⟩
  | cons hn h3 => exact ⟨t', .cons (h.trans hn) h3⟩

theorem Yields.of_next_eq {s t : S.σ} {xs : List Data} (h : S.next s = S.next t)
    (h' : S.Yields t xs) : S.Yields s xs := by
  cases xs with
  | nil => exact ⟨s, .nil s, .of_next_eq h h'.nil_inv⟩
  | cons x xs =>
    obtain ⟨t', h1, h2⟩ := h'.cons_inv
    exact .cons (h.trans h1) h2

/-! ## Indistinguishable states -/

theorem Same.refl (s : S.σ) : S.Same s s := fun _ => rfl
theorem Same.symm {s t : S.σ} (h : S.Same s t) : S.Same t s := fun ops => (h ops).symm
theorem Same.trans {s t u : S.σ} (h : S.Same s t) (h' : S.Same t u) : S.Same s u :=
  fun ops => (h ops).trans (h' ops)

theorem Same.reset {s t : S.σ} (h : S.Same s t) (b : Bool) :
    S.Same (S.reset b s) (S.reset b t) := fun ops => h (.reset b :: ops)

theorem Same.next {s t s' : S.σ} {r : Res} (h : S.Same s t) (hn : S.next s = some (r, s')) :
    ∃ t', S.next t = some (r, t') ∧ S.Same s' t' := by
  have h0 := h [.next]
  simp only [run, hn] at h0
  cases ht : S.next t with
  | none => simp [ht] at h0
  | some p =>
    obtain ⟨r', t'⟩ := p
    simp only [ht, List.cons.injEq, and_true, Option.some.injEq] at h0
    subst h0
    refine ⟨t', rfl, fun ops => ?_⟩
    have h1 := h (.next :: ops)
    simp only [run, hn, ht, List.cons.injEq, true_and] at h1
    exact h1

theorem Same.next_none {s t : S.σ} (h : S.Same s t) (hn : S.next s = none) : S.next t = none := by
  cases ht : S.next t with
  | none => rfl
  | some p =>
    obtain ⟨r, t'⟩ := p
    obtain ⟨s', hs, _⟩ := h.symm.next ht
    rw [hn] at hs
    cases hs

/-- A relation along which every call of `next()` gives the same result and
related states, and which `reset` preserves. -/
structure IsSim (S : Source) (R : S.σ → S.σ → Prop) : Prop where
  symm : ∀ {s t}, R s t → R t s
  next : ∀ {s t r s'}, R s t → S.next s = some (r, s') → ∃ t', S.next t = some (r, t') ∧ R s' t'
  reset : ∀ {s t} b, R s t → R (S.reset b s) (S.reset b t)

theorem IsSim.same {R : S.σ → S.σ → Prop} (hR : IsSim S R) {s t : S.σ} (h : R s t) :
    S.Same s t := by
  intro ops
  induction ops generalizing s t with
  | nil => rfl
  | cons op ops ih =>
    cases op with
    | reset b => exact ih (hR.reset b h)
    | next =>
      simp only [run]
      cases hs : S.next s with
      | none =>
        cases ht : S.next t with
        | none => rfl
        | some p =>
          obtain ⟨r, t'⟩ := p
          obtain ⟨_, h1, _⟩ := hR.next (hR.symm h) ht
          rw [hs] at h1
          cases h1
      | some p =>
        obtain ⟨r, s'⟩ := p
        obtain ⟨t', ht, h'⟩ := hR.next h hs
        rw [ht]
        simp [ih h']

theorem isSim_same : IsSim S S.Same := ⟨Same.symm, Same.next, fun b h => h.reset b⟩

theorem Same.ended {s t : S.σ} (h : S.Same s t) (he : S.Ended s) : S.Ended t :=
  .coind (fun t => ∃ s, S.Same s t ∧ S.Ended s) ⟨s, h, he⟩ (by
    rintro t ⟨s, h, he⟩
    obtain ⟨s', hn, he'⟩ := he.next
    obtain ⟨t', ht, h'⟩ := h.next hn
    exact ⟨t', ht, s', h', he'⟩)

theorem Same.yields {s t : S.σ} {xs : List Data} (h : S.Same s t) (hy : S.Yields s xs) :
    S.Yields t xs := by
  induction xs generalizing s t with
  | nil =>
    obtain ⟨s', hn, he⟩ := hy.nil_inv.next
    obtain ⟨t', ht, h'⟩ := h.next hn
    exact .nil_of ht (h'.ended he)
  | cons x xs ih =>
    obtain ⟨s', hn, hy'⟩ := hy.cons_inv
    obtain ⟨t', ht, h'⟩ := h.next hn
    exact .cons ht (ih h' hy')

end Source

/-! ## The bounded reading loop -/

section readUpTo
variable {S : Source}

theorem readUpTo_emits {s s' : S.σ} {xs : List Data} (h : S.Emits s xs s') (n : Nat)
    (acc : List Data) :
    readUpTo S.next (xs.length + n) acc s = readUpTo S.next n (acc ++ xs) s' := by
  induction h generalizing acc with
  | nil => simp
  | cons hn _ ih =>
    rw [List.length_cons, show ∀ a b : Nat, a + 1 + b = (a + b) + 1 by omega]
    simp only [readUpTo, hn]
    rw [ih]
    simp

/-- Everything a finished bounded reading loop tells about the source. -/
theorem readUpTo_inv {n : Nat} {acc : List Data} {s s' : S.σ} {b : Batch}
    (h : readUpTo S.next n acc s = some (b, s')) :
    ∃ ys s₁, b.xs = acc ++ ys ∧ S.Emits s ys s₁ ∧
      ((b.ended = false ∧ b.err = none ∧ ys.length = n ∧ s₁ = s') ∨
       (b.ended = true ∧ b.err = none ∧ ys.length < n ∧ S.next s₁ = some (.eod, s')) ∨
       (∃ e, b.ended = false ∧ b.err = some e ∧ ys.length < n ∧
          S.next s₁ = some (.err e, s'))) := by
  induction n generalizing acc s with
  | zero =>
    simp only [readUpTo, Option.some.injEq, Prod.mk.injEq] at h
    obtain ⟨rfl, rfl⟩ := h
    exact ⟨[], s, by simp, .nil s, .inl ⟨rfl, rfl, rfl, rfl⟩⟩
  | succ n ih =>
    simp only [readUpTo] at h
    split at h
    · cases h
    · next x s₂ hn =>
      obtain ⟨ys, s₁, h1, h2, h3⟩ := ih h
      refine ⟨x :: ys, s₁, by simp [h1], .cons hn h2, ?_⟩
      rcases h3 with ⟨a, b, c, d⟩ | ⟨a, b, c, d⟩ | ⟨e, a, b, c, d⟩
      · exact .inl ⟨a, b, by simp [c], d⟩
      · exact .inr (.inl ⟨a, b, by simp only [List.length_cons]; omega, d⟩)
      · exact .inr (.inr ⟨e, a, b, by simp only [List.length_cons]; omega, d⟩)
    · next s₂ hn =>
      simp only [Option.some.injEq, Prod.mk.injEq] at h
      obtain ⟨rfl, rfl⟩ := h
      exact ⟨[], s, by simp, .nil s, .inr (.inl ⟨rfl, rfl, by simp, hn⟩)⟩
    · next e s₂ hn =>
      simp only [Option.some.injEq, Prod.mk.injEq] at h
      obtain ⟨rfl, rfl⟩ := h
      exact ⟨[], s, by simp, .nil s, .inr (.inr ⟨e, rfl, rfl, by simp, hn⟩)⟩

theorem readUpTo_eod {n : Nat} {acc : List Data} {s s' s'' : S.σ} {xs : List Data}
    (h : S.Emits s xs s') (he : S.next s' = some (.eod, s'')) (hn : xs.length < n) :
    readUpTo S.next n acc s = some (⟨acc ++ xs, true, none⟩, s'') := by
  obtain ⟨m, rfl⟩ : ∃ m, n = xs.length + (m + 1) := ⟨n - xs.length - 1, by omega⟩
  rw [readUpTo_emits h]
  simp [readUpTo, he]

theorem readUpTo_full {acc : List Data} {s s' : S.σ} {xs : List Data}
    (h : S.Emits s xs s') :
    readUpTo S.next xs.length acc s = some (⟨acc ++ xs, false, none⟩, s') := by
  have := readUpTo_emits h 0 acc
  simpa [readUpTo] using this

theorem readUpTo_sim {R : S.σ → S.σ → Prop} (hR : Source.IsSim S R) {n : Nat} {acc : List Data}
    {s t s' : S.σ} {b : Batch} (h : R s t) (hs : readUpTo S.next n acc s = some (b, s')) :
    ∃ t', readUpTo S.next n acc t = some (b, t') ∧ R s' t' := by
  induction n generalizing acc s t with
  | zero =>
    simp only [readUpTo, Option.some.injEq, Prod.mk.injEq] at hs
    obtain ⟨rfl, rfl⟩ := hs
    exact ⟨t, rfl, h⟩
  | succ n ih =>
    simp only [readUpTo] at hs
    split at hs
    · cases hs
    · next x s₂ hn =>
      obtain ⟨t₂, ht, h'⟩ := hR.next h hn
      simp only [readUpTo, ht]
      exact ih h' hs
    all_goals
      next hn =>
      obtain ⟨t₂, ht, h'⟩ := hR.next h hn
      simp only [Option.some.injEq, Prod.mk.injEq] at hs
      obtain ⟨rfl, rfl⟩ := hs
      exact ⟨t₂, by simp [readUpTo, ht], h'⟩

end readUpTo

/-! ## Tape round trips -/

theorem readMany_flatMap {α : Type} {rd : Tape → Except Err (α × Tape)} {wr : α → Tape}
    (h : ∀ a rest, rd (wr a ++ rest) = .ok (a, rest)) (xs : List α) (rest : Tape) :
    readMany rd xs.length (xs.flatMap wr ++ rest) = .ok (xs, rest) := by
  induction xs with
  | nil => rfl
  | cons x xs ih => simp [readMany, List.flatMap_cons, List.append_assoc, h, ih]

theorem readVec_recordVec {α : Type} {rd : Tape → Except Err (α × Tape)} {wr : α → Tape}
    (h : ∀ a rest, rd (wr a ++ rest) = .ok (a, rest)) (xs : List α) (rest : Tape) :
    readVec rd (recordVec wr xs ++ rest) = .ok (xs, rest) := by
  simp only [readVec, recordVec, List.cons_append]
  have : readNat (Data.int (xs.length : Int) :: (xs.flatMap wr ++ rest))
      = .ok (xs.length, xs.flatMap wr ++ rest) := rfl
  rw [this]
  exact readMany_flatMap h xs rest

theorem readOpt_recordOpt {α : Type} {rd : Tape → Except Err (α × Tape)} {wr : α → Tape}
    (h : ∀ a rest, rd (wr a ++ rest) = .ok (a, rest)) (x : Option α) (rest : Tape) :
    readOpt rd (recordOpt wr x ++ rest) = .ok (x, rest) := by
  cases x with
  | none => rfl
  | some a => simp [readOpt, recordOpt, readBool, h]

end Fs2
