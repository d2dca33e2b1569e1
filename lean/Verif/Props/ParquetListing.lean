import Verif.Parquet.Listing

/-!
# C76: listing the fragments of a Parquet dataset under limits
-/

namespace Fs2.Props
open Fs2.Parquet

variable {File G R : Type}

/-! ## Specification -/

/-- The number of rows of the fragments. -/
def rowsIn (rowCount : G → Nat) (frags : List G) : Nat := (frags.map rowCount).sum

/-- A limit is reached by the fragments. -/
def LimitReached (lim : Limits) (rowCount : G → Nat) (frags : List G) : Prop :=
  (∃ n, lim.nbFragments = some n ∧ n ≤ frags.length) ∨
  (∃ n, lim.nbRows = some n ∧ n ≤ rowsIn rowCount frags)

/-- The shortest non-empty prefix of `all` that reaches a limit, or all of it. -/
def ShortestReaching (lim : Limits) (rowCount : G → Nat) (all out : List G) : Prop :=
  out <+: all ∧
  (out = all ∨ LimitReached lim rowCount out) ∧
  ∀ short, short <+: out → short ≠ [] → short ≠ out → ¬ LimitReached lim rowCount short

/-! ## Helpers -/

private theorem prefix_cons {α : Type} {x : α} {xs ys : List α} (h : ys <+: x :: xs)
    (hne : ys ≠ []) : ∃ zs, ys = x :: zs ∧ zs <+: xs := by
  cases ys with
  | nil => exact absurd rfl hne
  | cons y ys =>
    obtain ⟨t, ht⟩ := h
    simp only [List.cons_append, List.cons.injEq] at ht
    exact ⟨ys, by rw [ht.1], t, ht.2⟩

/-- The loop with the counters of `pre`, the fragments taken so far. -/
private theorem limitLoop_spec (lim : Limits) (rowCount : G → Nat) (all : List G) :
    ∀ (pre : List G) (rows : Nat), (lim.nbRows.isSome → rows = rowsIn rowCount pre) →
      let out := limitLoop lim rowCount all rows pre.length
      out <+: all ∧ (all ≠ [] → out ≠ []) ∧
      (out = all ∨ LimitReached lim rowCount (pre ++ out)) ∧
      ∀ short, short <+: out → short ≠ [] → short ≠ out →
        ¬ LimitReached lim rowCount (pre ++ short) := by
  induction all with
  | nil =>
    intro pre rows _
    refine ⟨List.prefix_refl _, (fun h => absurd rfl h), .inl rfl, ?_⟩
    intro short h hne
    exact absurd (List.prefix_nil.1 h) hne
  | cons g gs ih =>
    intro pre rows hrows
    have hrows' : lim.nbRows.isSome →
        rows + (if lim.nbRows.isSome = true then rowCount g else 0) =
          rowsIn rowCount (pre ++ [g]) := by
      intro h
      rw [if_pos h, hrows h]
      simp [rowsIn]
    have hlim : (reached lim.nbFragments (pre.length + 1) = true ∨
        reached lim.nbRows (rows + (if lim.nbRows.isSome = true then rowCount g else 0)) = true) ↔
        LimitReached lim rowCount (pre ++ [g]) := by
      unfold LimitReached reached
      constructor
      · rintro (h | h)
        · left
          split at h
          · rename_i n hn
            exact ⟨n, hn, by simpa using h⟩
          · cases h
        · right
          split at h
          · rename_i n hn
            exact ⟨n, hn, by rw [← hrows' (by rw [hn]; rfl)]; simpa using h⟩
          · cases h
      · rintro (⟨n, hn, h⟩ | ⟨n, hn, h⟩)
        · left
          rw [hn]
          simpa using h
        · right
          rw [← hrows' (by rw [hn]; rfl)] at h
          rw [hn] at h ⊢
          simpa using h
    have hstop : ∀ out, out = [g] → LimitReached lim rowCount (pre ++ [g]) →
        out <+: g :: gs ∧ ((g :: gs) ≠ [] → out ≠ []) ∧
        (out = g :: gs ∨ LimitReached lim rowCount (pre ++ out)) ∧
        ∀ short, short <+: out → short ≠ [] → short ≠ out →
          ¬ LimitReached lim rowCount (pre ++ short) := by
      rintro out rfl hr
      refine ⟨⟨gs, rfl⟩, (fun _ => by simp), .inr hr, ?_⟩
      intro short h hne hne'
      obtain ⟨zs, rfl, hz⟩ := prefix_cons h hne
      rw [List.prefix_nil.1 hz] at hne'
      exact absurd rfl hne'
    simp only [limitLoop]
    by_cases h1 : reached lim.nbFragments (pre.length + 1) = true
    · rw [if_pos h1]
      exact hstop _ rfl (hlim.1 (.inl h1))
    · rw [if_neg h1]
      by_cases h2 : reached lim.nbRows
          (rows + (if lim.nbRows.isSome = true then rowCount g else 0)) = true
      · rw [if_pos h2]
        exact hstop _ rfl (hlim.1 (.inr h2))
      · rw [if_neg h2]
        have hno : ¬ LimitReached lim rowCount (pre ++ [g]) := fun h => by
          rcases hlim.2 h with h | h
          · exact h1 h
          · exact h2 h
        have := ih (pre ++ [g]) _ hrows'
        rw [show (pre ++ [g]).length = pre.length + 1 by simp] at this
        obtain ⟨i1, _, i3, i4⟩ := this
        refine ⟨(List.prefix_cons_inj g).2 i1, (fun _ => by simp), ?_, ?_⟩
        · rcases i3 with i3 | i3
          · exact .inl (by rw [i3])
          · right
            simpa using i3
        · intro short h hne hne'
          obtain ⟨zs, rfl, hz⟩ := prefix_cons h hne
          by_cases hzn : zs = []
          · rw [hzn]
            exact hno
          · have := i4 zs hz hzn (fun e => hne' (by rw [e]))
            simpa using this

private theorem wholeLoop_spec (lim : Limits) (rowCount : G → Nat) (all : List G) :
    ∀ (pre : List G) (rows : Nat), (lim.nbRows.isSome → rows = rowsIn rowCount pre) →
      wholeLoop lim rowCount all rows =
        limitLoop { lim with nbFragments := none } rowCount all rows pre.length := by
  induction all with
  | nil => intro pre rows _; rfl
  | cons g gs ih =>
    intro pre rows hrows
    simp only [wholeLoop, limitLoop, reached]
    cases hn : lim.nbRows with
    | none =>
      have := ih (pre ++ [g]) rows (by rw [hn]; intro h; cases h)
      rw [show (pre ++ [g]).length = pre.length + 1 by simp] at this
      rw [this]
      simp [hn]
    | some n =>
      have := ih (pre ++ [g]) (rows + rowCount g) (by
        intro h
        rw [hrows h]
        simp [rowsIn])
      rw [show (pre ++ [g]).length = pre.length + 1 by simp] at this
      rw [this]
      simp [hn]

/-! ## Theorems -/

/-- Splitting files into row groups, the fragments listed are the shortest
non-empty prefix of the row groups that reaches the limit on fragments or the
limit on rows, or all of them if no limit is reached. -/
theorem C76_row_groups (lim : Limits) (rows : File → List G) (whole : File → G)
    (rowCount : G → Nat) (files : List File) :
    ShortestReaching lim rowCount (((truncateFiles lim files).map rows).flatten)
      (listFragments lim true rows whole rowCount files) := by
  have := limitLoop_spec lim rowCount (((truncateFiles lim files).map rows).flatten) [] 0
    (fun _ => rfl)
  exact ⟨this.1, this.2.2.1, this.2.2.2⟩

/-- Without splitting, the files listed are the shortest non-empty prefix of the
first `nb_fragments` files that reaches the limit on rows, or all of those. -/
theorem C76_files (lim : Limits) (rows : File → List G) (whole : File → G)
    (rowCount : G → Nat) (files : List File) :
    ShortestReaching { lim with nbFragments := none } rowCount
      (((truncateFiles lim files).map whole).take
        (lim.nbFragments.getD (truncateFiles lim files).length))
      (listFragments lim false rows whole rowCount files) := by
  have hall : firstFragments lim.nbFragments ((truncateFiles lim files).map whole) =
      ((truncateFiles lim files).map whole).take
        (lim.nbFragments.getD (truncateFiles lim files).length) := by
    cases lim.nbFragments with
    | none => exact (List.take_of_length_le (by simp [firstFragments])).symm
    | some n => rfl
  have hout : listFragments lim false rows whole rowCount files =
      limitLoop { lim with nbFragments := none } rowCount
        (((truncateFiles lim files).map whole).take
          (lim.nbFragments.getD (truncateFiles lim files).length)) 0 0 := by
    unfold listFragments
    simp only [Bool.false_eq_true, if_false]
    rw [hall]
    exact wholeLoop_spec lim rowCount _ [] 0 (fun _ => rfl)
  rw [hout]
  have := limitLoop_spec { lim with nbFragments := none } rowCount
    (((truncateFiles lim files).map whole).take
      (lim.nbFragments.getD (truncateFiles lim files).length)) [] 0 (fun _ => rfl)
  exact ⟨this.1, this.2.2.1, this.2.2.2⟩

/-- A positive limit on the number of fragments is respected. -/
theorem C76_at_most_partial (lim : Limits) (split : Bool) (rows : File → List G) (whole : File → G)
    (rowCount : G → Nat) (files : List File) (n : Nat) (hn : lim.nbFragments = some n)
    (hpos : 0 < n) :
    (listFragments lim split rows whole rowCount files).length ≤ n := by
  cases split with
  | true =>
    have h := C76_row_groups lim rows whole rowCount files
    generalize listFragments lim true rows whole rowCount files = out at h
    apply Decidable.byContradiction
    intro hlt
    refine h.2.2 (out.take n) (List.take_prefix n out) ?_ ?_ (.inl ⟨n, hn, by simp; omega⟩)
    · intro e
      have := congrArg List.length e
      simp at this
      rcases this with h | h
      · omega
      · rw [h] at hlt
        simp at hlt
    · intro e
      have := congrArg List.length e
      simp at this
      omega
  | false =>
    have h := (C76_files lim rows whole rowCount files).1.length_le
    rw [hn] at h
    simp at h
    omega

/-- A limit of zero fragments is not: splitting into row groups still yields one
(the limit is looked at after the fragment was appended). -/
theorem C76_at_most_negation :
    ¬ ∀ (lim : Limits) (split : Bool) (files : List (List Nat)) (n : Nat),
      lim.nbFragments = some n →
      (listFragments lim split id (fun _ => 0) id files).length ≤ n := by
  intro h
  exact absurd (h { nbFragments := some 0 } true [[7, 8]] 0 rfl) (by decide)

/-- `nb_files` and `fraction_of_files` keep a prefix of the files: at most
`nb_files`, and at least one if the fraction is what limits. -/
theorem C76_files_kept (lim : Limits) (files : List File) :
    truncateFiles lim files <+: files ∧
      (∀ n, lim.nbFiles = some n → (truncateFiles lim files).length ≤ n) ∧
      (∀ k, lim.fractionOfFiles = some k → (truncateFiles lim files).length ≤ max k 1) ∧
      (lim.nbFiles = none → files ≠ [] → truncateFiles lim files ≠ []) := by
  unfold truncateFiles
  cases lim.fractionOfFiles with
  | none =>
    cases lim.nbFiles with
    | none => exact ⟨List.prefix_refl _, (nofun), (nofun), fun _ h => h⟩
    | some n =>
      simp only
      split
      · refine ⟨List.take_prefix _ _, ?_, (nofun), (nofun)⟩
        rintro _ ⟨⟩
        simp; omega
      · refine ⟨List.prefix_refl _, ?_, (nofun), (nofun)⟩
        rintro _ ⟨⟩
        omega
  | some k =>
    cases lim.nbFiles with
    | none =>
      refine ⟨List.take_prefix _ _, (nofun), ?_, ?_⟩
      · rintro _ ⟨⟩
        simp only [List.length_take]
        omega
      · intro _ hne e
        rcases List.take_eq_nil_iff.1 e with e | e
        · omega
        · exact hne e
    | some n =>
      simp only
      split
      · refine ⟨(List.take_prefix _ _).trans (List.take_prefix _ _), ?_, ?_, (nofun)⟩
        · rintro _ ⟨⟩
          simp only [List.length_take]
          omega
        · rintro _ ⟨⟩
          simp only [List.length_take]
          omega
      · refine ⟨List.take_prefix _ _, ?_, ?_, (nofun)⟩
        · rintro _ ⟨⟩
          omega
        · rintro _ ⟨⟩
          simp only [List.length_take]
          omega

/-- The schedule built from the fragments is a sequence of passes over them,
`nb_epochs` many or a hundred repeated for ever; unshuffled passes keep their
order. -/
theorem C76_schedule (rd : Rand R) (nbEpochs : Option Nat) (shuffle : Bool) (seed : Option Nat)
    (drawn : Nat) (frags : List G) :
    ∃ passes : List (List G), (scheduled rd nbEpochs shuffle seed drawn frags).1 = passes.flatten ∧
      passes.length = nbEpochs.getD 100 ∧ (∀ p ∈ passes, p.Perm frags) ∧
      (shuffle = false → ∀ p ∈ passes, p = frags) ∧
      ((scheduled rd nbEpochs shuffle seed drawn frags).2 = true ↔ nbEpochs = none) := by
  have hrep : (scheduled rd nbEpochs shuffle seed drawn frags).2 = true ↔ nbEpochs = none := by
    simp [scheduled]
  cases shuffle with
  | false =>
    refine ⟨List.replicate (nbEpochs.getD 100) frags, rfl, by simp, ?_, ?_, hrep⟩
    · intro p hp
      rw [(List.mem_replicate.1 hp).2]
    · intro _ p hp
      exact (List.mem_replicate.1 hp).2
  | true =>
    have h : ∀ n r, ∃ passes : List (List G), permutations rd frags n r = passes.flatten ∧
        passes.length = n ∧ ∀ p ∈ passes, p.Perm frags := by
      intro n
      induction n with
      | zero => intro r; exact ⟨[], rfl, rfl, by simp⟩
      | succ n ih =>
        intro r
        obtain ⟨ps, h1, h2, h3⟩ := ih (rd.shuffle r frags).2
        refine ⟨(rd.shuffle r frags).1 :: ps, by simp [permutations, h1], by simp [h2], ?_⟩
        intro p hp
        rcases List.mem_cons.1 hp with rfl | hp
        · exact shuffle_perm rd r frags
        · exact h3 p hp
    obtain ⟨ps, h1, h2, h3⟩ := h (nbEpochs.getD 100) (rd.ofSeed (seed.getD drawn))
    exact ⟨ps, h1, h2, h3, (nofun), hrep⟩

example : listFragments { nbRows := some 5 } true id (fun _ => 0) id [[2, 2], [2, 9]] =
    [2, 2, 2] := by decide
example : LimitReached { nbRows := some 5 } id [2, 2, 2] ∧
    ¬ LimitReached { nbRows := some 5 } id [2, 2] := by
  constructor
  · exact .inr ⟨5, rfl, by decide⟩
  · rintro (⟨n, h, _⟩ | ⟨n, h, h'⟩)
    · cases h
    · cases h
      exact absurd h' (by decide)

end Fs2.Props
