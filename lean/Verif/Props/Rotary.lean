import Mathlib.Tactic.Linarith
import Mathlib.Tactic.Positivity
import Mathlib.Tactic.FieldSimp
import Mathlib.Analysis.Complex.Trigonometric
import Verif.Nn.RotaryLemmas
import Verif.Props.Layout
import Verif.Props.Incremental

/-!
# C86: rotary position encoders

The specification is complex multiplication: a vector is read as pairs of numbers, pair `k` at position
`p` is multiplied by `exp(i p f_k)`.
-/

namespace Fs2.Props
open Fs2.Nn

/-- The vector with every pair `k` turned by the angle `p * f k`. -/
noncomputable def turned (f : Nat → ℝ) (p : ℝ) (x : List ℝ) : List ℝ :=
  (List.range x.length).map fun i =>
    let z : ℂ := Complex.exp (((p * f (i / 2) : ℝ) : ℂ) * Complex.I) *
      ⟨x.getD (2 * (i / 2)) 0, x.getD (2 * (i / 2) + 1) 0⟩
    if i % 2 = 0 then z.re else z.im

/-- The inner product. -/
def dotOf (x y : List ℝ) : ℝ := (List.zipWith (· * ·) x y).sum

/-- Head `h` of element `j` of row `i`. -/
def entry (seqs : Seqs) (i j h : Nat) : Option (List ℝ) :=
  (seqs[i]?.bind fun row => row[j]?).bind fun heads => heads[h]?

/-- How many elements were fed before: the step number, in evaluation mode with a bag. -/
def startOf (training : Bool) (bag : Option Bag) : Int :=
  if training then 0 else (bag.map Bag.stepNr).getD 0

/-- Some call of the encoder had `x` at position `p` of a sequence, and returned `y` in its place. In a
padded batch element `j` of a row is at position `j`; in a packed batch positions are counted from the
start of each sequence; steps made before are added. -/
inductive EncodesAt (fwd : Bool → Option Bag → Layout → Seqs → Option Seqs) :
    Int → List ℝ → List ℝ → Prop
  | padded {training : Bool} {bag : Option Bag} {w : Int} {lens : List Int} {L : Layout}
      {seqs out : Seqs} {i j h : Nat} {n : Int} {x y : List ℝ} : 0 ≤ startOf training bag →
      Layout.new [(lens.length : Int), w] (some lens) false = some L →
      fwd training bag L seqs = some out → lens[i]? = some n → (j : Int) < n →
      entry seqs i j h = some x → entry out i j h = some y →
      EncodesAt fwd (startOf training bag + j) x y
  | packed {training : Bool} {bag : Option Bag} {w : Int} {lens : List Int} {L : Layout}
      {seqs out : Seqs} {i j q h : Nat} {n : Int} {x y : List ℝ} : 0 ≤ startOf training bag →
      Layout.new [w] (some lens) true = some L →
      fwd training bag L seqs = some out → lens[i]? = some n → (j : Int) < n →
      (q : Int) = (lens.take i).sum + j →
      entry seqs 0 q h = some x → entry out 0 q h = some y →
      EncodesAt fwd (startOf training bag + j) x y

/-! ## Helpers -/

private theorem turned_eq (f : Nat → ℝ) (p : ℝ) (n : Nat) (x : List ℝ) (hx : x.length = 2 * n) :
    rotate (polars p ((List.range n).map f)) x = turned f p x := by
  have hl : (polars p ((List.range n).map f)).length = n := by simp [polars]
  apply List.ext_getElem?
  intro i
  rcases Nat.lt_or_ge i x.length with hi | hi
  · have hk : i / 2 < n := by omega
    have hrow : (polars p ((List.range n).map f))[i / 2]? =
        some (Real.cos (p * f (i / 2)), Real.sin (p * f (i / 2))) := by
      simp [polars, List.getElem?_map, List.getElem?_range hk, polar]
    obtain ⟨h1, h2⟩ := rotate_get _ x (i / 2) _ _ (by rw [hl]; exact hx) hrow
    simp only [turned, List.getElem?_map, List.getElem?_range hi, Option.map_some]
    have hz : Complex.exp (((p * f (i / 2) : ℝ) : ℂ) * Complex.I) =
        ⟨Real.cos (p * f (i / 2)), Real.sin (p * f (i / 2))⟩ := by
      exact Complex.ext (Complex.exp_ofReal_mul_I_re _) (Complex.exp_ofReal_mul_I_im _)
    rw [hz]
    rcases Nat.mod_two_eq_zero_or_one i with h | h
    · rw [if_pos h]
      rw [show 2 * (i / 2) = i by omega] at h1 ⊢
      rw [h1]
      simp only [Complex.mul_re]
      congr 1; ring
    · rw [if_neg (by omega)]
      have e : 2 * (i / 2) + 1 = i := by omega
      rw [e] at h2
      rw [h2]
      simp only [Complex.mul_im, e]
      congr 1; ring
  · rw [List.getElem?_eq_none (by rw [rotate_length _ x (by rw [hl]; exact hx)]; exact hi),
      List.getElem?_eq_none (by simp [turned, hi])]

private theorem rowSlice_get {M : Int} {a n : Nat} (h : (a : Int) + n ≤ M) {q : Nat} (hq : q < n) :
    (rowSlice (M + 1) (1 + a) n)[q]? = some ((a : Int) + q + 1) := by
  unfold rowSlice
  rw [List.getElem?_take, if_pos (by omega), List.getElem?_drop, arange_get _ _ (by omega)]
  simp only [Option.some.injEq]
  omega

private theorem startOf_eq (training : Bool) (bag : Option Bag) :
    (if (!training && bag.isSome) = true then (bag.map Bag.stepNr).getD 0 else 0) =
      startOf training bag := by
  cases training <;> cases bag <;> simp [startOf]

private theorem shifted_get (training : Bool) (bag : Option Bag) (ps : List (List Int)) (i q : Nat) :
    (((if (!training && bag.isSome) = true then
        (ps.map (List.map (· + 1))).map (List.map ((bag.map Bag.stepNr).getD 0 + ·))
      else ps.map (List.map (· + 1))) : List (List Int))[i]?.bind fun row => row[q]?) =
      (ps[i]?.bind fun row => row[q]?).map fun p => startOf training bag + p + 1 := by
  cases training <;> cases bag <;> simp only [startOf, Bool.not_true, Bool.not_false, Bool.false_and,
    Bool.true_and, Option.isSome_none, Option.isSome_some, Bool.false_eq_true, if_false, if_true,
    List.getElem?_map, Option.map_none, Option.map_some, Option.getD_none, Option.getD_some] <;>
    cases ps[i]? with
    | none => rfl
    | some row =>
      simp only [Option.map_some, Option.bind_some, List.getElem?_map]
      cases row[q]? with
      | none => rfl
      | some p => (simp only [Option.map_some, Option.some.injEq]; omega)

/-- The rows of the table for a padded batch. -/
private theorem padded_rows {training : Bool} {bag : Option Bag} {M : Nat} {w : Int} {lens : List Int}
    {L : Layout} (hL : Layout.new [(lens.length : Int), w] (some lens) false = some L)
    (hs : 0 ≤ startOf training bag) {rows : List (List Int)}
    (hr : L.tableRows M training bag = some rows) :
    rows.length = lens.length ∧ (∀ row ∈ rows, (row.length : Int) = w) ∧
    ∀ (i : Nat) (n : Int), lens[i]? = some n → ∀ q : Nat, (q : Int) < w →
      (rows[i]?.bind fun row => row[q]?) =
        some (startOf training bag + (if (q : Int) < n then (q : Int) + 1 else 0)) := by
  obtain ⟨w', hw', hw1, hlens, hd⟩ := (C47_padded _ _).1 L hL
  obtain rfl : w = w' := by simpa using hw'
  unfold Layout.tableRows at hr
  simp only [startOf_eq] at hr
  split at hr
  · cases hr
  rename_i hmax
  rw [hd.packed, Bool.false_or] at hr
  have hpos : ∀ row ∈ L.positions, (row.length : Int) = w := by
    intro row hrow
    obtain ⟨i, hi⟩ := List.mem_iff_getElem?.1 hrow
    have hil : i < lens.length := by
      rw [← hd.numRows]
      exact (List.getElem?_eq_some_iff.1 hi).1
    obtain ⟨r, h1, h2, -⟩ := hd.positions i lens[i] (List.getElem?_eq_getElem hil)
    rw [hi] at h1; cases h1; exact h2
  split at hr
  · rename_i hp
    cases hr
    refine ⟨?_, ?_, ?_⟩
    · split <;> simp [hd.numRows]
    · intro row hrow
      split at hrow
      · simp only [List.mem_map] at hrow
        obtain ⟨_, ⟨r, h1, rfl⟩, rfl⟩ := hrow
        simpa using hpos r h1
      · simp only [List.mem_map] at hrow
        obtain ⟨r, h1, rfl⟩ := hrow
        simpa using hpos r h1
    · intro i n hin q hq
      rw [shifted_get]
      obtain ⟨row, h1, -, h2⟩ := hd.positions i n hin
      rw [h1, Option.bind_some, h2 q hq]
      simp only [Option.map_some, Option.some.injEq]
      split <;> omega
  · rename_i hp
    cases hr
    refine ⟨by simp [hd.numRows], ?_, ?_⟩
    · intro row hrow
      simp only [List.mem_map] at hrow
      obtain ⟨r, h1, rfl⟩ := hrow
      have hne : lens ≠ [] := by
        rintro rfl
        have := hd.numRows
        simp only [List.length_nil, List.length_eq_zero_iff] at this
        simp [this] at h1
      have hlarge := (hd.largest hne).1
      have hfull : ∀ n ∈ lens, n = w := by
        intro n hn
        by_contra hc
        exact hp (hd.padded.2 ⟨n, hn, by have := hlens n hn; omega⟩)
      have hw := hfull _ hlarge
      rw [hd.width]
      have e : (if (!training && bag.isSome) = true then 1 + (bag.map Bag.stepNr).getD 0 else 1) =
          1 + ((startOf training bag).toNat : Int) := by
        rw [Int.toNat_of_nonneg hs, ← startOf_eq]; split <;> simp
      rw [e]
      simp only [rowSlice, List.length_take, List.length_drop, arange_length]
      omega
    · intro i n hin q hq
      have hmem := List.mem_of_getElem? hin
      have hne : lens ≠ [] := List.ne_nil_of_mem hmem
      have hlarge := (hd.largest hne).1
      have hfull : ∀ n ∈ lens, n = w := by
        intro n hn
        by_contra hc
        exact hp (hd.padded.2 ⟨n, hn, by have := hlens n hn; omega⟩)
      have hw := hfull _ hlarge
      have hn := hfull _ hmem
      obtain ⟨row, h1, -, -⟩ := hd.positions i n hin
      have e : (if (!training && bag.isSome) = true then 1 + (bag.map Bag.stepNr).getD 0 else 1) =
          1 + ((startOf training bag).toNat : Int) := by
        rw [Int.toNat_of_nonneg hs, ← startOf_eq]; split <;> simp
      rw [e, hd.width]
      have h2 := rowSlice_get (M := M) (a := (startOf training bag).toNat) (n := w.toNat) (q := q)
        (by omega) (by omega)
      rw [Int.toNat_of_nonneg (by omega : 0 ≤ w)] at h2
      rw [List.getElem?_map, h1, Option.map_some, Option.bind_some, h2, if_pos (by omega)]
      simp only [Option.some.injEq]
      omega

/-- The rows of the table for a packed batch. -/
private theorem packed_rows {training : Bool} {bag : Option Bag} {M : Nat} {w : Int} {lens : List Int}
    {L : Layout} (hL : Layout.new [w] (some lens) true = some L) {rows : List (List Int)}
    (hr : L.tableRows M training bag = some rows) :
    rows.length = 1 ∧ (∀ row ∈ rows, (row.length : Int) = w) ∧
    (∀ (i : Nat) (n : Int), lens[i]? = some n → ∀ j : Nat, (j : Int) < n →
      ∀ q : Nat, (q : Int) = (lens.take i).sum + j →
      (rows[0]?.bind fun row => row[q]?) = some (startOf training bag + (j : Int) + 1)) ∧
    (∀ q : Nat, lens.sum ≤ q → (q : Int) < w →
      (rows[0]?.bind fun row => row[q]?) = some (startOf training bag)) := by
  obtain ⟨w', hw', hw1, hlens, hsum, hd⟩ := (C47_packed _ _).1 L hL
  obtain rfl : w = w' := by simpa using hw'
  obtain ⟨row, hp, hl, hb, ht⟩ := hd.positions
  unfold Layout.tableRows at hr
  simp only [startOf_eq] at hr
  split at hr
  · cases hr
  rw [hd.packed, Bool.true_or, if_pos rfl] at hr
  cases hr
  refine ⟨by split <;> simp [hp], ?_, ?_, ?_⟩
  · intro r hrow
    rw [hp] at hrow
    split at hrow <;> simp at hrow <;> subst hrow <;> simpa using hl
  · intro i n hin j hj q hq
    obtain ⟨q', hq', h2⟩ := hb i n hin j hj
    obtain rfl : q = q' := by omega
    rw [shifted_get, hp]
    simp [h2]
  · intro q h1 h2
    rw [shifted_get, hp]
    simp [ht q h1 h2]

private theorem perElement_get {ρ : Type} (table : Int → ρ) (ap : ρ → List ℝ → List ℝ)
    (rows : List (List Int)) (seqs : Seqs) (i j h : Nat) :
    entry (perElement table ap rows seqs) i j h =
      ((rows[i]?.bind fun row => row[j]?).bind fun r => (entry seqs i j h).map (ap (table r))) := by
  simp only [entry, perElement, List.getElem?_zipWith]
  cases rows[i]? with
  | none => simp
  | some row =>
    cases seqs[i]? with
    | none => simp
    | some s =>
      simp only [Option.bind_some, List.getElem?_zipWith]
      cases row[j]? with
      | none => simp
      | some r =>
        cases s[j]? with
        | none => simp
        | some hs => simp

private theorem forward_rows {e : Rotary} {training : Bool} {bag : Option Bag} {L : Layout}
    {seqs out : Seqs} (h : e.forward training bag L seqs = some out) :
    ∃ rows, L.tableRows e.maxSeqLen training bag = some rows ∧
      out = perElement e.row rotate rows seqs := by
  simp only [Rotary.forward, Option.bind_eq_bind, Option.bind_eq_some_iff, Option.some.injEq] at h
  obtain ⟨rows, h1, h2⟩ := h
  exact ⟨rows, h1, h2.symm⟩

private theorem row_polars (e : Rotary) (p : Int) (hp : 0 ≤ p) :
    e.row (p + 1) = polars (p : ℝ) ((List.range (e.encodingDim / 2)).map e.freqs) := by
  unfold Rotary.row
  rw [if_neg (by omega)]
  simp [polars, Function.comp_def]

/-- What happens at a position of a sequence is one row of the table. -/
private theorem encodes_row {e : Rotary} {p : Int} {x y : List ℝ} (h : EncodesAt e.forward p x y) :
    0 ≤ p ∧ y = rotate (e.row (p + 1)) x := by
  cases h with
  | @padded training bag w lens L seqs out i j h n _ _ h0 hL hf hin hj hx hy =>
    obtain ⟨rows, hr, rfl⟩ := forward_rows hf
    obtain ⟨-, -, hg⟩ := padded_rows hL h0 hr
    obtain ⟨w', hw', -, hlens, -⟩ := (C47_padded _ _).1 L hL
    obtain rfl : w = w' := by simpa using hw'
    have hn := hlens n (List.mem_of_getElem? hin)
    rw [perElement_get, hg i n hin j (by omega), Option.bind_some, hx, if_pos hj] at hy
    simp only [Option.map_some, Option.some.injEq] at hy
    refine ⟨by omega, ?_⟩
    rw [← hy, Int.add_assoc]
  | @packed training bag w lens L seqs out i j q h n _ _ h0 hL hf hin hj hq hx hy =>
    obtain ⟨rows, hr, rfl⟩ := forward_rows hf
    obtain ⟨-, -, hg, -⟩ := packed_rows hL hr
    rw [perElement_get, hg i n hin j hj q hq, Option.bind_some, hx] at hy
    simp only [Option.map_some, Option.some.injEq] at hy
    exact ⟨by omega, hy.symm⟩

private theorem rotary_new {E M : Nat} {θ : ℝ} {init : Option (Nat → ℝ)} {e : Rotary}
    (h : Rotary.new E M θ init = some e) :
    E = 2 * (E / 2) ∧ e = ⟨E, M, init.getD (defaultFreqs θ E)⟩ := by
  unfold Rotary.new at h
  split at h
  · cases h
  · cases h; exact ⟨by omega, rfl⟩

/-! ## The theorems -/

/-- **Rotation by the position.** An encoder can be made exactly if the dimension is even. Whatever
the batch, padded or packed, fed at once or continuing after earlier steps: a head at position `p` of
its sequence comes out with pair `k` multiplied by `exp(i p f_k)`, where `f_k` is `theta ^ (-2k / E)`
unless other frequencies are given. -/
theorem C86_rotation (E M : Nat) (θ : ℝ) (hθ : 0 < θ) (init : Option (Nat → ℝ)) :
    ((∃ e, Rotary.new E M θ init = some e) ↔ E % 2 = 0) ∧
    ∀ e, Rotary.new E M θ init = some e → ∀ p x y, x.length = E → EncodesAt e.forward p x y →
      y = turned (init.getD fun k => θ ^ (-(2 * (k : ℝ)) / (E : ℝ))) (p : ℝ) x := by
  constructor
  · unfold Rotary.new
    split <;> simp_all
  · intro e he p x y hx h
    obtain ⟨hE, rfl⟩ := rotary_new he
    obtain ⟨hp, hy⟩ := encodes_row h
    rw [row_polars _ p hp, turned_eq _ _ _ _ (by simpa [hx] using hE)] at hy
    rw [hy]
    congr 1
    cases init with
    | some f => rfl
    | none =>
      funext k
      simp only [Option.getD_none, defaultFreqs]
      rw [one_div, ← Real.rpow_neg hθ.le]
      congr 1
      push_cast
      ring

/-- **Scores depend on distances.** There is one function of the distance `p - q` and of the two
vectors that gives the inner product of any two encoded vectors, one at position `p` and one at `q`. At
distance 0 it is the inner product of the vectors themselves. -/
theorem C86_scores {E M : Nat} {θ : ℝ} {init : Option (Nat → ℝ)} {e : Rotary}
    (he : Rotary.new E M θ init = some e) :
    ∃ g : Int → List ℝ → List ℝ → ℝ,
      (∀ p q x y x' y', x.length = E → y.length = E → EncodesAt e.forward p x x' →
        EncodesAt e.forward q y y' → dotOf x' y' = g (p - q) x y) ∧
      (∀ x y, x.length = E → y.length = E → g 0 x y = dotOf x y) := by
  obtain ⟨hE, rfl⟩ := rotary_new he
  refine ⟨fun d x y => dotOf (rotate (polars (d : ℝ)
    ((List.range (E / 2)).map (init.getD (defaultFreqs θ E)))) x) y, ?_, ?_⟩
  · intro p q x y x' y' hx hy h1 h2
    obtain ⟨hp, rfl⟩ := encodes_row h1
    obtain ⟨hq, rfl⟩ := encodes_row h2
    rw [row_polars _ p hp, row_polars _ q hq]
    simp only [dotOf]
    rw [rotate_dot _ _ _ _ _ (by simp; omega) (by simp; omega)]
    push_cast
    rfl
  · intro x y hx hy
    simp only [Int.cast_zero]
    rw [rotate_zero _ _ (by simp; omega)]

/-- **Lengths.** Encoding changes no norm. -/
theorem C86_norm {E M : Nat} {θ : ℝ} {init : Option (Nat → ℝ)} {e : Rotary}
    (he : Rotary.new E M θ init = some e) {p : Int} {x y : List ℝ} (hx : x.length = E)
    (h : EncodesAt e.forward p x y) : dotOf y y = dotOf x x := by
  obtain ⟨g, h1, h2⟩ := C86_scores he
  rw [h1 p p x x y y hx hx h h, Int.sub_self, h2 x x hx hx]

/-- An encoder of dimension 2, in evaluation mode after three steps, for a packed batch of two sequences:
the second element of the second sequence is at position 4. -/
example : ∃ e, Rotary.new 2 8 10000 none = some e ∧ ∃ y, EncodesAt e.forward 4 [1, 2] y := by
  refine ⟨_, rfl, ?_⟩
  have h := EncodesAt.packed (fwd := Rotary.forward ⟨2, 8, defaultFreqs 10000 2⟩) (training := false) (bag := some ⟨3, 9, none⟩) (w := 5) (lens := [2, 3])
    (L := (Layout.new [5] (some [2, 3]) true).get rfl)
    (seqs := [[[[5, 6]], [[5, 6]], [[5, 6]], [[1, 2]], [[5, 6]]]]) (i := 1) (j := 1) (q := 3) (h := 0)
    (n := 3) (by decide) rfl rfl rfl (by decide) (by decide) rfl rfl
  exact ⟨_, h⟩

/-- The lengths of the vectors of a batch. -/
def shapeOf (seqs : Seqs) : List (List (List Nat)) := seqs.map (List.map (List.map List.length))

/-- A batch of the given number of rows and columns, of vectors of length `E`. -/
def HasShape (seqs : Seqs) (N : Nat) (w : Int) (E : Nat) : Prop :=
  seqs.length = N ∧ ∀ row ∈ seqs, (row.length : Int) = w ∧ ∀ heads ∈ row, ∀ x ∈ heads, x.length = E

private theorem row_length (e : Rotary) (r : Int) : (e.row r).length = e.encodingDim / 2 := by
  unfold Rotary.row; split <;> simp

private theorem perElement_shape {E : Nat} (e : Rotary) (he : e.encodingDim = E) (hE : E = 2 * (E / 2))
    (w : Int) : ∀ (rows : List (List Int)) (seqs : Seqs), HasShape seqs rows.length w E →
    (∀ row ∈ rows, (row.length : Int) = w) →
    shapeOf (perElement e.row rotate rows seqs) = shapeOf seqs
  | [], [], _, _ => rfl
  | [], _ :: _, h, _ => by simp [HasShape] at h
  | _ :: _, [], h, _ => by simp [HasShape] at h
  | r :: rows, s :: seqs, h, hw => by
    have ih := perElement_shape e he hE w rows seqs
      ⟨by simpa using h.1, fun row hr => h.2 row (by simp [hr])⟩ fun row hr => hw row (by simp [hr])
    simp only [shapeOf, perElement, List.zipWith_cons_cons, List.map_cons, List.cons.injEq] at ih ⊢
    refine ⟨?_, ih⟩
    have hs := h.2 s (by simp)
    have hr := hw r (by simp)
    have hlen : r.length = s.length := by omega
    apply List.ext_getElem
    · simp [hlen]
    · intro j h1 h2
      simp only [List.length_map, List.length_zipWith] at h1 h2
      simp only [List.getElem_map, List.getElem_zipWith, List.map_map]
      apply List.map_congr_left
      intro x hx
      have := hs.2 _ (List.getElem_mem (by omega)) x hx
      simp only [Function.comp]
      rw [rotate_length _ _ (by rw [row_length, he, this]; exact hE)]

/-- **What is refused.** For a padded batch, and for a packed one, of at least one sequence, the call
raises exactly if the steps made before and the length of some sequence together exceed the maximum
length; otherwise it returns a batch of the same shape. -/
theorem C86_raises {E M : Nat} {θ : ℝ} {init : Option (Nat → ℝ)} {e : Rotary}
    (he : Rotary.new E M θ init = some e) {training : Bool} {bag : Option Bag} {w : Int}
    {lens : List Int} {L : Layout} (h0 : 0 ≤ startOf training bag) (hne : lens ≠ []) (seqs : Seqs)
    (hL : (Layout.new [(lens.length : Int), w] (some lens) false = some L ∧
        HasShape seqs lens.length w E) ∨
      (Layout.new [w] (some lens) true = some L ∧ HasShape seqs 1 w E)) :
    (e.forward training bag L seqs = none ↔ ∃ n ∈ lens, (M : Int) < startOf training bag + n) ∧
    ∀ out, e.forward training bag L seqs = some out → shapeOf out = shapeOf seqs := by
  obtain ⟨hE, rfl⟩ := rotary_new he
  have hlarge : Largest L.maxSeqLen lens := by
    rcases hL with ⟨hL, -⟩ | ⟨hL, -⟩
    · obtain ⟨_, _, _, _, hd⟩ := (C47_padded _ _).1 L hL
      exact hd.largest hne
    · obtain ⟨_, _, _, _, _, hd⟩ := (C47_packed _ _).1 L hL
      exact hd.largest hne
  constructor
  · have key : Rotary.forward ⟨E, M, init.getD (defaultFreqs θ E)⟩ training bag L seqs = none ↔
        startOf training bag + L.maxSeqLen > M := by
      simp only [Rotary.forward, Layout.tableRows, startOf_eq]
      split
      · rename_i h
        exact ⟨fun _ => h, fun _ => rfl⟩
      · rename_i h
        constructor
        · intro h'
          split at h' <;> cases h'
        · intro h'
          exact absurd h' h
    rw [key]
    constructor
    · intro h; exact ⟨_, hlarge.1, h⟩
    · rintro ⟨n, hn, h⟩
      have := hlarge.2 n hn
      omega
  · intro out hf
    obtain ⟨rows, hr, rfl⟩ := forward_rows hf
    rcases hL with ⟨hL, hS⟩ | ⟨hL, hS⟩
    · obtain ⟨h1, h2, -⟩ := padded_rows hL h0 hr
      exact perElement_shape _ rfl hE w rows seqs (h1 ▸ hS) h2
    · obtain ⟨h1, h2, -⟩ := packed_rows hL hr
      exact perElement_shape _ rfl hE w rows seqs (h1 ▸ hS) h2

example : ∃ e, Rotary.new 2 8 10000 none = some e ∧
    ∃ L, Layout.new [2, 3] (some [2, 3]) false = some L ∧
      HasShape [[[[1, 2]], [[1, 2]], [[1, 2]]], [[[1, 2]], [[1, 2]], [[1, 2]]]] 2 3 2 :=
  ⟨_, rfl, _, rfl, by simp [HasShape]⟩

private theorem locate : ∀ (lens : List Int), (∀ n ∈ lens, 1 ≤ n) → ∀ q : Nat, (q : Int) < lens.sum →
    ∃ i n j, lens[i]? = some n ∧ ((j : Nat) : Int) < n ∧ (q : Int) = (lens.take i).sum + j
  | [], _, q, h => by simp at h; omega
  | n :: lens, hp, q, h => by
    simp only [List.sum_cons] at h
    by_cases hq : (q : Int) < n
    · exact ⟨0, n, q, rfl, hq, by simp⟩
    · have h1 := hp n (by simp)
      obtain ⟨i, m, j, h2, h3, h4⟩ := locate lens (fun m hm => hp m (by simp [hm])) (q - n.toNat)
        (by omega)
      refine ⟨i + 1, m, j, by simpa using h2, h3, ?_⟩
      simp only [List.take_succ_cons, List.sum_cons]
      omega

/-- **Inside the table.** The table has the rows 0 to `max_seq_len`; no call looks up another one. -/
theorem C86_rows {M : Nat} {training : Bool} {bag : Option Bag} {w : Int} {lens : List Int} {L : Layout}
    (h0 : 0 ≤ startOf training bag)
    (hL : Layout.new [(lens.length : Int), w] (some lens) false = some L ∨
      Layout.new [w] (some lens) true = some L) {rows : List (List Int)}
    (hr : L.tableRows M training bag = some rows) : ∀ row ∈ rows, ∀ r ∈ row, 0 ≤ r ∧ r ≤ M := by
  intro row hrow r hmem
  obtain ⟨i, hi⟩ := List.mem_iff_getElem?.1 hrow
  obtain ⟨q, hq⟩ := List.mem_iff_getElem?.1 hmem
  have hql := (List.getElem?_eq_some_iff.1 hq).1
  have hil := (List.getElem?_eq_some_iff.1 hi).1
  have hbind : (rows[i]?.bind fun row => row[q]?) = some r := by rw [hi]; exact hq
  have hmax : startOf training bag + L.maxSeqLen ≤ M := by
    have := hr
    simp only [Layout.tableRows, startOf_eq] at this
    split at this
    · cases this
    · omega
  rcases hL with hL | hL
  · obtain ⟨h1, h2, h3⟩ := padded_rows hL h0 hr
    obtain ⟨w', hw', hw1, hlens, hd⟩ := (C47_padded _ _).1 L hL
    obtain rfl : w = w' := by simpa using hw'
    have hw := h2 row hrow
    have hin : lens[i]? = some lens[i] := List.getElem?_eq_getElem (by omega)
    have hlarge := hd.largest (List.ne_nil_of_mem (List.mem_of_getElem? hin))
    have hle := hlarge.2 _ (List.mem_of_getElem? hin)
    have hpos := hlens _ (List.mem_of_getElem? hin)
    rw [h3 i _ hin q (by omega)] at hbind
    simp only [Option.some.injEq] at hbind
    subst hbind
    split <;> omega
  · obtain ⟨h1, h2, h3, h4⟩ := packed_rows hL hr
    obtain ⟨w', hw', hw1, hlens, hsum, hd⟩ := (C47_packed _ _).1 L hL
    obtain rfl : w = w' := by simpa using hw'
    obtain rfl : i = 0 := by omega
    have hw := h2 row hrow
    by_cases hqs : (q : Int) < lens.sum
    · obtain ⟨k, n, j, h5, h6, h7⟩ := locate lens hlens q hqs
      have hle := (hd.largest (List.ne_nil_of_mem (List.mem_of_getElem? h5))).2 _
        (List.mem_of_getElem? h5)
      rw [h3 k n h5 j h6 q h7] at hbind
      simp only [Option.some.injEq] at hbind
      omega
    · rw [h4 q (by omega) (by omega)] at hbind
      simp only [Option.some.injEq] at hbind
      have : 0 ≤ L.maxSeqLen := by
        cases hl : lens with
        | nil =>
          subst hl
          have : Layout.new [w] (some []) true = some L := hL
          simp only [Layout.new, if_true, newPacked] at this
          split at this
          · cases this
          · cases this; exact Int.le_refl 0
        | cons n rest =>
          have hm := (hd.largest (by rw [hl]; simp)).1
          have := hlens _ hm
          omega
      omega

example : (Layout.new [5] (some [2, 1]) true).bind (Layout.tableRows 8 false (some ⟨3, 9, none⟩)) =
    some [[4, 5, 4, 3, 3]] := by decide

/-- **Padding.** Without earlier steps the padding of a padded or packed batch comes out as zero. -/
theorem C86_padding_partial {E M : Nat} {θ : ℝ} {init : Option (Nat → ℝ)} {e : Rotary}
    (he : Rotary.new E M θ init = some e) {training : Bool} {bag : Option Bag} {w : Int}
    {lens : List Int} {L : Layout} (h0 : startOf training bag = 0) {seqs out : Seqs}
    (hf : e.forward training bag L seqs = some out) {i q h : Nat} {x y : List ℝ} (hx : x.length = E)
    (h1 : entry seqs i q h = some x) (h2 : entry out i q h = some y) (hq : (q : Int) < w)
    (hL : (Layout.new [(lens.length : Int), w] (some lens) false = some L ∧
        ∃ n, lens[i]? = some n ∧ n ≤ q) ∨
      (Layout.new [w] (some lens) true = some L ∧ i = 0 ∧ lens.sum ≤ q)) :
    y = List.replicate E 0 := by
  obtain ⟨hE, rfl⟩ := rotary_new he
  obtain ⟨rows, hr, rfl⟩ := forward_rows hf
  have hrow : (rows[i]?.bind fun row => row[q]?) = some 0 := by
    rcases hL with ⟨hL, n, hn, hle⟩ | ⟨hL, rfl, hle⟩
    · obtain ⟨-, -, hg⟩ := padded_rows hL (by omega) hr
      rw [hg i n hn q hq, if_neg (by omega), h0]; rfl
    · obtain ⟨-, -, -, hg⟩ := packed_rows hL hr
      rw [hg q hle hq, h0]
  rw [perElement_get, hrow, Option.bind_some, h1] at h2
  simp only [Option.map_some, Option.some.injEq] at h2
  rw [← h2]
  simp only [Rotary.row, if_true]
  rw [rotate_pad _ _ (by simpa [hx] using hE), hx]

/-- A padded batch of two rows, one of them one element short. -/
example : ∃ e, Rotary.new 2 8 10000 none = some e ∧
    ∃ L, Layout.new [2, 3] (some [2, 3]) false = some L ∧
    ∃ out, e.forward true none L [[[[1, 2]], [[1, 2]], [[7, 8]]], [[[1, 2]], [[1, 2]], [[1, 2]]]] =
      some out ∧ ∃ y, entry out 0 2 0 = some y := ⟨_, rfl, _, rfl, _, rfl, _, rfl⟩

/-- After earlier steps this fails: the padding of a padded batch is then encoded with the row of the
last position before the batch, and does not come out as zero. -/
theorem C86_padding_negation : ∃ e, Rotary.new 2 8 10000 none = some e ∧
    ∃ L, Layout.new [2, 2] (some [2, 1]) false = some L ∧
    ∃ out, e.forward false (some ⟨3, 9, none⟩) L [[[[1, 2]], [[1, 2]]], [[[1, 2]], [[1, 2]]]] = some out ∧
      ∃ y, entry out 1 1 0 = some y ∧ dotOf y y = 5 := by
  refine ⟨_, rfl, _, rfl, _, rfl, _, rfl, ?_⟩
  show dotOf (rotate (Rotary.row ⟨2, 8, _⟩ (2 + 1)) [1, 2]) (rotate (Rotary.row ⟨2, 8, _⟩ (2 + 1)) [1, 2])
    = 5
  rw [row_polars _ 2 (by decide)]
  simp only [dotOf]
  rw [rotate_dot _ _ _ _ _ (by simp) (by simp), sub_self, rotate_zero _ _ (by simp)]
  norm_num

/-! ## Feeding in pieces -/

/-- Feeding a batch of full rows in pieces in evaluation mode: each piece is encoded with the bag, then
the bag moves on by the length of the piece. -/
noncomputable def encodePieces (e : Rotary) : Bag → List Seqs → Option (List Seqs × Bag)
  | bag, [] => some ([], bag)
  | bag, s :: rest => do
    let l ← Layout.new [(s.length : Int), ((s.headD []).length : Int)] none false
    let r ← e.forward false (some bag) l s
    let bag ← bag.increment ((s.headD []).length : Int)
    let (rs, bag) ← encodePieces e bag rest
    some (r :: rs, bag)

/-- The pieces put together along the sequences. -/
def glued (N : Nat) (pieces : List Seqs) : Seqs :=
  pieces.foldr (List.zipWith (· ++ ·)) (List.replicate N [])

/-- Every element of full rows encoded from position `a` on. -/
private noncomputable def encAll (e : Rotary) (a : Int) (s : Seqs) : Seqs :=
  s.map fun row => row.mapIdx fun j heads => heads.map (rotate (e.row (a + j + 1)))

private theorem forward_full (e : Rotary) {training : Bool} {bag : Option Bag} {N n : Nat} {E : Nat}
    (h0 : 0 ≤ startOf training bag) (hN : 0 < N) (hn : 0 < n) (hM : startOf training bag + n ≤ e.maxSeqLen)
    (s : Seqs) (hS : HasShape s N n E) :
    ∃ L, Layout.new [(N : Int), (n : Int)] none false = some L ∧
      e.forward training bag L s = some (encAll e (startOf training bag) s) := by
  have e1 : Layout.new [(N : Int), (n : Int)] none false =
      Layout.new [((List.replicate N (n : Int)).length : Int), (n : Int)]
        (some (List.replicate N (n : Int))) false := by
    simp [Layout.new, newPadded]
  obtain ⟨L, hL⟩ := (C47_padded _ (List.replicate N (n : Int))).2 n rfl (by omega) (by
    intro m hm; rw [List.eq_of_mem_replicate hm]; omega)
  obtain ⟨w', hw', -, -, hd⟩ := (C47_padded _ _).1 L hL
  obtain rfl : (n : Int) = w' := by simpa using hw'
  refine ⟨L, e1.trans hL, ?_⟩
  have hne : List.replicate N (n : Int) ≠ [] := by simp; omega
  have hmax : L.maxSeqLen = n := List.eq_of_mem_replicate (hd.largest hne).1
  cases hr : L.tableRows e.maxSeqLen training bag with
  | none =>
    simp only [Layout.tableRows, startOf_eq] at hr
    rw [if_neg (by omega)] at hr
    split at hr <;> cases hr
  | some rows =>
    obtain ⟨h1, h2, h3⟩ := padded_rows hL h0 hr
    have hf : e.forward training bag L s = some (perElement e.row rotate rows s) := by
      simp only [Rotary.forward, hr]; rfl
    rw [hf]
    congr 1
    simp only [List.length_replicate] at h1
    apply List.ext_getElem
    · simp [perElement, encAll, h1, hS.1]
    · intro i hi hi'
      simp only [perElement, encAll, List.length_zipWith, List.length_map] at hi hi'
      simp only [perElement, encAll, List.getElem_zipWith, List.getElem_map]
      have hrl := h2 rows[i] (List.getElem_mem (by omega))
      have hsl := (hS.2 s[i] (List.getElem_mem (by omega))).1
      apply List.ext_getElem
      · simp; omega
      · intro j hj hj'
        simp only [List.length_zipWith, List.length_mapIdx] at hj hj'
        simp only [List.getElem_zipWith, List.getElem_mapIdx]
        have h4 := h3 i n (by rw [List.getElem?_replicate, if_pos (by omega)]) j (by omega)
        rw [List.getElem?_eq_getElem (by omega), Option.bind_some,
          List.getElem?_eq_getElem (by omega), if_pos (by omega)] at h4
        simp only [Option.some.injEq] at h4
        rw [h4, ← Int.add_assoc]

private theorem encAll_glue (e : Rotary) (a : Int) (n : Nat) : ∀ (s t : Seqs), s.length = t.length →
    (∀ row ∈ s, row.length = n) →
    encAll e a (List.zipWith (· ++ ·) s t) = List.zipWith (· ++ ·) (encAll e a s) (encAll e (a + n) t)
  | [], [], _, _ => rfl
  | [], _ :: _, h, _ => by simp at h
  | _ :: _, [], h, _ => by simp at h
  | r :: s, q :: t, h, hn => by
    have ih := encAll_glue e a n s t (by simpa using h) fun row hr => hn row (by simp [hr])
    simp only [encAll, List.zipWith_cons_cons, List.map_cons] at ih ⊢
    rw [ih, List.mapIdx_append, hn r (by simp)]
    congr 3
    funext j heads
    congr 3
    push_cast
    omega

private theorem glued_length (N : Nat) : ∀ pieces : List Seqs, (∀ s ∈ pieces, s.length = N) →
    (glued N pieces).length = N
  | [], _ => by simp [glued]
  | s :: rest, h => by
    have ih := glued_length N rest fun t ht => h t (by simp [ht])
    simp only [glued, List.foldr_cons, List.length_zipWith] at ih ⊢
    rw [ih, h s (by simp), Nat.min_self]

private theorem glued_shape (N E : Nat) : ∀ (pieces : List (Nat × Seqs)),
    (∀ s ∈ pieces, HasShape s.2 N s.1 E) →
    HasShape (glued N (pieces.map (·.2))) N ((pieces.map (·.1)).sum : Nat) E
  | [], _ => by
    refine ⟨by simp [glued], ?_⟩
    intro row hr
    simp only [glued, List.map_nil, List.foldr_nil] at hr
    rw [List.eq_of_mem_replicate hr]
    simp
  | (n, s) :: rest, h => by
    have ih := glued_shape N E rest fun t ht => h t (by simp [ht])
    have hs := h (n, s) (by simp)
    refine ⟨by rw [glued_length N _ (by
      intro t ht
      simp only [List.mem_map] at ht
      obtain ⟨u, hu, rfl⟩ := ht
      exact (h u hu).1)], ?_⟩
    intro row hr
    have hg : glued N (((n, s) :: rest).map (·.2)) =
        List.zipWith (· ++ ·) s (glued N (rest.map (·.2))) := rfl
    rw [hg] at hr
    generalize glued N (rest.map (·.2)) = t at ih hr
    simp only at hs
    obtain ⟨i, hi, rfl⟩ := List.getElem_of_mem hr
    simp only [List.length_zipWith] at hi
    have hi1 : i < s.length := by omega
    have hi2 : i < t.length := by omega
    rw [List.getElem_zipWith]
    have h1 := hs.2 s[i] (List.getElem_mem hi1)
    have h2 := ih.2 t[i] (List.getElem_mem hi2)
    refine ⟨?_, ?_⟩
    · rw [List.length_append]
      simp only [List.map_cons, List.sum_cons]
      have := h1.1
      have := h2.1
      omega
    · intro heads hh x hx
      rcases List.mem_append.1 hh with hh | hh
      · exact h1.2 heads hh x hx
      · exact h2.2 heads hh x hx

/-- **Pieces and whole.** A batch of `N` full rows is fed in pieces of any positive lengths, within the
limits of the encoder and of the bag. No piece raises, and the encoded pieces put together are the
batch encoded at once without a bag. -/
theorem C86_pieces {E M : Nat} {θ : ℝ} {init : Option (Nat → ℝ)} {e : Rotary}
    (he : Rotary.new E M θ init = some e) {N : Nat} (hN : 0 < N) (pieces : List (Nat × Seqs))
    (hne : pieces ≠ []) (hp : ∀ s ∈ pieces, 0 < s.1 ∧ HasShape s.2 N s.1 E) {maxSteps : Int} {b : Bag}
    (hb : Bag.new maxSteps none = some b) (hM : (pieces.map (·.1)).sum ≤ M)
    (hs : ((pieces.map (·.1)).sum : Nat) < maxSteps) :
    ∃ rs b', encodePieces e b (pieces.map (·.2)) = some (rs, b') ∧
      ∃ L, Layout.new [(N : Int), ((pieces.map (·.1)).sum : Nat)] none false = some L ∧
        e.forward false none L (glued N (pieces.map (·.2))) = some (glued N rs) := by
  obtain ⟨hE, rfl⟩ := rotary_new he
  have main : ∀ (pieces : List (Nat × Seqs)) (a : Nat) (b : Bag), b.stepNr = a →
      b.maxNumSteps = maxSteps → (∀ s ∈ pieces, 0 < s.1 ∧ HasShape s.2 N s.1 E) →
      a + (pieces.map (·.1)).sum ≤ M → (a : Int) + ((pieces.map (·.1)).sum : Nat) < maxSteps →
      ∃ rs b', encodePieces ⟨E, M, init.getD (defaultFreqs θ E)⟩ b (pieces.map (·.2)) = some (rs, b') ∧
        glued N rs = encAll ⟨E, M, init.getD (defaultFreqs θ E)⟩ a (glued N (pieces.map (·.2))) := by
    intro pieces
    induction pieces with
    | nil =>
      intro a b _ _ _ _ _
      exact ⟨[], b, rfl, by simp [glued, encAll]⟩
    | cons s rest ih =>
      intro a b h1 h2 hp hM hs
      obtain ⟨n, s⟩ := s
      simp only [List.map_cons, List.sum_cons] at hM hs
      obtain ⟨hn, hS⟩ := hp (n, s) (by simp)
      simp only at hn hS
      have hrow : ∀ row ∈ s, row.length = n := fun row hr => by have := (hS.2 row hr).1; omega
      have hhead : (s.headD []).length = n := by
        match s, hS, hrow with
        | [], hS, _ => exact absurd hS.1 (by simp; omega)
        | r :: s, _, hrow => exact hrow r (by simp)
      have h0 : startOf false (some b) = a := by simp [startOf, h1]
      obtain ⟨L, hL, hf⟩ := forward_full ⟨E, M, init.getD (defaultFreqs θ E)⟩ (training := false)
        (bag := some b) (N := N) (n := n) (E := E) (by omega) hN hn (by rw [h0]; show (a : Int) + n ≤ (M : Int); omega)
        s hS
      obtain ⟨rs, b', h3, h4⟩ := ih (a + n) { b with stepNr := b.stepNr + n } (by
        simp only [h1]; push_cast; rfl) h2 (fun t ht => hp t (by simp [ht])) (by omega)
        (by omega)
      refine ⟨encAll ⟨E, M, init.getD (defaultFreqs θ E)⟩ a s :: rs, b', ?_, ?_⟩
      · have hinc : b.increment (n : Int) = some { b with stepNr := b.stepNr + n } := by
          simp only [Bag.increment]
          rw [if_neg (by rw [h1, h2]; omega)]
        simp only [List.map_cons, encodePieces, hhead, hS.1, hL, Option.bind_eq_bind, Option.bind_some,
          hf, hinc, h3, h0]
      · simp only [List.map_cons, glued, List.foldr_cons] at h4 ⊢
        rw [encAll_glue _ _ n _ _ (by
          have := glued_length N (rest.map (·.2)) (by
            intro t ht
            simp only [List.mem_map] at ht
            obtain ⟨u, hu, rfl⟩ := ht
            exact (hp u (by simp [hu])).2.1)
          simp only [glued] at this
          rw [this, hS.1]) hrow, h4]
        push_cast
        rfl
  have hb' : b.stepNr = 0 ∧ b.maxNumSteps = maxSteps := by
    cases hb; exact ⟨rfl, rfl⟩
  obtain ⟨rs, b', h1, h2⟩ := main pieces 0 b (by simpa using hb'.1) hb'.2 hp (by omega) (by simpa using hs)
  refine ⟨rs, b', h1, ?_⟩
  have hpos : 0 < (pieces.map (·.1)).sum := by
    match pieces, hne, hp with
    | s :: rest, _, hp =>
      have := (hp s (by simp)).1
      simp only [List.map_cons, List.sum_cons]; omega
  obtain ⟨L, hL, hf⟩ := forward_full ⟨E, M, init.getD (defaultFreqs θ E)⟩ (training := false)
    (bag := none) (N := N) (n := (pieces.map (·.1)).sum) (E := E) (by simp [startOf]) hN hpos
    (by simp only [startOf, Bool.false_eq_true, if_false, Option.map_none, Option.getD_none]
        show (0 : Int) + _ ≤ (M : Int); omega) _
    (glued_shape N E pieces fun s hs => (hp s hs).2)
  refine ⟨L, hL, ?_⟩
  rw [hf, h2]
  rfl

/-- Two elements, then one, in a batch of one row. -/
example : HasShape [[[[1, 2]], [[3, 4]]]] 1 2 2 ∧ HasShape [[[[5, 6]]]] 1 1 2 ∧
    glued 1 [[[[[1, 2]], [[3, 4]]]], [[[[5, 6]]]]] = [[[[1, 2]], [[3, 4]], [[5, 6]]]] := by
  simp [HasShape, glued]

/-! ## The reference encoder and converted checkpoints -/

/-- The two halves of a vector interleaved: place `2k` has number `k` of the first half, place `2k + 1`
number `k` of the second half. -/
def interleaved (x : List ℝ) : List ℝ :=
  (List.range x.length).map fun i => x.getD (if i % 2 = 0 then i / 2 else x.length / 2 + i / 2) 0

private theorem interleaved_weave (n : Nat) (x : List ℝ) (h : x.length = 2 * n) :
    interleaved x = weave (x.take n) (x.drop n) := by
  have ha : (x.take n).length = n := by rw [List.length_take]; omega
  have hb : (x.drop n).length = n := by rw [List.length_drop]; omega
  apply List.ext_getElem?
  intro i
  rw [weave_get _ _ _ (by omega)]
  simp only [interleaved, List.getElem?_map]
  rcases Nat.lt_or_ge i x.length with hi | hi
  · rw [List.getElem?_range hi, Option.map_some, show x.length / 2 = n by omega]
    split
    · rw [List.getElem?_take, if_pos (by omega), List.getD_eq_getElem?_getD,
        List.getElem?_eq_getElem (by omega)]
      rfl
    · rw [List.getElem?_drop, List.getD_eq_getElem?_getD, List.getElem?_eq_getElem (by omega)]
      rfl
  · rw [List.getElem?_eq_none (by simpa using hi)]
    split
    · rw [List.getElem?_eq_none (by omega)]; rfl
    · rw [List.getElem?_eq_none (by omega)]; rfl

private theorem refHalves_length {cs ss a b : List ℝ} {n : Nat} (hc : cs.length = n)
    (hs : ss.length = n) (ha : a.length = n) (hb : b.length = n) :
    (refHalves cs ss a b).1.length = n ∧ (refHalves cs ss a b).2.length = n := by
  simp [refHalves, hc, hs, ha, hb]

private noncomputable def e_pow (θ : ℝ) (E k : Nat) : ℝ := θ ^ ((-2 : ℝ) * (k : ℝ) / (E : ℝ))

private theorem ref_row (E M : Nat) (θ : ℝ) (hθ : 0 < θ) (hE : E = 2 * (E / 2)) (r : Int) (x : List ℝ)
    (hx : x.length = E) :
    rotate (Rotary.row ⟨E, M, defaultFreqs θ E⟩ r) (interleaved x) =
      interleaved (refRotate E (RefRotary.row ⟨E, M, θ⟩ r) x) ∧
    (refRotate E (RefRotary.row ⟨E, M, θ⟩ r) x).length = E := by
  generalize hn : E / 2 = n at hE
  have ha : (x.take n).length = n := by rw [List.length_take]; omega
  have hb : (x.drop n).length = n := by rw [List.length_drop]; omega
  rw [interleaved_weave n x (by omega)]
  have hrow : ∃ row : List (ℝ × ℝ), row.length = n ∧ Rotary.row ⟨E, M, defaultFreqs θ E⟩ r = row ∧
      RefRotary.row ⟨E, M, θ⟩ r = (row.map Prod.fst ++ row.map Prod.fst,
        row.map Prod.snd ++ row.map Prod.snd) := by
    refine ⟨_, ?_, rfl, ?_⟩
    · rw [row_length]; exact hn
    · unfold RefRotary.row Rotary.row
      split
      · simp only [hn, List.map_replicate, List.replicate_append_replicate]
        rw [show n + n = E by omega]
      · simp only [hn, List.map_map]
        have key : ∀ k : Nat, e_pow θ E k = defaultFreqs θ E k := by
          intro k
          simp only [e_pow, defaultFreqs]
          rw [one_div, ← Real.rpow_neg hθ.le]
          congr 1
          push_cast
          ring
        simp only [e_pow] at key
        simp only [Function.comp_def, polar, key]
  obtain ⟨row, hl, h1, h2⟩ := hrow
  have hlen := refHalves_length (cs := row.map Prod.fst) (ss := row.map Prod.snd) (by simpa using hl)
    (by simpa using hl) ha hb
  rw [h1, h2, rotate_weave row _ _ (by omega) (by omega)]
  have h3 : refRotate E (row.map Prod.fst ++ row.map Prod.fst, row.map Prod.snd ++ row.map Prod.snd) x =
      (refHalves (row.map Prod.fst) (row.map Prod.snd) (x.take n) (x.drop n)).1 ++
      (refHalves (row.map Prod.fst) (row.map Prod.snd) (x.take n) (x.drop n)).2 := by
    have := refRotate_append n (row.map Prod.fst) (row.map Prod.snd) (x.take n) (x.drop n)
      (by simpa using hl) (by simpa using hl) ha hb
    rwa [List.take_append_drop, ← hE] at this
  rw [h3]
  refine ⟨?_, by rw [List.length_append, hlen.1, hlen.2]; omega⟩
  rw [interleaved_weave n _ (by rw [List.length_append, hlen.1, hlen.2]; omega),
    List.take_left' hlen.1, List.drop_left' hlen.1]

private theorem perElement_mapHeads {ρ σ : Type} (t : Int → ρ) (t' : Int → σ)
    (ap : ρ → List ℝ → List ℝ) (ap' : σ → List ℝ → List ℝ) (g : List ℝ → List ℝ) (P : List ℝ → Prop)
    (h : ∀ r x, P x → ap (t r) (g x) = g (ap' (t' r) x)) (rows : List (List Int)) (seqs : Seqs)
    (hP : ∀ row ∈ seqs, ∀ heads ∈ row, ∀ x ∈ heads, P x) :
    perElement t ap rows (mapHeads g seqs) = mapHeads g (perElement t' ap' rows seqs) := by
  apply List.ext_getElem
  · simp [perElement, mapHeads]
  · intro i h1 h2
    simp only [perElement, mapHeads, List.length_zipWith, List.length_map] at h1 h2
    simp only [perElement, mapHeads, List.getElem_zipWith, List.getElem_map]
    apply List.ext_getElem
    · simp
    · intro j h3 h4
      simp only [List.length_zipWith, List.length_map] at h3 h4
      simp only [List.getElem_zipWith, List.getElem_map, List.map_map]
      apply List.map_congr_left
      intro x hx
      exact h _ _ (hP _ (List.getElem_mem (by omega)) _ (List.getElem_mem (by omega)) x hx)

/-- **The reference encoder** computes the same up to the order of the numbers: for every layout and
bag, interleaving the halves of every head and encoding with `RotaryEncoder` gives what
`ReferenceRotaryEncoder` gives with its halves interleaved; each raises if the other does. -/
theorem C86_reference {E M : Nat} {θ : ℝ} (hθ : 0 < θ) {e : Rotary} {r : RefRotary}
    (he : Rotary.new E M θ none = some e) (hr : RefRotary.new E M θ = some r) (training : Bool)
    (bag : Option Bag) (L : Layout) (seqs : Seqs)
    (hx : ∀ row ∈ seqs, ∀ heads ∈ row, ∀ x ∈ heads, x.length = E) :
    e.forward training bag L (mapHeads interleaved seqs) =
      (r.forward training bag L seqs).map (mapHeads interleaved) := by
  obtain ⟨hE, rfl⟩ := rotary_new he
  have : r = ⟨E, M, θ⟩ := by
    unfold RefRotary.new at hr
    split at hr <;> cases hr
    rfl
  subst this
  simp only [Rotary.forward, RefRotary.forward, Option.getD_none]
  cases L.tableRows M training bag with
  | none => rfl
  | some rows =>
    simp only [Option.bind_eq_bind, Option.bind_some, Option.map_some, Option.some.injEq]
    exact perElement_mapHeads _ _ _ _ interleaved (fun x => x.length = E)
      (fun r x h => (ref_row E M θ hθ hE r x h).1) rows seqs hx

example : (∃ e, Rotary.new 4 8 10000 none = some e) ∧ (∃ r, RefRotary.new 4 8 10000 = some r) ∧
    interleaved [1, 2, 3, 4] = [1, 3, 2, 4] :=
  ⟨⟨_, rfl⟩, ⟨_, rfl⟩, by simp [interleaved, List.range_succ]⟩

private theorem permute_view {α : Type} {H n : Nat} {w : List α} (hw : w.length = H * (2 * n)) :
    ∃ w', permuteRotary H (2 * n) w = some w' ∧ w'.length = H * (2 * n) ∧
      view H (2 * n) w' = (view H (2 * n) w).map fun head => weave (head.take n) (head.drop n) := by
  have hd : 2 * n / 2 = n := by omega
  refine ⟨((view H (2 * n) w).map fun head => weave (head.take n) (head.drop n)).flatten, ?_, ?_, ?_⟩
  · simp only [permuteRotary, hd]
    rw [if_pos hw, List.flatMap_def]
    congr 2
    apply List.map_congr_left
    intro head hh
    exact transpose_two n head (view_mem_length _ _ _ hw head hh)
  all_goals
    have hlen : ∀ r ∈ (view H (2 * n) w).map fun head => weave (head.take n) (head.drop n),
        r.length = 2 * n := by
      intro r hr
      simp only [List.mem_map] at hr
      obtain ⟨head, hh, rfl⟩ := hr
      have := view_mem_length _ _ _ hw head hh
      rw [weave_length _ _ (by rw [List.length_take, List.length_drop]; omega),
        List.length_take, List.length_drop]
      omega
  · rw [flatten_length _ _ hlen, List.length_map, view_length]
  · exact flatten_view _ _ _ (by simp [view]) hlen

private theorem permuteBack_view {α : Type} {H n : Nat} {w : List α} (hw : w.length = H * (2 * n)) :
    permuteRotaryBack H (2 * n) w =
      some ((view H (2 * n) w).flatMap fun head => (unweave head).1 ++ (unweave head).2) := by
  have hd : 2 * n / 2 = n := by omega
  simp only [permuteRotaryBack, hd, Nat.mul_comm n 2]
  rw [if_pos hw, List.flatMap_def, List.flatMap_def]
  congr 2
  apply List.map_congr_left
  intro head hh
  exact transpose_pairs n head (view_mem_length _ _ _ hw head hh)

private theorem view_get {α : Type} {H m : Nat} {w : List α} {i j : Nat} (hi : i < H) (hj : j < m) :
    w[i * m + j]? = (view H m w)[i]?.bind fun head => head[j]? := by
  simp only [view, List.getElem?_map, List.getElem?_range hi, Option.map_some, Option.bind_some,
    List.getElem?_take, if_pos hj, List.getElem?_drop]

/-- **Reordering the rows.** For an even head dimension `D`, converting a query or key projection of a
Hugging Face LLaMA checkpoint raises exactly if it does not have `H * D` rows. Otherwise row `2k` of
every head is the old row `k` of the head and row `2k + 1` the old row `D/2 + k`. Converting to the
Hugging Face format and converting from it undo each other. -/
theorem C86_permute {α : Type} (H D : Nat) (hD : D % 2 = 0) (w : List α) :
    (permuteRotary H D w = none ↔ w.length ≠ H * D) ∧
    (permuteRotaryBack H D w = none ↔ w.length ≠ H * D) ∧
    (∀ w', permuteRotary H D w = some w' → w'.length = w.length ∧
      (∀ i k, i < H → k < D / 2 → w'[i * D + 2 * k]? = w[i * D + k]? ∧
        w'[i * D + (2 * k + 1)]? = w[i * D + (D / 2 + k)]?) ∧
      permuteRotaryBack H D w' = some w) ∧
    (∀ w', permuteRotaryBack H D w = some w' → permuteRotary H D w' = some w) := by
  obtain ⟨n, rfl⟩ : ∃ n, D = 2 * n := ⟨D / 2, by omega⟩
  have hd : 2 * n / 2 = n := by omega
  have hback : ∀ w' : List α, permuteRotary H (2 * n) w = some w' → w.length = H * (2 * n) := by
    intro w' h
    simp only [permuteRotary, hd] at h
    split at h
    · assumption
    · cases h
  refine ⟨?_, ?_, ?_, ?_⟩
  · simp only [permuteRotary, hd]
    split <;> simp_all
  · simp only [permuteRotaryBack, hd, Nat.mul_comm n 2]
    split <;> simp_all
  · intro w' h
    have hw := hback w' h
    obtain ⟨w'', h1, h2, h3⟩ := permute_view hw
    rw [h] at h1
    cases h1
    refine ⟨by omega, ?_, ?_⟩
    · intro i k hi hk
      rw [hd] at hk ⊢
      rw [view_get hi (by omega : 2 * k < 2 * n), view_get hi (by omega : 2 * k + 1 < 2 * n),
        view_get (m := 2 * n) hi (by omega : k < 2 * n),
        view_get (m := 2 * n) hi (by omega : n + k < 2 * n), h3, List.getElem?_map]
      have hvi : i < (view H (2 * n) w).length := by simpa [view] using hi
      have hh := view_mem_length _ _ _ hw _ (List.getElem_mem hvi)
      rw [List.getElem?_eq_getElem hvi]
      generalize (view H (2 * n) w)[i] = head at hh
      simp only [Option.map_some, Option.bind_some]
      rw [weave_get _ _ _ (by rw [List.length_take, List.length_drop]; omega),
        weave_get _ _ _ (by rw [List.length_take, List.length_drop]; omega), if_pos (by omega),
        if_neg (by omega), List.getElem?_take, if_pos (by omega), List.getElem?_drop]
      exact ⟨by congr 1; omega, by congr 1; omega⟩
    · rw [permuteBack_view h2, h3, List.flatMap_def, List.map_map]
      congr 1
      have : ∀ head ∈ view H (2 * n) w, ((fun head => (unweave head).1 ++ (unweave head).2) ∘
          fun head => weave (head.take n) (head.drop n)) head = head := by
        intro head hh
        have := view_mem_length _ _ _ hw head hh
        simp only [Function.comp]
        rw [unweave_weave _ _ (by rw [List.length_take, List.length_drop]; omega),
          List.take_append_drop]
      rw [List.map_congr_left this, List.map_id', view_flatten _ _ _ hw]
  · intro w' h
    have hw : w.length = H * (2 * n) := by
      simp only [permuteRotaryBack, hd, Nat.mul_comm n 2] at h
      split at h
      · assumption
      · cases h
    rw [permuteBack_view hw] at h
    cases h
    have hlen : ∀ r ∈ (view H (2 * n) w).map fun head => (unweave head).1 ++ (unweave head).2,
        r.length = 2 * n := by
      intro r hr
      simp only [List.mem_map] at hr
      obtain ⟨head, hh, rfl⟩ := hr
      have := weave_unweave n head (view_mem_length _ _ _ hw head hh)
      rw [List.length_append, this.2.1, this.2.2]; omega
    have hl2 : ((view H (2 * n) w).flatMap fun head => (unweave head).1 ++ (unweave head).2).length =
        H * (2 * n) := by
      rw [List.flatMap_def, flatten_length _ _ hlen, List.length_map, view_length]
    obtain ⟨w'', h1, h2, h3⟩ := permute_view hl2
    rw [h1]
    congr 1
    rw [← view_flatten _ _ _ h2, h3, List.flatMap_def,
      flatten_view _ _ _ (by simp [view]) hlen, List.map_map]
    have : ∀ head ∈ view H (2 * n) w, ((fun head => weave (head.take n) (head.drop n)) ∘
        fun head => (unweave head).1 ++ (unweave head).2) head = head := by
      intro head hh
      have := weave_unweave n head (view_mem_length _ _ _ hw head hh)
      simp only [Function.comp]
      rw [List.take_left' this.2.1, List.drop_left' this.2.1, this.1]
    rw [List.map_congr_left this, List.map_id', view_flatten _ _ _ hw]

example : permuteRotary 2 4 [0, 1, 2, 3, 10, 11, 12, 13] = some [0, 2, 1, 3, 10, 12, 11, 13] ∧
    permuteRotaryBack 2 4 [0, 2, 1, 3, 10, 12, 11, 13] = some [0, 1, 2, 3, 10, 11, 12, 13] := by decide

/-- The heads of the projections of a batch of inputs. -/
def projected (H D : Nat) (w : List (List ℝ)) (inputs : List (List (List ℝ))) : Seqs :=
  inputs.map (List.map fun x => headsOf H D (linear w x))

private theorem projected_permuted {H n : Nat} {w w' : List (List ℝ)}
    (hw : permuteRotary H (2 * n) w = some w') (inputs : List (List (List ℝ))) :
    projected H (2 * n) w' inputs = mapHeads interleaved (projected H (2 * n) w inputs) := by
  have hlen : w.length = H * (2 * n) := by
    simp only [permuteRotary, show 2 * n / 2 = n by omega] at hw
    split at hw
    · assumption
    · cases hw
  obtain ⟨w'', h1, h2, h3⟩ := permute_view hlen
  rw [hw] at h1
  cases h1
  simp only [projected, mapHeads, List.map_map]
  apply List.map_congr_left
  intro row _
  simp only [Function.comp, List.map_map]
  apply List.map_congr_left
  intro x _
  simp only [Function.comp, headsOf, linear]
  rw [view_map, view_map, h3, List.map_map, List.map_map]
  apply List.map_congr_left
  intro head hh
  have := view_mem_length _ _ _ hlen head hh
  simp only [Function.comp]
  rw [interleaved_weave n _ (by simpa using this), weave_map, List.map_take, List.map_drop]

private theorem projected_length {H D : Nat} {w : List (List ℝ)} (hw : w.length = H * D)
    (inputs : List (List (List ℝ))) : ∀ row ∈ projected H D w inputs, ∀ heads ∈ row, ∀ x ∈ heads,
    x.length = D := by
  intro row hr heads hh x hx
  simp only [projected, List.mem_map] at hr
  obtain ⟨row', -, rfl⟩ := hr
  simp only [List.mem_map] at hh
  obtain ⟨y, -, rfl⟩ := hh
  exact view_mem_length H D _ (by simpa [linear] using hw) x hx

private theorem entry_mapHeads (g : List ℝ → List ℝ) (seqs : Seqs) (i j h : Nat) :
    entry (mapHeads g seqs) i j h = (entry seqs i j h).map g := by
  simp only [entry, mapHeads, List.getElem?_map]
  cases seqs[i]? with
  | none => rfl
  | some row =>
    simp only [Option.map_some, Option.bind_some, List.getElem?_map]
    cases row[j]? with
    | none => rfl
    | some hs => simp only [Option.map_some, Option.bind_some, List.getElem?_map]

private theorem ref_entry_length {E M : Nat} {θ : ℝ} (hθ : 0 < θ) (hE : E = 2 * (E / 2))
    {training : Bool} {bag : Option Bag} {L : Layout} {seqs out : Seqs}
    (hx : ∀ row ∈ seqs, ∀ heads ∈ row, ∀ x ∈ heads, x.length = E)
    (h : RefRotary.forward ⟨E, M, θ⟩ training bag L seqs = some out) {i j k : Nat} {y : List ℝ}
    (hy : entry out i j k = some y) : y.length = E := by
  simp only [RefRotary.forward, Option.bind_eq_bind, Option.bind_eq_some_iff, Option.some.injEq] at h
  obtain ⟨rows, -, rfl⟩ := h
  rw [perElement_get] at hy
  simp only [Option.bind_eq_some_iff, Option.map_eq_some_iff] at hy
  obtain ⟨r, -, x, hx', rfl⟩ := hy
  refine (ref_row E M θ hθ hE r x ?_).2
  · simp only [entry, Option.bind_eq_some_iff] at hx'
    obtain ⟨heads, ⟨row, h1, h2⟩, h3⟩ := hx'
    exact hx row (List.mem_of_getElem? h1) heads (List.mem_of_getElem? h2) x (List.mem_of_getElem? h3)

/-- **Converted checkpoints give the same scores.** Take query and key weights in the Hugging Face
order, with any numbers of query heads and key heads of an even dimension `D`, and convert them. For
all inputs, layouts and bags the converted weights followed by `RotaryEncoder` return exactly when the
original weights followed by the reference encoder (which turns the two halves of a head against each
other, as Hugging Face does) return, and then the inner product of every query head with every key head
is the same. -/
theorem C86_converted {Hq Hk D M : Nat} {θ : ℝ} (hθ : 0 < θ) {e : Rotary} {r : RefRotary}
    (he : Rotary.new D M θ none = some e) (hr : RefRotary.new D M θ = some r)
    {wq wq' wk wk' : List (List ℝ)} (hq : permuteRotary Hq D wq = some wq')
    (hk : permuteRotary Hk D wk = some wk') (training : Bool) (bag : Option Bag) (Lq Lk : Layout)
    (qs ks : List (List (List ℝ))) :
    ((e.forward training bag Lq (projected Hq D wq' qs)).isSome =
      (r.forward training bag Lq (projected Hq D wq qs)).isSome) ∧
    ((e.forward training bag Lk (projected Hk D wk' ks)).isSome =
      (r.forward training bag Lk (projected Hk D wk ks)).isSome) ∧
    ∀ oq oq' ok ok', e.forward training bag Lq (projected Hq D wq' qs) = some oq' →
      r.forward training bag Lq (projected Hq D wq qs) = some oq →
      e.forward training bag Lk (projected Hk D wk' ks) = some ok' →
      r.forward training bag Lk (projected Hk D wk ks) = some ok →
      ∀ i j h i' j' h',
        (entry oq' i j h).bind (fun a => (entry ok' i' j' h').map (dotOf a)) =
        (entry oq i j h).bind (fun a => (entry ok i' j' h').map (dotOf a)) := by
  obtain ⟨hE, rfl⟩ := rotary_new he
  have : r = ⟨D, M, θ⟩ := by
    unfold RefRotary.new at hr
    split at hr <;> cases hr
    rfl
  subst this
  generalize hn : D / 2 = n at hE
  subst hE
  have hlen : ∀ {H : Nat} {w w' : List (List ℝ)}, permuteRotary H (2 * n) w = some w' →
      w.length = H * (2 * n) := by
    intro H w w' hw
    simp only [permuteRotary, hn] at hw
    split at hw
    · assumption
    · cases hw
  have h1 : ∀ (H : Nat) (w w' : List (List ℝ)) (L : Layout) (xs : List (List (List ℝ))),
      permuteRotary H (2 * n) w = some w' →
      Rotary.forward ⟨2 * n, M, (none : Option (Nat → ℝ)).getD (defaultFreqs θ (2 * n))⟩ training bag L
        (projected H (2 * n) w' xs) =
      (RefRotary.forward ⟨2 * n, M, θ⟩ training bag L (projected H (2 * n) w xs)).map
        (mapHeads interleaved) := by
    intro H w w' L xs hw
    rw [projected_permuted hw]
    exact C86_reference hθ he hr training bag L _ (projected_length (hlen hw) xs)
  refine ⟨by rw [h1 Hq wq wq' Lq qs hq, Option.isSome_map], by
    rw [h1 Hk wk wk' Lk ks hk, Option.isSome_map], ?_⟩
  intro oq oq' ok ok' e1 e2 e3 e4 i j h i' j' h'
  rw [h1 Hq wq wq' Lq qs hq, e2, Option.map_some] at e1
  rw [h1 Hk wk wk' Lk ks hk, e4, Option.map_some] at e3
  cases e1
  cases e3
  rw [entry_mapHeads, entry_mapHeads]
  cases hA : entry oq i j h with
  | none => rfl
  | some a =>
    cases hB : entry ok i' j' h' with
    | none => rfl
    | some b =>
      simp only [Option.map_some, Option.bind_some, Option.some.injEq]
      have la := ref_entry_length hθ (by omega) (projected_length (hlen hq) qs) e2 hA
      have lb := ref_entry_length hθ (by omega) (projected_length (hlen hk) ks) e4 hB
      rw [interleaved_weave n a la, interleaved_weave n b lb]
      simp only [dotOf]
      rw [weave_dot _ _ _ _ (by rw [List.length_take, List.length_drop]; omega)
        (by rw [List.length_take, List.length_drop]; omega)
        (by rw [List.length_take, List.length_take]; omega), List.take_append_drop,
        List.take_append_drop]

/-- One query head and one key head of dimension 2, inputs of dimension 1. -/
example : (∃ e, Rotary.new 2 8 10000 none = some e) ∧ (∃ r, RefRotary.new 2 8 10000 = some r) ∧
    permuteRotary 1 2 [[(1 : ℝ)], [2]] = some [[1], [2]] := ⟨⟨_, rfl⟩, ⟨_, rfl⟩, rfl⟩

/-! ## Two frequencies -/

private theorem entry_cat (a b : Seqs) (i j h : Nat) :
    entry (catHeads a b) i j h =
      (entry a i j h).bind fun x => (entry b i j h).map fun y => x ++ y := by
  simp only [entry, catHeads, List.getElem?_zipWith]
  cases a[i]? with
  | none => rfl
  | some r =>
    cases b[i]? with
    | none =>
      simp only [Option.bind_some, Option.bind_none, Option.map_none]
      cases (r[j]?.bind fun heads => heads[h]?) <;> rfl
    | some q =>
      simp only [Option.bind_some, List.getElem?_zipWith]
      cases r[j]? with
      | none => rfl
      | some hs =>
        cases q[j]? with
        | none =>
          simp only [Option.bind_some, Option.bind_none, Option.map_none]
          cases hs[h]? <;> rfl
        | some ks =>
          simp only [Option.bind_some, List.getElem?_zipWith]
          cases hs[h]? <;> cases ks[h]? <;> rfl

private theorem dual_parts {e : DualRotary} {p : Int} {x y : List ℝ} (h : EncodesAt e.forward p x y) :
    ∃ y₁ y₂, y = y₁ ++ y₂ ∧ EncodesAt e.ropeStd.forward p (x.take (x.length / 2)) y₁ ∧
      EncodesAt e.ropeLong.forward p (x.drop (x.length / 2)) y₂ := by
  have split : ∀ {training bag L seqs out} {i j k : Nat} {y : List ℝ},
      e.forward training bag L seqs = some out → entry out i j k = some y →
      ∃ o₁ o₂ y₁ y₂, y = y₁ ++ y₂ ∧
        e.ropeStd.forward training bag L (mapHeads (fun x => x.take (x.length / 2)) seqs) = some o₁ ∧
        e.ropeLong.forward training bag L (mapHeads (fun x => x.drop (x.length / 2)) seqs) = some o₂ ∧
        entry o₁ i j k = some y₁ ∧ entry o₂ i j k = some y₂ := by
    intro training bag L seqs out i j k y hf hy
    simp only [DualRotary.forward, Option.bind_eq_bind, Option.bind_eq_some_iff,
      Option.some.injEq] at hf
    obtain ⟨o₁, h1, o₂, h2, rfl⟩ := hf
    rw [entry_cat] at hy
    simp only [Option.bind_eq_some_iff, Option.map_eq_some_iff] at hy
    obtain ⟨y₁, h3, y₂, h4, rfl⟩ := hy
    exact ⟨o₁, o₂, y₁, y₂, rfl, h1, h2, h3, h4⟩
  cases h with
  | padded h0 hL hf hin hj hx hy =>
    obtain ⟨o₁, o₂, y₁, y₂, rfl, h1, h2, h3, h4⟩ := split hf hy
    exact ⟨y₁, y₂, rfl, .padded h0 hL h1 hin hj (by rw [entry_mapHeads, hx]; rfl) h3,
      .padded h0 hL h2 hin hj (by rw [entry_mapHeads, hx]; rfl) h4⟩
  | packed h0 hL hf hin hj hq hx hy =>
    obtain ⟨o₁, o₂, y₁, y₂, rfl, h1, h2, h3, h4⟩ := split hf hy
    exact ⟨y₁, y₂, rfl, .packed h0 hL h1 hin hj hq (by rw [entry_mapHeads, hx]; rfl) h3,
      .packed h0 hL h2 hin hj hq (by rw [entry_mapHeads, hx]; rfl) h4⟩

/-- **The dual encoder** can be made exactly if four divides the dimension. The first half of a head is
turned with the frequencies of `theta` for dimension `E / 2`, the second half with those of
`dual_theta`; and scores depend only on the distance. -/
theorem C86_dual (E M : Nat) (θ δ : ℝ) (hθ : 0 < θ) (hδ : 0 < δ) :
    ((∃ e, DualRotary.new E M θ δ = some e) ↔ E % 4 = 0) ∧
    ∀ e, DualRotary.new E M θ δ = some e →
      (∀ p x y, x.length = E → EncodesAt e.forward p x y →
        y = turned (fun k => θ ^ (-(2 * (k : ℝ)) / ((E / 2 : Nat) : ℝ))) p (x.take (E / 2)) ++
          turned (fun k => δ ^ (-(2 * (k : ℝ)) / ((E / 2 : Nat) : ℝ))) p (x.drop (E / 2))) ∧
      ∃ g : Int → List ℝ → List ℝ → ℝ,
        (∀ p q x y x' y', x.length = E → y.length = E → EncodesAt e.forward p x x' →
          EncodesAt e.forward q y y' → dotOf x' y' = g (p - q) x y) ∧
        (∀ x y, x.length = E → y.length = E → g 0 x y = dotOf x y) := by
  have hnew : ∀ e, DualRotary.new E M θ δ = some e → E % 4 = 0 ∧
      Rotary.new (E / 2) M θ none = some e.ropeStd ∧ Rotary.new (E / 2) M δ none = some e.ropeLong := by
    intro e he
    unfold DualRotary.new at he
    split at he
    · cases he
    · simp only [Option.bind_eq_bind, Option.bind_eq_some_iff, Option.some.injEq] at he
      obtain ⟨a, h1, b, h2, rfl⟩ := he
      exact ⟨by omega, h1, h2⟩
  refine ⟨⟨fun ⟨e, he⟩ => (hnew e he).1, ?_⟩, ?_⟩
  · intro h
    have h2 : ∀ t, Rotary.new (E / 2) M t none = some ⟨E / 2, M, defaultFreqs t (E / 2)⟩ := by
      intro t
      unfold Rotary.new
      rw [if_neg (by omega)]
      rfl
    unfold DualRotary.new
    rw [if_neg (by omega)]
    simp only [h2]
    exact ⟨_, rfl⟩
  · intro e he
    obtain ⟨h4, h1, h2⟩ := hnew e he
    have take_len : ∀ x : List ℝ, x.length = E → (x.take (E / 2)).length = E / 2 ∧
        (x.drop (E / 2)).length = E / 2 := by
      intro x hx
      rw [List.length_take, List.length_drop]; omega
    constructor
    · intro p x y hx h
      obtain ⟨y₁, y₂, rfl, e1, e2⟩ := dual_parts h
      rw [hx] at e1 e2
      have r1 := (C86_rotation (E / 2) M θ hθ none).2 _ h1 p _ _ (take_len x hx).1 e1
      have r2 := (C86_rotation (E / 2) M δ hδ none).2 _ h2 p _ _ (take_len x hx).2 e2
      rw [r1, r2]
      rfl
    · obtain ⟨g₁, a1, b1⟩ := C86_scores h1
      obtain ⟨g₂, a2, b2⟩ := C86_scores h2
      refine ⟨fun d x y => g₁ d (x.take (E / 2)) (y.take (E / 2)) +
        g₂ d (x.drop (E / 2)) (y.drop (E / 2)), ?_, ?_⟩
      · intro p q x y x' y' hx hy e1 e2
        obtain ⟨x₁, x₂, rfl, c1, c2⟩ := dual_parts e1
        obtain ⟨y₁, y₂, rfl, d1, d2⟩ := dual_parts e2
        rw [hx] at c1 c2
        rw [hy] at d1 d2
        have l1 := take_len x hx
        have l2 := take_len y hy
        simp only
        rw [← a1 p q _ _ _ _ l1.1 l2.1 c1 d1, ← a2 p q _ _ _ _ l1.2 l2.2 c2 d2]
        simp only [dotOf]
        have hl : x₁.length = y₁.length := by
          rw [(C86_rotation (E / 2) M θ hθ none).2 _ h1 p _ _ l1.1 c1,
            (C86_rotation (E / 2) M θ hθ none).2 _ h1 q _ _ l2.1 d1]
          simp only [turned, List.length_map, List.length_range, l1.1, l2.1]
        rw [List.zipWith_append hl, List.sum_append]
      · intro x y hx hy
        have l1 := take_len x hx
        have l2 := take_len y hy
        simp only
        rw [b1 _ _ l1.1 l2.1, b2 _ _ l1.2 l2.2]
        simp only [dotOf]
        rw [← List.sum_append, ← List.zipWith_append (by rw [l1.1, l2.1]), List.take_append_drop,
          List.take_append_drop]

example : ∃ e, DualRotary.new 4 8 10000 100000 = some e ∧ ∃ y, EncodesAt e.forward 1 [1, 2, 3, 4] y := by
  refine ⟨_, rfl, ?_⟩
  have h := EncodesAt.padded
    (fwd := DualRotary.forward ⟨⟨2, 8, defaultFreqs 10000 2⟩, ⟨2, 8, defaultFreqs 100000 2⟩⟩)
    (training := true) (bag := none) (w := 3) (lens := [2])
    (L := (Layout.new [1, 3] (some [2]) false).get rfl)
    (seqs := [[[[5, 6, 7, 8]], [[1, 2, 3, 4]], [[0, 0, 0, 0]]]]) (i := 0) (j := 1) (h := 0)
    (n := 2) (by decide) rfl rfl rfl (by decide) rfl rfl
  exact ⟨_, h⟩

/-! ## Scaled frequencies -/

private theorem scaled_eq (c : RopeScale) (hl : 0 < c.lowFreqFactor)
    (hlh : c.lowFreqFactor < c.highFreqFactor) (hc : 0 < c.originalContextLength) {f : ℝ} (hf : 0 < f) :
    c.scaled f = f * (1 / c.factor + max 0 (min 1 ((c.originalContextLength * f / (2 * Real.pi) -
      c.lowFreqFactor) / (c.highFreqFactor - c.lowFreqFactor))) * (1 - 1 / c.factor)) := by
  have hpi := Real.pi_pos
  have hh : 0 < c.highFreqFactor := by linarith
  have hd : 0 < c.highFreqFactor - c.lowFreqFactor := by linarith
  have hw : c.originalContextLength / (2 * Real.pi / f) = c.originalContextLength * f / (2 * Real.pi) := by
    field_simp
  have c1 : 2 * Real.pi / f < c.originalContextLength / c.highFreqFactor ↔
      c.highFreqFactor < c.originalContextLength * f / (2 * Real.pi) := by
    rw [div_lt_div_iff₀ hf hh, lt_div_iff₀ (by positivity)]
    constructor <;> intro h <;> linarith
  have c2 : c.originalContextLength / c.lowFreqFactor < 2 * Real.pi / f ↔
      c.originalContextLength * f / (2 * Real.pi) < c.lowFreqFactor := by
    rw [div_lt_div_iff₀ hl hf, div_lt_iff₀ (by positivity)]
    constructor <;> intro h <;> linarith
  simp only [RopeScale.scaled, gt_iff_lt, c1, c2, hw]
  generalize c.originalContextLength * f / (2 * Real.pi) = u
  split
  · rename_i h
    have : 1 ≤ (u - c.lowFreqFactor) / (c.highFreqFactor - c.lowFreqFactor) := by
      rw [le_div_iff₀ hd]; linarith
    rw [min_eq_left this, max_eq_right zero_le_one]
    ring
  · rename_i h
    split
    · rename_i h'
      have : (u - c.lowFreqFactor) / (c.highFreqFactor - c.lowFreqFactor) ≤ 0 :=
        div_nonpos_of_nonpos_of_nonneg (by linarith) hd.le
      rw [max_eq_left (le_trans (min_le_right _ _) this)]
      ring
    · rename_i h'
      have h1 : 0 ≤ (u - c.lowFreqFactor) / (c.highFreqFactor - c.lowFreqFactor) :=
        div_nonneg (by linarith) hd.le
      have h2 : (u - c.lowFreqFactor) / (c.highFreqFactor - c.lowFreqFactor) ≤ 1 := by
        rw [div_le_one hd]; linarith
      rw [min_eq_right h2, max_eq_right h1]
      ring

/-- **Scaled frequencies.** With a factor of at least one and `low < high` frequency factors, a
frequency whose wavelength is below `context / high` is kept, one whose wavelength is above
`context / low` is divided by the factor, and the others lie between the two. At the two borders there
is no jump, and the order of the frequencies is kept. -/
theorem C86_scaled (c : RopeScale) (hs : 1 ≤ c.factor) (hl : 0 < c.lowFreqFactor)
    (hlh : c.lowFreqFactor < c.highFreqFactor) (hc : 0 < c.originalContextLength) {f : ℝ} (hf : 0 < f) :
    (2 * Real.pi / f ≤ c.originalContextLength / c.highFreqFactor → c.scaled f = f) ∧
    (c.originalContextLength / c.lowFreqFactor ≤ 2 * Real.pi / f → c.scaled f = f / c.factor) ∧
    f / c.factor ≤ c.scaled f ∧ c.scaled f ≤ f ∧
    ∀ g, f < g → c.scaled f < c.scaled g := by
  have hpi := Real.pi_pos
  have hh : 0 < c.highFreqFactor := by linarith
  have hd : 0 < c.highFreqFactor - c.lowFreqFactor := by linarith
  have hs0 : 0 < c.factor := by linarith
  have hinv : 1 / c.factor ≤ 1 := by rw [div_le_one hs0]; exact hs
  have hinv0 : 0 < 1 / c.factor := by positivity
  have hb : ∀ t : ℝ, 0 ≤ max 0 (min 1 t) ∧ max 0 (min 1 t) ≤ 1 :=
    fun t => ⟨le_max_left _ _, max_le zero_le_one (min_le_left _ _)⟩
  refine ⟨?_, ?_, ?_, ?_, ?_⟩
  · intro h
    rw [div_le_div_iff₀ hf hh] at h
    rw [scaled_eq c hl hlh hc hf]
    have : 1 ≤ (c.originalContextLength * f / (2 * Real.pi) - c.lowFreqFactor) /
        (c.highFreqFactor - c.lowFreqFactor) := by
      rw [le_div_iff₀ hd]
      have : c.highFreqFactor ≤ c.originalContextLength * f / (2 * Real.pi) := by
        rw [le_div_iff₀ (by positivity)]; linarith
      linarith
    rw [min_eq_left this, max_eq_right zero_le_one]
    ring
  · intro h
    rw [div_le_div_iff₀ hl hf] at h
    rw [scaled_eq c hl hlh hc hf]
    have : (c.originalContextLength * f / (2 * Real.pi) - c.lowFreqFactor) /
        (c.highFreqFactor - c.lowFreqFactor) ≤ 0 := by
      refine div_nonpos_of_nonpos_of_nonneg ?_ hd.le
      have : c.originalContextLength * f / (2 * Real.pi) ≤ c.lowFreqFactor := by
        rw [div_le_iff₀ (by positivity)]; linarith
      linarith
    rw [max_eq_left (le_trans (min_le_right _ _) this)]
    ring
  · rw [scaled_eq c hl hlh hc hf, div_eq_mul_one_div]
    have := mul_nonneg (hb ((c.originalContextLength * f / (2 * Real.pi) - c.lowFreqFactor) /
      (c.highFreqFactor - c.lowFreqFactor))).1 (by linarith : 0 ≤ 1 - 1 / c.factor)
    exact mul_le_mul_of_nonneg_left (by linarith) hf.le
  · rw [scaled_eq c hl hlh hc hf]
    have := mul_le_mul_of_nonneg_right (hb ((c.originalContextLength * f / (2 * Real.pi) -
      c.lowFreqFactor) / (c.highFreqFactor - c.lowFreqFactor))).2 (by linarith : 0 ≤ 1 - 1 / c.factor)
    calc _ ≤ f * 1 := mul_le_mul_of_nonneg_left (by linarith) hf.le
      _ = f := mul_one f
  · intro g hg
    rw [scaled_eq c hl hlh hc hf, scaled_eq c hl hlh hc (hf.trans hg)]
    have hu : (c.originalContextLength * f / (2 * Real.pi) - c.lowFreqFactor) /
        (c.highFreqFactor - c.lowFreqFactor) ≤
        (c.originalContextLength * g / (2 * Real.pi) - c.lowFreqFactor) /
        (c.highFreqFactor - c.lowFreqFactor) := by gcongr
    have hm := max_le_max (le_refl (0 : ℝ)) (min_le_min (le_refl (1 : ℝ)) hu)
    have h1 := (hb ((c.originalContextLength * f / (2 * Real.pi) - c.lowFreqFactor) /
        (c.highFreqFactor - c.lowFreqFactor))).1
    generalize max 0 (min 1 ((c.originalContextLength * f / (2 * Real.pi) - c.lowFreqFactor) /
        (c.highFreqFactor - c.lowFreqFactor))) = a at hm h1
    generalize max 0 (min 1 ((c.originalContextLength * g / (2 * Real.pi) - c.lowFreqFactor) /
        (c.highFreqFactor - c.lowFreqFactor))) = b at hm
    have h2 := mul_le_mul_of_nonneg_right hm (by linarith : 0 ≤ 1 - 1 / c.factor)
    have h3 := mul_nonneg h1 (by linarith : 0 ≤ 1 - 1 / c.factor)
    exact mul_lt_mul hg (by linarith) (by linarith) (by linarith)

/-- The configuration of LLaMA 3.1. -/
example : (1 : ℝ) ≤ (⟨8, 1, 4, 8192⟩ : RopeScale).factor ∧
    (⟨8, 1, 4, 8192⟩ : RopeScale).lowFreqFactor < (⟨8, 1, 4, 8192⟩ : RopeScale).highFreqFactor := by
  norm_num

/-- **Frequencies of LLaMA 3.1** are positive and fall from pair to pair, for `theta > 1`. -/
theorem C86_llama (c : RopeScale) (hs : 1 ≤ c.factor) (hl : 0 < c.lowFreqFactor)
    (hlh : c.lowFreqFactor < c.highFreqFactor) (hc : 0 < c.originalContextLength) {θ : ℝ} (hθ : 1 < θ)
    {E : Nat} (hE : 0 < E) {j k : Nat} (hjk : j < k) :
    0 < llamaFreqs θ E c k ∧ llamaFreqs θ E c k < llamaFreqs θ E c j := by
  have hpos : ∀ k, 0 < defaultFreqs θ E k := fun k => by
    unfold defaultFreqs
    exact one_div_pos.2 (Real.rpow_pos_of_pos (by linarith) _)
  have hlt : defaultFreqs θ E k < defaultFreqs θ E j := by
    unfold defaultFreqs
    apply one_div_lt_one_div_of_lt (Real.rpow_pos_of_pos (by linarith) _)
    apply Real.rpow_lt_rpow_of_exponent_lt hθ
    apply div_lt_div_of_pos_right _ (by exact_mod_cast hE)
    exact_mod_cast (by omega : 2 * j < 2 * k)
  have h1 := C86_scaled c hs hl hlh hc (hpos k)
  exact ⟨lt_of_lt_of_le (div_pos (hpos k) (by linarith)) h1.2.2.1, h1.2.2.2.2 _ hlt⟩

example : (1 : ℝ) < 500000 ∧ 0 < 128 ∧ 3 < 7 := by norm_num

end Fs2.Props
