import Mathlib.Tactic.Ring
import Mathlib.Tactic.LinearCombination
import Verif.Nn.Rotary

/-! # Lemmas about the rotary position encoders -/

namespace Fs2.Nn

/-- The frequencies `fs` turned by `p` steps. -/
noncomputable def polars (p : ℝ) (fs : List ℝ) : List (ℝ × ℝ) := fs.map fun f => polar (p * f)

theorem polars_cons (p f : ℝ) (fs : List ℝ) :
    polars p (f :: fs) = (Real.cos (p * f), Real.sin (p * f)) :: polars p fs := rfl

theorem rotate_length : ∀ (row : List (ℝ × ℝ)) (x : List ℝ), x.length = 2 * row.length →
    (rotate row x).length = x.length
  | [], x, h => by
    have : x = [] := List.eq_nil_of_length_eq_zero (by simpa using h)
    subst this; rfl
  | (c, s) :: row, [], h => by simp at h
  | (c, s) :: row, [a], h => by simp only [List.length_cons, List.length_nil] at h; omega
  | (c, s) :: row, a :: b :: x, h => by
    have := rotate_length row x (by simp only [List.length_cons] at h; omega)
    simp only [rotate, List.length_cons, this]

theorem rotate_dot (p q : ℝ) : ∀ (fs : List ℝ) (x y : List ℝ), x.length = 2 * fs.length →
    y.length = 2 * fs.length →
    (List.zipWith (· * ·) (rotate (polars p fs) x) (rotate (polars q fs) y)).sum =
      (List.zipWith (· * ·) (rotate (polars (p - q) fs) x) y).sum
  | [], x, y, _, _ => by simp [polars, rotate]
  | f :: fs, [], y, h, _ => by simp at h
  | f :: fs, [a], y, h, _ => by simp only [List.length_cons, List.length_nil] at h; omega
  | f :: fs, a :: b :: x, [], _, h => by simp at h
  | f :: fs, a :: b :: x, [c], _, h => by simp only [List.length_cons, List.length_nil] at h; omega
  | f :: fs, a :: b :: x, c :: d :: y, hx, hy => by
    have ih := rotate_dot p q fs x y (by simp only [List.length_cons] at hx; omega)
      (by simp only [List.length_cons] at hy; omega)
    simp only [polars_cons, rotate, List.zipWith_cons_cons, List.sum_cons, ih, sub_mul p q f, Real.cos_sub, Real.sin_sub]
    ring

theorem rotate_zero : ∀ (fs : List ℝ) (x : List ℝ), x.length = 2 * fs.length →
    rotate (polars 0 fs) x = x
  | [], x, h => by
    have : x = [] := List.eq_nil_of_length_eq_zero (by simpa using h)
    subst this; rfl
  | f :: fs, [], h => by simp at h
  | f :: fs, [a], h => by simp only [List.length_cons, List.length_nil] at h; omega
  | f :: fs, a :: b :: x, h => by
    have ih := rotate_zero fs x (by simp only [List.length_cons] at h; omega)
    simp only [polars_cons, rotate, zero_mul, Real.cos_zero, Real.sin_zero, mul_one,
      mul_zero, sub_zero, zero_add, ih]

theorem rotate_get : ∀ (row : List (ℝ × ℝ)) (x : List ℝ) (k : Nat) (c s : ℝ),
    x.length = 2 * row.length → row[k]? = some (c, s) →
    (rotate row x)[2 * k]? = some (x.getD (2 * k) 0 * c - x.getD (2 * k + 1) 0 * s) ∧
    (rotate row x)[2 * k + 1]? = some (x.getD (2 * k) 0 * s + x.getD (2 * k + 1) 0 * c)
  | [], x, k, c, s, _, h => by simp at h
  | _ :: row, [], k, c, s, h, _ => by simp at h
  | _ :: row, [a], k, c, s, h, _ => by simp only [List.length_cons, List.length_nil] at h; omega
  | (c', s') :: row, a :: b :: x, 0, c, s, hx, h => by
    simp only [List.getElem?_cons_zero, Option.some.injEq, Prod.mk.injEq] at h
    obtain ⟨rfl, rfl⟩ := h
    simp [rotate]
  | (c', s') :: row, a :: b :: x, k + 1, c, s, hx, h => by
    have ih := rotate_get row x k c s (by simp only [List.length_cons] at hx; omega)
      (by simpa using h)
    simp only [rotate]
    rw [show 2 * (k + 1) = 2 * k + 1 + 1 by omega]
    simpa using ih

theorem rotate_pad : ∀ (n : Nat) (x : List ℝ), x.length = 2 * n →
    rotate (List.replicate n (0, 0)) x = List.replicate x.length 0
  | 0, x, h => by
    have : x = [] := List.eq_nil_of_length_eq_zero (by simpa using h)
    subst this; rfl
  | n + 1, [], h => by simp at h
  | n + 1, [a], h => by simp only [List.length_cons, List.length_nil] at h; omega
  | n + 1, a :: b :: x, h => by
    have ih := rotate_pad n x (by simp only [List.length_cons] at h; omega)
    simp [List.replicate_succ, rotate, ih]

/-! ## Weaving two halves -/

/-- Takes alternately from the two lists. -/
def weave {α : Type} : List α → List α → List α
  | a :: as, b :: bs => a :: b :: weave as bs
  | _, _ => []

/-- The entries at the even and at the odd places. -/
def unweave {α : Type} : List α → List α × List α
  | a :: b :: l => (a :: (unweave l).1, b :: (unweave l).2)
  | _ => ([], [])

theorem weave_length {α : Type} : ∀ (a b : List α), a.length = b.length →
    (weave a b).length = a.length + b.length
  | [], [], _ => rfl
  | [], _ :: _, h => by simp at h
  | _ :: _, [], h => by simp at h
  | a :: as, b :: bs, h => by
    have := weave_length as bs (by simpa using h)
    simp only [weave, List.length_cons, this]; omega

theorem unweave_weave {α : Type} : ∀ (a b : List α), a.length = b.length →
    unweave (weave a b) = (a, b)
  | [], [], _ => rfl
  | [], _ :: _, h => by simp at h
  | _ :: _, [], h => by simp at h
  | a :: as, b :: bs, h => by
    simp [weave, unweave, unweave_weave as bs (by simpa using h)]

theorem weave_unweave {α : Type} : ∀ (n : Nat) (l : List α), l.length = 2 * n →
    weave (unweave l).1 (unweave l).2 = l ∧ (unweave l).1.length = n ∧ (unweave l).2.length = n
  | 0, l, h => by
    have : l = [] := List.eq_nil_of_length_eq_zero (by simpa using h)
    subst this; simp [unweave, weave]
  | n + 1, [], h => by simp at h
  | n + 1, [a], h => by simp only [List.length_cons, List.length_nil] at h; omega
  | n + 1, a :: b :: l, h => by
    have ih := weave_unweave n l (by simp only [List.length_cons] at h; omega)
    simp [unweave, weave, ih]

theorem weave_map {α β : Type} (f : α → β) : ∀ (a b : List α),
    (weave a b).map f = weave (a.map f) (b.map f)
  | [], _ => by simp [weave]
  | _ :: _, [] => by simp [weave]
  | a :: as, b :: bs => by simp [weave, weave_map f as bs]

theorem weave_get {α : Type} : ∀ (a b : List α) (i : Nat), a.length = b.length →
    (weave a b)[i]? = if i % 2 = 0 then a[i / 2]? else b[i / 2]?
  | [], [], i, _ => by simp [weave]
  | [], _ :: _, _, h => by simp at h
  | _ :: _, [], _, h => by simp at h
  | a :: as, b :: bs, 0, _ => by simp [weave]
  | a :: as, b :: bs, 1, _ => by simp [weave]
  | a :: as, b :: bs, i + 2, h => by
    have ih := weave_get as bs i (by simpa using h)
    simp only [weave, List.getElem?_cons_succ, ih, Nat.add_mod_right,
      show (i + 2) / 2 = i / 2 + 1 by omega]

theorem weave_dot : ∀ (a b c d : List ℝ), a.length = b.length → c.length = d.length →
    a.length = c.length →
    (List.zipWith (· * ·) (weave a b) (weave c d)).sum =
      (List.zipWith (· * ·) (a ++ b) (c ++ d)).sum
  | [], [], [], [], _, _, _ => by simp [weave]
  | _ :: _, [], _, _, h, _, _ => by simp at h
  | [], _ :: _, _, _, h, _, _ => by simp at h
  | _, _, _ :: _, [], _, h, _ => by simp at h
  | _, _, [], _ :: _, _, h, _ => by simp at h
  | [], _, _ :: _, _, _, _, h => by simp at h
  | _ :: _, _, [], _, _, _, h => by simp at h
  | a :: as, b :: bs, c :: cs, d :: ds, h1, h2, h3 => by
    have ih := weave_dot as bs cs ds (by simpa using h1) (by simpa using h2) (by simpa using h3)
    rw [List.zipWith_append (by simpa using h3)] at ih ⊢
    simp only [weave, List.zipWith_cons_cons, List.sum_cons, List.sum_append] at ih ⊢
    rw [ih]
    ring

/-- The two halves of what the reference encoder computes from the halves `a` and `b`. -/
def refHalves (cs ss a b : List ℝ) : List ℝ × List ℝ :=
  (List.zipWith (· + ·) (List.zipWith (· * ·) a cs) (List.zipWith (· * ·) (b.map fun v => -v) ss),
   List.zipWith (· + ·) (List.zipWith (· * ·) b cs) (List.zipWith (· * ·) a ss))

theorem refRotate_append (n : Nat) (cs ss a b : List ℝ) (hc : cs.length = n) (hs : ss.length = n)
    (ha : a.length = n) (hb : b.length = n) :
    refRotate (2 * n) (cs ++ cs, ss ++ ss) (a ++ b) =
      (refHalves cs ss a b).1 ++ (refHalves cs ss a b).2 := by
  simp only [refRotate, rotateHalfWay, refHalves, Nat.mul_div_cancel_left n (by decide : 0 < 2)]
  rw [List.drop_left' ha, List.take_left' ha, List.zipWith_append (by simp [ha, hc]),
    List.zipWith_append (by simp [hb, hs]), List.zipWith_append (by simp [ha, hc, hb, hs])]

theorem rotate_weave : ∀ (row : List (ℝ × ℝ)) (a b : List ℝ), a.length = row.length →
    b.length = row.length →
    rotate row (weave a b) = weave (refHalves (row.map Prod.fst) (row.map Prod.snd) a b).1
      (refHalves (row.map Prod.fst) (row.map Prod.snd) a b).2
  | [], a, b, ha, hb => by
    have : a = [] := List.eq_nil_of_length_eq_zero (by simpa using ha)
    subst this
    simp [weave, rotate, refHalves]
  | _ :: _, [], _, h, _ => by simp at h
  | _ :: _, _ :: _, [], _, h => by simp at h
  | (c, s) :: row, a :: as, b :: bs, ha, hb => by
    have ih := rotate_weave row as bs (by simpa using ha) (by simpa using hb)
    simp only [refHalves] at ih
    simp only [weave, rotate, refHalves, List.map_cons, List.zipWith_cons_cons, ih, List.cons.injEq,
      and_true]
    constructor <;> ring

/-! ## Views -/

theorem view_map {α β : Type} (f : α → β) (n m : Nat) (l : List α) :
    view n m (l.map f) = (view n m l).map (List.map f) := by
  simp [view, List.map_drop, List.map_take, Function.comp_def]

theorem view_succ {α : Type} (n m : Nat) (l : List α) :
    view (n + 1) m l = l.take m :: view n m (l.drop m) := by
  simp only [view, List.range_succ_eq_map, List.map_cons, List.map_map, Nat.zero_mul, List.drop_zero,
    List.cons.injEq, true_and]
  apply List.map_congr_left
  intro i _
  simp only [Function.comp, List.drop_drop, Nat.succ_eq_add_one, Nat.add_mul, Nat.one_mul,
    Nat.add_comm]

theorem view_mem_length {α : Type} : ∀ (n m : Nat) (l : List α), l.length = n * m →
    ∀ r ∈ view n m l, r.length = m
  | 0, m, l, _, r, hr => by simp [view] at hr
  | n + 1, m, l, h, r, hr => by
    rw [Nat.add_mul, Nat.one_mul] at h
    rw [view_succ] at hr
    rcases List.mem_cons.1 hr with rfl | hr
    · rw [List.length_take]; omega
    · exact view_mem_length n m (l.drop m) (by rw [List.length_drop]; omega) r hr

theorem view_flatten {α : Type} : ∀ (n m : Nat) (l : List α), l.length = n * m →
    (view n m l).flatten = l
  | 0, m, l, h => by
    have : l = [] := List.eq_nil_of_length_eq_zero (by simpa using h)
    subst this; simp [view]
  | n + 1, m, l, h => by
    rw [Nat.add_mul, Nat.one_mul] at h
    rw [view_succ, List.flatten_cons, view_flatten n m (l.drop m) (by rw [List.length_drop]; omega),
      List.take_append_drop]

theorem flatten_view {α : Type} : ∀ (n m : Nat) (ls : List (List α)), ls.length = n →
    (∀ r ∈ ls, r.length = m) → view n m ls.flatten = ls
  | 0, m, ls, h, _ => by
    have : ls = [] := List.eq_nil_of_length_eq_zero h
    subst this; simp [view]
  | n + 1, m, [], h, _ => by simp at h
  | n + 1, m, r :: ls, h, hm => by
    have hr := hm r (by simp)
    rw [view_succ, List.flatten_cons, List.take_left' hr, List.drop_left' hr,
      flatten_view n m ls (by simpa using h) fun r' h' => hm r' (by simp [h'])]

theorem flatten_length {α : Type} (m : Nat) : ∀ ls : List (List α), (∀ r ∈ ls, r.length = m) →
    ls.flatten.length = ls.length * m
  | [], _ => by simp
  | r :: ls, h => by
    rw [List.flatten_cons, List.length_append, h r (by simp),
      flatten_length m ls fun r' h' => h r' (by simp [h']), List.length_cons, Nat.add_mul, Nat.one_mul,
      Nat.add_comm]

theorem view_length {α : Type} (n m : Nat) (l : List α) : (view n m l).length = n := by simp [view]

/-- The view as two halves, transposed and flattened, is the two halves woven together. -/
theorem transpose_two {α : Type} (n : Nat) (l : List α) (h : l.length = 2 * n) :
    (transpose n (view 2 n l)).flatten = weave (l.take n) (l.drop n) := by
  have h2 : view 2 n l = [l.take n, l.drop n] := by
    simp [view, List.range_succ, List.take_of_length_le (show (l.drop n).length ≤ n by
      rw [List.length_drop]; omega)]
  rw [h2]
  have ha : (l.take n).length = n := by rw [List.length_take]; omega
  have hb : (l.drop n).length = n := by rw [List.length_drop]; omega
  generalize l.take n = a at ha
  generalize l.drop n = b at hb
  clear h h2
  induction n generalizing a b with
  | zero =>
    have h1 : a = [] := List.eq_nil_of_length_eq_zero ha
    subst h1; simp [transpose, weave]
  | succ n ih =>
    match a, b, ha, hb with
    | x :: a, y :: b, ha, hb =>
      have := ih a (by simpa using ha) b (by simpa using hb)
      simp only [transpose, List.range_succ_eq_map, List.map_cons, List.map_map, List.flatten_cons,
        weave] at this ⊢
      rw [← this]
      simp [Function.comp_def, List.filterMap_cons]

/-- The view as pairs, transposed and flattened, is the even places followed by the odd ones. -/
theorem transpose_pairs {α : Type} : ∀ (n : Nat) (l : List α), l.length = 2 * n →
    (transpose 2 (view n 2 l)).flatten = (unweave l).1 ++ (unweave l).2 := by
  have key : ∀ (n : Nat) (l : List α), l.length = 2 * n →
      ((view n 2 l).filterMap fun row => row[0]?) = (unweave l).1 ∧
      ((view n 2 l).filterMap fun row => row[1]?) = (unweave l).2 := by
    intro n
    induction n with
    | zero =>
      intro l h
      have : l = [] := List.eq_nil_of_length_eq_zero (by simpa using h)
      subst this; simp [view, unweave]
    | succ n ih =>
      intro l h
      match l, h with
      | a :: b :: l, h =>
        have := ih l (by simp only [List.length_cons] at h; omega)
        rw [view_succ]
        simp [unweave, this]
  intro n l h
  simp [transpose, List.range_succ, key n l h]

end Fs2.Nn
