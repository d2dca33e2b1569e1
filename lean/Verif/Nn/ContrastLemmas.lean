import Verif.Nn.Contrast
import Verif.Props.RowMask
import Verif.Props.Encoder

/-! # Lemmas about the pretraining task of wav2vec 2.0 -/

namespace Fs2.Contrast
open Fs2.Nn Fs2.Enc Fs2.Speech Fs2.Props
open Fs2.Dec hiding width GoodLayer

variable {V : Type}

/-- The masked columns of a row. -/
def maskedAt (M : Mask) (W r : Nat) : List Nat := (List.range W).filter fun i => isSet M r i

theorem flatten_len {n : Nat} : ∀ {L : List (List V)}, (∀ x ∈ L, x.length = n) → L.flatten.length = L.length * n
  | [], _ => by simp
  | x :: L, h => by
    rw [List.flatten_cons, List.length_append, h x (by simp), flatten_len fun y hy => h y (by simp [hy]), List.length_cons]
    rw [Nat.succ_mul, Nat.add_comm]

theorem flatten_chunk {n : Nat} : ∀ {L : List (List V)} (r : Nat) (hr : r < L.length), (∀ x ∈ L, x.length = n) →
    (L.flatten.drop (r * n)).take n = L[r]
  | x :: L, 0, _, h => by
    have := h x (by simp)
    simp [← this]
  | x :: L, r + 1, hr, h => by
    have hx := h x (by simp)
    have ih := flatten_chunk r (by simpa using hr) (fun y hy => h y (by simp [hy]))
    rw [List.flatten_cons, List.drop_append, hx, List.drop_eq_nil_of_le (by rw [hx, Nat.succ_mul]; omega), List.nil_append]
    have : (r + 1) * n - n = r * n := by rw [Nat.succ_mul]; omega
    rw [this, ih, List.getElem_cons_succ]

theorem flatten_get {n : Nat} {L : List (List V)} (h : ∀ x ∈ L, x.length = n) {r i : Nat} (hr : r < L.length) (hi : i < n) :
    L.flatten[i + r * n]? = L[r][i]? := by
  have := flatten_chunk r hr h
  rw [← this, List.getElem?_take, if_pos hi, List.getElem?_drop, Nat.add_comm]

theorem select_eq : ∀ (xs : List V) (bs : List Bool), xs.length = bs.length →
    (xs.zip bs).filterMap (fun y => if y.2 then some y.1 else none) =
      ((List.range xs.length).filter fun i => bs[i]? = some true).filterMap (xs[·]?)
  | [], [], _ => rfl
  | x :: xs, b :: bs, h => by
    have ih := select_eq xs bs (by simpa using h)
    rw [List.zip_cons_cons, List.length_cons, List.range_succ_eq_map, List.filter_cons, List.filter_map]
    have h2 : ((List.range xs.length).filter ((fun i => decide ((b :: bs)[i]? = some true)) ∘ Nat.succ)).map Nat.succ =
      ((List.range xs.length).filter fun i => bs[i]? = some true).map Nat.succ := by
      congr 1
    rw [h2]
    have h3 : (((List.range xs.length).filter fun i => bs[i]? = some true).map Nat.succ).filterMap ((x :: xs)[·]?) =
      ((List.range xs.length).filter fun i => bs[i]? = some true).filterMap (xs[·]?) := by
      rw [List.filterMap_map]
      congr 1
    cases b with
    | true => simp only [List.getElem?_cons_zero, decide_true, if_true, List.filterMap_cons, h3, ih]
    | false => simp only [List.getElem?_cons_zero, List.filterMap_cons, ih]; simp

theorem select_len (xs : List V) (is : List Nat) (h : ∀ i ∈ is, i < xs.length) : (is.filterMap (xs[·]?)).length = is.length := by
  induction is with
  | nil => rfl
  | cons i is ih =>
    have hi := h i (by simp)
    simp only [List.filterMap_cons, List.getElem?_eq_getElem hi, List.length_cons, ih fun j hj => h j (by simp [hj])]

theorem select_get (xs : List V) (is : List Nat) (h : ∀ i ∈ is, i < xs.length) (k : Nat) :
    (is.filterMap (xs[·]?))[k]? = (is[k]?).bind (xs[·]?) := by
  induction is generalizing k with
  | nil => simp
  | cons i is ih =>
    have hi := h i (by simp)
    simp only [List.filterMap_cons, List.getElem?_eq_getElem hi]
    cases k with
    | zero => simp [hi]
    | succ k => simpa using ih (fun j hj => h j (by simp [hj])) k

/-- What a good mask means for the columns that it hides. -/
theorem masked_good {M : Mask} {lens : List Nat} {W span spans : Nat} (h : GoodMask M lens W span spans) :
    ∃ n, span ≤ n ∧ ∀ r len, lens[r]? = some len → (maskedAt M W r).length = n ∧ ∀ i ∈ maskedAt M W r, i < len ∧ i < W := by
  obtain ⟨n, h1, h2⟩ := h.count
  refine ⟨n, h1, ?_⟩
  intro r len hr
  have hrl : r < lens.length := (List.getElem?_eq_some_iff.1 hr).1
  have hd : r < M.data.length := by rw [h.numRows]; exact hrl
  have hrow := List.getElem?_eq_getElem hd
  have hlen := h.rowLen _ (List.getElem_mem hd)
  constructor
  · rw [← (h2 r len _ hr hrow).1]
    unfold maskedAt isSet
    rw [hrow, Option.getD_some, ← hlen]
    generalize M.data[r] = row
    have := select_eq row row rfl
    have e := congrArg List.length this
    rw [select_len _ _ (by intro i hi; exact List.mem_range.1 (List.mem_filter.1 hi).1)] at e
    rw [← e, List.count]
    clear this e hlen hrow hd hr
    induction row with
    | nil => rfl
    | cons b row ih => cases b <;> simp [ih]
  · intro i hi
    obtain ⟨a1, a2⟩ := List.mem_filter.1 hi
    refine ⟨?_, List.mem_range.1 a1⟩
    simp only [isSet, hrow, Option.getD_some, decide_eq_true_eq] at a2
    obtain ⟨starts, _, b2, b3⟩ := h.inside r len _ hr hrow
    obtain ⟨s, c1, c2, c3⟩ := b3 i a2
    have := b2 s c1
    omega

theorem extract_good {M : Mask} {lens : List Nat} {W span spans : Nat} (h : GoodMask M lens W span spans) (hne : lens ≠ [])
    {rows : List (List V)} (hn : rows.length = lens.length) (hw : ∀ row ∈ rows, row.length = W) :
    extractMasked M rows = some (rows.mapIdx fun r row => (maskedAt M W r).filterMap (row[·]?)) := by
  obtain ⟨n, h1, h2⟩ := masked_good h
  have hne' : rows ≠ [] := by
    rintro rfl
    exact hne (List.length_eq_zero_iff.1 hn.symm)
  have hwid : width rows = W := by
    obtain ⟨row, rest, rfl⟩ := List.exists_cons_of_ne_nil hne'
    simp [width, hw row (by simp)]
  have hflat : ((rows.zip M.data).flatMap fun x => (x.1.zip x.2).filterMap fun y => if y.2 then some y.1 else none) =
      (rows.mapIdx fun r row => (maskedAt M W r).filterMap (row[·]?)).flatten := by
    rw [List.flatMap_def]
    congr 1
    apply List.ext_getElem
    · simp [h.numRows, hn]
    · intro i a1 a2
      simp only [List.length_mapIdx] at a2
      have hd : i < M.data.length := by rw [h.numRows, ← hn]; exact a2
      have hr := hw _ (List.getElem_mem a2)
      rw [List.getElem_map, List.getElem_zip, select_eq _ _ (by rw [hr, h.rowLen _ (List.getElem_mem hd)]), List.getElem_mapIdx, hr]
      simp only [maskedAt, isSet, List.getElem?_eq_getElem hd, Option.getD_some]
  have hparts : ∀ x ∈ rows.mapIdx fun r row => (maskedAt M W r).filterMap (row[·]?), x.length = n := by
    intro x hx
    obtain ⟨r, hr, rfl⟩ := List.mem_mapIdx.1 hx
    have hrl : r < lens.length := hn ▸ hr
    have := h2 r _ (List.getElem?_eq_getElem hrl)
    rw [select_len, this.1]
    intro i hi
    rw [hw _ (List.getElem_mem hr)]
    exact (this.2 i hi).2
  have hl := flatten_len hparts
  rw [List.length_mapIdx] at hl
  have hpos : 0 < rows.length := List.length_pos_iff.2 hne'
  unfold extractMasked
  rw [if_neg (by rw [h.rows, h.cols, hwid, hn]; simp), hflat]
  simp only [hl, Nat.mul_mod_right, ne_eq, not_true_eq_false, if_false, Nat.mul_div_cancel_left n hpos, Option.some.injEq]
  apply List.ext_getElem
  · simp
  · intro i a1 a2
    rw [List.getElem_map, List.getElem_range]
    exact flatten_chunk i a2 hparts

end Fs2.Contrast
