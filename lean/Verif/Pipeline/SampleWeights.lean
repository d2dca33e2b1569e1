import Verif.Pipeline.SampleLaws
import Mathlib.Tactic.Linarith
import Mathlib.Tactic.FieldSimp
import Mathlib.Algebra.Order.Field.Rat
import Mathlib.Algebra.BigOperators.Group.List.Basic
import Mathlib.Algebra.Order.BigOperators.Group.List
import Mathlib.Algebra.Order.Field.Basic
import Mathlib.Tactic.Ring
import Mathlib.Tactic.Positivity

/-!
# The weights of `sample`
-/

namespace Fs2
open Source

theorem cumsumFrom_length (a : Rat) (ws : List Rat) : (cumsumFrom a ws).length = ws.length := by
  induction ws generalizing a with
  | nil => rfl
  | cons w ws ih => simp [cumsumFrom, ih]

theorem cumsumFrom_getElem? (a : Rat) (ws : List Rat) (k : Nat) :
    (cumsumFrom a ws)[k]? = if k < ws.length then some (a + (ws.take (k + 1)).sum) else none := by
  induction ws generalizing a k with
  | nil => simp [cumsumFrom]
  | cons w ws ih =>
    cases k with
    | zero => simp [cumsumFrom]
    | succ k => simp [cumsumFrom, ih, add_assoc]

/-- The cumulative sums of `ms`, scaled. -/
def scaled (σ : Rat) (ms : List Rat) : List Rat := (cumsumFrom 0 ms).map (σ * ·)

theorem scaled_length (σ : Rat) (ms : List Rat) : (scaled σ ms).length = ms.length := by
  simp [scaled, cumsumFrom_length]

theorem scaled_getElem? (σ : Rat) (ms : List Rat) (k : Nat) :
    (scaled σ ms)[k]? = if k < ms.length then some (σ * (ms.take (k + 1)).sum) else none := by
  simp only [scaled, List.getElem?_map, cumsumFrom_getElem?]
  split <;> simp

theorem scaled_getLastD (σ : Rat) (ms : List Rat) : (scaled σ ms).getLastD 0 = σ * ms.sum := by
  rw [List.getLastD_eq_getLast?, List.getLast?_eq_getElem?, scaled_length, scaled_getElem?]
  cases ms with
  | nil => simp
  | cons m ms => simp

theorem sum_take_set_lt (ms : List Rat) (i k : Nat) (h : k ≤ i) :
    ((ms.set i 0).take k).sum = (ms.take k).sum := by
  rw [List.take_set_of_le h]

theorem sum_take_set_ge (ms : List Rat) (i k : Nat) (h : i < k) :
    ((ms.set i 0).take k).sum = (ms.take k).sum - ms.getD i 0 := by
  induction ms generalizing i k with
  | nil => simp
  | cons m ms ih =>
    obtain ⟨k, rfl⟩ : ∃ k', k = k' + 1 := ⟨k - 1, by omega⟩
    cases i with
    | zero => simp
    | succ i =>
      have := ih i k (by omega)
      simp only [List.set_cons_succ, List.take_succ_cons, List.sum_cons, this,
        List.getD_cons_succ]
      ring

theorem sum_set (ms : List Rat) (i : Nat) (h : i < ms.length) :
    (ms.set i 0).sum = ms.sum - ms.getD i 0 := by
  have := sum_take_set_ge ms i ms.length h
  rwa [List.take_length, List.take_of_length_le (by simp)] at this

/-- Blocking a pipeline sets its weight to zero and normalises. -/
theorem blockCums_scaled (σ : Rat) (ms : List Rat) (i : Nat) (h : i < ms.length) :
    blockCums (scaled σ ms) i = normalise (σ * (ms.set i 0).sum) (scaled σ (ms.set i 0)) := by
  have hprev : (if i = 0 then 0 else (scaled σ ms).getD (i - 1) 0) = σ * (ms.take i).sum := by
    split
    · next h0 => subst h0; simp
    · next h0 =>
      rw [List.getD_eq_getElem?_getD, scaled_getElem?, if_pos (by omega)]
      simp only [Option.getD_some]
      rw [Nat.sub_add_cancel (by omega)]
  have hi : (scaled σ ms).getD i 0 = σ * (ms.take (i + 1)).sum := by
    rw [List.getD_eq_getElem?_getD, scaled_getElem?, if_pos h]; rfl
  have hw : (ms.take (i + 1)).sum = (ms.take i).sum + ms.getD i 0 := by
    rw [← List.take_append_getElem (by omega : i < ms.length), List.sum_append]
    simp [List.getD_eq_getElem?_getD, h]
  have key : (scaled σ ms).take i ++ [σ * (ms.take i).sum] ++
      ((scaled σ ms).drop (i + 1)).map (· - (σ * (ms.take (i + 1)).sum - σ * (ms.take i).sum))
      = scaled σ (ms.set i 0) := by
    apply List.ext_getElem?
    intro k
    rw [scaled_getElem?, List.length_set]
    rcases Nat.lt_trichotomy k i with hk | hk | hk
    · rw [List.append_assoc, List.getElem?_append_left (by simp [scaled_length]; omega),
        List.getElem?_take_of_lt hk, scaled_getElem?, if_pos (by omega), if_pos (by omega),
        sum_take_set_lt _ _ _ (by omega)]
    · subst hk
      rw [List.getElem?_append_left (by simp [scaled_length]; omega),
        List.getElem?_append_right (by simp [scaled_length]), if_pos h,
        sum_take_set_ge _ _ _ (by omega), hw]
      simp [scaled_length, Nat.min_eq_left (Nat.le_of_lt h)]
    · rw [List.getElem?_append_right (by simp [scaled_length]; omega)]
      simp only [List.length_append, List.length_take, scaled_length, List.length_singleton,
        Nat.min_eq_left (Nat.le_of_lt h), List.getElem?_map, List.getElem?_drop]
      rw [show i + 1 + (k - (i + 1)) = k by omega, scaled_getElem?]
      split
      · rw [sum_take_set_ge _ _ _ (by omega), hw]
        simp only [Option.map_some, Option.some.injEq]
        ring
      · rfl
  simp only [blockCums, hprev, hi]
  rw [key, scaled_getLastD]

theorem normalise_scaled (t σ : Rat) (ms : List Rat) :
    normalise t (scaled σ ms) = if areClose t 1 then scaled σ ms else scaled (σ / t) ms := by
  simp only [normalise]
  split
  · rfl
  · simp only [scaled, List.map_map]
    congr 1
    funext x
    simp only [Function.comp]
    rw [mul_div_right_comm]

theorem areClose_one {t : Rat} (h : areClose t 1 = true) : 9999 / 10000 < t ∧ t ≤ 10000 / 9999 := by
  simp only [areClose, Bool.or_eq_true, beq_iff_eq, decide_eq_true_eq] at h
  rcases h with rfl | h
  · constructor <;> norm_num
  · by_cases h1 : t ≤ 1
    · simp only [h1, if_true] at h
      have h0 : max (max t (-t)) (max 1 (-1)) = max (max t (-t)) 1 := by norm_num
      rw [h0] at h
      rcases le_total 0 t with h2 | h2
      · rw [max_eq_left (by linarith : -t ≤ t), max_eq_right h1] at h
        constructor <;> linarith
      · rw [max_eq_right (by linarith : t ≤ -t)] at h
        rcases le_total (-t) 1 with h3 | h3
        · rw [max_eq_right h3] at h; constructor <;> linarith
        · rw [max_eq_left h3] at h; constructor <;> linarith
    · simp only [h1, if_false] at h
      have h0 : max (max t (-t)) (max 1 (-1)) = t := by
        rw [max_eq_left (by linarith : -t ≤ t)]
        norm_num
        linarith
      rw [h0] at h
      constructor <;> linarith

/-! ## The search -/

theorem searchCums_spec (cs : List Rat) (x : Rat) (l r : Nat) (hlr : l ≤ r)
    (hl : l = 0 ∨ cs.getD (l - 1) 0 < x) :
    searchCums cs x l r ≤ r ∧
      (searchCums cs x l r = 0 ∨ cs.getD (searchCums cs x l r - 1) 0 < x) := by
  fun_induction searchCums cs x l r with
  | case1 l r h m hx ih => exact ih (by omega) (.inr (by simpa using hx))
  | case2 l r h m hx ih =>
    have := ih (by omega) hl
    exact ⟨by omega, this.2⟩
  | case3 l r h => exact ⟨hlr, hl⟩

theorem uniform_lt (x : Nat) : uniform x < 1 := by
  simp only [uniform]
  rw [div_lt_one (by norm_num)]
  exact_mod_cast Nat.mod_lt x (by norm_num)

theorem skipDone_exists {ds : List Bool} {j : Nat} (h : ∃ k : Nat, ds[k]? = some false) :
    ∃ k, skipDone ds j = some k := by
  induction ds generalizing j with
  | nil => simp at h
  | cons d ds ih =>
    cases d with
    | false => exact ⟨j, rfl⟩
    | true =>
      obtain ⟨k, hk⟩ := h
      cases k with
      | zero => simp at hk
      | succ k => exact ih ⟨k, by simpa using hk⟩

/-! ## The invariant of the weights without repeats -/

/-- The weights, zero for the pipelines that are done. -/
def masked (ws : List Rat) (done : List Bool) : List Rat :=
  ws.zipWith (fun w d => if d then 0 else w) done

/-- No weight is less than 1/5000 of the sum. -/
def Balanced (ws : List Rat) : Prop := ∀ w ∈ ws, 0 < w ∧ ws.sum ≤ 5000 * w

theorem masked_length (ws : List Rat) (done : List Bool) (h : done.length = ws.length) :
    (masked ws done).length = ws.length := by simp [masked, h]

theorem masked_getD (ws : List Rat) (done : List Bool) (i : Nat) (hi : i < ws.length)
    (hd : i < done.length) : (masked ws done).getD i 0 = if done[i] then 0 else ws[i] := by
  simp [masked, List.getD_eq_getElem?_getD, hi, hd]

theorem masked_set (ws : List Rat) (done : List Bool) (i : Nat) :
    masked ws (done.set i true) = (masked ws done).set i 0 := by
  induction ws generalizing done i with
  | nil => simp [masked]
  | cons w ws ih =>
    cases done with
    | nil => simp [masked]
    | cons d done =>
      cases i with
      | zero => simp [masked]
      | succ i =>
        have := ih done i
        simp only [masked] at this
        simp [masked, this]

theorem masked_nonneg {ws : List Rat} (hw : ∀ w ∈ ws, 0 < w) (done : List Bool) :
    ∀ m ∈ masked ws done, 0 ≤ m := by
  induction ws generalizing done with
  | nil => simp [masked]
  | cons w ws ih =>
    cases done with
    | nil => simp [masked]
    | cons d done =>
      have := ih (fun w h => hw w (by simp [h])) done
      have h0 := hw w (by simp)
      intro m hm
      simp only [masked, List.zipWith_cons_cons, List.mem_cons] at hm
      rcases hm with rfl | hm
      · split
        · exact le_refl _
        · exact le_of_lt h0
      · exact this m hm

theorem masked_sum_le {ws : List Rat} (hw : ∀ w ∈ ws, 0 < w) (done : List Bool) :
    (masked ws done).sum ≤ ws.sum := by
  induction ws generalizing done with
  | nil => simp [masked]
  | cons w ws ih =>
    have h0 := hw w (by simp)
    cases done with
    | nil =>
      simp only [masked, List.zipWith_nil_right, List.sum_nil]
      exact List.sum_nonneg (fun x hx => le_of_lt (hw x hx))
    | cons d done =>
      have := ih (fun w h => hw w (by simp [h])) done
      simp only [masked, List.zipWith_cons_cons, List.sum_cons] at this ⊢
      split <;> linarith

theorem masked_sum_pos {ws : List Rat} (hw : ∀ w ∈ ws, 0 < w) {done : List Bool}
    (hl : done.length = ws.length) (h : ∃ k : Nat, done[k]? = some false) :
    0 < (masked ws done).sum := by
  induction ws generalizing done with
  | nil => simp at hl; simp [hl] at h
  | cons w ws ih =>
    have h0 := hw w (by simp)
    cases done with
    | nil => simp at hl
    | cons d done =>
      obtain ⟨k, hk⟩ := h
      have hnn := List.sum_nonneg (masked_nonneg (fun w h => hw w (by simp [h])) done : ∀ m ∈ masked ws done, 0 ≤ m)
      simp only [masked] at hnn
      simp only [masked, List.zipWith_cons_cons, List.sum_cons]
      cases d with
      | false => simp; linarith
      | true =>
        cases k with
        | zero => simp at hk
        | succ k =>
          have := ih (fun w h => hw w (by simp [h])) (done := done) (by simpa using hl)
            ⟨k, by simpa using hk⟩
          simp only [masked] at this
          simp; exact this

/-- The invariant: as long as a pipeline is not done, the sums are those of the
weights of the pipelines that are not done, scaled to 1 except at the beginning. -/
def CumsOk (ws : List Rat) (done : List Bool) (cs : List Rat) : Prop :=
  cs.length = ws.length ∧ ((∃ k : Nat, done[k]? = some false) →
    ∃ σ : Rat, 0 < σ ∧ cs = scaled σ (masked ws done) ∧ σ * (masked ws done).sum ≤ 10000 / 9999 ∧
      (σ * (masked ws done).sum = 1 ∨ ∀ k : Nat, k < done.length → done[k]? = some false))

theorem masked_none (ws : List Rat) (n : Nat) (h : n = ws.length) :
    masked ws (List.replicate n false) = ws := by
  subst h
  induction ws with
  | nil => simp [masked]
  | cons w ws ih =>
    simp only [masked] at ih
    simp [masked, List.replicate_succ, ih]

theorem cumsOk_init {ws : List Rat} (hb : Balanced ws) :
    CumsOk ws (List.replicate ws.length false) (initCums ws) := by
  have e : initCums ws = normalise (1 * ws.sum) (scaled 1 ws) := by
    have : cumsumFrom 0 ws = scaled 1 ws := by simp [scaled]
    simp only [initCums]
    rw [this, scaled_getLastD]
  rw [e, normalise_scaled, one_mul]
  refine ⟨by split <;> simp [scaled_length], fun hk => ?_⟩
  rw [masked_none _ _ rfl]
  have hpos : 0 < ws.sum := by
    have := masked_sum_pos (fun w h => (hb w h).1) (done := List.replicate ws.length false)
      (by simp) hk
    rwa [masked_none _ _ rfl] at this
  split
  · next h =>
    exact ⟨1, by norm_num, rfl, by rw [one_mul]; exact (areClose_one h).2,
      .inr (fun k hk => by rw [List.getElem?_replicate]; simpa using hk)⟩
  · refine ⟨1 / ws.sum, one_div_pos.mpr hpos, rfl, ?_, .inl ?_⟩
    · rw [one_div, inv_mul_cancel₀ (ne_of_gt hpos)]; norm_num
    · rw [one_div, inv_mul_cancel₀ (ne_of_gt hpos)]

theorem cumsOk_block {ws : List Rat} (hb : Balanced ws) {done : List Bool} {cs : List Rat} {i : Nat}
    (hl : done.length = ws.length) (h : CumsOk ws done cs) (hi : done[i]? = some false) :
    CumsOk ws (done.set i true) (blockCums cs i) := by
  obtain ⟨h1, h2⟩ := h
  obtain ⟨hid, hi'⟩ := List.getElem?_eq_some_iff.mp hi
  obtain ⟨σ, hσ, rfl, hs, -⟩ := h2 ⟨i, hi⟩
  have hml := masked_length ws done hl
  have hiw : i < ws.length := by omega
  rw [blockCums_scaled _ _ _ (by omega), normalise_scaled, ← masked_set]
  refine ⟨?_, fun hk => ?_⟩
  · have := masked_length ws (done.set i true) (by simpa using hl)
    split <;> rw [scaled_length, this]
  have hsum : (masked ws (done.set i true)).sum = (masked ws done).sum - ws[i] := by
    rw [masked_set, sum_set _ _ (by omega), masked_getD _ _ _ hiw hid, hi']
    simp
  have hpos := masked_sum_pos (fun w h => (hb w h).1) (done := done.set i true)
    (by simpa using hl) hk
  have hle := masked_sum_le (fun w h => (hb w h).1) done
  obtain ⟨hw0, hw⟩ := hb ws[i] (List.getElem_mem hiw)
  have hnc : areClose (σ * (masked ws (done.set i true)).sum) 1 = false := by
    rw [Bool.eq_false_iff]
    intro hc
    have h3 := (areClose_one hc).1
    rw [hsum] at h3
    have h4 : σ * (masked ws done).sum ≤ σ * (5000 * ws[i]) :=
      mul_le_mul_of_nonneg_left (by linarith) (le_of_lt hσ)
    have h5 : σ * ((masked ws done).sum - ws[i]) = σ * (masked ws done).sum - σ * ws[i] := by ring
    rw [h5] at h3
    have h6 : σ * (5000 * ws[i]) = 5000 * (σ * ws[i]) := by ring
    rw [h6] at h4
    linarith
  rw [hnc]
  simp only [Bool.false_eq_true, if_false]
  have hp : 0 < σ * (masked ws (done.set i true)).sum := by positivity
  have e1 : σ / (σ * (masked ws (done.set i true)).sum) * (masked ws (done.set i true)).sum = 1 := by
    field_simp
  exact ⟨_, by positivity, rfl, by rw [e1]; norm_num, .inl e1⟩

/-- A draw finds a pipeline that is not done. -/
theorem sampleIndex_some {R : Rng} {ws cs : List Rat} {done : List Bool}
    (hl : done.length = ws.length) (h : CumsOk ws done cs) (hk : ∃ k : Nat, done[k]? = some false)
    (g : R.G) : ∃ k, (sampleIndex R false cs done g).1 = some k := by
  obtain ⟨h1, h2⟩ := h
  obtain ⟨σ, hσ, rfl, -, h3⟩ := h2 hk
  simp only [sampleIndex, Bool.false_eq_true, if_false]
  generalize hx : uniform (R.draw32 g).1 = x
  obtain ⟨h4, h5⟩ := searchCums_spec (scaled σ (masked ws done)) x 0
    ((scaled σ (masked ws done)).length - 1) (Nat.zero_le _) (.inl rfl)
  generalize searchCums (scaled σ (masked ws done)) x 0
    ((scaled σ (masked ws done)).length - 1) = l at h4 h5
  rw [h1] at h4
  apply skipDone_exists
  obtain ⟨k, hk⟩ := hk
  obtain ⟨hkd, -⟩ := List.getElem?_eq_some_iff.mp hk
  rcases h3 with h3 | h3
  · refine Classical.byContradiction fun hno => ?_
    have hall : ∀ j, l ≤ j → j < done.length → done[j]? = some true := by
      intro j hlj hj
      cases hd : done[j]? with
      | none => rw [List.getElem?_eq_none_iff] at hd; omega
      | some b =>
        cases b with
        | true => rfl
        | false => exact absurd ⟨j - l, by rw [List.getElem?_drop, Nat.add_sub_cancel' hlj]; exact hd⟩ hno
    have hl0 : l ≠ 0 := by
      rintro rfl
      rw [hall k (Nat.zero_le _) hkd] at hk
      cases hk
    have h6 := h5.resolve_left hl0
    rw [List.getD_eq_getElem?_getD, scaled_getElem?, if_pos (by rw [masked_length _ _ hl]; omega),
      Nat.sub_add_cancel (by omega)] at h6
    simp only [Option.getD_some] at h6
    have h7 : (masked ws done).sum = ((masked ws done).take l).sum := by
      conv_lhs => rw [← List.take_append_drop l (masked ws done), List.sum_append]
      have : ((masked ws done).drop l).sum = 0 := by
        apply List.sum_eq_zero
        intro m hm
        obtain ⟨j, hj⟩ := List.mem_iff_getElem?.mp hm
        rw [List.getElem?_drop] at hj
        obtain ⟨hjl, hj'⟩ := List.getElem?_eq_some_iff.mp hj
        have hjd : l + j < done.length := by rw [masked_length _ _ hl] at hjl; omega
        have := masked_getD ws done (l + j) (by omega) hjd
        rw [List.getD_eq_getElem?_getD, hj] at this
        have hd := hall (l + j) (by omega) hjd
        rw [List.getElem?_eq_some_iff] at hd
        obtain ⟨_, hd⟩ := hd
        simp [hd] at this
        exact this
      rw [this, add_zero]
    rw [h7] at h3
    rw [h3, ← hx] at h6
    have := uniform_lt (R.draw32 g).1
    linarith
  · refine ⟨0, ?_⟩
    rw [List.getElem?_drop]
    exact h3 _ (by omega)

end Fs2
