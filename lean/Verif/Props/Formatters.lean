import Verif.Metrics.Formatters
import Mathlib.Tactic.FieldSimp
import Mathlib.Tactic.Ring
import Mathlib.Tactic.NormNum
import Mathlib.Tactic.IntervalCases

/-!
# C130: how sizes and durations are shown

A size is shown in the largest unit in which it is at least 1, with the nearest number of hundredths.
-/

namespace Fs2.Props

open Fs2.Format

/-- The unit with the index `i` is right for a size: at least one, and less than one of the next unit; anything below one byte is
in bytes. -/
def RightUnit (size : ℚ) (i : Nat) : Prop := (i = 0 ∨ 1024 ^ i ≤ size) ∧ size < 1024 ^ (i + 1)

theorem scale_spec (size : ℚ) (unit : Nat) :
    ∃ i, (scale size unit).2 = unit + i ∧ (scale size unit).1 * 1024 ^ i = size ∧ RightUnit size i := by
  induction size, unit using scale.induct with
  | case1 size unit h _ ih =>
    obtain ⟨i, h1, h2, h3, h4⟩ := ih
    rw [scale, dif_pos h]
    refine ⟨i + 1, by rw [h1]; omega, ?_, .inr ?_, ?_⟩
    · rw [pow_succ, ← mul_assoc, h2]; ring
    · rcases h3 with rfl | h3
      · simpa using h
      · rw [pow_succ]; linarith
    · rw [pow_succ]; linarith
  | case2 size unit h =>
    rw [scale, dif_neg h]
    exact ⟨0, rfl, by simp, .inl rfl, by simpa using h⟩

theorem rightUnit_unique {size : ℚ} {i j : Nat} (hi : RightUnit size i) (hj : RightUnit size j) : i = j := by
  have key : ∀ a b : Nat, RightUnit size a → RightUnit size b → ¬ a < b := by
    intro a b ha hb hab
    rcases hb.1 with rfl | hb1
    · omega
    · have : (1024 : ℚ) ^ (a + 1) ≤ 1024 ^ b := pow_le_pow_right₀ (by norm_num) (by omega)
      have := ha.2
      linarith
  have h1 := key i j hi hj
  have h2 := key j i hj hi
  omega

theorem scale_of {size : ℚ} {i : Nat} (h : RightUnit size i) : scale size 0 = (size / 1024 ^ i, i) := by
  obtain ⟨j, h1, h2, h3⟩ := scale_spec size 0
  obtain rfl := rightUnit_unique h h3
  have hp : (1024 : ℚ) ^ i ≠ 0 := pow_ne_zero _ (by norm_num)
  refine Prod.ext ?_ (by simpa using h1)
  show (scale size 0).1 = _
  rw [eq_div_iff hp, h2]

theorem round2_near (x : ℚ) : |x * 100 - round2 x| ≤ 1 / 2 := by
  have h1 := Int.floor_le (x * 100)
  have h2 := Int.lt_floor_add_one (x * 100)
  unfold round2
  simp only
  rw [abs_le]
  split
  · constructor <;> linarith
  · split
    · constructor <;> push_cast <;> linarith
    · split
      · constructor <;> linarith
      · constructor <;> push_cast <;> linarith

/-- **C130.** A positive size that is less than 1024 PiB is shown in the right unit, with the nearest number of hundredths of it. -/
theorem C130_size (size : ℚ) (h0 : 0 < size) (i : Nat) (hi : i < 6) (h : RightUnit size i) :
    ∃ hundredths : ℤ, byteSize size = .sized hundredths (["B", "KiB", "MiB", "GiB", "TiB", "PiB"][i]'(by simpa using hi)) ∧
      |size / 1024 ^ i * 100 - hundredths| ≤ 1 / 2 := by
  refine ⟨round2 (size / 1024 ^ i), ?_, round2_near _⟩
  unfold byteSize
  rw [if_neg (not_le.2 h0), scale_of h]
  have : units[i]? = some (["B", "KiB", "MiB", "GiB", "TiB", "PiB"][i]'(by simpa using hi)) := by
    simp only [units]
    rw [List.getElem?_eq_getElem]
  simp only [this]

example : RightUnit 1536 1 := by norm_num [RightUnit]

/-- **C130.** Exactly the sizes from 1024 PiB on are too big, and exactly those that are not positive are zero. -/
theorem C130_ends (size : ℚ) : (byteSize size = .tooBig ↔ 1024 ^ 6 ≤ size) ∧ (byteSize size = .zero ↔ size ≤ 0) := by
  by_cases h0 : size ≤ 0
  · have : ¬ (1024 : ℚ) ^ 6 ≤ size := by
      intro h
      have : (0 : ℚ) < 1024 ^ 6 := by norm_num
      linarith
    simp [byteSize, h0, this]
  · obtain ⟨i, h1, h2, h3⟩ := scale_spec size 0
    have hs := scale_of h3
    by_cases hi : i < 6
    · obtain ⟨n, hn, -⟩ := C130_size size (not_le.1 h0) i hi h3
      have : ¬ (1024 : ℚ) ^ 6 ≤ size := by
        intro h
        have h4 : (1024 : ℚ) ^ (i + 1) ≤ 1024 ^ 6 := pow_le_pow_right₀ (by norm_num) (by omega)
        have := h3.2
        linarith
      simp [hn, h0, this]
    · have hu : units[i]? = none := by simp [units]; omega
      have hb : byteSize size = .tooBig := by
        unfold byteSize
        rw [if_neg h0, hs]
        simp only [hu]
      have : (1024 : ℚ) ^ 6 ≤ size := by
        rcases h3.1 with h | h
        · omega
        · exact le_trans (pow_le_pow_right₀ (by norm_num) (by omega)) h
      simp [hb, h0, this]

example : byteSize (1024 ^ 6) = .tooBig := (C130_ends _).1.2 le_rfl

theorem rightUnit_le {a b : ℚ} (hab : a ≤ b) {i j : Nat} (hi : RightUnit a i) (hj : RightUnit b j) : i ≤ j := by
  by_contra h
  rcases hi.1 with rfl | hi1
  · omega
  · have : (1024 : ℚ) ^ (j + 1) ≤ 1024 ^ i := pow_le_pow_right₀ (by norm_num) (by omega)
    have := hj.2
    linarith

theorem sized_unit {size : ℚ} {n : ℤ} {u : String} (h : byteSize size = .sized n u) :
    RightUnit size (["B", "KiB", "MiB", "GiB", "TiB", "PiB"].idxOf u) := by
  have h0 : 0 < size := by
    by_contra h0
    rw [(C130_ends size).2.2 (not_lt.1 h0)] at h
    cases h
  obtain ⟨i, -, -, h3⟩ := scale_spec size 0
  have hi : i < 6 := by
    by_contra hi
    have : (1024 : ℚ) ^ 6 ≤ size := by
      rcases h3.1 with h | h
      · omega
      · exact le_trans (pow_le_pow_right₀ (by norm_num) (by omega)) h
    rw [(C130_ends size).1.2 this] at h
    cases h
  obtain ⟨m, hm, -⟩ := C130_size size h0 i hi h3
  rw [h] at hm
  injection hm with _ hu
  have hx : ["B", "KiB", "MiB", "GiB", "TiB", "PiB"].idxOf u = i := by
    rw [hu]
    clear hu h h3
    interval_cases i <;> simp
  rw [hx]
  exact h3

/-- **C130.** Bigger sizes are never shown in smaller units. -/
theorem C130_monotone (a b : ℚ) (hab : a ≤ b) (m n : ℤ) (u v : String) (ha : byteSize a = .sized m u) (hb : byteSize b = .sized n v) :
    ["B", "KiB", "MiB", "GiB", "TiB", "PiB"].idxOf u ≤ ["B", "KiB", "MiB", "GiB", "TiB", "PiB"].idxOf v :=
  rightUnit_le hab (sized_unit ha) (sized_unit hb)

example : ∃ m n u v, byteSize 1000 = .sized m u ∧ byteSize 1536 = .sized n v := by
  obtain ⟨m, hm, -⟩ := C130_size 1000 (by norm_num) 0 (by decide) (by norm_num [RightUnit])
  obtain ⟨n, hn, -⟩ := C130_size 1536 (by norm_num) 1 (by decide) (by norm_num [RightUnit])
  exact ⟨m, n, _, _, hm, hn⟩

/-- **C130 fails near the next unit.** The unit is chosen before the number is rounded: every size less than half a hundredth below
the next unit is shown as 1024.00 of the smaller one. -/
theorem C130_rounding_negation (size : ℚ) (i : Nat) (hi : i < 6) (h1 : (1024 - 1 / 200) * 1024 ^ i < size) (h2 : size < 1024 ^ (i + 1)) :
    byteSize size = .sized 102400 (["B", "KiB", "MiB", "GiB", "TiB", "PiB"][i]'(by simpa using hi)) := by
  have hp : (0 : ℚ) < 1024 ^ i := pow_pos (by norm_num) i
  have hr : RightUnit size i := ⟨.inr (by nlinarith), h2⟩
  have h0 : 0 < size := by nlinarith
  obtain ⟨n, hn, hd⟩ := C130_size size h0 i hi hr
  rw [hn]
  have u : size / 1024 ^ i < 1024 := by
    rw [div_lt_iff₀ hp]; rw [pow_succ] at h2; linarith
  have l : 1024 - 1 / 200 < size / 1024 ^ i := by rw [lt_div_iff₀ hp]; exact h1
  rw [abs_le] at hd
  have a : (102399 : ℚ) < n := by linarith [hd.2]
  have b : (n : ℚ) < 102401 := by linarith [hd.1]
  have a' : (102399 : ℤ) < n := by exact_mod_cast a
  have b' : n < (102401 : ℤ) := by exact_mod_cast b
  have : n = 102400 := by omega
  rw [this]

example : byteSize (1048575) = .sized 102400 "KiB" :=
  C130_rounding_negation 1048575 1 (by decide) (by norm_num) (by norm_num)

/-- **C130 fails for sequences.** A number of seconds is shown with its unit, but a sequence of them without, whatever the postfix is. -/
theorem C130_postfix_negation (render : Int → String) (p : String) (hp : p ≠ "") :
    (∀ i, formatAsInt render (some p) (.int i) = render i ++ p) ∧
      ∀ l, formatAsInt render (some p) (.seq l) = ", ".intercalate (l.map render) := by
  constructor
  · intro i; simp [formatAsInt, formatOne, hp]
  · intro l; rfl

example : formatAsInt (fun i => toString i) (some "s") (.seq [3, 5]) = "3, 5" := by decide +kernel

end Fs2.Props
