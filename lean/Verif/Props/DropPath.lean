import Verif.Nn.DropPath
import Mathlib.Algebra.BigOperators.Group.Finset.Basic
import Mathlib.Algebra.BigOperators.Ring.Finset
import Mathlib.Tactic.Linarith
import Mathlib.Tactic.FieldSimp
import Mathlib.Tactic.Ring

/-!
# C129: stochastic depth

In training a residual connection drops whole sequences of the output of a layer with the given probability and keeps the residual;
the output is right on average. Otherwise it adds output and residual.
-/

namespace Fs2.Props

open Fs2.Residual

/-- The element `i` of the sequence `n` of a batch. -/
def elem {α : Type} (batch : List (List α)) (n i : Nat) : Option α := (batch[n]?).bind (·[i]?)

theorem mask_eq (d : DropPath) (h1 : d.dropP ≤ 1) (u : ℚ) (hu0 : 0 ≤ u) (hu : u < 1) (hp : 0 < d.dropP) :
    mask d u = if d.dropP ≤ u then 1 else 0 := by
  unfold mask
  split
  · rw [Int.floor_eq_iff]; constructor <;> push_cast <;> linarith
  · rename_i h
    rw [Int.floor_eq_iff]; constructor <;> push_cast <;> linarith

theorem forward_elem (d : DropPath) (us : List ℚ) (seqs residual : List (List ℚ)) (n i : Nat) (u s r : ℚ) (hu : us[n]? = some u)
    (hs : elem seqs n i = some s) (hr : elem residual n i = some r) :
    elem (forward d us seqs residual) n i =
      some (if !d.training || d.dropP = 0 then some (s + r) else (scaled d s).map fun x => x * mask d u + r) := by
  unfold elem at hs hr
  cases hsq : seqs[n]? with
  | none => rw [hsq] at hs; cases hs
  | some sq =>
    cases hrs : residual[n]? with
    | none => rw [hrs] at hr; cases hr
    | some rs =>
      rw [hsq] at hs
      rw [hrs] at hr
      simp only [Option.bind_some] at hs hr
      have hf : (forward d us seqs residual)[n]? = some (forwardSeq d u sq rs) := by
        unfold forward
        have hz : (List.zip seqs residual)[n]? = some (sq, rs) := by
          rw [List.zip, List.getElem?_zipWith_eq_some]
          exact ⟨sq, rs, hsq, hrs, rfl⟩
        rw [List.getElem?_zipWith_eq_some]
        exact ⟨u, (sq, rs), hu, hz, rfl⟩
      unfold elem
      rw [hf, Option.bind_some]
      unfold forwardSeq additive
      split <;>
      · rw [List.getElem?_zipWith_eq_some]
        exact ⟨s, r, hs, hr, rfl⟩

/-- **C129.** In evaluation, and if nothing is to be dropped, the output is the sum, whatever the random numbers are. -/
theorem C129_evaluation (d : DropPath) (h : d.training = false ∨ d.dropP = 0) (us : List ℚ) (seqs residual : List (List ℚ))
    (n i : Nat) (u s r : ℚ) (hu : us[n]? = some u) (hs : elem seqs n i = some s) (hr : elem residual n i = some r) :
    elem (forward d us seqs residual) n i = some (some (s + r)) := by
  rw [forward_elem d us seqs residual n i u s r hu hs hr]
  rcases h with h | h <;> simp [h]

example : elem (forward ⟨1 / 2, true, false⟩ [1 / 4] [[3, 5]] [[10, 20]]) 0 1 = some (some 25) := by
  have := C129_evaluation ⟨1 / 2, true, false⟩ (.inl rfl) [1 / 4] [[3, 5]] [[10, 20]] 0 1 (1 / 4) 5 20 rfl rfl rfl
  rw [this]; norm_num

/-- **C129.** In training, with a probability between 0 and 1, a sequence whose random number is less than the probability is dropped
as a whole: every element of the output is the residual. Every other sequence is kept as a whole, and is divided by the
probability of keeping it, if so configured. What happens to a sequence depends on its own random number only. -/
theorem C129_training (d : DropPath) (ht : d.training = true) (h0 : 0 < d.dropP) (h1 : d.dropP < 1) (us : List ℚ)
    (seqs residual : List (List ℚ)) (n i : Nat) (u s r : ℚ) (hu : us[n]? = some u) (hu0 : 0 ≤ u) (hu1 : u < 1)
    (hs : elem seqs n i = some s) (hr : elem residual n i = some r) :
    elem (forward d us seqs residual) n i =
      some (some (if u < d.dropP then r else if d.scaleByKeep then s / (1 - d.dropP) + r else s + r)) := by
  rw [forward_elem d us seqs residual n i u s r hu hs hr]
  have hk : ¬ (1 - d.dropP = 0) := by intro h; linarith
  have hz : ¬ (d.dropP = 0) := by intro h; linarith
  rw [mask_eq d h1.le u hu0 hu1 h0]
  by_cases hlt : u < d.dropP
  · have : ¬ d.dropP ≤ u := not_le.2 hlt
    cases hb : d.scaleByKeep <;> simp [ht, hz, scaled, hb, hk, hlt, this]
  · have : d.dropP ≤ u := not_lt.1 hlt
    cases hb : d.scaleByKeep <;> simp [ht, hz, scaled, hb, hk, hlt, this]

example : elem (forward ⟨1 / 2, true, true⟩ [1 / 4, 3 / 4] [[3, 5], [7, 8]] [[10, 20], [30, 40]]) 1 0 = some (some 44) := by
  have := C129_training ⟨1 / 2, true, true⟩ rfl (by norm_num) (by norm_num) [1 / 4, 3 / 4] [[3, 5], [7, 8]] [[10, 20], [30, 40]] 1 0
    (3 / 4) 7 30 rfl (by norm_num) (by norm_num) rfl rfl
  rw [this]; norm_num

/-- The output of an element as a function of the random number of its sequence, with the other numbers as they are. -/
def outputAt (d : DropPath) (us : List ℚ) (seqs residual : List (List ℚ)) (n i : Nat) (u : ℚ) : ℚ :=
  ((elem (forward d (us.set n u) seqs residual) n i).bind id).getD 0

theorem sum_ite_lt (m k : Nat) (hk : k ≤ m) (a b : ℚ) :
    ∑ j ∈ Finset.range m, (if j < k then a else b) = k * a + (m - k) * b := by
  obtain ⟨e, rfl⟩ := Nat.exists_eq_add_of_le hk
  induction e with
  | zero =>
    rw [Nat.add_zero, Finset.sum_congr rfl (g := fun _ => a)]
    · simp
    · intro j hj
      rw [if_pos (Finset.mem_range.1 hj)]
  | succ e ih =>
    rw [← Nat.add_assoc, Finset.sum_range_succ, ih (by omega), if_neg (by omega)]
    push_cast
    ring

/-- **C129.** With scaling, the output is right on average: the mean over the `m` equally likely random numbers `0, 1/m, …` is output
plus residual, if the probability is one of these numbers (as `torch.rand` gives multiples of a power of 1/2). -/
theorem C129_mean (m k : Nat) (h0 : 0 < k) (hkm : k < m) (us : List ℚ) (seqs residual : List (List ℚ)) (n i : Nat) (s r : ℚ)
    (hn : n < us.length) (hs : elem seqs n i = some s) (hr : elem residual n i = some r) :
    (∑ j ∈ Finset.range m, outputAt ⟨k / m, true, true⟩ us seqs residual n i (j / m)) / m = s + r := by
  have hm : (0 : ℚ) < m := by exact_mod_cast (by omega : 0 < m)
  have hk : (0 : ℚ) < k := by exact_mod_cast h0
  have hkm' : (k : ℚ) < m := by exact_mod_cast hkm
  have hd : (0 : ℚ) < m - k := by linarith
  have ho : ∀ j ∈ Finset.range m, outputAt ⟨k / m, true, true⟩ us seqs residual n i (j / m) =
      if j < k then r else s / (1 - k / m) + r := by
    intro j hj
    have hj : (j : ℚ) < m := by exact_mod_cast Finset.mem_range.1 hj
    have hlt : ((j : ℚ) / m < k / m) ↔ j < k := by
      rw [div_lt_div_iff_of_pos_right hm]
      exact_mod_cast Iff.rfl
    unfold outputAt
    rw [C129_training ⟨k / m, true, true⟩ rfl (div_pos hk hm) ((div_lt_one hm).2 hkm') (us.set n (j / m)) seqs residual n i (j / m) s r
      (by simp [hn]) (div_nonneg (Nat.cast_nonneg j) hm.le) ((div_lt_one hm).2 hj) hs hr]
    by_cases h : j < k
    · simp [h, hlt]
    · simp [h, hlt]
  rw [Finset.sum_congr rfl ho, sum_ite_lt m k hkm.le]
  have : (1 : ℚ) - k / m = (m - k) / m := by field_simp
  rw [this]
  field_simp
  ring

example : (∑ j ∈ Finset.range 8, outputAt ⟨((1 : Nat) : ℚ) / ((8 : Nat) : ℚ), true, true⟩ [0] [[3, 5]] [[10, 20]] 0 1 (j / ((8 : Nat) : ℚ))) / ((8 : Nat) : ℚ) = 5 + 20 :=
  C129_mean 8 1 (by decide) (by decide) [0] [[3, 5]] [[10, 20]] 0 1 5 20 (by decide) rfl rfl

/-- **C129 fails for the probability 1.** In training with scaling, when every sequence is to be dropped, the output is not the
residual: no element is a number. -/
theorem C129_all_negation (us : List ℚ) (seqs residual : List (List ℚ)) (n i : Nat) (u s r : ℚ) (hu : us[n]? = some u)
    (hs : elem seqs n i = some s) (hr : elem residual n i = some r) :
    elem (forward ⟨1, true, true⟩ us seqs residual) n i = some none := by
  rw [forward_elem ⟨1, true, true⟩ us seqs residual n i u s r hu hs hr]
  simp [scaled]

example : elem (forward ⟨1, true, true⟩ [1 / 4] [[3, 5]] [[10, 20]]) 0 1 = some none :=
  C129_all_negation _ _ _ 0 1 (1 / 4) 5 20 rfl rfl rfl

end Fs2.Props
