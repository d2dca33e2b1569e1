import Verif.Optim.LrLemmas

/-!
# C42: learning rates follow their schedule and stay within their bounds

The statements speak about one parameter group `g` with base rate `b`, initial warm-up rate `s` and
final rate `f`, and about the function `lr` from the number of `step()` calls to that group's rate.
`lr t` for the rate after `t` steps.
-/

namespace Fs2.Props
open Fs2.Lr

/-- **MyleLR** (myle.py). The rate starts at `s`, rises to `b` at the end of the warm-up, falls
from there on, never leaves `[s, b]` during the warm-up and `[0, b]` afterwards, and without an initial
rate it is the documented `b · min(√(w / t), t / w)`. -/
theorem C42_myle {G w : ℕ} {start : PerGroup} {m : Myle} {ss base : List ℝ} {g : ℕ} {b s : ℝ}
    (hnew : Myle.new G w start = some m) (hss : perGroup G start = some ss)
    (hb : base[g]? = some b) (hs : ss[g]? = some s) (h0 : 0 ≤ s) (hsb : s ≤ b) :
    ∃ lr : ℕ → ℝ, (∀ t, (m.lrs base t)[g]? = some (lr t)) ∧
      lr 0 = s ∧ lr w = b ∧ MonotoneOn lr (Set.Iic w) ∧ AntitoneOn lr (Set.Ici w) ∧
      (∀ t, 0 ≤ lr t ∧ lr t ≤ b) ∧ (∀ t ≤ w, s ≤ lr t) ∧
      (s = 0 → ∀ t, 0 < t → lr t = b * min (√((w : ℝ) / t)) ((t : ℝ) / w)) := by
  simp only [Myle.new] at hnew
  split at hnew
  · cases hnew
  next hw =>
  have hw : 0 < w := Nat.pos_of_ne_zero hw
  rw [hss] at hnew
  simp only [Option.map_some, Option.some.injEq] at hnew
  subst hnew
  have hwR : (0 : ℝ) < w := by exact_mod_cast hw
  have hbn : 0 ≤ b := le_trans h0 hsb
  let lr : ℕ → ℝ := fun t => if t < w then ramp s b w t else b * √((w : ℝ) / t)
  have hlt : ∀ t, t < w → lr t = ramp s b w t := fun t h => by simp [lr, h]
  have hge : ∀ t, w ≤ t → lr t = b * √((w : ℝ) / t) := fun t h => by
    simp [lr, Nat.not_lt.mpr h]
  have hend : lr w = b := by rw [hge w (le_refl _), div_self hwR.ne']; simp
  have hmono : MonotoneOn lr (Set.Iic w) := ramp_mono_on hlt hend hsb
  have hanti : AntitoneOn lr (Set.Ici w) := by
    intro t ht u hu htu
    rw [hge t ht, hge u hu]
    apply mul_le_mul_of_nonneg_left _ hbn
    apply Real.sqrt_le_sqrt
    have htR : (0 : ℝ) < t := by exact_mod_cast lt_of_lt_of_le hw ht
    apply div_le_div_of_nonneg_left hwR.le htR
    exact_mod_cast htu
  refine ⟨lr, ?_, ?_, hend, hmono, hanti, ?_, ?_, ?_⟩
  · intro t
    by_cases h : t < w
    · rw [hlt t h]
      simp only [Myle.lrs, h, if_true]
      exact warmup_get hb hs t w
    · rw [hge t (Nat.not_lt.mp h)]
      simp only [Myle.lrs, h, if_false, List.getElem?_map, hb, Option.map_some]
      rw [Real.sqrt_eq_rpow]
      norm_num
  · rw [hlt 0 hw, ramp_zero]
  · intro t
    rcases Nat.lt_or_ge t w with h | h
    · have := ramp_bounds hsb hw h.le
      rw [hlt t h]
      exact ⟨by linarith, this.2⟩
    · refine ⟨?_, ?_⟩
      · rw [hge t h]; positivity
      · have := hanti (Set.mem_Ici.mpr (le_refl w)) (Set.mem_Ici.mpr h) h
        rwa [hend] at this
  · intro t ht
    have := hmono (Set.mem_Iic.mpr (Nat.zero_le w)) (Set.mem_Iic.mpr ht) (Nat.zero_le t)
    rwa [hlt 0 hw, ramp_zero] at this
  · intro hs0 t ht
    subst hs0
    have htR : (0 : ℝ) < t := by exact_mod_cast ht
    rcases Nat.lt_or_ge t w with h | h
    · rw [hlt t h, min_eq_right]
      · simp [ramp]
      · have hR : (t : ℝ) < w := by exact_mod_cast h
        have h1 : (t : ℝ) / w ≤ 1 := (div_le_one hwR).mpr hR.le
        have h2 : 1 ≤ (w : ℝ) / t := (one_le_div htR).mpr hR.le
        have h3 : (1 : ℝ) ≤ √((w : ℝ) / t) := by
          rw [Real.one_le_sqrt]; exact h2
        linarith
    · rw [hge t h, min_eq_left]
      have hR : (w : ℝ) ≤ t := by exact_mod_cast h
      have h1 : (w : ℝ) / t ≤ 1 := (div_le_one htR).mpr hR
      have h2 : 1 ≤ (t : ℝ) / w := (one_le_div hwR).mpr hR
      have h3 : √((w : ℝ) / t) ≤ 1 := by
        rw [Real.sqrt_le_one]; exact h1
      linarith

example : ∃ m, Myle.new 2 4000 (.scalar 0) = some m ∧ perGroup 2 (.scalar 0) = some [0, 0] :=
  ⟨_, rfl, rfl⟩

/-- **NoamLR** (noam.py). The rate is the documented `b · min(1 / √t, t / w · 1 / √w)`, it rises up
to the end of the warm-up, where it is `b / √w`, falls from there on, and stays in `[0, b]`. -/
theorem C42_noam {w : ℕ} {base : List ℝ} {g : ℕ} {b : ℝ} (hb : base[g]? = some b) (h0 : 0 ≤ b) :
    ∃ lr : ℕ → ℝ, (∀ t, (noam w base t)[g]? = some (lr t)) ∧
      lr 0 = (if w = 0 then b else 0) ∧ (0 < w → lr w = b / √w) ∧
      MonotoneOn lr (Set.Iic w) ∧ AntitoneOn lr (Set.Ici w) ∧ (∀ t, 0 ≤ lr t ∧ lr t ≤ b) ∧
      (0 < w → ∀ t, 0 < t → lr t = b * min (1 / √t) ((t : ℝ) / w * (1 / √w))) ∧
      (w = 0 → ∀ t, 0 < t → lr t = b / √t) := by
  let lr : ℕ → ℝ := fun t =>
    b * (if t < w then (t : ℝ) / w * (1 / √w) else if t = 0 then 1 else 1 / √t)
  have hval : ∀ t, (noam w base t)[g]? = some (lr t) := by
    intro t
    simp only [noam, List.getElem?_map, hb, Option.map_some, lr]
    congr 2
    by_cases h : t < w
    · simp only [h, if_true]
      have hw : (0 : ℝ) < w := by exact_mod_cast Nat.zero_lt_of_lt h
      rw [show (-1.5 : ℝ) = (-1) + (-(1 / 2)) by norm_num, Real.rpow_add hw,
        Real.rpow_neg hw.le (1 / 2), ← Real.sqrt_eq_rpow, Real.rpow_neg_one]
      ring
    · simp only [h, if_false]
      split
      · rfl
      next ht =>
      have htR : (0 : ℝ) < t := by exact_mod_cast Nat.pos_of_ne_zero ht
      rw [show (-0.5 : ℝ) = -(1 / 2) by norm_num, Real.rpow_neg htR.le, ← Real.sqrt_eq_rpow]
      simp
  have hlt : ∀ t, t < w → lr t = b * ((t : ℝ) / w * (1 / √w)) := fun t h => by simp [lr, h]
  have hge : ∀ t, w ≤ t → 0 < t → lr t = b * (1 / √t) := fun t h h' => by
    simp [lr, Nat.not_lt.mpr h, Nat.pos_iff_ne_zero.mp h']
  have hend : 0 < w → lr w = b / √w := fun hw => by rw [hge w (le_refl _) hw]; ring
  have hle : ∀ t, 0 < w → t ≤ w → lr t = b * ((t : ℝ) / w * (1 / √w)) := by
    intro t hw ht
    rcases Nat.lt_or_eq_of_le ht with h | h
    · exact hlt t h
    · subst h
      have : (t : ℝ) ≠ 0 := by positivity
      rw [hend hw, div_self this]; ring
  have hanti : AntitoneOn lr (Set.Ici w) := by
    intro t ht u hu htu
    rcases Nat.eq_zero_or_pos t with h | h
    · subst h
      have hw : w = 0 := by simpa using ht
      subst hw
      rcases Nat.eq_zero_or_pos u with h' | h'
      · subst h'; exact le_refl _
      · have h1 : lr 0 = b * 1 := by simp [lr]
        rw [hge u (Nat.zero_le _) h', h1]
        apply mul_le_mul_of_nonneg_left _ h0
        rw [div_le_one (by positivity), Real.one_le_sqrt]
        exact_mod_cast h'
    · rw [hge t ht h, hge u hu (by omega)]
      apply mul_le_mul_of_nonneg_left _ h0
      apply one_div_le_one_div_of_le (by positivity)
      apply Real.sqrt_le_sqrt
      exact_mod_cast htu
  have hmono : MonotoneOn lr (Set.Iic w) := by
    intro t ht u hu htu
    rcases Nat.eq_zero_or_pos w with h | h
    · subst h
      have ht : t = 0 := by simpa using ht
      have hu : u = 0 := by simpa using hu
      subst ht hu
      exact le_refl _
    · rw [hle t h ht, hle u h hu]
      apply mul_le_mul_of_nonneg_left _ h0
      apply mul_le_mul_of_nonneg_right _ (by positivity)
      apply div_le_div_of_nonneg_right _ (by positivity)
      exact_mod_cast htu
  refine ⟨lr, hval, ?_, hend, hmono, hanti, ?_, ?_, ?_⟩
  · by_cases hw : w = 0
    · simp [lr, hw]
    · simp [lr, hw, Nat.pos_of_ne_zero hw]
  · intro t
    constructor
    · simp only [lr]
      apply mul_nonneg h0
      split
      · positivity
      · split <;> positivity
    · rcases Nat.eq_zero_or_pos w with h | h
      · subst h
        have := hanti (Set.mem_Ici.mpr (le_refl 0)) (Set.mem_Ici.mpr (Nat.zero_le t)) (Nat.zero_le t)
        simpa [lr] using this
      · have hpeak : lr w ≤ b := by
          rw [hend h]
          apply div_le_self h0
          rw [Real.one_le_sqrt]
          exact_mod_cast h
        rcases Nat.le_total t w with h' | h'
        · exact le_trans (hmono (Set.mem_Iic.mpr h') (Set.mem_Iic.mpr (le_refl w)) h') hpeak
        · exact le_trans (hanti (Set.mem_Ici.mpr (le_refl w)) (Set.mem_Ici.mpr h') h') hpeak
  · intro hw t ht
    have htR : (0 : ℝ) < t := by exact_mod_cast ht
    have hwR : (0 : ℝ) < w := by exact_mod_cast hw
    rcases Nat.lt_or_ge t w with h | h
    · rw [hlt t h, min_eq_right]
      have hR : (t : ℝ) ≤ w := by exact_mod_cast h.le
      have h1 : (t : ℝ) / w ≤ 1 := (div_le_one hwR).mpr hR
      have h2 : 1 / √(w : ℝ) ≤ 1 / √t :=
        one_div_le_one_div_of_le (by positivity) (Real.sqrt_le_sqrt hR)
      have h3 : (0 : ℝ) ≤ 1 / √w := by positivity
      nlinarith
    · rw [hge t h ht, min_eq_left]
      have hR : (w : ℝ) ≤ t := by exact_mod_cast h
      have h1 : 1 ≤ (t : ℝ) / w := (one_le_div hwR).mpr hR
      have h2 : 1 / √(t : ℝ) ≤ 1 / √w :=
        one_div_le_one_div_of_le (by positivity) (Real.sqrt_le_sqrt hR)
      have h3 : (0 : ℝ) ≤ 1 / √w := by positivity
      nlinarith
  · intro hw t ht
    subst hw
    rw [hge t (Nat.zero_le _) ht]; ring

/-- **PolynomialDecayLR** (polynomial_decay.py). The rate rises from `s` to `b` during the warm-up,
follows the documented `f + (b - f) ((N - t) / (N - w))^p` up to and including the last step `N`,
is `f` afterwards, and never leaves `[min s f, b]`. -/
theorem C42_polynomial {G N w : ℕ} {p : ℝ} {start final : PerGroup} {m : Poly}
    {ss ff base : List ℝ} {g : ℕ} {b s f : ℝ}
    (hnew : Poly.new G N w p start final = some m)
    (hss : perGroup G start = some ss) (hff : perGroup G final = some ff)
    (hb : base[g]? = some b) (hs : ss[g]? = some s) (hf : ff[g]? = some f)
    (hsb : s ≤ b) (hfb : f ≤ b) (hp : 0 < p) :
    w < N ∧ ∃ lr : ℕ → ℝ, (∀ t, (m.lrs base t)[g]? = some (lr t)) ∧
      (0 < w → lr 0 = s) ∧ lr w = b ∧ (∀ t ≥ N, lr t = f) ∧
      (∀ t, w ≤ t → t ≤ N → lr t = f + (b - f) * (((N : ℝ) - t) / ((N : ℝ) - w)) ^ p) ∧
      MonotoneOn lr (Set.Iic w) ∧ AntitoneOn lr (Set.Ici w) ∧
      (∀ t, lr t ≤ b) ∧ (∀ t ≤ w, s ≤ lr t) ∧ (∀ t ≥ w, f ≤ lr t) := by
  simp only [Poly.new] at hnew
  split at hnew
  · cases hnew
  next hw =>
  have hw : w < N := Nat.not_le.mp hw
  rw [hss, hff] at hnew
  cases hnew
  refine ⟨hw, ?_⟩
  have hT : (0 : ℝ) < (N : ℝ) - w := by
    have : (w : ℝ) < N := by exact_mod_cast hw
    linarith
  let q : ℕ → ℝ := fun t => f + (b - f) * (((N : ℝ) - t) / ((N : ℝ) - w)) ^ p
  let lr : ℕ → ℝ := fun t => if N ≤ t then f else if t < w then ramp s b w t else q t
  have hlt : ∀ t, t < w → lr t = ramp s b w t := fun t h => by
    have h1 : ¬ N ≤ t := by omega
    simp [lr, h, h1]
  have hmid : ∀ t, w ≤ t → t ≤ N → lr t = q t := fun t h1 h2 => by
    rcases Nat.lt_or_eq_of_le h2 with h | h
    · have h3 : ¬ N ≤ t := by omega
      have h4 : ¬ t < w := by omega
      simp [lr, h3, h4]
    · subst h
      simp [lr, q, Real.zero_rpow hp.ne']
  have hfin : ∀ t, N ≤ t → lr t = f := fun t h => by simp [lr, h]
  have hend : lr w = b := by
    rw [hmid w (le_refl _) hw.le]
    simp [q, div_self hT.ne']
  have hqanti : ∀ t u, w ≤ t → t ≤ u → u ≤ N → q u ≤ q t := by
    intro t u h1 h2 h3
    simp only [q]
    have hb' : 0 ≤ b - f := by linarith
    have h4 : (t : ℝ) ≤ u := by exact_mod_cast h2
    have h5 : (u : ℝ) ≤ N := by exact_mod_cast h3
    have h6 : (((N : ℝ) - u) / ((N : ℝ) - w)) ^ p ≤ (((N : ℝ) - t) / ((N : ℝ) - w)) ^ p := by
      apply Real.rpow_le_rpow _ _ hp.le
      · apply div_nonneg (by linarith) hT.le
      · apply div_le_div_of_nonneg_right (by linarith) hT.le
    nlinarith
  have hqf : ∀ t, w ≤ t → t ≤ N → f ≤ q t := by
    intro t h1 h2
    have := hqanti t N h1 h2 (le_refl _)
    rwa [← hmid N hw.le (le_refl _), hfin N (le_refl _)] at this
  have hanti : AntitoneOn lr (Set.Ici w) := by
    intro t ht u hu htu
    have ht : w ≤ t := ht
    rcases Nat.le_total N u with h | h
    · rw [hfin u h]
      rcases Nat.le_total N t with h' | h'
      · rw [hfin t h']
      · rw [hmid t ht h']; exact hqf t ht h'
    · rw [hmid u hu h, hmid t ht (le_trans htu h)]
      exact hqanti t u ht htu h
  have hmono : MonotoneOn lr (Set.Iic w) := ramp_mono_on hlt hend hsb
  refine ⟨lr, ?_, ?_, hend, hfin, hmid, hmono, hanti, ?_, ?_, ?_⟩
  · intro t
    simp only [Poly.lrs, lr, ge_iff_le]
    by_cases h1 : N ≤ t
    · simp [h1, hf]
    · simp only [h1, if_false]
      by_cases h2 : t < w
      · simp only [h2, if_true]
        exact warmup_get hb hs t w
      · simp only [h2, if_false, List.getElem?_zipWith, hb, hf, q]
        rw [Nat.cast_sub (by omega), Nat.cast_sub hw.le]
  · intro h; rw [hlt 0 h, ramp_zero]
  · intro t
    rcases Nat.le_total t w with h | h
    · have := hmono (Set.mem_Iic.mpr h) (Set.mem_Iic.mpr (le_refl w)) h
      rwa [hend] at this
    · have := hanti (Set.mem_Ici.mpr (le_refl w)) (Set.mem_Ici.mpr h) h
      rwa [hend] at this
  · intro t ht
    rcases Nat.eq_zero_or_pos w with h | h
    · subst h
      have : t = 0 := by omega
      subst this
      rw [hend]; exact hsb
    · have := hmono (Set.mem_Iic.mpr (Nat.zero_le w)) (Set.mem_Iic.mpr ht) (Nat.zero_le t)
      rwa [hlt 0 h, ramp_zero] at this
  · intro t ht
    rcases Nat.le_total N t with h | h
    · rw [hfin t h]
    · rw [hmid t ht h]; exact hqf t ht h

example : ∃ m, Poly.new 1 100 10 1 (.scalar 0) (.seq [0.5]) = some m ∧
    perGroup 1 (.seq [0.5]) = some [0.5] := ⟨_, rfl, rfl⟩

/-- **TriStageLR** (tri_stage.py) with positive final scales. `w`, `h` and `d` are the lengths of the
three stages. The rate rises from `s · b` to `b`, stays there, decays as `b · f^(k / d)` over the last
stage, and is `f · b` afterwards, which happens at the latest at step `num_steps` when the ratios add
up to one. It never leaves `[min (s · b) (f · b), b]`. -/
theorem C42_tri_stage_partial {G N : ℕ} {r0 r1 r2 : ℝ} {start final : PerGroup} {m : TriStage}
    {ss ff base : List ℝ} {g : ℕ} {b s f : ℝ}
    (hnew : TriStage.new G N r0 r1 r2 start final = some m)
    (hss : perGroup G start = some ss) (hff : perGroup G final = some ff)
    (hpos : ∀ x ∈ ff, 0 < x) (hr0 : 0 ≤ r0) (hr1 : 0 ≤ r1) (hr2 : 0 ≤ r2)
    (hb : base[g]? = some b) (hs : ss[g]? = some s) (hf : ff[g]? = some f)
    (h0 : 0 ≤ b) (hs1 : s ≤ 1) (hf1 : f ≤ 1) :
    ∃ (w h d : ℕ) (lr : ℕ → ℝ), w = ⌊r0 * N⌋₊ ∧ h = ⌊r1 * N⌋₊ ∧ d = ⌊r2 * N⌋₊ ∧
      (∀ t, ∃ l, m.lrs base t = some l ∧ l[g]? = some (lr t)) ∧
      (0 < w → lr 0 = s * b) ∧ (0 < h + d → lr w = b) ∧
      (∀ t, w ≤ t → t < w + h → lr t = b) ∧
      (0 < d → ∀ k ≤ d, lr (w + h + k) = b * f ^ ((k : ℝ) / d)) ∧
      (∀ t ≥ w + h + d, lr t = f * b) ∧
      (r0 + r1 + r2 = 1 → ∀ t ≥ N, lr t = f * b) ∧
      (0 < h + d → MonotoneOn lr (Set.Iic w)) ∧ AntitoneOn lr (Set.Ici w) ∧
      (∀ t, lr t ≤ b) ∧ (∀ t < w, s * b ≤ lr t) ∧ (∀ t ≥ w, f * b ≤ lr t) := by
  simp only [TriStage.new] at hnew
  split at hnew
  · cases hnew
  rw [hss, hff] at hnew
  cases hnew
  generalize hw : ⌊r0 * (N : ℝ)⌋₊ = w
  generalize hh : ⌊r1 * (N : ℝ)⌋₊ = h
  generalize hd : ⌊r2 * (N : ℝ)⌋₊ = d
  have hfp : 0 < f := hpos f (List.mem_of_getElem? hf)
  have hsb : s * b ≤ b := by nlinarith
  have hfb : f * b ≤ b := by nlinarith
  let e : ℕ → ℝ := fun k => b * f ^ ((k : ℝ) / d)
  let lr : ℕ → ℝ := fun t =>
    if t < w then ramp (s * b) b w t
    else if t - w < h then b
    else if t - w - h < d then e (t - w - h) else f * b
  have hlt : ∀ t, t < w → lr t = ramp (s * b) b w t := fun t h' => by simp [lr, h']
  have hhold : ∀ t, w ≤ t → t < w + h → lr t = b := fun t h1 h2 => by
    have h3 : ¬ t < w := by omega
    have h4 : t - w < h := by omega
    simp [lr, h3, h4]
  have hdec : 0 < d → ∀ k ≤ d, lr (w + h + k) = e k := fun hd0 k hk => by
    have h3 : ¬ w + h + k < w := by omega
    have h4 : ¬ w + h + k - w < h := by omega
    have h5 : w + h + k - w - h = k := by omega
    simp only [lr, h3, h4, if_false, h5]
    rcases Nat.lt_or_eq_of_le hk with h6 | h6
    · simp [h6]
    · subst h6
      have : (k : ℝ) ≠ 0 := by positivity
      simp [e, div_self this, mul_comm]
  have hfin : ∀ t ≥ w + h + d, lr t = f * b := fun t h' => by
    have h3 : ¬ t < w := by omega
    have h4 : ¬ t - w < h := by omega
    have h5 : ¬ t - w - h < d := by omega
    simp [lr, h3, h4, h5]
  have hend : 0 < h + d → lr w = b := fun hpos' => by
    rcases Nat.eq_zero_or_pos h with h1 | h1
    · subst h1
      have := hdec (by omega) 0 (by omega)
      simp only [Nat.add_zero] at this
      rw [this]; simp [e]
    · exact hhold w (le_refl _) (by omega)
  have he_anti : ∀ k l, k ≤ l → e l ≤ e k := fun k l hkl => by
    apply mul_le_mul_of_nonneg_left _ h0
    apply Real.rpow_le_rpow_of_exponent_ge hfp hf1
    apply div_le_div_of_nonneg_right _ (by positivity)
    exact_mod_cast hkl
  have he_le : ∀ k, e k ≤ b := fun k => by
    have := he_anti 0 k (Nat.zero_le k)
    simpa [e] using this
  have he_ge : ∀ k, k ≤ d → 0 < d → f * b ≤ e k := fun k hk hd0 => by
    have := he_anti k d hk
    rwa [← hdec hd0 d (le_refl _), hfin _ (le_refl _)] at this
  have hge : ∀ t ≥ w, f * b ≤ lr t := fun t ht => by
    by_cases h1 : t < w + h
    · rw [hhold t ht h1]; exact hfb
    · by_cases h2 : t < w + h + d
      · have h3 : t = w + h + (t - w - h) := by omega
        rw [h3, hdec (by omega) _ (by omega)]
        exact he_ge _ (by omega) (by omega)
      · rw [hfin t (by omega)]
  have hle : ∀ t ≥ w, lr t ≤ b := fun t ht => by
    by_cases h1 : t < w + h
    · rw [hhold t ht h1]
    · by_cases h2 : t < w + h + d
      · have h3 : t = w + h + (t - w - h) := by omega
        rw [h3, hdec (by omega) _ (by omega)]
        exact he_le _
      · rw [hfin t (by omega)]; exact hfb
  have hanti : AntitoneOn lr (Set.Ici w) := by
    intro t ht u hu htu
    have ht : w ≤ t := ht
    by_cases h1 : t < w + h
    · rw [hhold t ht h1]; exact hle u hu
    · by_cases h2 : u < w + h + d
      · have h3 : t = w + h + (t - w - h) := by omega
        have h4 : u = w + h + (u - w - h) := by omega
        rw [h3, h4, hdec (by omega) _ (by omega), hdec (by omega) _ (by omega)]
        exact he_anti _ _ (by omega)
      · rw [hfin u (by omega)]; exact hge t ht
  have hmono : 0 < h + d → MonotoneOn lr (Set.Iic w) := fun hp =>
    ramp_mono_on hlt (hend hp) hsb
  have hwarm : ∀ t < w, s * b ≤ lr t ∧ lr t ≤ b := fun t ht => by
    rw [hlt t ht]
    exact ramp_bounds hsb (by omega) ht.le
  refine ⟨w, h, d, lr, rfl, rfl, rfl, ?_, ?_, hend, hhold, hdec, hfin, ?_, hmono, hanti, ?_,
    fun t ht => (hwarm t ht).1, hge⟩
  · intro t
    simp only [TriStage.lrs, lr]
    by_cases h1 : t < w
    · simp only [h1, if_true]
      refine ⟨_, rfl, warmup_get hb ?_ t w⟩
      simp [List.getElem?_zipWith, hs, hb]
    · simp only [h1, if_false]
      by_cases h2 : t - w < h
      · simp only [h2, if_true]
        exact ⟨_, rfl, hb⟩
      · simp only [h2, if_false]
        by_cases h3 : t - w - h < d
        · simp only [h3, if_true]
          have h4 : ∀ x ∈ List.map Prod.snd (base.zip ff), 0 < x := by
            intro x hx
            rw [List.mem_map] at hx
            obtain ⟨y, hy, rfl⟩ := hx
            exact hpos _ (List.of_mem_zip hy).2
          rw [if_pos h4]
          refine ⟨_, rfl, ?_⟩
          simp only [List.getElem?_zipWith, hb, hf, e]
          rw [Real.rpow_def_of_pos hfp]
        · simp only [h3, if_false]
          refine ⟨_, rfl, ?_⟩
          simp [List.getElem?_zipWith, hb, hf]
  · intro h'; rw [hlt 0 h', ramp_zero]
  · intro hsum t ht
    apply hfin
    have hN : (0 : ℝ) ≤ N := by positivity
    have h1 : (w : ℝ) ≤ r0 * N := by rw [← hw]; exact Nat.floor_le (by positivity)
    have h2 : (h : ℝ) ≤ r1 * N := by rw [← hh]; exact Nat.floor_le (by positivity)
    have h3 : (d : ℝ) ≤ r2 * N := by rw [← hd]; exact Nat.floor_le (by positivity)
    have h4 : (w : ℝ) + h + d ≤ N := by
      have : (r0 + r1 + r2) * N = N := by rw [hsum]; ring
      linarith
    have h5 : w + h + d ≤ N := by exact_mod_cast h4
    omega
  · intro t
    rcases Nat.lt_or_ge t w with h' | h'
    · exact (hwarm t h').2
    · exact hle t h'

/-- The default configuration of the recipes' tri-stage scheduler is accepted. -/
example : ∃ m, TriStage.new 1 1000 0.1 0.4 0.5 (.scalar 0.01) (.scalar 0.01) = some m := by
  refine ⟨⟨⌊(0.1 : ℝ) * (1000 : ℕ)⌋₊, ⌊(0.4 : ℝ) * (1000 : ℕ)⌋₊, ⌊(0.5 : ℝ) * (1000 : ℕ)⌋₊, [0.01],
    [0.01]⟩, ?_⟩
  rw [TriStage.new, if_neg]
  · rfl
  · norm_num

/-- The constructor of `TriStageLR` accepts a final scale of zero, with which computing the rate of
the first step of the decay stage raises (tri_stage.py:115 takes its logarithm). -/
theorem C42_tri_stage_zero_scale :
    ∃ m, TriStage.new 1 10 0.1 0.4 0.5 (.scalar 0.01) (.scalar 0) = some m ∧
      m.lrs [1] 5 = none := by
  refine ⟨⟨⌊(0.1 : ℝ) * (10 : ℕ)⌋₊, ⌊(0.4 : ℝ) * (10 : ℕ)⌋₊, ⌊(0.5 : ℝ) * (10 : ℕ)⌋₊, [0.01], [0]⟩,
    ?_, ?_⟩
  · rw [TriStage.new, if_neg]
    · rfl
    · norm_num
  · have h0 : ⌊(0.1 : ℝ) * (10 : ℕ)⌋₊ = 1 := by norm_num
    have h1 : ⌊(0.4 : ℝ) * (10 : ℕ)⌋₊ = 4 := by norm_num
    have h2 : ⌊(0.5 : ℝ) * (10 : ℕ)⌋₊ = 5 := by norm_num
    simp only [TriStage.lrs, h0, h1, h2]
    simp

/-- **CosineAnnealingLR** (cosine_annealing.py), bounds. Whenever the rate is computed without an
exception it lies between `s` and `b` during the warm-up and between `f · k` and `b · k` afterwards,
where `k` is a power of `lr_mul`. -/
theorem C42_cosine_bounds {G L w : ℕ} {mul lrMul : ℝ} {start final : PerGroup} {m : Cosine}
    {ss ff base l : List ℝ} {g : ℕ} {b s f x : ℝ} {t : ℕ}
    (hnew : Cosine.new G L w mul lrMul start final = some m)
    (hss : perGroup G start = some ss) (hff : perGroup G final = some ff)
    (hb : base[g]? = some b) (hs : ss[g]? = some s) (hf : ff[g]? = some f)
    (hsb : s ≤ b) (hfb : f ≤ b) (hl : 0 ≤ lrMul)
    (hrun : m.lrs base t = some l) (hx : l[g]? = some x) :
    (t < w → s ≤ x ∧ x ≤ b) ∧
    (w ≤ t → ∃ i : ℕ, f * lrMul ^ i ≤ x ∧ x ≤ b * lrMul ^ i) := by
  simp only [Cosine.new, hss, hff] at hnew
  cases hnew
  simp only [Cosine.lrs] at hrun
  constructor
  · intro ht
    simp only [ht, if_true, Option.some.injEq] at hrun
    subst hrun
    rw [warmup_get hb hs] at hx
    cases hx
    exact ramp_bounds hsb (by omega) ht.le
  · intro ht
    simp only [Nat.not_lt.mpr ht, if_false] at hrun
    simp only [Option.bind_eq_bind, Option.bind_eq_some_iff] at hrun
    obtain ⟨⟨nr, len, off⟩, -, hrun⟩ := hrun
    simp only at hrun
    split at hrun
    · cases hrun
    cases hrun
    simp only [List.getElem?_zipWith, hf, hb, Option.some.injEq] at hx
    refine ⟨nr, ?_⟩
    subst hx
    generalize hc : Real.cos _ = c
    have h1 : -1 ≤ c := by rw [← hc]; exact Real.neg_one_le_cos _
    have h2 : c ≤ 1 := by rw [← hc]; exact Real.cos_le_one _
    have hk : 0 ≤ lrMul ^ nr := by positivity
    have hd : 0 ≤ b * lrMul ^ nr - f * lrMul ^ nr := by nlinarith
    simp only [cycleLr]
    constructor <;> nlinarith

/-- **CosineAnnealingLR**, cycles. When the length of the cycles is multiplied by a natural number
`q ≥ 1`, cycle `i` has `L · qⁱ` steps, the cycles follow one another from the end of the warm-up, and
at position `p` of cycle `i` the rate is the documented
`fⁱ + ½ (bⁱ - fⁱ) (1 + cos (π p / len))` with `fⁱ = f · lr_mulⁱ` and `bⁱ = b · lr_mulⁱ`. In particular
the first rate of a cycle is `bⁱ`, and the rate does not increase within a cycle. -/
theorem C42_cosine_cycles_partial {G L w q : ℕ} {lrMul : ℝ} {start final : PerGroup} {m : Cosine}
    {ss ff base : List ℝ} {g : ℕ} {b f : ℝ}
    (hnew : Cosine.new G L w q lrMul start final = some m) (hL : 0 < L) (hq : 0 < q)
    (hss : perGroup G start = some ss) (hff : perGroup G final = some ff)
    (hb : base[g]? = some b) (hf : ff[g]? = some f) (hfb : f ≤ b) (hl : 0 ≤ lrMul) :
    ∃ lr : ℕ → ℕ → ℝ,
      (∀ i p, p < L * q ^ i →
        ∃ l, m.lrs base (w + ((List.range i).map fun j => L * q ^ j).sum + p) = some l ∧
          l[g]? = some (lr i p)) ∧
      (∀ i p, lr i p = f * lrMul ^ i + 1 / 2 * (b * lrMul ^ i - f * lrMul ^ i) *
          (1 + Real.cos (Real.pi * p / (L * q ^ i)))) ∧
      (∀ i, lr i 0 = b * lrMul ^ i) ∧
      (∀ i p p', p ≤ p' → p' ≤ L * q ^ i → lr i p' ≤ lr i p) := by
  simp only [Cosine.new, hss, hff] at hnew
  cases hnew
  refine ⟨fun i p => f * lrMul ^ i + 1 / 2 * (b * lrMul ^ i - f * lrMul ^ i) *
          (1 + Real.cos (Real.pi * p / (L * q ^ i))), ?_, fun _ _ => rfl, ?_, ?_⟩
  · intro i p hp
    have hcyc := cycle_nat (w := w) (lrMul := lrMul) (ss := ss) (ff := ff) hL hq i p hp
    generalize hS : ((List.range i).map fun j => L * q ^ j).sum = S at *
    have hlen : L * q ^ i ≠ 0 := by
      have : 0 < L * q ^ i := by positivity
      omega
    have h1 : ¬ w + S + p < w := by omega
    have h2 : w + S + p - w = S + p := by omega
    simp only [Cosine.lrs, h1, if_false, h2, hcyc, Option.bind_eq_bind, Option.bind_some, hlen]
    refine ⟨_, rfl, ?_⟩
    simp only [List.getElem?_zipWith, hf, hb, cycleLr]
    push_cast
    congr 2
    norm_num
  · intro i
    simp
    ring
  · intro i p p' h1 h2
    have hLR : (0 : ℝ) < L * q ^ i := by positivity
    have h3 : (p : ℝ) ≤ p' := by exact_mod_cast h1
    have h4 : (p' : ℝ) ≤ L * q ^ i := by exact_mod_cast h2
    have hc : Real.cos (Real.pi * p' / (L * q ^ i)) ≤ Real.cos (Real.pi * p / (L * q ^ i)) := by
      apply Real.cos_le_cos_of_nonneg_of_le_pi
      · positivity
      · rw [div_le_iff₀ hLR]
        exact mul_le_mul_of_nonneg_left h4 Real.pi_pos.le
      · apply div_le_div_of_nonneg_right _ hLR.le
        exact mul_le_mul_of_nonneg_left h3 Real.pi_pos.le
    have hd : 0 ≤ b * lrMul ^ i - f * lrMul ^ i := by
      have : 0 ≤ lrMul ^ i := by positivity
      nlinarith
    simp only
    nlinarith

example : ∃ m, Cosine.new 1 10 5 (2 : ℕ) 1 (.scalar 0) (.scalar 0) = some m := ⟨_, rfl⟩

/-- With a multiplier that is not a whole number the rate can rise again at the end of a cycle: the
start and the length of the cycle are rounded down separately (cosine_annealing.py:122-133), so the
position can pass the length. With cycles of 10, 15, 22.5, 33.75, … steps the fourth one begins after
step 47.5 and ends before step 81.25; the rate is at its minimum at step 80 and higher at step 81. -/
theorem C42_cosine_rises :
    ∃ m : Cosine, Cosine.new 1 10 0 1.5 1 (.scalar 0) (.scalar 0) = some m ∧
      ∃ x : ℝ, 0 < x ∧ m.lrs [1] 80 = some [0] ∧ m.lrs [1] 81 = some [x] := by
  refine ⟨⟨10, 1.5, 0, 1, [0], [0]⟩, rfl, 0.5 * (1 + Real.cos (Real.pi * 34 / 33)), ?_, ?_, ?_⟩
  · have h : Real.cos (Real.pi * 34 / 33) = -Real.cos (Real.pi / 33) := by
      rw [show Real.pi * 34 / 33 = Real.pi / 33 + Real.pi by ring, Real.cos_add_pi]
    have h2 : Real.cos (Real.pi / 33) < Real.cos 0 := by
      apply Real.cos_lt_cos_of_nonneg_of_le_pi (le_refl 0)
      · have := Real.pi_pos; linarith
      · have := Real.pi_pos; linarith
    rw [Real.cos_zero] at h2
    rw [h]; linarith
  all_goals
    have h3 : ∀ s : ℕ, s = 80 ∨ s = 81 →
        Cosine.cycle ⟨10, 1.5, 0, 1, [0], [0]⟩ s = some (3, 33, 47) := by
      intro s hs
      unfold Cosine.cycle
      have h1 : ¬ ((1.5 : ℝ) = 1) := by norm_num
      have hno : ¬ (1 - (s : ℝ) / (10 : ℕ) * (1 - 1.5) ≤ 0 ∨ (1.5 : ℝ) ≤ 0) := by
        rcases hs with rfl | rfl <;> norm_num
      have hl : ⌊Real.logb 1.5 (1 - (s : ℝ) / (10 : ℕ) * (1 - 1.5))⌋₊ = 3 := by
        apply logb_floor (by norm_num)
        · rcases hs with rfl | rfl <;> norm_num
        · rcases hs with rfl | rfl <;> norm_num
      simp only [show ¬ (10 = 0) by decide, if_false, h1]
      rw [if_neg hno, hl]
      have ha : ⌊(1.5 : ℝ) ^ 3 * (10 : ℕ)⌋₊ = 33 := by
        rw [Nat.floor_eq_iff (by norm_num)]; norm_num
      have hb : ⌊(1 - (1.5 : ℝ) ^ 3) / (1 - 1.5) * (10 : ℕ)⌋₊ = 47 := by
        rw [Nat.floor_eq_iff (by norm_num)]; norm_num
      rw [ha, hb]
  · simp only [Cosine.lrs, Nat.not_lt_zero, if_false, Nat.sub_zero, h3 80 (Or.inl rfl)]
    have h4 : Real.pi * (80 - 47) / 33 = Real.pi := by ring
    simp [cycleLr, h4]
  · simp only [Cosine.lrs, Nat.not_lt_zero, if_false, Nat.sub_zero, h3 81 (Or.inr rfl)]
    simp [cycleLr]
    norm_num

/-- With a multiplier below one the rate can only be computed for a limited number of steps: after
`L / (1 - mul)` of them the logarithm of cosine_annealing.py:122 has no value. -/
theorem C42_cosine_shrinking (G L w : ℕ) (mul lrMul : ℝ) (start final : PerGroup) (m : Cosine)
    (hnew : Cosine.new G L w mul lrMul start final = some m) (hmul : mul < 1) (base : List ℝ)
    (t : ℕ) (ht : (L : ℝ) / (1 - mul) + w ≤ t) : m.lrs base t = none := by
  simp only [Cosine.new, Option.bind_eq_bind, Option.bind_eq_some_iff] at hnew
  obtain ⟨ss, -, ff, -, hm⟩ := hnew
  cases hm
  have hmR : 0 < 1 - mul := by linarith
  have hLm : 0 ≤ (L : ℝ) / (1 - mul) := by positivity
  have hwt : w ≤ t := by
    have : (w : ℝ) ≤ t := by linarith
    exact_mod_cast this
  have hnone : Cosine.cycle ⟨L, mul, w, lrMul, ss, ff⟩ (t - w) = none := by
    unfold Cosine.cycle
    by_cases hL : L = 0
    · simp [hL]
    · have hLR : (0 : ℝ) < L := by exact_mod_cast Nat.pos_of_ne_zero hL
      simp only [hL, if_false, hmul.ne]
      rw [if_pos]
      left
      rw [Nat.cast_sub hwt]
      have h1 : (L : ℝ) ≤ ((t : ℝ) - w) * (1 - mul) := by
        rw [← div_le_iff₀ hmR]; linarith
      have h2 : 1 ≤ ((t : ℝ) - w) / L * (1 - mul) := by
        rw [div_mul_eq_mul_div, le_div_iff₀ hLR]; linarith
      linarith
  simp [Cosine.lrs, Nat.not_lt.mpr hwt, hnone]

/-- A cycle length of zero, which the recipes derive when `regime.num_steps` equals the number of
warm-up steps (recipe/internal/lr_schedulers.py:67-74), is accepted by the constructor; the rate after
the last warm-up step cannot be computed (cosine_annealing.py:109 divides by it). -/
theorem C42_cosine_zero_length (G w : ℕ) (mul lrMul s f : ℝ) (base : List ℝ) :
    ∃ m, Cosine.new G 0 w mul lrMul (.scalar s) (.scalar f) = some m ∧ m.lrs base w = none := by
  refine ⟨_, rfl, ?_⟩
  simp [Cosine.lrs, Cosine.cycle]

/-- A rate given as a Python `int`, for example `start_lr=0`, makes every constructor that has such an
argument raise (lr_scheduler.py:53-56). -/
theorem C42_int_rate (G N w : ℕ) (k : ℤ) (p : ℝ) (v : PerGroup) :
    Myle.new G w (.int k) = none ∧ Poly.new G N w p (.int k) v = none := by
  constructor
  · simp only [Myle.new, perGroup]
    split <;> rfl
  · simp only [Poly.new, perGroup]
    split <;> rfl

/-- A sequence must have one value per parameter group (lr_scheduler.py:56-61). -/
theorem C42_groups {G : ℕ} {v : PerGroup} {xs : List ℝ} (h : perGroup G v = some xs) :
    xs.length = G ∧ (∀ x, v = .scalar x → ∀ y ∈ xs, y = x) ∧ (∀ ys, v = .seq ys → xs = ys) := by
  refine ⟨perGroup_length h, ?_, ?_⟩
  · rintro x rfl y hy
    cases h
    exact List.eq_of_mem_replicate hy
  · rintro ys rfl
    simp only [perGroup] at h
    split at h
    · cases h
    · exact (Option.some.inj h).symm

example : perGroup 2 (.seq [1, 2]) = some [1, 2] := rfl

end Fs2.Props
