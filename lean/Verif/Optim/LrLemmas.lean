import Verif.Optim.LrSchedulers
import Mathlib.Tactic.Linarith
import Mathlib.Tactic.Positivity
import Mathlib.Tactic.FieldSimp
import Mathlib.Tactic.Ring
import Mathlib.Tactic.NormNum

/-! Helper lemmas about the learning rate schedulers. -/

namespace Fs2.Lr

/-- A linear ramp from `s` at 0 to `b` at `w`. -/
noncomputable def ramp (s b : ℝ) (w t : ℕ) : ℝ := s + (b - s) * ((t : ℝ) / w)

theorem warmup_get {base start : List ℝ} {g : ℕ} {b s : ℝ} (hb : base[g]? = some b)
    (hs : start[g]? = some s) (t w : ℕ) :
    (warmup base start t w)[g]? = some (ramp s b w t) := by
  simp [warmup, List.getElem?_zipWith, hb, hs, ramp]

theorem ramp_mono {s b : ℝ} {w : ℕ} (h : s ≤ b) {t u : ℕ} (htu : t ≤ u) :
    ramp s b w t ≤ ramp s b w u := by
  unfold ramp
  have h1 : (t : ℝ) / w ≤ (u : ℝ) / w := by
    apply div_le_div_of_nonneg_right
    · exact_mod_cast htu
    · positivity
  nlinarith

theorem ramp_zero (s b : ℝ) (w : ℕ) : ramp s b w 0 = s := by simp [ramp]

theorem ramp_end (s b : ℝ) {w : ℕ} (h : 0 < w) : ramp s b w w = b := by
  have : (w : ℝ) ≠ 0 := by positivity
  simp [ramp, div_self this]

theorem ramp_bounds {s b : ℝ} {w t : ℕ} (h : s ≤ b) (hw : 0 < w) (ht : t ≤ w) :
    s ≤ ramp s b w t ∧ ramp s b w t ≤ b := by
  constructor
  · rw [← ramp_zero s b w]
    simp only [ramp_zero]
    have := ramp_mono (w := w) h (Nat.zero_le t)
    rwa [ramp_zero] at this
  · have := ramp_mono (w := w) h ht
    rwa [ramp_end s b hw] at this

/-- A function that follows a ramp up to `w` and ends at `b` there. -/
theorem ramp_mono_on {lr : ℕ → ℝ} {s b : ℝ} {w : ℕ} (h1 : ∀ t, t < w → lr t = ramp s b w t)
    (h2 : lr w = b) (h : s ≤ b) : MonotoneOn lr (Set.Iic w) := by
  have h3 : ∀ t, t ≤ w → 0 < w → lr t = ramp s b w t := by
    intro t ht hw
    rcases Nat.lt_or_eq_of_le ht with h | h
    · exact h1 t h
    · subst h
      rw [h2, ramp_end s b hw]
  intro t ht u hu htu
  rcases Nat.eq_zero_or_pos w with hw | hw
  · subst hw
    have ht : t = 0 := by simpa using ht
    have hu : u = 0 := by simpa using hu
    subst ht hu
    exact le_refl _
  · rw [h3 t ht hw, h3 u hu hw]
    exact ramp_mono h htu

theorem perGroup_length {G : ℕ} {v : PerGroup} {xs : List ℝ} (h : perGroup G v = some xs) :
    xs.length = G := by
  cases v with
  | scalar x => simp [perGroup] at h; subst h; simp
  | int k => simp [perGroup] at h
  | seq ys =>
    simp only [perGroup] at h
    split at h
    · cases h
    · next hl => cases h; omega

theorem logb_floor {m x : ℝ} {n : ℕ} (hm : 1 < m) (h1 : m ^ n ≤ x) (h2 : x < m ^ (n + 1)) :
    ⌊Real.logb m x⌋₊ = n := by
  have hx : 0 < x := lt_of_lt_of_le (by positivity) h1
  rw [Nat.floor_eq_iff]
  · constructor
    · rw [Real.le_logb_iff_rpow_le hm hx, Real.rpow_natCast]
      exact h1
    · rw [Real.logb_lt_iff_lt_rpow hm hx]
      have := Real.rpow_natCast m (n + 1)
      push_cast at this
      rw [this]
      exact h2
  · apply Real.logb_nonneg hm
    have : (1 : ℝ) ≤ m ^ n := one_le_pow₀ hm.le
    linarith

theorem geom_sum (L q i : ℕ) :
    ((((List.range i).map fun j => L * q ^ j).sum : ℕ) : ℝ) * ((q : ℝ) - 1) =
      L * ((q : ℝ) ^ i - 1) := by
  induction i with
  | zero => simp
  | succ i ih =>
    rw [List.range_succ, List.map_append, List.sum_append]
    rw [Nat.cast_add, add_mul, ih]
    simp
    ring

/-- The cycle of a step when the cycle length is multiplied by a natural number. -/
theorem cycle_nat {L q w : ℕ} {lrMul : ℝ} {ss ff : List ℝ} (hL : 0 < L) (hq : 0 < q) (i p : ℕ)
    (hp : p < L * q ^ i) :
    Cosine.cycle ⟨L, q, w, lrMul, ss, ff⟩ (((List.range i).map fun j => L * q ^ j).sum + p) =
      some (i, L * q ^ i, ((List.range i).map fun j => L * q ^ j).sum) := by
  have hg := geom_sum L q i
  generalize hS : ((List.range i).map fun j => L * q ^ j).sum = S at *
  unfold Cosine.cycle
  simp only [Nat.pos_iff_ne_zero.mp hL, if_false]
  by_cases hq1 : q = 1
  · subst hq1
    have hS' : S = i * L := by
      rw [← hS]
      simp
    simp only [Nat.cast_one, if_true]
    have h1 : (S + p) / L = i := by
      have hp : p < L := by simpa using hp
      rw [hS', Nat.add_comm, Nat.add_mul_div_right _ _ hL, Nat.div_eq_of_lt hp, Nat.zero_add]
    simp only [h1, Nat.one_pow, Nat.mul_one]
    rw [hS']
  · have hq1R : (q : ℝ) ≠ 1 := by exact_mod_cast hq1
    have hq2 : (1 : ℝ) < q := by
      have : 1 < q := by omega
      exact_mod_cast this
    have hLR : (0 : ℝ) < L := by exact_mod_cast hL
    have hpR : (p : ℝ) < L * (q : ℝ) ^ i := by exact_mod_cast hp
    have hx : 1 - ((S + p : ℕ) : ℝ) / L * (1 - q) = (q : ℝ) ^ i + (q - 1) * p / L := by
      push_cast
      have : (S : ℝ) * ((q : ℝ) - 1) / L = (q : ℝ) ^ i - 1 := by
        rw [hg]; field_simp
      have h2 : ((S : ℝ) + p) / L * (1 - q) = -(S * ((q : ℝ) - 1) / L) - (q - 1) * p / L := by
        field_simp
        ring
      rw [h2, this]; ring
    have hx1 : (q : ℝ) ^ i ≤ 1 - ((S + p : ℕ) : ℝ) / L * (1 - q) := by
      rw [hx]
      have : 0 ≤ ((q : ℝ) - 1) * p / L := by
        apply div_nonneg _ hLR.le
        apply mul_nonneg (by linarith) (by positivity)
      linarith
    have hx2 : 1 - ((S + p : ℕ) : ℝ) / L * (1 - q) < (q : ℝ) ^ (i + 1) := by
      rw [hx, pow_succ]
      have : ((q : ℝ) - 1) * p / L < (q - 1) * q ^ i := by
        rw [div_lt_iff₀ hLR]
        have : 0 < (q : ℝ) - 1 := by linarith
        nlinarith
      linarith
    have hpow : (0 : ℝ) < (q : ℝ) ^ i := by positivity
    have hno : ¬ (1 - ((S + p : ℕ) : ℝ) / L * (1 - q) ≤ 0 ∨ (q : ℝ) ≤ 0) := by
      intro h
      rcases h with h | h <;> linarith
    have hoff : (1 - (q : ℝ) ^ i) / (1 - q) * L = S := by
      have h1 : (1 : ℝ) - q ≠ 0 := by intro h; apply hq1R; linarith
      rw [div_mul_eq_mul_div, div_eq_iff h1]
      nlinarith
    simp only [hq1R, if_false]
    rw [if_neg hno]
    rw [logb_floor hq2 hx1 hx2, hoff, Nat.floor_natCast]
    have hlen : (q : ℝ) ^ i * L = ((L * q ^ i : ℕ) : ℝ) := by push_cast; ring
    rw [hlen, Nat.floor_natCast]

end Fs2.Lr
