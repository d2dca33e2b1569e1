import Verif.Optim.LrFactories
import Verif.Optim.LrLemmas
import Verif.Props.LearningRate

/-!
# Properties of schedulers as recipes make them

C121. A run of `num_steps` steps with cosine annealing or polynomial decay uses, for every group of parameters, rates that rise
linearly during the warm-up and then fall along the curve to the final rate at `num_steps`; the run does not fail.
-/

namespace Fs2.Props

open Fs2.Lr
open Fs2.Groups (rates)

/-- The number that a field of a configuration, one number or a list, has for a group. -/
def fieldFor (field : ℝ ⊕ List ℝ) (g : ℕ) : Option ℝ :=
  match field with
  | .inl x => some x
  | .inr l => l[g]?

/-- The final rate that a configuration asks for in a group with rate `b`. -/
def FinalRate (cfg : CosineConfig) (g : ℕ) (b f : ℝ) : Prop :=
  (∃ v, cfg.finalLr = some v ∧ fieldFor v g = some f) ∨
  (∃ v c, cfg.finalLr = none ∧ cfg.finalScale = some v ∧ fieldFor v g = some c ∧ f = b * c)

private theorem rates_get {field : ℝ ⊕ List ℝ} {n g : ℕ} {l : List ℝ} {x : ℝ} (h : rates field n = some l) (hg : g < n)
    (hx : fieldFor field g = some x) : l[g]? = some x := by
  unfold rates at h
  cases field with
  | inl y =>
    simp only [Option.some.injEq] at h
    simp only [fieldFor, Option.some.injEq] at hx
    rw [← h, List.getElem?_replicate, if_pos hg, hx]
  | inr ys =>
    simp only at h
    split at h
    · injection h with h
      rw [← h]; exact hx
    · cases h

private theorem run_ok (lrs : ℕ → Option (List ℝ)) : ∀ n, (∀ t ≤ n, ∃ l, lrs t = some l) →
    ∃ used, runRates lrs n = some used ∧ used.length = n ∧ ∀ t < n, used[t]? = lrs t := by
  intro n
  induction n with
  | zero =>
    intro h
    obtain ⟨l, hl⟩ := h 0 le_rfl
    refine ⟨[], ?_, rfl, fun t ht => absurd ht (Nat.not_lt_zero t)⟩
    rw [runRates, hl]; rfl
  | succ n ih =>
    intro h
    obtain ⟨used, hu, hlen, hget⟩ := ih (fun t ht => h t (Nat.le_succ_of_le ht))
    obtain ⟨now, hn⟩ := h n (Nat.le_succ n)
    obtain ⟨next, hx⟩ := h (n + 1) le_rfl
    refine ⟨used ++ [now], ?_, by simp [hlen], ?_⟩
    · rw [runRates, hu]
      simp only
      rw [hn]
      simp only
      rw [hx]
      rfl
    · intro t ht
      by_cases htn : t < n
      · rw [List.getElem?_append_left (by omega), hget t htn]
      · have : t = n := by omega
        subst this
        rw [List.getElem?_append_right (by omega), hlen, hn]
        simp

private theorem run_fails (lrs : ℕ → Option (List ℝ)) (n : ℕ) (h : lrs n = none) : runRates lrs n = none := by
  cases n with
  | zero => rw [runRates, h]; rfl
  | succ n =>
    rw [runRates]
    split
    · rfl
    · split
      · rfl
      · rw [h]; rfl

/-- What the factory passes on. -/
private theorem cosine_made {cfg : CosineConfig} {N : Option ℕ} {base : List ℝ} {m : Cosine}
    (h : cosineFactory cfg N base = .ok m) :
    ∃ len start final, cycleLenOf cfg N = some len ∧ rates cfg.start base.length = some start ∧
      finalOf cfg base = .ok final ∧
      Cosine.new base.length len cfg.numWarmup cfg.cycleMul cfg.lrMul (.seq start) (.seq final) = some m := by
  unfold cosineFactory at h
  split at h
  · cases h
  · rename_i len hlen
    split at h
    · cases h
    · rename_i start hstart
      split at h
      · cases h
      · rename_i final hfinal
        split at h
        · cases h
        · rename_i m' hm
          injection h with h
          rw [← h]
          exact ⟨len, start, final, hlen, hstart, hfinal, hm⟩

private theorem final_get {cfg : CosineConfig} {base final : List ℝ} {g : ℕ} {b f : ℝ}
    (h : finalOf cfg base = .ok final) (hb : base[g]? = some b) (hf : FinalRate cfg g b f) : final[g]? = some f := by
  have hg : g < base.length := by
    by_contra hn
    rw [List.getElem?_eq_none (by omega)] at hb
    cases hb
  unfold finalOf at h
  rcases hf with ⟨v, h1, h2⟩ | ⟨v, c, h1, h2, h3, h4⟩
  · rw [h1] at h
    simp only at h
    split at h
    · cases h
    · split at h
      · cases h
      · rename_i l hl
        injection h with h
        rw [← h]
        exact rates_get hl hg h2
  · rw [h1, h2] at h
    simp only at h
    split at h
    · cases h
    · rename_i l hl
      injection h with h
      rw [← h, List.getElem?_zipWith, hb, rates_get hl hg h3, h4]

private theorem cosine_warm {len w : ℕ} {mul lrMul : ℝ} {start final base : List ℝ} {m : Cosine} {g : ℕ} {b s : ℝ}
    (h : Cosine.new base.length len w mul lrMul (.seq start) (.seq final) = some m) (hb : base[g]? = some b)
    (hs : start[g]? = some s) (t : ℕ) (ht : t < w) :
    ∃ l, m.lrs base t = some l ∧ l[g]? = some (s + (b - s) * ((t : ℝ) / w)) := by
  have hm : m.numWarmup = w ∧ m.startLrs = start ∧ m.cycleLen = len := by
    unfold Cosine.new at h
    simp only [Option.bind_eq_bind, Option.bind_eq_some_iff] at h
    obtain ⟨s', hs', f', hf', h⟩ := h
    injection h with h
    rw [← h]
    simp only [perGroup] at hs'
    split at hs'
    · cases hs'
    · injection hs' with hs'
      exact ⟨rfl, hs'.symm, rfl⟩
  refine ⟨warmup base m.startLrs t m.numWarmup, ?_, ?_⟩
  · unfold Cosine.lrs
    rw [if_pos (by rw [hm.1]; exact ht)]
  · unfold warmup
    rw [List.getElem?_zipWith, hb, hm.2.1, hs, hm.1]

/-- **C121.** Cosine annealing over the whole run: when the cycle is not given, a run of `N` steps with fewer warm-up steps
does not fail, and step `t` uses a rate on the ramp from the start rate, then on the half cosine from the rate of the group to its
final rate. -/
theorem C121_cosine (cfg : CosineConfig) (N q : ℕ) (base : List ℝ) (m : Cosine) (g : ℕ) (b s f : ℝ)
    (h : cosineFactory cfg (some N) base = .ok m) (hc : cfg.cycleLen = none) (hq : 0 < q) (hmul : cfg.cycleMul = q)
    (hl : 0 ≤ cfg.lrMul) (hw : cfg.numWarmup < N) (hb : base[g]? = some b) (hs : fieldFor cfg.start g = some s)
    (hf : FinalRate cfg g b f) (hfb : f ≤ b) :
    ∃ used, runRates (m.lrs base) N = some used ∧ used.length = N ∧ ∀ t < N, ∃ l, used[t]? = some l ∧
      l[g]? = some (if t < cfg.numWarmup then s + (b - s) * ((t : ℝ) / cfg.numWarmup)
        else f + 1 / 2 * (b - f) * (1 + Real.cos (Real.pi * ((t : ℝ) - cfg.numWarmup) / ((N : ℝ) - cfg.numWarmup)))) := by
  obtain ⟨len, start, final, hlen, hstart, hfinal, hnew⟩ := cosine_made h
  have hlen : len = N - cfg.numWarmup := by
    unfold cycleLenOf at hlen
    rw [hc] at hlen
    exact (Option.some.inj hlen).symm
  have hL : 0 < len := by omega
  have hg : g < base.length := by
    by_contra hn
    rw [List.getElem?_eq_none (by omega)] at hb
    cases hb
  have hf' := final_get hfinal hb hf
  rw [hmul] at hnew
  have hsl : perGroup base.length (.seq start) = some start := by
    by_contra hne
    unfold Cosine.new at hnew
    simp only [perGroup] at hne
    split at hne
    · rename_i hcond
      simp [perGroup, hcond] at hnew
    · exact hne rfl
  have hfl : perGroup base.length (.seq final) = some final := by
    by_contra hne
    unfold Cosine.new at hnew
    simp only [perGroup] at hne
    split at hne
    · rename_i hcond
      simp [perGroup, hcond] at hnew
    · exact hne rfl
  obtain ⟨lr, h1, h2, _, _⟩ := C42_cosine_cycles_partial hnew hL hq hsl hfl hb hf' hfb hl
  have hall : ∀ t ≤ N, ∃ l, m.lrs base t = some l ∧ (t < N → l[g]? =
      some (if t < cfg.numWarmup then s + (b - s) * ((t : ℝ) / cfg.numWarmup)
        else f + 1 / 2 * (b - f) *
          (1 + Real.cos (Real.pi * ((t : ℝ) - cfg.numWarmup) / ((N : ℝ) - cfg.numWarmup))))) := by
    intro t ht
    by_cases htw : t < cfg.numWarmup
    · obtain ⟨l, hl1, hl2⟩ := cosine_warm hnew hb (rates_get hstart hg hs) t htw
      exact ⟨l, hl1, fun _ => by rw [if_pos htw]; exact hl2⟩
    · by_cases htN : t < N
      · obtain ⟨l, hl1, hl2⟩ := h1 0 (t - cfg.numWarmup) (by simp; omega)
        have e : cfg.numWarmup + ((List.range 0).map fun j => len * q ^ j).sum + (t - cfg.numWarmup) = t := by
          simp; omega
        rw [e] at hl1
        refine ⟨l, hl1, fun _ => ?_⟩
        rw [if_neg htw, hl2, h2]
        have e1 : ((t - cfg.numWarmup : ℕ) : ℝ) = (t : ℝ) - cfg.numWarmup := by
          rw [Nat.cast_sub (by omega)]
        have e2 : (len : ℝ) = (N : ℝ) - cfg.numWarmup := by rw [hlen, Nat.cast_sub (by omega)]
        rw [e1, e2]
        simp
      · obtain ⟨l, hl1, _⟩ := h1 1 0 (by simp; exact ⟨hL, hq⟩)
        have e : cfg.numWarmup + ((List.range 1).map fun j => len * q ^ j).sum + 0 = t := by
          simp; omega
        rw [e] at hl1
        exact ⟨l, hl1, fun h => absurd h htN⟩
  obtain ⟨used, hu, hulen, hget⟩ := run_ok (m.lrs base) N (fun t ht => (hall t ht).imp fun _ h => h.1)
  refine ⟨used, hu, hulen, ?_⟩
  intro t ht
  obtain ⟨l, hl1, hl2⟩ := hall t ht.le
  exact ⟨l, by rw [hget t ht, hl1], hl2 ht⟩

/-- **C121.** With a given cycle length, a positive number `L` of steps, the first cycle after the warm-up has this length, whatever
the number of steps of the run is, or even if it is not known; cycle `i` has `L * q ^ i` steps. -/
theorem C121_given_cycle (cfg : CosineConfig) (numSteps : Option ℕ) (L q : ℕ) (base : List ℝ) (m : Cosine) (g : ℕ) (b f : ℝ)
    (h : cosineFactory cfg numSteps base = .ok m) (hc : cfg.cycleLen = some L) (hL : 0 < L) (hq : 0 < q)
    (hmul : cfg.cycleMul = q) (hl : 0 ≤ cfg.lrMul) (hb : base[g]? = some b) (hf : FinalRate cfg g b f) (hfb : f ≤ b)
    (i p : ℕ) (hp : p < L * q ^ i) :
    ∃ l, m.lrs base (cfg.numWarmup + ((List.range i).map fun j => L * q ^ j).sum + p) = some l ∧
      l[g]? = some (f * cfg.lrMul ^ i + 1 / 2 * (b * cfg.lrMul ^ i - f * cfg.lrMul ^ i) *
        (1 + Real.cos (Real.pi * p / (L * q ^ i)))) := by
  obtain ⟨len, start, final, hlen, hstart, hfinal, hnew⟩ := cosine_made h
  have hlen : len = L := by
    unfold cycleLenOf at hlen
    rw [hc] at hlen
    exact (Option.some.inj hlen).symm
  subst hlen
  have hf' := final_get hfinal hb hf
  rw [hmul] at hnew
  have hper : perGroup base.length (.seq start) = some start ∧ perGroup base.length (.seq final) = some final := by
    unfold Cosine.new at hnew
    simp only [Option.bind_eq_bind, Option.bind_eq_some_iff] at hnew
    obtain ⟨s', hs', f', hf'', _⟩ := hnew
    constructor
    · rw [hs']
      simp only [perGroup] at hs'
      split at hs'
      · cases hs'
      · rw [Option.some.inj hs']
    · rw [hf'']
      simp only [perGroup] at hf''
      split at hf''
      · cases hf''
      · rw [Option.some.inj hf'']
  obtain ⟨lr, h1, h2, _, _⟩ := C42_cosine_cycles_partial hnew hL hq hper.1 hper.2 hb hf' hfb hl
  obtain ⟨l, hl1, hl2⟩ := h1 i p hp
  exact ⟨l, hl1, by rw [hl2, h2]⟩

/-- Its hypotheses are met: four steps in the first cycle, eight in the second. -/
example : ∃ m, cosineFactory ⟨some 4, 3, 2, 1, .inl 0, none, some (.inl 0.2)⟩ none [1, 2] = .ok m := by
  simp [cosineFactory, cycleLenOf, finalOf, rates, Cosine.new, perGroup]

/-- **C121, violated.** With as many warm-up steps as steps, which nothing refuses, every configuration without a cycle length
fails in the last step of the run: after it the scheduler divides by the cycle length, which is 0. -/
theorem C121_warmup_negation (cfg : CosineConfig) (base : List ℝ) (m : Cosine)
    (h : cosineFactory cfg (some cfg.numWarmup) base = .ok m) (hc : cfg.cycleLen = none) :
    runRates (m.lrs base) cfg.numWarmup = none ∧
    ∀ n < cfg.numWarmup, ∃ used, runRates (m.lrs base) n = some used := by
  obtain ⟨len, start, final, hlen, hstart, hfinal, hnew⟩ := cosine_made h
  have hlen : len = 0 := by
    unfold cycleLenOf at hlen
    rw [hc] at hlen
    have : cfg.numWarmup - cfg.numWarmup = len := Option.some.inj hlen
    omega
  have hm : m.numWarmup = cfg.numWarmup ∧ m.cycleLen = 0 := by
    unfold Cosine.new at hnew
    simp only [Option.bind_eq_bind, Option.bind_eq_some_iff] at hnew
    obtain ⟨_, _, _, _, hnew⟩ := hnew
    injection hnew with hnew
    rw [← hnew, hlen]
    exact ⟨rfl, rfl⟩
  constructor
  · apply run_fails
    unfold Cosine.lrs
    rw [if_neg (by omega)]
    simp [Cosine.cycle, hm.2]
  · intro n hn
    obtain ⟨used, hu, _⟩ := run_ok (m.lrs base) n (by
      intro t ht
      refine ⟨warmup base m.startLrs t m.numWarmup, ?_⟩
      unfold Cosine.lrs
      rw [if_pos (by omega)])
    exact ⟨used, hu⟩

/-- The defaults of the configuration but for the warm-up. -/
noncomputable def defaultCosine (warmup : ℕ) : CosineConfig := ⟨none, warmup, 1, 1, .inl 0, none, some (.inl 0.2)⟩

/-- The hypotheses of both are met by the defaults: every number of steps is accepted for two groups. -/
theorem C121_default (warmup N : ℕ) : ∃ m, cosineFactory (defaultCosine warmup) (some N) [1, 2] = .ok m := by
  simp [cosineFactory, defaultCosine, cycleLenOf, finalOf, rates, Cosine.new, perGroup]

example : FinalRate (defaultCosine 10) 1 2 (2 * 0.2) := .inr ⟨.inl 0.2, 0.2, rfl, rfl, rfl, rfl⟩

/-- **C121.** Polynomial decay is refused with as many or more warm-up steps than steps, or without a number of steps. Else a
run of `N` steps does not fail, and step `t` uses a rate on the ramp and then on the curve to the final rate. -/
theorem C121_polynomial (cfg : PolyConfig) (numSteps : Option ℕ) (base : List ℝ) (m : Poly) (g : ℕ) (b s f : ℝ)
    (h : polyFactory cfg numSteps base = .ok m) (hb : base[g]? = some b) (hs : fieldFor cfg.start g = some s)
    (hf : fieldFor cfg.final g = some f) (hsb : s ≤ b) (hfb : f ≤ b) (hp : 0 < cfg.power) :
    ∃ N used, numSteps = some N ∧ cfg.numWarmup < N ∧ runRates (fun t => some (m.lrs base t)) N = some used ∧
      used.length = N ∧ ∀ t < N, ∃ l, used[t]? = some l ∧
        l[g]? = some (if t < cfg.numWarmup then s + (b - s) * ((t : ℝ) / cfg.numWarmup)
          else f + (b - f) * (((N : ℝ) - t) / ((N : ℝ) - cfg.numWarmup)) ^ cfg.power) := by
  unfold polyFactory at h
  split at h
  · cases h
  · rename_i N
    split at h
    · cases h
    · rename_i hw
      split at h
      · cases h
      · rename_i start hstart
        split at h
        · cases h
        · rename_i final hfinal
          split at h
          · cases h
          · rename_i m' hnew
            injection h with h
            subst h
            have hg : g < base.length := by
              by_contra hn
              rw [List.getElem?_eq_none (by omega)] at hb
              cases hb
            have hlen : ∀ (fld : ℝ ⊕ List ℝ) (l : List ℝ), rates fld base.length = some l →
                perGroup base.length (.seq l) = some l := by
              intro fld l hr
              have : l.length = base.length := by
                unfold rates at hr
                cases fld with
                | inl x =>
                  simp only [Option.some.injEq] at hr
                  rw [← hr, List.length_replicate]
                | inr ys =>
                  simp only at hr
                  split at hr
                  · rename_i hy
                    injection hr with hr
                    rw [← hr]; exact hy
                  · cases hr
              simp [perGroup, this]
            have hs' := rates_get hstart hg hs
            have hf' := rates_get hfinal hg hf
            obtain ⟨_, lr, h1, _, _, _, h5, _⟩ :=
              C42_polynomial hnew (hlen _ _ hstart) (hlen _ _ hfinal) hb hs' hf' hsb hfb hp
            obtain ⟨used, hu, hulen, hget⟩ := run_ok (fun t => some (m'.lrs base t)) N (fun t _ => ⟨_, rfl⟩)
            refine ⟨N, used, rfl, by omega, hu, hulen, ?_⟩
            intro t ht
            refine ⟨_, hget t ht, ?_⟩
            by_cases htw : t < cfg.numWarmup
            · rw [if_pos htw]
              have hm : m'.numWarmup = cfg.numWarmup ∧ m'.numSteps = N ∧ m'.startLrs = start := by
                unfold Poly.new at hnew
                rw [if_neg hw, hlen _ _ hstart, hlen _ _ hfinal] at hnew
                injection hnew with hnew
                rw [← hnew]
                exact ⟨rfl, rfl, rfl⟩
              unfold Poly.lrs warmup
              rw [if_neg (by omega), if_pos (by omega), List.getElem?_zipWith, hb, hm.2.2, hs', hm.1]
            · rw [if_neg htw, h1 t, h5 t (by omega) ht.le]

/-- Two groups, each with a rate, four warm-up steps out of ten. -/
example : ∃ m, polyFactory ⟨4, 1, .inl 0, .inr [0.1, 0.2]⟩ (some 10) [1, 2] = .ok m := by
  simp [polyFactory, rates, Poly.new, perGroup]

/-- **C121.** Cosine annealing without a cycle length and polynomial decay are refused without a number of steps, polynomial
decay also if the warm-up takes all steps, and both if a list does not have a number for every group. -/
theorem C121_refused (c : CosineConfig) (p : PolyConfig) (base : List ℝ) (N : ℕ) (l : List ℝ) (hl : l.length ≠ base.length) :
    (c.cycleLen = none → cosineFactory c none base = .error .validation) ∧
    polyFactory p none base = .error .validation ∧
    (N ≤ p.numWarmup → polyFactory p (some N) base = .error .validation) ∧
    (c.start = .inr l → cosineFactory c (some N) base = .error .validation) ∧
    (p.start = .inr l ∨ p.final = .inr l → polyFactory p (some N) base = .error .validation) := by
  have hr : rates (.inr l) base.length = none := by simp [rates, hl]
  refine ⟨?_, rfl, ?_, ?_, ?_⟩
  · intro h
    simp [cosineFactory, cycleLenOf, h]
  · intro h
    simp [polyFactory, h]
  · intro h
    unfold cosineFactory
    cases hc : cycleLenOf c (some N) with
    | none => rfl
    | some len =>
      simp only
      rw [h, hr]
  · intro h
    unfold polyFactory
    simp only
    split
    · rfl
    · rcases h with h | h
      · rw [h, hr]
      · cases hs : rates p.start base.length with
        | none => rfl
        | some start =>
          simp only
          rw [h, hr]

end Fs2.Props
