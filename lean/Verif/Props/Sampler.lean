import Verif.Generation.Sampler
import Mathlib.Data.List.Perm.Subperm
import Mathlib.Tactic.Linarith
import Mathlib.Tactic.Positivity
import Mathlib.Tactic.FieldSimp
import Mathlib.Tactic.NormNum
import Mathlib.Tactic.Ring

/-!
Property C59: top-p and top-k sampling draw only from the set of tokens they are defined by.
-/

namespace Fs2.Props

open Fs2.Gen

/-! ### Specification -/

/-- What `torch.sort(descending=True)` promises about the indices. -/
def IsSort (order : List ℚ → List Nat) : Prop :=
  ∀ vs, (order vs).Perm (List.range vs.length) ∧
    ((order vs).map fun i => vs.getD i 0).Pairwise fun a b => b ≤ a

/-- What `torch.multinomial` promises: the draw has a positive weight. -/
def IsDraw (pick : List ℚ → Nat) : Prop :=
  ∀ ws : List ℚ, (∀ w ∈ ws, 0 ≤ w) → 0 < ws.sum → ∃ w, ws[pick ws]? = some w ∧ 0 < w

/-- What `torch.argmax` promises. -/
def IsArgmax (argmax : List ℚ → Nat) : Prop :=
  ∀ vs : List ℚ, vs ≠ [] → argmax vs < vs.length ∧ ∀ v ∈ vs, v ≤ vs.getD (argmax vs) 0

/-- What `torch.topk` promises: `k` different indices, no other of which has a larger entry. -/
def IsTopk (topk : List ℚ → Nat → List Nat) : Prop :=
  ∀ (vs : List ℚ) (k : Nat), k ≤ vs.length → (topk vs k).Nodup ∧ (topk vs k).length = k ∧
    (∀ i ∈ topk vs k, i < vs.length) ∧
    ∀ i ∈ topk vs k, ∀ j < vs.length, j ∉ topk vs k → vs.getD j 0 ≤ vs.getD i 0

/-- The probability of a token after normalization. -/
def share (probs : List ℚ) (t : Nat) : ℚ := probs.getD t 0 / probs.sum

/-- The mass of a set of tokens. -/
def mass (probs : List ℚ) (ts : List Nat) : ℚ := (ts.map (share probs)).sum

/-- `kept` is a set of most probable tokens: nothing outside is more probable than something inside. -/
def MostProbable (probs : List ℚ) (kept : List Nat) : Prop :=
  kept.Nodup ∧ (∀ t ∈ kept, t < probs.length) ∧
    ∀ t ∈ kept, ∀ u < probs.length, u ∉ kept → share probs u ≤ share probs t

/-- `kept` is the nucleus for `p`: a set of most probable tokens with a mass above `p` (or all tokens, if
there is no such set), and no set of tokens with a mass above `p` is smaller. -/
def Nucleus (probs : List ℚ) (p : ℚ) (kept : List Nat) : Prop :=
  MostProbable probs kept ∧ (p < mass probs kept ∨ kept.length = probs.length) ∧
    ∀ ts : List Nat, ts.Nodup → (∀ t ∈ ts, t < probs.length) → p < mass probs ts → kept.length ≤ ts.length

/-! ### Lemmas -/

private theorem sum_div (l : List ℚ) (c : ℚ) : (l.map (· / c)).sum = l.sum / c := by
  induction l with
  | nil => simp
  | cons x l ih => simp only [List.map_cons, List.sum_cons, ih]; ring

private theorem sum_nonneg' : ∀ l : List ℚ, (∀ x ∈ l, 0 ≤ x) → 0 ≤ l.sum
  | [], _ => by simp
  | x :: l, h => by
    rw [List.sum_cons]
    have := sum_nonneg' l fun y hy => h y (List.mem_cons_of_mem _ hy)
    have := h x (by simp)
    linarith

private theorem sum_take_le (l : List ℚ) (h : ∀ x ∈ l, 0 ≤ x) (i j : Nat) (hij : i ≤ j) :
    (l.take i).sum ≤ (l.take j).sum := by
  have h1 : l.take j = l.take i ++ (l.take j).drop i := by
    conv => lhs; rw [← List.take_append_drop i (l.take j), List.take_take, Nat.min_eq_left hij]
  rw [h1, List.sum_append]
  have := sum_nonneg' ((l.take j).drop i) fun x hx =>
    h x (List.mem_of_mem_take (List.mem_of_mem_drop hx))
  linarith

private theorem sum_sublist {f : Nat → ℚ} (hf : ∀ i, 0 ≤ f i) {l₁ l₂ : List Nat} (h : l₁.Sublist l₂) :
    (l₁.map f).sum ≤ (l₂.map f).sum := by
  induction h with
  | slnil => simp
  | cons a _ ih => simp only [List.map_cons, List.sum_cons]; have := hf a; linarith
  | cons_cons a _ ih => simp only [List.map_cons, List.sum_cons]; linarith

/-- No set of tokens has more mass than the first ones of a sorted list of all. -/
private theorem best_mass (f : Nat → ℚ) (n : Nat) (l : List Nat) (hl : l.Perm (List.range n))
    (hs : (l.map f).Pairwise fun a b => b ≤ a) (ts : List Nat) (hn : ts.Nodup) (ht : ∀ t ∈ ts, t < n) :
    (ts.map f).sum ≤ ((l.take ts.length).map f).sum := by
  have hlen : ts.length ≤ l.length := by
    have : ts.Subperm (List.range n) := List.subperm_of_subset hn fun t h => by simpa using ht t h
    rw [hl.length_eq]
    exact this.length_le
  by_cases h0 : ts.length = 0
  · rw [List.length_eq_zero_iff.mp h0]; simp
  · -- the least entry of the first ones
    have hk : ts.length - 1 < l.length := by omega
    obtain ⟨c, hc⟩ : ∃ c, c = f l[ts.length - 1] := ⟨_, rfl⟩
    have hpw := List.pairwise_iff_getElem.mp hs
    have hge : ∀ x ∈ l.take ts.length, c ≤ f x := by
      intro x hx
      obtain ⟨i, hi, rfl⟩ := List.mem_take_iff_getElem.mp hx
      rcases Nat.lt_or_ge i (ts.length - 1) with h | h
      · have := hpw i (ts.length - 1) (by simp; omega) (by simpa using hk) h
        simpa [hc] using this
      · have : i = ts.length - 1 := by omega
        subst this
        exact le_of_eq hc
    have hle : ∀ x ∈ l.drop ts.length, f x ≤ c := by
      intro x hx
      obtain ⟨i, hi, rfl⟩ := List.mem_iff_getElem.mp hx
      simp only [List.length_drop] at hi
      have := hpw (ts.length - 1) (ts.length + i) (by simpa using hk) (by simp; omega) (by omega)
      simpa [hc] using this
    let g : Nat → ℚ := fun x => max (f x - c) 0
    have hg : ∀ x, 0 ≤ g x := fun x => le_max_right _ _
    have h1 : (ts.map fun x => f x - c).sum ≤ (ts.map g).sum := by
      clear hlen h0 hk hc hge hle hn ht
      induction ts with
      | nil => simp
      | cons x ts ih =>
        simp only [List.map_cons, List.sum_cons]
        have : f x - c ≤ g x := le_max_left _ _
        linarith
    have h2 : (ts.map g).sum ≤ (l.map g).sum := by
      have hsub : ts.Subperm l := (List.subperm_of_subset hn fun t h => by simpa using ht t h).trans
        hl.symm.subperm
      obtain ⟨l', hp, hsl⟩ := hsub
      rw [← (hp.map g).sum_eq]
      exact sum_sublist hg hsl
    have h3 : (l.map g).sum = ((l.take ts.length).map fun x => f x - c).sum := by
      conv => lhs; rw [← List.take_append_drop ts.length l, List.map_append, List.sum_append]
      have ha : (l.take ts.length).map g = (l.take ts.length).map fun x => f x - c := by
        apply List.map_congr_left
        intro x hx
        exact max_eq_left (by have := hge x hx; linarith)
      have hb : ((l.drop ts.length).map g).sum = 0 := by
        apply List.sum_eq_zero
        intro y hy
        obtain ⟨x, hx, rfl⟩ := List.mem_map.mp hy
        exact max_eq_right (by have := hle x hx; linarith)
      rw [ha, hb, add_zero]
    have h4 : ∀ ls : List Nat, (ls.map fun x => f x - c).sum = (ls.map f).sum - ls.length * c := by
      intro ls
      induction ls with
      | nil => simp
      | cons x ls ih => simp only [List.map_cons, List.sum_cons, ih, List.length_cons]; push_cast; ring
    rw [h3, h4] at h2
    rw [h4] at h1
    have h5 : (l.take ts.length).length = ts.length := by simp; omega
    rw [h5] at h2
    linarith

private theorem normalize_of (probs : List ℚ) (h : 0 < probs.sum) :
    normalize probs = some (probs.map (· / probs.sum)) := by
  rw [normalize, if_neg (ne_of_gt h)]

private theorem multinomial_of (pick : List ℚ → Nat) (ws : List ℚ) (h0 : ∀ w ∈ ws, 0 ≤ w) (h1 : 0 < ws.sum) :
    multinomial pick ws = some (pick ws) := by
  have ha : ws.all (fun w => decide (0 ≤ w)) = true := by
    rw [List.all_eq_true]
    intro w hw
    exact decide_eq_true (h0 w hw)
  simp [multinomial, ha, h1]

/-- A draw that prefers position `i` where it can. -/
private theorem draw_at (i : Nat) (ws : List ℚ) (w : ℚ) (hi : ws[i]? = some w) (hw : 0 < w) :
    ∃ pick, IsDraw pick ∧ pick ws = i := by
  classical
  have hex : ∀ ws : List ℚ, (∀ w ∈ ws, 0 ≤ w) → 0 < ws.sum → ∃ (k : Nat) (w : ℚ), ws[k]? = some w ∧ 0 < w := by
    intro ws h0 h1
    by_contra hno
    have hz : ws.sum = 0 := by
      apply List.sum_eq_zero
      intro x hx
      obtain ⟨k, hk⟩ := List.mem_iff_getElem?.mp hx
      rcases lt_or_eq_of_le (h0 x hx) with h | h
      · exact absurd ⟨k, x, hk, h⟩ hno
      · exact h.symm
    rw [hz] at h1
    exact lt_irrefl _ h1
  refine ⟨fun vs => if vs = ws then i else
    if h : (∀ w ∈ vs, 0 ≤ w) ∧ 0 < vs.sum then Classical.choose (hex vs h.1 h.2) else 0, ?_, by simp⟩
  intro vs h0 h1
  by_cases hv : vs = ws
  · subst hv
    exact ⟨w, by simpa using hi, hw⟩
  · simp only [hv, if_false]
    rw [dif_pos (And.intro h0 h1)]
    exact Classical.choose_spec (hex vs h0 h1)

/-- There are functions that meet the promises. -/
theorem exists_draw : ∃ pick, IsDraw pick := by
  obtain ⟨pick, h, _⟩ := draw_at 0 [1] 1 rfl (by norm_num)
  exact ⟨pick, h⟩

/-! ### Top-p -/

/-- The weights are the shares of the nucleus, relative to its mass. -/
theorem C59_topp_weights (p : ℚ) (hp : 0 ≤ p) (order : List ℚ → List Nat) (hord : IsSort order)
    (probs : List ℚ) (h0 : ∀ x ∈ probs, 0 ≤ x) (h1 : 0 < probs.sum) :
    ∃ kept, Nucleus probs p kept ∧ 0 < mass probs kept ∧
      ∃ ws, topPWeights p order probs = some ws ∧ ws.length = probs.length ∧
        ∀ (i t : Nat), (order (probs.map (· / probs.sum)))[i]? = some t →
          (t ∈ kept → ws[i]? = some (share probs t / mass probs kept)) ∧ (t ∉ kept → ws[i]? = some 0) := by
  obtain ⟨hperm, hsorted⟩ := hord (probs.map (· / probs.sum))
  obtain ⟨l, hl⟩ : ∃ l, l = order (probs.map (· / probs.sum)) := ⟨_, rfl⟩
  rw [← hl] at hperm hsorted
  rw [List.length_map] at hperm
  have hshare : ∀ i, (probs.map (· / probs.sum)).getD i 0 = share probs i := by
    intro i
    simp only [List.getD_eq_getElem?_getD, List.getElem?_map, share]
    cases probs[i]? <;> simp
  simp only [hshare] at hsorted
  have hlen : l.length = probs.length := by rw [hperm.length_eq]; simp
  have hs0 : ∀ t, 0 ≤ share probs t := by
    intro t
    apply div_nonneg _ (le_of_lt h1)
    rw [List.getD_eq_getElem?_getD]
    cases ht : probs[t]? with
    | none => simp
    | some x => exact h0 x (List.mem_of_getElem? ht)
  have hnonneg : ∀ x ∈ l.map (share probs), 0 ≤ x := by
    intro x hx
    obtain ⟨t, _, rfl⟩ := List.mem_map.mp hx
    exact hs0 t
  have htotal : (l.map (share probs)).sum = 1 := by
    rw [(hperm.map (share probs)).sum_eq]
    have : (List.range probs.length).map (share probs) = probs.map (· / probs.sum) := by
      apply List.ext_getElem (by simp)
      intro i hi hi'
      simp only [List.length_map] at hi'
      simp [share, hi']
    rw [this, sum_div]
    exact div_self (ne_of_gt h1)
  -- the entries before which the mass is at most `p`
  let before : Nat → ℚ := fun i => ((l.map (share probs)).take i).sum
  have hmono : ∀ i j, i ≤ j → before i ≤ before j := fun i j hij => sum_take_le _ hnonneg i j hij
  let m := ((List.range probs.length).filter fun i => decide (before i ≤ p)).length
  have hm : ∀ i < probs.length, (before i ≤ p ↔ i < m) := by
    have key : ∀ n, ∀ i < n, (before i ≤ p ↔
        i < ((List.range n).filter fun i => decide (before i ≤ p)).length) := by
      intro n
      induction n with
      | zero => intro i hi; omega
      | succ n ih =>
        intro i hi
        have hcount : ((List.range n).filter fun i => decide (before i ≤ p)).length ≤ n := by
          calc _ ≤ (List.range n).length := List.length_filter_le _ _
            _ = n := by simp
        rw [List.range_succ, List.filter_append, List.length_append]
        by_cases hn : before n ≤ p
        · have hfull : ((List.range n).filter fun i => decide (before i ≤ p)).length = n := by
            rw [List.filter_eq_self.mpr]
            · simp
            · intro j hj
              exact decide_eq_true (le_trans (hmono j n (by have := List.mem_range.mp hj; omega)) hn)
          rw [hfull]
          simp only [hn, decide_true, List.filter_cons_of_pos, List.filter_nil, List.length_singleton]
          exact ⟨fun _ => hi, fun _ => le_trans (hmono i n (by omega)) hn⟩
        · have : [n].filter (fun i => decide (before i ≤ p)) = [] := by simp [hn]
          rw [this, List.length_nil, Nat.add_zero]
          rcases Nat.lt_or_ge i n with h | h
          · exact ih i h
          · have : i = n := by omega
            subst this
            exact ⟨fun h => absurd h hn, fun h => absurd h (by omega)⟩
    exact key probs.length
  have hmle : m ≤ probs.length := by
    calc m ≤ (List.range probs.length).length := List.length_filter_le _ _
      _ = probs.length := by simp
  have hne : 0 < probs.length := by
    rcases Nat.eq_zero_or_pos probs.length with h | h
    · rw [List.length_eq_zero_iff.mp h] at h1; simp at h1
    · exact h
  have hmpos : 0 < m := (hm 0 hne).mp (by simpa [before] using hp)
  have hbefore : ∀ i, before i = mass probs (l.take i) := by
    intro i
    simp [before, mass, List.map_take]
  have hnodup : l.Nodup := hperm.nodup_iff.mpr List.nodup_range
  have hmem : ∀ t, t ∈ l ↔ t < probs.length := by
    intro t; rw [hperm.mem_iff]; simp
  have hpw := List.pairwise_iff_getElem.mp hsorted
  have hnucleus : Nucleus probs p (l.take m) := by
    refine ⟨⟨hnodup.sublist (List.take_sublist _ _), fun t ht => (hmem t).mp (List.mem_of_mem_take ht), ?_⟩, ?_, ?_⟩
    · intro t ht u hu hnot
      obtain ⟨i, hi, rfl⟩ := List.mem_take_iff_getElem.mp ht
      obtain ⟨j, hj, rfl⟩ := List.mem_iff_getElem.mp ((hmem u).mpr hu)
      have hjm : m ≤ j := by
        by_contra hlt
        exact hnot (List.mem_take_iff_getElem.mpr ⟨j, by omega, rfl⟩)
      have := hpw i j (by simp; omega) (by simpa using hj) (by omega)
      simpa using this
    · rcases Nat.lt_or_ge m probs.length with h | h
      · left
        rw [← hbefore]
        by_contra hle
        have := (hm m h).mp (not_lt.mp hle)
        omega
      · right
        rw [List.length_take]
        omega
    · intro ts hn ht hmass
      by_contra hlt
      rw [List.length_take, hlen, Nat.min_eq_left hmle] at hlt
      have h2 := best_mass (share probs) probs.length l hperm hsorted ts hn ht
      have h3 : before ts.length ≤ p := (hm ts.length (by omega)).mpr (by omega)
      rw [hbefore] at h3
      unfold mass at hmass h3
      linarith
  -- what the code computes
  have hmb : massBefore (l.map (share probs)) = (List.range probs.length).map before := by
    unfold massBefore
    rw [List.length_map, hlen]
    apply List.map_congr_left
    intro i hi
    have hi' : i < (l.map (share probs)).length := by simp [hlen]; simpa using hi
    rw [List.take_add_one, List.sum_append, List.getD_eq_getElem?_getD, List.getElem?_eq_getElem hi']
    simp [before]
  obtain ⟨masked, hmasked⟩ : ∃ masked, masked = List.zipWith (fun before x => if before > p then 0 else x)
      (massBefore (l.map (share probs))) (l.map (share probs)) := ⟨_, rfl⟩
  have hmaskedlen : masked.length = probs.length := by
    rw [hmasked, hmb]; simp [hlen]
  have hmaskget : ∀ (i t : Nat), l[i]? = some t →
      masked[i]? = some (if i < m then share probs t else 0) := by
    intro i t hit
    have hil : i < probs.length := by rw [← hlen]; exact (List.getElem?_eq_some_iff.mp hit).1
    rw [hmasked, hmb, List.getElem?_zipWith]
    simp only [List.getElem?_map, List.getElem?_range hil, hit, Option.map_some]
    by_cases hi : i < m
    · have := (hm i hil).mpr hi
      simp [hi, not_lt.mpr this]
    · have : ¬ before i ≤ p := fun h => hi ((hm i hil).mp h)
      simp [hi, not_le.mp this]
  have hsum : masked.sum = mass probs (l.take m) := by
    have : masked = (l.take m).map (share probs) ++ (l.drop m).map fun _ => (0 : ℚ) := by
      apply List.ext_getElem?
      intro i
      by_cases hi : i < l.length
      · rw [hmaskget i l[i] (List.getElem?_eq_getElem hi)]
        by_cases him : i < m
        · rw [if_pos him, List.getElem?_append_left (by simp; omega)]
          simp [him, hi]
        · rw [if_neg him, List.getElem?_append_right (by simp; omega)]
          simp only [List.length_map, List.length_take, List.getElem?_map, List.getElem?_drop]
          rw [Nat.min_eq_left (by omega), show m + (i - m) = i by omega, List.getElem?_eq_getElem hi]
          rfl
      · rw [List.getElem?_eq_none (by omega), List.getElem?_eq_none (by simp; omega)]
    rw [this, List.sum_append]
    have hz : ((l.drop m).map fun _ => (0 : ℚ)).sum = 0 := by
      apply List.sum_eq_zero
      intro x hx
      obtain ⟨_, _, rfl⟩ := List.mem_map.mp hx
      rfl
    rw [hz, add_zero]
    rfl
  have hpos : 0 < mass probs (l.take m) := by
    rcases hnucleus.2.1 with h | h
    · linarith
    · have : l.take m = l := List.take_of_length_le (by rw [List.length_take, hlen] at h; omega)
      rw [this]
      unfold mass
      rw [htotal]
      norm_num
  refine ⟨l.take m, hnucleus, hpos, masked.map (· / masked.sum), ?_, by simp [hmaskedlen], ?_⟩
  · simp only [topPWeights, normalize_of probs h1, Option.bind_eq_bind, Option.bind_some, hshare, ← hl,
      ← hmasked]
    exact normalize_of masked (by rw [hsum]; exact hpos)
  · intro i t hit
    rw [← hl] at hit
    have hti : t ∈ l.take m ↔ i < m := by
      rw [List.mem_take_iff_getElem]
      obtain ⟨hi, rfl⟩ := List.getElem?_eq_some_iff.mp hit
      constructor
      · rintro ⟨j, hj, he⟩
        have := (List.Nodup.getElem_inj_iff hnodup).mp he
        omega
      · intro h
        exact ⟨i, by omega, rfl⟩
    rw [List.getElem?_map, hmaskget i t hit, hsum]
    refine ⟨fun h => ?_, fun h => ?_⟩
    · simp [hti.mp h]
    · have h' : ¬ i < m := fun h' => h (hti.mpr h')
      simp [h']

/-- **Top-p sampling.** For nonnegative probabilities that are not all zero and a nonnegative `p`, the token
is drawn from the nucleus, and every token of the nucleus with a positive probability can be drawn. -/
theorem C59_topp (p : ℚ) (hp : 0 ≤ p) (order : List ℚ → List Nat) (hord : IsSort order)
    (probs : List ℚ) (h0 : ∀ x ∈ probs, 0 ≤ x) (h1 : 0 < probs.sum) :
    ∃ kept, Nucleus probs p kept ∧
      (∀ pick, IsDraw pick → ∃ t ∈ kept, 0 < share probs t ∧ topPSample p order pick probs = some t) ∧
      (∀ t ∈ kept, 0 < share probs t → ∃ pick, IsDraw pick ∧ topPSample p order pick probs = some t) := by
  obtain ⟨kept, hk, hmass, ws, hws, hwlen, hget⟩ := C59_topp_weights p hp order hord probs h0 h1
  refine ⟨kept, hk, ?_⟩
  have hperm := (hord (probs.map (· / probs.sum))).1
  rw [List.length_map] at hperm
  have hlen : (order (probs.map (· / probs.sum))).length = probs.length := by rw [hperm.length_eq]; simp
  have hentry : ∀ (i : Nat) (w : ℚ), ws[i]? = some w → ∃ t, (order (probs.map (· / probs.sum)))[i]? = some t ∧
      0 ≤ w ∧ (0 < w → t ∈ kept ∧ 0 < share probs t) := by
    intro i w hw
    have hi : i < (order (probs.map (· / probs.sum))).length := by
      rw [hlen, ← hwlen]; exact (List.getElem?_eq_some_iff.mp hw).1
    refine ⟨_, List.getElem?_eq_getElem hi, ?_⟩
    obtain ⟨g1, g2⟩ := hget i _ (List.getElem?_eq_getElem hi)
    have hs0 : ∀ t, 0 ≤ share probs t := by
      intro t
      apply div_nonneg _ (le_of_lt h1)
      rw [List.getD_eq_getElem?_getD]
      cases ht : probs[t]? with
      | none => simp
      | some x => exact h0 x (List.mem_of_getElem? ht)
    by_cases hin : (order (probs.map (· / probs.sum)))[i] ∈ kept
    · rw [g1 hin] at hw
      cases hw
      refine ⟨div_nonneg (hs0 _) (le_of_lt hmass), fun hpos => ⟨hin, ?_⟩⟩
      rcases lt_or_eq_of_le (hs0 (order (probs.map (· / probs.sum)))[i]) with h | h
      · exact h
      · rw [← h, zero_div] at hpos
        exact absurd hpos (lt_irrefl _)
    · rw [g2 hin] at hw
      cases hw
      exact ⟨le_refl _, fun hpos => absurd hpos (lt_irrefl _)⟩
  have hw0 : ∀ w ∈ ws, 0 ≤ w := by
    intro w hw
    obtain ⟨i, hi⟩ := List.mem_iff_getElem?.mp hw
    obtain ⟨_, _, h, _⟩ := hentry i w hi
    exact h
  have hw1 : 0 < ws.sum := by
    -- some token of the nucleus has a positive share
    by_contra hle
    have hz : ∀ w ∈ ws, w = 0 := by
      intro w hw
      have hnn := hw0 w hw
      obtain ⟨a, b, rfl⟩ := List.append_of_mem hw
      rw [List.sum_append, List.sum_cons] at hle
      have ha := sum_nonneg' a fun x hx => hw0 x (by simp [hx])
      have hb := sum_nonneg' b fun x hx => hw0 x (by simp [hx])
      linarith [not_lt.mp hle]
    have : mass probs kept = 0 := by
      apply List.sum_eq_zero
      intro x hx
      obtain ⟨t, ht, rfl⟩ := List.mem_map.mp hx
      have htl : t ∈ order (probs.map (· / probs.sum)) := by
        rw [hperm.mem_iff]; simpa using hk.1.2.1 t ht
      obtain ⟨i, hi⟩ := List.mem_iff_getElem?.mp htl
      have := (hget i t hi).1 ht
      have hz' := hz _ (List.mem_of_getElem? this)
      rcases div_eq_zero_iff.mp hz' with h | h
      · exact h
      · exact absurd h (ne_of_gt hmass)
    rw [this] at hmass
    exact lt_irrefl _ hmass
  have hsample : ∀ pick, topPSample p order pick probs =
      (order (probs.map (· / probs.sum)))[pick ws]? := by
    intro pick
    simp only [topPSample, hws, Option.bind_eq_bind, Option.bind_some, multinomial_of pick ws hw0 hw1,
      normalize_of probs h1]
  constructor
  · intro pick hpick
    obtain ⟨w, hw, hpos⟩ := hpick ws hw0 hw1
    obtain ⟨t, ht, _, h2⟩ := hentry _ w hw
    obtain ⟨h3, h4⟩ := h2 hpos
    exact ⟨t, h3, h4, by rw [hsample, ht]⟩
  · intro t ht hpos
    have htl : t ∈ order (probs.map (· / probs.sum)) := by
      rw [hperm.mem_iff]; simpa using hk.1.2.1 t ht
    obtain ⟨i, hi⟩ := List.mem_iff_getElem?.mp htl
    obtain ⟨pick, hd, hp'⟩ := draw_at i ws _ ((hget i t hi).1 ht) (div_pos hpos hmass)
    exact ⟨pick, hd, by rw [hsample, hp', hi]⟩

/-- Without any permitted token the sampler raises. -/
theorem C59_topp_raises (p : ℚ) (order : List ℚ → List Nat) (pick : List ℚ → Nat) (probs : List ℚ)
    (h : probs.sum = 0) : topPSample p order pick probs = none := by
  simp [topPSample, topPWeights, normalize, h]

/-! ### Top-k -/

/-- **Top-k sampling.** For `k` at least one and probabilities that are not all zero the token is drawn from
the `k` most probable ones (from all, if there are fewer), and it has a positive probability. -/
theorem C59_topk (k : Nat) (hk : 1 ≤ k) (argmax : List ℚ → Nat) (ha : IsArgmax argmax)
    (topk : List ℚ → Nat → List Nat) (ht : IsTopk topk) (pick : List ℚ → Nat) (hd : IsDraw pick)
    (probs : List ℚ) (h0 : ∀ x ∈ probs, 0 ≤ x) (h1 : 0 < probs.sum) :
    ∃ kept, MostProbable probs kept ∧ kept.length = min k probs.length ∧
      ∃ t ∈ kept, 0 < share probs t ∧ topKSample k argmax topk pick probs = some t := by
  have hne : probs ≠ [] := by
    rintro rfl
    simp at h1
  have hlpos := List.length_pos_iff.mpr hne
  have hshare : ∀ t, share probs t = probs.getD t 0 / probs.sum := fun _ => rfl
  have hpos_of : ∀ t, 0 < probs.getD t 0 → 0 < share probs t := fun t h => div_pos h h1
  have hge0 : ∀ t, 0 ≤ probs.getD t 0 := by
    intro t
    rw [List.getD_eq_getElem?_getD]
    cases ht : probs[t]? with
    | none => simp
    | some x => exact h0 x (List.mem_of_getElem? ht)
  have hmono : ∀ t u, probs.getD u 0 ≤ probs.getD t 0 → share probs u ≤ share probs t := by
    intro t u h
    exact div_le_div_of_nonneg_right h (le_of_lt h1)
  unfold topKSample
  by_cases hone : min k probs.length = 1
  · simp only [hone, if_true]
    obtain ⟨a1, a2⟩ := ha probs hne
    refine ⟨[argmax probs], ⟨by simp, by simpa using a1, ?_⟩, rfl, argmax probs, by simp, ?_, rfl⟩
    · intro t ht' u hu _
      rw [List.mem_singleton] at ht'
      subst ht'
      apply hmono
      apply a2
      rw [List.getD_eq_getElem?_getD, List.getElem?_eq_getElem hu]
      exact List.getElem_mem _
    · apply hpos_of
      by_contra hle
      have : probs.sum = 0 := by
        apply List.sum_eq_zero
        intro x hx
        exact le_antisymm (le_trans (a2 x hx) (not_lt.mp hle)) (h0 x hx)
      rw [this] at h1
      exact lt_irrefl _ h1
  · simp only [hone, if_false]
    obtain ⟨t1, t2, t3, t4⟩ := ht probs (min k probs.length) (Nat.min_le_right _ _)
    obtain ⟨idx, hidx⟩ : ∃ idx, idx = topk probs (min k probs.length) := ⟨_, rfl⟩
    rw [← hidx] at t1 t2 t3 t4 ⊢
    have hvs0 : ∀ x ∈ idx.map (fun i => probs.getD i 0), 0 ≤ x := by
      intro x hx
      obtain ⟨i, _, rfl⟩ := List.mem_map.mp hx
      exact hge0 i
    have hsum : 0 < (idx.map fun i => probs.getD i 0).sum := by
      rcases lt_or_eq_of_le (sum_nonneg' _ hvs0) with h | h
      · exact h
      · exfalso
        have hz : ∀ i ∈ idx, probs.getD i 0 = 0 := by
          intro i hi
          have hm : probs.getD i 0 ∈ idx.map fun i => probs.getD i 0 := List.mem_map.mpr ⟨i, hi, rfl⟩
          obtain ⟨a, b, hab⟩ := List.append_of_mem hm
          rw [hab, List.sum_append, List.sum_cons] at h
          have ha' := sum_nonneg' a fun x hx => hvs0 x (by rw [hab]; simp [hx])
          have hb' := sum_nonneg' b fun x hx => hvs0 x (by rw [hab]; simp [hx])
          linarith [hge0 i]
        have hidxne : ∃ i, i ∈ idx := by
          have : 0 < idx.length := by rw [t2]; omega
          exact ⟨idx[0], List.getElem_mem _⟩
        obtain ⟨i, hi⟩ := hidxne
        have : probs.sum = 0 := by
          apply List.sum_eq_zero
          intro x hx
          obtain ⟨j, hj, rfl⟩ := List.mem_iff_getElem.mp hx
          have he : probs.getD j 0 = probs[j] := by
            rw [List.getD_eq_getElem?_getD, List.getElem?_eq_getElem hj]; rfl
          by_cases hjm : j ∈ idx
          · rw [← he]; exact hz j hjm
          · have := t4 i hi j hj hjm
            rw [hz i hi, he] at this
            exact le_antisymm this (h0 _ (List.getElem_mem _))
        rw [this] at h1
        exact lt_irrefl _ h1
    rw [normalize_of _ hsum]
    simp only [Option.bind_eq_bind, Option.bind_some]
    obtain ⟨ws, hws⟩ : ∃ ws, ws = (idx.map fun i => probs.getD i 0).map
        (· / (idx.map fun i => probs.getD i 0).sum) := ⟨_, rfl⟩
    rw [← hws]
    have hw0 : ∀ w ∈ ws, 0 ≤ w := by
      intro w hw
      rw [hws] at hw
      obtain ⟨x, hx, rfl⟩ := List.mem_map.mp hw
      exact div_nonneg (hvs0 x hx) (le_of_lt hsum)
    have hw1 : 0 < ws.sum := by
      rw [hws, sum_div, div_self (ne_of_gt hsum)]
      norm_num
    rw [multinomial_of pick ws hw0 hw1, Option.bind_some]
    obtain ⟨w, hw, hpos⟩ := hd ws hw0 hw1
    have hi : pick ws < idx.length := by
      have := (List.getElem?_eq_some_iff.mp hw).1
      simpa [hws] using this
    refine ⟨idx, ⟨t1, t3, fun t ht' u hu hnot => hmono t u (t4 t ht' u hu hnot)⟩, t2, idx[pick ws],
      List.getElem_mem _, ?_, List.getElem?_eq_getElem hi⟩
    apply hpos_of
    simp only [hws, List.getElem?_map] at hw
    rw [← hws, List.getElem?_eq_getElem hi] at hw
    simp only [Option.map_some, Option.some.injEq] at hw
    rw [← hw] at hpos
    by_contra hle
    have : probs.getD idx[pick ws] 0 = 0 := le_antisymm (not_lt.mp hle) (hge0 _)
    rw [this, zero_div] at hpos
    exact lt_irrefl _ hpos

/-- **Nothing permitted.** If all probabilities are zero, `k = 1` returns a token nevertheless, one that a
step processor may have forbidden, where larger values of `k` raise. -/
theorem C59_greedy_all_zero (argmax : List ℚ → Nat) (topk : List ℚ → Nat → List Nat) (pick : List ℚ → Nat)
    (n : Nat) (hn : 2 ≤ n) :
    topKSample 1 argmax topk pick (List.replicate n 0) = some (argmax (List.replicate n 0)) ∧
      ∀ k, 2 ≤ k → topKSample k argmax topk pick (List.replicate n 0) = none := by
  constructor
  · simp [topKSample, show min 1 n = 1 by omega]
  · intro k hk
    have h1 : ¬ min k n = 1 := by omega
    have h2 : ∀ l : List Nat, (l.map fun i => (List.replicate n (0 : ℚ)).getD i 0).sum = 0 := by
      intro l
      apply List.sum_eq_zero
      intro x hx
      obtain ⟨i, _, rfl⟩ := List.mem_map.mp hx
      rw [List.getD_eq_getElem?_getD, List.getElem?_replicate]
      split <;> rfl
    simp only [topKSample, List.length_replicate, h1, if_false, normalize, h2, if_true]
    rfl

example : ∃ probs : List ℚ, (∀ x ∈ probs, 0 ≤ x) ∧ 0 < probs.sum ∧ 3 ≤ probs.length :=
  ⟨[1/2, 0, 1/2], by intro x hx; simp at hx; rcases hx with rfl | rfl | rfl <;> norm_num, by norm_num, by norm_num⟩

example : IsArgmax fun vs => (List.range vs.length).findIdx fun i => vs.all fun v => decide (v ≤ vs.getD i 0) := by
  intro vs hne
  have hmax : ∃ i < vs.length, ∀ v ∈ vs, v ≤ vs.getD i 0 := by
    induction vs with
    | nil => exact absurd rfl hne
    | cons x vs ih =>
      by_cases h : vs = []
      · subst h; exact ⟨0, by simp, by simp⟩
      · obtain ⟨i, hi, hmax⟩ := ih h
        by_cases hx : x ≤ vs.getD i 0
        · refine ⟨i + 1, by simpa using hi, ?_⟩
          intro v hv
          rcases List.mem_cons.mp hv with rfl | hv
          · simpa using hx
          · simpa using hmax v hv
        · refine ⟨0, by simp, ?_⟩
          intro v hv
          rcases List.mem_cons.mp hv with rfl | hv
          · simp
          · have := hmax v hv
            simp only [List.getD_cons_zero]
            linarith [not_le.mp hx]
  obtain ⟨i, hi, hall⟩ := hmax
  have hex : ∃ x ∈ List.range vs.length, (vs.all fun v => decide (v ≤ vs.getD x 0)) = true :=
    ⟨i, by simpa using hi, by simpa using hall⟩
  have hlt := List.findIdx_lt_length_of_exists hex
  have hp := List.findIdx_getElem (w := hlt)
  simp only [List.length_range] at hlt
  simp only [List.getElem_range] at hp
  exact ⟨hlt, by simpa using hp⟩

example : IsSort fun vs => (List.range vs.length).mergeSort fun i j => decide (vs.getD j 0 ≤ vs.getD i 0) := by
  intro vs
  refine ⟨List.mergeSort_perm _ _, ?_⟩
  rw [List.pairwise_map]
  have := List.pairwise_mergeSort (le := fun i j => decide (vs.getD j 0 ≤ vs.getD i 0))
    (by intro a b c h1 h2; simp only [decide_eq_true_eq] at *; linarith)
    (by intro a b; simp only [Bool.or_eq_true, decide_eq_true_eq]; exact le_total _ _) (List.range vs.length)
  exact this.imp fun h => by simpa using h

example (order : List ℚ → List Nat) (hord : IsSort order) : IsTopk fun vs k => (order vs).take k := by
  intro vs k hk
  obtain ⟨hperm, hs⟩ := hord vs
  have hlen : (order vs).length = vs.length := by rw [hperm.length_eq]; simp
  have hnodup : (order vs).Nodup := hperm.nodup_iff.mpr List.nodup_range
  have hmem : ∀ t, t ∈ order vs ↔ t < vs.length := by intro t; rw [hperm.mem_iff]; simp
  have hpw := List.pairwise_iff_getElem.mp hs
  refine ⟨hnodup.sublist (List.take_sublist _ _), by simp; omega,
    fun t ht => (hmem t).mp (List.mem_of_mem_take ht), ?_⟩
  intro t ht u hu hnot
  obtain ⟨i, hi, rfl⟩ := List.mem_take_iff_getElem.mp ht
  obtain ⟨j, hj, rfl⟩ := List.mem_iff_getElem.mp ((hmem u).mpr hu)
  have hjm : k ≤ j := by
    by_contra hlt
    exact hnot (List.mem_take_iff_getElem.mpr ⟨j, by omega, rfl⟩)
  have := hpw i j (by simp; omega) (by simpa using hj) (by omega)
  simpa using this

end Fs2.Props
