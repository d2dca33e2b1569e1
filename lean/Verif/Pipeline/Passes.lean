import Verif.Pipeline.RoundRobinStreams
import Verif.Pipeline.ShuffleLaws
import Verif.Pipeline.YieldLaws
import Verif.Pipeline.RepeatMore

/-!
# Reading a source over and over, with another order each time (helper lemmas)
-/

namespace Fs2
open Source

variable {S : Source}

/-- `Passes s es`: read from `s` on with `reset(false)` after each end, the source gives the lists `es 0`, `es 1`, … -/
def Source.Passes (S : Source) (s : S.σ) (es : Nat → List Data) : Prop :=
  ∃ st : Nat → S.σ, st 0 = s ∧ ∀ k, ∃ e e', S.Emits (st k) (es k) e ∧ S.next e = some (.eod, e') ∧ st (k + 1) = S.reset false e'

/-- From every state with `I`, the source restarts with a list as `Q` says. -/
structure Source.Rereads (S : Source) (I : S.σ → Prop) (Q : List Data → Prop) : Prop where
  again : ∀ {t}, I t → ∃ ys, Q ys ∧ S.Yields (S.reset false t) ys
  next : ∀ {t r t'}, I t → S.next t = some (r, t') → (∀ e, r ≠ .err e) → I t'
  reset : ∀ {t}, I t → I (S.reset false t)

theorem Source.Rereads.emits {I : S.σ → Prop} {Q : List Data → Prop} (h : S.Rereads I Q) {s s' : S.σ} {xs : List Data} (hI : I s)
    (he : S.Emits s xs s') : I s' := by
  induction he with
  | nil => exact hI
  | cons hn _ ih => exact ih (h.next hI hn (by simp))

theorem Source.Rereads.passes {I : S.σ → Prop} {Q : List Data → Prop} (h : S.Rereads I Q) {s : S.σ} {xs : List Data} (hI : I s)
    (hy : S.Yields s xs) : ∃ es, es 0 = xs ∧ (∀ k, Q (es (k + 1))) ∧ S.Passes s es := by
  have step : ∀ p : { p : S.σ × List Data // I p.1 ∧ S.Yields p.1 p.2 }, ∃ q : { p : S.σ × List Data // I p.1 ∧ S.Yields p.1 p.2 },
      Q q.1.2 ∧ ∃ e e', S.Emits p.1.1 p.1.2 e ∧ S.next e = some (.eod, e') ∧ q.1.1 = S.reset false e' := by
    rintro ⟨⟨t, ys⟩, ht, hy⟩
    obtain ⟨e, h1, h2⟩ := hy
    obtain ⟨e', h3, -⟩ := h2.next
    have hI' := h.next (h.emits ht h1) h3 (by simp)
    obtain ⟨zs, hq, hz⟩ := h.again hI'
    exact ⟨⟨(S.reset false e', zs), h.reset hI', hz⟩, hq, e, e', h1, h3, rfl⟩
  let g := fun p => Classical.choose (step p)
  have hg := fun p => Classical.choose_spec (step p)
  let p : Nat → { p : S.σ × List Data // I p.1 ∧ S.Yields p.1 p.2 } := fun k => Nat.rec ⟨(s, xs), hI, hy⟩ (fun _ q => g q) k
  exact ⟨fun k => (p k).1.2, rfl, fun k => (hg (p k)).1, fun k => (p k).1.1, rfl, fun k => (hg (p k)).2⟩

/-! ### The operators -/

theorem rereads_list (xs : List Data) : (listSource xs).Rereads (fun _ => True) (· = xs) where
  again _ := ⟨xs, rfl, by
    have := listSource_yields_from xs 0 (Nat.zero_le _)
    rw [List.drop_zero] at this
    exact this⟩
  next _ _ _ := trivial
  reset _ := trivial

theorem rereads_yield {F : YieldFn} {ys : Data → List Data} {xs : List Data} (hp : Pipes F ys xs)
    (h : S.Rereads (fun _ => True) (· = xs)) : (yieldFrom F S).Rereads (fun _ => True) (· = xs.flatMap ys) where
  again {t} _ := by
    obtain ⟨_, rfl, h'⟩ := h.again (t := t.inner) trivial
    exact ⟨_, rfl, yield_yields hp (.inl rfl) h'⟩
  next _ _ _ := trivial
  reset _ := trivial

theorem rereads_shuffle (R : Rng) (w seed : Nat) {xs : List Data} (h : S.Rereads (fun _ => True) (List.Perm · xs)) :
    (shuffle R w seed S).Rereads (fun _ => True) (List.Perm · xs) where
  again {t} _ := by
    obtain ⟨ys, h1, h2⟩ := h.again (t := t.inner) trivial
    by_cases hw : shuffleWindow w = 1
    · exact ⟨ys, h1, shuffle_one_yields hw h2⟩
    · obtain ⟨zs, h3, h4⟩ := shuffle_yields (R := R) (w := w) (seed := seed) (S := S) (s := (shuffle R w seed S).reset false t)
        (xs := ys) hw rfl rfl h2
      exact ⟨zs, h3.perm.trans h1, h4⟩
  next _ _ _ := trivial
  reset _ := trivial

/-- The examples of a shard. -/
def shardOf (idx n : Nat) (xs : List Data) : List Data :=
  (List.range xs.length).filterMap fun k => xs[k * n + idx]?

theorem filterMap_some {α β : Type} {f : α → Option β} {g : α → β} {l : List α} (h : ∀ a ∈ l, f a = some (g a)) :
    l.filterMap f = l.map g := by
  induction l with
  | nil => rfl
  | cons a l ih => rw [List.filterMap_cons, h a (by simp), List.map_cons, ih fun b hb => h b (by simp [hb])]

theorem shardOf_get {idx n : Nat} (hi : idx < n) (xs : List Data) (k : Nat) : (shardOf idx n xs)[k]? = xs[k * n + idx]? := by
  have key : ∀ m, (∀ k, m ≤ k → xs[k * n + idx]? = none) → ∀ k,
      ((List.range m).filterMap fun k => xs[k * n + idx]?)[k]? = xs[k * n + idx]? := by
    intro m
    induction m with
    | zero => intro h k; simp [h k (Nat.zero_le _)]
    | succ m ih =>
      intro h k
      rw [List.range_succ, List.filterMap_append]
      cases hm : xs[m * n + idx]? with
      | none =>
        simp only [List.filterMap_cons, hm, List.filterMap_nil, List.append_nil]
        refine ih (fun k hk => ?_) k
        rcases Nat.eq_or_lt_of_le hk with rfl | hk
        · exact hm
        · exact h k hk
      | some x =>
        simp only [List.filterMap_cons, hm, List.filterMap_nil]
        have hlt := (List.getElem?_eq_some_iff.1 hm).1
        have hall : ((List.range m).filterMap fun k => xs[k * n + idx]?).length = m := by
          rw [List.length_filterMap_eq_countP, List.countP_eq_length.2]
          · simp
          · intro j hj
            have := List.mem_range.1 hj
            have : j * n ≤ m * n := Nat.mul_le_mul_right _ (by omega)
            rw [List.getElem?_eq_getElem (by omega)]
            rfl
        rcases Nat.lt_trichotomy k m with hk | rfl | hk
        · rw [List.getElem?_append_left (by omega), List.getElem?_eq_getElem (by omega)]
          have h1 : ((List.range m).filterMap fun k => xs[k * n + idx]?) = (List.range m).map fun k => xs[k * n + idx]?.getD default := by
            refine filterMap_some fun j hj => ?_
            have := List.mem_range.1 hj
            have : j * n ≤ m * n := Nat.mul_le_mul_right _ (by omega)
            rw [List.getElem?_eq_getElem (by omega)]
            rfl
          have : k * n ≤ m * n := Nat.mul_le_mul_right _ (by omega)
          simp only [h1, List.getElem_map, List.getElem_range]
          rw [List.getElem?_eq_getElem (by omega)]
          rfl
        · rw [List.getElem?_append_right (by omega), hall]
          simp [hm]
        · rw [List.getElem?_append_right (by omega), hall, h k (by omega)]
          obtain ⟨j, hj⟩ : ∃ j, k - m = j + 1 := ⟨k - m - 1, by omega⟩
          simp [hj]
  refine key _ (fun k hk => ?_) k
  have : k * 1 ≤ k * n := Nat.mul_le_mul_left _ (by omega)
  exact List.getElem?_eq_none (by omega)

theorem shard_gives {idx n : Nat} (hi : idx < n) {s : S.σ} {xs : List Data} (h : S.Yields s xs) :
    (shard idx n true S).Yields s (shardOf idx n xs) := by
  obtain ⟨ys, h1, h2⟩ := shard_yields (un := true) hi h
  obtain rfl : ys = shardOf idx n xs := by
    apply List.ext_getElem?
    intro k
    rw [h2 k, shardOf_get hi]
    simp
  exact h1

theorem rereads_shard {idx n : Nat} (hi : idx < n) {Q : List Data → Prop} (h : S.Rereads (fun _ => True) Q) :
    (shard idx n true S).Rereads (fun _ => True) fun ys => ∃ xs, Q xs ∧ ys = shardOf idx n xs where
  again {t} _ := by
    obtain ⟨ys, h1, h2⟩ := h.again (t := t) trivial
    exact ⟨_, ⟨ys, h1, rfl⟩, shard_gives hi h2⟩
  next _ _ _ := trivial
  reset _ := trivial

theorem rereads_pipeline {max : Nat} {Q : List Data → Prop} (h : S.Rereads (fun _ => True) Q) :
    (pipeline false max S).Rereads (fun s => ∃ i w, s = ⟨some i, w, false⟩) Q where
  again {t} := by
    rintro ⟨i, w, rfl⟩
    obtain ⟨ys, h1, h2⟩ := h.again (t := i) trivial
    exact ⟨ys, h1, pipeline_yields h2⟩
  next {t r t'} := by
    rintro ⟨i, w, rfl⟩ hn hr
    simp only [pipeline, pipeNext, Bool.false_eq_true, if_false] at hn
    generalize max - w = left at hn
    simp only [Option.getD_some] at hn
    induction left generalizing w i with
    | zero =>
      rw [pipeLoop] at hn
      split at hn <;> try cases hn
      · exact ⟨_, _, rfl⟩
      · exact ⟨_, _, rfl⟩
      · split at hn <;> cases hn <;> exact absurd rfl (hr _)
    | succ left ih =>
      rw [pipeLoop] at hn
      split at hn <;> try cases hn
      · exact ⟨_, _, rfl⟩
      · exact ⟨_, _, rfl⟩
      · split at hn
        · exact ih _ _ hn
        · cases hn
          exact absurd rfl (hr _)
  reset {t} := by
    rintro ⟨i, w, rfl⟩
    exact ⟨_, _, rfl⟩

/-! ### What `round_robin` and `sample` are fed -/

/-- The pass and the position in it of the `k`-th example. -/
def passAt (es : Nat → List Data) : Nat → Nat × Nat
  | 0 => (0, 0)
  | k + 1 => if (passAt es k).2 + 1 < (es (passAt es k).1).length then ((passAt es k).1, (passAt es k).2 + 1)
    else ((passAt es k).1 + 1, 0)

theorem passAt_lt {es : Nat → List Data} (hne : ∀ k, es k ≠ []) (k : Nat) : (passAt es k).2 < (es (passAt es k).1).length := by
  induction k with
  | zero => exact List.length_pos_iff.2 (hne 0)
  | succ k ih =>
    rw [passAt]
    split
    · assumption
    · exact List.length_pos_iff.2 (hne _)

/-- The examples of all passes in a row. -/
def passStream (es : Nat → List Data) (k : Nat) : Option Data := (es (passAt es k).1)[(passAt es k).2]?

theorem passStream_some {es : Nat → List Data} (hne : ∀ k, es k ≠ []) (k : Nat) : passStream es k ≠ none := by
  rw [passStream, List.getElem?_eq_getElem (passAt_lt hne k)]
  simp

/-- How many examples the first `k` passes have. -/
def passSum (es : Nat → List Data) : Nat → Nat
  | 0 => 0
  | k + 1 => passSum es k + (es k).length

theorem passAt_sum {es : Nat → List Data} (hne : ∀ k, es k ≠ []) (k i : Nat) (h : i < (es k).length) :
    passAt es (passSum es k + i) = (k, i) := by
  have key : ∀ k, passAt es (passSum es k) = (k, 0) → ∀ i, i < (es k).length → passAt es (passSum es k + i) = (k, i) := by
    intro k h0 i
    induction i with
    | zero => intro _; exact h0
    | succ i ih =>
      intro h
      rw [← Nat.add_assoc, passAt, ih (by omega), if_pos h]
  have start : ∀ k, passAt es (passSum es k) = (k, 0) := by
    intro k
    induction k with
    | zero => rfl
    | succ k ih =>
      have hpos := List.length_pos_iff.2 (hne k)
      have := key k ih ((es k).length - 1) (by omega)
      have e : passSum es (k + 1) = passSum es k + ((es k).length - 1) + 1 := by rw [passSum]; omega
      rw [e, passAt, this, if_neg (by simp only; omega)]
  exact key k (start k) i h

theorem passSum_mono {es : Nat → List Data} {a b : Nat} (h : a ≤ b) : passSum es a ≤ passSum es b := by
  induction h with
  | refl => exact Nat.le_refl _
  | step _ ih => rw [passSum]; omega

theorem passAt_found {es : Nat → List Data} (hne : ∀ k, es k ≠ []) (n : Nat) :
    passSum es (passAt es n).1 + (passAt es n).2 = n := by
  induction n with
  | zero => rfl
  | succ n ih =>
    have := passAt_lt hne n
    rw [passAt]
    split
    · simp only
      omega
    · simp only [passSum]
      omega

/-- The first passes are the concatenation of their lists. -/
theorem passStream_spec {es : Nat → List Data} (hne : ∀ k, es k ≠ []) (k : Nat) :
    (List.range (passSum es k)).map (passStream es) = ((List.range k).flatMap es).map some := by
  induction k with
  | zero => rfl
  | succ k ih =>
    rw [passSum, List.range_add, List.map_append, ih, List.range_succ, List.flatMap_append, List.map_append]
    congr 1
    apply List.ext_getElem?
    intro i
    simp only [List.flatMap_cons, List.flatMap_nil, List.append_nil, List.getElem?_map, Option.map_map]
    by_cases h : i < (es k).length
    · rw [List.getElem?_range h, List.getElem?_eq_getElem h]
      simp only [Option.map_some, Function.comp]
      rw [passStream, passAt_sum hne k i h, List.getElem?_eq_getElem h]
    · rw [List.getElem?_eq_none (by simp; omega), List.getElem?_eq_none (by omega)]
      rfl

/-- A list that starts with every number of passes is `passStream`. -/
theorem eq_passStream {es : Nat → List Data} (hne : ∀ k, es k ≠ []) {f : Nat → Option Data}
    (hf : ∀ k, (List.range (((List.range k).flatMap es).length)).map f = ((List.range k).flatMap es).map some) :
    f = passStream es := by
  have hl : ∀ k, ((List.range k).flatMap es).length = passSum es k := by
    intro k
    induction k with
    | zero => rfl
    | succ k ih => rw [List.range_succ, List.flatMap_append, List.length_append, ih, passSum]; simp
  have hge : ∀ k, k ≤ passSum es k := by
    intro k
    induction k with
    | zero => exact Nat.zero_le _
    | succ k ih =>
      have := List.length_pos_iff.2 (hne k)
      rw [passSum]
      omega
  funext n
  have h1 := hf (n + 1)
  rw [← passStream_spec hne, hl] at h1
  have := congrArg (fun l : List (Option Data) => l[n]?) h1
  have hn : n < passSum es (n + 1) := hge (n + 1)
  simpa [List.getElem?_map, List.getElem?_range hn] using this

theorem feeds_passes (hfin : S.finitude ≠ .pseudoInfinite) {es : Nat → List Data} (hne : ∀ k, es k ≠ []) {s : S.σ}
    (h : S.Passes s es) :
    ∃ P, P 0 s ∧ Feeds S true (passStream es) (fun k => decide (0 < (passAt es k).1 ∧ (passAt es k).2 = 0)) P := by
  obtain ⟨st, h0, hst⟩ := h
  refine ⟨fun k t => match k with
    | 0 => t = st 0
    | k + 1 => S.Emits (st (passAt es k).1) ((es (passAt es k).1).take ((passAt es k).2 + 1)) t, h0.symm, ?_, ?_⟩
  · intro k t ht
    cases k with
    | zero =>
      simp only at ht
      subst ht
      obtain ⟨e, e', h1, -⟩ := hst 0
      cases hes : es 0 with
      | nil => exact absurd hes (hne 0)
      | cons x xs =>
        rw [hes] at h1
        obtain ⟨t', h2, -⟩ := h1.cons_inv
        refine ⟨t', ?_, ?_⟩
        · simp [fetch1, h2, passStream, passAt, hes, hfin]
        · simp only [passAt, hes, List.take_succ_cons, List.take_zero]
          exact .cons h2 (.nil _)
    | succ k =>
      simp only at ht
      obtain ⟨p, hp⟩ : ∃ p, p = (passAt es k).1 := ⟨_, rfl⟩
      obtain ⟨o, ho⟩ : ∃ o, o = (passAt es k).2 := ⟨_, rfl⟩
      have hlt := passAt_lt hne k
      rw [← hp, ← ho] at ht hlt
      obtain ⟨e, e', h1, h2, h3⟩ := hst p
      have h4 := h1
      rw [← List.take_append_drop (o + 1) (es p)] at h4
      obtain ⟨u, h5, h6⟩ := h4.split
      obtain rfl := ht.det h5
      by_cases hlast : o + 1 < (es p).length
      · rw [List.drop_eq_getElem_cons hlast] at h6
        obtain ⟨t', h7, -⟩ := h6.cons_inv
        have hpos : passAt es (k + 1) = (p, o + 1) := by rw [passAt, ← hp, ← ho, if_pos hlast]
        refine ⟨t', ?_, ?_⟩
        · simp [fetch1, h7, passStream, hpos, hfin, List.getElem?_eq_getElem hlast]
        · simp only [hpos]
          rw [List.take_succ_eq_append_getElem hlast]
          exact ht.snoc h7
      · have hpos : passAt es (k + 1) = (p + 1, 0) := by rw [passAt, ← hp, ← ho, if_neg hlast]
        rw [List.drop_eq_nil_of_le (by omega)] at h6
        obtain rfl := h6.nil_inv
        obtain ⟨e₂, e₂', h7, -⟩ := hst (p + 1)
        cases hes : es (p + 1) with
        | nil => exact absurd hes (hne _)
        | cons x xs =>
          rw [hes] at h7
          obtain ⟨t', h8, -⟩ := h7.cons_inv
          rw [h3] at h8
          refine ⟨t', ?_, ?_⟩
          · simp [fetch1, h2, h8, passStream, hpos, hes]
          · simp only [hpos, hes, List.take_succ_cons, List.take_zero, h3]
            exact .cons h8 (.nil _)
  · intro k t hk _
    exact absurd hk (passStream_some hne k)

theorem doneBy_passes {es : Nat → List Data} (hne : ∀ k, es k ≠ []) (r : Nat) :
    doneBy (fun k => decide (0 < (passAt es k).1 ∧ (passAt es k).2 = 0)) (r + 1) = decide ((es 0).length ≤ r) := by
  rw [Bool.eq_iff_iff]
  simp only [doneBy, List.any_eq_true, List.mem_range, decide_eq_true_eq]
  have h1 : passSum es 1 = (es 0).length := by simp [passSum]
  constructor
  · rintro ⟨m, hm, h, h'⟩
    have := passAt_found hne m
    have := passSum_mono (es := es) (a := 1) (b := (passAt es m).1) h
    omega
  · intro h
    refine ⟨(es 0).length, by omega, ?_⟩
    have := passAt_sum hne 1 0 (List.length_pos_iff.2 (hne 1))
    rw [Nat.add_zero, h1] at this
    rw [this]
    exact ⟨Nat.one_pos, rfl⟩

end Fs2
