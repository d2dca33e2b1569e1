import Verif.Reader.Model

/-!
# What the data reader returns
-/

namespace Fs2.Reader

/-! ## Least and total -/

variable {n : Nat}

theorem least_le (f : Fin n → Nat) (r : Fin n) : least f ≤ f r := by
  unfold least
  have hm : f r ∈ List.ofFn f := by simp [List.mem_ofFn]
  cases h : (List.ofFn f).min? with
  | none =>
    rw [List.min?_eq_none_iff] at h
    rw [h] at hm
    cases hm
  | some m =>
    rw [List.min?_eq_some_iff] at h
    exact h.2 _ hm

theorem least_mem (f : Fin n → Nat) (h : 0 < n) : ∃ r, f r = least f := by
  unfold least
  cases hm : (List.ofFn f).min? with
  | none => simp at hm; omega
  | some m =>
    rw [List.min?_eq_some_iff] at hm
    simpa [List.mem_ofFn] using hm.1

theorem least_eq {f : Fin n → Nat} {m : Nat} (h1 : ∀ r, m ≤ f r) (h2 : ∃ r, f r = m) : least f = m := by
  obtain ⟨r, hr⟩ := h2
  have hpos : 0 < n := by have := r.isLt; omega
  obtain ⟨r', hr'⟩ := least_mem f hpos
  have := least_le f r
  have := h1 r'
  omega

theorem total_eq_zero {f : Fin n → Nat} : total f = 0 ↔ ∀ r, f r = 0 := by
  unfold total
  rw [List.sum_eq_zero_iff_forall_eq_nat]
  simp [List.mem_ofFn]

/-! ## One rank -/

theorem ended_next {S : Source} {s : S.σ} (h : S.Ended s) : ∃ s', S.next s = some (.eod, s') ∧ S.Ended s' := by
  obtain ⟨P, h1, h2⟩ := h
  obtain ⟨s', h3, h4⟩ := h2 s h1
  exact ⟨s', h3, P, h4, h2⟩

theorem readAcc_yields {S : Source} (k : Nat) {s : S.σ} {xs : List Data} (h : S.Yields s xs) :
    ∃ s', readAcc S k s = some (.ok (xs.take k), s') ∧ S.Yields s' (xs.drop k) := by
  induction k generalizing s xs with
  | zero => exact ⟨s, by simp [readAcc], by simpa using h⟩
  | succ k ih =>
    obtain ⟨s₁, h1, h2⟩ := h
    cases h1 with
    | nil =>
      obtain ⟨s', h3, h4⟩ := ended_next h2
      exact ⟨s', by simp [readAcc, h3], s', .nil _, h4⟩
    | cons h3 h4 =>
      obtain ⟨s', h5, h6⟩ := ih ⟨s₁, h4, h2⟩
      exact ⟨s', by simp [readAcc, h3, h5], by simpa using h6⟩

/-- Of `m` batches, those that are not dropped at the end. -/
def kept (c : Cfg) (m : Nat) : Nat := if c.dropRemainder then c.accumulate * (m / c.accumulate) else m

/-- The batches of one call, `xs` being the batches that are left. -/
def part (c : Cfg) (xs : List Data) : List Data :=
  if c.dropRemainder && (xs.take c.accumulate).length != c.accumulate then [] else xs.take c.accumulate

theorem arrive_yields {S : Source} (c : Cfg) {s : S.σ} {xs : List Data} (h : S.Yields s xs) :
    ∃ s', arrive c ⟨s, false⟩ = .came (part c xs) s' ∧ S.Yields s' (xs.drop c.accumulate) := by
  obtain ⟨s', h1, h2⟩ := readAcc_yields c.accumulate h
  exact ⟨s', by simp [arrive, h1, part], h2⟩

theorem part_length (c : Cfg) (xs : List Data) :
    (part c xs).length = if c.dropRemainder && xs.length < c.accumulate then 0 else min c.accumulate xs.length := by
  unfold part
  cases c.dropRemainder
  · simp
  · by_cases h : xs.length < c.accumulate
    · simp [h, Nat.min_eq_right (Nat.le_of_lt h), Nat.ne_of_lt h]
    · have : min c.accumulate xs.length = c.accumulate := Nat.min_eq_left (by omega)
      simp [this, h]

/-! ## All ranks -/

variable {S : Fin n → Source}

/-- All ranks have data left, or at least are at its end. -/
structure Live (x : ∀ r, RS (S r)) (ys : ∀ _ : Fin n, List Data) : Prop where
  eod : ∀ r, (x r).eod = false
  yields : ∀ r, (S r).Yields (x r).pipe (ys r)

theorem Live.arrive {x : ∀ r, RS (S r)} {ys : Fin n → List Data} (h : Live x ys) (c : Cfg) (r : Fin n) :
    ∃ s', arrive c (x r) = .came (part c (ys r)) s' ∧ (S r).Yields s' ((ys r).drop c.accumulate) := by
  have := arrive_yields c (h.yields r)
  rwa [show (⟨(x r).pipe, false⟩ : RS (S r)) = x r from by rw [← h.eod r]] at this

/-- The number that the ranks agree on. -/
def agreed (c : Cfg) (ys : Fin n → List Data) (r : Fin n) : Nat :=
  if c.sync && n > 1 then
    match c.mode with
    | .untilFirst => least fun r => (part c (ys r)).length
    | .untilLast => total fun r => (part c (ys r)).length
  else (part c (ys r)).length

theorem nextAll_live {x : ∀ r, RS (S r)} {ys : Fin n → List Data} (h : Live x ys) (c : Cfg) (r : Fin n) :
    ∃ s', (S r).Yields s' ((ys r).drop c.accumulate) ∧
      nextAll c x r =
        if agreed c ys r = 0 then (.stop, ⟨s', true⟩)
        else (.batches (if c.mode = .untilFirst then (part c (ys r)).take (agreed c ys r) else part c (ys r)), ⟨s', false⟩) := by
  have hc : ∀ r, (Reader.arrive c (x r)).count = some (part c (ys r)).length := by
    intro r
    obtain ⟨s', h1, -⟩ := h.arrive c r
    rw [h1]; rfl
  obtain ⟨s', h1, h2⟩ := h.arrive c r
  refine ⟨s', h2, ?_⟩
  have ha : collective c (fun r => Reader.arrive c (x r)) r = some (agreed c ys r) := by
    unfold agreed collective
    simp only [hc]
    simp
    split <;> rfl
  unfold nextAll
  rw [ha, h1]
  rfl

/-- All ranks are past the end. -/
def Over (x : ∀ r, RS (S r)) : Prop := ∀ r, (x r).eod = true

theorem nextAll_over {x : ∀ r, RS (S r)} (h : Over x) (c : Cfg) (r : Fin n) : nextAll c x r = (.stop, x r) := by
  unfold nextAll
  simp only [arrive, h r, if_true, leave]

theorem after_over {x : ∀ r, RS (S r)} {c : Cfg} {i j : Nat} (h : Over (after c x i)) (hij : i ≤ j) :
    Over (after c x j) := by
  induction hij with
  | refl => exact h
  | @step j _ ih =>
    intro r
    show ((nextAll c (after c x j) r).2).eod = true
    rw [nextAll_over ih]
    exact ih r

theorem reply_over {x : ∀ r, RS (S r)} {c : Cfg} {i j : Nat} (h : Over (after c x i)) (hij : i ≤ j) (r : Fin n) :
    reply c x j r = .stop := by
  unfold reply
  rw [nextAll_over (after_over h hij)]

/-- While the agreed number is positive on all ranks, the readers go on together. -/
theorem after_live {x : ∀ r, RS (S r)} {xs : Fin n → List Data} {c : Cfg} (h : Live x xs) (i : Nat)
    (hi : ∀ j, j < i → ∀ r, agreed c (fun r => (xs r).drop (j * c.accumulate)) r ≠ 0) :
    Live (after c x i) (fun r => (xs r).drop (i * c.accumulate)) := by
  induction i with
  | zero => simpa [after] using h
  | succ i ih =>
    have hl := ih (fun j hj => hi j (by omega))
    have key : ∀ r, ∃ s', (S r).Yields s' ((xs r).drop ((i + 1) * c.accumulate)) ∧ after c x (i + 1) r = ⟨s', false⟩ := by
      intro r
      obtain ⟨s', h1, h2⟩ := nextAll_live hl c r
      refine ⟨s', ?_, ?_⟩
      · rw [List.drop_drop] at h1
        rwa [Nat.succ_mul]
      · show (nextAll c (after c x i) r).2 = _
        rw [h2, if_neg (hi i (by omega) r)]
    constructor
    · intro r
      obtain ⟨s', -, h⟩ := key r
      rw [h]
    · intro r
      obtain ⟨s', h1, h⟩ := key r
      rw [h]
      exact h1

/-- The closed form of a read with a number `m` of batches. -/
theorem reply_closed {x : ∀ r, RS (S r)} {xs : Fin n → List Data} {c : Cfg} (h : Live x xs) (m : Nat)
    (hm : ∀ i r, (∀ j, j < i → j * c.accumulate < m) →
      (agreed c (fun r => (xs r).drop (i * c.accumulate)) r = 0 ↔ m ≤ i * c.accumulate)) (i : Nat) (r : Fin n) :
    reply c x i r =
      if i * c.accumulate < m then
        .batches (if c.mode = .untilFirst then
          (part c ((xs r).drop (i * c.accumulate))).take (agreed c (fun r => (xs r).drop (i * c.accumulate)) r)
          else part c ((xs r).drop (i * c.accumulate)))
      else .stop := by
  have mono : ∀ i, i * c.accumulate < m → ∀ j, j < i → j * c.accumulate < m := by
    intro i hi j hj
    exact Nat.lt_of_le_of_lt (Nat.mul_le_mul_right _ (Nat.le_of_lt hj)) hi
  have live : ∀ i, (∀ j, j < i → j * c.accumulate < m) → Live (after c x i) (fun r => (xs r).drop (i * c.accumulate)) := by
    intro i hi
    refine after_live h i (fun j hj r hz => ?_)
    rw [hm j r (mono j (hi j hj))] at hz
    have := hi j hj
    omega
  by_cases hi : i * c.accumulate < m
  · obtain ⟨s', -, h2⟩ := nextAll_live (live i (mono i hi)) c r
    unfold reply
    rw [if_pos hi, h2, if_neg]
    rw [hm i r (mono i hi)]
    omega
  · rw [if_neg hi]
    -- the first call past the end
    have ex : ∃ i₀, i₀ ≤ i ∧ m ≤ i₀ * c.accumulate ∧ ∀ j, j < i₀ → j * c.accumulate < m := by
      clear mono live
      induction i with
      | zero => exact ⟨0, Nat.le_refl _, by omega, by omega⟩
      | succ i ih =>
        by_cases h' : i * c.accumulate < m
        · refine ⟨i + 1, Nat.le_refl _, by omega, fun j hj => ?_⟩
          exact Nat.lt_of_le_of_lt (Nat.mul_le_mul_right _ (by omega)) h'
        · obtain ⟨i₀, h1, h2⟩ := ih h'
          exact ⟨i₀, by omega, h2⟩
    obtain ⟨i₀, h1, h2, h3⟩ := ex
    have hl := live i₀ h3
    have stop : ∀ r, ∃ s', nextAll c (after c x i₀) r = (.stop, ⟨s', true⟩) := by
      intro r
      obtain ⟨s', -, h4⟩ := nextAll_live hl c r
      exact ⟨s', by rw [h4, if_pos ((hm i₀ r h3).2 h2)]⟩
    rcases Nat.eq_or_lt_of_le h1 with he | hlt
    · subst he
      obtain ⟨s', h4⟩ := stop r
      unfold reply
      rw [h4]
    · refine reply_over (i := i₀ + 1) ?_ hlt r
      intro r
      obtain ⟨s', h4⟩ := stop r
      show (nextAll c (after c x i₀) r).2.eod = true
      rw [h4]

theorem reply_first {x : ∀ r, RS (S r)} {xs : Fin n → List Data} {c : Cfg} (h : Live x xs) (hk : 0 < c.accumulate)
    (hs : c.sync = true) (hn : 1 < n) (hf : c.mode = .untilFirst) (i : Nat) (r : Fin n) :
    let m := kept c (least fun r => (xs r).length)
    reply c x i r =
      if i * c.accumulate < m then .batches (((xs r).drop (i * c.accumulate)).take (min c.accumulate (m - i * c.accumulate)))
      else .stop := by
  intro m
  obtain ⟨r₀, hr₀⟩ := least_mem (fun r => (xs r).length) (by omega)
  have hle := least_le (fun r => (xs r).length)
  have hag : ∀ i r, agreed c (fun r => (xs r).drop (i * c.accumulate)) r = min c.accumulate (m - i * c.accumulate) := by
    intro i r
    unfold agreed
    simp only [hs, hn, hf, decide_true, Bool.and_self, if_true]
    have e : ∀ r, (part c ((xs r).drop (i * c.accumulate))).length =
        min c.accumulate (kept c (xs r).length - i * c.accumulate) := by
      intro r
      rw [part_length, List.length_drop]
      unfold kept
      cases hd : c.dropRemainder
      · simp
      · simp only [Bool.true_and, if_true, decide_eq_true_eq]
        generalize (xs r).length = l
        rw [Nat.mul_comm c.accumulate (l / _)]
        have hdm : l = l / c.accumulate * c.accumulate + l % c.accumulate := (Nat.div_add_mod' l c.accumulate).symm
        have hlt := Nat.mod_lt l hk
        generalize l / c.accumulate = q at *
        rw [← Nat.sub_mul]
        rcases Nat.lt_or_ge i q with hiq | hiq
        · have h1 : (i + 1) * c.accumulate ≤ q * c.accumulate := Nat.mul_le_mul_right _ hiq
          rw [Nat.succ_mul] at h1
          have h2 : 1 * c.accumulate ≤ (q - i) * c.accumulate := Nat.mul_le_mul_right _ (by omega)
          rw [if_neg (by omega), Nat.min_eq_left (by omega), Nat.min_eq_left (by omega)]
        · have h1 : q * c.accumulate ≤ i * c.accumulate := Nat.mul_le_mul_right _ hiq
          rw [if_pos (by omega), show q - i = 0 from by omega]
          simp
    simp only [e]
    have mono : ∀ a b, a ≤ b → kept c a ≤ kept c b := by
      intro a b hab
      unfold kept
      split
      · exact Nat.mul_le_mul_left _ (Nat.div_le_div_right hab)
      · exact hab
    refine least_eq (fun r => ?_) ⟨r₀, by simp only [hr₀]; rfl⟩
    have := mono _ _ (hle r)
    show min c.accumulate (kept c _ - i * c.accumulate) ≤ _
    omega
  rw [reply_closed h m (fun i r _ => by rw [hag]; omega), hag, hf, if_pos rfl]
  by_cases hi : i * c.accumulate < m
  · rw [if_pos hi, if_pos hi]
    congr 1
    unfold part
    -- on this rank nothing was cleared
    have hmr : m ≤ kept c (xs r).length := by
      have := hle r
      show kept c _ ≤ _
      unfold kept
      split
      · exact Nat.mul_le_mul_left _ (Nat.div_le_div_right this)
      · exact this
    rw [if_neg]
    · rw [List.take_take]; congr 1; omega
    · cases hd : c.dropRemainder
      · simp
      · have hmd : ∃ q, m = q * c.accumulate := ⟨_, by
          show kept c _ = _
          unfold kept; rw [hd, if_pos rfl, Nat.mul_comm]⟩
        obtain ⟨q, hq⟩ := hmd
        have hiq : i < q := by
          rw [hq] at hi
          exact Nat.lt_of_mul_lt_mul_right hi
        have h1 : (i + 1) * c.accumulate ≤ q * c.accumulate := Nat.mul_le_mul_right _ hiq
        rw [Nat.succ_mul] at h1
        have h2 : kept c (xs r).length ≤ (xs r).length := by
          unfold kept; rw [hd, if_pos rfl]; exact Nat.mul_div_le _ _
        simp
        omega
  · rw [if_neg hi, if_neg hi]

/-- The greatest of the numbers. -/
def most (f : Fin n → Nat) : Nat := (List.ofFn f).max?.getD 0

theorem le_most (f : Fin n → Nat) (r : Fin n) : f r ≤ most f := by
  unfold most
  have hm : f r ∈ List.ofFn f := by simp [List.mem_ofFn]
  cases h : (List.ofFn f).max? with
  | none =>
    rw [List.max?_eq_none_iff] at h
    rw [h] at hm
    cases hm
  | some m =>
    rw [List.max?_eq_some_iff] at h
    exact h.2 _ hm

theorem most_mem (f : Fin n → Nat) (h : 0 < n) : ∃ r, f r = most f := by
  unfold most
  cases hm : (List.ofFn f).max? with
  | none => simp at hm; omega
  | some m =>
    rw [List.max?_eq_some_iff] at hm
    simpa [List.mem_ofFn] using hm.1

theorem part_zero {c : Cfg} (hk : 0 < c.accumulate) (xs : List Data) (i : Nat) :
    (part c (xs.drop (i * c.accumulate))).length = 0 ↔ kept c xs.length ≤ i * c.accumulate := by
  rw [part_length, List.length_drop]
  unfold kept
  cases hd : c.dropRemainder
  · simp; omega
  · simp only [Bool.true_and, if_true, decide_eq_true_eq]
    generalize xs.length = l
    rw [Nat.mul_comm c.accumulate (l / _)]
    have hdm : l = l / c.accumulate * c.accumulate + l % c.accumulate := (Nat.div_add_mod' l c.accumulate).symm
    have hlt := Nat.mod_lt l hk
    generalize l / c.accumulate = q at *
    rcases Nat.lt_or_ge i q with hiq | hiq
    · have h1 : (i + 1) * c.accumulate ≤ q * c.accumulate := Nat.mul_le_mul_right _ hiq
      rw [Nat.succ_mul] at h1
      rw [if_neg (by omega)]
      omega
    · have h1 : q * c.accumulate ≤ i * c.accumulate := Nat.mul_le_mul_right _ hiq
      rw [if_pos (by omega)]
      simp [h1]

theorem reply_last {x : ∀ r, RS (S r)} {xs : Fin n → List Data} {c : Cfg} (h : Live x xs) (hk : 0 < c.accumulate)
    (hs : c.sync = true) (hn : 1 < n) (hf : c.mode = .untilLast) (i : Nat) (r : Fin n) :
    reply c x i r =
      if i * c.accumulate < kept c (most fun r => (xs r).length) then .batches (part c ((xs r).drop (i * c.accumulate)))
      else .stop := by
  obtain ⟨r₀, hr₀⟩ := most_mem (fun r => (xs r).length) (by omega)
  have hle := le_most (fun r => (xs r).length)
  suffices key : ∀ i r, agreed c (fun r => (xs r).drop (i * c.accumulate)) r = 0 ↔
      kept c (most fun r => (xs r).length) ≤ i * c.accumulate by
    rw [reply_closed h (kept c (most fun r => (xs r).length)) (fun i r _ => key i r), hf]
    simp only [reduceCtorEq, if_false]
  intro i r
  unfold agreed
  simp only [hs, hn, hf, decide_true, Bool.and_self, if_true]
  rw [total_eq_zero]
  simp only [part_zero hk]
  constructor
  · intro h
    have := h r₀
    rwa [hr₀] at this
  · intro h r
    refine Nat.le_trans ?_ h
    have := hle r
    unfold kept
    split
    · exact Nat.mul_le_mul_left _ (Nat.div_le_div_right this)
    · exact this

end Fs2.Reader
