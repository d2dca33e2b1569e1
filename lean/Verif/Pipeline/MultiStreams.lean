import Verif.Pipeline.MultiLaws

/-!
# What `concat`, `zip` and `round_robin` produce (helper lemmas)
-/

namespace Fs2
open Source

variable {n : Nat} {Ss : Fin n → Source}

/-! ## concat -/

theorem concatLoop_yields {is : List (Fin n)} (hnd : is.Nodup) {st : States Ss}
    {ys : Fin n → List Data} (h : ∀ i, (Ss i).Yields (st i) (ys i)) :
    (is.flatMap ys = [] ∧ ∃ st', concatLoop Ss is st = some (.eod, st') ∧
      ∀ i, (Ss i).Yields (st' i) (ys i)) ∨
    (∃ x st' ys', concatLoop Ss is st = some (.yield x, st') ∧
      (∀ i, (Ss i).Yields (st' i) (ys' i)) ∧ (∀ i, i ∉ is → ys' i = ys i) ∧
      is.flatMap ys = x :: is.flatMap ys') := by
  induction is generalizing st with
  | nil => exact .inl ⟨rfl, st, rfl, h⟩
  | cons i is ih =>
    obtain ⟨hni, hnd'⟩ := List.nodup_cons.mp hnd
    cases hy : ys i with
    | nil =>
      have hi := h i
      rw [hy] at hi
      obtain ⟨s, h1, h2⟩ := hi.nil_inv.next
      have h3 : ∀ j, (Ss j).Yields (upd st i s j) (ys j) := by
        refine upd_all (P := fun j s => (Ss j).Yields s (ys j)) h ?_
        rw [hy]
        exact ⟨s, .nil _, h2⟩
      simp only [concatLoop, h1, List.flatMap_cons, hy, List.nil_append]
      rcases ih hnd' h3 with h4 | ⟨x, st', ys', h4, h5, h6, h7⟩
      · exact .inl h4
      · refine .inr ⟨x, st', ys', h4, h5, fun j hj => h6 j (fun hm => hj (by simp [hm])), ?_⟩
        rw [h7, h6 i hni, hy, List.nil_append]
    | cons x xs =>
      have hi := h i
      rw [hy] at hi
      obtain ⟨s, h1, h2⟩ := hi.cons_inv
      refine .inr ⟨x, upd st i s, fun j => if j = i then xs else ys j, ?_, ?_, ?_, ?_⟩
      · simp only [concatLoop, h1]
      · intro j
        by_cases hj : j = i
        · subst hj; simpa using h2
        · rw [upd_ne _ _ hj]; simpa [hj] using h j
      · intro j hj
        have : j ≠ i := fun he => hj (by simp [he])
        simp [this]
      · rw [List.flatMap_cons, List.flatMap_cons, hy, if_pos rfl, List.cons_append]
        congr 2
        rw [List.flatMap_def, List.flatMap_def]
        congr 1
        refine List.map_congr_left fun j hj => ?_
        rw [if_neg]
        intro he
        exact hni (he ▸ hj)

theorem concat_yields {st : States Ss} {ys : Fin n → List Data}
    (h : ∀ i, (Ss i).Yields (st i) (ys i)) :
    (concat Ss).Yields st ((List.finRange n).flatMap ys) := by
  induction hl : (List.finRange n).flatMap ys generalizing st ys with
  | nil =>
    refine ⟨st, .nil _, concat_ended fun i => ?_⟩
    have := List.flatMap_eq_nil_iff.mp hl i (List.mem_finRange i)
    have hi := h i
    rw [this] at hi
    exact hi.nil_inv
  | cons y l ih =>
    rcases concatLoop_yields (List.nodup_finRange n) h with ⟨h1, _⟩ | ⟨x, st', ys', h1, h2, -, h3⟩
    · rw [h1] at hl; cases hl
    · rw [hl] at h3
      cases h3
      exact .cons h1 (ih h2 rfl)

/-! ## zip -/

/-- The outcome of one upstream call, as `fetch_next` classifies it. -/
def classify (S : Source) : Res → Fetched
  | .yield x => if S.finitude = .pseudoInfinite then .pseudo x else .normal x
  | _ => .ended

theorem fetchAll_eq {is : List (Fin n)} (hnd : is.Nodup) {st st' : States Ss} {r : Fin n → Res}
    (h : ∀ i ∈ is, (Ss i).next (st i) = some (r i, st' i))
    (hr : ∀ i ∈ is, ∀ e, r i ≠ .err e) (ho : ∀ i, i ∉ is → st' i = st i) :
    fetchAll Ss is st = some (.ok (is.map fun i => classify (Ss i) (r i)), st') := by
  induction is generalizing st with
  | nil =>
    have : st' = st := funext fun i => ho i (by simp)
    simp [fetchAll, this]
  | cons i is ih =>
    obtain ⟨hni, hnd'⟩ := List.nodup_cons.mp hnd
    have h1 := h i (by simp)
    have h2 := hr i (by simp)
    have h3 := ih hnd' (st := upd st i (st' i))
      (fun j hj => by
        have hne : j ≠ i := fun he => hni (he ▸ hj)
        rw [upd_ne _ _ hne]
        exact h j (by simp [hj]))
      (fun j hj => hr j (by simp [hj]))
      (fun j hj => by
        by_cases hji : j = i
        · subst hji; simp
        · rw [upd_ne _ _ hji]; exact ho j (by simp [hji, hj]))
    simp only [fetchAll, h1]
    cases hri : r i with
    | yield x => simp [h3, classify, hri]
    | eod => simp [h3, classify, hri]
    | err e => exact absurd hri (h2 e)

/-- All outcomes of one round of calls. -/
theorem fetchAll_round {st st' : States Ss} {r : Fin n → Res}
    (h : ∀ i, (Ss i).next (st i) = some (r i, st' i)) (hr : ∀ i e, r i ≠ .err e) :
    fetchAll Ss (List.finRange n) st
      = some (.ok ((List.finRange n).map fun i => classify (Ss i) (r i)), st') :=
  fetchAll_eq (List.nodup_finRange n) (fun i _ => h i) (fun i _ => hr i)
    (fun i hi => absurd (List.mem_finRange i) hi)

variable {names : List String} {sh fl : Bool}

theorem zip_next_yield {st st' : States Ss} {f : Fin n → Data} {y : Data}
    (h : ∀ i, (Ss i).next (st i) = some (.yield (f i), st' i))
    (hp : ∃ i, (Ss i).finitude ≠ .pseudoInfinite)
    (hy : zipCombine names fl ((List.finRange n).map f) = .ok y) :
    (zip Ss names sh fl).next st = some (.yield y, st') := by
  obtain ⟨i, hi⟩ := hp
  have hn0 : n ≠ 0 := by rintro rfl; exact i.elim0
  have h1 := fetchAll_round h (by simp)
  have h2 : ((List.finRange n).map fun i => classify (Ss i) (.yield (f i))).all Fetched.isNotEod
      = true := by
    rw [List.all_map, List.all_eq_true]
    intro j _
    simp only [Function.comp, classify]
    split <;> rfl
  have h3 : ((List.finRange n).map fun i => classify (Ss i) (.yield (f i))).all Fetched.isEod
      = false := by
    rw [List.all_map, List.all_eq_false]
    exact ⟨i, List.mem_finRange i, by simp [classify, hi, Fetched.isEod]⟩
  have h4 : ((List.finRange n).map fun i => classify (Ss i) (.yield (f i))).map Fetched.value
      = (List.finRange n).map f := by
    rw [List.map_map]
    refine List.map_congr_left fun j _ => ?_
    simp only [Function.comp, classify]
    split <;> rfl
  simp only [zip, zipNext, h1]
  rw [if_neg hn0]
  simp [h2, h3, h4, hy]

/-- If not all pipelines end in the same round. -/
theorem zip_next_uneven {st st' : States Ss} {r : Fin n → Res}
    (h : ∀ i, (Ss i).next (st i) = some (r i, st' i)) (hr : ∀ i e, r i ≠ .err e)
    {i j : Fin n} (hi : r i = .eod) {x : Data} (hj : r j = .yield x)
    (hp : (Ss j).finitude ≠ .pseudoInfinite) :
    (zip Ss names sh fl).next st
      = some (if sh then .eod else .err zipLengthErr, st') := by
  have hn0 : n ≠ 0 := by rintro rfl; exact i.elim0
  have h1 := fetchAll_round h hr
  have h2 : ((List.finRange n).map fun i => classify (Ss i) (r i)).all Fetched.isNotEod
      = false := by
    rw [List.all_map, List.all_eq_false]
    exact ⟨i, List.mem_finRange i, by simp [hi, classify, Fetched.isNotEod]⟩
  have h3 : ((List.finRange n).map fun i => classify (Ss i) (r i)).all Fetched.isEod
      = false := by
    rw [List.all_map, List.all_eq_false]
    exact ⟨j, List.mem_finRange j, by simp [hj, hp, classify, Fetched.isEod]⟩
  simp only [zip, zipNext, h1]
  rw [if_neg hn0]
  simp only [h2, h3]
  cases sh <;> simp

theorem zip_next_eod {st st' : States Ss} {r : Fin n → Res}
    (h : ∀ i, (Ss i).next (st i) = some (r i, st' i)) (hr : ∀ i e, r i ≠ .err e)
    (he : ∃ i, r i = .eod)
    (ha : sh = true ∨ ∀ i, (Ss i).finitude ≠ .pseudoInfinite → r i = .eod) :
    (zip Ss names sh fl).next st = some (.eod, st') := by
  obtain ⟨i, hi⟩ := he
  by_cases hall : ∀ i, (Ss i).finitude ≠ .pseudoInfinite → r i = .eod
  · have hn0 : n ≠ 0 := by rintro rfl; exact i.elim0
    have h1 := fetchAll_round h hr
    have h3 : ((List.finRange n).map fun i => classify (Ss i) (r i)).all Fetched.isEod
        = true := by
      rw [List.all_map, List.all_eq_true]
      intro j _
      simp only [Function.comp]
      by_cases hp : (Ss j).finitude = .pseudoInfinite
      · cases hrj : r j with
        | yield x => simp [classify, hp, Fetched.isEod]
        | eod => rfl
        | err e => rfl
      · rw [hall j hp]; rfl
    simp only [zip, zipNext, h1]
    rw [if_neg hn0]
    simp [h3]
  · obtain rfl : sh = true := ha.resolve_right hall
    have : ∃ j, (Ss j).finitude ≠ .pseudoInfinite ∧ r j ≠ .eod := by
      apply Classical.byContradiction
      intro hno
      refine hall fun j hj => ?_
      apply Classical.byContradiction
      exact fun h => hno ⟨j, hj, h⟩
    obtain ⟨j, hj, hrj⟩ := this
    cases hrx : r j with
    | eod => exact absurd hrx hrj
    | err e => exact absurd hrx (hr j e)
    | yield x => simpa using zip_next_uneven (names := names) (fl := fl) (sh := true) h hr hi hrx hj

theorem zip_emits {st st' : States Ss} {f : Fin n → Nat → Data} {c : Nat → Data} {m : Nat}
    (h : ∀ i, (Ss i).Emits (st i) ((List.range m).map (f i)) (st' i))
    (hp : ∃ i, (Ss i).finitude ≠ .pseudoInfinite)
    (hc : ∀ k, k < m → zipCombine names fl ((List.finRange n).map fun i => f i k) = .ok (c k)) :
    (zip Ss names sh fl).Emits st ((List.range m).map c) st' := by
  induction m generalizing st' with
  | zero =>
    have : st' = st := by
      funext i
      have := h i
      simp only [List.range_zero, List.map_nil] at this
      exact this.nil_inv
    subst this
    exact .nil (S := zip Ss names sh fl) st'
  | succ m ih =>
    have h1 : ∀ i, ∃ s, (Ss i).Emits (st i) ((List.range m).map (f i)) s ∧
        (Ss i).next s = some (.yield (f i m), st' i) := by
      intro i
      have := h i
      rw [List.range_succ, List.map_append] at this
      exact this.snoc_inv
    obtain ⟨st₁, h2⟩ := Classical.axiomOfChoice h1
    rw [List.range_succ, List.map_append]
    exact (ih (fun i => (h2 i).1) (fun k hk => hc k (by omega))).snoc
      (zip_next_yield (f := fun i => f i m) (fun i => (h2 i).2) hp (hc m (by omega)))

/-- What is known of one zipped pipeline: it goes on for ever, or it has so many
examples. -/
def Source.Offers (S : Source) (s : S.σ) (f : Nat → Data) : Option Nat → Prop
  | none => S.Streams s f
  | some l => S.Yields s ((List.range l).map f)

theorem Source.Streams.tail {S : Source} {s : S.σ} {f : Nat → Data} (h : S.Streams s f) :
    ∃ s', S.next s = some (.yield (f 0), s') ∧ S.Streams s' (fun k => f (k + 1)) := by
  obtain ⟨s₁, h1⟩ := h 1
  obtain ⟨s', h2, -⟩ := Emits.cons_inv (x := f 0) (xs := []) (by simpa using h1)
  refine ⟨s', h2, fun m => ?_⟩
  obtain ⟨s₂, h3⟩ := h (m + 1)
  rw [List.range_succ_eq_map, List.map_cons, List.map_map] at h3
  obtain ⟨t, h4, h5⟩ := h3.cons_inv
  rw [h2] at h4
  cases h4
  exact ⟨s₂, h5⟩

theorem Source.Streams.drop {S : Source} {s s' : S.σ} {f : Nat → Data} (h : S.Streams s f) {m : Nat}
    (he : S.Emits s ((List.range m).map f) s') : S.Streams s' (fun k => f (m + k)) := by
  intro k
  obtain ⟨s₂, h1⟩ := h (m + k)
  rw [List.range_add, List.map_append] at h1
  obtain ⟨t, h2, h3⟩ := h1.split
  obtain rfl := he.det h2
  rw [List.map_map] at h3
  exact ⟨s₂, h3⟩

/-- A pipeline that has ended or can be read on. -/
def Source.Quiet (S : Source) (s : S.σ) : Prop := S.Ended s ∨ ∃ f l, S.Offers s f l

theorem Source.Offers.emits {S : Source} {s : S.σ} {f : Nat → Data} {l : Option Nat}
    (h : S.Offers s f l) {m : Nat} (hm : ∀ k, l = some k → m ≤ k) :
    ∃ s', S.Emits s ((List.range m).map f) s' ∧
      S.Offers s' (fun k => f (m + k)) (l.map (· - m)) := by
  cases l with
  | none =>
    obtain ⟨s', h1⟩ := h m
    exact ⟨s', h1, h.drop h1⟩
  | some k =>
    have hk := hm k rfl
    have h' : S.Yields s ((List.range (m + (k - m))).map f) := by
      rw [Nat.add_sub_cancel' hk]; exact h
    rw [List.range_add, List.map_append] at h'
    obtain ⟨s', h1, h2⟩ := h'.split
    rw [List.map_map] at h2
    exact ⟨s', h1, h2⟩

theorem Source.Offers.step {S : Source} {s : S.σ} {f : Nat → Data} {l : Option Nat}
    (h : S.Offers s f l) :
    ∃ r s', S.next s = some (r, s') ∧ (∃ f l, S.Offers s' f l) ∧
      (l = some 0 → r = .eod ∧ S.Ended s') ∧ (l ≠ some 0 → r = .yield (f 0)) := by
  match l, h with
  | none, h =>
    obtain ⟨s', h1, h2⟩ := Streams.tail h
    exact ⟨_, s', h1, ⟨_, none, h2⟩, by simp, fun _ => rfl⟩
  | some 0, h =>
    obtain ⟨s', h1, h2⟩ := (Yields.nil_inv (S := S) (s := s) h).next
    exact ⟨_, s', h1, ⟨f, some 0, ⟨s', .nil _, h2⟩⟩, fun _ => ⟨rfl, h2⟩, by simp⟩
  | some (l + 1), h =>
    simp only [Offers, List.range_succ_eq_map, List.map_cons, List.map_map] at h
    obtain ⟨s', h1, h2⟩ := h.cons_inv
    exact ⟨_, s', h1, ⟨fun k => f (k + 1), some l, h2⟩, by simp, fun _ => rfl⟩

theorem zip_ended {st : States Ss} (h : ∀ i, ∃ f l, (Ss i).Offers (st i) f l)
    (he : ∃ i, (Ss i).Ended (st i))
    (ha : sh = true ∨ ∀ i, (Ss i).finitude ≠ .pseudoInfinite → (Ss i).Ended (st i)) :
    (zip Ss names sh fl).Ended st := by
  refine .coind (fun st : States Ss => (∀ i, ∃ f l, (Ss i).Offers (st i) f l) ∧
    (∃ i, (Ss i).Ended (st i)) ∧
    (sh = true ∨ ∀ i, (Ss i).finitude ≠ .pseudoInfinite → (Ss i).Ended (st i))) ⟨h, he, ha⟩ ?_
  rintro st ⟨h, ⟨i, hi⟩, ha⟩
  have h1 : ∀ i, ∃ x : Res × (Ss i).σ, (Ss i).next (st i) = some x ∧ (∃ f l, (Ss i).Offers x.2 f l) ∧
      (∀ e, x.1 ≠ .err e) ∧ ((Ss i).Ended (st i) → x.1 = .eod ∧ (Ss i).Ended x.2) := by
    intro i
    obtain ⟨f, l, h⟩ := h i
    obtain ⟨r, s', h1, h2, h3, h4⟩ := h.step
    refine ⟨(r, s'), h1, h2, ?_, ?_⟩
    · by_cases hl : l = some 0
      · simp [h3 hl]
      · simp [h4 hl]
    · intro he
      obtain ⟨t, h5, h6⟩ := he.next
      rw [h1] at h5
      cases h5
      exact ⟨rfl, h6⟩
  obtain ⟨g, h2⟩ := Classical.axiomOfChoice h1
  refine ⟨fun i => (g i).2, ?_, fun i => (h2 i).2.1, ⟨i, ((h2 i).2.2.2 hi).2⟩, ?_⟩
  · refine zip_next_eod (r := fun i => (g i).1) (fun i => (h2 i).1) (fun i => (h2 i).2.2.1)
      ⟨i, ((h2 i).2.2.2 hi).1⟩ ?_
    exact ha.imp id (fun ha i hp => ((h2 i).2.2.2 (ha i hp)).1)
  · exact ha.imp id (fun ha i hp => ((h2 i).2.2.2 (ha i hp)).2)

theorem zip_yields {st : States Ss} {f : Fin n → Nat → Data} {len : Fin n → Option Nat}
    {c : Nat → Data} {m : Nat}
    (h : ∀ i, (Ss i).Offers (st i) (f i) (len i))
    (hp : ∀ i, (Ss i).finitude = .pseudoInfinite → len i = none)
    (hm : ∃ i, len i = some m) (hle : ∀ i k, len i = some k → m ≤ k)
    (hsh : sh = true ∨ ∀ i, (Ss i).finitude ≠ .pseudoInfinite → len i = some m)
    (hc : ∀ k, k < m → zipCombine names fl ((List.finRange n).map fun i => f i k) = .ok (c k)) :
    (zip Ss names sh fl).Yields st ((List.range m).map c) := by
  have h1 : ∀ i, ∃ s', (Ss i).Emits (st i) ((List.range m).map (f i)) s' ∧
      (Ss i).Offers s' (fun k => f i (m + k)) ((len i).map (· - m)) :=
    fun i => (h i).emits (hle i)
  obtain ⟨st', h2⟩ := Classical.axiomOfChoice h1
  obtain ⟨i, hi⟩ := hm
  have hend : ∀ i, len i = some m → (Ss i).Ended (st' i) := by
    intro i hi
    have := (h2 i).2
    rw [hi] at this
    simp [Offers] at this
    exact this.nil_inv
  refine ⟨st', zip_emits (fun i => (h2 i).1) ⟨i, ?_⟩ hc, ?_⟩
  · intro h
    rw [hp i h] at hi
    cases hi
  · exact zip_ended (fun i => ⟨_, _, (h2 i).2⟩) ⟨i, hend i hi⟩
      (hsh.imp id fun h j hj => hend j (h j hj))

/-- Without `zip_to_shortest` pipelines of different lengths are an error, right
after as many examples as the shortest one has. -/
theorem zip_length_error {st : States Ss} {f : Fin n → Nat → Data} {len : Fin n → Option Nat}
    {c : Nat → Data} {m : Nat}
    (h : ∀ i, (Ss i).Offers (st i) (f i) (len i))
    (hm : ∃ i, len i = some m) (hle : ∀ i k, len i = some k → m ≤ k)
    (hne : ∃ j, (Ss j).finitude ≠ .pseudoInfinite ∧ len j ≠ some m)
    (hc : ∀ k, k < m → zipCombine names fl ((List.finRange n).map fun i => f i k) = .ok (c k)) :
    ∃ st₁ st₂, (zip Ss names false fl).Emits st ((List.range m).map c) st₁ ∧
      (zip Ss names false fl).next st₁ = some (.err zipLengthErr, st₂) := by
  have h1 : ∀ i, ∃ s', (Ss i).Emits (st i) ((List.range m).map (f i)) s' ∧
      (Ss i).Offers s' (fun k => f i (m + k)) ((len i).map (· - m)) :=
    fun i => (h i).emits (hle i)
  obtain ⟨st', h2⟩ := Classical.axiomOfChoice h1
  obtain ⟨i, hi⟩ := hm
  obtain ⟨j, hj, hlj⟩ := hne
  have h3 : ∀ i, ∃ x : Res × (Ss i).σ, (Ss i).next (st' i) = some x ∧
      (len i = some m → x.1 = .eod) ∧ (len i ≠ some m → x.1 = .yield (f i m)) := by
    intro i
    obtain ⟨r, s', h4, -, h5, h6⟩ := (h2 i).2.step
    refine ⟨(r, s'), h4, fun hl => (h5 (by simp [hl])).1, fun hl => ?_⟩
    have : (len i).map (· - m) ≠ some 0 := by
      cases hli : len i with
      | none => simp
      | some k =>
        have := hle i k hli
        simp only [Option.map_some, ne_eq, Option.some.injEq]
        rw [hli] at hl
        simp only [ne_eq, Option.some.injEq] at hl
        omega
    simpa using h6 this
  obtain ⟨g, h4⟩ := Classical.axiomOfChoice h3
  refine ⟨st', fun i => (g i).2, zip_emits (fun i => (h2 i).1) ⟨j, hj⟩ hc, ?_⟩
  have := zip_next_uneven (names := names) (fl := fl) (sh := false) (r := fun i => (g i).1)
    (fun i => (h4 i).1) ?_ ((h4 i).2.1 hi) ((h4 j).2.2 hlj) hj
  · exact this
  · intro k e
    by_cases hl : len k = some m
    · simp [(h4 k).2.1 hl]
    · simp [(h4 k).2.2 hl]

end Fs2
