import Verif.Pipeline.SampleWeights
import Verif.Pipeline.RoundRobinStreams
import Mathlib.Algebra.Order.BigOperators.Group.Finset
import Mathlib.Data.Fintype.BigOperators

/-!
# What `sample` produces
-/

namespace Fs2
open Source

/-- The examples picked from pipeline `i`, in order. -/
def picked {n : Nat} (i : Fin n) (ps : List (Fin n × Data)) : List Data :=
  ps.filterMap fun p => if p.1 = i then some p.2 else none

theorem picked_cons {n : Nat} (i : Fin n) (p : Fin n × Data) (ps : List (Fin n × Data)) :
    picked i (p :: ps) = if p.1 = i then p.2 :: picked i ps else picked i ps := by
  simp only [picked, List.filterMap_cons]
  split <;> simp_all

/-- One more call for pipeline `k`. -/
def again {n : Nat} (c : Fin n → Nat) (k : Fin n) : Fin n → Nat :=
  fun j => if j = k then c j + 1 else c j

section
variable {R : Rng} {n : Nat} {Ss : Fin n → Source} {ws : List Rat} {seed : Nat} {rp : Bool}
  {f : Fin n → Nat → Option Data} {d : Fin n → Nat → Bool}
  {P : (i : Fin n) → Nat → (Ss i).σ → Prop} {K : List Bool → List Rat → Prop}

/-- The state between two calls: pipeline `i` has been asked `c i + 1` times. -/
structure SmpAt (f : Fin n → Nat → Option Data) (d : Fin n → Nat → Bool)
    (P : (i : Fin n) → Nat → (Ss i).σ → Prop) (K : List Bool → List Rat → Prop)
    (c : Fin n → Nat) (s : SampleSt R Ss) : Prop where
  buf : s.buf = (List.finRange n).map fun i => f i (c i)
  done : s.done = (List.finRange n).map fun i => doneBy (d i) (c i + 1)
  st : ∀ i, P i (c i + 1) (s.st i)
  cums : K s.done s.cums

theorem sampleFetch_at (hF : ∀ i, Feeds (Ss i) rp (f i) (d i) (P i)) {i : Fin n} {k : Nat}
    {s : SampleSt R Ss} (hs : P i k (s.st i)) (hne : rp = true → f i k ≠ none) :
    ∃ s', P i (k + 1) s' ∧ sampleFetch R Ss rp i s = some (.ok (f i k),
      { s with
        done := markDone s.done i (d i k)
        cums := if f i k = none then blockCums s.cums i else s.cums
        st := upd s.st i s' }) := by
  obtain ⟨s', h, h'⟩ := (hF i).fetch hs
  refine ⟨s', h', ?_⟩
  generalize hfk : f i k = m at h hne
  generalize d i k = b at h
  simp only [fetch1] at h
  simp only [sampleFetch]
  split at h
  · cases h
  · cases h
  · next hi => cases h; rw [hi]; simp
  · next hi =>
    rw [hi]
    simp only
    split at h
    · next hr =>
      rw [if_pos hr]
      split at h
      · cases h
      · cases h
      · next h2 => cases h; simp [h2, markDone]
      · next h2 => cases h; exact absurd rfl (hne hr)
    · next hr => rw [if_neg hr]; cases h; simp [markDone]

/-- How the weights follow the fetches. -/
def Keeps (rp : Bool) (f : Fin n → Nat → Option Data) (d : Fin n → Nat → Bool)
    (K : List Bool → List Rat → Prop) : Prop :=
  ∀ (i : Fin n) k done cs, done.length = n → (rp = true ∨ done[i.1]? = some false) → K done cs →
    K (markDone done i (d i k)) (if f i k = none then blockCums cs i else cs)

theorem sampleGather_at (hF : ∀ i, Feeds (Ss i) rp (f i) (d i) (P i))
    (hne : ∀ i, rp = true → f i 0 ≠ none) (hK : Keeps rp f d K) (pre post : List (Fin n))
    (hpp : pre ++ post = List.finRange n) (s : SampleSt R Ss)
    (hb : s.buf = pre.map fun i => f i 0)
    (hd : s.done = (List.finRange n).map fun i => if i ∈ pre then doneBy (d i) 1 else false)
    (hs : ∀ i, P i (if i ∈ pre then 1 else 0) (s.st i)) (hk : K s.done s.cums) :
    ∃ s', sampleGather R Ss rp post s = some (none, s') ∧ SmpAt f d P K (fun _ => 0) s' := by
  induction post generalizing pre s with
  | nil =>
    rw [List.append_nil] at hpp
    refine ⟨s, rfl, ?_, ?_, ?_, hk⟩
    · rw [hb, hpp]
    · rw [hd, hpp]; simp
    · intro i
      have := hs i
      rwa [if_pos (by rw [hpp]; exact List.mem_finRange i)] at this
  | cons i post ih =>
    have hni : i ∉ pre := by
      have := List.nodup_finRange n
      rw [← hpp, List.nodup_append] at this
      intro h
      exact this.2.2 i h i (by simp) rfl
    have hsi := hs i
    rw [if_neg hni] at hsi
    obtain ⟨t, h1, h2⟩ := sampleFetch_at hF hsi (hne i)
    simp only [sampleGather, h2]
    refine ih (pre ++ [i]) (by simpa using hpp) _ (by simp [hb]) ?_ ?_ ?_
    · simp only [hd]
      rw [markDone_map]
      apply List.map_congr_left
      intro j _
      by_cases hji : j = i
      · subst hji; simp [hni, doneBy]
      · simp [hji]
    · intro j
      by_cases hji : j = i
      · subst hji; simpa using h1
      · simp only
        rw [upd_ne _ _ hji]
        have := hs j
        simpa [hji] using this
    · refine hK i 0 _ _ (by simp [hd]) (.inr ?_) hk
      rw [hd]
      simp [hni]

/-- The draws hit a pipeline. -/
def Hits (R : Rng) (n : Nat) (rp : Bool) (K : List Bool → List Rat → Prop) : Prop :=
  ∀ done cs g, done.length = n → K done cs → (rp = true ∨ ∃ k : Nat, done[k]? = some false) →
    ∃ k, (sampleIndex R rp cs done g).1 = some k ∧ k < n

/-- One draw. -/
theorem sampleDraw_at (hF : ∀ i, Feeds (Ss i) rp (f i) (d i) (P i))
    (hne : ∀ i k, rp = true ∨ doneBy (d i) (k + 1) = false → f i k ≠ none)
    (hK : Keeps rp f d K) (hH : Hits R n rp K) {c : Fin n → Nat} {s : SampleSt R Ss}
    (h : SmpAt f d P K c s) (hd : rp = true ∨ ∃ i, doneBy (d i) (c i + 1) = false) :
    ∃ i x s', sampleDraw R Ss rp s = some (.yield x, s') ∧ f i (c i) = some x ∧
      (rp = true ∨ doneBy (d i) (c i + 1) = false) ∧ SmpAt f d P K (again c i) s' := by
  have hlen : s.done.length = n := by simp [h.done]
  obtain ⟨k, hk, hkn⟩ := hH s.done s.cums s.gen hlen h.cums (hd.imp_right fun ⟨i, hi⟩ =>
    ⟨i.1, by simp [h.done, hi]⟩)
  have hdk := sampleIndex_spec hk
  have hdk' : rp = true ∨ doneBy (d ⟨k, hkn⟩) (c ⟨k, hkn⟩ + 1) = false := by
    rcases hdk with h' | h'
    · exact .inl h'
    · right; simpa [h.done, hkn] using h'
  obtain ⟨x, hx⟩ := Option.ne_none_iff_exists'.mp (hne ⟨k, hkn⟩ (c ⟨k, hkn⟩) hdk')
  simp only [sampleDraw]
  generalize hg : (sampleIndex R rp s.cums s.done s.gen) = q at hk
  obtain ⟨o, g⟩ := q
  simp only at hk
  subst hk
  have hkb : k < n ∧ k < s.buf.length := ⟨hkn, by simpa [h.buf] using hkn⟩
  simp only [dif_pos hkb]
  obtain ⟨t, h1, h2⟩ := sampleFetch_at (s := { s with gen := g }) hF (h.st ⟨k, hkn⟩)
    (fun hr => hne _ _ (.inl hr))
  rw [h2]
  have hg : s.buf.getD k none = some x := by
    simp [h.buf, List.getD_eq_getElem?_getD, hkn, hx]
  simp only [hg]
  refine ⟨⟨k, hkn⟩, x, _, rfl, hx, hdk', ?_⟩
  · constructor
    · simp only [h.buf]
      have := set_map (fun i => f i (c i)) ⟨k, hkn⟩ (f ⟨k, hkn⟩ (c ⟨k, hkn⟩ + 1))
      simp only at this
      rw [this]
      apply List.map_congr_left
      intro j _
      by_cases hj : j = ⟨k, hkn⟩
      · subst hj; simp [again]
      · simp [again, hj]
    · simp only [h.done]
      rw [markDone_map _ ⟨k, hkn⟩]
      apply List.map_congr_left
      intro j _
      by_cases hj : j = ⟨k, hkn⟩
      · subst hj; simp [again, doneBy_succ]
      · simp [again, hj]
    · intro j
      by_cases hj : j = ⟨k, hkn⟩
      · subst hj; simpa [again] using h1
      · simp only [again, if_neg hj]
        rw [upd_ne _ _ hj]
        exact h.st j
    · exact hK ⟨k, hkn⟩ _ _ _ hlen hdk h.cums

theorem sample_next_draw (hn : 0 < n) {c : Fin n → Nat} {s : SampleSt R Ss}
    (h : SmpAt f d P K c s) (hd : ∃ i, doneBy (d i) (c i + 1) = false) :
    (sample R Ss ws seed rp).next s = sampleDraw R Ss rp s := by
  rw [sample_next, sampleNext, if_neg, if_neg]
  · rw [h.buf]
    intro e
    have := congrArg List.length e
    simp at this
    omega
  · rintro (h0 | h0)
    · omega
    · obtain ⟨i, hi⟩ := hd
      rw [h.done] at h0
      simp at h0
      rw [h0 i] at hi
      cases hi

theorem sampleNext_empty {s s' : SampleSt R Ss} (hb : s.buf = [])
    (hd : ¬ (n = 0 ∨ s.done.all id = true))
    (h : sampleGather R Ss rp (List.finRange n) s = some (none, s')) :
    sampleNext R Ss rp s = sampleDraw R Ss rp s' := by
  unfold sampleNext
  rw [if_neg hd, if_pos hb, h]

theorem sample_first (hn : 0 < n) (hF : ∀ i, Feeds (Ss i) rp (f i) (d i) (P i))
    (hne : ∀ i, rp = true → f i 0 ≠ none) (hK : Keeps rp f d K)
    (h0 : ∀ i, P i 0 (Ss i).init) (hk : K (List.replicate n false) (initCums ws)) :
    ∃ s, (sample R Ss ws seed rp).next (sample R Ss ws seed rp).init = sampleDraw R Ss rp s ∧
      SmpAt f d P K (fun _ => 0) s := by
  obtain ⟨s', h1, h2⟩ := sampleGather_at (R := R) hF hne hK [] (List.finRange n) rfl
    (sample R Ss ws seed rp).init rfl (by simp [sample]) (by intro j; exact h0 j) hk
  refine ⟨s', ?_, h2⟩
  refine sampleNext_empty rfl ?_ h1
  rintro (h | h)
  · omega
  · simp [sample] at h
    omega

/-! ## Without repeats -/

theorem keeps_once (hb : Balanced ws) (hw : ws.length = n) (xs : Fin n → List Data) :
    Keeps false (fun i k => (xs i)[k]?) (fun i k => decide ((xs i).length ≤ k)) (CumsOk ws) := by
  intro i k done cs hl hd hk
  by_cases h : (xs i).length ≤ k
  · simp only [h, decide_true, markDone, if_true, List.getElem?_eq_none h]
    exact cumsOk_block hb (by omega) hk (hd.resolve_left (by simp))
  · simp only [h, decide_false, markDone, Bool.false_eq_true, if_false]
    rw [if_neg]
    · exact hk
    · rw [List.getElem?_eq_none_iff]; omega

theorem hits_once (hw : ws.length = n) : Hits R n false (CumsOk ws) := by
  intro done cs g hl hk hd
  obtain ⟨k, h⟩ := sampleIndex_some (R := R) (by omega) hk (hd.resolve_left (by simp)) g
  refine ⟨k, h, ?_⟩
  have := (sampleIndex_spec h).resolve_left (by simp)
  have := (List.getElem?_eq_some_iff.mp this).1
  omega

theorem sample_once_from (hn : 0 < n) (hb : Balanced ws) (hw : ws.length = n)
    {xs : Fin n → List Data}
    (hF : ∀ i, Feeds (Ss i) false (fun k => (xs i)[k]?) (fun k => decide ((xs i).length ≤ k)) (P i))
    {c : Fin n → Nat} {s : SampleSt R Ss}
    (h : SmpAt (fun i k => (xs i)[k]?) (fun i k => decide ((xs i).length ≤ k)) P (CumsOk ws) c s) :
    ∃ ps : List (Fin n × Data), (sample R Ss ws seed false).Yields s (ps.map (·.2)) ∧
      ∀ i, picked i ps = (xs i).drop (c i) := by
  induction hm : ∑ i, ((xs i).length - c i) using Nat.strongRecOn generalizing c s with
  | _ m ih =>
    subst hm
    by_cases hd : ∃ i, doneBy (fun k => decide ((xs i).length ≤ k)) (c i + 1) = false
    · obtain ⟨i, x, s', h1, h2, h3, h4⟩ := sampleDraw_at hF (by
        intro i k h
        have := h.resolve_left (by simp)
        rw [doneBy_yields] at this
        simp at this
        simpa using this) (keeps_once hb hw xs) (hits_once hw) h (.inr hd)
      have hlt : c i < (xs i).length := by
        have := h3.resolve_left (by simp)
        rw [doneBy_yields] at this
        simpa using this
      obtain ⟨ps, h5, h6⟩ := ih (∑ j, ((xs j).length - again c i j)) (by
        apply Finset.sum_lt_sum
        · intro j _
          simp only [again]
          split <;> omega
        · refine ⟨i, Finset.mem_univ _, ?_⟩
          simp only [again, if_true]
          omega) h4 rfl
      refine ⟨(i, x) :: ps, .cons ((sample_next_draw hn h hd).trans h1) h5, ?_⟩
      intro j
      rw [picked_cons, h6 j]
      simp only [again]
      by_cases hj : j = i
      · subst hj
        simp only [if_true]
        rw [List.drop_eq_getElem_cons hlt]
        rw [List.getElem?_eq_getElem hlt] at h2
        simp at h2
        rw [h2]
      · rw [if_neg (fun e => hj e.symm), if_neg hj]
    · refine ⟨[], ⟨s, .nil _, sample_done (.inr ?_)⟩, ?_⟩
      · rw [h.done]
        simp only [List.all_map, List.all_eq_true, List.mem_finRange, true_imp_iff]
        intro i
        have := not_exists.mp hd i
        simpa using this
      · intro i
        have := not_exists.mp hd i
        rw [doneBy_yields] at this
        simp at this
        rw [List.drop_eq_nil_of_le (by omega)]
        rfl

/-- Without repeats, balanced weights and at least one example: every example of
every pipeline exactly once. -/
theorem sample_once (hb : Balanced ws) (hw : ws.length = n) {xs : Fin n → List Data}
    (hfin : ∀ i, (Ss i).finitude ≠ .pseudoInfinite) (h : ∀ i, (Ss i).Yields (Ss i).init (xs i))
    (hne : ∃ i, xs i ≠ []) :
    ∃ ps : List (Fin n × Data), (sample R Ss ws seed false).Yields
        (sample R Ss ws seed false).init (ps.map (·.2)) ∧ ∀ i, picked i ps = xs i := by
  obtain ⟨i0, hi0⟩ := hne
  have hn : 0 < n := Nat.lt_of_le_of_lt (Nat.zero_le _) i0.2
  have := fun i => feeds_yields (hfin i) (h i)
  choose P hP hF using this
  obtain ⟨s, h1, h2⟩ := sample_first (R := R) (ws := ws) (seed := seed) hn hF (by simp)
    (keeps_once hb hw xs) hP (by rw [← hw]; exact cumsOk_init hb)
  obtain ⟨ps, h3, h4⟩ := sample_once_from (seed := seed) hn hb hw hF h2
  refine ⟨ps, .of_next_eq (h1.trans (sample_next_draw hn h2 ⟨i0, ?_⟩).symm) h3, by simpa using h4⟩
  rw [doneBy_yields]
  simpa using hi0

/-! ## With repeats -/

theorem keeps_repeats (hne : ∀ i k, f i k ≠ none) :
    Keeps true f d (fun _ cs => cs.length = n) := by
  intro i k done cs _ _ hk
  rw [if_neg (hne i k)]
  exact hk

theorem hits_repeats (hn : 0 < n) : Hits R n true (fun _ cs => cs.length = n) := by
  intro done cs g _ hk _
  simp only [sampleIndex, if_true]
  refine ⟨_, rfl, ?_⟩
  have := (searchCums_spec cs (uniform (R.draw32 g).1) 0 (cs.length - 1) (Nat.zero_le _) (.inl rfl)).1
  exact Nat.lt_of_le_of_lt this (by omega)

theorem initCums_length (ws : List Rat) : (initCums ws).length = ws.length := by
  simp only [initCums, normalise]
  split <;> simp [cumsumFrom_length]

/-- The picks from each pipeline are the next ones of its stream. -/
def FromStreams (f : Fin n → Nat → Option Data) (c : Fin n → Nat) (ps : List (Fin n × Data)) : Prop :=
  ∀ i, (picked i ps).map some = (List.range (picked i ps).length).map fun k => f i (c i + k)

theorem FromStreams.cons {c : Fin n → Nat} {ps : List (Fin n × Data)} {i : Fin n} {x : Data}
    (hx : f i (c i) = some x) (h : FromStreams f (again c i) ps) : FromStreams f c ((i, x) :: ps) := by
  intro j
  have := h j
  rw [picked_cons]
  simp only [again] at this
  by_cases hj : j = i
  · subst hj
    simp only [if_true] at this ⊢
    rw [List.map_cons, this, List.length_cons, List.range_succ_eq_map, List.map_cons, List.map_map]
    simp [hx, Function.comp_def, Nat.add_assoc, Nat.add_comm 1]
  · rw [if_neg (fun e => hj e.symm)]
    rw [if_neg hj] at this
    exact this

theorem picked_again {c : Fin n → Nat} {i j : Fin n} {x : Data} {p : List (Fin n × Data)} :
    c j + (picked j ((i, x) :: p)).length = again c i j + (picked j p).length := by
  rw [picked_cons]
  simp only [again]
  by_cases hj : j = i
  · subst hj
    simp only [if_true, List.length_cons]
    omega
  · rw [if_neg (fun e => hj e.symm), if_neg hj]

theorem sample_repeats_from (hn : 0 < n) (hF : ∀ i, Feeds (Ss i) true (f i) (d i) (P i))
    (hne : ∀ i k, f i k ≠ none) {c : Fin n → Nat} {s : SampleSt R Ss}
    (h : SmpAt f d P (fun _ cs => cs.length = n) c s) (m : Nat) :
    ∃ ps : List (Fin n × Data), FromStreams f c ps ∧
      (∀ p q, ps = p ++ q → q ≠ [] → ∃ i, doneBy (d i) (c i + (picked i p).length + 1) = false) ∧
      ((ps.length = m ∧ ∃ s', (sample R Ss ws seed true).Emits s (ps.map (·.2)) s') ∨
       (ps.length ≤ m ∧ (sample R Ss ws seed true).Yields s (ps.map (·.2)) ∧
        ∀ i, doneBy (d i) (c i + (picked i ps).length + 1) = true)) := by
  induction m generalizing c s with
  | zero => exact ⟨[], fun i => rfl, by simp, .inl ⟨rfl, s, .nil _⟩⟩
  | succ m ih =>
    by_cases hd : ∃ i, doneBy (d i) (c i + 1) = false
    · obtain ⟨i, x, s', h1, h2, -, h4⟩ := sampleDraw_at hF (fun i k _ => hne i k)
        (keeps_repeats hne) (hits_repeats hn) h (.inl rfl)
      have hstep := (sample_next_draw (ws := ws) (seed := seed) hn h hd).trans h1
      obtain ⟨ps, h5, hp, h6⟩ := ih h4
      refine ⟨(i, x) :: ps, h5.cons h2, ?_, ?_⟩
      · intro p q hpq hq
        cases p with
        | nil => simpa [picked] using hd
        | cons y p =>
          simp only [List.cons_append, List.cons.injEq] at hpq
          obtain ⟨j, hj⟩ := hp p q hpq.2 hq
          refine ⟨j, ?_⟩
          rw [← hpq.1, picked_again]
          exact hj
      rcases h6 with ⟨a1, s'', a2⟩ | ⟨a1, a2, a3⟩
      · exact .inl ⟨by simp [a1], s'', .cons hstep a2⟩
      · refine .inr ⟨by simpa using a1, .cons hstep a2, fun j => ?_⟩
        have := a3 j
        rw [picked_cons]
        simp only [again] at this
        by_cases hj : j = i
        · subst hj
          simp only [if_true, List.length_cons] at this ⊢
          rwa [show c j + 1 + (picked j ps).length + 1 = c j + ((picked j ps).length + 1) + 1 by omega]
            at this
        · rw [if_neg (fun e => hj e.symm)]
          rw [if_neg hj] at this
          exact this
    · refine ⟨[], fun i => rfl, by simp, .inr ⟨by simp, ⟨s, .nil _, sample_done (.inr ?_)⟩, ?_⟩⟩
      · rw [h.done]
        simp only [List.all_map, List.all_eq_true, List.mem_finRange, true_imp_iff]
        intro i
        have := not_exists.mp hd i
        simpa using this
      · intro i
        have := not_exists.mp hd i
        simpa [picked] using this

theorem sample_repeats (hn : 0 < n) (hw : ws.length = n)
    (hF : ∀ i, Feeds (Ss i) true (f i) (d i) (P i)) (h0 : ∀ i, P i 0 (Ss i).init)
    (hne : ∀ i k, f i k ≠ none) (m : Nat) :
    ∃ ps : List (Fin n × Data), FromStreams f (fun _ => 0) ps ∧
      (∀ p q, ps = p ++ q → p ≠ [] → q ≠ [] → ∃ i, doneBy (d i) ((picked i p).length + 1) = false) ∧
      ((ps.length = m + 1 ∧ ∃ s', (sample R Ss ws seed true).Emits
          (sample R Ss ws seed true).init (ps.map (·.2)) s') ∨
       (ps.length ≤ m + 1 ∧ (sample R Ss ws seed true).Yields
          (sample R Ss ws seed true).init (ps.map (·.2)) ∧
        ∀ i, doneBy (d i) ((picked i ps).length + 1) = true)) := by
  obtain ⟨s, h1, h2⟩ := sample_first (R := R) (ws := ws) (seed := seed) hn hF (fun i _ => hne i 0)
    (keeps_repeats hne) h0 (by simpa [initCums_length] using hw)
  obtain ⟨i, x, s', h3, h4, -, h5⟩ := sampleDraw_at hF (fun i k _ => hne i k)
    (keeps_repeats hne) (hits_repeats hn) h2 (.inl rfl)
  obtain ⟨ps, h6, hp, h7⟩ := sample_repeats_from (ws := ws) (seed := seed) hn hF hne h5 m
  have hstep := h1.trans h3
  refine ⟨(i, x) :: ps, h6.cons h4, ?_, ?_⟩
  · intro p q hpq hp0 hq
    cases p with
    | nil => exact absurd rfl hp0
    | cons y p =>
      simp only [List.cons_append, List.cons.injEq] at hpq
      obtain ⟨j, hj⟩ := hp p q hpq.2 hq
      refine ⟨j, ?_⟩
      rw [← hpq.1]
      have := picked_again (c := fun _ => 0) (i := i) (j := j) (x := x) (p := p)
      rw [Nat.zero_add] at this
      rw [this]
      exact hj
  rcases h7 with ⟨a1, s'', a2⟩ | ⟨a1, a2, a3⟩
  · exact .inl ⟨by simp [a1], s'', .cons hstep a2⟩
  · refine .inr ⟨by simpa using a1, .cons hstep a2, fun j => ?_⟩
    have := a3 j
    rw [picked_cons]
    simp only [again] at this
    by_cases hj : j = i
    · subst hj
      simp only [if_true, List.length_cons] at this ⊢
      rwa [show 0 + 1 + (picked j ps).length + 1 = (picked j ps).length + 1 + 1 by omega] at this
    · rw [if_neg (fun e => hj e.symm)]
      rw [if_neg hj] at this
      simpa using this

end
end Fs2
