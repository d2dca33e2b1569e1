import Verif.Pipeline.MultiStreams

/-!
# What `round_robin` produces (helper lemmas)
-/

namespace Fs2
open Source

variable {n : Nat} {Ss : Fin n → Source} {rp sh : Bool}

/-- `next_in_pipeline` for a single pipeline. -/
def fetch1 (S : Source) (rp : Bool) (s : S.σ) : Option (Except Err (Option Data) × Bool × S.σ) :=
  match S.next s with
  | none => none
  | some (.err e, s) => some (.error e, false, s)
  | some (.yield x, s) => some (.ok (some x), S.finitude = .pseudoInfinite, s)
  | some (.eod, s) =>
    if rp then
      match S.next (S.reset false s) with
      | none => none
      | some (.err e, s) => some (.error e, true, s)
      | some (.yield x, s) => some (.ok (some x), true, s)
      | some (.eod, s) => some (.ok none, true, s)
    else some (.ok none, true, s)

theorem rrFetch_eq {i : Fin n} {st : States Ss} {m : Option Data} {d : Bool} {s' : (Ss i).σ}
    (h : fetch1 (Ss i) rp (st i) = some (.ok m, d, s')) :
    rrFetch Ss rp i st = some (.ok m, d, upd st i s') := by
  simp only [fetch1] at h
  simp only [rrFetch]
  split at h
  · cases h
  · cases h
  · next hi => cases h; rw [hi]
  · next hi =>
    rw [hi]
    simp only
    split at h
    · next hr =>
      rw [if_pos hr]
      split at h
      · cases h
      · cases h
      · next h2 => cases h; simp only [h2]
      · next h2 => cases h; simp only [h2]
    · next hr => rw [if_neg hr]; cases h; rfl

/-- What the successive calls of `next_in_pipeline` for one pipeline return: `P k s`
says that `s` is a state after `k` calls. -/
structure Feeds (S : Source) (rp : Bool) (f : Nat → Option Data) (d : Nat → Bool)
    (P : Nat → S.σ → Prop) : Prop where
  fetch : ∀ {k s}, P k s → ∃ s', fetch1 S rp s = some (.ok (f k), d k, s') ∧ P (k + 1) s'
  /-- A pipeline without examples need not be asked again. -/
  idle : ∀ {k s}, f k = none → P (k + 1) s →
    P (k + 2) s ∧ f (k + 1) = none ∧ d k = true

/-- Whether one of the first `k` calls marked the pipeline as done. -/
def doneBy (d : Nat → Bool) (k : Nat) : Bool := (List.range k).any d

theorem doneBy_succ (d : Nat → Bool) (k : Nat) : doneBy d (k + 1) = (doneBy d k || d k) := by
  simp [doneBy, List.range_succ]

variable {f : Fin n → Nat → Option Data} {d : Fin n → Nat → Bool}
  {P : (i : Fin n) → Nat → (Ss i).σ → Prop}

/-- The state between two calls: pipeline `i` has been asked `c i + 1` times. -/
structure RrAt (f : Fin n → Nat → Option Data) (d : Fin n → Nat → Bool)
    (P : (i : Fin n) → Nat → (Ss i).σ → Prop) (c : Fin n → Nat) (s : RrSt Ss) : Prop where
  buffer : s.buffer = (List.finRange n).map fun i => f i (c i)
  done : s.done = (List.finRange n).map fun i => doneBy (d i) (c i + 1)
  eod : s.eod = false
  st : ∀ i, P i (c i + 1) (s.st i)

theorem markDone_map (g : Fin n → Bool) (i : Fin n) (b : Bool) :
    markDone ((List.finRange n).map g) i b
      = (List.finRange n).map fun j => if j = i then g i || b else g j := by
  apply List.ext_getElem?
  intro k
  simp only [markDone]
  cases b with
  | false =>
    simp only [Bool.false_eq_true, if_false, Bool.or_false, List.getElem?_map]
    congr 1
    funext j
    split
    · next h => rw [h]
    · rfl
  | true =>
    simp only [if_true, Bool.or_true, List.getElem?_map]
    by_cases hk : k < n
    · rw [List.getElem?_set]
      simp only [List.length_map, List.length_finRange, List.getElem?_map]
      by_cases hik : (i : Nat) = k
      · subst hik
        simp [List.length_finRange]
      · rw [if_neg hik]
        rw [List.getElem?_eq_getElem (by simp [hk])]
        simp only [Option.map_some, List.getElem_finRange]
        rw [if_neg]
        intro h
        exact hik (by rw [← h]; simp)
    · rw [List.getElem?_eq_none (by simp; omega)]
      rw [List.getElem?_eq_none (by simp; omega)]
      rfl

theorem set_map (g : Fin n → Option Data) (i : Fin n) (b : Option Data) :
    ((List.finRange n).map g).set i b
      = (List.finRange n).map fun j => if j = i then b else g j := by
  apply List.ext_getElem?
  intro k
  rw [List.getElem?_set]
  simp only [List.length_map, List.length_finRange, List.getElem?_map]
  by_cases hik : (i : Nat) = k
  · subst hik
    simp [List.length_finRange]
  · rw [if_neg hik]
    by_cases hk : k < n
    · rw [List.getElem?_eq_getElem (by simp [hk])]
      simp only [Option.map_some, List.getElem_finRange]
      rw [if_neg]
      intro h
      exact hik (by rw [← h]; simp)
    · rw [List.getElem?_eq_none (by simp; omega)]
      rfl

/-- The first round of calls. -/
theorem rrGather_at (hF : ∀ i, Feeds (Ss i) rp (f i) (d i) (P i)) (pre post : List (Fin n))
    (hpp : pre ++ post = List.finRange n) (s : RrSt Ss)
    (hb : s.buffer = pre.map fun i => f i 0)
    (hd : s.done = (List.finRange n).map fun i => if i ∈ pre then doneBy (d i) 1 else false)
    (he : s.eod = false) (hp : ∀ i, P i (if i ∈ pre then 1 else 0) (s.st i)) :
    ∃ s', rrGather Ss rp post s = some (none, s') ∧ RrAt f d P (fun _ => 0) s' ∧
      s'.idx = s.idx := by
  induction post generalizing pre s with
  | nil =>
    rw [List.append_nil] at hpp
    subst hpp
    refine ⟨s, rfl, ⟨hb, ?_, he, ?_⟩, rfl⟩
    · rw [hd]
      refine List.map_congr_left fun i _ => ?_
      simp [List.mem_finRange]
    · intro i
      have := hp i
      rwa [if_pos (List.mem_finRange i)] at this
  | cons i post ih =>
    have hnd : (pre ++ i :: post).Nodup := hpp ▸ List.nodup_finRange n
    have hni : i ∉ pre := by
      intro h
      exact (List.nodup_append.mp hnd).2.2 i h i (by simp) rfl
    have h1 := hp i
    rw [if_neg hni] at h1
    obtain ⟨s₁, h2, h3⟩ := (hF i).fetch h1
    have h4 := rrFetch_eq h2
    simp only [rrGather, h4]
    refine ih (pre ++ [i]) (by simpa using hpp) _ (by simp [hb]) ?_ he ?_
    · simp only
      rw [hd, markDone_map]
      refine List.map_congr_left fun j _ => ?_
      by_cases hji : j = i
      · subst hji; simp [hni, doneBy]
      · simp [hji]
    · intro j
      by_cases hji : j = i
      · subst hji; simpa using h3
      · simp only
        rw [upd_ne _ _ hji]
        have := hp j
        simpa [hji] using this

/-- The scan of one call: pipelines `k ..< j` have nothing, pipeline `j` has `x`. -/
theorem rrScan_at (hF : ∀ i, Feeds (Ss i) rp (f i) (d i) (P i)) {r k : Nat} {s : RrSt Ss}
    (h : RrAt f d P (fun i => if i.1 < k then r + 1 else r) s) (hk : s.idx = k)
    {j : Fin n} (hkj : k ≤ j) (hno : ∀ i : Fin n, k ≤ i.1 → i < j → f i r = none) {x : Data}
    (hx : f j r = some x) {fuel : Nat} (hfuel : j.1 - k < fuel) :
    ∃ s', rrScan Ss rp fuel s = some (.yield x, s') ∧
      RrAt f d P (fun i => if i.1 < j.1 + 1 then r + 1 else r) s' ∧ s'.idx = j + 1 := by
  induction fuel generalizing k s with
  | zero => omega
  | succ fuel ih =>
    have hkn : k < n := by omega
    have hbuf : s.buffer[s.idx]? = some (f ⟨k, hkn⟩ r) := by
      rw [h.buffer, hk, List.getElem?_map, List.getElem?_eq_getElem (by simp [hkn])]
      simp
    rcases Nat.lt_or_ge k j with hlt | hge
    · have h0 := hno ⟨k, hkn⟩ (Nat.le_refl _) hlt
      rw [h0] at hbuf
      simp only [rrScan, hbuf]
      have hck : ∀ i : Fin n, (if i.1 < k + 1 then r + 1 else r)
          = if i = ⟨k, hkn⟩ then r + 1 else if i.1 < k then r + 1 else r := by
        intro i
        by_cases hi : i = ⟨k, hkn⟩
        · subst hi; simp
        · rw [if_neg hi]
          have : i.1 ≠ k := fun he => hi (Fin.ext he)
          split <;> split <;> omega
      have hid := fun s hs => (hF ⟨k, hkn⟩).idle (s := s) h0 hs
      have hPk : P ⟨k, hkn⟩ (r + 1) (s.st ⟨k, hkn⟩) := by
        have := h.st ⟨k, hkn⟩
        simpa using this
      obtain ⟨hi1, hi2, hi3⟩ := hid _ hPk
      refine ih (k := k + 1) ⟨?_, ?_, h.eod, ?_⟩ (by simp only; omega) (by omega)
        (fun i hi hij => hno i (by omega) hij) (by omega)
      · simp only
        rw [h.buffer]
        refine List.map_congr_left fun i _ => ?_
        rw [hck i]
        by_cases hi : i = ⟨k, hkn⟩
        · subst hi; simp [h0, hi2]
        · rw [if_neg hi]
      · simp only
        rw [h.done]
        refine List.map_congr_left fun i _ => ?_
        rw [hck i]
        by_cases hi : i = ⟨k, hkn⟩
        · subst hi
          simp [doneBy_succ, hi3]
        · rw [if_neg hi]
      · intro i
        simp only
        rw [hck i]
        by_cases hi : i = ⟨k, hkn⟩
        · subst hi; simpa using hi1
        · rw [if_neg hi]; exact h.st i
    · obtain rfl : k = j := by omega
      have hPk : P j (r + 1) (s.st j) := by
        have := h.st j
        simpa using this
      obtain ⟨s₁, h2, h3⟩ := (hF j).fetch hPk
      have h4 := rrFetch_eq (st := s.st) h2
      have hjj : (⟨s.idx, by omega⟩ : Fin n) = j := Fin.ext hk
      have hck : ∀ i : Fin n, (if i.1 < j.1 + 1 then r + 1 else r)
          = if i = j then r + 1 else if i.1 < j.1 then r + 1 else r := by
        intro i
        by_cases hi : i = j
        · subst hi; simp
        · rw [if_neg hi]
          have : i.1 ≠ j.1 := fun he => hi (Fin.ext he)
          split <;> split <;> omega
      have hbuf' : s.buffer[s.idx]? = some (some x) := by rw [hbuf]; simp [hx]
      simp only [rrScan, hbuf']
      rw [dif_pos (show s.idx < n by omega)]
      simp only [hjj, h4]
      refine ⟨_, rfl, ⟨?_, ?_, h.eod, ?_⟩, by simp [hk]⟩
      · simp only
        rw [h.buffer, hk, set_map]
        refine List.map_congr_left fun i _ => ?_
        rw [hck i]
        by_cases hi : i = j
        · subst hi; simp
        · simp [hi]
      · simp only
        rw [h.done, hk, markDone_map]
        refine List.map_congr_left fun i _ => ?_
        rw [hck i]
        by_cases hi : i = j
        · subst hi; simp [doneBy_succ]
        · simp [hi]
      · intro i
        simp only
        rw [hck i]
        by_cases hi : i = j
        · subst hi; simpa using h3
        · rw [upd_ne _ _ hi, if_neg hi]; exact h.st i

/-- Between two calls, in the middle of round `r`, before pipeline `k < n`. -/
def RrMid (f : Fin n → Nat → Option Data) (d : Fin n → Nat → Bool)
    (P : (i : Fin n) → Nat → (Ss i).σ → Prop) (r k : Nat) (s : RrSt Ss) : Prop :=
  RrAt f d P (fun i => if i.1 < k then r + 1 else r) s ∧ s.idx = k ∧ k < n

theorem RrAt.congr {c c' : Fin n → Nat} {s : RrSt Ss} (h : RrAt f d P c s) (hc : ∀ i, c i = c' i) :
    RrAt f d P c' s := by
  obtain rfl : c = c' := funext hc
  exact h

theorem rrNext_mid (hF : ∀ i, Feeds (Ss i) rp (f i) (d i) (P i)) {r k : Nat} {s : RrSt Ss}
    (h : RrMid f d P r k s)
    (hnd : k = 0 → rrAllDone sh ((List.finRange n).map fun i => doneBy (d i) (r + 1)) = false)
    {j : Fin n} (hkj : k ≤ j) (hno : ∀ i : Fin n, k ≤ i.1 → i < j → f i r = none) {x : Data}
    (hx : f j r = some x) :
    ∃ s', rrNext Ss sh rp s = some (.yield x, s') ∧
      (if j.1 + 1 = n then RrMid f d P (r + 1) 0 s' else RrMid f d P r (j + 1) s') := by
  obtain ⟨h1, h2, h3⟩ := h
  have hlen : s.buffer.length = n := by rw [h1.buffer]; simp
  have hb : s.buffer ≠ [] := by
    intro h0
    rw [h0] at hlen
    simp at hlen
    omega
  have hn0 : ¬ (n = 0 ∨ s.eod = true) := by
    rw [h1.eod]
    simp
    omega
  have hal : ¬ (s.idx = 0 ∧ rrAllDone sh s.done = true) := by
    rintro ⟨h4, h5⟩
    rw [h2] at h4
    have := hnd h4
    rw [h1.done] at h5
    subst h4
    simp [this] at h5
  obtain ⟨s', h4, h5, h6⟩ := rrScan_at hF h1 h2 hkj hno hx
    (fuel := s.buffer.length - s.idx) (by rw [hlen, h2]; omega)
  refine ⟨rrWrap s', ?_, ?_⟩
  · simp only [rrNext]
    rw [if_neg hn0, if_neg hal, if_neg hb]
    simp only [h4]
  · have hlen' : s'.buffer.length = n := by rw [h5.buffer]; simp
    simp only [rrWrap, h6, hlen']
    split
    · next hj =>
      refine ⟨⟨?_, ?_, h5.eod, ?_⟩, rfl, by omega⟩
      · rw [h5.buffer]
        exact List.map_congr_left fun i _ => by rw [if_pos (by omega)]; simp
      · rw [h5.done]
        exact List.map_congr_left fun i _ => by rw [if_pos (by omega)]; simp
      · intro i
        have := h5.st i
        rw [if_pos (by omega)] at this
        simpa using this
    · next hj => exact ⟨h5, h6, by omega⟩

/-- What is left of a round, from pipeline `k` on. -/
def roundFrom (f : Fin n → Nat → Option Data) (r k : Nat) : List Data :=
  ((List.finRange n).drop k).filterMap fun i => f i r

theorem roundFrom_cons {r k : Nat} (hk : k < n) :
    roundFrom f r k = (f ⟨k, hk⟩ r).toList ++ roundFrom f r (k + 1) := by
  simp only [roundFrom]
  rw [List.drop_eq_getElem_cons (by simp [hk])]
  simp only [List.filterMap_cons, List.getElem_finRange]
  simp only [Fin.cast_mk]
  cases f ⟨k, hk⟩ r <;> rfl

theorem roundFrom_none {r k j : Nat} (hkj : k ≤ j) (hj : j ≤ n)
    (h : ∀ i : Fin n, k ≤ i.1 → i.1 < j → f i r = none) : roundFrom f r k = roundFrom f r j := by
  induction hm : j - k generalizing k with
  | zero =>
    obtain rfl : k = j := by omega
    rfl
  | succ m ih =>
    rw [roundFrom_cons (by omega), h ⟨k, by omega⟩ (Nat.le_refl _) (by simp only; omega)]
    simp only [Option.toList_none, List.nil_append]
    exact ih (by omega) (fun i hi => h i (by omega)) (by omega)

/-- The rest of a round is emitted, if the last pipeline has an example. -/
theorem rr_round (hF : ∀ i, Feeds (Ss i) rp (f i) (d i) (P i)) {r k : Nat} {s : RrSt Ss}
    (h : RrMid f d P r k s)
    (hnd : k = 0 → rrAllDone sh ((List.finRange n).map fun i => doneBy (d i) (r + 1)) = false)
    (hlast : ∀ i : Fin n, i.1 + 1 = n → f i r ≠ none) :
    ∃ s', (roundRobin Ss sh rp).Emits s (roundFrom f r k) s' ∧ RrMid f d P (r + 1) 0 s' := by
  induction hm : n - k using Nat.strongRecOn generalizing k s with
  | _ m ih =>
    have hkn := h.2.2
    have hex : ∃ j, k ≤ j ∧ ∃ hj : j < n, f ⟨j, hj⟩ r ≠ none :=
      ⟨n - 1, by omega, by omega, hlast _ (by simp only; omega)⟩
    have hwf : ∃ j, (k ≤ j ∧ ∃ hj : j < n, f ⟨j, hj⟩ r ≠ none) ∧
        ∀ i, i < j → ¬ (k ≤ i ∧ ∃ hi : i < n, f ⟨i, hi⟩ r ≠ none) := by
      obtain ⟨j, hj⟩ := hex
      induction j using Nat.strongRecOn with
      | _ j ih =>
        by_cases hsm : ∃ i, i < j ∧ (k ≤ i ∧ ∃ hi : i < n, f ⟨i, hi⟩ r ≠ none)
        · obtain ⟨i, hi, h⟩ := hsm
          exact ih i hi h
        · exact ⟨j, hj, fun i hi h => hsm ⟨i, hi, h⟩⟩
    obtain ⟨j, ⟨hkj, hjn, hj⟩, hmin⟩ := hwf
    have hno : ∀ i : Fin n, k ≤ i.1 → i.1 < j → f i r = none := by
      intro i hi hij
      have := hmin i hij
      cases hfi : f i r with
      | none => rfl
      | some x => exact absurd ⟨hi, i.2, by simp [hfi]⟩ this
    obtain ⟨x, hx⟩ := Option.ne_none_iff_exists'.mp hj
    obtain ⟨s', h1, h2⟩ := rrNext_mid hF h hnd (j := ⟨j, hjn⟩) hkj (fun i hi hij => hno i hi hij) hx
    rw [roundFrom_none hkj (by omega) hno, roundFrom_cons hjn, hx]
    simp only [Option.toList_some, List.cons_append, List.nil_append]
    split at h2
    · next hl =>
      refine ⟨s', .cons h1 ?_, h2⟩
      have : roundFrom f r (j + 1) = [] := by
        simp only [roundFrom]
        rw [List.drop_eq_nil_of_le (by simp only at hl; simp; omega)]
        rfl
      rw [this]
      exact .nil (S := roundRobin Ss sh rp) s'
    · obtain ⟨s₂, h3, h4⟩ := ih (n - (j + 1)) (by omega) h2 (by omega) rfl
      exact ⟨s₂, .cons h1 h3, h4⟩

theorem rr_ended {s : RrSt Ss} (h : s.idx = 0 ∧ rrAllDone sh s.done = true) :
    (roundRobin Ss sh rp).Ended s := by
  refine .coind (fun s : RrSt Ss => s.idx = 0 ∧ rrAllDone sh s.done = true) h ?_
  intro s h
  obtain ⟨e, h1⟩ := rrNext_eod (rp := rp) h
  exact ⟨_, h1, h⟩

/-- All rounds `r ..< R`. -/
theorem rr_rounds (hF : ∀ i, Feeds (Ss i) rp (f i) (d i) (P i)) {R r : Nat} {s : RrSt Ss}
    (h : RrMid f d P r 0 s) (hr : r ≤ R)
    (hnd : ∀ r', r ≤ r' → r' < R →
      rrAllDone sh ((List.finRange n).map fun i => doneBy (d i) (r' + 1)) = false)
    (hdone : rrAllDone sh ((List.finRange n).map fun i => doneBy (d i) (R + 1)) = true)
    (hlast : ∀ r, r < R → ∀ i : Fin n, i.1 + 1 = n → f i r ≠ none) :
    (roundRobin Ss sh rp).Yields s
      ((List.range' r (R - r)).flatMap fun r => (List.finRange n).filterMap fun i => f i r) := by
  induction hm : R - r generalizing r s with
  | zero =>
    obtain rfl : r = R := by omega
    refine ⟨s, .nil _, rr_ended ⟨h.2.1, ?_⟩⟩
    rw [h.1.done]
    simpa using hdone
  | succ m ih =>
    obtain ⟨s', h1, h2⟩ := rr_round hF h (fun _ => hnd r (by omega) (by omega)) (hlast r (by omega))
    rw [List.range'_succ, List.flatMap_cons]
    refine Emits.yields (S := roundRobin Ss sh rp) h1 ?_
    exact ih h2 (by omega) (fun r' h1 h2 => hnd r' (by omega) h2) (by omega)

/-- The first call gathers, then the rounds run. -/
theorem rr_yields (hn : 0 < n) (hF : ∀ i, Feeds (Ss i) rp (f i) (d i) (P i)) {R : Nat}
    {s : RrSt Ss} (hb : s.buffer = []) (hi : s.idx = 0) (hd : s.done = List.replicate n false)
    (he : s.eod = false) (hp : ∀ i, P i 0 (s.st i)) (hR : 0 < R)
    (hnd : ∀ r, 0 < r → r < R →
      rrAllDone sh ((List.finRange n).map fun i => doneBy (d i) (r + 1)) = false)
    (hdone : rrAllDone sh ((List.finRange n).map fun i => doneBy (d i) (R + 1)) = true)
    (hlast : ∀ r, r < R → ∀ i : Fin n, i.1 + 1 = n → f i r ≠ none) :
    (roundRobin Ss sh rp).Yields s
      ((List.range R).flatMap fun r => (List.finRange n).filterMap fun i => f i r) := by
  -- the first round is special: `are_all_done` is asked before anything is fetched
  have hrep : List.replicate n false = (List.finRange n).map fun _ : Fin n => false := by
    rw [List.map_const', List.length_finRange]
  obtain ⟨s₁, h1, h2, h3⟩ := rrGather_at hF [] (List.finRange n) rfl s (by simpa using hb)
    (by rw [hd, hrep]; simp) he (by simpa using hp)
  rw [hi] at h3
  have hmid : RrMid f d P 0 0 s₁ := ⟨h2.congr (by simp), h3, hn⟩
  have hal : ¬ (s.idx = 0 ∧ rrAllDone sh s.done = true) := by
    rintro ⟨_, h⟩
    rw [hd] at h
    simp only [rrAllDone] at h
    split at h
    · simp at h
    · simp at h; omega
  have hn0 : ¬ (n = 0 ∨ s.eod = true) := by
    rw [he]
    simp
    omega
  have hlen : s₁.buffer.length = n := by rw [h2.buffer]; simp
  have hb1 : s₁.buffer ≠ [] := by
    intro h0
    rw [h0] at hlen
    simp at hlen
    omega
  -- the least pipeline with an example
  have hwf : ∃ j, ∃ hj : j < n, f ⟨j, hj⟩ 0 ≠ none ∧
      ∀ i : Fin n, i.1 < j → f i 0 = none := by
    have hex : ∃ j, ∃ hj : j < n, f ⟨j, hj⟩ 0 ≠ none :=
      ⟨n - 1, by omega, hlast 0 hR _ (by simp only; omega)⟩
    obtain ⟨j, hj⟩ := hex
    induction j using Nat.strongRecOn with
    | _ j ih =>
      by_cases hsm : ∃ i, i < j ∧ ∃ hi : i < n, f ⟨i, hi⟩ 0 ≠ none
      · obtain ⟨i, hi, h⟩ := hsm
        exact ih i hi h
      · refine ⟨j, hj.1, hj.2, fun i hi => ?_⟩
        cases hfi : f i 0 with
        | none => rfl
        | some x => exact absurd ⟨i, hi, i.2, by simp [hfi]⟩ hsm
  obtain ⟨j, hjn, hj, hno⟩ := hwf
  obtain ⟨x, hx⟩ := Option.ne_none_iff_exists'.mp hj
  obtain ⟨s₂, h4, h5, h6⟩ := rrScan_at hF hmid.1 hmid.2.1 (j := ⟨j, hjn⟩) (by simp)
    (fun i _ hij => hno i hij) hx (fuel := s₁.buffer.length - s₁.idx)
    (by rw [hlen, hmid.2.1]; simp only; omega)
  have hnext : rrNext Ss sh rp s = some (.yield x, rrWrap s₂) := by
    simp only [rrNext]
    rw [if_neg hn0, if_neg hal, if_pos hb]
    simp only [h1, h4]
  have hround : roundFrom f 0 0 = x :: roundFrom f 0 (j + 1) := by
    rw [roundFrom_none (Nat.zero_le j) (by omega) (fun i _ hij => hno i hij), roundFrom_cons hjn, hx]
    rfl
  have hrest : ∃ s', (roundRobin Ss sh rp).Emits (rrWrap s₂) (roundFrom f 0 (j + 1)) s' ∧
      RrMid f d P 1 0 s' := by
    have hlen' : s₂.buffer.length = n := by rw [h5.buffer]; simp
    simp only at h6
    by_cases hl : j + 1 = n
    · have hw : rrWrap s₂ = { s₂ with idx := 0 } := by
        simp only [rrWrap, h6, hlen']; rw [if_pos hl]
      rw [hw]
      have : roundFrom f 0 (j + 1) = [] := by
        simp only [roundFrom]
        rw [List.drop_eq_nil_of_le (by simp; omega)]
        rfl
      rw [this]
      refine ⟨_, .nil (S := roundRobin Ss sh rp) _, ⟨?_, ?_, h5.eod, ?_⟩, rfl, hn⟩
      · rw [h5.buffer]
        exact List.map_congr_left fun i _ => by rw [if_pos (by simp only; omega)]; simp
      · rw [h5.done]
        exact List.map_congr_left fun i _ => by rw [if_pos (by simp only; omega)]; simp
      · intro i
        have := h5.st i
        rw [if_pos (by simp only; omega)] at this
        simpa using this
    · have hw : rrWrap s₂ = s₂ := by
        simp only [rrWrap, h6, hlen']; rw [if_neg hl]
      rw [hw]
      exact rr_round hF ⟨h5, h6, by omega⟩ (by omega) (hlast 0 hR)
  obtain ⟨s', h7, h8⟩ := hrest
  obtain ⟨R, rfl⟩ : ∃ R', R = R' + 1 := ⟨R - 1, by omega⟩
  rw [List.range_eq_range', List.range'_succ, List.flatMap_cons]
  have hrounds := rr_rounds hF (sh := sh) (R := R + 1) h8 (by omega)
    (fun r h1 h2 => hnd r (by omega) h2) hdone hlast
  refine Emits.yields (S := roundRobin Ss sh rp) ?_ hrounds
  have : (List.finRange n).filterMap (fun i => f i 0) = roundFrom f 0 0 := rfl
  rw [this, hround]
  exact .cons hnext h7

/-! ## The three kinds of pipelines -/

/-- A pipeline that gives `xs` on every reading, with `allow_repeats`. -/
theorem feeds_cycles {S : Source} (hfin : S.finitude ≠ .pseudoInfinite) {xs : List Data} {s : S.σ}
    (h : S.Cycles s xs) :
    ∃ P, P 0 s ∧ Feeds S true (fun k => xs[k % xs.length]?)
      (fun k => decide (xs.length = 0 ∨ 0 < k ∧ k % xs.length = 0)) P := by
  obtain ⟨Fr, En, hQ, hstep, hend⟩ := h
  by_cases hl : xs.length = 0
  · obtain rfl : xs = [] := List.eq_nil_of_length_eq_zero hl
    refine ⟨fun _ t => Fr t ∨ En t, .inl hQ, ?_, ?_⟩
    · intro k t h
      have hE : En t := by
        rcases h with h | h
        · obtain ⟨t', h1, h2⟩ := hstep t h
          rwa [h1.nil_inv] at h2
        · exact h
      obtain ⟨t₁, h1, h2, h3⟩ := hend t hE
      obtain ⟨t₂, h4, h5⟩ := hstep _ h3
      rw [h4.nil_inv] at h5
      obtain ⟨t₃, h6, h7, -⟩ := hend _ h5
      exact ⟨t₃, by simp [fetch1, h1, h6], .inr h7⟩
    · intro k t _ h
      exact ⟨h, by simp, by simp⟩
  · have hpos : 0 < xs.length := by omega
    -- `j k` examples of the current reading have been read after `k` calls
    let j : Nat → Nat := fun k => if k = 0 then 0 else (k - 1) % xs.length + 1
    refine ⟨fun k t => ∃ t₀, Fr t₀ ∧ S.Emits t₀ (xs.take (j k)) t,
      ⟨s, hQ, by simpa [j] using Emits.nil (S := S) s⟩, ?_, ?_⟩
    · rintro k t ⟨t₀, h1, h2⟩
      have hjle : j k ≤ xs.length := by
        simp only [j]
        split
        · omega
        · have := Nat.mod_lt (k - 1) hpos; omega
      obtain ⟨t₁, h3, h4⟩ := hstep t₀ h1
      rcases Nat.lt_or_ge (j k) xs.length with hlt | hge
      · -- in the middle of a reading
        have hjk : j k = k % xs.length := by
          simp only [j] at hlt ⊢
          split
          · next h0 => subst h0; simp
          · next h0 =>
            rw [if_neg h0] at hlt
            have hm := Nat.mod_lt (k - 1) hpos
            have : k % xs.length = ((k - 1) % xs.length + 1) % xs.length := by
              rw [Nat.mod_add_mod]; congr 1; omega
            rw [this, Nat.mod_eq_of_lt hlt]
        have hsk : j (k + 1) = j k + 1 := by
          simp only [j]
          rw [if_neg (by omega), Nat.add_sub_cancel]
          have := hjk
          simp only [j] at this
          rw [this]
        have h5 := h3
        rw [← List.take_append_drop (j k) xs] at h5
        obtain ⟨u, h6, h7⟩ := h5.split
        obtain rfl := h2.det h6
        rw [List.drop_eq_getElem_cons hlt] at h7
        obtain ⟨t', h8, -⟩ := h7.cons_inv
        have hnd : ¬ (xs.length = 0 ∨ 0 < k ∧ k % xs.length = 0) := by
          rintro (h | ⟨h, h'⟩)
          · omega
          · rw [← hjk] at h'
            simp only [j] at h'
            rw [if_neg (by omega)] at h'
            omega
        refine ⟨t', ?_, t₀, h1, ?_⟩
        · simp only [fetch1, h8, hfin, decide_false, hnd]
          rw [← hjk, List.getElem?_eq_getElem hlt]
        · rw [hsk, List.take_succ_eq_append_getElem hlt]
          exact h2.snoc h8
      · -- at the end of a reading
        have hje : j k = xs.length := by omega
        rw [hje, List.take_length] at h2
        obtain rfl := h2.det h3
        obtain ⟨t₂, h5, -, h6⟩ := hend _ h4
        obtain ⟨t₃, h7, -⟩ := hstep _ h6
        have hk0 : 0 < k ∧ (k - 1) % xs.length + 1 = xs.length := by
          simp only [j] at hje
          split at hje
          · omega
          · exact ⟨by omega, hje⟩
        have hkm : k % xs.length = 0 := by
          have : k % xs.length = ((k - 1) % xs.length + 1) % xs.length := by
            rw [Nat.mod_add_mod]; congr 1; omega
          rw [this, hk0.2, Nat.mod_self]
        obtain ⟨x, ys, rfl⟩ := List.exists_cons_of_length_pos hpos
        obtain ⟨t', h8, -⟩ := h7.cons_inv
        refine ⟨t', ?_, _, h6, ?_⟩
        · simp only [fetch1, h5, h8, hkm, hk0.1]
          simp
        · have : j (k + 1) = 1 := by
            simp only [j]
            rw [if_neg (by omega), Nat.add_sub_cancel, hkm]
          rw [this]
          exact .cons h8 (.nil _)
    · intro k t h0 _
      have := Nat.mod_lt k hpos
      rw [List.getElem?_eq_getElem this] at h0
      cases h0

theorem doneBy_cycles {l k : Nat} :
    doneBy (fun k => decide (l = 0 ∨ 0 < k ∧ k % l = 0)) (k + 1) = decide (l ≤ k) := by
  rw [Bool.eq_iff_iff]
  simp only [doneBy, List.any_eq_true, List.mem_range, decide_eq_true_eq]
  constructor
  · rintro ⟨m, hm, h | ⟨h, h'⟩⟩
    · omega
    · have := Nat.le_of_dvd h (Nat.dvd_of_mod_eq_zero h')
      omega
  · intro h
    rcases Nat.eq_zero_or_pos l with h0 | h0
    · exact ⟨0, by omega, .inl h0⟩
    · exact ⟨l, by omega, .inr ⟨h0, Nat.mod_self l⟩⟩

/-- A finite pipeline without `allow_repeats`. -/
theorem feeds_yields {S : Source} (hfin : S.finitude ≠ .pseudoInfinite) {xs : List Data} {s : S.σ}
    (h : S.Yields s xs) :
    ∃ P, P 0 s ∧ Feeds S false (fun k => xs[k]?) (fun k => decide (xs.length ≤ k)) P := by
  refine ⟨fun k t => S.Yields t (xs.drop k), h, ?_, ?_⟩
  · intro k t h
    rcases Nat.lt_or_ge k xs.length with hlt | hge
    · rw [List.drop_eq_getElem_cons hlt] at h
      obtain ⟨t', h1, h2⟩ := h.cons_inv
      refine ⟨t', ?_, h2⟩
      rw [List.getElem?_eq_getElem hlt]
      simp [fetch1, h1, hfin, hlt]
    · rw [List.drop_eq_nil_of_le hge] at h
      obtain ⟨t', h1, h2⟩ := h.nil_inv.next
      refine ⟨t', ?_, ?_⟩
      · rw [List.getElem?_eq_none hge]
        simp [fetch1, h1, hge]
      · rw [List.drop_eq_nil_of_le (by omega)]
        exact ⟨t', .nil _, h2⟩
  · intro k t h0 h1
    have hge := List.getElem?_eq_none_iff.mp h0
    refine ⟨?_, List.getElem?_eq_none (by omega), by simpa using hge⟩
    rw [List.drop_eq_nil_of_le (by omega)] at h1 ⊢
    exact h1

theorem doneBy_yields {l k : Nat} :
    doneBy (fun k => decide (l ≤ k)) (k + 1) = decide (l ≤ k) := by
  rw [Bool.eq_iff_iff]
  simp only [doneBy, List.any_eq_true, List.mem_range, decide_eq_true_eq]
  exact ⟨fun ⟨m, hm, h⟩ => by omega, fun h => ⟨k, by omega, h⟩⟩

/-- A pseudo-infinite pipeline. -/
theorem feeds_pseudo {S : Source} {rp : Bool} (hfin : S.finitude = .pseudoInfinite)
    {g : Nat → Data} {s : S.σ} (h : S.Streams s g) :
    ∃ P, P 0 s ∧ Feeds S rp (fun k => some (g k)) (fun _ => true) P := by
  refine ⟨fun k t => S.Streams t (fun m => g (k + m)), by simpa using h, ?_, ?_⟩
  · intro k t h
    obtain ⟨t', h1, h2⟩ := h.tail
    refine ⟨t', by simp [fetch1, h1, hfin], ?_⟩
    simpa [Nat.add_assoc, Nat.add_comm 1] using h2
  · intro k t h0
    cases h0

theorem doneBy_pseudo {k : Nat} : doneBy (fun _ => true) (k + 1) = true := by
  simp [doneBy, List.range_succ]

end Fs2
