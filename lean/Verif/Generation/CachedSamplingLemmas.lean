import Verif.Generation.CachedLoop
import Verif.Generation.CachedSampling

/-!
Lemmas about sampling with a state bag (C108).
-/

namespace Fs2.Gen

variable {σ : Type}

/-! ### The prefill -/

theorem sample_prefill {D : Stateful ℚ σ} {next : Nat → List Int → Option (List ℚ)} {I : σ → List (Nat × List Int) → Prop}
    {limit : Nat} {Ok : Nat → Nat → Prop} {needs : Prop} (hD : Remembers D next I limit Ok needs) (chunk : Option Nat)
    {rows : List (List Int)} (hne : rows ≠ []) {m : Nat} (hm : ∀ row ∈ rows, m ≤ row.length)
    (hlim : m ≤ limit) (Q : Nat → Prop)
    (hok : ∀ b, Q b → b < m - 1 → Ok b (chunkSize chunk m b) ∧ Q (b + chunkSize chunk m b)) :
    ∀ (fuel b : Nat) (st : σ), m - 1 ≤ b + fuel → b ≤ m - 1 → Q b →
      I st ((indexed rows).map fun r => (r.1, r.2.take b)) →
      ((∃ r ∈ indexed rows, ∃ k, b ≤ k ∧ k < m - 1 ∧ next r.1 (r.2.take (k + 1)) = none) →
        samplePrefill D chunk rows m fuel b st = none) ∧
      ((∀ r ∈ indexed rows, ∀ k, b ≤ k → k < m - 1 → next r.1 (r.2.take (k + 1)) ≠ none) →
        ∃ st', samplePrefill D chunk rows m fuel b st = some st' ∧
          I st' ((indexed rows).map fun r => (r.1, r.2.take (m - 1)))) := by
  intro fuel
  induction fuel with
  | zero =>
    intro b st h1 h2 hQ hI
    have hb : b = m - 1 := by omega
    subst hb
    refine ⟨?_, fun _ => ⟨st, rfl, hI⟩⟩
    rintro ⟨r, -, k, h3, h4, -⟩
    omega
  | succ fuel ih =>
    intro b st h1 h2 hQ hI
    unfold samplePrefill
    by_cases hb : b < m - 1
    · rw [if_pos hb]
      obtain ⟨c1, c2⟩ := chunk_bounds chunk hb
      obtain ⟨size, hsize⟩ : ∃ size, size = chunkSize chunk m b := ⟨_, rfl⟩
      obtain ⟨hokb, hQb⟩ := hok b hQ hb
      rw [← hsize] at c1 c2 hokb hQb ⊢
      have hT : ∀ t ∈ rows.map (fun row => (row.drop b).take size), t.length = size := by
        intro t ht
        obtain ⟨row, hr, rfl⟩ := List.mem_map.mp ht
        have := hm row hr
        simp
        omega
      have hR : ∀ r ∈ (indexed rows).map (fun r => (r.1, r.2.take b)), r.2.length = b := by
        intro r hr
        obtain ⟨x, hx, rfl⟩ := List.mem_map.mp hr
        have := hm _ (List.of_mem_zip hx).2
        simp
        omega
      have hzip : ((indexed rows).map fun r => (r.1, r.2.take b)).zip (rows.map fun row => (row.drop b).take size) =
          (indexed rows).map fun r => ((r.1, r.2.take b), (r.2.drop b).take size) := by
        apply List.ext_getElem
        · simp [indexed]
        · intro i h1 h2
          simp [indexed]
      obtain ⟨f1, f2⟩ := hD.feed st _ (rows.map fun row => (row.drop b).take size) b size hI
        (by simpa [indexed] using hne) hR (by simp [indexed]) hT c1 (by omega) hokb
      rw [hzip, mapM_map_eq] at f1 f2
      have happ : appended ((indexed rows).map fun r => (r.1, r.2.take b)) (rows.map fun row => (row.drop b).take size) =
          (indexed rows).map fun r => (r.1, r.2.take (b + size)) := by
        unfold appended
        apply List.ext_getElem
        · simp [indexed]
        · intro i h1 h2
          simp [indexed, List.take_add]
      have htake : ∀ (row : List Int) (j : Nat), j < size →
          row.take b ++ ((row.drop b).take size).take (j + 1) = row.take (b + j + 1) := by
        intro row j hj
        rw [List.take_take, Nat.min_eq_left (by omega), Nat.add_assoc]
        exact List.take_add.symm
      cases ho : (indexed rows).mapM (fun r => (List.range size).mapM fun j =>
            next r.1 (r.2.take b ++ ((r.2.drop b).take size).take (j + 1))) with
      | none =>
        rw [f1 ho]
        refine ⟨fun _ => rfl, ?_⟩
        intro hall
        exfalso
        have hsome : ∀ r ∈ indexed rows, ∃ qs, ((List.range size).mapM fun j =>
            next r.1 (r.2.take b ++ ((r.2.drop b).take size).take (j + 1))) = some qs := by
          intro r hr
          refine ⟨_, mapM_get _ _ (fun j => (next r.1 (r.2.take (b + j + 1))).getD []) ?_⟩
          intro j hj
          have hj := List.mem_range.mp hj
          rw [htake _ _ hj]
          cases hx : next r.1 (r.2.take (b + j + 1)) with
          | none => exact absurd hx (hall r hr (b + j) (by omega) (by omega))
          | some q => rfl
        have := mapM_get (indexed rows) (fun r => (List.range size).mapM fun j =>
            next r.1 (r.2.take b ++ ((r.2.drop b).take size).take (j + 1)))
          (fun r => ((List.range size).mapM fun j =>
            next r.1 (r.2.take b ++ ((r.2.drop b).take size).take (j + 1))).getD []) (by
            intro r hr
            obtain ⟨qs, hqs⟩ := hsome r hr
            rw [hqs]
            rfl)
        rw [this] at ho
        cases ho
      | some o =>
        obtain ⟨st', e1, e2⟩ := f2 o ho
        rw [e1]
        simp only [Option.bind_some]
        rw [happ] at e2
        obtain ⟨i1, i2⟩ := ih (b + size) st' (by omega) (by omega) hQb e2
        have hfine : ∀ r ∈ indexed rows, ∀ k, b ≤ k → k < b + size → next r.1 (r.2.take (k + 1)) ≠ none := by
          intro r hr k h3 h4 hnone
          obtain ⟨i, hi⟩ := List.mem_iff_getElem?.mp hr
          obtain ⟨qs, -, hqs⟩ := (mapM_length _ _ _ ho).2 i r hi
          obtain ⟨q, -, hq⟩ := (mapM_length _ _ _ hqs).2 (k - b) (k - b) (by
            rw [List.getElem?_eq_getElem (by simp; omega), List.getElem_range])
          rw [htake _ _ (by omega), show b + (k - b) + 1 = k + 1 by omega, hnone] at hq
          cases hq
        refine ⟨?_, ?_⟩
        · rintro ⟨r, hr, k, h3, h4, h5⟩
          by_cases hk : k < b + size
          · exact absurd h5 (hfine r hr k h3 hk)
          · exact i1 ⟨r, hr, k, by omega, h4, h5⟩
        · intro hall
          exact i2 fun r hr k h3 h4 => hall r hr k (by omega) h4
    · rw [if_neg hb]
      have hb' : b = m - 1 := by omega
      subst hb'
      refine ⟨?_, fun _ => ⟨st, rfl, hI⟩⟩
      rintro ⟨r, -, k, h3, h4, -⟩
      omega

/-! ### A step -/

/-- The tensors of the operation have as many rows as there are sequences. -/
structure Lined (M : Nat) (s : SampState) : Prop where
  idx : s.promptIdx.length = s.seqs.length
  rows : s.seqs ≠ []
  len : ∀ row ∈ s.seqs, row.length = M
  mask : ∀ m, s.promptMask = some m → m.length = s.seqs.length

theorem updateCol_len {β : Type} {i : Nat} {f : β → β} {probs out : List (List β)} (h : updateCol i f probs = some out) :
    out.length = probs.length := mapM_len h

theorem updateCol?_len {β : Type} {i : Option Nat} {f : β → β} {probs out : List (List β)}
    (h : updateCol? i f probs = some out) : out.length = probs.length := by
  cases i with
  | none => cases h; rfl
  | some i => exact updateCol_len h

theorem choose_len {c : Settings} {ops : Ops} {lim : Limits} {n : Nat} {seqs : List (List Int)} {probs : List (List ℚ)}
    {tokens : List Nat} (hproc : ∀ n seqs probs out, ops.process n seqs probs = some out → out.length = probs.length)
    (hl : probs.length = seqs.length) (h : chooseTokens c ops lim n seqs probs = some tokens) :
    tokens.length = seqs.length := by
  unfold chooseTokens at h
  split at h
  · cases h
    simp
  · simp only [Option.bind_eq_bind, Option.bind_eq_some_iff] at h
    obtain ⟨p1, h1, p2, h2, p3, h3, h⟩ := h
    have l1 := hproc _ _ _ _ h1
    have l2 := updateCol?_len h2
    have l3 := updateCol?_len h3
    split at h
    · simp only [Option.bind_eq_some_iff] at h
      obtain ⟨p4, h4, h⟩ := h
      have l4 := updateCol_len h4
      rw [mapM_len h, List.length_range]
      omega
    · simp only [Option.bind_some] at h
      rw [mapM_len h, List.length_range]
      omega

theorem keep_len {c : Settings} {lim : Limits} {n : Nat} {s : SampState} {tokens : List Nat} {M : Nat} (hs : Lined M s)
    (ht : tokens.length = s.seqs.length) {k : List Int × List Bool × Option (List (List Bool))}
    (h : keepPrompts c lim n s tokens = some k) :
    k.1.length = s.seqs.length ∧ k.2.1.length = s.seqs.length ∧ ∀ m, k.2.2 = some m → m.length = s.seqs.length := by
  unfold keepPrompts at h
  dsimp only at h
  split at h
  · split at h
    · cases h
    · rename_i m hm
      have hml := hs.mask m hm
      split at h
      · cases h
      · rename_i mask hmask
        cases h
        have := mapM_len hmask
        refine ⟨?_, ?_, ?_⟩
        · simp only [List.length_zipWith, List.length_zip]
          omega
        · simp only [List.length_zipWith, List.length_map]
          omega
        · intro m' hm'
          cases hm'
          exact hml
  · cases h
    refine ⟨by simp [ht], by simp [ht], fun m hm => by cases hm⟩

theorem finish_all_same {c : Settings} {lim : Limits} {n : Nat} : ∀ (l : List Nat) {s s' : SampState},
    l.foldlM (sampFinish c lim n) s = some s' → ∃ out, s' = { s with output := out } := by
  intro l
  induction l with
  | nil =>
    intro s s' h
    cases h
    exact ⟨s.output, rfl⟩
  | cons x l ih =>
    intro s s' h
    rw [List.foldlM_cons] at h
    simp only [Option.bind_eq_bind, Option.bind_eq_some_iff] at h
    obtain ⟨t, h1, h2⟩ := h
    obtain ⟨out, rfl⟩ := ih h2
    unfold sampFinish at h1
    have ht : ∃ out', t = { s with output := out' } := by
      repeat' split at h1
      all_goals
        simp only [Option.bind_eq_bind, Option.bind_some, Option.bind_eq_some_iff, Option.pure_def, Option.some.injEq] at h1
        first
          | (obtain ⟨_, -, _, -, _, -, rfl⟩ := h1; exact ⟨_, rfl⟩)
          | (obtain ⟨_, -, _, -, _, -, _, -, rfl⟩ := h1; exact ⟨_, rfl⟩)
    obtain ⟨out', rfl⟩ := ht
    exact ⟨out, rfl⟩

theorem where_lt {mask : List Bool} {i : Nat} (h : i ∈ whereTrue mask) : i < mask.length := by
  have := (mem_whereTrue mask i).mp h
  exact (List.getElem?_eq_some_iff.mp this).1

theorem where_split (mask : List Bool) :
    (whereTrue mask).length + (whereTrue (mask.map fun e => !e)).length = mask.length := by
  have := (whereTrue_perm mask).length_eq
  simpa using this

theorem select?_len {β : Type} {l : Option (List β)} {order : List Nat} {l' : Option (List β)}
    (h : indexSelect? l order = some l') : ∀ m, l' = some m → m.length = order.length := by
  intro m hm
  subst hm
  cases l with
  | none => cases h
  | some l =>
    simp only [indexSelect?, Option.map_eq_some_iff, Option.some.injEq] at h
    obtain ⟨x, hx, rfl⟩ := h
    exact mapM_len hx

/-- What a reordering does to the sequences. -/
theorem reorder_lined {M : Nat} {s s' : SampState} {order : List Nat} (hs : Lined M s) (ho : order ≠ [])
    (h : sampReorder s order = some s') (n : Nat) :
    Lined M s' ∧ (s'.promptIdx.zip (s'.seqs.map (·.take n))) =
      order.map fun i => ((s.promptIdx.zip (s.seqs.map (·.take n)))[i]?).getD (0, []) := by
  unfold sampReorder at h
  simp only [Option.bind_eq_bind, Option.bind_eq_some_iff, Option.pure_def, Option.some.injEq] at h
  obtain ⟨pl, -, pm, hpm, pi, hpi, seqs, hseqs, rfl⟩ := h
  obtain ⟨k1, k2⟩ := select_get hpi
  obtain ⟨k3, k4⟩ := select_get hseqs
  refine ⟨⟨by simp only; omega, ?_, ?_, ?_⟩, ?_⟩
  · intro h
    simp only at h
    rw [h] at k3
    exact ho (List.length_eq_zero_iff.mp k3.symm)
  · intro row hrow
    obtain ⟨j, -, hj⟩ := mapM_mem hseqs row hrow
    exact hs.len row (List.mem_of_getElem? hj)
  · intro m hm
    rw [select?_len hpm m hm, k3]
  · apply List.ext_getElem?
    intro i
    by_cases hi : i < order.length
    · have hij := List.getElem?_eq_getElem hi
      obtain ⟨q, q1, q2⟩ := k2 i _ hij
      obtain ⟨row, r1, r2⟩ := k4 i _ hij
      rw [List.getElem?_map, hij]
      have z1 : (s.promptIdx.zip (s.seqs.map (·.take n)))[order[i]]? = some (q, row.take n) := by
        rw [List.getElem?_zip_eq_some]
        exact ⟨q1, by rw [List.getElem?_map, r1]; rfl⟩
      have z2 : (pi.zip (seqs.map (·.take n)))[i]? = some (q, row.take n) := by
        rw [List.getElem?_zip_eq_some]
        exact ⟨q2, by rw [List.getElem?_map, r2]; rfl⟩
      rw [z2, Option.map_some, z1]
      rfl
    · rw [List.getElem?_eq_none (by simp; omega), List.getElem?_eq_none (by simp; omega)]

theorem samp_step_same {D : Stateful ℚ σ} {next : Nat → List Int → Option (List ℚ)} {I : σ → List (Nat × List Int) → Prop}
    {limit : Nat} {Ok : Nat → Nat → Prop} {needs : Prop} (hD : Remembers D next I limit Ok needs) {ops : Ops}
    (hlm : ∀ src seqs, src.length = seqs.length → ops.lm src seqs = (src.zip seqs).mapM fun x => next x.1 x.2)
    (hproc : ∀ n seqs probs out, ops.process n seqs probs = some out → out.length = probs.length)
    (c : Settings) (lim : Limits) {n M : Nat} {s : SampState} {st : σ} (hn : 1 ≤ n) (hlim : n ≤ limit) (hok : Ok (n - 1) 1)
    (hs : Lined M s) (hM : n ≤ M)
    (hI : I st (s.promptIdx.zip (s.seqs.map (·.take (n - 1))))) :
    (sampStep c ops lim n s = none → cachedSampStep c ops D lim n s st = none) ∧
    (∀ s', sampStep c ops lim n s = some (s', false) → ∃ st', cachedSampStep c ops D lim n s st = some (s', st', false)) ∧
    (∀ s', sampStep c ops lim n s = some (s', true) →
      ∃ st', cachedSampStep c ops D lim n s st = some (s', st', true) ∧ Lined M s' ∧
        I st' (s'.promptIdx.zip (s'.seqs.map (·.take n)))) := by
  have hidx := hs.idx
  have hne := hs.rows
  have hseq : ∀ row ∈ s.seqs, n ≤ row.length := fun row h => by rw [hs.len row h]; exact hM
  have hbind : sampStep c ops lim n s = (ops.lm s.promptIdx (s.seqs.map (·.take n))).bind fun probs =>
      (chooseTokens c ops lim n s.seqs probs).bind fun tokens => (keepPrompts c lim n s tokens).bind fun k =>
        retire c lim n
            { s with promptMask := k.2.2, seqs := List.zipWith (fun seq t => seq.set n t) s.seqs k.1 } k.2.1 := by
    unfold sampStep
    simp only [Option.bind_eq_bind]
  have hnz : s.promptIdx.zip (s.seqs.map (·.take (n - 1))) ≠ [] := by
    intro h
    have h1 := congrArg List.length h
    have h2 := List.length_pos_iff.mpr hne
    rw [List.length_zip, List.length_map, hidx, Nat.min_self, List.length_nil] at h1
    omega
  have hnz' : s.promptIdx.zip (s.seqs.map (·.take n)) ≠ [] := by
    intro h
    have h1 := congrArg List.length h
    have h2 := List.length_pos_iff.mpr hne
    rw [List.length_zip, List.length_map, hidx, Nat.min_self, List.length_nil] at h1
    omega
  obtain ⟨f1, f2⟩ := hD.feed st _ (s.seqs.map fun row => (row.drop (n - 1)).take 1) (n - 1) 1 hI hnz
    (by
      intro r hr
      obtain ⟨row, hrow, e⟩ := List.mem_map.mp (List.of_mem_zip hr).2
      have := hseq row hrow
      rw [← e]
      simp
      omega)
    (by simp [hidx])
    (by
      intro t ht
      obtain ⟨row, hrow, rfl⟩ := List.mem_map.mp ht
      have := hseq row hrow
      simp
      omega) (le_refl _) (by omega) hok
  have htake : ∀ row : List Int, row.take (n - 1) ++ (row.drop (n - 1)).take 1 = row.take n := by
    intro row
    rw [← List.take_add]
    congr 1
    omega
  have hzip : (s.promptIdx.zip (s.seqs.map (·.take (n - 1)))).zip (s.seqs.map fun row => (row.drop (n - 1)).take 1) =
      (s.promptIdx.zip s.seqs).map fun x => ((x.1, x.2.take (n - 1)), (x.2.drop (n - 1)).take 1) := by
    apply List.ext_getElem
    · simp [hidx]
    · intro i h1 h2
      simp
  have happ : appended (s.promptIdx.zip (s.seqs.map (·.take (n - 1)))) (s.seqs.map fun row => (row.drop (n - 1)).take 1) =
      s.promptIdx.zip (s.seqs.map (·.take n)) := by
    unfold appended
    apply List.ext_getElem
    · simp
    · intro i h1 h2
      simp only [List.getElem_zipWith, List.getElem_zip, List.getElem_map, htake]
  rw [hzip, mapM_map_eq] at f1 f2
  rw [happ] at f2
  have hlm' : ops.lm s.promptIdx (s.seqs.map (·.take n)) =
      ((s.promptIdx.zip s.seqs).mapM fun x => (List.range 1).mapM fun j =>
        next x.1 (x.2.take (n - 1) ++ ((x.2.drop (n - 1)).take 1).take (j + 1))).bind fun o =>
          o.mapM fun (qs : List (List ℚ)) => qs.head? := by
    rw [hlm _ _ (by simp [hidx]), mapM_then]
    have : s.promptIdx.zip (s.seqs.map (·.take n)) = (s.promptIdx.zip s.seqs).map fun x => (x.1, x.2.take n) := by
      apply List.ext_getElem
      · simp
      · intro i h1 h2
        simp
    rw [this, mapM_map_eq]
    apply mapM_eq_congr
    rintro ⟨i, row⟩ -
    simp only [List.range_one, List.mapM_cons, List.mapM_nil, Option.bind_eq_bind, Option.pure_def, Nat.zero_add,
      List.take_take, Nat.min_self, htake]
    cases next i (row.take n) <;> rfl
  rw [hbind, hlm']
  unfold cachedSampStep
  cases ho : (s.promptIdx.zip s.seqs).mapM (fun x => (List.range 1).mapM fun j =>
        next x.1 (x.2.take (n - 1) ++ ((x.2.drop (n - 1)).take 1).take (j + 1))) with
  | none =>
    rw [f1 ho]
    exact ⟨fun _ => rfl, fun s' h => (by cases h), fun s' h => (by cases h)⟩
  | some o =>
    obtain ⟨st', e1, e2⟩ := f2 o ho
    rw [e1]
    simp only [Option.bind_some]
    cases hp : o.mapM (fun (qs : List (List ℚ)) => qs.head?) with
    | none => exact ⟨fun _ => rfl, fun s' h => (by cases h), fun s' h => (by cases h)⟩
    | some probs =>
      simp only [Option.bind_some]
      have hpl : probs.length = s.seqs.length := by
        rw [mapM_len hp, mapM_len ho, List.length_zip, hidx, Nat.min_self]
      cases hc : chooseTokens c ops lim n s.seqs probs with
      | none => exact ⟨fun _ => rfl, fun s' h => (by cases h), fun s' h => (by cases h)⟩
      | some tokens =>
        simp only [Option.bind_some]
        have htl := choose_len hproc hpl hc
        cases hk : keepPrompts c lim n s tokens with
        | none => exact ⟨fun _ => rfl, fun s' h => (by cases h), fun s' h => (by cases h)⟩
        | some k =>
          simp only [Option.bind_some]
          obtain ⟨k1, k2, k3⟩ := keep_len hs htl hk
          obtain ⟨s1, hs1⟩ : ∃ s1 : SampState, s1 =
              { s with promptMask := k.2.2, seqs := List.zipWith (fun (seq : List Int) t => seq.set n t) s.seqs k.1 } := ⟨_, rfl⟩
          rw [← hs1]
          have hl1 : s1.seqs.length = s.seqs.length := by rw [hs1]; simp [k1]
          have hLined : Lined M s1 := by
            refine ⟨by rw [hl1]; rw [hs1]; exact hidx, ?_, ?_, ?_⟩
            · intro h
              rw [h] at hl1
              exact hne (List.length_eq_zero_iff.mp hl1.symm)
            · intro row hrow
              rw [hs1] at hrow
              obtain ⟨i, hi, rfl⟩ := List.getElem_of_mem hrow
              simp only [List.getElem_zipWith, List.length_set]
              exact hs.len _ (List.getElem_mem _)
            · intro m hm
              rw [hl1]
              rw [hs1] at hm
              exact k3 m hm
          have hsame : s1.promptIdx.zip (s1.seqs.map (·.take n)) = s.promptIdx.zip (s.seqs.map (·.take n)) := by
            have : s1.seqs.map (·.take n) = s.seqs.map (·.take n) := by
              rw [hs1]
              apply List.ext_getElem
              · simp [k1]
              · intro i h1 h2
                simp [List.take_set_of_le]
            rw [this, hs1]
          have hout : ∀ out, Lined M { s1 with output := out } := fun out =>
            ⟨hLined.idx, hLined.rows, hLined.len, hLined.mask⟩
          unfold retire
          dsimp only
          by_cases hfin : (whereTrue k.2.1).length > 0
          · rw [if_pos hfin]
            cases hf : (whereTrue k.2.1).foldlM (sampFinish c lim n) s1 with
            | none => exact ⟨fun _ => rfl, fun s' h => (by cases h), fun s' h => (by cases h)⟩
            | some s2 =>
              obtain ⟨out, rfl⟩ := finish_all_same _ hf
              dsimp only
              have hsum := where_split k.2.1
              by_cases hact : (whereTrue (k.2.1.map fun e => !e)).length = 0
              · rw [if_pos hact]
                refine ⟨fun h => (by cases h), ?_, fun s' h => by simp at h⟩
                intro s' h
                simp only [Option.some.injEq, Prod.mk.injEq, and_true] at h
                subst h
                simp only [Option.bind_some]
                rw [if_neg (by simp)]
                exact ⟨st', rfl⟩
              · rw [if_neg hact]
                cases hr : sampReorder { s1 with output := out } (whereTrue (k.2.1.map fun e => !e)) with
                | none => exact ⟨fun _ => rfl, fun s' h => (by cases h), fun s' h => (by cases h)⟩
                | some s3 =>
                  refine ⟨fun h => (by cases h), fun s' h => by simp at h, ?_⟩
                  intro s' h
                  simp only [Option.map_some, Option.some.injEq, Prod.mk.injEq, and_true] at h
                  subst h
                  obtain ⟨g1, g2⟩ := reorder_lined (hout out)
                    (fun h => hact (by rw [h]; rfl)) hr n
                  have hzl : (s.promptIdx.zip (s.seqs.map (·.take n))).length = s.seqs.length := by
                    rw [List.length_zip, List.length_map, hidx, Nat.min_self]
                  obtain ⟨st'', e3, e4⟩ := hD.reorder st' _ (whereTrue (k.2.1.map fun e => !e)) n e2 hnz' (by omega)
                    (by
                      intro r hr
                      obtain ⟨row, hrow, e⟩ := List.mem_map.mp (List.of_mem_zip hr).2
                      have := hseq row hrow
                      rw [← e]
                      simp
                      omega)
                    (by
                      intro i hi
                      have := where_lt hi
                      rw [List.length_map] at this
                      omega)
                    (by
                      intro _ hl
                      exfalso
                      omega)
                  simp only [Option.map_some, Option.bind_some]
                  rw [if_pos (by simpa using hfin), e3]
                  refine ⟨st'', rfl, g1, ?_⟩
                  rw [g2]
                  have : ({ s1 with output := out } : SampState).promptIdx.zip
                      (({ s1 with output := out } : SampState).seqs.map (·.take n)) =
                        s.promptIdx.zip (s.seqs.map (·.take n)) := hsame
                  rw [this]
                  exact e4
          · rw [if_neg hfin]
            refine ⟨fun h => (by cases h), fun s' h => by simp at h, ?_⟩
            intro s' h
            simp only [Option.some.injEq, Prod.mk.injEq, and_true] at h
            subst h
            simp only [Option.bind_some]
            rw [if_neg (fun h => hfin h.1)]
            refine ⟨st', rfl, hLined, ?_⟩
            rw [hsame]
            exact e2

theorem samp_loop_same {D : Stateful ℚ σ} {next : Nat → List Int → Option (List ℚ)} {I : σ → List (Nat × List Int) → Prop}
    {limit : Nat} {Ok : Nat → Nat → Prop} {needs : Prop} (hD : Remembers D next I limit Ok needs) {ops : Ops}
    (hlm : ∀ src seqs, src.length = seqs.length → ops.lm src seqs = (src.zip seqs).mapM fun x => next x.1 x.2)
    (hproc : ∀ n seqs probs out, ops.process n seqs probs = some out → out.length = probs.length)
    (c : Settings) (lim : Limits) (hlim : lim.maxLen ≤ limit + 1) (hok : ∀ a, Ok a 1) :
    ∀ (k : Nat) (s : SampState) (st : σ), k < lim.maxLen → Lined lim.maxLen s →
      I st (s.promptIdx.zip (s.seqs.map (·.take (lim.maxLen - k - 1)))) →
      cachedSampLoop c ops D lim k s st = sampLoop c ops lim k s := by
  intro k
  induction k with
  | zero => intro s st _ _ _; rfl
  | succ k ih =>
    intro s st hk hs hI
    unfold cachedSampLoop sampLoop
    obtain ⟨a1, a2, a3⟩ := samp_step_same hD hlm hproc c lim (n := lim.maxLen - (k + 1)) (by omega) (by omega) (hok _) hs
      (by omega) hI
    cases hstep : sampStep c ops lim (lim.maxLen - (k + 1)) s with
    | none =>
      rw [a1 hstep]
      rfl
    | some r =>
      obtain ⟨s', b⟩ := r
      cases b with
      | false =>
        obtain ⟨st', e⟩ := a2 s' hstep
        rw [e]
        rfl
      | true =>
        obtain ⟨st', e, h1, h2⟩ := a3 s' hstep
        rw [e]
        simp only [Option.bind_some, Option.bind_eq_bind]
        refine (if_pos trivial).trans (Eq.trans ?_ (if_pos trivial).symm)
        refine ih s' st' (by omega) h1 ?_
        rw [show lim.maxLen - k - 1 = lim.maxLen - (k + 1) by omega]
        exact h2

/-! ### The generation -/

/-- The model gives probabilities after every proper beginning of the prompts that is fed before the first step. -/
def PromptsFine (next : Nat → List Int → Option (List ℚ)) (p : Prompts) (m : Nat) : Prop :=
  ∀ i row, p.rows[i]? = some row → ∀ k, k + 1 < m → next i (row.take (k + 1)) ≠ none

theorem indexed_mem {rows : List (List Int)} {r : Nat × List Int} : r ∈ indexed rows ↔ rows[r.1]? = some r.2 := by
  unfold indexed
  constructor
  · intro h
    obtain ⟨i, hi, rfl⟩ := List.getElem_of_mem h
    have : i < rows.length := by simp at hi; exact hi
    simp [List.getElem?_eq_getElem this]
  · intro h
    obtain ⟨hlt, h⟩ := List.getElem?_eq_some_iff.mp h
    rw [List.mem_iff_getElem?]
    refine ⟨r.1, ?_⟩
    rw [List.getElem?_zip_eq_some]
    exact ⟨List.getElem?_range hlt, by rw [List.getElem?_eq_getElem hlt, h]⟩

theorem sampled_same {c : Settings} {ops : Ops} {p : Prompts} (hp : Batched p) (hpos : ∀ len ∈ p.lens, 1 ≤ len)
    (chunk : Option Nat) (D : Nat → Stateful ℚ σ) (I : Nat → σ → List (Nat × List Int) → Prop) (Ok : Nat → Nat → Prop)
    (needs : Prop) {next : Nat → List Int → Option (List ℚ)}
    (hD : ∀ lim, limits c p = some lim → Remembers (D lim.maxLen) next (I lim.maxLen) (lim.maxLen - 1) Ok needs)
    (hstart : ∀ M, I M (D M).start ((List.range p.rows.length).map fun i => (i, [])))
    (hfan : ∀ M order, c.numGens > 1 → p.minLen = 1 → (∀ i ∈ order, i < p.rows.length) → order.length ≠ p.rows.length →
      ∃ st, (D M).reorder (D M).start order = some st ∧ I M st (order.map fun i => (i, [])))
    (hlm : ∀ src seqs, src.length = seqs.length → ops.lm src seqs = (src.zip seqs).mapM fun x => next x.1 x.2)
    (hproc : ∀ n seqs probs out, ops.process n seqs probs = some out → out.length = probs.length)
    (hone : ∀ a, Ok a 1) (Q : Nat → Nat → Prop) (hQ : ∀ m, Q m 0)
    (hchunk : ∀ m b, Q m b → b < m - 1 → Ok b (chunkSize chunk m b) ∧ Q m (b + chunkSize chunk m b)) :
    (¬ PromptsFine next p p.minLen → cachedSample D c ops chunk p = none) ∧
    (PromptsFine next p p.minLen → cachedSample D c ops chunk p = sampGenerate c ops p) := by
  unfold cachedSample sampGenerate
  cases hl : limits c p with
  | none => exact ⟨fun _ => rfl, fun _ => rfl⟩
  | some lim =>
    simp only [Option.bind_some, Option.bind_eq_bind, Option.pure_def]
    have hD := hD lim hl
    obtain ⟨hf1, hf2, -, hf4, hf5⟩ := limits_facts hl
    have hlne : p.lens ≠ [] := by
      intro h
      have := hp.rows
      rw [h] at this
      exact hp.nonempty (List.length_eq_zero_iff.mp this.symm)
    have h1 : 1 ≤ lim.minPrompt := by
      rw [hf1]
      exact le_minLen hlne hpos
    obtain ⟨lens0, hlens0⟩ := List.exists_mem_of_ne_nil _ hlne
    have hmin : p.minLen ≤ lens0 := (foldl_min_le' p.lens _).2 _ hlens0
    have hmax : lens0 ≤ p.maxLen := (foldl_max_ge p.lens 0).2 _ hlens0
    have hfit : p.maxLen ≤ p.width := foldl_max_le _ _ _ (Nat.zero_le _) hp.lens
    have hwid : ∀ row ∈ p.rows, lim.minPrompt ≤ row.length := by
      intro row hrow
      rw [hp.width row hrow]
      omega
    have hstart' : I lim.maxLen (D lim.maxLen).start ((indexed p.rows).map fun r => (r.1, r.2.take 0)) := by
      have e : ((indexed p.rows).map fun r => (r.1, r.2.take 0)) = (List.range p.rows.length).map fun i => (i, []) := by
        unfold indexed
        apply List.ext_getElem
        · simp
        · intro i h1 h2
          simp
      rw [e]
      exact hstart lim.maxLen
    have hfineIff : ∀ m, (∀ r ∈ indexed p.rows, ∀ k, 0 ≤ k → k < m - 1 → next r.1 (r.2.take (k + 1)) ≠ none) ↔
        PromptsFine next p m := by
      intro m
      constructor
      · intro h i row hrow k hk
        exact h (i, row) (indexed_mem.mpr hrow) k (Nat.zero_le _) (by omega)
      · intro h r hr k _ hk
        exact h r.1 r.2 (indexed_mem.mp hr) k (by omega)
    have hpre : (¬ PromptsFine next p lim.minPrompt →
        (if lim.minPrompt > 1 then samplePrefill (D lim.maxLen) chunk p.rows lim.minPrompt lim.minPrompt 0 (D lim.maxLen).start
          else some (D lim.maxLen).start) = none) ∧
        (PromptsFine next p lim.minPrompt → ∃ st,
          (if lim.minPrompt > 1 then samplePrefill (D lim.maxLen) chunk p.rows lim.minPrompt lim.minPrompt 0 (D lim.maxLen).start
            else some (D lim.maxLen).start) = some st ∧
            I lim.maxLen st ((indexed p.rows).map fun r => (r.1, r.2.take (lim.minPrompt - 1))) ∧
            (lim.minPrompt ≤ 1 → st = (D lim.maxLen).start)) := by
      by_cases hm : lim.minPrompt > 1
      · rw [if_pos hm]
        obtain ⟨q1, q2⟩ := sample_prefill hD chunk hp.nonempty hwid (by omega) (Q lim.minPrompt) (hchunk lim.minPrompt)
          lim.minPrompt 0 (D lim.maxLen).start (by omega) (by omega) (hQ _) hstart'
        refine ⟨?_, ?_⟩
        · intro hbad
          apply q1
          rw [← hfineIff] at hbad
          push Not at hbad
          exact hbad
        · intro hgood
          obtain ⟨st, g1, g2⟩ := q2 ((hfineIff _).mpr hgood)
          exact ⟨st, g1, g2, fun h => by omega⟩
      · rw [if_neg hm]
        refine ⟨?_, fun _ => ⟨_, rfl, ?_, fun _ => rfl⟩⟩
        · intro hbad
          exfalso
          apply hbad
          intro i row _ k hk
          omega
        · rw [show lim.minPrompt - 1 = 0 by omega]
          exact hstart'
    rw [← hf1]
    unfold samplePrepare
    refine ⟨fun hbad => by rw [hpre.1 hbad]; rfl, ?_⟩
    intro hgood
    obtain ⟨st, e1, e2, e3⟩ := hpre.2 hgood
    rw [e1]
    simp only [Option.bind_some]
    have hPpos : 0 < p.rows.length := List.length_pos_iff.mpr hp.nonempty
    have hrowlen : ∀ row ∈ p.rows, (row.take lim.maxPrompt).length = lim.maxPrompt := by
      intro row hrow
      rw [List.length_take, hp.width row hrow]
      omega
    have hinit : Lined lim.maxLen (sampInit ops lim p) := by
      refine ⟨by simp [sampInit], ?_, ?_, ?_⟩
      · intro h
        have := congrArg List.length h
        simp [sampInit] at this
        exact hp.nonempty this
      · intro row hrow
        obtain ⟨i, hi, rfl⟩ := List.getElem_of_mem hrow
        have hi' : i < p.rows.length := by simpa [sampInit] using hi
        have := hrowlen p.rows[i] (List.getElem_mem _)
        simp only [sampInit, List.getElem_mapIdx, List.length_append, List.length_map, List.length_range, this]
        omega
      · intro m hm
        simp only [sampInit] at hm ⊢
        split at hm
        · cases hm
          simp [hp.rows]
        · cases hm
    have hzip0 : (sampInit ops lim p).promptIdx.zip ((sampInit ops lim p).seqs.map (·.take (lim.minPrompt - 1))) =
        (indexed p.rows).map fun r => (r.1, r.2.take (lim.minPrompt - 1)) := by
      unfold indexed sampInit
      apply List.ext_getElem
      · simp
      · intro i h3 h4
        have hi : i < p.rows.length := by simpa using h3
        have w2 := hrowlen p.rows[i] (List.getElem_mem _)
        simp only [List.getElem_zip, List.getElem_map, List.getElem_range, List.getElem_mapIdx, Prod.mk.injEq,
          true_and]
        rw [List.take_append_of_le_length (by rw [w2]; omega), List.take_take, Nat.min_eq_left (by omega)]
    have hloop := samp_loop_same hD hlm hproc c lim (by omega) hone (lim.maxLen - lim.minPrompt)
    have hsub : lim.maxLen - (lim.maxLen - lim.minPrompt) - 1 = lim.minPrompt - 1 := by omega
    unfold fanOut
    by_cases hG : c.numGens > 1
    · rw [if_pos hG, if_pos hG]
      have hlen0 : (sampInit ops lim p).seqs.length = p.rows.length := by simp [sampInit]
      rw [hlen0]
      have horder : ∀ i ∈ fanOrder c p.rows.length, i < p.rows.length := by
        intro i hi
        unfold fanOrder at hi
        obtain ⟨j, hj, hi⟩ := List.mem_flatMap.mp hi
        rw [List.eq_of_mem_replicate hi]
        exact List.mem_range.mp hj
      have hfl : (fanOrder c p.rows.length).length = p.rows.length * c.numGens := by
        unfold fanOrder
        rw [List.length_flatMap]
        simp
      have hfne : (fanOrder c p.rows.length).length ≠ p.rows.length := by
        rw [hfl]
        intro h
        have : p.rows.length * c.numGens = p.rows.length * 1 := by omega
        have := Nat.eq_of_mul_eq_mul_left hPpos this
        omega
      have hIlen : ((indexed p.rows).map fun r => (r.1, r.2.take (lim.minPrompt - 1))).length = p.rows.length := by
        simp [indexed]
      have hst2 : ∃ st2, (D lim.maxLen).reorder st (fanOrder c p.rows.length) = some st2 ∧
          I lim.maxLen st2 ((fanOrder c p.rows.length).map fun i =>
            (((indexed p.rows).map fun r => (r.1, r.2.take (lim.minPrompt - 1)))[i]?).getD (0, [])) := by
        by_cases hm : lim.minPrompt > 1
        · apply hD.reorder st _ _ (lim.minPrompt - 1) e2 ?_ (by omega) ?_ ?_ ?_
          · intro h
            rw [h] at hIlen
            simp at hIlen
            omega
          · intro r hr
            obtain ⟨x, hx, rfl⟩ := List.mem_map.mp hr
            have := hwid _ (List.of_mem_zip hx).2
            simp
            omega
          · rw [hIlen]
            exact horder
          · intro _ hl
            rw [hIlen] at hl
            exact absurd hl hfne
        · rw [e3 (by omega)]
          obtain ⟨st2, g1, g2⟩ := hfan lim.maxLen (fanOrder c p.rows.length) hG (by omega) horder hfne
          refine ⟨st2, g1, ?_⟩
          have : ((fanOrder c p.rows.length).map fun i =>
            (((indexed p.rows).map fun r => (r.1, r.2.take (lim.minPrompt - 1)))[i]?).getD (0, [])) =
              (fanOrder c p.rows.length).map fun i => (i, []) := by
            apply List.map_congr_left
            intro i hi
            have hi := horder i hi
            have hx : (indexed p.rows)[i]? = some (i, p.rows[i]) := by
              unfold indexed
              rw [List.getElem?_zip_eq_some]
              exact ⟨List.getElem?_range hi, List.getElem?_eq_getElem hi⟩
            rw [List.getElem?_map, hx, show lim.minPrompt - 1 = 0 by omega]
            rfl
          rw [this]
          exact g2
      obtain ⟨st2, g1, g2⟩ := hst2
      rw [g1]
      simp only [Option.bind_some]
      have hfo : fanOrder c p.rows.length = (List.range p.rows.length).flatMap fun i => List.replicate c.numGens i := rfl
      rw [← hfo]
      cases hr : sampReorder (sampInit ops lim p) (fanOrder c p.rows.length) with
      | none => rfl
      | some s2 =>
        simp only [Option.bind_some]
        obtain ⟨l1, l2⟩ := reorder_lined hinit (fun h => by
          have : 0 < p.rows.length * c.numGens := Nat.mul_pos hPpos (by omega)
          rw [← hfl, h] at this
          exact absurd this (by simp)) hr (lim.minPrompt - 1)
        rw [hzip0] at l2
        rw [hloop s2 st2 (by omega) l1 (by rw [hsub, l2]; exact g2)]
        cases sampLoop c ops lim (lim.maxLen - lim.minPrompt) s2 <;> rfl
    · rw [if_neg hG, if_neg hG]
      simp only [Option.bind_some]
      rw [hloop _ st (by omega) hinit (by rw [hsub, hzip0]; exact e2)]
      cases sampLoop c ops lim (lim.maxLen - lim.minPrompt) (sampInit ops lim p) <;> rfl

end Fs2.Gen
