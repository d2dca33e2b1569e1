import Verif.Generation.Cached
import Verif.Generation.TextLemmas

/-!
Lemmas about beam search with a state bag (C107).
-/

namespace Fs2.Gen

variable {S σ : Type}

/-! ### The contract of a model with a state bag -/

/-- The sequences with a piece appended to each. -/
def appended (R : List (Nat × List Int)) (T : List (List Int)) : List (Nat × List Int) :=
  List.zipWith (fun r t => (r.1, r.2 ++ t)) R T

/-- The state holds sequences, for which `I` says how: a call with pieces of the same length (allowed by `Ok` after `a`
tokens) gives the log probabilities `next` after each of their tokens, and appends them; the state can be reordered. If
`needs`, an order that keeps the number of sequences has to keep the prompt of every place. -/
structure Remembers {P : Type} (D : Stateful P σ) (next : Nat → List Int → Option (List P))
    (I : σ → List (Nat × List Int) → Prop) (limit : Nat) (Ok : Nat → Nat → Prop) (needs : Prop) : Prop where
  feed : ∀ (st : σ) (R : List (Nat × List Int)) (T : List (List Int)) (a n : Nat), I st R → R ≠ [] →
    (∀ r ∈ R, r.2.length = a) → T.length = R.length → (∀ t ∈ T, t.length = n) → 1 ≤ n → a + n ≤ limit → Ok a n →
    (((R.zip T).mapM fun x => (List.range n).mapM fun j => next x.1.1 (x.1.2 ++ x.2.take (j + 1))) = none →
      D.feed st T = none) ∧
    ∀ o, ((R.zip T).mapM fun x => (List.range n).mapM fun j => next x.1.1 (x.1.2 ++ x.2.take (j + 1))) = some o →
      ∃ st', D.feed st T = some (o, st') ∧ I st' (appended R T)
  reorder : ∀ (st : σ) (R : List (Nat × List Int)) (order : List Nat) (a : Nat), I st R → R ≠ [] → 0 < a →
    (∀ r ∈ R, r.2.length = a) → (∀ i ∈ order, i < R.length) →
    (needs → order.length = R.length → ∀ (i j : Nat), order[i]? = some j → (R[j]?).map (·.1) = (R[i]?).map (·.1)) →
    ∃ st', D.reorder st order = some st' ∧ I st' (order.map fun i => (R[i]?).getD (0, []))

/-! ### The prefill -/

theorem fold_apart {α β γ : Type} (N : α → Option β) (G : γ → α → β → Option γ) : ∀ (l : List α) (x : γ),
    l.foldlM (fun x j => (N j).bind (G x j)) x =
      (l.mapM N).bind fun qs => (l.zip qs).foldlM (fun x jq => G x jq.1 jq.2) x := by
  intro l
  induction l with
  | nil => intro x; rfl
  | cons j l ih =>
    intro x
    rw [List.foldlM_cons, List.mapM_cons]
    simp only [Option.bind_eq_bind, Option.pure_def, ih]
    cases N j with
    | none => rfl
    | some q =>
      simp only [Option.bind_some]
      cases hl : l.mapM N with
      | none => simp only [Option.bind_none]; cases G x j q <;> rfl
      | some qs => rfl

theorem fold_map {α β γ : Type} (f : α → β) (g : γ → β → Option γ) : ∀ (l : List α) (x : γ),
    (l.map f).foldlM g x = l.foldlM (fun x a => g x (f a)) x := by
  intro l
  induction l with
  | nil => intro x; rfl
  | cons a l ih =>
    intro x
    rw [List.map_cons, List.foldlM_cons, List.foldlM_cons]
    congr 1
    funext y
    exact ih y

theorem fold_congr {α γ : Type} {f g : γ → α → Option γ} : ∀ (l : List α), (∀ a ∈ l, ∀ x, f x a = g x a) → ∀ x,
    l.foldlM f x = l.foldlM g x := by
  intro l
  induction l with
  | nil => intro _ x; rfl
  | cons a l ih =>
    intro h x
    rw [List.foldlM_cons, List.foldlM_cons, h a (by simp)]
    congr 1
    funext y
    exact ih (fun b hb => h b (by simp [hb])) y

theorem chunk_apart (next : List Int → Option (List LogP)) {row : List Int} {b size : Nat} (h : b + size + 1 ≤ row.length)
    (x : LogP) : chunkScore next row b size x =
      ((List.range size).mapM fun j => next (row.take b ++ ((row.drop b).take size).take (j + 1))).bind fun qs =>
        cachedScore row b size qs x := by
  have e1 : List.range' b size = (List.range size).map (b + ·) := by
    rw [List.range'_eq_map_range]
  have hN : ((List.range size).mapM fun j => next (row.take b ++ ((row.drop b).take size).take (j + 1))) =
      (List.range size).mapM fun j => next (row.take (b + j + 1)) := by
    apply mapM_eq_congr
    intro j hj
    have hj' := List.mem_range.mp hj
    congr 1
    rw [List.take_take, Nat.min_eq_left (by omega), Nat.add_assoc]
    exact List.take_add.symm
  rw [hN]
  unfold chunkScore cachedScore
  rw [e1, fold_map, fold_apart (fun j => next (row.take (b + j + 1)))
    (fun x j q => (row[b + j + 1]?).bind fun t => (gather q t).map fun w => x + w)]
  apply Option.bind_congr
  intro qs hqs
  have hlen : qs.length = size := by rw [mapM_len hqs, List.length_range]
  have hzip : ((row.drop (b + 1)).take size).zip qs = ((List.range size).zip qs).map fun jq =>
      ((row[b + jq.1 + 1]?).getD 0, jq.2) := by
    apply List.ext_getElem
    · simp [hlen]
      omega
    · intro i h1 h2
      have hi : i < size := by simp at h1; omega
      simp only [List.getElem_zip, List.getElem_take, List.getElem_drop, List.getElem_map, List.getElem_range]
      rw [show b + i + 1 = b + 1 + i by omega, List.getElem?_eq_getElem (by omega)]
      rfl
  rw [hzip, fold_map]
  apply fold_congr
  rintro ⟨j, q⟩ hj y
  have hj' := List.mem_range.mp (List.of_mem_zip hj).1
  simp only
  rw [List.getElem?_eq_getElem (by omega)]
  rfl

/-- The prompts with their indices. -/
def indexed (rows : List (List Int)) : List (Nat × List Int) := (List.range rows.length).zip rows

theorem indexed_take (rows : List (List Int)) (b : Nat) :
    indexed (rows.map (·.take b)) = (indexed rows).map fun r => (r.1, r.2.take b) := by
  unfold indexed
  rw [List.length_map]
  apply List.ext_getElem
  · simp
  · intro i h1 h2
    simp

theorem indexed_len (rows : List (List Int)) : (indexed rows).length = rows.length := by simp [indexed]

theorem zip_then {α β γ δ : Type} (l : List α) (f : α → Option β) (y : List γ) (h : α → β → γ → Option δ)
    (hy : y.length = l.length) :
    (l.mapM f).bind (fun o => (l.zip (o.zip y)).mapM fun x => h x.1 x.2.1 x.2.2) =
      (l.zip y).mapM fun x => (f x.1).bind fun o => h x.1 o x.2 := by
  induction l generalizing y with
  | nil => rfl
  | cons a l ih =>
    cases y with
    | nil => cases hy
    | cons c y =>
      have ih' := ih y (by simpa using hy)
      rw [List.zip_cons_cons, List.mapM_cons, List.mapM_cons, ← ih']
      simp only [Option.bind_eq_bind, Option.pure_def]
      cases f a with
      | none => rfl
      | some o =>
        simp only [Option.bind_some, Option.bind_assoc]
        cases hm : l.mapM f with
        | none => simp only [Option.bind_none]; cases h a o c <;> rfl
        | some os =>
          simp only [Option.bind_some, List.zip_cons_cons, List.mapM_cons, Option.bind_eq_bind, Option.pure_def]

theorem prefill_same {D : Stateful LogP σ} {next : Nat → List Int → Option (List LogP)} {I : σ → List (Nat × List Int) → Prop}
    {limit : Nat} {Ok : Nat → Nat → Prop} {needs : Prop} (hD : Remembers D next I limit Ok needs) (g : Generator Nat)
    (hg : g.next = next) {rows : List (List Int)} (hne : rows ≠ []) {m : Nat} (hm : ∀ row ∈ rows, m ≤ row.length)
    (hlim : m ≤ limit) (Q : Nat → Prop)
    (hok : ∀ b, Q b → b < m - 1 → Ok b (chunkSize g.chunk m b) ∧ Q (b + chunkSize g.chunk m b)) :
    ∀ (fuel b : Nat) (st : σ) (scores : List LogP), m - 1 ≤ b + fuel → b ≤ m - 1 → Q b →
      I st ((indexed rows).map fun r => (r.1, r.2.take b)) → scores.length = rows.length →
      (prefillLoop g (indexed rows) m fuel b scores = none → cachedPrefill D g.chunk rows m fuel b st scores = none) ∧
      ∀ out, prefillLoop g (indexed rows) m fuel b scores = some out →
        out.length = rows.length ∧
        ∃ st', cachedPrefill D g.chunk rows m fuel b st scores = some (out, st') ∧
          I st' ((indexed rows).map fun r => (r.1, r.2.take (m - 1))) := by
  intro fuel
  induction fuel with
  | zero =>
    intro b st scores h1 h2 hQ hI hs
    have hb : b = m - 1 := by omega
    subst hb
    exact ⟨fun h => (by cases h), fun out h => by
      cases h
      exact ⟨hs, st, rfl, hI⟩⟩
  | succ fuel ih =>
    intro b st scores h1 h2 hQ hI hs
    unfold prefillLoop cachedPrefill
    by_cases hb : b < m - 1
    · rw [if_pos hb, if_pos hb]
      obtain ⟨c1, c2⟩ := chunk_bounds g.chunk hb
      obtain ⟨size, hsize⟩ : ∃ size, size = chunkSize g.chunk m b := ⟨_, rfl⟩
      obtain ⟨hokb, hQb⟩ := hok b hQ hb
      rw [← hsize] at c1 c2 hokb hQb ⊢
      have hT : ∀ t ∈ rows.map (fun row => (row.drop b).take size), t.length = size := by
        intro t ht
        obtain ⟨row, hr, rfl⟩ := List.mem_map.mp ht
        have := hm row hr
        simp
        omega
      have hR : ∀ r ∈ (indexed rows).map (fun r => (r.1, r.2.take b)), r.2.length = b := by
        intro r hr
        obtain ⟨x, hx, rfl⟩ := List.mem_map.mp hr
        have := hm _ (List.of_mem_zip hx).2
        simp
        omega
      have hzip : ((indexed rows).map fun r => (r.1, r.2.take b)).zip (rows.map fun row => (row.drop b).take size) =
          (indexed rows).map fun r => ((r.1, r.2.take b), (r.2.drop b).take size) := by
        apply List.ext_getElem
        · simp [indexed]
        · intro i h1 h2
          simp [indexed]
      obtain ⟨f1, f2⟩ := hD.feed st _ (rows.map fun row => (row.drop b).take size) b size hI
        (by simpa [indexed] using hne) hR (by simp [indexed]) hT c1 (by omega) hokb
      rw [hzip, mapM_map_eq] at f1 f2
      have happ : appended ((indexed rows).map fun r => (r.1, r.2.take b)) (rows.map fun row => (row.drop b).take size) =
          (indexed rows).map fun r => (r.1, r.2.take (b + size)) := by
        unfold appended
        apply List.ext_getElem
        · simp [indexed]
        · intro i h1 h2
          simp [indexed, List.take_add]
      have hscore : ((indexed rows).zip scores).mapM (fun x => chunkScore (g.next x.1.1) x.1.2 b size x.2) =
          ((indexed rows).mapM fun r => (List.range size).mapM fun j =>
            next r.1 (r.2.take b ++ ((r.2.drop b).take size).take (j + 1))).bind fun o =>
              ((indexed rows).zip (o.zip scores)).mapM fun x => cachedScore x.1.2 b size x.2.1 x.2.2 := by
        rw [zip_then (indexed rows) _ scores (fun r qs x => cachedScore r.2 b size qs x) (by rw [hs, indexed_len])]
        apply mapM_eq_congr
        rintro ⟨⟨i, row⟩, x⟩ hx
        have := hm _ (List.of_mem_zip (List.of_mem_zip hx).1).2
        simp only
        rw [chunk_apart _ (by omega), hg]
      rw [hscore]
      dsimp only
      cases ho : (indexed rows).mapM (fun r => (List.range size).mapM fun j =>
            next r.1 (r.2.take b ++ ((r.2.drop b).take size).take (j + 1))) with
      | none =>
        rw [f1 ho]
        exact ⟨fun _ => rfl, fun out h => by cases h⟩
      | some o =>
        obtain ⟨st', e1, e2⟩ := f2 o ho
        rw [e1]
        simp only [Option.bind_some]
        have hlen : o.length = rows.length := by rw [mapM_len ho, indexed_len]
        have hz : (rows.zip (o.zip scores)).mapM (fun x => cachedScore x.1 b size x.2.1 x.2.2) =
            ((indexed rows).zip (o.zip scores)).mapM fun x => cachedScore x.1.2 b size x.2.1 x.2.2 := by
          have : rows.zip (o.zip scores) = ((indexed rows).zip (o.zip scores)).map fun x => (x.1.2, x.2) := by
            apply List.ext_getElem
            · simp [indexed]
            · intro i h1 h2
              simp [indexed]
          rw [this, mapM_map_eq]
        rw [hz]
        cases hsc : ((indexed rows).zip (o.zip scores)).mapM (fun x => cachedScore x.1.2 b size x.2.1 x.2.2) with
        | none => exact ⟨fun _ => rfl, fun out h => by cases h⟩
        | some scores' =>
          simp only [Option.bind_some]
          rw [happ] at e2
          refine ih (b + size) st' scores' (by omega) (by omega) hQb e2 ?_
          rw [mapM_len hsc]
          simp [indexed, hlen, hs]
    · rw [if_neg hb, if_neg hb]
      have hb' : b = m - 1 := by omega
      subst hb'
      exact ⟨fun h => (by cases h), fun out h => by
        cases h
        exact ⟨hs, st, rfl, hI⟩⟩

/-! ### A step -/

/-- The states have the same prompts and the same first `n` tokens. -/
def SameUpTo (n : Nat) (s s' : BeamState) : Prop :=
  s'.promptIdx = s.promptIdx ∧ s'.seqs.map (·.take n) = s.seqs.map (·.take n)

theorem finish_upto {c : Settings} {ops : BeamOps} {lim : Limits} {n : Nat} {s : BeamState} {x : Cand} {r : BeamState × Bool}
    (h : beamFinish c ops lim n s x = some r) : SameUpTo n s r.1 := by
  unfold beamFinish at h
  simp only [Option.bind_eq_bind, Option.bind_eq_some_iff, Option.pure_def] at h
  obtain ⟨row, h1, h⟩ := h
  have hr : ∃ out, r.1 = { s with seqs := s.seqs.set x.seqIdx (row.set n c.eos), output := out } := by
    repeat' split at h
    all_goals
      simp only [Option.bind_some, Option.bind_eq_some_iff, Option.some.injEq] at h
      first
        | (obtain ⟨_, -, _, -, rfl⟩ := h; exact ⟨_, rfl⟩)
        | (obtain ⟨_, -, _, -, _, -, rfl⟩ := h; exact ⟨_, rfl⟩)
  obtain ⟨out, hr⟩ := hr
  rw [hr]
  refine ⟨rfl, ?_⟩
  apply List.ext_getElem?
  intro i
  simp only [List.getElem?_map, List.getElem?_set]
  split
  · rename_i hi
    subst hi
    obtain ⟨hlt, hrow⟩ := List.getElem?_eq_some_iff.mp h1
    rw [if_pos hlt, h1]
    simp [List.take_set_of_le]
  · rfl

theorem finishLoop_upto {c : Settings} {ops : BeamOps} {lim : Limits} {n : Nat} : ∀ (xs : List Cand) {s : BeamState}
    {r : BeamState × Bool}, finishLoop c ops lim n xs s = some r → SameUpTo n s r.1 := by
  intro xs
  induction xs with
  | nil =>
    intro s r h
    cases h
    exact ⟨rfl, rfl⟩
  | cons x xs ih =>
    intro s r h
    unfold finishLoop at h
    cases hf : beamFinish c ops lim n s x with
    | none => rw [hf] at h; cases h
    | some t =>
      rw [hf] at h
      have h1 := finish_upto hf
      obtain ⟨t, b⟩ := t
      cases b with
      | true =>
        cases h
        exact h1
      | false =>
        have h2 := ih h
        exact ⟨h2.1.trans h1.1, h2.2.trans h1.2⟩

theorem searchBeam_upto {c : Settings} {ops : BeamOps} {lim : Limits} {n b off : Nat} {lps : List (List LogP)}
    {scores : List LogP} {s : BeamState} {r : BeamState × Option (List Cand)}
    (h : searchBeam c ops lim n b off lps scores s = some r) : SameUpTo n s r.1 := by
  unfold searchBeam at h
  split at h
  · cases h
  · simp only [Option.map_eq_some_iff] at h
    obtain ⟨_, -, rfl⟩ := h
    exact ⟨rfl, rfl⟩
  · split at h
    · cases h
    · dsimp only at h
      split at h
      · split at h
        · cases h
        · rename_i hf
          cases h
          exact finishLoop_upto _ hf
        · rename_i hf
          cases h
          exact finishLoop_upto _ hf
      · cases h
        exact ⟨rfl, rfl⟩

theorem searchBeams_upto {c : Settings} {ops : BeamOps} {lim : Limits} {n : Nat} : ∀ (sizes : List Nat) {b off : Nat}
    {lps : List (List LogP)} {scores : List LogP} {s : BeamState} {r : BeamState × List (List Cand)},
    searchBeams c ops lim n b off sizes lps scores s = some r → SameUpTo n s r.1 := by
  intro sizes
  induction sizes with
  | nil =>
    intro b off lps scores s r h
    cases h
    exact ⟨rfl, rfl⟩
  | cons size sizes ih =>
    intro b off lps scores s r h
    unfold searchBeams at h
    cases hf : searchBeam c ops lim n b off (lps.take size) (scores.take size) s with
    | none => rw [hf] at h; cases h
    | some t =>
      rw [hf] at h
      have h1 := searchBeam_upto hf
      obtain ⟨t, o⟩ := t
      cases o with
      | none =>
        have h2 := ih h
        exact ⟨h2.1.trans h1.1, h2.2.trans h1.2⟩
      | some next =>
        dsimp only at h
        split at h
        · cases h
        · simp only [Option.map_eq_some_iff] at h
          obtain ⟨q, hq, rfl⟩ := h
          have h2 := ih hq
          exact ⟨h2.1.trans h1.1, h2.2.trans h1.2⟩

theorem finishLoop_ops {c : Settings} {ops ops' : BeamOps} (hn : ops'.normalize = ops.normalize) {lim : Limits} {n : Nat} :
    ∀ (xs : List Cand) (s : BeamState), finishLoop c ops' lim n xs s = finishLoop c ops lim n xs s := by
  intro xs
  induction xs with
  | nil => intro s; rfl
  | cons x xs ih =>
    intro s
    have hf : beamFinish c ops' lim n s x = beamFinish c ops lim n s x := by
      unfold beamFinish
      rw [hn]
    unfold finishLoop
    rw [hf]
    cases beamFinish c ops lim n s x with
    | none => rfl
    | some t =>
      obtain ⟨t, b⟩ := t
      cases b with
      | true => rfl
      | false => exact ih t

theorem searchBeams_ops {c : Settings} {ops ops' : BeamOps} (hn : ops'.normalize = ops.normalize)
    (ht : ops'.topk = ops.topk) {lim : Limits} {n : Nat} : ∀ (sizes : List Nat) (b off : Nat) (lps : List (List LogP))
    (scores : List LogP) (s : BeamState),
    searchBeams c ops' lim n b off sizes lps scores s = searchBeams c ops lim n b off sizes lps scores s := by
  intro sizes
  induction sizes with
  | nil => intro b off lps scores s; rfl
  | cons size sizes ih =>
    intro b off lps scores s
    have hs : searchBeam c ops' lim n b off (lps.take size) (scores.take size) s =
        searchBeam c ops lim n b off (lps.take size) (scores.take size) s := by
      have ha : algoStep ops' n b c.numGens (lps.take size) (scores.take size) =
          algoStep ops n b c.numGens (lps.take size) (scores.take size) := by
        unfold algoStep
        rw [ht]
      unfold searchBeam
      simp only [ha, finishLoop_ops hn]
    unfold searchBeams
    rw [hs]
    simp only [ih]

theorem adjust_ops {c : Settings} {ops ops' : BeamOps} (hp : ops'.process = ops.process) (lim : Limits) (n : Nat)
    (seqs : List (List Int)) (lps : List (List LogP)) : adjust c ops' lim n seqs lps = adjust c ops lim n seqs lps := by
  unfold adjust
  rw [hp]

theorem select_get {β : Type} {l l' : List β} {order : List Nat} (h : indexSelect l order = some l') :
    l'.length = order.length ∧ ∀ (i j : Nat), order[i]? = some j → ∃ x, l[j]? = some x ∧ l'[i]? = some x := by
  unfold indexSelect at h
  refine ⟨mapM_len h, ?_⟩
  intro i j hj
  obtain ⟨x, h1, h2⟩ := (mapM_length order _ l' h).2 i j hj
  exact ⟨x, h2, h1⟩

theorem advance_true {n : Nat} {nexts : List (List Cand)} {s s' : BeamState} (h : advance n nexts s = some (s', true)) :
    nexts.length ≠ 0 ∧ indexSelect s.promptIdx (nexts.flatten.map (·.seqIdx)) = some s'.promptIdx ∧
      ∃ seqs, indexSelect s.seqs (nexts.flatten.map (·.seqIdx)) = some seqs ∧
        s'.seqs.map (·.take n) = seqs.map (·.take n) := by
  unfold advance at h
  split at h
  · simp at h
  · rename_i hne
    refine ⟨hne, ?_⟩
    simp only [Option.map_eq_some_iff, Prod.mk.injEq, and_true] at h
    obtain ⟨t, ht, rfl⟩ := h
    unfold beamReorder at ht
    simp only [Option.bind_eq_bind, Option.bind_eq_some_iff, Option.pure_def, Option.some.injEq] at ht
    obtain ⟨pl, -, pm, -, pi, h1, seqs, h2, rfl⟩ := ht
    refine ⟨h1, seqs, h2, ?_⟩
    have hlen := (select_get h2).1
    simp only [List.length_map] at hlen
    apply List.ext_getElem
    · simp [hlen]
    · intro i h3 h4
      simp [List.take_set_of_le]

theorem advance_false {n : Nat} {nexts : List (List Cand)} {s s' : BeamState} (h : advance n nexts s = some (s', false)) :
    nexts.length = 0 ∧ s' = s := by
  unfold advance at h
  split at h
  · rename_i h0
    simp only [Option.some.injEq, Prod.mk.injEq, and_true] at h
    exact ⟨h0, h.symm⟩
  · simp only [Option.map_eq_some_iff, Prod.mk.injEq] at h
    obtain ⟨t, -, -, h⟩ := h
    cases h

theorem step_same {D : Stateful LogP σ} {next : Nat → List Int → Option (List LogP)} {I : σ → List (Nat × List Int) → Prop}
    {limit : Nat} {Ok : Nat → Nat → Prop} {needs : Prop} (hD : Remembers D next I limit Ok needs) {ops ops' : BeamOps}
    (hlm : ∀ src seqs, src.length = seqs.length → ops.lm src seqs = (src.zip seqs).mapM fun x => next x.1 x.2)
    (hproc : ops'.process = ops.process) (hnorm : ops'.normalize = ops.normalize) (htop : ops'.topk = ops.topk)
    (c : Settings) (lim : Limits) {n : Nat} {s : BeamState} {st : σ} (hn : 1 ≤ n) (hlim : n ≤ limit) (hok : Ok (n - 1) 1)
    (hne : s.seqs ≠ []) (hidx : s.promptIdx.length = s.seqs.length) (hseq : ∀ row ∈ s.seqs, n ≤ row.length)
    (hI : I st (s.promptIdx.zip (s.seqs.map (·.take (n - 1))))) :
    (beamStep c ops lim n s = none → cachedStep c ops' D lim n s st = none) ∧
    (∀ s', beamStep c ops lim n s = some (s', false) → ∃ st', cachedStep c ops' D lim n s st = some (s', st', false)) ∧
    (∀ s', beamStep c ops lim n s = some (s', true) →
      (needs → s'.promptIdx.length = s.promptIdx.length → s'.promptIdx = s.promptIdx) →
      ∃ st', cachedStep c ops' D lim n s st = some (s', st', true) ∧
        I st' (s'.promptIdx.zip (s'.seqs.map (·.take n)))) := by
  have hbind : beamStep c ops lim n s = (ops.lm s.promptIdx (s.seqs.map (·.take n))).bind fun lps =>
      (adjust c ops lim n s.seqs lps).bind fun L => (searchBeams c ops lim n 0 0 s.beamSizes L s.scores s).bind fun r =>
        advance n r.2 r.1 := by
    unfold beamStep
    simp only [Option.bind_eq_bind]
  obtain ⟨f1, f2⟩ := hD.feed st _ (s.seqs.map fun row => (row.drop (n - 1)).take 1) (n - 1) 1 hI
    (by
      intro h
      have h1 := congrArg List.length h
      have h2 := List.length_pos_iff.mpr hne
      rw [List.length_zip, List.length_map, hidx, Nat.min_self, List.length_nil] at h1
      omega)
    (by
      intro r hr
      obtain ⟨row, hrow, e⟩ := List.mem_map.mp (List.of_mem_zip hr).2
      have := hseq row hrow
      rw [← e]
      simp
      omega)
    (by simp [hidx])
    (by
      intro t ht
      obtain ⟨row, hrow, rfl⟩ := List.mem_map.mp ht
      have := hseq row hrow
      simp
      omega) (le_refl _) (by omega) hok
  have htake : ∀ row : List Int, row.take (n - 1) ++ (row.drop (n - 1)).take 1 = row.take n := by
    intro row
    rw [← List.take_add]
    congr 1
    omega
  have hzip : (s.promptIdx.zip (s.seqs.map (·.take (n - 1)))).zip (s.seqs.map fun row => (row.drop (n - 1)).take 1) =
      (s.promptIdx.zip s.seqs).map fun x => ((x.1, x.2.take (n - 1)), (x.2.drop (n - 1)).take 1) := by
    apply List.ext_getElem
    · simp [hidx]
    · intro i h1 h2
      simp
  have happ : appended (s.promptIdx.zip (s.seqs.map (·.take (n - 1)))) (s.seqs.map fun row => (row.drop (n - 1)).take 1) =
      s.promptIdx.zip (s.seqs.map (·.take n)) := by
    unfold appended
    apply List.ext_getElem
    · simp
    · intro i h1 h2
      simp only [List.getElem_zipWith, List.getElem_zip, List.getElem_map, htake]
  rw [hzip, mapM_map_eq] at f1 f2
  rw [happ] at f2
  have hlm' : ops.lm s.promptIdx (s.seqs.map (·.take n)) =
      ((s.promptIdx.zip s.seqs).mapM fun x => (List.range 1).mapM fun j =>
        next x.1 (x.2.take (n - 1) ++ ((x.2.drop (n - 1)).take 1).take (j + 1))).bind fun o =>
          o.mapM fun (qs : List (List LogP)) => qs.head? := by
    rw [hlm _ _ (by simp [hidx]), mapM_then]
    have : s.promptIdx.zip (s.seqs.map (·.take n)) = (s.promptIdx.zip s.seqs).map fun x => (x.1, x.2.take n) := by
      apply List.ext_getElem
      · simp
      · intro i h1 h2
        simp
    rw [this, mapM_map_eq]
    apply mapM_eq_congr
    rintro ⟨i, row⟩ -
    simp only [List.range_one, List.mapM_cons, List.mapM_nil, Option.bind_eq_bind, Option.pure_def, Nat.zero_add,
      List.take_take, Nat.min_self, htake]
    cases next i (row.take n) <;> rfl
  rw [hbind, hlm']
  unfold cachedStep
  cases ho : (s.promptIdx.zip s.seqs).mapM (fun x => (List.range 1).mapM fun j =>
        next x.1 (x.2.take (n - 1) ++ ((x.2.drop (n - 1)).take 1).take (j + 1))) with
  | none =>
    rw [f1 ho]
    exact ⟨fun _ => rfl, fun s' h => (by cases h), fun s' h => (by cases h)⟩
  | some o =>
    obtain ⟨st', e1, e2⟩ := f2 o ho
    rw [e1]
    simp only [Option.bind_some, adjust_ops hproc, searchBeams_ops hnorm htop]
    cases o.mapM (fun (qs : List (List LogP)) => qs.head?) with
    | none => exact ⟨fun _ => rfl, fun s' h => (by cases h), fun s' h => (by cases h)⟩
    | some lps =>
      simp only [Option.bind_some]
      cases adjust c ops lim n s.seqs lps with
      | none => exact ⟨fun _ => rfl, fun s' h => (by cases h), fun s' h => (by cases h)⟩
      | some L =>
        simp only [Option.bind_some]
        cases hf : searchBeams c ops lim n 0 0 s.beamSizes L s.scores s with
        | none => exact ⟨fun _ => rfl, fun s' h => (by cases h), fun s' h => (by cases h)⟩
        | some f =>
          simp only [Option.bind_some]
          have hup := searchBeams_upto _ hf
          cases ha : advance n f.2 f.1 with
          | none => exact ⟨fun _ => rfl, fun s' h => (by cases h), fun s' h => (by cases h)⟩
          | some a =>
            simp only [Option.bind_some]
            obtain ⟨t, b⟩ := a
            refine ⟨fun h => (by cases h), ?_, ?_⟩
            · intro s' h
              cases h
              obtain ⟨h0, -⟩ := advance_false ha
              rw [if_pos h0]
              exact ⟨st', rfl⟩
            · intro s' h hk
              obtain rfl : t = s' := congrArg Prod.fst (Option.some.inj h)
              obtain rfl : b = true := congrArg Prod.snd (Option.some.inj h)
              obtain ⟨h0, g1, seqs, g2, g3⟩ := advance_true ha
              rw [if_neg h0]
              obtain ⟨order, ho'⟩ : ∃ order, order = f.2.flatten.map (·.seqIdx) := ⟨_, rfl⟩
              rw [← ho'] at g1 g2 ⊢
              rw [hup.1] at g1
              obtain ⟨k1, k2⟩ := select_get g1
              obtain ⟨k3, k4⟩ := select_get g2
              have hupl : f.1.seqs.length = s.seqs.length := by
                have := congrArg List.length hup.2
                simpa using this
              have hRget : ∀ (i j : Nat), order[i]? = some j → ∃ q row, s.promptIdx[j]? = some q ∧ t.promptIdx[i]? = some q ∧
                  (s.seqs.map (·.take n))[j]? = some row ∧ (t.seqs.map (·.take n))[i]? = some row := by
                intro i j hij
                obtain ⟨q, q1, q2⟩ := k2 i j hij
                obtain ⟨row, r1, r2⟩ := k4 i j hij
                refine ⟨q, row.take n, q1, q2, ?_, ?_⟩
                · rw [← hup.2, List.getElem?_map, r1]
                  rfl
                · rw [g3, List.getElem?_map, r2]
                  rfl
              obtain ⟨st'', e3, e4⟩ := hD.reorder st' _ order n e2
                (by
                  intro h
                  have h1 := congrArg List.length h
                  have h2 := List.length_pos_iff.mpr hne
                  rw [List.length_zip, List.length_map, hidx, Nat.min_self, List.length_nil] at h1
                  omega) (by omega)
                (by
                  intro r hr
                  obtain ⟨row, hrow, e⟩ := List.mem_map.mp (List.of_mem_zip hr).2
                  have := hseq row hrow
                  rw [← e]
                  simp
                  omega)
                (by
                  intro j hj
                  obtain ⟨i, hi⟩ := List.mem_iff_getElem?.mp hj
                  obtain ⟨q, row, q1, -⟩ := hRget i j hi
                  have h2 := (List.getElem?_eq_some_iff.mp q1).1
                  rw [List.length_zip, List.length_map, ← hidx, Nat.min_self]
                  exact h2)
                (by
                  intro hneeds hl i j hij
                  have hkeep := hk hneeds (by rw [k1, hl]; simp [hidx])
                  obtain ⟨q, row, q1, q2, r1, r2⟩ := hRget i j hij
                  rw [hkeep] at q2
                  obtain ⟨hi1, -⟩ := List.getElem?_eq_some_iff.mp q2
                  have z1 : (s.promptIdx.zip (s.seqs.map (·.take n)))[j]? = some (q, row) := by
                    rw [List.getElem?_zip_eq_some]
                    exact ⟨q1, r1⟩
                  have z2 : ∃ row', (s.promptIdx.zip (s.seqs.map (·.take n)))[i]? = some (q, row') := by
                    refine ⟨(s.seqs.map (·.take n))[i]'(by simp; omega), ?_⟩
                    rw [List.getElem?_zip_eq_some]
                    exact ⟨q2, List.getElem?_eq_getElem _⟩
                  obtain ⟨row', z2⟩ := z2
                  rw [z1, z2]
                  rfl)
              refine ⟨st'', by rw [e3]; rfl, ?_⟩
              have : (order.map fun i => ((s.promptIdx.zip (s.seqs.map (·.take n)))[i]?).getD (0, [])) =
                  t.promptIdx.zip (t.seqs.map (·.take n)) := by
                have hl2 : t.seqs.length = order.length := by
                  have := congrArg List.length g3
                  simp at this
                  omega
                apply List.ext_getElem?
                intro i
                by_cases hi : i < order.length
                · have hij := List.getElem?_eq_getElem hi
                  obtain ⟨q, row, q1, q2, r1, r2⟩ := hRget i _ hij
                  rw [List.getElem?_map, hij]
                  have z1 : (s.promptIdx.zip (s.seqs.map (·.take n)))[order[i]]? = some (q, row) := by
                    rw [List.getElem?_zip_eq_some]
                    exact ⟨q1, r1⟩
                  have z2 : (t.promptIdx.zip (t.seqs.map (·.take n)))[i]? = some (q, row) := by
                    rw [List.getElem?_zip_eq_some]
                    exact ⟨q2, r2⟩
                  rw [z2, Option.map_some, z1]
                  rfl
                · rw [List.getElem?_eq_none (by simp; omega), List.getElem?_eq_none (by simp; omega)]
              rw [this] at e4
              exact e4

end Fs2.Gen
