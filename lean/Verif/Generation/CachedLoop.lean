import Verif.Generation.CachedLemmas

/-!
Lemmas about beam search with a state bag (C107): the loop and the generation.
-/

namespace Fs2.Gen

variable {S σ : Type}

theorem loop_same {D : Stateful LogP σ} {R : RowOps} {V : Nat} {I : σ → List (Nat × List Int) → Prop}
    {limit : Nat} {Ok : Nat → Nat → Prop} {needs : Prop} (hD : Remembers D R.next I limit Ok needs) {ops ops' : BeamOps}
    (hr : RowWise ops R V)
    (hproc : ops'.process = ops.process) (hnorm : ops'.normalize = ops.normalize) (htop : ops'.topk = ops.topk)
    (c : Settings) {p : Prompts} {lim : Limits} (hp : Shaped p lim) (hlim : lim.maxLen ≤ limit + 1)
    (hok : ∀ a, a + 1 ≤ limit → Ok a 1) (K : Nat → List (Nat × Lane) → List (List Hyp) → Prop)
    (hK : needs → ∀ n lanes out rs, K n lanes out → (lanes.map (·.1)).Nodup → (∀ l ∈ lanes, l.1 < out.length) →
      lanes.mapM (fun l => laneFound c R ops.normalize lim n (p.lens.getD l.1 0) l.1 l.2 (out.getD l.1 [])) = some rs →
      K (n + 1) (nextLanes p n lanes rs) (setAll out lanes rs) ∧
        ((ent (nextLanes p n lanes rs)).length = (ent lanes).length →
          (ent (nextLanes p n lanes rs)).map (·.1) = (ent lanes).map (·.1))) :
    ∀ (k : Nat) (lanes : List (Nat × Lane)) (s : BeamState) (st : σ), k < lim.maxLen → lanes ≠ [] →
      (∀ l ∈ lanes, l.2.rows ≠ []) → (lanes.map (·.1)).Nodup → Rep p lim (lim.maxLen - k) lanes s →
      (needs → K (lim.maxLen - k) lanes s.output) →
      I st (s.promptIdx.zip (s.seqs.map (·.take (lim.maxLen - k - 1)))) →
      cachedLoop c ops' D lim k s st = beamLoop c ops lim k s := by
  intro k
  induction k with
  | zero => intro lanes s st _ _ _ _ _ _ _; rfl
  | succ k ih =>
    intro lanes s st hk hl hne hnd hs hKs hI
    have hn : lim.maxLen - (k + 1) < lim.maxLen := by omega
    have hent : ent lanes ≠ [] := by
      cases lanes with
      | nil => exact absurd rfl hl
      | cons l ls =>
        have := hne l (by simp)
        unfold ent
        simp [this]
    obtain ⟨a1, a2, a3⟩ := step_same hD hr.lm hproc hnorm htop c lim (n := lim.maxLen - (k + 1)) (s := s) (st := st)
      (by omega) (by omega) (hok _ (by omega))
      (by
        intro h
        have h1 := hs.rows
        rw [h] at h1
        exact hent (List.length_eq_zero_iff.mp h1.symm))
      (by rw [hs.idx, hs.rows, List.length_map])
      (by
        intro row hrow
        obtain ⟨r, hr1⟩ := List.mem_iff_getElem?.mp hrow
        have hlt := (List.getElem?_eq_some_iff.mp hr1).1
        obtain ⟨seq, e1, e2, -⟩ := hs.seq r _ (List.getElem?_eq_getElem (by rw [← hs.rows]; exact hlt))
        rw [hr1] at e1
        cases e1
        omega)
      hI
    have hloop : beamLoop c ops lim (k + 1) s = (beamStep c ops lim (lim.maxLen - (k + 1)) s).bind fun r =>
        if r.2 then beamLoop c ops lim k r.1 else some r.1 := rfl
    rw [hloop]
    unfold cachedLoop
    obtain ⟨t1, t2⟩ := step_rel hr c hp hn hne hnd hs
    cases hm : lanes.mapM (fun l => laneFound c R ops.normalize lim (lim.maxLen - (k + 1)) (p.lens.getD l.1 0) l.1 l.2
        (s.output.getD l.1 [])) with
    | none =>
      rw [t1 hm, a1 (t1 hm)]
      rfl
    | some rs =>
      rcases t2 rs hm with ⟨e1, s', e2, e3⟩ | ⟨e1, s', e2, e3, e4, e5, e6⟩
      · obtain ⟨st', e4⟩ := a2 s' e2
        rw [e2, e4]
        rfl
      · have hlt : ∀ l ∈ lanes, l.1 < s.output.length := fun l hl => by rw [hs.out]; exact hs.known l hl
        obtain ⟨st', b1, b2⟩ := a3 s' e2 (by
          intro hneeds hlen
          have := (hK hneeds _ lanes s.output rs (hKs hneeds) hnd hlt hm).2
          rw [e3.idx, hs.idx] at hlen ⊢
          rw [List.length_map, List.length_map] at hlen
          exact this hlen)
        rw [e2, b1]
        simp only [Option.bind_some]
        have en : lim.maxLen - k = lim.maxLen - (k + 1) + 1 := by omega
        refine (if_pos trivial).trans (Eq.trans ?_ (if_pos trivial).symm)
        apply ih (nextLanes p (lim.maxLen - (k + 1)) lanes rs) s' st' (by omega) e1 e5 e6
        · rw [en]
          exact e3
        · intro hneeds
          rw [en, e4]
          exact (hK hneeds _ lanes s.output rs (hKs hneeds) hnd hlt hm).1
        · rw [en]
          exact b2

/-! ### The sizes of the beams -/

theorem filter_bound {B V e : Nat} (l : List Nat) (hnd : l.Nodup) (hlt : ∀ j ∈ l, j / V < B) :
    (l.filter fun j => j % V == e).length ≤ B := by
  have h1 : ((l.filter fun j => j % V == e).map (· / V)).Nodup := by
    apply List.Nodup.map_on
    · intro a ha b hb hab
      simp only [List.mem_filter, beq_iff_eq] at ha hb
      rw [← Nat.div_add_mod a V, ← Nat.div_add_mod b V, hab, ha.2, hb.2]
    · exact hnd.filter _
  have h2 : ((l.filter fun j => j % V == e).map (· / V)) ⊆ List.range B := by
    intro x hx
    obtain ⟨j, hj, rfl⟩ := List.mem_map.mp hx
    exact List.mem_range.mpr (hlt j (List.mem_filter.mp hj).1)
  have := (List.subperm_of_subset h1 h2).length_le
  simpa using this

/-- What `topk` returns: as many indices as asked for, none twice. -/
def Picks (tk : Nat → List LogP → Option (List Nat)) : Prop := ∀ k vs l, tk k vs = some l → l.length = k ∧ l.Nodup

theorem algo_sizes {tk : Nat → List LogP → Option (List Nat)} (ht : Picks tk) {beam V e : Nat} {lps : List (List LogP)}
    {scores : List LogP} {cs : List Cand} (hV : ∀ q ∈ lps, q.length = V) (h2 : 2 * beam ≤ V)
    (h : algo tk beam lps scores = some cs) :
    cs.length = 2 * beam ∧ (cs.filter fun x => x.vocab == (e : Int)).length ≤ lps.length := by
  have hrange := algo_range hV h
  unfold algo at h
  simp only [Option.bind_eq_bind, Option.bind_eq_some_iff, Option.map_eq_some_iff] at h
  obtain ⟨W, ⟨q, hq, rfl⟩, top, htop, hm⟩ := h
  have hq' : q.length = V := hV q (List.mem_of_head? hq)
  rw [hq'] at htop hm
  obtain ⟨t1, t2⟩ := ht _ _ _ htop
  have hcs : cs.map (fun x => (x.seqIdx, x.vocab)) = top.map fun j => (j / V, ((j % V : Nat) : Int)) := by
    clear htop t1 t2 hrange
    generalize (List.zipWith (fun (row : List LogP) (x : LogP) => row.map (· + x)) lps scores).flatten = values at hm
    induction top generalizing cs with
    | nil => simp at hm; subst hm; rfl
    | cons j top ih =>
      rw [List.mapM_cons] at hm
      simp only [Option.bind_eq_bind, Option.bind_eq_some_iff, Option.map_eq_some_iff, Option.pure_def,
        Option.some.injEq] at hm
      obtain ⟨_, ⟨x, -, rfl⟩, cs', hcs', rfl⟩ := hm
      rw [List.map_cons, List.map_cons, ih hcs']
  have hl : cs.length = top.length := by
    have := congrArg List.length hcs
    simpa using this
  refine ⟨by rw [hl, t1]; omega, ?_⟩
  have e1 : (cs.filter fun x => x.vocab == (e : Int)).length =
      ((cs.map fun x => (x.seqIdx, x.vocab)).filter fun y => y.2 == (e : Int)).length := by
    rw [List.filter_map, List.length_map]
    rfl
  rw [e1, hcs, List.filter_map, List.length_map]
  have e2 : ((fun y : Nat × Int => y.2 == (e : Int)) ∘ fun j : Nat => (j / V, ((j % V : Nat) : Int))) = fun j => j % V == e := by
    funext j
    simp only [Function.comp]
    rw [Bool.eq_iff_iff]
    simp only [beq_iff_eq]
    omega
  rw [e2]
  apply filter_bound top t2
  intro j hj
  obtain ⟨i, hi, rfl⟩ := List.getElem_of_mem hj
  have h3 : i < cs.length := by omega
  have := congrArg (·[i]?) hcs
  simp only [List.getElem?_map, List.getElem?_eq_getElem hi, List.getElem?_eq_getElem h3, Option.map_some,
    Option.some.injEq, Prod.mk.injEq] at this
  rw [← this.1]
  exact hrange _ (List.getElem_mem _)

theorem search_sizes {c : Settings} {R : RowOps} (ht : Picks R.topk) {norm : Nat → LogP → LogP} {n len V : Nat} {ln : Lane}
    {lps : List (List LogP)} {h : List Hyp} {r : List Hyp × Option (List Cand)} (hV : ∀ q ∈ lps, q.length = V)
    (h2 : 2 * c.numGens ≤ V) (hl : lps.length ≤ c.numGens) (hlen : len ≤ n)
    (hs : laneSearch c R norm n len ln lps h = some r) :
    (∀ next, r.2 = some next → next.length = c.numGens) ∧
      (lps.length = 1 → h = [] → 2 ≤ c.numGens → r.2 ≠ none) := by
  unfold laneSearch at hs
  rw [if_neg (by omega)] at hs
  cases ha : algo R.topk c.numGens lps ln.scores with
  | none => rw [ha] at hs; cases hs
  | some cs =>
    rw [ha] at hs
    dsimp only at hs
    obtain ⟨s1, s2⟩ := algo_sizes (e := c.eos) ht hV h2 ha
    have hsum : (cs.filter fun x => x.vocab != (c.eos : Int)).length + (cs.filter fun x => x.vocab == (c.eos : Int)).length =
        cs.length := by
      rw [← List.countP_eq_length_filter, ← List.countP_eq_length_filter, Nat.add_comm]
      have := List.length_eq_countP_add_countP (fun x : Cand => x.vocab == (c.eos : Int)) (l := cs)
      rw [this]
      congr 1
      apply List.countP_congr
      intro x _
      simp
    split at hs
    · split at hs
      · cases hs
      · rename_i hf
        cases hs
        refine ⟨fun next h => (by cases h), ?_⟩
        intro h1 hh h3
        exfalso
        subst hh
        have hends : ((cs.take c.numGens).filter fun x => x.vocab == (c.eos : Int)).length ≤ 1 := by
          have := ((List.take_sublist c.numGens cs).filter fun x => x.vocab == (c.eos : Int)).length_le
          omega
        generalize (cs.take c.numGens).filter (fun x => x.vocab == (c.eos : Int)) = ends at hf hends
        match ends, hf, hends with
        | [], hf, _ => simp [laneFinish] at hf
        | [x], hf, _ =>
          unfold laneFinish at hf
          split at hf
          · cases hf
          · dsimp only at hf
            rw [if_neg (by simp; omega)] at hf
            simp [laneFinish] at hf
        | _ :: _ :: _, _, h => simp at h
      · cases hs
        refine ⟨?_, fun _ _ _ h => (by cases h)⟩
        intro next h
        cases h
        rw [List.length_take]
        omega
    · cases hs
      refine ⟨?_, fun _ _ _ h => (by cases h)⟩
      intro next h
      cases h
      rw [List.length_take]
      omega

theorem found_sizes {c : Settings} {R : RowOps} {V : Nat} (ht : Picks R.topk) {norm : Nat → LogP → LogP} {lim : Limits}
    (hrow : ∀ i s q n, rowFn c R.proc lim n (R.next i) s = some q → q.length = V)
    {n len src : Nat} {ln : Lane} {h : List Hyp} {r : List Hyp × Option (List Cand)}
    (h2 : 2 * c.numGens ≤ V) (hl : ln.rows.length ≤ c.numGens) (hlen : len ≤ n)
    (hs : laneFound c R norm lim n len src ln h = some r) :
    (∀ next, r.2 = some next → next.length = c.numGens) ∧
      (ln.rows.length = 1 → h = [] → 2 ≤ c.numGens → r.2 ≠ none) := by
  unfold laneFound at hs
  simp only [Option.bind_eq_some_iff] at hs
  obtain ⟨lps, h1, r', h3, h4⟩ := hs
  have hll := mapM_len h1
  have hrr : r' = r := by
    unfold laneCheck at h4
    split at h4
    · cases h4; rfl
    · split at h4
      · cases h4
      · cases h4; rfl
  subst hrr
  rw [← hll] at hl ⊢
  refine search_sizes ht ?_ h2 hl hlen h3
  intro q hq
  obtain ⟨s, -, hs⟩ := mapM_mem h1 q hq
  exact hrow _ _ _ _ hs

/-- All beams have their full size, or it is the first step. -/
def FullBeams (c : Settings) (lim : Limits) (n : Nat) (lanes : List (Nat × Lane)) (out : List (List Hyp)) : Prop :=
  lim.minPrompt ≤ n ∧ ((∀ l ∈ lanes, l.2.rows.length = c.numGens) ∨
    ∀ l ∈ lanes, l.2.rows.length = 1 ∧ out.getD l.1 [] = [])

theorem ent_fst_of {k : Nat} : ∀ (lanes : List (Nat × Lane)), (∀ l ∈ lanes, l.2.rows.length = k) →
    (ent lanes).map (·.1) = (lanes.map (·.1)).flatMap (List.replicate k) ∧ (ent lanes).length = k * lanes.length := by
  intro lanes
  induction lanes with
  | nil => intro _; exact ⟨rfl, rfl⟩
  | cons l ls ih =>
    intro h
    obtain ⟨h1, h2⟩ := ih fun x hx => h x (by simp [hx])
    have h0 := h l (by simp)
    unfold ent at *
    rw [List.flatMap_cons, List.map_append, h1, List.length_append, h2, List.map_map, List.length_map, List.map_cons,
      List.flatMap_cons, h0, List.length_cons]
    refine ⟨?_, by ring⟩
    congr 1
    rw [← h0]
    have : ((fun x : Nat × List Int => x.1) ∘ fun s => (l.1, s)) = fun _ => l.1 := rfl
    rw [this, List.map_const']

theorem nextLanes_sub {p : Prompts} {n : Nat} : ∀ (ls : List (Nat × Lane)) (rs : List (List Hyp × Option (List Cand))),
    ((nextLanes p n ls rs).map (·.1)).Sublist (ls.map (·.1)) := by
  intro ls
  induction ls with
  | nil => intro rs; cases rs <;> simp [nextLanes]
  | cons l ls ih =>
    intro rs
    cases rs with
    | nil => simp [nextLanes]
    | cons r rs =>
      unfold nextLanes
      split
      · exact (ih rs).trans (List.sublist_cons_self _ _)
      · exact (ih rs).cons_cons _

theorem nextLanes_all {p : Prompts} {n : Nat} : ∀ (ls : List (Nat × Lane)) (rs : List (List Hyp × Option (List Cand))),
    ls.length = rs.length → (∀ r ∈ rs, r.2 ≠ none) → (nextLanes p n ls rs).length = ls.length := by
  intro ls
  induction ls with
  | nil => intro rs h _; cases rs with | nil => rfl | cons => simp at h
  | cons l ls ih =>
    intro rs h hr
    cases rs with
    | nil => simp at h
    | cons r rs =>
      unfold nextLanes
      split
      · rename_i h0
        exact absurd h0 (hr r (by simp))
      · simp only [List.length_cons] at h ⊢
        rw [ih rs (by omega) fun x hx => hr x (by simp [hx])]

theorem full_beams {c : Settings} {R : RowOps} {V : Nat} (ht : Picks R.topk) {norm : Nat → LogP → LogP} {lim : Limits}
    {p : Prompts} (hrow : ∀ i s q n, rowFn c R.proc lim n (R.next i) s = some q → q.length = V)
    (hb : 0 < c.numGens) (h2 : 2 * c.numGens ≤ V) (hlens : ∀ i, p.lens.getD i 0 ≤ lim.minPrompt) :
    ∀ n lanes out rs, FullBeams c lim n lanes out → (lanes.map (·.1)).Nodup → (∀ l ∈ lanes, l.1 < out.length) →
      lanes.mapM (fun l => laneFound c R norm lim n (p.lens.getD l.1 0) l.1 l.2 (out.getD l.1 [])) = some rs →
      FullBeams c lim (n + 1) (nextLanes p n lanes rs) (setAll out lanes rs) ∧
        ((ent (nextLanes p n lanes rs)).length = (ent lanes).length →
          (ent (nextLanes p n lanes rs)).map (·.1) = (ent lanes).map (·.1)) := by
  rintro n lanes out rs ⟨hn, hfull⟩ hnd hlt hm
  have hle : ∀ l ∈ lanes, l.2.rows.length ≤ c.numGens := by
    intro l hl
    rcases hfull with h | h
    · exact Nat.le_of_eq (h l hl)
    · rw [(h l hl).1]; exact hb
  have hlen : ∀ i, p.lens.getD i 0 ≤ n := fun i => le_trans (hlens i) hn
  obtain ⟨-, r2⟩ := res_facts (p := p) (n := n) lanes rs out _ hnd hlt (mapM_pairs hm)
  have hnext : ∀ l ∈ nextLanes p n lanes rs, l.2.rows.length = c.numGens := by
    intro l' hl'
    obtain ⟨l, hl, h, next, e1, rfl⟩ := r2 l' hl'
    have := (found_sizes ht hrow h2 (hle l hl) (hlen _) e1).1 next rfl
    unfold laneGrow
    simpa using this
  refine ⟨⟨by omega, .inl hnext⟩, ?_⟩
  intro heq
  obtain ⟨f1, f2⟩ := ent_fst_of _ hnext
  have hsub := nextLanes_sub (p := p) (n := n) lanes rs
  have hdone : (∀ l ∈ lanes, l.2.rows.length = c.numGens) →
      (ent (nextLanes p n lanes rs)).map (·.1) = (ent lanes).map (·.1) := by
    intro hall
    obtain ⟨g1, g2⟩ := ent_fst_of _ hall
    rw [f2, g2] at heq
    have hl := Nat.eq_of_mul_eq_mul_left hb heq
    rw [f1, g1, hsub.eq_of_length (by simpa using hl)]
  rcases hfull with h | h
  · exact hdone h
  · by_cases hb1 : c.numGens = 1
    · exact hdone fun l hl => by rw [(h l hl).1, hb1]
    · obtain ⟨-, g2⟩ := ent_fst_of (k := 1) lanes fun l hl => (h l hl).1
      have hall := nextLanes_all (p := p) (n := n) lanes rs (mapM_len hm).symm (by
        intro r hr
        obtain ⟨l, hl, e⟩ := mapM_mem hm r hr
        exact (found_sizes ht hrow h2 (hle l hl) (hlen _) e).2 (h l hl).1 (h l hl).2 (by omega))
      rw [f2, g2, hall] at heq
      have : lanes.length = 0 := by
        rcases Nat.eq_zero_or_pos lanes.length with h0 | h0
        · exact h0
        · exact absurd (Nat.eq_of_mul_eq_mul_right h0 heq) hb1
      have h0 := List.length_eq_zero_iff.mp this
      subst h0
      cases rs <;> rfl

/-! ### The generation -/

theorem le_minLen {p : Prompts} {b : Nat} (hne : p.lens ≠ []) (h : ∀ x ∈ p.lens, b ≤ x) : b ≤ p.minLen := by
  unfold Prompts.minLen
  apply le_foldl_min _ _ _ _ h
  cases hl : p.lens with
  | nil => exact absurd hl hne
  | cons a l => exact h a (by simp [hl])

theorem cached_same {g : Generator S} {V : Nat} (hsz : g.Sized V) (maxGen : Nat) {sources : List S} {p : Prompts}
    (hp : Batched p) (hs : sources.length = p.rows.length) (hpos : ∀ len ∈ p.lens, 1 ≤ len) (D : Nat → Stateful LogP σ)
    (I : Nat → σ → List (Nat × List Int) → Prop) (Ok : Nat → Nat → Prop) (needs : Prop)
    (hD : ∀ lim, limits { g.settings with maxGen := maxGen } p = some lim →
      Remembers (D lim.maxLen) (fun i t => (sources[i]?).bind fun s => g.next s t) (I lim.maxLen) (lim.maxLen - 1) Ok needs)
    (hstart : ∀ M, I M (D M).start ((List.range p.rows.length).map fun i => (i, [])))
    (hone : ∀ a, Ok a 1) (Q : Nat → Nat → Prop) (hQ : ∀ m, Q m 0)
    (hchunk : ∀ m b, Q m b → b < m - 1 → Ok b (chunkSize g.chunk m b) ∧ Q m (b + chunkSize g.chunk m b))
    (hneeds : needs → Picks g.topk ∧ 0 < g.settings.numGens ∧ 2 * g.settings.numGens ≤ V ∧
      ∀ l ∈ p.lens, ∀ l' ∈ p.lens, l = l') :
    cachedGenerate D g maxGen p = generate g maxGen sources p := by
  unfold cachedGenerate generate
  cases hl : limits { g.settings with maxGen := maxGen } p with
  | none => rfl
  | some lim =>
    simp only [Option.bind_some]
    have hD := hD lim hl
    let next : Nat → List Int → Option (List LogP) := fun i t => (sources[i]?).bind fun s => g.next s t
    let g' : Generator Nat := ⟨g.settings, next, g.procs, g.topk, g.normalize, g.chunk, g.junk⟩
    have hprep : prepare g (sources.zip p.rows) lim.minPrompt = prepare g' (indexed p.rows) lim.minPrompt := by
      rw [prepare_rows, prepare_rows, mapM_range, mapM_range (indexed p.rows)]
      have e1 : (sources.zip p.rows).length = p.rows.length := by rw [List.length_zip, hs, Nat.min_self]
      rw [e1, indexed_len]
      apply mapM_eq_congr
      intro i hi
      have hi := List.mem_range.mp hi
      have hsrc : sources[i]? = some sources[i] := List.getElem?_eq_getElem _
      have z1 : (sources.zip p.rows)[i]? = some (sources[i], p.rows[i]) := by
        rw [List.getElem?_zip_eq_some]
        exact ⟨hsrc, List.getElem?_eq_getElem hi⟩
      have z2 : (indexed p.rows)[i]? = some (i, p.rows[i]) := by
        unfold indexed
        rw [List.getElem?_zip_eq_some]
        exact ⟨List.getElem?_range hi, List.getElem?_eq_getElem hi⟩
      rw [z1, z2]
      simp only [Option.bind_some]
      congr 1
      funext t
      simp only [g', next, hsrc, Option.bind_some]
    obtain ⟨hsh, hmm, hmin, -⟩ := batched_start (g.rest []) _ hp hl
    have hroom := hsh.room
    have h1 : 1 ≤ lim.minPrompt := by
      have hf := (limits_facts hl).1
      have hne : p.lens ≠ [] := by
        intro h
        have := hp.rows
        rw [h] at this
        exact hp.nonempty (List.length_eq_zero_iff.mp this.symm)
      rw [hf]
      exact le_minLen hne hpos
    have hwid : ∀ row ∈ p.rows, lim.minPrompt ≤ row.length := by
      intro row hrow
      have := hsh.fits
      rw [hsh.width row hrow]
      omega
    -- the prefill
    have hpre : (prepare g' (indexed p.rows) lim.minPrompt = none →
        cachedPrepare (D lim.maxLen) g.chunk p.rows lim.minPrompt = none) ∧
        ∀ out, prepare g' (indexed p.rows) lim.minPrompt = some out → out.length = p.rows.length ∧
          ∃ st, cachedPrepare (D lim.maxLen) g.chunk p.rows lim.minPrompt = some (out, st) ∧
            I lim.maxLen st ((indexed p.rows).map fun r => (r.1, r.2.take (lim.minPrompt - 1))) := by
      have hst : I lim.maxLen (D lim.maxLen).start ((indexed p.rows).map fun r => (r.1, r.2.take 0)) := by
        have := hstart lim.maxLen
        have e : ((indexed p.rows).map fun r => (r.1, r.2.take 0)) = (List.range p.rows.length).map fun i => (i, []) := by
          unfold indexed
          apply List.ext_getElem
          · simp
          · intro i h1 h2
            simp
        rw [e]
        exact this
      have hmap : ((indexed p.rows).map fun _ => (0 : LogP)) = p.rows.map fun _ => 0 := by
        rw [List.map_const', List.map_const', indexed_len]
      unfold prepare cachedPrepare
      rw [hmap]
      by_cases hm : lim.minPrompt > 1
      · rw [if_pos hm, if_pos hm]
        exact prefill_same hD g' rfl hp.nonempty hwid (by omega) (Q lim.minPrompt) (hchunk lim.minPrompt)
          lim.minPrompt 0 _ _ (by omega) (by omega) (hQ _) hst (by simp)
      · rw [if_neg hm, if_neg hm]
        refine ⟨fun h => (by cases h), fun out h => ?_⟩
        cases h
        refine ⟨by simp, _, rfl, ?_⟩
        have : lim.minPrompt - 1 = 0 := by omega
        rw [this]
        exact hst
    rw [hprep]
    cases ho : prepare g' (indexed p.rows) lim.minPrompt with
    | none =>
      rw [hpre.1 ho]
      rfl
    | some out =>
      obtain ⟨hlo, st, e1, e2⟩ := hpre.2 out ho
      rw [e1]
      simp only [Option.bind_some]
      unfold beamGenerate
      rw [hl]
      simp only [Option.bind_eq_bind, Option.bind_some, Option.pure_def]
      obtain ⟨-, -, -, hrep⟩ := batched_start (g.ops sources out) _ hp hl
      have hr := rowwise hsz sources out
      have hloop := loop_same (D := D lim.maxLen) (R := g.row fun i => sources[i]?) hD (ops' := g.rest out) hr rfl rfl rfl
        { g.settings with maxGen := maxGen } hsh (by omega) (fun a _ => hone a)
        (FullBeams { g.settings with maxGen := maxGen } lim)
        (by
          intro hn
          obtain ⟨n1, n2, n3, n4⟩ := hneeds hn
          refine full_beams (V := V) n1 ?_ n2 n3 ?_
          · intro i s q n h
            exact rowFn_len hr h
          · intro i
            rw [(limits_facts hl).1]
            by_cases hi : i < p.lens.length
            · rw [List.getD_eq_getElem?_getD, List.getElem?_eq_getElem hi]
              exact le_minLen (List.ne_nil_of_length_pos (by omega)) fun x hx =>
                Nat.le_of_eq (n4 _ (List.getElem_mem _) x hx)
            · rw [List.getD_eq_getElem?_getD, List.getElem?_eq_none (by omega)]
              exact Nat.zero_le _)
        (lim.maxLen - lim.minPrompt) ((List.range p.rows.length).map fun i => (i, firstLane (g.ops sources out) p i))
        (beamInit (g.ops sources out) lim p) st (by omega)
        (by
          intro h
          have := List.map_eq_nil_iff.mp h
          exact hp.nonempty (List.length_eq_zero_iff.mp (by simpa using congrArg List.length this)))
        (by
          intro l hl
          obtain ⟨i, -, rfl⟩ := List.mem_map.mp hl
          simp [firstLane])
        (by
          rw [List.map_map]
          exact List.nodup_range.map (fun a b h => h))
        (by
          have : lim.maxLen - (lim.maxLen - lim.minPrompt) = lim.minPrompt := by omega
          rw [this]
          exact hrep)
        (by
          intro _
          refine ⟨by omega, .inr ?_⟩
          intro l hl
          obtain ⟨i, -, rfl⟩ := List.mem_map.mp hl
          refine ⟨rfl, ?_⟩
          show ((p.rows.map fun _ => ([] : List Hyp))).getD i [] = []
          rw [List.getD_eq_getElem?_getD, List.getElem?_map]
          cases p.rows[i]? <;> rfl)
        (by
          have : lim.maxLen - (lim.maxLen - lim.minPrompt) - 1 = lim.minPrompt - 1 := by omega
          rw [this]
          have e : (beamInit (g.ops sources out) lim p).promptIdx.zip
              ((beamInit (g.ops sources out) lim p).seqs.map (·.take (lim.minPrompt - 1))) =
              (indexed p.rows).map fun r => (r.1, r.2.take (lim.minPrompt - 1)) := by
            unfold indexed beamInit
            apply List.ext_getElem
            · simp
            · intro i h3 h4
              have hi : i < p.rows.length := by simpa using h3
              have w1 := hsh.fits
              have w2 := hsh.width p.rows[i] (List.getElem_mem _)
              simp only [List.getElem_zip, List.getElem_map, List.getElem_range, List.getElem_mapIdx, Prod.mk.injEq,
                true_and]
              rw [List.take_append_of_le_length (by rw [List.length_take, w2]; omega), List.take_take,
                Nat.min_eq_left (by omega)]
          rw [e]
          exact e2)
      have hinit : beamInit (g.rest out) lim p = beamInit (g.ops sources out) lim p := rfl
      rw [hinit, hloop]
      cases beamLoop { g.settings with maxGen := maxGen } (g.ops sources out) lim (lim.maxLen - lim.minPrompt)
        (beamInit (g.ops sources out) lim p) <;> rfl

end Fs2.Gen
