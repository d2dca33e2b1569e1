import Verif.Generation.Lanes
import Verif.Generation.Text

/-! Lemmas about text generation: the processors and the prefill row by row. -/

namespace Fs2.Gen

/-! ### Processors -/

/-- The write of a token into a row. -/
def putRow (v : LogP) (q : List LogP) (t : Int) : Option (List LogP) := (position q.length t).map fun k => q.set k v

/-- The writes into a single row of a batch. -/
theorem putAll_at (v : LogP) (ts : List Int) : ∀ (pre : List (List LogP)) (q : List LogP) (post : List (List LogP)),
    putAll v (pre ++ q :: post) (ts.map fun t => (pre.length, t)) = (ts.foldlM (putRow v) q).map fun q' => pre ++ q' :: post := by
  induction ts with
  | nil => intro pre q post; rfl
  | cons t ts ih =>
    intro pre q post
    rw [List.map_cons, putAll, List.foldlM_cons, List.foldlM_cons]
    have h1 : put v (pre ++ q :: post) (pre.length, t) = (putRow v q t).map fun q' => pre ++ q' :: post := by
      unfold put putRow
      simp only [Option.bind_eq_bind, List.getElem?_append_right (Nat.le_refl _), Nat.sub_self, List.getElem?_cons_zero,
        Option.bind_some, Option.pure_def, Option.map_map]
      cases position q.length t with
      | none => rfl
      | some k => simp
    rw [h1]
    cases putRow v q t with
    | none => rfl
    | some q' => exact ih pre q' post

theorem putAll_append (v : LogP) (probs : List (List LogP)) (l l' : List (Nat × Int)) :
    putAll v probs (l ++ l') = (putAll v probs l).bind fun p => putAll v p l' := by
  unfold putAll
  rw [List.foldlM_append]
  rfl

/-- The writes into the rows of a batch. -/
theorem putAll_rows {α : Type} (v : LogP) (f : α → List Int) : ∀ (xs : List α) (pre probs : List (List LogP)),
    xs.length = probs.length →
    putAll v (pre ++ probs) ((xs.zipIdx pre.length).flatMap fun x => (f x.1).map fun t => (x.2, t)) =
      ((xs.zip probs).mapM fun x => (f x.1).foldlM (putRow v) x.2).map fun out => pre ++ out := by
  intro xs
  induction xs with
  | nil =>
    intro pre probs h
    cases probs with
    | nil => simp [putAll]
    | cons => simp at h
  | cons x xs ih =>
    intro pre probs h
    cases probs with
    | nil => simp at h
    | cons q probs =>
      rw [List.zipIdx_cons, List.flatMap_cons, putAll_append, putAll_at, List.zip_cons_cons, List.mapM_cons]
      cases hq : (f x).foldlM (putRow v) q with
      | none => simp
      | some q' =>
        have := ih (pre ++ [q']) probs (by simpa using h)
        rw [List.length_append, List.length_singleton, List.append_assoc, List.singleton_append] at this
        simp only [Option.map_some, Option.bind_some]
        rw [this]
        generalize List.mapM (m := Option) _ (xs.zip probs) = rs
        cases rs <;> simp

/-- A processor that treats every row by itself. -/
def ByRow (call : Nat → List (List Int) → List (List LogP) → Option (List (List LogP)))
    (row : Nat → List Int → List LogP → Option (List LogP)) : Prop :=
  ∀ n seqs lps, seqs.length = lps.length → (∀ s ∈ seqs, s.length = n) →
    call n seqs lps = (seqs.zip lps).mapM fun x => row n x.1 x.2

theorem putRow_len {v : LogP} {q q' : List LogP} {t : Int} (h : putRow v q t = some q') : q'.length = q.length := by
  unfold putRow at h
  rw [Option.map_eq_some_iff] at h
  obtain ⟨k, -, rfl⟩ := h
  simp

theorem putRows_len {v : LogP} : ∀ {ts : List Int} {q q' : List LogP}, ts.foldlM (putRow v) q = some q' →
    q'.length = q.length := by
  intro ts
  induction ts with
  | nil => intro q q' h; cases h; rfl
  | cons t ts ih =>
    intro q q' h
    rw [List.foldlM_cons, Option.bind_eq_bind, Option.bind_eq_some_iff] at h
    obtain ⟨q1, h1, h2⟩ := h
    rw [ih h2, putRow_len h1]

/-- The tokens an n-gram processor forbids for one `i`. -/
def ngramTok (n : Nat) (s : List Int) (i : Nat) : List Int :=
  if rowMatches ((s.drop i).take (n - 1)) (s.drop (s.length - (n - 1))) then [s.getD (i + n - 1) 0] else []

/-- The tokens a banned sequence processor forbids. -/
def bannedTok (b : Banned) (s : List Int) : List Int :=
  b.seqs.zipIdx.filterMap fun (row, k) =>
    if prefixMatches s row (b.mask.map fun m => m.getD k []) then some (row.getLastD 0) else none

/-- A processor for one row. -/
def rowProcessor (n : Nat) (s : List Int) (q : List LogP) : Processor → Option (List LogP)
  | .banned none => some q
  | .banned (some b) =>
    if b.width - 1 = 0 then (b.seqs.map fun row => row.headD 0).foldlM (putRow ⊥) q
    else (bannedTok b (fit (b.width - 1) s)).foldlM (putRow ⊥) q
  | .ngram k =>
    if n + 1 ≤ k then some q
    else if k = 1 then s.foldlM (putRow ⊥) q
    else (List.range (n + 1 - k)).foldlM (fun q i => (ngramTok k s i).foldlM (putRow ⊥) q) q

theorem mapM_snd {α β : Type} : ∀ (xs : List α) (ys : List β), xs.length = ys.length →
    ((xs.zip ys).mapM fun x => some x.2) = some ys := by
  intro xs
  induction xs with
  | nil => intro ys h; cases ys <;> simp_all
  | cons x xs ih =>
    intro ys h
    cases ys with
    | nil => simp at h
    | cons y ys =>
      rw [List.zip_cons_cons, List.mapM_cons, ih ys (by simpa using h)]
      rfl

theorem zip_map_snd {α β : Type} : ∀ (xs : List α) (ys : List β) (zs : List β), xs.length = ys.length →
    zs.length = (xs.zip ys).length → ((xs.zip ys).zip zs).map (fun x => (x.1.1, x.2)) = xs.zip zs := by
  intro xs
  induction xs with
  | nil => intro ys zs _ _; simp
  | cons x xs ih =>
    intro ys zs h1 h2
    cases ys with
    | nil => simp at h1
    | cons y ys =>
      cases zs with
      | nil => simp at h2
      | cons z zs =>
        simp only [List.zip_cons_cons, List.map_cons]
        rw [ih ys zs (by simpa using h1) (by simpa using h2)]

/-- Two row-wise steps after each other. -/
theorem rows_then {α : Type} (f g : α → List LogP → Option (List LogP)) (xs : List α) (ys : List (List LogP))
    (h : xs.length = ys.length) :
    (((xs.zip ys).mapM fun x => f x.1 x.2).bind fun zs => (xs.zip zs).mapM fun x => g x.1 x.2) =
      (xs.zip ys).mapM fun x => (f x.1 x.2).bind (g x.1) := by
  rw [← mapM_zip (fun x : α × List LogP => f x.1 x.2) (fun x q => g x.1 q) (xs.zip ys)]
  cases hm : (xs.zip ys).mapM fun x => f x.1 x.2 with
  | none => rfl
  | some zs =>
    simp only [Option.bind_some]
    rw [← zip_map_snd xs ys zs h (mapM_len hm), mapM_map_eq]

theorem rows_fold {α β : Type} (f : β → α → List LogP → Option (List LogP)) (xs : List α) :
    ∀ (is : List β) (ys : List (List LogP)), xs.length = ys.length →
    is.foldlM (fun ys i => (xs.zip ys).mapM fun x => f i x.1 x.2) ys =
      (xs.zip ys).mapM fun x => is.foldlM (fun q i => f i x.1 q) x.2 := by
  intro is
  induction is with
  | nil =>
    intro ys h
    simp only [List.foldlM_nil, Option.pure_def]
    exact (mapM_snd xs ys h).symm
  | cons i is ih =>
    intro ys h
    simp only [List.foldlM_cons, Option.bind_eq_bind]
    rw [← rows_then (f i) (fun x q => is.foldlM (fun q i => f i x q) q) xs ys h]
    cases hm : (xs.zip ys).mapM fun x => f i x.1 x.2 with
    | none => rfl
    | some zs =>
      simp only [Option.bind_some]
      apply ih
      rw [mapM_len hm, List.length_zip, ← h, Nat.min_self]

theorem banned_pairs (b : Banned) (seqs : List (List Int)) :
    bannedPairs b seqs = seqs.zipIdx.flatMap fun x => (bannedTok b x.1).map fun t => (x.2, t) := by
  unfold bannedPairs bannedTok
  have : (fun x : List Int × Nat => match x with
      | (s, r) => b.seqs.zipIdx.filterMap fun (row, k) =>
        if prefixMatches s row (b.mask.map fun m => m.getD k []) then some (r, row.getLastD 0) else none) =
      fun x => (b.seqs.zipIdx.filterMap fun (row, k) =>
        if prefixMatches x.1 row (b.mask.map fun m => m.getD k []) then some (row.getLastD 0) else none).map
          fun t => (x.2, t) := by
    funext x
    obtain ⟨s, r⟩ := x
    simp only [List.map_filterMap]
    congr 1
    funext y
    obtain ⟨row, k⟩ := y
    simp only
    split <;> rfl
  rw [this]

theorem flatMap_range_zipIdx {α β : Type} (f : Nat → List β) (xs : List α) :
    (List.range xs.length).flatMap f = xs.zipIdx.flatMap fun x => f x.2 := by
  have : List.range xs.length = xs.zipIdx.map (·.2) := by
    rw [List.zipIdx_map_snd, List.range_eq_range']
  rw [this, List.flatMap_map]

theorem ngram_pairs (n : Nat) (seqs : List (List Int)) (i : Nat) :
    ngramPairs n seqs i = seqs.zipIdx.flatMap fun x => (ngramTok n x.1 i).map fun t => (x.2, t) := by
  unfold ngramPairs ngramTok
  generalize seqs.zipIdx = l
  induction l with
  | nil => rfl
  | cons x l ih =>
    rw [List.filterMap_cons, List.flatMap_cons, ← ih]
    simp only
    split <;> split <;> simp_all

/-- The processors treat every row by itself. -/
theorem processor_rows (P : Processor) : ByRow (fun n seqs lps => callProcessor n seqs lps P)
    (fun n s q => rowProcessor n s q P) := by
  intro n seqs lps h hn
  have hput : ∀ (f : List Int → List Int), putAll ⊥ lps (seqs.zipIdx.flatMap fun x => (f x.1).map fun t => (x.2, t)) =
      (seqs.zip lps).mapM fun x => (f x.1).foldlM (putRow ⊥) x.2 := by
    intro f
    have := putAll_rows ⊥ f seqs [] lps h
    simp only [List.nil_append, List.length_nil] at this
    rw [this]
    generalize List.mapM (m := Option) _ (seqs.zip lps) = rs
    cases rs <;> rfl
  cases P with
  | banned o =>
    simp only [callProcessor]
    cases o with
    | none => simp only [bannedCall, rowProcessor]; exact (mapM_snd seqs lps h).symm
    | some b =>
      simp only [bannedCall, rowProcessor]
      split
      · rw [← h, flatMap_range_zipIdx]
        have := hput fun _ => b.seqs.map fun row => row.headD 0
        simp only [List.map_map] at this
        exact this
      · rw [banned_pairs]
        have := putAll_rows ⊥ (bannedTok b) (seqs.map (fit (b.width - 1))) [] lps (by simpa using h)
        simp only [List.nil_append, List.length_nil] at this
        rw [this, List.zip_map_left, mapM_map_eq, Option.map_id']
        rfl
  | ngram k =>
    simp only [callProcessor, rowProcessor, ngramCall]
    split
    · exact (mapM_snd seqs lps h).symm
    · split
      · exact hput id
      · simp only [ngram_pairs]
        have hstep : ∀ (ys : List (List LogP)) (i : Nat), seqs.length = ys.length →
            putAll ⊥ ys (seqs.zipIdx.flatMap fun x => (ngramTok k x.1 i).map fun t => (x.2, t)) =
            (seqs.zip ys).mapM fun x => (ngramTok k x.1 i).foldlM (putRow ⊥) x.2 := by
          intro ys i hy
          have := putAll_rows ⊥ (fun s => ngramTok k s i) seqs [] ys hy
          simp only [List.nil_append, List.length_nil] at this
          rw [this, Option.map_id']
        rw [← rows_fold (fun i s q => (ngramTok k s i).foldlM (putRow ⊥) q) seqs (List.range (n + 1 - k)) lps h]
        generalize List.range (n + 1 - k) = is
        clear hput
        induction is generalizing lps with
        | nil => rfl
        | cons i is ih =>
          simp only [List.foldlM_cons, Option.bind_eq_bind]
          rw [hstep lps i h]
          cases hm : (seqs.zip lps).mapM fun x => (ngramTok k x.1 i).foldlM (putRow ⊥) x.2 with
          | none => rfl
          | some zs =>
            simp only [Option.bind_some]
            apply ih
            rw [mapM_len hm, List.length_zip, ← h, Nat.min_self]

theorem processor_len {n : Nat} {s : List Int} {q q' : List LogP} {P : Processor} (h : rowProcessor n s q P = some q') :
    q'.length = q.length := by
  cases P with
  | banned o =>
    cases o with
    | none => simp only [rowProcessor, Option.some.injEq] at h; rw [h]
    | some b =>
      simp only [rowProcessor] at h
      split at h <;> exact putRows_len h
  | ngram k =>
    simp only [rowProcessor] at h
    split at h
    · cases h; rfl
    · split at h
      · exact putRows_len h
      · revert h
        generalize List.range (n + 1 - k) = is
        induction is generalizing q with
        | nil => intro h; cases h; rfl
        | cons i is ih =>
          intro h
          rw [List.foldlM_cons, Option.bind_eq_bind, Option.bind_eq_some_iff] at h
          obtain ⟨q1, h1, h2⟩ := h
          rw [ih h2, putRows_len h1]

/-- The processors for one row. -/
def rowProcessors (procs : List Processor) (n : Nat) (s : List Int) (q : List LogP) : Option (List LogP) :=
  procs.foldlM (fun q P => rowProcessor n s q P) q

theorem processors_rows (procs : List Processor) : ByRow (callProcessors procs) (rowProcessors procs) := by
  intro n seqs lps h hn
  unfold callProcessors rowProcessors
  rw [← rows_fold (fun P s q => rowProcessor n s q P) seqs procs lps h]
  induction procs generalizing lps with
  | nil => rfl
  | cons P procs ih =>
    simp only [List.foldlM_cons, Option.bind_eq_bind]
    have hP := processor_rows P n seqs lps h hn
    simp only at hP
    rw [hP]
    cases hm : (seqs.zip lps).mapM fun x => rowProcessor n x.1 x.2 P with
    | none => rfl
    | some zs =>
      simp only [Option.bind_some]
      apply ih
      rw [mapM_len hm, List.length_zip, ← h, Nat.min_self]

theorem processors_len {procs : List Processor} {n : Nat} {s : List Int} : ∀ {q q' : List LogP},
    rowProcessors procs n s q = some q' → q'.length = q.length := by
  unfold rowProcessors
  induction procs with
  | nil => intro q q' h; cases h; rfl
  | cons P procs ih =>
    intro q q' h
    rw [List.foldlM_cons, Option.bind_eq_bind, Option.bind_eq_some_iff] at h
    obtain ⟨q1, h1, h2⟩ := h
    rw [ih h2, processor_len h1]

/-! ### Prefill -/

variable {S : Type}

/-- The score of a prompt up to its `m`-th token. -/
def promptScore (next : List Int → Option (List LogP)) (row : List Int) (m : Nat) : Option LogP :=
  chunkScore next row 0 (m - 1) 0

theorem chunk_bounds (chunk : Option Nat) {m b : Nat} (h : b < m - 1) : 1 ≤ chunkSize chunk m b ∧ b + chunkSize chunk m b ≤ m - 1 := by
  unfold chunkSize
  split
  · omega
  · split <;> omega

theorem prefill_rows (g : Generator S) (batch : List (S × List Int)) (m : Nat) : ∀ (fuel b : Nat),
    m - 1 ≤ b + fuel → b ≤ m - 1 → ∀ (f : S × List Int → Option LogP),
    ((batch.mapM f).bind fun scores => prefillLoop g batch m fuel b scores) =
      batch.mapM fun x => (f x).bind (chunkScore (g.next x.1) x.2 b (m - 1 - b)) := by
  intro fuel
  induction fuel with
  | zero =>
    intro b h1 h2 f
    have e : m - 1 - b = 0 := by omega
    simp only [prefillLoop, e, chunkScore, List.range'_zero, List.foldlM_nil, Option.pure_def]
    rw [Option.bind_fun_some]
    apply mapM_eq_congr
    intro x _
    exact (Option.bind_fun_some _).symm
  | succ fuel ih =>
    intro b h1 h2 f
    by_cases hb : b < m - 1
    · obtain ⟨c1, c2⟩ := chunk_bounds g.chunk hb
      generalize hk : chunkSize g.chunk m b = k at c1 c2
      have hstep : ((batch.mapM f).bind fun scores => prefillLoop g batch m (fuel + 1) b scores) =
          ((batch.mapM fun x => (f x).bind (chunkScore (g.next x.1) x.2 b k)).bind fun scores =>
            prefillLoop g batch m fuel (b + k) scores) := by
        rw [← mapM_zip f (fun x => chunkScore (g.next x.1) x.2 b k) batch, Option.bind_assoc]
        simp only [prefillLoop, if_pos hb, hk]
      rw [hstep, ih (b + k) (by omega) c2]
      apply mapM_eq_congr
      intro x _
      rw [Option.bind_assoc]
      congr 1
      funext y
      have e : m - 1 - b = k + (m - 1 - (b + k)) := by omega
      rw [e]
      unfold chunkScore
      rw [← List.range'_append_1, List.foldlM_append]
      rfl
    · have e : m - 1 - b = 0 := by omega
      simp only [prefillLoop, if_neg hb, e, chunkScore, List.range'_zero, List.foldlM_nil, Option.pure_def]
      rw [Option.bind_fun_some]
      apply mapM_eq_congr
      intro x _
      exact (Option.bind_fun_some _).symm

theorem prepare_rows (g : Generator S) (batch : List (S × List Int)) (m : Nat) :
    prepare g batch m = batch.mapM fun x => promptScore (g.next x.1) x.2 m := by
  have h0 : (batch.mapM fun _ => some (0 : LogP)) = some (batch.map fun _ => 0) := by
    rw [show (fun _ : S × List Int => some (0 : LogP)) = (fun x => pure ((fun _ => 0) x) : S × List Int → Option LogP) from rfl,
      List.mapM_pure]
    rfl
  unfold prepare promptScore
  split
  · have := prefill_rows g batch m m 0 (by omega) (by omega) (fun _ => some 0)
    rw [h0] at this
    simp only [Option.bind_some] at this
    rw [this]
    rfl
  · have e : m - 1 = 0 := by omega
    rw [e]
    exact h0.symm

/-! ### A prompt by itself -/

/-- The operations of a generator for a source. -/
def Generator.row (g : Generator S) (src : Nat → Option S) : RowOps where
  next := fun i t => (src i).bind fun s => g.next s t
  proc := rowProcessors g.procs
  topk := g.topk

/-- The model gives a log probability for every entry of the vocabulary. -/
def Generator.Sized (g : Generator S) (V : Nat) : Prop := ∀ s t q, g.next s t = some q → q.length = V

theorem rowwise {g : Generator S} {V : Nat} (h : g.Sized V) (sources : List S) (scores : List LogP) :
    RowWise (g.ops sources scores) (g.row fun i => sources[i]?) V where
  lm := fun src seqs _ => rfl
  process := fun n seqs lps h1 h2 _ => processors_rows g.procs n seqs lps h1 h2
  topk := fun _ _ _ _ => rfl
  width := by
    intro i s q hq
    simp only [Generator.row, Option.bind_eq_some_iff] at hq
    obtain ⟨x, -, hx⟩ := hq
    exact h _ _ _ hx
  width' := by
    intro n s q q' hq hq'
    rw [processors_len hq', hq]

theorem laneLoop_congr {c : Settings} {R R' : RowOps} {norm : Nat → LogP → LogP} {lim : Limits} {len i j : Nat}
    (hn : R.next i = R'.next j) (hp : R.proc = R'.proc) (ht : R.topk = R'.topk) : ∀ (k : Nat) (ln : Lane) (h : List Hyp),
    laneLoop c R norm lim len i k ln h = laneLoop c R' norm lim len j k ln h := by
  have hf : ∀ n ln h, laneFound c R norm lim n len i ln h = laneFound c R' norm lim n len j ln h := by
    intro n ln h
    unfold laneFound laneSearch
    rw [hn, hp, ht]
  intro k
  induction k with
  | zero => intro ln h; rfl
  | succ k ih =>
    intro ln h
    simp only [laneLoop, hf, ih]

/-- The generation for one prompt within the limits of its batch. -/
def solo (g : Generator S) (c : Settings) (lim : Limits) (src : S) (prompt : List Int) : Option (List Hyp) :=
  (promptScore (g.next src) prompt lim.minPrompt).bind fun x =>
    (laneLoop c (g.row fun _ => some src) g.normalize lim prompt.length 0 (lim.maxLen - lim.minPrompt)
      ⟨[prompt], [x]⟩ []).map (sortDesc (·.score))

theorem chunk_congr {next : List Int → Option (List LogP)} {row row' : List Int} {m : Nat}
    (h : row.take m = row'.take m) : promptScore next row m = promptScore next row' m := by
  unfold promptScore chunkScore
  have key : ∀ (l : List Nat), (∀ j ∈ l, j + 1 < m) → ∀ x : LogP,
      l.foldlM (fun x j => (next (row.take (j + 1))).bind fun q => (row[j + 1]?).bind fun t =>
        (gather q t).map fun w => x + w) x =
      l.foldlM (fun x j => (next (row'.take (j + 1))).bind fun q => (row'[j + 1]?).bind fun t =>
        (gather q t).map fun w => x + w) x := by
    intro l
    induction l with
    | nil => intro _ x; rfl
    | cons j l ih =>
      intro hj x
      have hj1 := hj j (by simp)
      have e1 : row.take (j + 1) = row'.take (j + 1) := by
        have := congrArg (List.take (j + 1)) h
        rwa [List.take_take, List.take_take, Nat.min_eq_left (by omega)] at this
      have e2 : row[j + 1]? = row'[j + 1]? := by
        have := congrArg (fun l => l[j + 1]?) h
        simpa [List.getElem?_take, hj1] using this
      rw [List.foldlM_cons, List.foldlM_cons, e1, e2]
      congr 1
      funext y
      exact ih (fun j hj' => hj j (by simp [hj'])) y
  apply key
  intro j hj
  rw [List.mem_range'_1] at hj
  omega

theorem mapM_range {α β : Type} (l : List α) (f : α → Option β) :
    l.mapM f = (List.range l.length).mapM fun i => (l[i]?).bind f := by
  induction l with
  | nil => rfl
  | cons a l ih =>
    rw [List.mapM_cons, List.length_cons, List.range_succ_eq_map, List.mapM_cons, mapM_map_eq, ih]
    rfl

theorem zip_range {β : Type} [Zero β] {n : Nat} (l : List β) (h : l.length = n) :
    (List.range n).zip l = (List.range n).map fun i => (i, l.getD i 0) := by
  subst h
  apply List.ext_getElem?
  intro i
  rw [List.getElem?_map]
  by_cases hi : i < l.length
  · rw [List.getElem?_range hi]
    simp only [Option.map_some]
    rw [List.getElem?_zip_eq_some]
    refine ⟨List.getElem?_range hi, ?_⟩
    rw [List.getD_eq_getElem?_getD, List.getElem?_eq_getElem hi]
    rfl
  · rw [List.getElem?_eq_none (by simp; omega), List.getElem?_eq_none (by simp; omega)]
    rfl

theorem generate_solo {g : Generator S} {V : Nat} (h : g.Sized V) (maxGen : Nat) (sources : List S) {p : Prompts}
    (hp : Batched p) (hs : sources.length = p.rows.length) {lim : Limits}
    (hl : limits { g.settings with maxGen := maxGen } p = some lim) :
    generate g maxGen sources p = (sources.zip (List.zipWith (fun row len => row.take len) p.rows p.lens)).mapM
      fun x => solo g { g.settings with maxGen := maxGen } lim x.1 x.2 := by
  have hmin : ∀ i < p.rows.length, lim.minPrompt ≤ p.lens.getD i 0 := by
    intro i hi
    rw [(limits_facts hl).1, List.getD_eq_getElem?_getD, List.getElem?_eq_getElem (by rw [hp.rows]; exact hi)]
    exact (foldl_min_le' _ _).2 _ (List.getElem_mem _)
  unfold generate
  rw [hl]
  simp only [Option.bind_some]
  rw [prepare_rows, mapM_range (sources.zip p.rows), mapM_range (sources.zip _)]
  have e1 : (sources.zip p.rows).length = p.rows.length := by rw [List.length_zip, hs, Nat.min_self]
  have e2 : (sources.zip (List.zipWith (fun row len => List.take len row) p.rows p.lens)).length = p.rows.length := by
    rw [List.length_zip, List.length_zipWith, hs, hp.rows, Nat.min_self, Nat.min_self]
  rw [e1, e2]
  let H : Nat → LogP → Option (List Hyp) := fun i x =>
    (laneLoop { g.settings with maxGen := maxGen } (g.row fun i => sources[i]?) g.normalize lim (p.lens.getD i 0) i
      (lim.maxLen - lim.minPrompt) ⟨[(p.rows.getD i []).take (p.lens.getD i 0)], [x]⟩ []).map (sortDesc (·.score))
  have hH : ∀ scores : List LogP, scores.length = p.rows.length →
      beamGenerate { g.settings with maxGen := maxGen } (g.ops sources scores) p =
        ((List.range p.rows.length).zip scores).mapM fun x => H x.1 x.2 := by
    intro scores hlen
    rw [generate_rows (rowwise h sources scores) _ hp hl, zip_range scores hlen, mapM_map_eq]
    rfl
  have hbind : ((List.range p.rows.length).mapM fun i => ((sources.zip p.rows)[i]?).bind fun x =>
      promptScore (g.next x.1) x.2 lim.minPrompt).bind (fun scores =>
        beamGenerate { g.settings with maxGen := maxGen } (g.ops sources scores) p) =
      (List.range p.rows.length).mapM fun i => (((sources.zip p.rows)[i]?).bind fun x =>
        promptScore (g.next x.1) x.2 lim.minPrompt).bind (H i) := by
    rw [← mapM_zip (fun i => ((sources.zip p.rows)[i]?).bind fun x => promptScore (g.next x.1) x.2 lim.minPrompt) H]
    cases hm : (List.range p.rows.length).mapM fun i => ((sources.zip p.rows)[i]?).bind fun x =>
      promptScore (g.next x.1) x.2 lim.minPrompt with
    | none => rfl
    | some scores => exact hH scores (by rw [mapM_len hm, List.length_range])
  rw [hbind]
  apply mapM_eq_congr
  intro i hi
  have hi := List.mem_range.mp hi
  have hsrc : sources[i]? = some sources[i] := List.getElem?_eq_getElem _
  have hrow : p.rows[i]? = some p.rows[i] := List.getElem?_eq_getElem _
  have hlen : p.lens[i]? = some (p.lens[i]'(by rw [hp.rows]; exact hi)) := List.getElem?_eq_getElem _
  have hgl : p.lens.getD i 0 = p.lens[i]'(by rw [hp.rows]; exact hi) := by
    rw [List.getD_eq_getElem?_getD, hlen]; rfl
  have hgr : p.rows.getD i [] = p.rows[i] := by rw [List.getD_eq_getElem?_getD, hrow]; rfl
  have hz1 : (sources.zip p.rows)[i]? = some (sources[i], p.rows[i]) := by
    rw [List.getElem?_zip_eq_some]
    exact ⟨hsrc, hrow⟩
  have hz2 : (sources.zip (List.zipWith (fun row len => List.take len row) p.rows p.lens))[i]? =
      some (sources[i], p.rows[i].take (p.lens.getD i 0)) := by
    rw [List.getElem?_zip_eq_some]
    refine ⟨hsrc, ?_⟩
    rw [List.getElem?_zipWith, hrow, hlen, hgl]
  rw [hz1, hz2]
  simp only [Option.bind_some]
  unfold solo
  have hm := hmin i hi
  have hw := hp.width _ (List.getElem_mem hi)
  have hlw : p.lens.getD i 0 ≤ p.width := by rw [hgl]; exact hp.lens _ (List.getElem_mem _)
  rw [chunk_congr (row' := p.rows[i].take (p.lens.getD i 0)) (by rw [List.take_take, Nat.min_eq_left hm])]
  congr 1
  funext x
  simp only [H, hgr]
  have hl' : (p.rows[i].take (p.lens.getD i 0)).length = p.lens.getD i 0 := by
    rw [List.length_take, hw]; exact Nat.min_eq_left hlw
  rw [hl']
  congr 1
  apply laneLoop_congr
  · funext t
    simp only [Generator.row, hsrc]
  · rfl
  · rfl

/-! ### What a prompt gets depends on -/

/-- The settings and limits agree in what the generation for a prompt uses. -/
structure SameRun (c c' : Settings) (lim lim' : Limits) : Prop where
  eos : c.eos = c'.eos
  pad : c.pad = c'.pad
  unk : c.unk = c'.unk
  penalty : c.unkPenalty = c'.unkPenalty
  gens : c.numGens = c'.numGens
  echo : c.echo = c'.echo
  minLen : lim.minLen = lim'.minLen
  maxLen : lim.maxLen = lim'.maxLen

theorem laneFinish_same {c c' : Settings} {lim lim' : Limits} (h : SameRun c c' lim lim') (norm : Nat → LogP → LogP)
    (n len : Nat) (rows : List (List Int)) : ∀ (xs : List Cand) (hy : List Hyp),
    laneFinish c norm n len rows xs hy = laneFinish c' norm n len rows xs hy := by
  intro xs
  induction xs with
  | nil => intro hy; rfl
  | cons x xs ih =>
    intro hy
    have hh : ∀ row, laneHyp c norm n len row x = laneHyp c' norm n len row x := by
      intro row
      simp only [laneHyp, h.eos, h.echo]
    rw [laneFinish, laneFinish]
    cases rows[x.seqIdx]? with
    | none => rfl
    | some row => simp only [hh, h.gens, ih]

theorem laneFound_same {c c' : Settings} {lim lim' : Limits} (h : SameRun c c' lim lim') (R : RowOps)
    (norm : Nat → LogP → LogP) (n len src : Nat) (ln : Lane) (hy : List Hyp) :
    laneFound c R norm lim n len src ln hy = laneFound c' R norm lim' n len src ln hy := by
  have h1 : ∀ s, rowFn c R.proc lim n (R.next src) s = rowFn c' R.proc lim' n (R.next src) s := by
    intro s
    unfold rowFn allowRow
    simp only [h.eos, h.pad, h.unk, h.penalty, h.minLen, h.maxLen]
  unfold laneFound laneSearch
  simp only [h1, laneFinish_same h, h.eos, h.gens]

theorem laneLoop_same {c c' : Settings} {lim lim' : Limits} (h : SameRun c c' lim lim') (R : RowOps)
    (norm : Nat → LogP → LogP) (len src : Nat) : ∀ (k : Nat) (ln : Lane) (hy : List Hyp),
    laneLoop c R norm lim len src k ln hy = laneLoop c' R norm lim' len src k ln hy := by
  intro k
  induction k with
  | zero => intro ln hy; rfl
  | succ k ih =>
    intro ln hy
    simp only [laneLoop, laneFound_same h, h.maxLen, ih]

theorem solo_same {c c' : Settings} {lim lim' : Limits} (h : SameRun c c' lim lim') (hm : lim.minPrompt = lim'.minPrompt)
    (g : Generator S) (src : S) (prompt : List Int) : solo g c lim src prompt = solo g c' lim' src prompt := by
  unfold solo
  simp only [hm, h.maxLen, laneLoop_same h]

/-! ### The tokens of a prompt beyond the shortest -/

/-- The token is neither EOS nor PAD nor UNK. -/
structure Ordinary (c : Settings) (t : Int) : Prop where
  pos : 0 ≤ t
  eos : t ≠ c.eos
  pad : ∀ k, c.pad = some k → t ≠ k
  unk : ∀ k, c.unk = some k → t ≠ k

theorem upd_at {i k : Nat} {f : LogP → LogP} {q : List LogP} (hi : i < q.length) (hk : k ≠ i) :
    ∃ q', upd i f q = some q' ∧ q'.length = q.length ∧ q'[k]? = q[k]? := by
  refine ⟨q.set i (f q[i]), by rw [upd, List.getElem?_eq_getElem hi]; rfl, by simp, ?_⟩
  rw [List.getElem?_set_ne (fun e => hk e.symm)]

theorem upd?_at {i : Option Nat} {k : Nat} {f : LogP → LogP} {q : List LogP} (hi : ∀ j, i = some j → j < q.length)
    (hk : ∀ j, i = some j → k ≠ j) : ∃ q', upd? i f q = some q' ∧ q'.length = q.length ∧ q'[k]? = q[k]? := by
  cases i with
  | none => exact ⟨q, rfl, rfl, rfl⟩
  | some i => exact upd_at (hi i rfl) (hk i rfl)

/-- The vocabulary has the control symbols. -/
structure HasSymbols (c : Settings) (V : Nat) : Prop where
  eos : c.eos < V
  pad : ∀ k, c.pad = some k → k < V
  unk : ∀ k, c.unk = some k → k < V

theorem row_ordinary {g : Generator S} {V : Nat} (hproc : g.procs = []) {c : Settings} (hc : HasSymbols c V)
    {t : Int} (ht : Ordinary c t) {lim : Limits} {n : Nat} (hn : n + 1 < lim.maxLen) (s : List Int) {q : List LogP}
    (hq : q.length = V) :
    ∃ q', allowRow c (rowProcessors g.procs) lim n s q = some q' ∧ q'[t.toNat]? = q[t.toNat]? := by
  have hnat : ∀ k : Nat, t ≠ k → t.toNat ≠ k := by
    intro k hk e
    apply hk
    have := ht.pos
    omega
  have hlast : ¬ n + 1 = lim.maxLen := by omega
  unfold allowRow
  rw [if_neg hlast, hproc]
  simp only [rowProcessors, List.foldlM_nil, Option.pure_def, Option.bind_some]
  obtain ⟨q1, a1, a2, a3⟩ := upd?_at (i := c.unk) (k := t.toNat) (f := WithBot.map (· - c.unkPenalty)) (q := q)
    (fun j hj => by rw [hq]; exact hc.unk j hj) (fun j hj => hnat j (ht.unk j hj))
  obtain ⟨q2, b1, b2, b3⟩ := upd?_at (i := c.pad) (k := t.toNat) (f := fun _ => ⊥) (q := q1)
    (fun j hj => by rw [a2, hq]; exact hc.pad j hj) (fun j hj => hnat j (ht.pad j hj))
  rw [a1]
  simp only [Option.bind_some]
  rw [b1]
  simp only [Option.bind_some]
  split
  · obtain ⟨q3, c1, c2, c3⟩ := upd_at (i := c.eos) (k := t.toNat) (f := fun _ => ⊥) (q := q2)
      (by rw [b2, a2, hq]; exact hc.eos) (hnat _ ht.eos)
    exact ⟨q3, c1, by rw [c3, b3, a3]⟩
  · exact ⟨q2, rfl, by rw [b3, a3]⟩

/-- A step within the prompt. -/
theorem lane_within {g : Generator S} {V : Nat} (hg : g.Sized V) (hproc : g.procs = []) {c : Settings}
    (hc : HasSymbols c V) {lim : Limits} {src : S} {prompt : List Int} {k : Nat}
    (hn : lim.maxLen - (k + 1) < prompt.length) (hlen : prompt.length < lim.maxLen)
    (hone : 1 ≤ lim.maxLen - (k + 1))
    (ht : ∀ t, prompt[lim.maxLen - (k + 1)]? = some t → Ordinary c t) (x : LogP) (hy : List Hyp) :
    laneLoop c (g.row fun _ => some src) g.normalize lim prompt.length 0 (k + 1) ⟨[prompt], [x]⟩ hy =
      (chunkScore (g.next src) prompt (lim.maxLen - (k + 1) - 1) 1 x).bind fun x =>
        laneLoop c (g.row fun _ => some src) g.normalize lim prompt.length 0 k ⟨[prompt], [x]⟩ hy := by
  generalize hnd : lim.maxLen - (k + 1) = n at *
  have htok := List.getElem?_eq_getElem hn
  have hord := ht _ htok
  have e : n - 1 + 1 = n := by omega
  rw [laneLoop, hnd]
  unfold laneFound laneSearch chunkScore
  simp only [if_pos hn, List.range'_one, List.foldlM_cons, List.foldlM_nil, Option.bind_eq_bind, e, htok,
    Option.bind_some, Option.pure_def, List.mapM_cons, List.mapM_nil, rowFn, Generator.row, Option.bind_fun_some]
  cases hq : g.next src (prompt.take n) with
  | none => rfl
  | some q =>
    obtain ⟨q', a1, a2⟩ := row_ordinary (n := n) (lim := lim) hproc hc hord (by omega) (prompt.take n) (hg _ _ _ hq)
    simp only [Option.bind_some, a1, List.getElem?_cons_zero, htok, gather, if_neg (not_lt.mpr hord.pos), a2]
    cases q[(prompt[n]).toNat]? with
    | none => rfl
    | some w =>
      simp only [Option.map_some, Option.bind_some, laneCheck, List.length_singleton, Nat.one_ne_zero, if_false]
      simp [laneGrow, hn]

theorem lane_prompt {g : Generator S} {V : Nat} (hg : g.Sized V) (hproc : g.procs = []) {c : Settings}
    (hc : HasSymbols c V) {lim : Limits} {src : S} {prompt : List Int} (hlen : prompt.length < lim.maxLen)
    : ∀ (d m : Nat), 1 ≤ m → m + d = prompt.length →
    (∀ j, m ≤ j → ∀ t, prompt[j]? = some t → Ordinary c t) → ∀ (x : LogP) (hy : List Hyp),
    laneLoop c (g.row fun _ => some src) g.normalize lim prompt.length 0 (lim.maxLen - m) ⟨[prompt], [x]⟩ hy =
      (chunkScore (g.next src) prompt (m - 1) d x).bind fun x =>
        laneLoop c (g.row fun _ => some src) g.normalize lim prompt.length 0 (lim.maxLen - prompt.length)
          ⟨[prompt], [x]⟩ hy := by
  intro d
  induction d with
  | zero =>
    intro m hm hd _ x hy
    simp only [chunkScore, List.range'_zero, List.foldlM_nil, Option.pure_def, Option.bind_some]
    rw [show m = prompt.length by omega]
  | succ d ih =>
    intro m hm hd ht x hy
    have e : lim.maxLen - m = (lim.maxLen - (m + 1)) + 1 := by omega
    have e' : lim.maxLen - (lim.maxLen - (m + 1) + 1) = m := by omega
    rw [e, lane_within hg hproc hc (by omega) hlen (by omega) (by rw [e']; exact ht m (Nat.le_refl _)), e']
    have hsplit : ∀ y, chunkScore (g.next src) prompt (m - 1) (d + 1) y =
        (chunkScore (g.next src) prompt (m - 1) 1 y).bind (chunkScore (g.next src) prompt m d) := by
      intro y
      unfold chunkScore
      rw [show d + 1 = 1 + d by omega, ← List.range'_append_1, List.foldlM_append, show m - 1 + 1 = m by omega]
      rfl
    rw [hsplit, Option.bind_assoc]
    congr 1
    funext y
    have := ih (m + 1) (by omega) (by omega) (fun j hj => ht j (by omega)) y hy
    rw [show m + 1 - 1 = m by omega] at this
    exact this

/-- A prompt of ordinary tokens gets the same whether or not there are shorter ones. -/
theorem solo_ordinary {g : Generator S} {V : Nat} (hg : g.Sized V) (hproc : g.procs = []) {c : Settings}
    (hc : HasSymbols c V) {lim lim' : Limits} {src : S} {prompt : List Int} (hlen : prompt.length < lim.maxLen)
    (h1 : 1 ≤ lim.minPrompt) (h2 : lim.minPrompt ≤ prompt.length) (h3 : lim'.minPrompt = prompt.length)
    (h4 : lim.minLen = lim'.minLen) (h5 : lim.maxLen = lim'.maxLen)
    (ht : ∀ j, lim.minPrompt ≤ j → ∀ t, prompt[j]? = some t → Ordinary c t) :
    solo g c lim src prompt = solo g c lim' src prompt := by
  have hs : SameRun c c lim lim' := ⟨rfl, rfl, rfl, rfl, rfl, rfl, h4, h5⟩
  unfold solo promptScore
  rw [h3]
  have hsplit : chunkScore (g.next src) prompt 0 (prompt.length - 1) 0 =
      (chunkScore (g.next src) prompt 0 (lim.minPrompt - 1) 0).bind
        (chunkScore (g.next src) prompt (lim.minPrompt - 1) (prompt.length - lim.minPrompt)) := by
    unfold chunkScore
    rw [show prompt.length - 1 = (lim.minPrompt - 1) + (prompt.length - lim.minPrompt) by omega, ← List.range'_append_1,
      List.foldlM_append, Nat.zero_add]
    rfl
  rw [hsplit, Option.bind_assoc]
  congr 1
  funext x
  rw [lane_prompt hg hproc hc hlen (prompt.length - lim.minPrompt) lim.minPrompt h1 (by omega) ht x [], ← h5]
  generalize chunkScore (g.next src) prompt (lim.minPrompt - 1) (prompt.length - lim.minPrompt) x = o
  cases o with
  | none => rfl
  | some y => simp only [Option.bind_some, laneLoop_same hs]

end Fs2.Gen
