import Verif.Datasets.SftReader
import Verif.Datasets.SftLemmas
import Verif.Pipeline.SamplePasses
import Verif.Pipeline.BucketSizesLemmas

/-!
# The data reader of supervised fine-tuning (helper lemmas)
-/

namespace Fs2
open Source

/-! ### Functions that do not raise for the examples there are -/

theorem map_yields_on {S : Source} {f : Data → Except Err Data} {g : Data → Data} {s : S.σ} {xs : List Data} (hf : ∀ x ∈ xs, f x = .ok (g x))
    (h : S.Yields s xs) : (map f S).Yields s (xs.map g) := by
  obtain ⟨s', h1, h2⟩ := h
  refine ⟨s', ?_, ?_⟩
  · induction h1 with
    | nil => exact .nil _
    | @cons s s₁ s₂ x xs hn _ ih =>
      refine .cons ?_ (ih (fun y hy => hf y (List.mem_cons_of_mem _ hy)) h2)
      simp [map, mapNext, hn, hf x List.mem_cons_self]
  · obtain ⟨P, hP, hs⟩ := h2
    refine ⟨P, hP, fun t ht => ?_⟩
    obtain ⟨t', h3, h4⟩ := hs t ht
    exact ⟨t', by simp [map, mapNext, h3], h4⟩

theorem filter_yields_on {S : Source} {f : Data → Except Err Bool} {p : Data → Bool} {s : S.σ} {xs : List Data}
    (hf : ∀ x ∈ xs, f x = .ok (p x)) (h : S.Yields s xs) : (filter f S).Yields s (xs.filter p) := by
  induction xs generalizing s with
  | nil =>
    exact ⟨s, .nil _, filter_ended h.nil_inv⟩
  | cons x xs ih =>
    obtain ⟨s', h1, h2⟩ := h.cons_inv
    have ih := ih (fun y hy => hf y (List.mem_cons_of_mem _ hy)) h2
    have hx := hf x List.mem_cons_self
    cases hp : p x with
    | true =>
      rw [List.filter_cons_of_pos hp]
      refine .cons ?_ ih
      simp only [filter]
      rw [filterNext]
      simp [h1, hx, hp]
    | false =>
      rw [List.filter_cons_of_neg (by simp [hp])]
      refine .of_next_eq ?_ ih
      show filterNext S.next f s = filterNext S.next f s'
      rw [filterNext]
      simp [h1, hx, hp]

theorem Source.Rereads.weaken {S : Source} {I : S.σ → Prop} {Q Q' : List Data → Prop} (h : S.Rereads I Q) (hq : ∀ ys, Q ys → Q' ys) :
    S.Rereads I Q' where
  again ht := by
    obtain ⟨ys, h1, h2⟩ := h.again ht
    exact ⟨ys, hq ys h1, h2⟩
  next := h.next
  reset := h.reset

/-! ### Lists -/

theorem flatMap_append_perm' {α β : Type} (f g : α → List β) (l : List α) :
    (l.flatMap fun a => f a ++ g a).Perm (l.flatMap f ++ l.flatMap g) := by
  induction l with
  | nil => simp
  | cons a l ih =>
    rw [List.flatMap_cons, List.flatMap_cons, List.flatMap_cons, List.append_assoc, List.append_assoc]
    apply List.Perm.append_left
    refine (ih.append_left (g a)).trans ?_
    rw [← List.append_assoc, ← List.append_assoc]
    exact (List.perm_append_comm).append_right _

theorem shardOf_cons {r n : Nat} (hr : r < n) (xs : List Data) : shardOf r n xs = xs[r]?.toList ++ shardOf r n (xs.drop n) := by
  apply List.ext_getElem?
  intro k
  rw [shardOf_get hr]
  cases hx : xs[r]? with
  | none =>
    have := List.getElem?_eq_none_iff.1 hx
    rw [Option.toList_none, List.nil_append, shardOf_get hr, List.getElem?_drop, List.getElem?_eq_none (Nat.le_trans this (Nat.le_add_left _ _)),
      List.getElem?_eq_none (by omega)]
  | some x =>
    cases k with
    | zero => simp [hx]
    | succ k =>
      rw [Option.toList_some, List.singleton_append, List.getElem?_cons_succ, shardOf_get hr, List.getElem?_drop, Nat.succ_mul]
      congr 1
      omega

theorem take_flatMap {α : Type} (xs : List α) (n : Nat) : ((List.range n).flatMap fun r => xs[r]?.toList) = xs.take n := by
  induction n with
  | zero => simp
  | succ n ih =>
    rw [List.range_succ, List.flatMap_append, ih, List.take_add_one]
    simp

/-- The shards are all of the list. -/
theorem perm_shards (n : Nat) (hn : 0 < n) (xs : List Data) : ((List.range n).flatMap fun r => shardOf r n xs).Perm xs := by
  generalize hl : xs.length = k
  induction k using Nat.strongRecOn generalizing xs with
  | ind k ih =>
    by_cases h0 : k = 0
    · have : xs = [] := List.length_eq_zero_iff.1 (hl.trans h0)
      subst this
      simp [shardOf]
    · have heq : ((List.range n).flatMap fun r => shardOf r n xs) =
          (List.range n).flatMap fun r => xs[r]?.toList ++ shardOf r n (xs.drop n) := by
        unfold List.flatMap
        congr 1
        apply List.map_congr_left
        intro r hr
        exact shardOf_cons (List.mem_range.1 hr) xs
      rw [heq]
      refine (flatMap_append_perm' _ _ _).trans ?_
      rw [take_flatMap]
      conv => rhs; rw [← List.take_append_drop n xs]
      apply List.Perm.append_left
      exact ih (xs.drop n).length (by rw [List.length_drop]; omega) _ rfl

theorem perm_map_exists {α β : Type} {f : α → β} {m ds : List β} (h : m.Perm ds) : ∀ L : List α, m = L.map f →
    ∃ L', L.Perm L' ∧ ds = L'.map f := by
  induction h with
  | nil => intro L hL; exact ⟨L, .refl _, hL⟩
  | cons x _ ih =>
    intro L hL
    cases L with
    | nil => simp at hL
    | cons a L =>
      simp only [List.map_cons, List.cons.injEq] at hL
      obtain ⟨L', h1, h2⟩ := ih L hL.2
      exact ⟨a :: L', h1.cons a, by simp [hL.1, h2]⟩
  | swap x y l =>
    intro L hL
    match L, hL with
    | [], hL => simp at hL
    | [_], hL => simp at hL
    | a :: b :: L, hL =>
      simp only [List.map_cons, List.cons.injEq] at hL
      exact ⟨b :: a :: L, .swap _ _ _, by simp [hL.1, hL.2.1, hL.2.2]⟩
  | trans _ _ ih1 ih2 =>
    intro L hL
    obtain ⟨L1, h1, h2⟩ := ih1 L hL
    obtain ⟨L2, h3, h4⟩ := ih2 L1 h2
    exact ⟨L2, h1.trans h3, h4⟩

theorem flatten_map_exists {α β : Type} {f : α → β} : ∀ (bs : List (List β)) (L : List α), bs.flatten = L.map f →
    ∃ cs : List (List α), bs = cs.map (List.map f) ∧ cs.flatten = L
  | [], L, h => by
    have : L = [] := by simpa using h.symm
    exact ⟨[], rfl, by simp [this]⟩
  | b :: bs, L, h => by
    rw [List.flatten_cons] at h
    have hb : b = (L.take b.length).map f := by
      rw [List.map_take, ← h, List.take_left]
    have hr : bs.flatten = (L.drop b.length).map f := by
      rw [List.map_drop, ← h, List.drop_left]
    obtain ⟨cs, h1, h2⟩ := flatten_map_exists bs _ hr
    exact ⟨L.take b.length :: cs, by rw [List.map_cons, ← hb, ← h1], by rw [List.flatten_cons, h2, List.take_append_drop]⟩

end Fs2

namespace Fs2.Sft
open Source Fs2.Native

variable (R : Rng)

/-- What `json.loads` makes of a line. -/
def dataOf (W : Files) (l : Data) : Data :=
  match W.loads l with
  | .ok d => d
  | .error _ => l

/-- All that is in the files. -/
def contents (W : Files) (files : List Data) : List Data := files.flatMap fun f => (W.lines f).map (dataOf W)

/-- Every line can be parsed. -/
def Parses (W : Files) (files : List Data) : Prop := ∀ f ∈ files, ∀ l ∈ W.lines f, W.loads l = .ok (dataOf W l)

theorem file_pipes {W : Files} {files : List Data} (h : Parses W files) :
    Pipes ⟨fun x => pipeline false 0 ((filePipe W x).denote R), fun _ => none⟩ (fun f => (W.lines f).map (dataOf W)) files := by
  intro f hf
  refine ⟨rfl, rfl, ?_⟩
  apply pipeline_yields_init
  apply map_yields_on (h f hf)
  have := listSource_yields_from (W.lines f) 0 (Nat.zero_le _)
  rw [List.drop_zero] at this
  exact this

/-- The order of the examples before sharding is the same on all ranks. -/
theorem path_passes {W : Files} {files : List Data} (h : Parses W files) (window seed : Nat) :
    ∃ order : List Data, order.Perm (contents W files) ∧ ∀ rank size, rank < size →
      ∃ es : Nat → List Data, es 0 = shardOf rank size order ∧
        (∀ k, ∃ zs, List.Perm zs (contents W files) ∧ es k = shardOf rank size zs) ∧
        (pipeline false 0 ((pathPipe W files rank size window seed).denote R)).Passes
          (pipeline false 0 ((pathPipe W files rank size window seed).denote R)).init es := by
  have hp := file_pipes R h
  have hy := yield_yields hp (s := (yieldFrom ⟨fun x => pipeline false 0 ((filePipe W x).denote R), fun _ => none⟩ (listSource files)).init)
    (.inl rfl) (by
      have := listSource_yields_from files 0 (Nat.zero_le _)
      rw [List.drop_zero] at this
      exact this)
  have hr := (rereads_yield hp (rereads_list files)).weaken (Q' := (List.Perm · (contents W files))) (fun ys e => e ▸ .refl _)
  obtain ⟨order, hord, hyo, hro⟩ : ∃ order : List Data, order.Perm (contents W files) ∧
      (Pipe.denote R (if window ≠ 1 then .shuffle window seed (.yieldFrom (fun _ => none) (fun _ => 0) (filePipe W) (.list files))
        else .yieldFrom (fun _ => none) (fun _ => 0) (filePipe W) (.list files))).Yields
      (Pipe.denote R (if window ≠ 1 then .shuffle window seed (.yieldFrom (fun _ => none) (fun _ => 0) (filePipe W) (.list files))
        else .yieldFrom (fun _ => none) (fun _ => 0) (filePipe W) (.list files))).init order ∧
      (Pipe.denote R (if window ≠ 1 then .shuffle window seed (.yieldFrom (fun _ => none) (fun _ => 0) (filePipe W) (.list files))
        else .yieldFrom (fun _ => none) (fun _ => 0) (filePipe W) (.list files))).Rereads (fun _ => True) (List.Perm · (contents W files)) := by
    by_cases hw : window ≠ 1
    · rw [if_pos hw]
      by_cases hs : shuffleWindow window = 1
      · exact ⟨contents W files, .refl _, shuffle_one_yields (R := R) (w := window) (seed := seed) hs hy, rereads_shuffle R window seed hr⟩
      · obtain ⟨ys, h1, h2⟩ := shuffle_yields (R := R) (w := window) (seed := seed)
          (s := (shuffle R window seed (yieldFrom ⟨fun x => pipeline false 0 ((filePipe W x).denote R), fun _ => none⟩ (listSource files))).init)
          hs rfl rfl hy
        exact ⟨ys, h1.perm, h2, rereads_shuffle R window seed hr⟩
    · rw [if_neg hw]
      exact ⟨contents W files, .refl _, hy, hr⟩
  refine ⟨order, hord, fun rank size hlt => ?_⟩
  obtain ⟨es, e0, e1, e2⟩ := (rereads_pipeline (max := 0) (rereads_shard hlt hro)).passes
    (s := (pipeline false 0 ((pathPipe W files rank size window seed).denote R)).init) ⟨_, _, rfl⟩
    (pipeline_yields_init (shard_gives hlt hyo))
  refine ⟨es, e0, fun k => ?_, e2⟩
  cases k with
  | zero => exact ⟨order, hord, e0⟩
  | succ k => exact e1 k

/-- One source: every rank reads its shard once. -/
theorem single_source {W : Files} {files : List Data} (h : Parses W files) (window seed : Nat) :
    ∃ order : List Data, order.Perm (contents W files) ∧ ∀ (weight : Rat) (rank size seed' : Nat), rank < size →
      size ≤ (contents W files).length →
        (Pipe.denote R (.sample [(⟨files, weight⟩ : Origin)].length (fun _ => 0)
          (fun i => pathPipe W ([(⟨files, weight⟩ : Origin)].get i).files rank size window (seed + i)) [weight] seed' true)).Yields
        (Pipe.denote R (.sample [(⟨files, weight⟩ : Origin)].length (fun _ => 0)
          (fun i => pathPipe W ([(⟨files, weight⟩ : Origin)].get i).files rank size window (seed + i)) [weight] seed' true)).init
        (shardOf rank size order) := by
  obtain ⟨order, hord, hall⟩ := path_passes R h window seed
  refine ⟨order, hord, fun weight rank size seed' hlt hsize => ?_⟩
  obtain ⟨es, e0, e1, e2⟩ := hall rank size hlt
  have hne : ∀ k, es k ≠ [] := by
    intro k hk
    obtain ⟨zs, h1, h2⟩ := e1 k
    have : (shardOf rank size zs)[0]? = none := by rw [← h2, hk]; rfl
    rw [shardOf_get hlt, Nat.zero_mul, Nat.zero_add, List.getElem?_eq_none_iff, h1.length_eq] at this
    omega
  have := sample_single R [weight] seed' rfl (S := pipeline false 0 ((pathPipe W files rank size window seed).denote R)) (by
    have : ((pathPipe W files rank size window seed).denote R).finitude = .finite := by
      show (Pipe.denote R (if window ≠ 1 then .shuffle window seed (.yieldFrom (fun _ => none) (fun _ => 0) (filePipe W) (.list files))
        else .yieldFrom (fun _ => none) (fun _ => 0) (filePipe W) (.list files))).finitude = _
      split <;> rfl
    show ((pathPipe W files rank size window seed).denote R).finitude ≠ _
    rw [this]
    simp) hne e2
  rw [e0] at this
  have hf : (fun i : Fin 1 => pipeline false 0 ((pathPipe W ([(⟨files, weight⟩ : Origin)].get i).files rank size window (seed + i)).denote R)) =
      fun _ => pipeline false 0 ((pathPipe W files rank size window seed).denote R) := by
    funext i
    obtain rfl : i = 0 := Subsingleton.elim _ _
    rfl
  rw [← hf] at this
  exact this

/-! ### Encoding, batching, collating -/

/-- The example in a dictionary. -/
def exampleOf (tok : Tok) : Data → Example
  | .dict fields =>
    match fields.lookup "src", fields.lookup "tgt" with
    | some (.str s), some (.str t) => ⟨fields.lookup "id", tok.source s, tok.target t⟩
    | _, _ => ⟨none, [], []⟩
  | _ => ⟨none, [], []⟩

theorem IdsMatch.mono {a b : List Example} (h : IdsMatch a) (hs : ∀ e ∈ b, e ∈ a) : IdsMatch b := by
  cases h with
  | absent h => exact .absent fun e he => h e (hs e he)
  | ints f h => exact .ints f fun e he => h e (hs e he)
  | strs f h => exact .strs f fun e he => h e (hs e he)

theorem seqLen_cat (e : Example) : seqLen (catSourceAndTarget e) = .ok (e.src ++ e.tgt).length := by
  unfold seqLen
  rw [node_indices]
  rfl

theorem within_cat (lo hi : Nat) (e : Example) :
    within lo hi (catSourceAndTarget e) = .ok (decide (lo ≤ (e.src ++ e.tgt).length ∧ (e.src ++ e.tgt).length ≤ hi)) := by
  unfold within
  rw [seqLen_cat]

/-- A bucket of examples in the pipeline. -/
def bucketData (b : List Example) : Data := .list (b.map catSourceAndTarget)

/-- Static batching. -/
theorem static_yields {S : Source} {s : S.σ} {L : List Example} (lo hi n : Nat) (drop : Bool) (hn : 0 < n)
    (h : S.Yields s (L.map catSourceAndTarget)) :
    ∃ (cs : List (List Example)) (dropped : List Example),
      (bucket n drop (filter (within lo hi) S)).Yields s (cs.map bucketData) ∧
      cs.flatten ++ dropped = L.filter (fun e => decide (lo ≤ (e.src ++ e.tgt).length ∧ (e.src ++ e.tgt).length ≤ hi)) ∧
      dropped.length < n ∧ (drop = false → dropped = []) ∧
      (∀ b ∈ cs, b ≠ [] ∧ b.length ≤ n ∧ (drop = true → b.length = n)) ∧ (cs.filter fun b => b.length < n).length ≤ 1 := by
  have hf := filter_yields_on (f := within lo hi)
    (p := fun d => match within lo hi d with | .ok b => b | .error _ => false) (by
      intro x hx
      obtain ⟨e, -, rfl⟩ := List.mem_map.1 hx
      rw [within_cat]) h
  have hk : (L.map catSourceAndTarget).filter (fun d => match within lo hi d with | .ok b => b | .error _ => false) =
      (L.filter (fun e => decide (lo ≤ (e.src ++ e.tgt).length ∧ (e.src ++ e.tgt).length ≤ hi))).map catSourceAndTarget := by
    rw [List.filter_map]
    congr 1
    apply List.filter_congr
    intro e _
    simp only [Function.comp, within_cat]
  rw [hk] at hf
  generalize L.filter (fun e => decide (lo ≤ (e.src ++ e.tgt).length ∧ (e.src ++ e.tgt).length ≤ hi)) = K at hf ⊢
  obtain ⟨bs, h1, h2, h3, h4⟩ := bucket_yields (drop := drop) hn hf
  have hflat : bs.flatten = (if drop then K.take (K.length / n * n) else K).map catSourceAndTarget := by
    rw [h2]
    split
    · rw [List.map_take, List.length_map]
    · rfl
  obtain ⟨cs, rfl, hcs⟩ := flatten_map_exists bs _ hflat
  refine ⟨cs, if drop then K.drop (K.length / n * n) else [], ?_, ?_, ?_, ?_, ?_, ?_⟩
  · rw [List.map_map] at h1
    exact h1
  · rw [hcs]
    split
    · exact List.take_append_drop _ _
    · exact List.append_nil _
  · split
    · rw [List.length_drop]
      have := Nat.div_add_mod K.length n
      have := Nat.mod_lt K.length hn
      rw [Nat.mul_comm]
      omega
    · exact hn
  · intro hd
    rw [hd]
    rfl
  · intro b hb
    obtain ⟨h5, h6⟩ := h3 (b.map catSourceAndTarget) (List.mem_map.2 ⟨b, hb, rfl⟩)
    refine ⟨fun e => h5 (by rw [e]; rfl), by simpa using h6, fun hd => ?_⟩
    obtain ⟨k, hk⟩ := List.mem_iff_getElem?.1 hb
    have := h4 k (b.map catSourceAndTarget) (by rw [List.getElem?_map, hk]; rfl) (.inl hd)
    simpa using this
  · rcases List.eq_nil_or_concat cs with rfl | ⟨cs', b, rfl⟩
    · simp
    · rw [List.concat_eq_append, List.filter_append, List.length_append]
      have : cs'.filter (fun b => decide (b.length < n)) = [] := by
        rw [List.filter_eq_nil_iff]
        intro a ha
        obtain ⟨k, hk⟩ := List.mem_iff_getElem?.1 ha
        have hlt := (List.getElem?_eq_some_iff.1 hk).1
        have := h4 k (a.map catSourceAndTarget) (by
          rw [List.getElem?_map, List.concat_eq_append, List.getElem?_append_left hlt, hk]; rfl) (.inr (by simp; omega))
        rw [List.length_map] at this
        simp [this]
      rw [this]
      have := List.length_filter_le (fun b : List Example => decide (b.length < n)) [b]
      simpa using this

/-- What follows batching. -/
theorem collated_yields {p : Pipe} (window seed : Nat) (pad : Int) {cs : List (List Example)}
    (hne : ∀ b ∈ cs, b ≠ []) (hid : ∀ b ∈ cs, IdsMatch b)
    (h : (p.denote R).Yields (p.denote R).init (cs.map bucketData)) :
    ∃ (buckets : List (List Example)) (ds : List Data), buckets.Perm cs ∧ ds.map toBatch = buckets.map (batchOf pad) ∧
      (Pipe.denote R (.map (collater pad).call (if window ≠ 1 then .shuffle window seed p else p))).Yields
        (Pipe.denote R (.map (collater pad).call (if window ≠ 1 then .shuffle window seed p else p))).init ds := by
  obtain ⟨bs, hbs, hy⟩ : ∃ bs : List (List Example), bs.Perm cs ∧
      (Pipe.denote R (if window ≠ 1 then .shuffle window seed p else p)).Yields
        (Pipe.denote R (if window ≠ 1 then .shuffle window seed p else p)).init (bs.map bucketData) := by
    by_cases hw : window ≠ 1
    · rw [if_pos hw]
      by_cases hs : shuffleWindow window = 1
      · exact ⟨cs, .refl _, shuffle_one_yields (R := R) (w := window) (seed := seed) hs h⟩
      · obtain ⟨ys, h1, h2⟩ := shuffle_yields (R := R) (w := window) (seed := seed) (s := (shuffle R window seed (p.denote R)).init) hs rfl rfl h
        obtain ⟨bs, h3, rfl⟩ := perm_map_exists h1.perm.symm cs rfl
        exact ⟨bs, h3.symm, h2⟩
    · rw [if_neg hw]
      exact ⟨cs, .refl _, h⟩
  have hcoll : ∀ b ∈ bs, ∃ d, (collater pad).call (bucketData b) = .ok d := by
    intro b hb
    have hb := hbs.mem_iff.1 hb
    obtain ⟨ids, -, h⟩ := collate_ok pad b (hne b hb) (hid b hb)
    exact ⟨_, h⟩
  let g : Data → Data := fun x => match (collater pad).call x with
    | .ok d => d
    | .error _ => x
  refine ⟨bs, (bs.map bucketData).map g, hbs, ?_, ?_⟩
  · rw [List.map_map, List.map_map]
    apply List.map_congr_left
    intro b hb
    obtain ⟨d, hd⟩ := hcoll b hb
    simp only [Function.comp, g, hd]
    unfold batchOf
    unfold bucketData at hd
    rw [hd]
  · apply map_yields_on _ hy
    intro x hx
    obtain ⟨b, hb, rfl⟩ := List.mem_map.1 hx
    obtain ⟨d, hd⟩ := hcoll b hb
    simp only [g, hd]

/-! ### Failing at once -/

/-- The first call raises the exception. -/
def Blows (S : Source) (e : Err) : Prop := ∃ s, S.next S.init = some (.err e, s)

theorem Blows.map {S : Source} {e : Err} (f : Data → Except Err Data) (h : Blows S e) : Blows (Fs2.map f S) e := by
  obtain ⟨s, h⟩ := h
  exact ⟨s, by simp [Fs2.map, mapNext, h]⟩

theorem Blows.filter {S : Source} {e : Err} (f : Data → Except Err Bool) (h : Blows S e) : Blows (Fs2.filter f S) e := by
  obtain ⟨s, h⟩ := h
  refine ⟨s, ?_⟩
  simp only [Fs2.filter]
  rw [filterNext]
  simp [h]

theorem Blows.bucket {S : Source} {e : Err} (n : Nat) (drop : Bool) (hn : 0 < n) (h : Blows S e) : Blows (Fs2.bucket n drop S) e := by
  obtain ⟨s, h⟩ := h
  obtain ⟨k, rfl⟩ : ∃ k, n = k + 1 := ⟨n - 1, by omega⟩
  exact ⟨s, by simp only [Fs2.bucket, bucketNext, readUpTo, h]⟩

theorem Blows.bbl {S : Source} {e : Err} (c : BblCfg) (h : Blows S e) : Blows (bucketByLength c S) e := by
  obtain ⟨s, h⟩ := h
  have key : ∀ t : BblSt S.σ, S.next t.inner = some (.err e, s) → bblNext S.next c t = some (.err e, ⟨t.bs, s⟩) := by
    intro t ht
    rw [bblNext]
    simp only [ht]
  exact ⟨_, key (bucketByLength c S).init h⟩

/-- An example that is too short. -/
theorem blows_short {S : Source} (c : BblCfg) {x : Data} {s : S.σ} (h : S.next S.init = some (.yield x, s)) {l : Nat} (hl : c.len x = .ok l)
    (hm : l < c.minLen) (hs : c.skipBelow = false) : Blows (bucketByLength c S) bblShortErr := by
  have key : ∀ t : BblSt S.σ, S.next t.inner = some (.yield x, s) → bblNext S.next c t = some (.err bblShortErr, ⟨t.bs, s⟩) := by
    intro t ht
    rw [bblNext]
    simp only [ht, hl, if_pos hm, hs, Bool.false_eq_true, if_false]
  exact ⟨_, key (bucketByLength c S).init h⟩

theorem Blows.shuffle {S : Source} {e : Err} (w seed : Nat) (h : Blows S e) : Blows (Fs2.shuffle R w seed S) e := by
  obtain ⟨s, h⟩ := h
  by_cases hw : shuffleWindow w = 1
  · exact ⟨_, by simp only [Fs2.shuffle, shuffleNext, if_pos hw, h]; rfl⟩
  · obtain ⟨k, hk⟩ : ∃ k, shuffleWindow w = k + 1 := ⟨shuffleWindow w - 1, by unfold shuffleWindow; split <;> omega⟩
    exact ⟨⟨[], 0, 0, true, seed, R.seed seed, s⟩, by simp only [Fs2.shuffle, shuffleNext, if_true, hk, readUpTo, h, ite_self]⟩

/-- An empty pipeline cannot be sampled. -/
theorem Blows.sample {S : Source} {es : Nat → List Data} (h : S.Passes S.init es) (h0 : es 0 = []) (h1 : es 1 = []) (ws : List Rat)
    (seed : Nat) : Blows (Fs2.sample R (fun _ : Fin 1 => S) ws seed true) sampleEmptyErr := by
  obtain ⟨st, a0, a1⟩ := h
  obtain ⟨e, e', b1, b2, b3⟩ := a1 0
  obtain ⟨f, f', c1, c2, -⟩ := a1 1
  rw [h0, a0] at b1
  rw [h1, b3] at c1
  cases b1
  cases c1
  exact ⟨_, by
    simp only [Fs2.sample, sampleNext, List.replicate, List.all_cons, id, Bool.false_and, Bool.false_eq_true, or_false, Nat.one_ne_zero, if_false,
      if_true, List.finRange_succ, sampleGather, sampleFetch, b2, c2]
    rfl⟩

theorem Blows.take {S : Source} {e : Err} (n : Nat) (hn : 0 < n) (h : Blows S e) : Blows (Fs2.take n S) e := by
  obtain ⟨s, h⟩ := h
  refine ⟨((0 : Nat), s), ?_⟩
  simp only [Fs2.take, takeNext, if_neg (Nat.ne_of_lt hn), h]

/-- A rank for which there is no example. -/
theorem path_empty {W : Files} {files : List Data} (h : Parses W files) (weight : Rat) (rank size window seed seed' : Nat) (hr : rank < size)
    (hfew : (contents W files).length ≤ rank) :
    Blows (Pipe.denote R (.sample [(⟨files, weight⟩ : Origin)].length (fun _ => 0)
      (fun i => pathPipe W ([(⟨files, weight⟩ : Origin)].get i).files rank size window (seed + i)) [weight] seed' true)) sampleEmptyErr := by
  obtain ⟨order, -, hall⟩ := path_passes R h window seed
  obtain ⟨es, -, e1, e2⟩ := hall rank size hr
  have hnil : ∀ k, es k = [] := by
    intro k
    obtain ⟨zs, h1, h2⟩ := e1 k
    have : (shardOf rank size zs)[0]? = none := by
      rw [shardOf_get hr, Nat.zero_mul, Nat.zero_add, List.getElem?_eq_none_iff, h1.length_eq]
      exact hfew
    rw [h2]
    exact List.length_eq_zero_iff.1 (Nat.le_zero.1 (List.getElem?_eq_none_iff.1 this))
  have := Blows.sample R e2 (hnil 0) (hnil 1) [weight] seed'
  have hf : (fun i : Fin 1 => pipeline false 0 ((pathPipe W ([(⟨files, weight⟩ : Origin)].get i).files rank size window (seed + i)).denote R)) =
      fun _ => pipeline false 0 ((pathPipe W files rank size window seed).denote R) := by
    funext i
    obtain rfl : i = 0 := Subsingleton.elim _ _
    rfl
  rw [← hf] at this
  exact this

theorem pipe_step {S : Source} {i : S.σ} {r : Res} {t : PipeSt S.σ} (h : pipeNext S 0 ⟨some i, 0, false⟩ = some (r, t)) :
    (∃ e, r = .err e) ∨ ∃ i', S.next i = some (r, i') ∧ t = ⟨some i', 0, false⟩ := by
  simp only [pipeNext, Bool.false_eq_true, if_false, Option.getD_some] at h
  rw [pipeLoop] at h
  split at h
  · cases h
  · rename_i x i' hx
    cases h
    exact .inr ⟨i', hx, rfl⟩
  · rename_i i' hx
    cases h
    exact .inr ⟨i', hx, rfl⟩
  · rename_i e i' hx
    left
    split at h
    · split at h
      · rename_i hl
        simp at hl
      · cases h
        exact ⟨_, rfl⟩
    · cases h
      exact ⟨_, rfl⟩

theorem emits_back {S T : Source} (f : S.σ → T.σ)
    (hf : ∀ i r t, T.next (f i) = some (r, t) → (∃ e, r = .err e) ∨ ∃ i', S.next i = some (r, i') ∧ t = f i') :
    ∀ (xs : List Data) (i : S.σ) (s t : T.σ), s = f i → T.Emits s xs t → ∃ j, t = f j ∧ S.Emits i xs j := by
  intro xs i s t hs hE
  induction hE generalizing i with
  | nil s => exact ⟨i, hs, .nil i⟩
  | cons h1 _ ih =>
    subst hs
    rcases hf _ _ _ h1 with ⟨e, he⟩ | ⟨i', h3, h4⟩
    · cases he
    · obtain ⟨j, h5, h6⟩ := ih i' h4
      exact ⟨j, h5, .cons h3 h6⟩

/-- What a pipeline gives, its source gives. -/
theorem yields_of_pipeline {S : Source} {xs : List Data} (h : (pipeline false 0 S).Yields (pipeline false 0 S).init xs) : S.Yields S.init xs := by
  obtain ⟨t, h1, Q, q1, q2⟩ := h
  obtain ⟨j, rfl, h3⟩ := emits_back (S := S) (T := pipeline false 0 S) (fun i => (⟨some i, 0, false⟩ : PipeSt S.σ))
    (fun i r t h => pipe_step h) xs S.init _ t rfl h1
  refine ⟨j, h3, fun j => Q (⟨some j, 0, false⟩ : PipeSt S.σ), q1, fun j hj => ?_⟩
  obtain ⟨t', h4, h5⟩ := q2 _ hj
  rcases pipe_step h4 with ⟨e, he⟩ | ⟨i', h6, rfl⟩
  · cases he
  · exact ⟨i', h6, h5⟩

end Fs2.Sft
