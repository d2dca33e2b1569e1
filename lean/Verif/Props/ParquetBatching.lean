import Verif.Parquet.LengthSplits

/-!
# C73: batches of a Parquet table hold every row once and respect the token limit
-/

namespace Fs2.Props
open Fs2.Parquet

/-! ## Specification -/

/-- numpy's `argsort`: the row numbers, arranged so that the lengths rise. -/
def IsArgsort (lens order : List Nat) : Prop :=
  order.Perm (List.range lens.length) ∧
    order.Pairwise fun i j => lens.getD i 0 ≤ lens.getD j 0

/-- The size of a batch once padded to its longest row. -/
def paddedSize (lens batch : List Nat) : Nat :=
  (batch.map fun i => lens.getD i 0).foldl max 0 * batch.length

/-- The order in which rows are put into batches. -/
def rowOrder (orderByLength : Bool) (argsort lens : List Nat) : List Nat :=
  if orderByLength then argsort else List.range lens.length

/-! ## Helpers -/

private theorem foldl_max_cap (l : List Nat) (m c : Nat) (hm : m ≤ c) (h : ∀ x ∈ l, x ≤ c) :
    l.foldl max m ≤ c := by
  induction l generalizing m with
  | nil => exact hm
  | cons x l ih =>
    exact ih _ (Nat.max_le.2 ⟨hm, h x (by simp)⟩) fun y hy => h y (by simp [hy])

private theorem foldl_max_mem (l : List Nat) (m x : Nat) (h : x ∈ l ∨ x ≤ m) :
    x ≤ l.foldl max m := by
  induction l generalizing m with
  | nil =>
    rcases h with h | h
    · simp at h
    · exact h
  | cons y l ih =>
    apply ih
    rcases h with h | h
    · rcases List.mem_cons.1 h with h | h
      · right; rw [h]; exact Nat.le_max_right _ _
      · left; exact h
    · right; exact Nat.le_trans h (Nat.le_max_left _ _)

private theorem lenAt_map (lens inds : List Nat) (i : Nat) (h : i < inds.length) :
    lenAtIdx (inds.map (lenAtIdx lens)) i = lens.getD (inds[i]) 0 := by
  simp [lenAtIdx, List.getD, List.getElem?_map, List.getElem?_eq_getElem h]

private theorem slice_len (inds : List Nat) (b e : Nat) (h : e ≤ inds.length) :
    (slice inds b e).length = e - b := by
  simp [slice]; omega

private theorem mem_slice {inds : List Nat} {b e x : Nat} (h : x ∈ slice inds b e) :
    ∃ i, ∃ hi : i < inds.length, b ≤ i ∧ i < e ∧ x = inds[i] := by
  obtain ⟨j, hj, rfl⟩ := List.mem_iff_getElem.1 h
  have h1 : j < e - b := by
    simp [slice] at hj; omega
  have h2 : b + j < inds.length := by
    simp [slice] at hj; omega
  exact ⟨b + j, h2, by omega, by omega, by simp [slice]⟩

private theorem padded_of_fits {lens inds : List Nat} {M b e : Nat}
    (he : e ≤ inds.length) (h : Fits (inds.map (lenAtIdx lens)) M b e) :
    paddedSize lens (slice inds b e) ≤ M := by
  obtain ⟨c, hc, hM⟩ := h
  refine Nat.le_trans ?_ hM
  rw [paddedSize, slice_len inds b e he]
  refine Nat.mul_le_mul_right _ (foldl_max_cap _ _ _ (Nat.zero_le _) ?_)
  intro x hx
  obtain ⟨y, hy, rfl⟩ := List.mem_map.1 hx
  obtain ⟨i, hi, h1, h2, rfl⟩ := mem_slice hy
  rw [← lenAt_map lens inds i hi]
  exact hc i h1 h2

private theorem drop_eq_slice (inds : List Nat) (b : Nat) :
    inds.drop b = slice inds b inds.length := by
  rw [slice, List.take_of_length_le (by simp)]

private theorem cuts_good {lens inds : List Nat} {M b : Nat} {out : List (List Nat)}
    (h : Cuts (inds.map (lenAtIdx lens)) inds M b out) :
    ∀ s ∈ out, s ≠ [] ∧ paddedSize lens s ≤ M := by
  have hlen : (inds.map (lenAtIdx lens)).length = inds.length := by simp
  induction h with
  | last b hb hf =>
    intro s hs
    rw [List.mem_singleton.1 hs]
    rw [hlen] at hb hf
    refine ⟨fun e => ?_, ?_⟩
    · have := congrArg List.length e
      simp at this; omega
    · rw [drop_eq_slice]
      exact padded_of_fits (Nat.le_refl _) hf
  | more b e rest hbe he hf _ _ ih =>
    intro s hs
    rw [hlen] at he
    rcases List.mem_cons.1 hs with rfl | hs
    · refine ⟨fun h => ?_, padded_of_fits (by omega) hf⟩
      have := congrArg List.length h
      rw [slice_len _ _ _ (by omega)] at this
      simp at this; omega
    · exact ih s hs

private theorem splits_shape (argsort lens : List Nat) (M : Nat) (ord drop : Bool) :
    ∃ normal, lengthSplits argsort lens M ord drop = some
        (normal ++ if drop then [] else
          ((rowOrder ord argsort lens).filter fun i => M < lens.getD i 0).map fun i => [i]) ∧
      (let small := (rowOrder ord argsort lens).filter fun i => lens.getD i 0 ≤ M
       (small = [] ∧ normal = []) ∨ Cuts (small.map (lenAtIdx lens)) small M 0 normal) := by
  unfold lengthSplits
  simp only [Option.pure_def, Option.bind_eq_bind]
  have hord : (if ord = true then argsort else List.range lens.length) =
    rowOrder ord argsort lens := rfl
  rw [hord]
  generalize hsm : (rowOrder ord argsort lens).filter (fun i => decide (lenAtIdx lens i ≤ M)) = small
  have hsm' : (rowOrder ord argsort lens).filter (fun i => decide (lens.getD i 0 ≤ M)) = small := hsm
  rw [hsm']
  have hbig : (rowOrder ord argsort lens).filter (fun i => decide ¬ lenAtIdx lens i ≤ M) =
      (rowOrder ord argsort lens).filter (fun i => decide (M < lens.getD i 0)) := by
    congr 1
    funext i
    simp [lenAtIdx]
  rw [hbig]
  generalize (rowOrder ord argsort lens).filter (fun i => decide (M < lens.getD i 0)) = big
  have hfin : ∀ normal : List (List Nat),
      (if (!drop && !big.isEmpty) = true then normal ++ big.map (fun i => [i]) else normal) =
        normal ++ if drop = true then [] else big.map (fun i => [i]) := by
    intro normal
    cases drop with
    | true => simp
    | false => cases big <;> simp
  by_cases h0 : small = []
  · subst h0
    refine ⟨[], ?_, .inl ⟨rfl, rfl⟩⟩
    rw [outerLoop_none _ _ _ (by simp), Option.bind_some, hfin]
  · have hpos : 0 < (small.map (lenAtIdx lens)).length := by
      simp [List.length_pos_iff, h0]
    obtain ⟨out, ho, hc⟩ := outerLoop_spec (small.map (lenAtIdx lens)) small M (by
      intro i hi
      have hi' : i < small.length := by simpa using hi
      rw [lenAt_map lens small i hi']
      have hm : ∀ x ∈ small, lens.getD x 0 ≤ M := by
        intro x hx
        rw [← hsm'] at hx
        simpa using (List.mem_filter.1 hx).2
      exact hm _ (List.getElem_mem hi')) _ 0 0 [] (Nat.le_refl _) (Nat.le_refl _) hpos
    refine ⟨out, ?_, .inr hc⟩
    rw [ho, List.nil_append, Option.bind_some, hfin]

private theorem normal_flatten {lens small : List Nat} {M : Nat} {normal : List (List Nat)}
    (h : (small = [] ∧ normal = []) ∨ Cuts (small.map (lenAtIdx lens)) small M 0 normal) :
    normal.flatten = small := by
  rcases h with ⟨rfl, rfl⟩ | h
  · rfl
  · rw [h.flatten]; rfl

private theorem flatten_singles (l : List Nat) : (l.map fun i => [i]).flatten = l := by
  induction l with
  | nil => rfl
  | cons x l ih => simp [ih]

private theorem rowOrder_perm {argsort lens : List Nat} {ord : Bool}
    (h : ord = true → IsArgsort lens argsort) :
    (rowOrder ord argsort lens).Perm (List.range lens.length) := by
  cases ord with
  | true => exact (h rfl).1
  | false => exact List.Perm.refl _

/-! ## Theorems -/

/-- `compute_length_splits` ends, puts every row whose length is within
`max_tokens` into exactly one split, keeps the splits within `max_tokens` after
padding, and either drops the longer rows or returns each alone after the
others. Rows keep the order they were considered in. -/
theorem C73_splits (argsort lens : List Nat) (M : Nat) (ord drop : Bool)
    (h : ord = true → IsArgsort lens argsort) :
    ∃ out, lengthSplits argsort lens M ord drop = some out ∧
      out.flatten.Perm ((List.range lens.length).filter
        fun i => !drop || decide (lens.getD i 0 ≤ M)) ∧
      out.flatten = ((rowOrder ord argsort lens).filter fun i => lens.getD i 0 ≤ M) ++
        (if drop then [] else (rowOrder ord argsort lens).filter fun i => M < lens.getD i 0) ∧
      ∀ s ∈ out, s ≠ [] ∧ (paddedSize lens s ≤ M ∨
        (drop = false ∧ ∃ i, s = [i] ∧ M < lens.getD i 0)) := by
  obtain ⟨normal, ho, hn⟩ := splits_shape argsort lens M ord drop
  have hfl := normal_flatten hn
  have heq : (normal ++ if drop = true then [] else
        ((rowOrder ord argsort lens).filter fun i => decide (M < lens.getD i 0)).map
          fun i => [i]).flatten =
      ((rowOrder ord argsort lens).filter fun i => decide (lens.getD i 0 ≤ M)) ++
        (if drop = true then []
          else (rowOrder ord argsort lens).filter fun i => decide (M < lens.getD i 0)) := by
    rw [List.flatten_append, hfl]
    cases drop with
    | true => rfl
    | false => simp only [Bool.false_eq_true, if_false, flatten_singles]
  refine ⟨_, ho, ?_, heq, ?_⟩
  · rw [heq]
    have hp := rowOrder_perm h
    cases drop with
    | true =>
      simp only [if_true, List.append_nil, Bool.not_true, Bool.false_or]
      exact hp.filter _
    | false =>
      simp only [Bool.false_eq_true, if_false, Bool.not_false, Bool.true_or]
      rw [List.filter_eq_self.2 (fun _ _ => rfl)]
      refine List.Perm.trans ?_ hp
      have := List.filter_append_perm (fun i => decide (lens.getD i 0 ≤ M))
        (rowOrder ord argsort lens)
      refine List.Perm.trans (List.Perm.append_left _ (List.Perm.of_eq ?_)) this
      congr 1
      funext i
      rw [← decide_not]
      exact decide_eq_decide.2 Nat.not_le.symm
  · intro s hs
    rcases List.mem_append.1 hs with hs | hs
    · rcases hn with ⟨_, rfl⟩ | hn
      · simp at hs
      · have := cuts_good hn s hs
        exact ⟨this.1, .inl this.2⟩
    · cases drop with
      | true => simp at hs
      | false =>
        simp only [Bool.false_eq_true, if_false] at hs
        obtain ⟨i, hi, rfl⟩ := List.mem_map.1 hs
        exact ⟨by simp, .inr ⟨rfl, i, rfl, by simpa using (List.mem_filter.1 hi).2⟩⟩

example : IsArgsort [3, 1, 2, 9] [1, 2, 0, 3] := ⟨by decide, by decide⟩
example : lengthSplits [1, 2, 0, 3] [3, 1, 2, 9] 4 true false = some [[1, 2], [0], [3]] := by
  simp [lengthSplits, outerLoop, innerLoop, lenAtIdx, slice]

private theorem padded_more (lens : List Nat) {s : List Nat} {i M : Nat}
    (h : M < lens.getD i 0 * (s.length + 1)) : M < paddedSize lens (s ++ [i]) := by
  refine Nat.lt_of_lt_of_le h ?_
  rw [paddedSize, List.length_append]
  refine Nat.mul_le_mul_right _ (foldl_max_mem _ _ _ (.inl ?_))
  simp

private theorem cuts_full {lens inds : List Nat} {M b : Nat} {out : List (List Nat)}
    (hr : Rising (inds.map (lenAtIdx lens)))
    (h : Cuts (inds.map (lenAtIdx lens)) inds M b out) :
    (∃ t rest, out = t :: rest ∧ t.head? = inds[b]?) ∧
    ∀ pre s t post, out = pre ++ s :: t :: post →
      ∃ i, t.head? = some i ∧ M < paddedSize lens (s ++ [i]) := by
  have hlen : (inds.map (lenAtIdx lens)).length = inds.length := by simp
  induction h with
  | last b hb hf =>
    refine ⟨⟨_, _, rfl, by simp⟩, ?_⟩
    intro pre s t post he
    have := congrArg List.length he
    simp at this; omega
  | more b e rest hbe he hf hfull _ ih =>
    rw [hlen] at he
    obtain ⟨⟨t0, rest0, hr0, ht0⟩, ih⟩ := ih
    refine ⟨⟨_, _, rfl, ?_⟩, ?_⟩
    · rw [slice, List.head?_take]
      rw [if_neg (by omega)]
      simp
    intro pre s t post hout
    cases pre with
    | nil =>
      simp only [List.nil_append, List.cons.injEq] at hout
      obtain ⟨rfl, hrest⟩ := hout
      rw [hr0] at hrest
      simp only [List.cons.injEq] at hrest
      obtain ⟨rfl, _⟩ := hrest
      refine ⟨inds[e], by rw [ht0, List.getElem?_eq_getElem he], padded_more lens ?_⟩
      rw [slice_len _ _ _ (by omega), ← lenAt_map lens inds e he]
      have := hfull hr
      rwa [show e + 1 - b = e - b + 1 by omega] at this
    | cons p pre =>
      simp only [List.cons_append, List.cons.injEq] at hout
      exact ih pre s t post hout.2

private theorem rising_of {lens l : List Nat}
    (h : l.Pairwise fun i j => lens.getD i 0 ≤ lens.getD j 0) :
    Rising (l.map (lenAtIdx lens)) := by
  intro i j hij hj
  have hj' : j < l.length := by simpa using hj
  rw [lenAt_map lens l i (by omega), lenAt_map lens l j hj']
  by_cases he : i = j
  · subst he; exact Nat.le_refl _
  · exact List.pairwise_iff_getElem.1 h i j (by omega) hj' (by omega)

/-- With `order_by_length` every split is as large as it can be: adding the
first row of the following split to it would exceed `max_tokens`. -/
theorem C73_maximal_ordered (argsort lens : List Nat) (M : Nat) (drop : Bool)
    (h : IsArgsort lens argsort) (out : List (List Nat))
    (ho : lengthSplits argsort lens M true drop = some out)
    (pre s t post) (hout : out = pre ++ s :: t :: post) :
    ∃ i, t.head? = some i ∧ M < paddedSize lens (s ++ [i]) := by
  obtain ⟨normal, ho', hn⟩ := splits_shape argsort lens M true drop
  rw [ho] at ho'
  have ho' := Option.some.inj ho'
  rw [hout] at ho'
  have hr : Rising (((rowOrder true argsort lens).filter
      fun i => decide (lens.getD i 0 ≤ M)).map (lenAtIdx lens)) :=
    rising_of (h.2.sublist List.filter_sublist)
  -- either `t` is one of the normal splits, or it is a single long row
  by_cases hlt : pre.length + 1 < normal.length
  · rcases hn with ⟨_, rfl⟩ | hn
    · simp at hlt
    refine (cuts_full hr hn).2 pre s t (post.take (normal.length - (pre.length + 2))) ?_
    have := congrArg (List.take normal.length) ho'
    rw [List.take_append_of_le_length (Nat.le_refl _), List.take_length] at this
    generalize hk : normal.length - (pre.length + 2) = k
    refine this.symm.trans ?_
    rw [List.take_append, List.take_of_length_le (by omega)]
    congr 1
    rw [show normal.length - pre.length = k + 1 + 1 by omega]
    simp
  · have ht : t ∈ (if drop = true then [] else
        ((rowOrder true argsort lens).filter fun i => decide (M < lens.getD i 0)).map
          fun i => [i]) := by
      have := congrArg (List.drop normal.length) ho'
      rw [List.drop_append_of_le_length (Nat.le_refl _), List.drop_length, List.nil_append] at this
      rw [← this]
      have h2 : pre ++ s :: t :: post = (pre ++ [s]) ++ t :: post := by simp
      rw [h2, List.drop_append_of_le_length (by simp; omega)]
      simp
    cases drop with
    | true => simp at ht
    | false =>
      simp only [Bool.false_eq_true, if_false] at ht
      obtain ⟨i, hi, rfl⟩ := List.mem_map.1 ht
      have hi : M < lens.getD i 0 := by simpa using (List.mem_filter.1 hi).2
      refine ⟨i, rfl, padded_more lens ?_⟩
      exact Nat.lt_of_lt_of_le hi (Nat.le_mul_of_pos_right _ (by omega))

/-- Without `order_by_length` the splits need not be as large as they can be:
the running maximum of each split starts from a row of the split before the
previous boundary (`current_max_len` is read before `begin` moves). Five rows of
lengths 4, 1, 1, 1, 1 and a limit of 4 give three splits although the last four
rows fit into one. -/
theorem C73_not_maximal_unordered :
    ¬ ∀ (lens : List Nat) (M : Nat) (out : List (List Nat)),
      lengthSplits [] lens M false true = some out →
      ∀ pre s t post, out = pre ++ s :: t :: post →
        ∃ i, t.head? = some i ∧ M < paddedSize lens (s ++ [i]) := by
  intro h
  have := h [4, 1, 1, 1, 1] 4 [[0], [1], [2, 3, 4]]
    (by simp [lengthSplits, outerLoop, innerLoop, lenAtIdx, slice, List.range, List.range.loop])
    [[0]] [1] [2, 3, 4] [] rfl
  obtain ⟨i, hi, hlt⟩ := this
  simp only [List.head?_cons, Option.some.injEq] at hi
  subst hi
  simp [paddedSize] at hlt

/-! ### The batches of one table -/

private theorem toBatches_mem (n : Nat) (inds : List Nat) :
    ∀ s ∈ toBatches n inds, s ≠ [] ∧ s.length ≤ n := by
  fun_induction toBatches n inds with
  | case1 => simp
  | case2 inds h ih =>
    intro s hs
    rcases List.mem_cons.1 hs with rfl | hs
    · refine ⟨fun e => h ?_, by simp; omega⟩
      rcases List.take_eq_nil_iff.1 e with e | e
      · exact .inr e
      · exact .inl e
    · exact ih s hs

private theorem perm_pick (bs : List (List Nat)) (p : List Nat) (h : p.Perm (List.range bs.length)) :
    (p.map fun i => bs.getD i []).Perm bs := by
  have h1 := h.map fun i => bs.getD i []
  refine h1.trans (List.Perm.of_eq ?_)
  apply List.ext_getElem
  · simp
  · intro i hi _
    simp at hi
    simp [List.getD, List.getElem?_eq_getElem hi]

private theorem flatten_perm {a b : List (List Nat)} (h : a.Perm b) :
    a.flatten.Perm b.flatten := by
  induction h with
  | nil => exact .refl _
  | cons x _ ih => simpa using ih.append_left x
  | swap x y l =>
    simp only [List.flatten_cons, ← List.append_assoc]
    exact (List.perm_append_comm).append_right _
  | trans _ _ h1 h2 => exact h1.trans h2

/-- Batching a table by `batch_size`: every row is in exactly one batch and no
batch is empty or longer than `batch_size`, whatever the shuffling and the
order. Without both, the rows keep their order. -/
theorem C73_table_by_size (cfg : BatchingCfg) (argsort : List Nat) (perm : Nat → List Nat)
    (lens : List Nat) (n : Nat) (hn : 0 < n) (hcfg : cfg.batchSize = some n)
    (hsort : cfg.orderByLength = true → IsArgsort lens argsort)
    (hperm : ∀ k, (perm k).Perm (List.range k)) :
    ∃ out, tableBatches cfg argsort perm lens = .ok (some out) ∧
      out.flatten.Perm (List.range lens.length) ∧
      (∀ s ∈ out, s ≠ [] ∧ s.length ≤ n) ∧
      (cfg.shuffle = false → cfg.orderByLength = false →
        out.flatten = List.range lens.length) := by
  unfold tableBatches
  rw [hcfg]
  simp only
  have hb : (if cfg.orderByLength = true then argsort else List.range lens.length) =
    rowOrder cfg.orderByLength argsort lens := rfl
  rw [hb]
  have hp := rowOrder_perm hsort
  have hf := toBatches_flatten n hn (rowOrder cfg.orderByLength argsort lens)
  have hm := toBatches_mem n (rowOrder cfg.orderByLength argsort lens)
  refine ⟨_, rfl, ?_⟩
  cases hs : cfg.shuffle with
  | true =>
    have hq := perm_pick (toBatches n (rowOrder cfg.orderByLength argsort lens)) _ (hperm _)
    refine ⟨?_, ?_, (nofun)⟩
    · refine List.Perm.trans ?_ hp
      refine List.Perm.trans ?_ (List.Perm.of_eq hf)
      exact flatten_perm hq
    · intro s hs
      exact hm s (hq.mem_iff.1 hs)
  | false =>
    simp only [Bool.false_eq_true, if_false]
    refine ⟨by rw [hf]; exact hp, hm, fun _ ho => ?_⟩
    rw [hf, rowOrder, ho]
    rfl

/-- Batching a table by `max_tokens`: every row that fits is in exactly one
batch, no batch is larger than `max_tokens` after padding, longer rows are
dropped or alone in a batch. -/
theorem C73_table_by_tokens (cfg : BatchingCfg) (argsort : List Nat) (perm : Nat → List Nat)
    (lens : List Nat) (M : Nat) (hcfg : cfg.batchSize = none) (hM : cfg.maxTokens = some M)
    (hsort : cfg.orderByLength = true → IsArgsort lens argsort)
    (hperm : ∀ k, (perm k).Perm (List.range k)) :
    ∃ out, tableBatches cfg argsort perm lens = .ok (some out) ∧
      out.flatten.Perm ((List.range lens.length).filter
        fun i => !cfg.dropLong || decide (lens.getD i 0 ≤ M)) ∧
      ∀ s ∈ out, s ≠ [] ∧ (paddedSize lens s ≤ M ∨
        (cfg.dropLong = false ∧ ∃ i, s = [i] ∧ M < lens.getD i 0)) := by
  obtain ⟨out, ho, hp, _, hm⟩ := C73_splits argsort lens M cfg.orderByLength cfg.dropLong hsort
  unfold tableBatches
  rw [hcfg, hM]
  simp only [ho, Option.map_some]
  refine ⟨_, rfl, ?_⟩
  cases hs : cfg.shuffle with
  | true =>
    have hq := perm_pick out _ (hperm _)
    exact ⟨(flatten_perm hq).trans hp, fun s hs => hm s (hq.mem_iff.1 hs)⟩
  | false => exact ⟨hp, hm⟩

/-- Without a batch size and a token limit the call is rejected. -/
theorem C73_table_rejects (cfg : BatchingCfg) (argsort : List Nat) (perm : Nat → List Nat)
    (lens : List Nat) :
    (∃ e, tableBatches cfg argsort perm lens = .error e) ↔
      cfg.batchSize = none ∧ cfg.maxTokens = none := by
  unfold tableBatches
  cases h1 : cfg.batchSize <;> cases h2 : cfg.maxTokens <;> simp

example : ∃ out, tableBatches { batchSize := some 2, orderByLength := true, shuffle := true }
    [1, 2, 0] (fun n => (List.range n).reverse) [3, 1, 2] = .ok (some out) ∧
    out = [[0], [1, 2]] := ⟨_, by simp [tableBatches, toBatches]; rfl, rfl⟩

end Fs2.Props
