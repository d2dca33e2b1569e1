import Verif.Props.Streams
import Verif.Pipeline.DynLaws
import Verif.Pipeline.PackLaws
import Verif.Pipeline.YieldLaws
import Verif.Pipeline.MapLaws

/-!
# What the buffering operators produce: C09, C15, C16, C18

Vocabulary: `Verif/Pipeline/Spec.lean`.
-/

namespace Fs2.Props
open Fs2 Source

/-! ## C09 -/

/-- When a bucket with the given examples is complete: its cost has reached the
threshold and it has at least the minimum number of examples, or it has the maximum
number of examples. -/
def CostReached (c : DynCfg) (q : Data → Rat) (b : List Data) : Prop :=
  (c.threshold ≤ (b.map q).sum ∧ ∀ m, c.min = some m → m ≤ b.length) ∨
    ∃ m, c.max = some m ∧ m ≤ b.length

theorem ready_iff (c : DynCfg) (q : Data → Rat) (b : List Data) :
    c.ready (totalCost q b) b.length = true ↔ CostReached c q b := by
  unfold DynCfg.ready CostReached totalCost
  cases c.min <;> cases c.max <;> simp

theorem not_ready_iff (c : DynCfg) (q : Data → Rat) (b : List Data) :
    c.ready (totalCost q b) b.length = false ↔ ¬ CostReached c q b := by
  rw [← ready_iff, Bool.not_eq_true]

/-- What the builder accepts (data_pipeline.cc:417-423). -/
def DynCfg.Accepted (c : DynCfg) : Prop :=
  0 < c.threshold ∧ (∀ m, c.max = some m → 0 < m) ∧
    ∀ m n, c.max = some m → c.min = some n → n ≤ m

theorem accepted_ready {c : DynCfg} (h : DynCfg.Accepted c) : c.ready 0 0 = false := by
  have : ¬ CostReached c (fun _ => 0) [] := by
    rintro (⟨h1, -⟩ | ⟨m, h1, h2⟩)
    · have := h.1
      simp at h1
      exact absurd this (Rat.not_lt.mpr h1)
    · have := h.2.1 m h1
      simp at h2
      omega
  have := (not_ready_iff c (fun _ => 0) []).mpr this
  simpa [totalCost] using this

/-- Without a bucket creation function: the buckets returned are consecutive pieces
`outs` of the upstream stream, each non-empty and complete, with no shorter prefix
complete; what is left (`last`, with no prefix complete) is the final bucket, unless
it is empty or `drop_remainder` is set. -/
theorem C09_dynamic_bucket (S : Source) (c : DynCfg) (q : Data → Rat) (xs : List Data)
    (hv : DynCfg.Accepted c) (hq : ∀ x, c.cost x = .ok (q x)) (hc : c.create = none)
    (h : S.Yields S.init xs) :
    ∃ (outs : List (List Data)) (last : List Data), outs.flatten ++ last = xs ∧
      (∀ b ∈ outs, b ≠ [] ∧ CostReached c q b ∧
        ∀ k, k < b.length → ¬ CostReached c q (b.take k)) ∧
      (∀ k, ¬ CostReached c q (last.take k)) ∧
      (dynamicBucket c S).Yields (dynamicBucket c S).init
        ((outs ++ if c.drop = false ∧ last ≠ [] then [last] else []).map .list) := by
  obtain ⟨outs, last, h1, h2, h3, h4⟩ := dyn_yields hq hc (accepted_ready hv) h
  have aux : ∀ (b : List Data) (k : Nat), k ≤ b.length →
      c.ready (totalCost q (b.take k)) k = false → ¬ CostReached c q (b.take k) := by
    intro b k hk hr
    rw [← not_ready_iff, List.length_take, Nat.min_eq_left hk]
    exact hr
  refine ⟨outs, last, h1, ?_, ?_, h4⟩
  · intro b hb
    obtain ⟨a1, a2, a3⟩ := h2 b hb
    exact ⟨a1, (ready_iff ..).mp a2, fun k hk => aux b k (by omega) (a3 k hk)⟩
  · intro k
    by_cases hk : k ≤ last.length
    · exact aux last k hk (h3 k hk)
    · rw [List.take_of_length_le (by omega)]
      have := aux last last.length (Nat.le_refl _) (h3 _ (Nat.le_refl _))
      rwa [List.take_length] at this

/-- A bucket holds at most the maximum number of examples. -/
theorem C09_maximum (c : DynCfg) (q : Data → Rat) (b : List Data) (m : Nat) (hm : c.max = some m)
    (h : ∀ k, k < b.length → ¬ CostReached c q (b.take k)) : b.length ≤ m := by
  rcases Nat.lt_or_ge m b.length with hlt | hge
  · refine absurd (.inr ⟨m, hm, ?_⟩) (h m hlt)
    rw [List.length_take]; omega
  · exact hge

/-- The examples in a bucket. -/
def members : Data → List Data
  | .list xs => xs
  | _ => []

/-- With a bucket creation function that loses and invents nothing and returns at
least one bucket, nothing is lost or made up over one pass either. -/
theorem C09_creation_function (S : Source) (c : DynCfg) (q : Data → Rat)
    (f : List Data → List Data × List Data) (xs ys : List Data) (hv : DynCfg.Accepted c)
    (hq : ∀ x, c.cost x = .ok (q x)) (hc : c.create = some (fun b => .ok (f b)))
    (hf : ∀ b, ((f b).1.flatMap members ++ (f b).2).Perm b) (hd : c.drop = false)
    (h : S.Yields S.init xs)
    (hy : (dynamicBucket c S).Yields (dynamicBucket c S).init ys) :
    (ys.flatMap members).Perm xs := by
  suffices H : ∀ (s : DynSt S.σ) xs, S.Yields s.inner xs → (dynamicBucket c S).Yields s ys →
      (ys.flatMap members).Perm (s.ret.flatMap members ++ (s.buf ++ xs)) by
    simpa [dynamicBucket] using H (dynamicBucket c S).init xs h hy
  clear h hy xs
  induction ys with
  | nil =>
    rintro ⟨r, b, i⟩ xs h hy
    obtain ⟨s', hn, -⟩ := hy.nil_inv.next
    rw [dyn_next] at hn
    simp only [dynNext] at hn
    cases r with
    | cons z zs => cases hn
    | nil =>
      simp only at hn h
      obtain ⟨pre, post, i', h1, h2, h3, h4, h5⟩ := dynFill_fwd (b := b) hq h [] 0
      rw [h2] at hn
      simp only [Rat.zero_add] at hn h4 h5
      split at hn
      · next h0 =>
        simp only [List.append_eq_nil_iff] at h0
        obtain ⟨rfl, rfl⟩ := h0
        have : post = [] := by
          rcases h5 with h5 | h5
          · simp [totalCost, accepted_ready hv] at h5
          · exact h5
        subst this
        simp [h1]
      · split at hn
        · rw [hc] at hn
          simp only at hn
          split at hn <;> cases hn
        · rw [if_neg (by simp [hd])] at hn
          cases hn
  | cons y ys ih =>
    rintro ⟨r, b, i⟩ xs h hy
    obtain ⟨s', hn, hy'⟩ := hy.cons_inv
    rw [dyn_next] at hn
    simp only [dynNext] at hn
    cases r with
    | cons z zs =>
      simp only at hn h
      cases hn
      have := ih ⟨zs, b, i⟩ xs h hy'
      simp only [List.flatMap_cons, List.append_assoc]
      exact this.append_left _
    | nil =>
      simp only at hn h
      obtain ⟨pre, post, i', h1, h2, h3, h4, h5⟩ := dynFill_fwd (b := b) hq h [] 0
      rw [h2] at hn
      simp only [Rat.zero_add] at hn h4 h5
      subst h1
      simp only [List.flatMap_nil, List.nil_append]
      split at hn
      · cases hn
      · split at hn
        · rw [hc] at hn
          simp only at hn
          split at hn
          · cases hn
          · cases hn
          · next z zs new he =>
            cases hn
            have := ih ⟨zs, new, i'⟩ post h3 hy'
            have hp := hf (b ++ pre)
            simp only [Except.ok.injEq] at he
            rw [he] at hp
            simp only [List.flatMap_cons]
            refine (this.append_left _).trans ?_
            rw [← List.append_assoc b, ← List.append_assoc, ← List.append_assoc]
            exact (by simpa using hp : (members y ++ List.flatMap members zs ++ new).Perm (b ++ pre)).append_right post
        · next hnr =>
          rw [if_neg (by simp [hd])] at hn
          cases hn
          have : post = [] := h5.resolve_left (by simpa using hnr)
          subst this
          have := ih ⟨[], [], i'⟩ [] h3 hy'
          simp only [List.flatMap_nil, List.nil_append, List.perm_nil] at this
          simp [this, members]

/-- Cost is the value of an integer; at most 3 examples. -/
def dynExample : DynCfg where
  threshold := 4
  cost x := match x with
    | .int n => .ok n
    | _ => .ok 0
  create := none
  min := some 2
  max := some 3
  drop := false

example : DynCfg.Accepted dynExample :=
  ⟨by simp [dynExample]; decide, by simp [dynExample], by simp [dynExample]⟩

example : ∃ q : Data → Rat, ∀ x, dynExample.cost x = .ok (q x) :=
  ⟨fun x => match x with | .int n => n | _ => 0, fun x => by cases x <;> rfl⟩

/-- `hf` can be met: put all but the last example into one bucket. -/
example : ∀ b : List Data, (([Data.list b.dropLast], b.getLast?.toList).1.flatMap members ++
    ([Data.list b.dropLast], b.getLast?.toList).2).Perm b := by
  intro b
  rcases List.eq_nil_or_concat b with rfl | ⟨l, x, rfl⟩ <;> simp [members]

/-! ## C15 -/

/-- Without truncation: the packs are made of whole sequences, together all the
upstream sequences in order, except the empty ones and those longer than the
capacity or the maximum length, each of which raises an error.  Each pack has exactly
`num_elements` positions, the rest being filled with the padding value, and its
`seq_lens` are the lengths of its sequences.  (`drop_remainder` has no effect
here, see `C15_drop_ignored`.) -/
theorem C15_pack_whole (S : Source) (c : PackCfg) (ts : List (List Int)) (ht : c.truncate = false)
    (hcap : 0 < c.cap) (h : S.Yields S.init (ts.map .tensor)) :
    ∃ (rs : List Res) (packs : List (List (List Int))), (pack c S).Trace (pack c S).init rs ∧
      (∀ r ∈ rs, r ≠ .eod) ∧
      yielded rs = packs.map (fun g =>
        .dict [("seqs", .tensor (g.flatten ++ List.replicate (c.cap - g.flatten.length) c.pad)),
               ("seq_lens", .list (g.map fun t => .int t.length))]) ∧
      (∀ g ∈ packs, g.flatten.length ≤ c.cap) ∧
      packs.flatten = ts.filter (fun t => t ≠ [] ∧ t.length ≤ c.cap ∧ t.length ≤ c.maxLen) ∧
      raised rs = (ts.filter fun t => c.cap < t.length ∨ c.maxLen < t.length).map
        (fun _ => packLongErr) := by
  obtain ⟨rs, groups, h1, h2, h3, h4, h5, h6⟩ := pack_trace ht hcap
    (s := (pack c S).init) (pending_none h)
  refine ⟨rs, groups, h1, h2, ?_, h5, ?_, ?_⟩
  · rw [h3]
    apply List.map_congr_left
    intro g _
    simp [packOf, packOut]
  · rw [h4, nonEmpty, List.filter_filter]
    apply List.filter_congr
    intro t _
    simp only [PackCfg.fits, Nat.le_min]
    cases t <;> simp
  · rw [h6]
    congr 1
    apply List.filter_congr
    intro t _
    simp only [PackCfg.fits, Nat.le_min, ← decide_not]
    congr 1
    simp only [eq_iff_iff]
    omega

theorem all_yield {rs : List Res} (h : raised rs = []) (he : ∀ r ∈ rs, r ≠ .eod) :
    rs = (yielded rs).map .yield := by
  induction rs with
  | nil => rfl
  | cons r rs ih =>
    cases r with
    | yield x =>
      rw [yielded, List.map_cons, ← ih h fun r hr => he r (by simp [hr])]
    | eod => exact absurd rfl (he .eod (by simp))
    | err e => cases h

/-- Tokens are conserved if no sequence is too long. -/
theorem C15_pack_tokens (S : Source) (c : PackCfg) (ts : List (List Int)) (ht : c.truncate = false)
    (hcap : 0 < c.cap) (hlen : ∀ t ∈ ts, t.length ≤ c.cap ∧ t.length ≤ c.maxLen)
    (h : S.Yields S.init (ts.map .tensor)) :
    ∃ packs : List (List (List Int)),
      (pack c S).Yields (pack c S).init (packs.map (fun g =>
        .dict [("seqs", .tensor (g.flatten ++ List.replicate (c.cap - g.flatten.length) c.pad)),
               ("seq_lens", .list (g.map fun t => .int t.length))])) ∧
      (∀ g ∈ packs, g.flatten.length ≤ c.cap ∧ ∀ t ∈ g, t.length ≤ c.maxLen) ∧
      packs.flatten.flatten = ts.flatten := by
  obtain ⟨rs, packs, h1, h2, h3, h4, h5, h6⟩ := C15_pack_whole S c ts ht hcap h
  have e : raised rs = [] := by
    rw [h6, List.map_eq_nil_iff, List.filter_eq_nil_iff]
    intro t ht
    have := hlen t ht
    simp; omega
  refine ⟨packs, ?_, ?_, ?_⟩
  · rw [← h3]
    rw [all_yield e h2] at h1
    exact h1.yields
  · intro g hg
    refine ⟨h4 g hg, fun t ht => ?_⟩
    have : t ∈ packs.flatten := List.mem_flatten.mpr ⟨g, hg, ht⟩
    rw [h5] at this
    simp at this
    exact this.2.2.2
  · rw [h5]
    clear h1 h2 h3 h4 h5 h6 h e
    induction ts with
    | nil => rfl
    | cons t ts ih =>
      have h1 := ih (fun u hu => hlen u (by simp [hu]))
      have h2 := hlen t (by simp)
      rw [List.filter_cons]
      split
      · rw [List.flatten_cons, List.flatten_cons, h1]
      · next hn =>
        simp [h2] at hn
        rw [h1, hn]; rfl

/-- With truncation: the upstream tokens are cut into consecutive pieces, one for
each pack; the first token of a piece may repeat the last token of the one before
(where a sequence was cut, as documented).  All packs but the last are full, and
`drop_remainder` drops a last pack that is not.  The `seq_lens` of a pack add up to
its number of tokens and are at most `max_seq_len`. -/
theorem C15_pack_truncate (S : Source) (c : PackCfg) (ts : List (List Int)) (ht : c.truncate = true)
    (hmax : 0 < c.maxLen) (hcap : 1 < c.cap) (h : S.Yields S.init (ts.map .tensor)) :
    ∃ full last : List (List Int × List Nat), Glued ((full ++ last).map (·.1)) ts.flatten ∧
      last.length ≤ 1 ∧
      (∀ p ∈ full ++ last, p.2.sum = p.1.length ∧ ∀ k ∈ p.2, 0 < k ∧ k ≤ c.maxLen) ∧
      (∀ p ∈ full, p.1.length = c.cap) ∧ (∀ p ∈ last, p.1.length < c.cap) ∧
      (pack c S).Yields (pack c S).init ((full ++ if c.drop then [] else last).map fun p =>
        .dict [("seqs", .tensor (p.1 ++ List.replicate (c.cap - p.1.length) c.pad)),
               ("seq_lens", .list (p.2.map fun (n : Nat) => .int n))]) := by
  obtain ⟨full, last, h1, h2, h3, h4, h5⟩ := pack_trunc_yields ht hmax hcap
    (s := (pack c S).init) (pending_none h)
  refine ⟨full.map fun p => (p.toks, p.lens), last.map fun p => (p.toks, p.lens), ?_, by simpa,
    ?_, ?_, ?_, ?_⟩
  · simpa [List.map_append, Function.comp_def] using h1
  · intro p hp
    simp only [← List.map_append, List.mem_map, List.mem_append] at hp
    obtain ⟨p', hp' | hp', rfl⟩ := hp
    · exact (h3 p' hp').1
    · exact (h4 p' hp').1
  · simp only [List.mem_map]
    rintro _ ⟨p, hp, rfl⟩
    exact (h3 p hp).2
  · simp only [List.mem_map]
    rintro _ ⟨p, hp, rfl⟩
    exact (h4 p hp).2
  · have e : packOut c = fun p =>
        .dict [("seqs", .tensor (p.toks ++ List.replicate (c.cap - p.toks.length) c.pad)),
               ("seq_lens", .list (p.lens.map fun (n : Nat) => .int n))] := rfl
    rw [e] at h5
    cases hd : c.drop <;> simpa [hd, Function.comp_def] using h5

/-- Room for 4 tokens, sequences of at most 3. -/
def packExample (truncate drop : Bool) : PackCfg := ⟨4, 3, 0, truncate, drop⟩

example : (pack (packExample false true) (listSource [.tensor [1, 2], .tensor [3, 4, 5]])).run
      [.next, .next, .next]
      (pack (packExample false true) (listSource [.tensor [1, 2], .tensor [3, 4, 5]])).init
    = [some (.yield (.dict [("seqs", .tensor [1, 2, 0, 0]), ("seq_lens", .list [.int 2])])),
       some (.yield (.dict [("seqs", .tensor [3, 4, 5, 0]), ("seq_lens", .list [.int 3])])),
       some .eod] := by
  simp [Source.run, pack, packLoop, packStep, packEnd, packOut, packExample, listSource]

/-- `drop_remainder` is ignored without truncation: for every configuration the
last pack is returned. -/
theorem C15_drop_ignored (S : Source) (c : PackCfg) (ht : c.truncate = false) :
    pack { c with drop := true } S = pack { c with drop := false } S := by
  have hl : ∀ (p : Pack) (s : PackSt S.σ),
      packLoop S.next { c with drop := true } p s = packLoop S.next { c with drop := false } p s := by
    intro p s
    have he : ∀ p b, packEnd { c with drop := true } p b = packEnd { c with drop := false } p b := by
      intro p b; simp [packEnd, ht, packOut]
    have hs : ∀ p t, packStep { c with drop := true } p t = packStep { c with drop := false } p t :=
      fun _ _ => rfl
    have key : ∀ (c₁ c₂ : PackCfg), (∀ p b, packEnd c₁ p b = packEnd c₂ p b) →
        (∀ p t, packStep c₁ p t = packStep c₂ p t) → ∀ p s r,
        packLoop S.next c₁ p s = some r → packLoop S.next c₂ p s = some r := by
      intro c₁ c₂ h1 h2 p s r hn
      refine packLoop.partial_correctness S.next c₁
        (fun p s r => packLoop S.next c₂ p s = some r) ?_ p s r hn
      intro f ih p s r hx
      rw [packLoop]
      simp only [← h1, ← h2]
      split at hx
      · split at hx
        · exact ih _ _ _ hx
        · exact hx
        · exact hx
      · split at hx
        · cases hx
        · exact hx
        · exact hx
        · split at hx
          · exact ih _ _ _ hx
          · exact hx
          · exact hx
        · exact hx
    cases h1 : packLoop S.next { c with drop := true } p s with
    | some r => exact (key _ _ he hs p s r h1).symm
    | none =>
      cases h2 : packLoop S.next { c with drop := false } p s with
      | none => rfl
      | some r =>
        rw [key _ _ (fun p b => (he p b).symm) (fun p t => (hs p t).symm) p s r h2] at h1
        cases h1
  simp only [pack]
  congr 1
  funext s
  exact hl _ s

/-- Disagreement with the documentation, which says that a sequence longer than
`max_seq_len` is split so that the second part starts with the last token of the
first (`[0, 1, 2, 3]` and `[3, 4, 5, 6]` for seven tokens and `max_seq_len = 4`):
that is done only when the pack is full. -/
theorem C15_no_overlap :
    (pack ⟨10, 4, 0, true, false⟩ (listSource [.tensor [0, 1, 2, 3, 4, 5, 6]])).run [.next]
      (pack ⟨10, 4, 0, true, false⟩ (listSource [.tensor [0, 1, 2, 3, 4, 5, 6]])).init
    = [some (.yield (.dict [("seqs", .tensor [0, 1, 2, 3, 4, 5, 6, 0, 0, 0]),
        ("seq_lens", .list [.int 4, .int 3])]))] := by
  simp [Source.run, pack, packLoop, packStep, packEnd, packOut, listSource]

/-- Disagreement: with `num_elements = 1` and truncation a pipeline with a
single sequence of two tokens never ends; its first token is returned for ever and
its second never.  (The hypothesis `1 < num_elements` above is needed; the builder
does not check it.) -/
theorem C15_capacity_one :
    (pack ⟨1, 4, 0, true, false⟩ (listSource [.tensor [5, 6]])).Streams
      (pack ⟨1, 4, 0, true, false⟩ (listSource [.tensor [5, 6]])).init
      (fun _ => .dict [("seqs", .tensor [5]), ("seq_lens", .list [.int 1])]) := by
  let P := pack ⟨1, 4, 0, true, false⟩ (listSource [.tensor [5, 6]])
  have hstep : P.next (⟨some [5, 6], (1 : Nat)⟩ : PackSt Nat) =
      some (.yield (.dict [("seqs", .tensor [5]), ("seq_lens", .list [.int 1])]),
        (⟨some [5, 6], (1 : Nat)⟩ : PackSt Nat)) := by
    simp [P, pack, packLoop, packStep, packEnd, packOut, listSource]
  have h0 : P.next P.init = some (.yield (.dict [("seqs", .tensor [5]),
      ("seq_lens", .list [.int 1])]), (⟨some [5, 6], (1 : Nat)⟩ : PackSt Nat)) := by
    simp [P, pack, packLoop, packStep, packEnd, packOut, listSource]
  have hrep : ∀ n, P.Emits (⟨some [5, 6], (1 : Nat)⟩ : PackSt Nat)
      (List.replicate n (.dict [("seqs", .tensor [5]), ("seq_lens", .list [.int 1])]))
      (⟨some [5, 6], (1 : Nat)⟩ : PackSt Nat) := by
    intro n
    induction n with
    | zero => exact .nil _
    | succ n ih => exact .cons hstep ih
  intro n
  rw [List.map_const', List.length_range]
  cases n with
  | zero => exact ⟨_, .nil _⟩
  | succ n => exact ⟨_, .cons h0 (hrep n)⟩

/-! ## C16 -/

/-- `yield_from(f)` returns the examples of `f(x)` for each upstream `x` in order; a
pipeline without examples contributes nothing. -/
theorem C16_yield_from (S : Source) (F : YieldFn) (ys : Data → List Data) (xs : List Data)
    (hF : ∀ x ∈ xs, F.err x = none ∧ (F.pipe x).finitude = .finite ∧
      (F.pipe x).Yields (F.pipe x).init (ys x))
    (h : S.Yields S.init xs) :
    (yieldFrom F S).Yields (yieldFrom F S).init (xs.flatMap ys) :=
  yield_yields (s := (yieldFrom F S).init) hF (.inl rfl) h

/-- The same for an upstream that need not end. -/
theorem C16_yield_from_endless (S : Source) (F : YieldFn) (ys : Data → List Data) (xs : List Data)
    (s' : S.σ) (hF : ∀ x ∈ xs, F.err x = none ∧ (F.pipe x).finitude = .finite ∧
      (F.pipe x).Yields (F.pipe x).init (ys x))
    (h : S.Emits S.init xs s') :
    ∃ t, (yieldFrom F S).Emits (yieldFrom F S).init (xs.flatMap ys) t :=
  yield_emits (s := (yieldFrom F S).init) hF (.inl rfl) h

/-- `[1, ..., n - 1]`. -/
def below : Data → List Data
  | .int (.ofNat n) => ints (n - 1)
  | _ => []

/-- An example: `f(n)` is `read_sequence([1, ..., n - 1])` in a pipeline of its own. -/
def yieldExample : YieldFn where
  pipe x := pipe (below x)
  err _ := none

example : (yieldFrom yieldExample (listSource (ints 3))).Yields
    (yieldFrom yieldExample (listSource (ints 3))).init [.int 1, .int 1, .int 2] :=
  C16_yield_from (listSource (ints 3)) yieldExample below (ints 3)
    (fun x _ => ⟨rfl, rfl, pipe_yields _⟩) (C05_read_sequence _)

/-! ## C18 -/

/-- `map(f, num_parallel_calls=n)` with the default `deterministic=True` returns
`f(x)` for each upstream example, in order, whatever `n`.  (`f` does not throw.) -/
theorem C18_deterministic (S : Source) (f : Data → Data) (n : Nat) (xs : List Data) (hn : 0 < n)
    (h : S.Yields S.init xs) : (mapPar f n S).Yields (mapPar f n S).init (xs.map f) :=
  mapPar_yields hn (s := (mapPar f n S).init) ⟨0, rfl, rfl⟩ h

example : (mapPar (fun x => .list [x, x]) 3 (listSource (ints 5))).Yields
    (mapPar (fun x => .list [x, x]) 3 (listSource (ints 5))).init
    ((ints 5).map fun x => .list [x, x]) :=
  C18_deterministic _ _ 3 _ (by decide) (C05_read_sequence _)

end Fs2.Props
