import Verif.Generation.SamplingLemmas
import Verif.Props.StepProcessor
import Mathlib.Tactic.Linarith

/-!
Property C61: generation by sampling returns the requested number of well formed sequences for every
prompt; and, with the step processors of C57 and C58, sequences without repetitions or banned sequences.
-/

namespace Fs2.Props

open Fs2.Gen

/-! ### Specification -/

/-- The prompt with index `i`. -/
def promptAt (p : Prompts) (i : Nat) : List Int := (p.rows.getD i []).take (p.lens.getD i 0)

/-- A batch of prompts over a vocabulary of `V` tokens: at least one prompt, none empty, no length above
the width of the tensor. -/
structure GoodPrompts (V : Nat) (p : Prompts) : Prop where
  nonempty : p.rows ≠ []
  rows : p.lens.length = p.rows.length
  width : ∀ row ∈ p.rows, row.length = p.width
  lens : ∀ len ∈ p.lens, 1 ≤ len ∧ len ≤ p.width
  tokens : ∀ i, ∀ t ∈ promptAt p i, 0 ≤ t ∧ t < (V : Int)

/-- The model and the processors return a row of `V` probabilities for every sequence, and a sampled token
has a positive probability (`C59_topp`, `C59_topk`). -/
structure GoodOps (V : Nat) (ops : Ops) : Prop where
  lm : ∀ src seqs out, src.length = seqs.length → ops.lm src seqs = some out →
    out.length = seqs.length ∧ ∀ q ∈ out, q.length = V
  process : ∀ n seqs probs out, (∀ q ∈ probs, q.length = V) → ops.process n seqs probs = some out →
    out.length = probs.length ∧ ∀ q ∈ out, q.length = V
  sample : ∀ (n r : Nat) (ws : List ℚ) (t : Nat), ops.sample n r ws = some t → ∃ w, ws[t]? = some w ∧ 0 < w

/-- Nothing goes wrong and something is left to choose: the model returns, the processors leave no negative
probability and a token with a positive one other than EOS, PAD and UNK, and the sampler returns as long as
there is something to draw. -/
structure LiveOps (V : Nat) (c : Settings) (ops : Ops) : Prop where
  lm : ∀ src seqs, src.length = seqs.length → ∃ probs, ops.lm src seqs = some probs ∧ ∀ n, BatchOf V n seqs probs →
    ∃ out, ops.process n seqs probs = some out ∧ ∀ q ∈ out, (∀ w ∈ q, 0 ≤ w) ∧
      ∃ (t : Nat) (w : ℚ), q[t]? = some w ∧ 0 < w ∧ t ≠ c.eos ∧ c.pad ≠ some t ∧ c.unk ≠ some t
  sample : ∀ (n r : Nat) (ws : List ℚ), (∀ w ∈ ws, 0 ≤ w) → (∃ w ∈ ws, 0 < w) →
    ∃ t, ops.sample n r ws = some t

/-- The longest sequences that are generated: the largest sequence length, or `max_gen_len` tokens after
the longest prompt. -/
def lengthLimit (c : Settings) (p : Prompts) : Nat := min c.maxSeq (p.maxLen + c.maxGen)

/-- What a returned sequence looks like: the prompt (if requested), followed by tokens other than EOS and
PAD, which the step processors let through where they stand, and by one EOS. The EOS is let through as
well, unless the sequence has reached the limit, and the length is within the limits. -/
structure GoodHypothesis (V : Nat) (c : Settings) (ops : Ops) (p : Prompts) (i : Nat) (h : List Int) :
    Prop where
  shape : ∃ body : List Int,
    h = (if c.echo then promptAt p i else []) ++ body ++ [(c.eos : Int)] ∧
    (c.eos : Int) ∉ body ∧ (∀ k, c.pad = some k → (k : Int) ∉ body) ∧
    Grows (LetsThrough V 0 ops.process) (promptAt p i) (promptAt p i ++ body) ∧
    ((promptAt p i ++ body).length + 1 ≠ lengthLimit c p →
      LetsThrough V 0 ops.process (promptAt p i ++ body) c.eos) ∧
    (promptAt p i ++ body).length + 1 ≤ lengthLimit c p ∧
    min c.maxSeq (p.maxLen + c.minGen) ≤ (promptAt p i ++ body).length + 1

/-! ### The invariant -/

section

variable (V : Nat) (c : Settings) (ops : Ops) (p : Prompts) (lim : Limits)

def lenAt (i : Nat) : Nat := p.lens.getD i 0

/-- A row of `_seqs` before step `n`. -/
private structure RowOk (n i : Nat) (seq : List Int) : Prop where
  idx : i < p.rows.length
  len : seq.length = lim.maxLen
  split : ∃ body : List Int, seq.take (max n (lenAt p i)) = promptAt p i ++ body ∧
    (c.eos : Int) ∉ body ∧ (∀ k, c.pad = some k → (k : Int) ∉ body) ∧
    Grows (LetsThrough V 0 ops.process) (promptAt p i) (promptAt p i ++ body)

/-- The state before step `n`. -/
private structure Inv (n : Nat) (s : SampState) : Prop where
  lens : s.promptLens = if p.padded then some (s.promptIdx.map (lenAt p)) else none
  mask : s.promptMask = some (s.promptIdx.map fun i => maskRow p.width (lenAt p i)) ∨ s.promptMask = none
  mask' : n < lim.maxPrompt → s.promptMask = some (s.promptIdx.map fun i => maskRow p.width (lenAt p i))
  rows : s.seqs.length = s.promptIdx.length
  live : s.promptIdx ≠ []
  row : ∀ (k i : Nat) (seq : List Int), s.promptIdx[k]? = some i → s.seqs[k]? = some seq →
    RowOk V c ops p lim n i seq
  outs : s.output.length = p.rows.length
  count : ∀ i < p.rows.length, s.promptIdx.count i + (s.output.getD i []).length = max 1 c.numGens
  hyps : ∀ i, ∀ h ∈ s.output.getD i [], GoodHypothesis V c ops p i h

variable {V c ops p lim}

theorem lenAt_bounds (hp : GoodPrompts V p) (i : Nat) (hi : i < p.rows.length) :
    1 ≤ lenAt p i ∧ lenAt p i ≤ p.width ∧ lenAt p i ≤ p.maxLen ∧ p.minLen ≤ lenAt p i ∧
      (promptAt p i).length = lenAt p i := by
  have hl : i < p.lens.length := by rw [hp.rows]; exact hi
  have hm : lenAt p i ∈ p.lens := by
    rw [lenAt, List.getD_eq_getElem?_getD, List.getElem?_eq_getElem hl]
    exact List.getElem_mem _
  have h1 := hp.lens _ hm
  refine ⟨h1.1, h1.2, (foldl_max_ge _ _).2 _ hm, (foldl_min_le' _ _).2 _ hm, ?_⟩
  have hw : (p.rows.getD i []).length = p.width := by
    rw [List.getD_eq_getElem?_getD, List.getElem?_eq_getElem hi]
    exact hp.width _ (List.getElem_mem _)
  rw [promptAt, List.length_take, hw]
  show min (lenAt p i) p.width = lenAt p i
  omega

theorem limits_spec (hp : GoodPrompts V p) (h : limits c p = some lim) :
    lim.minPrompt = p.minLen ∧ lim.maxPrompt = p.maxLen ∧
      lim.minLen = min c.maxSeq (p.maxLen + c.minGen) ∧ lim.maxLen = lengthLimit c p ∧
      p.maxLen < lim.maxLen ∧ p.minLen ≤ p.maxLen ∧ lim.minLen ≤ lim.maxLen := by
  unfold limits at h
  split at h
  · cases h
  · split at h
    · cases h
    · split at h
      · cases h
      · split at h
        · cases h
        · simp only [Option.some.injEq] at h
          subst h
          obtain ⟨row, rest, hr⟩ := List.exists_cons_of_ne_nil hp.nonempty
          have h0 := lenAt_bounds hp 0 (by rw [hr]; simp)
          refine ⟨rfl, rfl, rfl, rfl, ?_, by omega, ?_⟩
          · simp only; omega
          · simp only; omega

private theorem row_tokens (hp : GoodPrompts V p) {s : List Int}
    {call : Nat → List (List Int) → List (List ℚ) → Option (List (List ℚ))} {i : Nat}
    (h : Grows (LetsThrough V 0 call) (promptAt p i) s)
    (hcall : ∀ n seqs probs out, (∀ q ∈ probs, q.length = V) → call n seqs probs = some out →
      out.length = probs.length ∧ ∀ q ∈ out, q.length = V) : ∀ t ∈ s, 0 ≤ t ∧ t < (V : Int) := by
  induction h with
  | start => exact hp.tokens i
  | step s t _ hlet ih =>
    intro u hu
    rcases List.mem_append.mp hu with h | h
    · exact ih u h
    · rw [List.mem_singleton] at h
      subst h
      obtain ⟨seqs, probs, out, r, q, x, hb, _, hc, hq, h0, hx, _⟩ := hlet
      have hl := (hcall _ _ _ _ hb.vocab hc).2 q (List.mem_of_getElem? hq)
      have := (List.getElem?_eq_some_iff.mp hx).1
      omega

/-- The prefixes of the rows that are past their prompt. -/
private theorem row_prefix {n i : Nat} {seq : List Int}
    (h : RowOk V c ops p lim n i seq) (hn : lenAt p i ≤ n) :
    ∃ body, seq.take n = promptAt p i ++ body ∧ (c.eos : Int) ∉ body ∧
      (∀ k, c.pad = some k → (k : Int) ∉ body) ∧
      Grows (LetsThrough V 0 ops.process) (promptAt p i) (promptAt p i ++ body) := by
  obtain ⟨body, h1, h2⟩ := h.split
  rw [Nat.max_eq_left hn] at h1
  exact ⟨body, h1, h2⟩

private theorem row_take_tokens (hp : GoodPrompts V p) (ho : GoodOps V ops) {n i : Nat} {seq : List Int}
    (h : RowOk V c ops p lim n i seq) : ∀ t ∈ seq.take n, 0 ≤ t ∧ t < (V : Int) := by
  obtain ⟨body, h1, _, _, h2⟩ := h.split
  have := row_tokens hp h2 ho.process
  intro t ht
  apply this
  rw [← h1]
  exact List.take_subset_take_left _ (Nat.le_max_left _ _) ht

/-- What is known about the chosen tokens. -/
private theorem chosen (hp : GoodPrompts V p) (ho : GoodOps V ops) (hpen : 0 ≤ c.unkPenalty) {n : Nat}
    (hn : n < lim.maxLen) {s : SampState} (hi : Inv V c ops p lim n s) {probs : List (List ℚ)}
    (hlm : ops.lm s.promptIdx (s.seqs.map (·.take n)) = some probs) {tokens : List Nat}
    (ht : chooseTokens c ops lim n s.seqs probs = some tokens) :
    tokens.length = s.seqs.length ∧ ∀ (k t : Nat) (seq : List Int), tokens[k]? = some t →
      s.seqs[k]? = some seq →
      (n + 1 = lim.maxLen ∧ t = c.eos) ∨
      (n + 1 ≠ lim.maxLen ∧ LetsThrough V 0 ops.process (seq.take n) t ∧ c.pad ≠ some t ∧
        (t = c.eos → lim.minLen ≤ n + 1)) := by
  obtain ⟨hlm1, hlm2⟩ := ho.lm _ _ _ (by rw [List.length_map]; exact hi.rows.symm) hlm
  rw [List.length_map] at hlm1
  unfold chooseTokens at ht
  split at ht
  · rename_i hlast
    simp only [Option.some.injEq] at ht
    subst ht
    refine ⟨by simp, ?_⟩
    intro k t seq hk _
    left
    refine ⟨hlast, ?_⟩
    rw [List.getElem?_map] at hk
    cases hs : s.seqs[k]? with
    | none => rw [hs] at hk; cases hk
    | some _ => rw [hs] at hk; cases hk; rfl
  · rename_i hlast
    simp only [Option.bind_eq_bind, Option.bind_eq_some_iff] at ht
    obtain ⟨p1, hp1, p2, hp2, p3, hp3, ht⟩ := ht
    obtain ⟨p4, hp4, ht⟩ : ∃ p4,
        (if n + 1 < lim.minLen then updateCol c.eos (fun _ => 0) p3 else some p3) = some p4 ∧
        (List.range p4.length).mapM (fun r => ops.sample n r (p4.getD r [])) = some tokens := by
      split at ht
      · rename_i hlt
        simp only [Option.bind_eq_some_iff] at ht
        simpa [hlt] using ht
      · rename_i hlt
        simp only [Option.bind_some] at ht
        exact ⟨p3, by simp [hlt], ht⟩
    obtain ⟨l1, v1⟩ := ho.process _ _ _ _ hlm2 hp1
    obtain ⟨l2, v2, g2⟩ := updateCol?_spec _ _ _ _ V v1 hp2
    obtain ⟨l3, v3, g3⟩ := updateCol?_spec _ _ _ _ V v2 hp3
    have h4 : p4.length = p3.length ∧ ∀ (r : Nat) (q3 : List ℚ), p3[r]? = some q3 → ∃ q4, p4[r]? = some q4 ∧
        ∀ (j : Nat) (w : ℚ), q4[j]? = some w → 0 < w → q3[j]? = some w ∧ (j = c.eos → lim.minLen ≤ n + 1) := by
      split at hp4
      · obtain ⟨l4, v4, g4⟩ := updateCol_spec _ _ _ _ V v3 hp4
        refine ⟨l4, fun r q3 hr => ?_⟩
        obtain ⟨q4, e1, e2, e3⟩ := g4 r q3 hr
        refine ⟨q4, e1, fun j w hw hpos => ?_⟩
        by_cases hj : j = c.eos
        · subst hj
          exfalso
          have hlen : c.eos < q3.length := by
            have h5 := v4 q4 (List.mem_of_getElem? e1)
            have h6 := v3 q3 (List.mem_of_getElem? hr)
            have := (List.getElem?_eq_some_iff.mp hw).1
            omega
          rw [e2 _ (List.getElem?_eq_getElem hlen)] at hw
          cases hw
          exact lt_irrefl _ hpos
        · exact ⟨by rw [← e3 j hj]; exact hw, fun h => absurd h hj⟩
      · rename_i hge
        simp only [Option.some.injEq] at hp4
        subst hp4
        exact ⟨rfl, fun r q3 hr => ⟨q3, hr, fun j w hw _ => ⟨hw, fun _ => by omega⟩⟩⟩
    obtain ⟨l4, g4⟩ := h4
    obtain ⟨l5, g5⟩ := mapM_length _ _ _ ht
    rw [List.length_range] at l5
    refine ⟨by omega, ?_⟩
    intro k t seq hk hseq
    right
    refine ⟨hlast, ?_⟩
    have hkl : k < s.seqs.length := (List.getElem?_eq_some_iff.mp hseq).1
    obtain ⟨x, hx1, hx2⟩ := g5 k k (by rw [List.getElem?_range]; omega)
    rw [hk] at hx1
    cases hx1
    obtain ⟨q1, e1⟩ : ∃ q1, p1[k]? = some q1 := ⟨_, List.getElem?_eq_getElem (by omega)⟩
    obtain ⟨q2, e2, a2, b2⟩ := g2 k q1 e1
    obtain ⟨q3, e3, a3, b3⟩ := g3 k q2 e2
    obtain ⟨q4, e4, a4⟩ := g4 k q3 e3
    have hq4 : p4.getD k [] = q4 := by rw [List.getD_eq_getElem?_getD, e4]; rfl
    rw [hq4] at hx2
    obtain ⟨w, hw, hpos⟩ := ho.sample _ _ _ _ hx2
    obtain ⟨hw3, heos⟩ := a4 t w hw hpos
    have hpad : c.pad ≠ some t := by
      intro hpt
      have hlen : t < q2.length := by
        have h5 := v3 q3 (List.mem_of_getElem? e3)
        have h6 := v2 q2 (List.mem_of_getElem? e2)
        have := (List.getElem?_eq_some_iff.mp hw3).1
        omega
      rw [a3 t _ hpt (List.getElem?_eq_getElem hlen)] at hw3
      cases hw3
      exact lt_irrefl _ hpos
    have hw2 : q2[t]? = some w := by rw [← b3 t hpad]; exact hw3
    have hw1 : ∃ w', q1[t]? = some w' ∧ 0 < w' := by
      by_cases hu : c.unk = some t
      · have hlen : t < q1.length := by
          have h5 := v2 q2 (List.mem_of_getElem? e2)
          have h6 := v1 q1 (List.mem_of_getElem? e1)
          have := (List.getElem?_eq_some_iff.mp hw2).1
          omega
        rw [a2 t _ hu (List.getElem?_eq_getElem hlen)] at hw2
        refine ⟨_, List.getElem?_eq_getElem hlen, ?_⟩
        simp only [Option.some.injEq] at hw2
        linarith
      · exact ⟨w, by rw [← b2 t hu]; exact hw2, hpos⟩
    obtain ⟨w', hw', hpos'⟩ := hw1
    refine ⟨?_, hpad, heos⟩
    have htl : (seq.take n).length = n := by
      have hk' : k < s.promptIdx.length := by rw [← hi.rows]; exact hkl
      have := (hi.row k _ seq (List.getElem?_eq_getElem hk') hseq).len
      rw [List.length_take, this]
      omega
    refine ⟨s.seqs.map (·.take n), probs, p1, k, q1, w', ?_, ?_, ?_, e1, by omega, by simpa using hw',
      ne_of_gt hpos'⟩
    · rw [htl]
      refine ⟨by simp [hlm1], ?_, ?_, hlm2⟩
      · intro x hx
        obtain ⟨seq', hs', rfl⟩ := List.mem_map.mp hx
        obtain ⟨j, hj⟩ := List.mem_iff_getElem?.mp hs'
        have hj' : j < s.promptIdx.length := by rw [← hi.rows]; exact (List.getElem?_eq_some_iff.mp hj).1
        have := (hi.row j _ seq' (List.getElem?_eq_getElem hj') hj).len
        rw [List.length_take, this]
        omega
      · intro x hx
        obtain ⟨seq', hs', rfl⟩ := List.mem_map.mp hx
        obtain ⟨j, hj⟩ := List.mem_iff_getElem?.mp hs'
        have hj' : j < s.promptIdx.length := by rw [← hi.rows]; exact (List.getElem?_eq_some_iff.mp hj).1
        exact row_take_tokens hp ho (hi.row j _ seq' (List.getElem?_eq_getElem hj') hj)
    · simp [hseq]
    · rw [htl]
      exact hp1

/-- The outputs are complete. -/
private structure Done (V : Nat) (c : Settings) (ops : Ops) (p : Prompts) (s : SampState) : Prop where
  outs : s.output.length = p.rows.length
  count : ∀ i < p.rows.length, (s.output.getD i []).length = max 1 c.numGens
  hyps : ∀ i, ∀ h ∈ s.output.getD i [], GoodHypothesis V c ops p i h

theorem getD_of {β : Type} {l : List β} {k : Nat} {x d : β} (h : l[k]? = some x) : l.getD k d = x := by
  rw [List.getD_eq_getElem?_getD, h]; rfl

private theorem finish_all (n : Nat) (idxs : List Nat) (s : SampState)
    (hlens : s.promptLens = if p.padded then some (s.promptIdx.map (lenAt p)) else none)
    (hrows : s.seqs.length = s.promptIdx.length) (houts : s.output.length = p.rows.length)
    (hidx : ∀ k ∈ idxs, k < s.promptIdx.length) (hP : ∀ i ∈ s.promptIdx, i < p.rows.length)
    (hunp : p.padded = false → ∀ i < p.rows.length, lenAt p i = lim.maxPrompt)
    (hgood : ∀ k ∈ idxs, ∀ i seq, s.promptIdx[k]? = some i → s.seqs[k]? = some seq →
      GoodHypothesis V c ops p i ((seq.take (n + 1)).drop (if c.echo then 0 else lenAt p i)))
    (hhyps : ∀ i, ∀ h ∈ s.output.getD i [], GoodHypothesis V c ops p i h) :
    ∃ out, idxs.foldlM (sampFinish c lim n) s = some { s with output := out } ∧
      out.length = p.rows.length ∧
      (∀ i < p.rows.length, (out.getD i []).length =
        (s.output.getD i []).length + (idxs.map fun k => s.promptIdx.getD k 0).count i) ∧
      ∀ i, ∀ h ∈ out.getD i [], GoodHypothesis V c ops p i h := by
  induction idxs generalizing s with
  | nil => exact ⟨s.output, rfl, houts, by simp, hhyps⟩
  | cons k idxs ih =>
    have hk := hidx k (by simp)
    have hki : s.promptIdx[k]? = some s.promptIdx[k] := List.getElem?_eq_getElem hk
    obtain ⟨i, hi⟩ : ∃ i, i = s.promptIdx[k] := ⟨_, rfl⟩
    rw [← hi] at hki
    have hks : k < s.seqs.length := by omega
    obtain ⟨seq, hseq⟩ : ∃ seq, s.seqs[k]? = some seq := ⟨_, List.getElem?_eq_getElem hks⟩
    have hiP : i < p.rows.length := hP i (List.mem_of_getElem? hki)
    have hio : i < s.output.length := by omega
    obtain ⟨hyps, hhy⟩ : ∃ hyps, s.output[i]? = some hyps := ⟨_, List.getElem?_eq_getElem hio⟩
    obtain ⟨hyp, hhyp⟩ : ∃ hyp, hyp = (seq.take (n + 1)).drop (if c.echo then 0 else lenAt p i) := ⟨_, rfl⟩
    have hfin : sampFinish c lim n s k = some { s with output := s.output.set i (hyps ++ [hyp]) } := by
      rw [hhyp]
      unfold sampFinish
      by_cases he : c.echo
      · simp [he, hseq, hki, hhy]
      · by_cases hpd : p.padded
        · simp [he, hlens, hpd, hseq, hki, hhy]
        · have := hunp (by simpa using hpd) i hiP
          simp [he, hlens, hpd, hseq, hki, hhy, this]
    obtain ⟨out, o1, o2, o3, o4⟩ := ih { s with output := s.output.set i (hyps ++ [hyp]) } hlens hrows
      (by simpa using houts) (fun j hj => hidx j (List.mem_cons_of_mem _ hj)) hP
      (fun j hj => hgood j (List.mem_cons_of_mem _ hj)) (by
        intro j h hm
        simp only [List.getD_eq_getElem?_getD] at hm
        by_cases hj : i = j
        · subst hj
          rw [List.getElem?_set_self hio] at hm
          simp only [Option.getD_some, List.mem_append, List.mem_singleton] at hm
          rcases hm with h1 | rfl
          · exact hhyps i h (by rw [getD_of hhy]; exact h1)
          · rw [hhyp]; exact hgood k (by simp) i seq hki hseq
        · rw [List.getElem?_set_ne hj] at hm
          exact hhyps j h (by rw [List.getD_eq_getElem?_getD]; exact hm))
    refine ⟨out, ?_, o2, ?_, o4⟩
    · rw [List.foldlM_cons, hfin]
      exact o1
    · intro j hj
      rw [o3 j hj, List.map_cons, List.count_cons, getD_of hki]
      simp only [List.getD_eq_getElem?_getD]
      by_cases hij : i = j
      · subst hij
        rw [List.getElem?_set_self hio, hhy]
        simp only [Option.getD_some, List.length_append, List.length_singleton, beq_self_eq_true, if_true]
        omega
      · rw [List.getElem?_set_ne hij]
        simp [hij]

private theorem keep_spec (hp : GoodPrompts V p) (hlim : lim.maxPrompt = p.maxLen) {n : Nat} {s : SampState}
    (hi : Inv V c ops p lim n s) (tokens : List Nat) (hl : tokens.length = s.seqs.length) :
    ∃ toks e pm, keepPrompts c lim n s tokens = some (toks, e, pm) ∧
      toks.length = s.seqs.length ∧ e.length = s.seqs.length ∧
      (pm = some (s.promptIdx.map fun i => maskRow p.width (lenAt p i)) ∨ pm = none) ∧
      (n < lim.maxPrompt → pm = some (s.promptIdx.map fun i => maskRow p.width (lenAt p i))) ∧
      ∀ (k i t : Nat) (seq : List Int), s.promptIdx[k]? = some i → s.seqs[k]? = some seq →
        tokens[k]? = some t →
        toks[k]? = some (if n < lenAt p i then seq.getD n 0 else (t : Int)) ∧
        e[k]? = some (if n < lenAt p i then false else t == c.eos) := by
  have hP : ∀ i ∈ s.promptIdx, i < p.rows.length := by
    intro i him
    obtain ⟨k, hk⟩ := List.mem_iff_getElem?.mp him
    have hks : k < s.seqs.length := by rw [hi.rows]; exact (List.getElem?_eq_some_iff.mp hk).1
    exact (hi.row k i _ hk (List.getElem?_eq_getElem hks)).idx
  unfold keepPrompts
  by_cases hn : n < lim.maxPrompt
  · have hmask := hi.mask' hn
    have hwidth : lim.maxPrompt ≤ p.width := by
      rw [hlim]
      exact foldl_max_le _ _ _ (Nat.zero_le _) fun x hx => (hp.lens x hx).2
    have hmm : (s.promptIdx.map fun i => maskRow p.width (lenAt p i)).mapM
        (fun (row : List Bool) => row[n]?) = some (s.promptIdx.map fun i => decide (n < lenAt p i)) := by
      have := mapM_get s.promptIdx (fun i => (maskRow p.width (lenAt p i))[n]?)
        (fun i => decide (n < lenAt p i)) (by
          intro i _
          simp [maskRow, show n < p.width by omega])
      rw [List.mapM_map]
      exact this
    simp only [hn, if_true, hmask, hmm]
    have hr := hi.rows
    refine ⟨_, _, _, rfl, by simp; omega, by simp; omega, Or.inl rfl, fun _ => rfl, ?_⟩
    intro k i t seq h1 h2 h3
    constructor
    · simp [List.getElem?_zipWith, List.zip, h1, h2, h3]
    · simp [List.getElem?_zipWith, h1, h3]
  · simp only [hn, if_false]
    refine ⟨_, _, _, rfl, by simpa using hl, by simpa using hl, Or.inr rfl, fun h => h.elim, ?_⟩
    intro k i t seq h1 h2 h3
    have hb := lenAt_bounds hp i (hP i (List.mem_of_getElem? h1))
    have : ¬ n < lenAt p i := by omega
    simp [h3, this]

/-- One step. -/
private theorem step_ok (hp : GoodPrompts V p) (ho : GoodOps V ops) (hpen : 0 ≤ c.unkPenalty)
    (hlims : limits c p = some lim) {n : Nat} (hn : n < lim.maxLen) {s : SampState}
    (hi : Inv V c ops p lim n s) {probs : List (List ℚ)}
    (hlm : ops.lm s.promptIdx (s.seqs.map (·.take n)) = some probs) {tokens : List Nat}
    (ht : chooseTokens c ops lim n s.seqs probs = some tokens) :
    ∃ s' more, sampStep c ops lim n s = some (s', more) ∧
      (more = true → n + 1 < lim.maxLen ∧ Inv V c ops p lim (n + 1) s') ∧
      (more = false → Done V c ops p s') := by
  obtain ⟨hl1, hl2, hl3, hl4, hl5, hl6, hl7⟩ := limits_spec hp hlims
  obtain ⟨htl, htok⟩ := chosen hp ho hpen hn hi hlm ht
  obtain ⟨toks, e, pm, hkeep, k1, k2, k3, k4, k5⟩ := keep_spec hp hl2 hi tokens htl
  have hP : ∀ i ∈ s.promptIdx, i < p.rows.length := by
    intro i him
    obtain ⟨k, hk⟩ := List.mem_iff_getElem?.mp him
    have hks : k < s.seqs.length := by rw [hi.rows]; exact (List.getElem?_eq_some_iff.mp hk).1
    exact (hi.row k i _ hk (List.getElem?_eq_getElem hks)).idx
  obtain ⟨s1, hs1⟩ : ∃ s1 : SampState, s1 = { s with promptMask := pm, seqs := List.zipWith (fun seq t => seq.set n t) s.seqs toks } := ⟨_, rfl⟩
  have hstep : sampStep c ops lim n s = retire c lim n s1 e := by
    simp only [sampStep, hlm, ht, hkeep, Option.bind_eq_bind, Option.bind_some, hs1]
  have hrows1 : s1.seqs.length = s1.promptIdx.length := by
    have := hi.rows
    simp [hs1, k1, this]
  -- every row after the step
  have hrow1 : ∀ (k i : Nat) (seq1 : List Int), s1.promptIdx[k]? = some i → s1.seqs[k]? = some seq1 →
      (e[k]? = some false → n + 1 ≠ lim.maxLen ∧ RowOk V c ops p lim (n + 1) i seq1) ∧
      (e[k]? = some true →
        GoodHypothesis V c ops p i ((seq1.take (n + 1)).drop (if c.echo then 0 else lenAt p i))) := by
    intro k i seq1 hki hseq1
    have hki' : s.promptIdx[k]? = some i := by rw [hs1] at hki; exact hki
    have hkl : k < s.seqs.length := by rw [hi.rows]; exact (List.getElem?_eq_some_iff.mp hki').1
    obtain ⟨seq, hseq⟩ : ∃ seq, s.seqs[k]? = some seq := ⟨_, List.getElem?_eq_getElem hkl⟩
    obtain ⟨t, htk⟩ : ∃ t, tokens[k]? = some t := ⟨_, List.getElem?_eq_getElem (by omega)⟩
    obtain ⟨g1, g2⟩ := k5 k i t seq hki' hseq htk
    have hro := hi.row k i seq hki' hseq
    have hb := lenAt_bounds hp i hro.idx
    have hseq1' : seq1 = seq.set n (if n < lenAt p i then seq.getD n 0 else (t : Int)) := by
      rw [hs1] at hseq1
      simp only [List.getElem?_zipWith, hseq, g1, Option.some.injEq] at hseq1
      exact hseq1.symm
    by_cases hin : n < lenAt p i
    · -- inside the prompt nothing changes
      have hsame : seq1 = seq := by
        rw [hseq1', if_pos hin]
        have hnl : n < seq.length := by rw [hro.len]; exact hn
        rw [List.getD_eq_getElem?_getD, List.getElem?_eq_getElem hnl]
        exact List.set_getElem_self hnl
      subst hsame
      rw [if_pos hin] at g2
      rw [g2]
      refine ⟨fun _ => ⟨by omega, hro.idx, hro.len, ?_⟩, fun h => by cases h⟩
      obtain ⟨body, b1, b2⟩ := hro.split
      refine ⟨body, ?_, b2⟩
      rw [Nat.max_eq_right (by omega)] at b1 ⊢
      exact b1
    · rw [if_neg hin] at g2 hseq1'
      obtain ⟨body, b1, b2, b3, b4⟩ := row_prefix hro (by omega)
      have hnl : n < seq.length := by rw [hro.len]; exact hn
      have htake : seq1.take (n + 1) = promptAt p i ++ body ++ [(t : Int)] := by
        rw [hseq1', List.take_add_one, List.take_set_of_le (le_refl n), b1]
        simp [hnl]
      have hblen : (promptAt p i ++ body).length = n := by
        rw [← b1, List.length_take]; omega
      rw [g2]
      rcases htok k t seq htk hseq with ⟨hlast, hte⟩ | ⟨hnl', hlet, hpad, hmin⟩
      · subst hte
        refine ⟨fun h => by simp at h, fun _ => ⟨body, ?_, b2, b3, b4, ?_, ?_, ?_⟩⟩
        · rw [htake]
          by_cases he : c.echo
          · simp [he]
          · simp only [he, if_false, List.append_assoc, Bool.false_eq_true]
            rw [← hb.2.2.2.2, List.drop_left]
            rfl
        · rw [hblen]; intro h; exact absurd (by rw [← hl4]; exact hlast) h
        · rw [hblen, ← hl4]; omega
        · rw [hblen, ← hl3]; omega
      · by_cases hte : t = c.eos
        · subst hte
          refine ⟨fun h => by simp at h, fun _ => ⟨body, ?_, b2, b3, b4, ?_, ?_, ?_⟩⟩
          · rw [htake]
            by_cases he : c.echo
            · simp [he]
            · simp only [he, if_false, List.append_assoc, Bool.false_eq_true]
              rw [← hb.2.2.2.2, List.drop_left]
              rfl
          · intro _
            rw [← b1]
            exact hlet
          · rw [hblen, ← hl4]; omega
          · rw [hblen, ← hl3]; exact hmin rfl
        · have hbe : (t == c.eos) = false := by simpa using hte
          rw [hbe]
          refine ⟨fun _ => ⟨hnl', hro.idx, ?_, ?_⟩, fun h => by cases h⟩
          · rw [hseq1']; simpa using hro.len
          · refine ⟨body ++ [(t : Int)], ?_, ?_, ?_, ?_⟩
            · rw [Nat.max_eq_left (by omega), htake, List.append_assoc]
            · simp only [List.mem_append, List.mem_singleton, not_or]
              exact ⟨b2, fun h => hte (by omega)⟩
            · intro k' hk' hm
              simp only [List.mem_append, List.mem_singleton] at hm
              rcases hm with h | h
              · exact b3 k' hk' h
              · exact hpad (by rw [hk']; congr 1; omega)
            · rw [← List.append_assoc]
              exact .step _ _ b4 (by rw [← b1]; exact hlet)
  have helen : e.length = s1.promptIdx.length := by rw [← hrows1]; simp [hs1, k1, k2]
  have hs1lens : s1.promptLens = if p.padded then some (s1.promptIdx.map (lenAt p)) else none := by
    rw [hs1]; exact hi.lens
  have hs1P : ∀ i ∈ s1.promptIdx, i < p.rows.length := by rw [hs1]; exact hP
  have hs1out : s1.output = s.output := by rw [hs1]
  have hs1idx : s1.promptIdx = s.promptIdx := by rw [hs1]
  have hs1mask : s1.promptMask = pm := by rw [hs1]
  have hunp : p.padded = false → ∀ i < p.rows.length, lenAt p i = lim.maxPrompt := by
    intro hpd i hiP
    have hall : ∀ x ∈ p.lens, p.width ≤ x := by
      intro x hx
      unfold Prompts.padded at hpd
      rw [List.any_eq_false] at hpd
      have := hpd x hx
      simpa using this
    have hb := lenAt_bounds hp i hiP
    have hm : lenAt p i ∈ p.lens := by
      rw [lenAt, List.getD_eq_getElem?_getD, List.getElem?_eq_getElem (by rw [hp.rows]; exact hiP)]
      exact List.getElem_mem _
    have h1 := hall _ hm
    have h2 : p.maxLen ≤ p.width := foldl_max_le _ _ _ (Nat.zero_le _) fun x hx => (hp.lens x hx).2
    omega
  rw [hstep]
  unfold retire
  have hmemidx : ∀ k ∈ whereTrue e, k < s1.promptIdx.length := by
    intro k hk
    rw [mem_whereTrue] at hk
    rw [← helen]
    exact (List.getElem?_eq_some_iff.mp hk).1
  by_cases hfin : (whereTrue e).length > 0
  · simp only [hfin, if_true]
    obtain ⟨out, o1, o2, o3, o4⟩ := finish_all n (whereTrue e) s1 hs1lens hrows1
      (by rw [hs1out]; exact hi.outs) hmemidx hs1P hunp (by
        intro k hk i seq h1 h2
        exact (hrow1 k i seq h1 h2).2 ((mem_whereTrue _ _).mp hk)) (by rw [hs1out]; exact hi.hyps)
    rw [o1]
    simp only
    have hcount := count_whereTrue s1.promptIdx e helen
    by_cases hact : (whereTrue (e.map fun x => !x)).length = 0
    · simp only [hact, if_true]
      refine ⟨_, _, rfl, (fun h => by cases h), fun _ => ⟨o2, ?_, o4⟩⟩
      intro i hiP
      have h1 := hcount i
      rw [List.length_eq_zero_iff.mp hact] at h1
      simp only [List.map_nil, List.count_nil, Nat.add_zero] at h1
      rw [o3 i hiP, h1, hs1out, hs1idx]
      have := hi.count i hiP
      omega
    · simp only [hact, if_false]
      have hactidx : ∀ k ∈ whereTrue (e.map fun x => !x), k < s1.promptIdx.length ∧ e[k]? = some false := by
        intro k hk
        rw [mem_whereTrue, List.getElem?_map] at hk
        cases hek : e[k]? with
        | none => rw [hek] at hk; cases hk
        | some x =>
          rw [hek] at hk
          have := (List.getElem?_eq_some_iff.mp hek).1
          refine ⟨by omega, ?_⟩
          simpa using hk
      obtain ⟨order, horder⟩ : ∃ order, order = whereTrue (e.map fun x => !x) := ⟨_, rfl⟩
      rw [← horder] at hactidx hact hcount ⊢
      have hsel : ∀ (f : Nat → Nat), order.map (fun k => (s1.promptIdx.map f).getD k 0) =
          (order.map fun k => s1.promptIdx.getD k 0).map f := by
        intro f
        rw [List.map_map]
        apply List.map_congr_left
        intro k hk
        have := (hactidx k hk).1
        simp [List.getD_eq_getElem?_getD, this]
      have hselm : ∀ (f : Nat → List Bool), order.map (fun k => (s1.promptIdx.map f).getD k []) =
          (order.map fun k => s1.promptIdx.getD k 0).map f := by
        intro f
        rw [List.map_map]
        apply List.map_congr_left
        intro k hk
        have := (hactidx k hk).1
        simp [List.getD_eq_getElem?_getD, this]
      have hlens' : indexSelect? s1.promptLens order = some (if p.padded then
          some ((order.map fun k => s1.promptIdx.getD k 0).map (lenAt p)) else none) := by
        rw [hs1lens]
        by_cases hpd : p.padded
        · simp only [hpd, if_true, indexSelect?]
          rw [indexSelect_getD _ 0 _ (by intro k hk; simpa using (hactidx k hk).1), hsel]
          rfl
        · simp [hpd, indexSelect?]
      have hmask' : ∃ pm', indexSelect? s1.promptMask order = some pm' ∧
          (pm' = some ((order.map fun k => s1.promptIdx.getD k 0).map fun i => maskRow p.width (lenAt p i)) ∨
            pm' = none) ∧ (n + 1 < lim.maxPrompt → pm' =
              some ((order.map fun k => s1.promptIdx.getD k 0).map fun i => maskRow p.width (lenAt p i))) := by
        have hsome : pm = some (s.promptIdx.map fun i => maskRow p.width (lenAt p i)) →
            indexSelect? s1.promptMask order = some (some
              ((order.map fun k => s1.promptIdx.getD k 0).map fun i => maskRow p.width (lenAt p i))) := by
          intro h
          rw [hs1mask, h, ← hs1idx]
          simp only [indexSelect?]
          rw [indexSelect_getD _ [] _ (by intro k hk; simpa using (hactidx k hk).1), hselm]
          rfl
        rcases k3 with h | h
        · exact ⟨_, hsome h, Or.inl rfl, fun _ => rfl⟩
        · refine ⟨none, by rw [hs1mask, h]; rfl, Or.inr rfl, ?_⟩
          intro hlt
          have := k4 (by omega)
          rw [h] at this
          cases this
      obtain ⟨pm', hm1, hm2, hm3⟩ := hmask'
      have hre : sampReorder { s1 with output := out } order = some {
          promptLens := if p.padded then some ((order.map fun k => s1.promptIdx.getD k 0).map (lenAt p)) else none
          promptMask := pm'
          promptIdx := order.map fun k => s1.promptIdx.getD k 0
          seqs := order.map fun k => s1.seqs.getD k []
          output := out } := by
        unfold sampReorder
        simp only [hlens', hm1, Option.bind_eq_bind, Option.bind_some]
        rw [indexSelect_getD _ 0 _ fun k hk => (hactidx k hk).1,
          indexSelect_getD _ [] _ fun k hk => by rw [hrows1]; exact (hactidx k hk).1]
        rfl
      rw [hre]
      refine ⟨_, _, rfl, fun _ => ?_, fun h => by cases h⟩
      have hnext : n + 1 ≠ lim.maxLen := by
        obtain ⟨k, hk⟩ := List.exists_mem_of_ne_nil order (by
          intro h; rw [h] at hact; exact hact rfl)
        obtain ⟨h1, h2⟩ := hactidx k hk
        exact ((hrow1 k _ _ (List.getElem?_eq_getElem h1)
          (List.getElem?_eq_getElem (by rw [hrows1]; exact h1))).1 h2).1
      refine ⟨by omega, ?_⟩
      constructor
      · rfl
      · exact hm2
      · exact hm3
      · simp
      · simp only [ne_eq, List.map_eq_nil_iff]
        intro h
        rw [h] at hact
        exact hact rfl
      · intro k i seq hk hs
        simp only [List.getElem?_map, Option.map_eq_some_iff] at hk hs
        obtain ⟨j, hj, rfl⟩ := hk
        obtain ⟨j', hj', rfl⟩ := hs
        rw [hj] at hj'
        cases hj'
        obtain ⟨h1, h2⟩ := hactidx j (List.mem_of_getElem? hj)
        have hjs : j < s1.seqs.length := by rw [hrows1]; exact h1
        have e1 : s1.promptIdx.getD j 0 = s1.promptIdx[j] := getD_of (List.getElem?_eq_getElem h1)
        have e2 : s1.seqs.getD j [] = s1.seqs[j] := getD_of (List.getElem?_eq_getElem hjs)
        rw [e1, e2]
        exact ((hrow1 j _ _ (List.getElem?_eq_getElem h1) (List.getElem?_eq_getElem hjs)).1 h2).2
      · exact o2
      · intro i hiP
        simp only
        rw [o3 i hiP, hs1out]
        have h1 := hcount i
        have h2 := hi.count i hiP
        rw [← hs1idx] at h2
        omega
      · exact o4
  · simp only [hfin, if_false]
    have hnone : ∀ k < s1.promptIdx.length, e[k]? = some false := by
      intro k hk
      have hke : k < e.length := by omega
      rw [List.getElem?_eq_getElem hke]
      cases hb : e[k] with
      | false => rfl
      | true =>
        exfalso
        have : k ∈ whereTrue e := by
          rw [mem_whereTrue, List.getElem?_eq_getElem hke, hb]
        exact hfin (List.length_pos_of_mem this)
    refine ⟨_, _, rfl, fun _ => ?_, fun h => by cases h⟩
    have hnext : n + 1 ≠ lim.maxLen := by
      have hpos : 0 < s1.promptIdx.length := by
        rw [hs1idx]; exact List.length_pos_iff.mpr hi.live
      exact ((hrow1 0 _ _ (List.getElem?_eq_getElem hpos)
        (List.getElem?_eq_getElem (by rw [hrows1]; exact hpos))).1 (hnone 0 hpos)).1
    refine ⟨by omega, ?_⟩
    constructor
    · exact hs1lens
    · rw [hs1mask, hs1idx]; exact k3
    · intro h; rw [hs1mask, hs1idx]; exact k4 (by omega)
    · exact hrows1
    · rw [hs1idx]; exact hi.live
    · intro k i seq hk hs
      exact ((hrow1 k i seq hk hs).1 (hnone k (List.getElem?_eq_some_iff.mp hk).1)).2
    · rw [hs1out]; exact hi.outs
    · rw [hs1out, hs1idx]; exact hi.count
    · rw [hs1out]; exact hi.hyps

private theorem init_ok (hp : GoodPrompts V p) (hlims : limits c p = some lim) :
    ∃ s, fanOut c (sampInit ops lim p) = some s ∧ Inv V c ops p lim lim.minPrompt s := by
  obtain ⟨hl1, hl2, hl3, hl4, hl5, hl6, hl7⟩ := limits_spec hp hlims
  have hPpos : 0 < p.rows.length := List.length_pos_iff.mpr hp.nonempty
  have hwidth : p.maxLen ≤ p.width := foldl_max_le _ _ _ (Nat.zero_le _) fun x hx => (hp.lens x hx).2
  have hlensrange : p.lens = (List.range p.rows.length).map (lenAt p) := by
    rw [← hp.rows]
    exact (map_range_getD p.lens 0).symm
  have hrow0 : ∀ (i : Nat) (seq : List Int), i < p.rows.length → (sampInit ops lim p).seqs[i]? = some seq →
      RowOk V c ops p lim lim.minPrompt i seq := by
    intro i seq hi hs
    have hb := lenAt_bounds hp i hi
    simp only [sampInit, List.getElem?_mapIdx, List.getElem?_eq_getElem hi, Option.map_some,
      Option.some.injEq] at hs
    have hw := hp.width _ (List.getElem_mem hi)
    refine ⟨hi, ?_, [], ?_, by simp, by simp, by rw [List.append_nil]; exact .start⟩
    · rw [← hs]
      simp only [List.length_append, List.length_take, List.length_map, List.length_range, hw]
      omega
    · rw [← hs, Nat.max_eq_right (by omega), List.append_nil, List.take_append_of_le_length (by
        rw [List.length_take, hw]; omega), List.take_take, Nat.min_eq_left (by omega)]
      unfold promptAt
      rw [getD_of (List.getElem?_eq_getElem hi)]
      rfl
  have hmask0 : (sampInit ops lim p).promptMask = if p.padded then
      some ((List.range p.rows.length).map fun i => maskRow p.width (lenAt p i)) else none := by
    show (if p.padded then some (p.lens.map (maskRow p.width)) else none) = _
    conv => lhs; rw [hlensrange, List.map_map]
    rfl
  have hlens0 : (sampInit ops lim p).promptLens = if p.padded then
      some ((List.range p.rows.length).map (lenAt p)) else none := by
    rw [← hlensrange]
    rfl
  have hpad : lim.minPrompt < lim.maxPrompt → p.padded = true := by
    intro h
    unfold Prompts.padded
    rw [List.any_eq_true]
    by_contra hno
    have hall : ∀ x ∈ p.lens, p.width ≤ x := by
      intro x hx
      by_contra hlt
      exact hno ⟨x, hx, by simpa using hlt⟩
    have hmin : ∀ (l : List Nat) (m : Nat), p.width ≤ m → (∀ x ∈ l, p.width ≤ x) → p.width ≤ l.foldl min m := by
      intro l
      induction l with
      | nil => intro m hm _; exact hm
      | cons y l ih =>
        intro m hm hx
        rw [List.foldl_cons]
        exact ih _ (by have := hx y (by simp); omega) fun x h => hx x (List.mem_cons_of_mem _ h)
    have h1 : p.width ≤ p.minLen := by
      apply hmin _ _ _ hall
      apply hall
      obtain ⟨x, rest, hr⟩ := List.exists_cons_of_ne_nil (l := p.lens) (by
        intro h0
        have := hp.rows
        rw [h0] at this
        simp at this
        omega)
      rw [hr]
      simp
    omega
  have hout : ∀ i, (sampInit ops lim p).output.getD i [] = [] := by
    intro i
    simp only [sampInit, List.getD_eq_getElem?_getD, List.getElem?_map]
    cases p.rows[i]? <;> rfl
  unfold fanOut
  by_cases hg : c.numGens > 1
  · simp only [hg, if_true]
    have hlen : (sampInit ops lim p).seqs.length = p.rows.length := by simp [sampInit]
    rw [hlen]
    obtain ⟨order, horder⟩ : ∃ order, order = (List.range p.rows.length).flatMap
        fun i => List.replicate c.numGens i := ⟨_, rfl⟩
    rw [← horder]
    have hmem : ∀ k ∈ order, k < p.rows.length := by
      intro k hk
      rw [horder] at hk
      simp only [List.mem_flatMap, List.mem_range, List.mem_replicate] at hk
      obtain ⟨i, hi, _, rfl⟩ := hk
      exact hi
    have hidx : order.map (fun k => (List.range p.rows.length).getD k 0) = order := by
      conv => rhs; rw [← List.map_id order]
      apply List.map_congr_left
      intro k hk
      simp [List.getD_eq_getElem?_getD, hmem k hk]
    have hselm : order.map (fun k => ((List.range p.rows.length).map fun i =>
        maskRow p.width (lenAt p i)).getD k []) = order.map fun i => maskRow p.width (lenAt p i) := by
      apply List.map_congr_left
      intro k hk
      simp [List.getD_eq_getElem?_getD, hmem k hk]
    have hsell : order.map (fun k => ((List.range p.rows.length).map (lenAt p)).getD k 0) =
        order.map (lenAt p) := by
      apply List.map_congr_left
      intro k hk
      simp [List.getD_eq_getElem?_getD, hmem k hk]
    have hre : sampReorder (sampInit ops lim p) order = some {
        promptLens := if p.padded then some (order.map (lenAt p)) else none
        promptMask := if p.padded then some (order.map fun i => maskRow p.width (lenAt p i)) else none
        promptIdx := order
        seqs := order.map fun k => (sampInit ops lim p).seqs.getD k []
        output := (sampInit ops lim p).output } := by
      unfold sampReorder
      rw [hlens0, hmask0]
      rw [indexSelect_getD _ 0 order (by intro k hk; simpa [sampInit] using hmem k hk),
        indexSelect_getD _ [] order (by intro k hk; rw [hlen]; exact hmem k hk)]
      by_cases hpd : p.padded
      · simp only [hpd, if_true, indexSelect?]
        rw [indexSelect_getD _ 0 order (by intro k hk; simpa using hmem k hk),
          indexSelect_getD _ [] order (by intro k hk; simpa using hmem k hk), hselm, hsell]
        simpa [sampInit] using hidx
      · simp only [hpd, indexSelect?]
        simpa [sampInit] using hidx
    refine ⟨_, hre, ?_⟩
    constructor
    · rfl
    · by_cases hpd : p.padded
      · left; simp [hpd]
      · right; simp [hpd]
    · intro h
      simp [hpad h]
    · simp
    · simp only
      intro h
      have h1 : 0 ∈ order := by
        rw [horder, List.mem_flatMap]
        exact ⟨0, by simpa using hPpos, by rw [List.mem_replicate]; exact ⟨by omega, rfl⟩⟩
      rw [h] at h1
      cases h1
    · intro k i seq hk hs
      simp only [List.getElem?_map, hk, Option.map_some, Option.some.injEq] at hs
      have hi := hmem i (List.mem_of_getElem? hk)
      apply hrow0 i seq hi
      have hil : i < (sampInit ops lim p).seqs.length := by rw [hlen]; exact hi
      rw [← hs, getD_of (List.getElem?_eq_getElem hil)]
      exact List.getElem?_eq_getElem hil
    · simp [sampInit]
    · intro i hi
      rw [hout i, horder]
      simp only [List.length_nil, Nat.add_zero]
      rw [count_fan _ _ _ hi]
      omega
    · intro i h hm
      rw [hout i] at hm
      cases hm
  · simp only [hg, if_false]
    refine ⟨_, rfl, ?_⟩
    constructor
    · exact hlens0
    · by_cases hpd : p.padded
      · left; rw [hmask0]; simp [hpd, sampInit]
      · right; rw [hmask0]; simp [hpd]
    · intro h
      rw [hmask0]; simp [hpad h, sampInit]
    · simp [sampInit]
    · simp only [sampInit]
      intro h
      have := congrArg List.length h
      simp at this
      exact hp.nonempty this
    · intro k i seq hk hs
      have hk' : k = i ∧ i < p.rows.length := by
        simp only [sampInit] at hk
        have hlt : k < p.rows.length := by simpa using (List.getElem?_eq_some_iff.mp hk).1
        rw [List.getElem?_range hlt] at hk
        cases hk
        exact ⟨rfl, hlt⟩
      obtain ⟨rfl, hkP⟩ := hk'
      exact hrow0 k seq hkP hs
    · simp [sampInit]
    · intro i hi
      rw [hout i]
      simp only [sampInit, List.length_nil, Nat.add_zero]
      have := count_fan p.rows.length 1 i hi
      simp only [List.replicate_one] at this
      rw [List.flatMap_singleton'] at this
      omega
    · intro i h hm
      rw [hout i] at hm
      cases hm

private theorem loop_ok (hp : GoodPrompts V p) (ho : GoodOps V ops) (hpen : 0 ≤ c.unkPenalty)
    (hlims : limits c p = some lim) (m : Nat) (s s' : SampState) (hm : 0 < m) (hml : m ≤ lim.maxLen)
    (hi : Inv V c ops p lim (lim.maxLen - m) s) (h : sampLoop c ops lim m s = some s') :
    Done V c ops p s' := by
  induction m generalizing s with
  | zero => omega
  | succ m ih =>
    simp only [sampLoop, Option.bind_eq_bind, Option.bind_eq_some_iff] at h
    obtain ⟨⟨s1, more⟩, h1, h2⟩ := h
    have h1' := h1
    simp only [sampStep, Option.bind_eq_bind, Option.bind_eq_some_iff] at h1'
    obtain ⟨probs, hlm, tokens, ht, _⟩ := h1'
    obtain ⟨s2, more2, e1, e2, e3⟩ := step_ok hp ho hpen hlims (by omega) hi hlm ht
    rw [h1] at e1
    simp only [Option.some.injEq, Prod.mk.injEq] at e1
    obtain ⟨rfl, rfl⟩ := e1
    cases hmore : more with
    | true =>
      subst hmore
      obtain ⟨g1, g2⟩ := e2 rfl
      simp only [if_true] at h2
      exact ih s1 (by omega) (by omega) (by rw [show lim.maxLen - m = lim.maxLen - (m + 1) + 1 by omega]; exact g2) h2
    | false =>
      subst hmore
      simp only [Bool.false_eq_true, if_false] at h2
      cases h2
      exact e3 rfl

private theorem updateCol_total (i : Nat) (f : ℚ → ℚ) (probs : List (List ℚ)) (V : Nat)
    (hV : ∀ q ∈ probs, q.length = V) (hi : i < V) : ∃ out, updateCol i f probs = some out := by
  refine ⟨_, mapM_get probs _ (fun row => row.set i (f (row.getD i 0))) fun row hr => ?_⟩
  have : i < row.length := by rw [hV row hr]; exact hi
  simp [List.getElem?_eq_getElem this]

private theorem updateCol?_total (i : Option Nat) (f : ℚ → ℚ) (probs : List (List ℚ)) (V : Nat)
    (hV : ∀ q ∈ probs, q.length = V) (hi : ∀ k, i = some k → k < V) :
    ∃ out, updateCol? i f probs = some out := by
  cases i with
  | none => exact ⟨_, rfl⟩
  | some i => exact updateCol_total i f probs V hV (hi i rfl)

/-- Rows that can be drawn from. -/
private def Drawable (c : Settings) (q : List ℚ) : Prop :=
  (∀ w ∈ q, 0 ≤ w) ∧
    ∃ (t : Nat) (w : ℚ), q[t]? = some w ∧ 0 < w ∧ t ≠ c.eos ∧ c.pad ≠ some t ∧ c.unk ≠ some t

private theorem update_drawable (i : Option Nat) (f : ℚ → ℚ) (hf : ∀ x, 0 ≤ x → 0 ≤ f x)
    (hi : i = some c.eos ∨ i = c.pad ∨ i = c.unk) (probs out : List (List ℚ)) (V : Nat)
    (hV : ∀ q ∈ probs, q.length = V) (hd : ∀ q ∈ probs, Drawable c q)
    (h : updateCol? i f probs = some out) : ∀ q ∈ out, Drawable c q := by
  obtain ⟨h1, h2, h3⟩ := updateCol?_spec i f probs out V hV h
  intro q hq
  obtain ⟨r, hr⟩ := List.mem_iff_getElem?.mp hq
  have hrl : r < probs.length := by rw [← h1]; exact (List.getElem?_eq_some_iff.mp hr).1
  obtain ⟨q', e1, e2, e3⟩ := h3 r _ (List.getElem?_eq_getElem hrl)
  rw [hr] at e1
  cases e1
  obtain ⟨d1, t, w, d2, d3, d4, d5, d6⟩ := hd _ (List.getElem_mem hrl)
  constructor
  · intro w' hw'
    obtain ⟨j, hj⟩ := List.mem_iff_getElem?.mp hw'
    by_cases hij : i = some j
    · have hjl : j < (probs[r]).length := by
        rw [hV _ (List.getElem_mem hrl), ← h2 q hq]; exact (List.getElem?_eq_some_iff.mp hj).1
      rw [e2 j _ hij (List.getElem?_eq_getElem hjl)] at hj
      cases hj
      exact hf _ (d1 _ (List.getElem_mem _))
    · rw [e3 j hij] at hj
      exact d1 _ (List.mem_of_getElem? hj)
  · refine ⟨t, w, ?_, d3, d4, d5, d6⟩
    rw [e3 t ?_]
    · exact d2
    · rintro rfl
      rcases hi with h | h | h
      · cases h; exact d4 rfl
      · exact d5 h.symm
      · exact d6 h.symm

private theorem choose_total (hp : GoodPrompts V p) (ho : GoodOps V ops) (hlive : LiveOps V c ops)
    (hpen : c.unkPenalty = 0) (heos : c.eos < V) (hpad : ∀ k, c.pad = some k → k < V)
    (hunk : ∀ k, c.unk = some k → k < V) {n : Nat} (hn : n < lim.maxLen) {s : SampState}
    (hi : Inv V c ops p lim n s) :
    ∃ probs tokens, ops.lm s.promptIdx (s.seqs.map (·.take n)) = some probs ∧
      chooseTokens c ops lim n s.seqs probs = some tokens := by
  obtain ⟨probs, hlm, hproc⟩ := hlive.lm s.promptIdx (s.seqs.map (·.take n)) (by rw [List.length_map]; exact hi.rows.symm)
  obtain ⟨hlm1, hlm2⟩ := ho.lm _ _ _ (by rw [List.length_map]; exact hi.rows.symm) hlm
  rw [List.length_map] at hlm1
  refine ⟨probs, ?_⟩
  suffices h : ∃ tokens, chooseTokens c ops lim n s.seqs probs = some tokens by
    obtain ⟨tokens, ht⟩ := h
    exact ⟨tokens, hlm, ht⟩
  unfold chooseTokens
  split
  · exact ⟨_, rfl⟩
  · obtain ⟨p1, hp1, hd1⟩ := hproc n (by
      refine ⟨by simp [hlm1], ?_, ?_, hlm2⟩
      · intro x hx
        obtain ⟨seq', hs', rfl⟩ := List.mem_map.mp hx
        obtain ⟨j, hj⟩ := List.mem_iff_getElem?.mp hs'
        have hj' : j < s.promptIdx.length := by rw [← hi.rows]; exact (List.getElem?_eq_some_iff.mp hj).1
        have := (hi.row j _ seq' (List.getElem?_eq_getElem hj') hj).len
        rw [List.length_take, this]
        omega
      · intro x hx
        obtain ⟨seq', hs', rfl⟩ := List.mem_map.mp hx
        obtain ⟨j, hj⟩ := List.mem_iff_getElem?.mp hs'
        have hj' : j < s.promptIdx.length := by rw [← hi.rows]; exact (List.getElem?_eq_some_iff.mp hj).1
        exact row_take_tokens hp ho (hi.row j _ seq' (List.getElem?_eq_getElem hj') hj))
    obtain ⟨l1, v1⟩ := ho.process _ _ _ _ hlm2 hp1
    obtain ⟨p2, hp2⟩ := updateCol?_total c.unk (· - c.unkPenalty) p1 V v1 hunk
    obtain ⟨l2, v2, -⟩ := updateCol?_spec _ _ _ _ V v1 hp2
    have hd2 := update_drawable c.unk (· - c.unkPenalty) (fun x hx => by simp only [hpen]; linarith)
      (Or.inr (Or.inr rfl)) p1 p2 V v1 hd1 hp2
    obtain ⟨p3, hp3⟩ := updateCol?_total c.pad (fun _ => 0) p2 V v2 hpad
    obtain ⟨l3, v3, -⟩ := updateCol?_spec _ _ _ _ V v2 hp3
    have hd3 := update_drawable c.pad (fun _ => 0) (fun x _ => le_refl _)
      (Or.inr (Or.inl rfl)) p2 p3 V v2 hd2 hp3
    have hlast : ∀ p4 : List (List ℚ), (∀ q ∈ p4, Drawable c q) →
        ∃ tokens, (List.range p4.length).mapM (fun r => ops.sample n r (p4.getD r [])) = some tokens := by
      intro p4 hd4
      have hex : ∀ r : Nat, ∃ t, r < p4.length → ops.sample n r (p4.getD r []) = some t := by
        intro r
        by_cases hr : r < p4.length
        · have hq : p4.getD r [] = p4[r] := getD_of (List.getElem?_eq_getElem hr)
          obtain ⟨d1, t, w, d2, d3, -⟩ := hd4 _ (List.getElem_mem hr)
          obtain ⟨t', ht'⟩ := hlive.sample n r _ d1 ⟨w, List.mem_of_getElem? d2, d3⟩
          exact ⟨t', fun _ => by rw [hq]; exact ht'⟩
        · exact ⟨0, fun h => absurd h hr⟩
      exact ⟨_, mapM_get _ _ (fun r => Classical.choose (hex r)) fun r hr =>
        Classical.choose_spec (hex r) (List.mem_range.mp hr)⟩
    simp only [hp1, hp2, hp3, Option.bind_eq_bind, Option.bind_some]
    split
    · obtain ⟨p4, hp4⟩ := updateCol_total c.eos (fun _ => 0) p3 V v3 heos
      have hd4 := update_drawable (some c.eos) (fun _ => 0) (fun x _ => le_refl _)
        (Or.inl rfl) p3 p4 V v3 hd3 hp4
      simp only [hp4, Option.bind_some]
      exact hlast p4 hd4
    · exact hlast p3 hd3

private theorem loop_total (hp : GoodPrompts V p) (ho : GoodOps V ops) (hlive : LiveOps V c ops)
    (hpen : c.unkPenalty = 0) (heos : c.eos < V) (hpad : ∀ k, c.pad = some k → k < V)
    (hunk : ∀ k, c.unk = some k → k < V)
    (hlims : limits c p = some lim) (m : Nat) (s : SampState) (hml : m ≤ lim.maxLen)
    (hi : 0 < m → Inv V c ops p lim (lim.maxLen - m) s) : ∃ s', sampLoop c ops lim m s = some s' := by
  induction m generalizing s with
  | zero => exact ⟨s, rfl⟩
  | succ m ih =>
    have hi := hi (by omega)
    obtain ⟨probs, tokens, h1, h2⟩ := choose_total hp ho hlive hpen heos hpad hunk (by omega) hi
    obtain ⟨s2, more2, e1, e2, e3⟩ := step_ok hp ho (by rw [hpen]) hlims (by omega) hi h1 h2
    simp only [sampLoop, e1, Option.bind_eq_bind, Option.bind_some]
    cases more2 with
    | true =>
      simp only [if_true]
      obtain ⟨g1, g2⟩ := e2 rfl
      exact ih s2 (by omega) fun _ => by
        rw [show lim.maxLen - m = lim.maxLen - (m + 1) + 1 by omega]; exact g2
    | false => exact ⟨s2, rfl⟩

end

/-! ### C61 -/

/-- **Sampling.** Whatever the model, the processors and the draws: if no exception is raised, there are
exactly `num_gens` sequences for every prompt, every one of them well formed. -/
theorem C61_sequences_partial (V : Nat) (c : Settings) (ops : Ops) (p : Prompts) (hp : GoodPrompts V p)
    (ho : GoodOps V ops) (hpen : 0 ≤ c.unkPenalty) (hgens : 1 ≤ c.numGens) (out : List (List (List Int)))
    (h : sampGenerate c ops p = some out) :
    out.length = p.rows.length ∧ ∀ i < p.rows.length, ∃ hs, out[i]? = some hs ∧ hs.length = c.numGens ∧
      ∀ hyp ∈ hs, GoodHypothesis V c ops p i hyp := by
  simp only [sampGenerate, Option.bind_eq_bind, Option.bind_eq_some_iff] at h
  obtain ⟨lim, hl, s, hs, s', hloop, h⟩ := h
  cases h
  obtain ⟨s0, h0, hinv⟩ := init_ok (ops := ops) hp hl
  rw [hs] at h0
  cases h0
  obtain ⟨hl1, hl2, hl3, hl4, hl5, hl6, hl7⟩ := limits_spec hp hl
  obtain ⟨d1, d2, d3⟩ := loop_ok hp ho hpen hl (lim.maxLen - lim.minPrompt) s s' (by omega) (by omega)
    (by rw [show lim.maxLen - (lim.maxLen - lim.minPrompt) = lim.minPrompt by omega]; exact hinv) hloop
  refine ⟨d1, fun i hi => ?_⟩
  have hio : i < s'.output.length := by omega
  have e := getD_of (d := []) (List.getElem?_eq_getElem hio)
  refine ⟨_, List.getElem?_eq_getElem hio, ?_, ?_⟩
  · rw [← e, d2 i hi]; omega
  · rw [← e]; exact d3 i


/-- **Generation goes through.** No exception is raised as long as the longest prompt is shorter than the
largest sequence length, the settings are valid and there is always something to choose. -/
theorem C61_total (V : Nat) (c : Settings) (ops : Ops) (p : Prompts) (hp : GoodPrompts V p)
    (ho : GoodOps V ops) (hlive : LiveOps V c ops) (hpen : c.unkPenalty = 0) (heos : c.eos < V)
    (hpad : ∀ k, c.pad = some k → k < V) (hunk : ∀ k, c.unk = some k → k < V) (hmin : 1 ≤ c.minGen)
    (hmax : c.minGen ≤ c.maxGen) (hlen : p.maxLen < c.maxSeq) : ∃ out, sampGenerate c ops p = some out := by
  have hl : ∃ lim, limits c p = some lim := by
    unfold limits
    rw [if_neg (by omega), if_neg (by omega), if_neg (by omega), if_neg (by omega)]
    exact ⟨_, rfl⟩
  obtain ⟨lim, hl⟩ := hl
  obtain ⟨hl1, hl2, hl3, hl4, hl5, hl6, hl7⟩ := limits_spec hp hl
  obtain ⟨s0, h0, hinv⟩ := init_ok (ops := ops) hp hl
  obtain ⟨s', hs'⟩ := loop_total hp ho hlive hpen heos hpad hunk hl (lim.maxLen - lim.minPrompt) s0 (by omega)
    fun _ => by rw [show lim.maxLen - (lim.maxLen - lim.minPrompt) = lim.minPrompt by omega]; exact hinv
  exact ⟨s'.output, by simp [sampGenerate, hl, h0, hs']⟩

/-- **Length of the generated part.** After a prompt of the largest length at most `max_gen_len` tokens are
generated (EOS included), and at least `min_gen_len` unless the largest sequence length is reached. -/
theorem C61_length (V : Nat) (c : Settings) (ops : Ops) (p : Prompts) (i : Nat) (hyp : List Int)
    (h : GoodHypothesis V c ops p i hyp) (hmax : (promptAt p i).length = p.maxLen) (hecho : c.echo = false) :
    hyp.length ≤ c.maxGen ∧ p.maxLen + hyp.length ≤ c.maxSeq ∧
      (c.minGen ≤ hyp.length ∨ p.maxLen + hyp.length = c.maxSeq) := by
  obtain ⟨body, h1, -, -, -, -, h2, h3⟩ := h.shape
  simp only [hecho, Bool.false_eq_true, if_false, List.nil_append] at h1
  have hl : hyp.length = body.length + 1 := by rw [h1]; simp
  rw [List.length_append] at h2 h3
  unfold lengthLimit at h2
  omega

/-- A generator of four tokens: 0 is padding, 1 ends the sequence, the others are equally probable; the
first token with a positive probability is drawn. -/
private def toyOps : Ops where
  lm := fun _ seqs => some (seqs.map fun _ => [1/4, 1/4, 1/4, 1/4])
  process := fun _ _ probs => some probs
  sample := fun _ _ ws => ws.findIdx? fun w => decide (0 < w)
  junk := fun _ _ => 7

private def toySettings : Settings where
  eos := 3
  pad := some 0
  unk := none
  numGens := 2
  minGen := 1
  maxGen := 2
  maxSeq := 10
  echo := true
  unkPenalty := 0

private def toyPrompts : Prompts where
  width := 3
  rows := [[2, 1, 2], [1, 0, 0]]
  lens := [3, 1]

private theorem toy_sample (n r : Nat) (ws : List ℚ) (t : Nat) (h : toyOps.sample n r ws = some t) :
    ∃ w, ws[t]? = some w ∧ 0 < w := by
  simp only [toyOps] at h
  obtain ⟨h1, h2, -⟩ := List.findIdx?_eq_some_iff_getElem.mp h
  exact ⟨_, List.getElem?_eq_getElem h1, by simpa using h2⟩

private theorem toy_good : GoodOps 4 toyOps := by
  refine ⟨?_, ?_, toy_sample⟩
  · intro src seqs out _ h
    simp only [toyOps, Option.some.injEq] at h
    subst h
    simp
  · intro n seqs probs out h1 h2
    simp only [toyOps, Option.some.injEq] at h2
    subst h2
    exact ⟨rfl, h1⟩

private theorem toy_prompts : GoodPrompts 4 toyPrompts := by
  refine ⟨by simp [toyPrompts], rfl, by simp [toyPrompts], by simp [toyPrompts], ?_⟩
  intro i t ht
  match i with
  | 0 => simp [toyPrompts, promptAt] at ht; omega
  | 1 => simp [toyPrompts, promptAt] at ht; omega
  | i + 2 => simp [toyPrompts, promptAt] at ht

private theorem toy_live : LiveOps 4 toySettings toyOps := by
  refine ⟨?_, ?_⟩
  · intro src seqs _
    refine ⟨_, rfl, fun n _ => ⟨_, rfl, ?_⟩⟩
    intro q hq
    obtain ⟨_, _, rfl⟩ := List.mem_map.mp hq
    refine ⟨by simp, 1, 1/4, rfl, by norm_num, by decide, by decide, by decide⟩
  · intro n r ws _ ⟨w, hw, hpos⟩
    simp only [toyOps]
    cases h : ws.findIdx? fun w => decide (0 < w) with
    | some t => exact ⟨t, rfl⟩
    | none =>
      rw [List.findIdx?_eq_none_iff] at h
      have := h w hw
      simp [hpos] at this

/-- Non-vacuity: two prompts of different lengths, two sequences each. -/
example : ∃ out, sampGenerate toySettings toyOps toyPrompts = some out ∧ out.length = 2 := by
  obtain ⟨out, h⟩ := C61_total 4 toySettings toyOps toyPrompts toy_prompts toy_good toy_live rfl (by decide)
    (by simp [toySettings]) (by simp [toySettings]) (by decide) (by decide) (by decide)
  exact ⟨out, h, (C61_sequences_partial 4 _ _ _ toy_prompts toy_good (by simp [toySettings]) (by decide) out h).1⟩

/-- **More than `max_gen_len`.** The limit is counted from the end of the longest prompt: with
`max_gen_len = 2` a prompt of length one beside a prompt of length three gets four tokens. -/
theorem C61_short_prompt : ∃ hyps, sampGenerate { toySettings with echo := false } toyOps toyPrompts =
    some [[[1, 3], [1, 3]], hyps] ∧ ∀ h ∈ hyps, h = [1, 1, 1, 3] := by
  exact ⟨[[1, 1, 1, 3], [1, 1, 1, 3]], by decide +kernel, by simp⟩

/-- **No generation at all requested.** `num_gens = 0` is not rejected and gives one sequence per prompt. -/
theorem C61_zero_gens : ∃ h h', sampGenerate { toySettings with numGens := 0 } toyOps toyPrompts =
    some [[h], [h']] := ⟨[2, 1, 2, 1, 3], [1, 1, 1, 1, 3], by decide +kernel⟩

/-! ### C57 and C58 for generated sequences -/

private theorem put_shape {V : Nat} (probs out : List (List ℚ)) (rt : Nat × Int)
    (hV : ∀ q ∈ probs, q.length = V) (h : put 0 probs rt = some out) :
    out.length = probs.length ∧ ∀ q ∈ out, q.length = V := by
  simp only [put, Option.bind_eq_bind, Option.bind_eq_some_iff] at h
  obtain ⟨row, h1, k, h2, h3⟩ := h
  cases h3
  refine ⟨by simp, fun q hq => ?_⟩
  rcases List.mem_or_eq_of_mem_set hq with h | h
  · exact hV q h
  · rw [h, List.length_set]; exact hV row (List.mem_of_getElem? h1)

private theorem fold_shape {β : Type} {V : Nat} (f : List (List ℚ) → β → Option (List (List ℚ)))
    (hf : ∀ probs out x, (∀ q ∈ probs, q.length = V) → f probs x = some out →
      out.length = probs.length ∧ ∀ q ∈ out, q.length = V)
    (xs : List β) (probs out : List (List ℚ)) (hV : ∀ q ∈ probs, q.length = V)
    (h : xs.foldlM f probs = some out) : out.length = probs.length ∧ ∀ q ∈ out, q.length = V := by
  induction xs generalizing probs with
  | nil => cases h; exact ⟨rfl, hV⟩
  | cons x xs ih =>
    rw [List.foldlM_cons, Option.bind_eq_bind, Option.bind_eq_some_iff] at h
    obtain ⟨p1, h1, h2⟩ := h
    obtain ⟨a1, a2⟩ := hf _ _ _ hV h1
    obtain ⟨b1, b2⟩ := ih p1 a2 h2
    exact ⟨by omega, b2⟩

private theorem putAll_shape {V : Nat} (probs out : List (List ℚ)) (pairs : List (Nat × Int))
    (hV : ∀ q ∈ probs, q.length = V) (h : putAll 0 probs pairs = some out) :
    out.length = probs.length ∧ ∀ q ∈ out, q.length = V :=
  fold_shape (put 0) (fun p o x => put_shape p o x) pairs probs out hV h

private theorem ngram_shape {V : Nat} (n len : Nat) (seqs : List (List Int)) (probs out : List (List ℚ))
    (hV : ∀ q ∈ probs, q.length = V) (h : ngramBlocking n 0 len seqs probs = some out) :
    out.length = probs.length ∧ ∀ q ∈ out, q.length = V := by
  simp only [ngramBlocking, Option.bind_eq_some_iff] at h
  obtain ⟨m, -, h⟩ := h
  unfold ngramCall at h
  simp only at h
  split at h
  · cases h; exact ⟨rfl, hV⟩
  · split at h
    · exact putAll_shape _ _ _ hV h
    · exact fold_shape _ (fun p o x => putAll_shape p o _) _ _ _ hV h

private theorem banning_shape {V : Nat} (banned : List (List Int)) (len : Nat) (seqs : List (List Int))
    (probs out : List (List ℚ)) (hV : ∀ q ∈ probs, q.length = V)
    (h : banning banned 0 len seqs probs = some out) :
    out.length = probs.length ∧ ∀ q ∈ out, q.length = V := by
  simp only [banning, Option.bind_eq_some_iff] at h
  obtain ⟨b, -, h⟩ := h
  unfold bannedCall at h
  split at h
  · cases h; exact ⟨rfl, hV⟩
  · simp only at h
    split at h
    · exact putAll_shape _ _ _ hV h
    · exact putAll_shape _ _ _ hV h

/-- **No repeated n-gram.** When sampling with `NGramRepeatBlockProcessor(n)`, two equal n-grams of a
returned sequence are within the prompt, or the second one is ended by the EOS that is forced at the length
limit. -/
theorem C57_generated_partial (V n : Nat) (hn : n ≠ 0) (c : Settings) (ops : Ops) (p : Prompts)
    (hp : GoodPrompts V p) (hproc : ops.process = ngramBlocking n 0)
    (hlm : ∀ src seqs out, src.length = seqs.length → ops.lm src seqs = some out →
      out.length = seqs.length ∧ ∀ q ∈ out, q.length = V)
    (hsample : ∀ (n r : Nat) (ws : List ℚ) (t : Nat), ops.sample n r ws = some t → ∃ w, ws[t]? = some w ∧ 0 < w)
    (hpen : 0 ≤ c.unkPenalty) (hgens : 1 ≤ c.numGens) (hecho : c.echo = true)
    (out : List (List (List Int))) (h : sampGenerate c ops p = some out) (i : Nat) (hyps : List (List Int))
    (hi : out[i]? = some hyps) (s : List Int) (hs : s ∈ hyps) (a b : Nat) (hab : a < b)
    (hb : b + n ≤ s.length) (heq : (s.drop a).take n = (s.drop b).take n) :
    b + n ≤ (promptAt p i).length ∨ (b + n = s.length ∧ s.length = lengthLimit c p) := by
  have ho : GoodOps V ops := ⟨hlm, by rw [hproc]; exact ngram_shape n, hsample⟩
  obtain ⟨h1, h2⟩ := C61_sequences_partial V c ops p hp ho hpen hgens out h
  obtain ⟨hyps', e1, -, e3⟩ := h2 i (by rw [← h1]; exact (List.getElem?_eq_some_iff.mp hi).1)
  rw [hi] at e1
  cases e1
  obtain ⟨body, g1, -, -, g4, g5, g6, -⟩ := (e3 s hs).shape
  rw [hecho, if_pos rfl] at g1
  rw [hproc] at g4 g5
  have hlen : s.length = (promptAt p i ++ body).length + 1 := by
    rw [g1, List.length_append, List.length_singleton]
  by_cases hin : b + n ≤ (promptAt p i ++ body).length
  · left
    have hcut : ∀ k, k + n ≤ (promptAt p i ++ body).length →
        (s.drop k).take n = ((promptAt p i ++ body).drop k).take n := by
      intro k hk
      rw [g1, List.drop_append_of_le_length (by omega), List.take_append_of_le_length (by
        rw [List.length_drop]; omega)]
    rw [hcut a (by omega), hcut b hin] at heq
    exact C57_never V n hn 0 _ _ g4 a b hab hin heq
  · by_cases hlim : s.length = lengthLimit c p
    · exact Or.inr ⟨by omega, hlim⟩
    · left
      have := C57_never V n hn (0 : ℚ) (promptAt p i) s (by
        rw [g1]
        exact .step _ _ g4 (g5 (by omega))) a b hab hb heq
      exact this

/-- **No banned sequence.** When sampling with `BannedSequenceProcessor`, a banned sequence that occurs in a
returned sequence is within the prompt, or it is ended by the EOS that is forced at the length limit. -/
theorem C58_generated_partial (V : Nat) (banned : List (List Int)) (hne : ∀ b ∈ banned, b ≠ [])
    (htok : ∀ b ∈ banned, ∀ t ∈ b, 0 ≤ t ∧ t < (V : Int)) (c : Settings) (ops : Ops) (p : Prompts)
    (hp : GoodPrompts V p) (hproc : ops.process = banning banned 0)
    (hlm : ∀ src seqs out, src.length = seqs.length → ops.lm src seqs = some out →
      out.length = seqs.length ∧ ∀ q ∈ out, q.length = V)
    (hsample : ∀ (n r : Nat) (ws : List ℚ) (t : Nat), ops.sample n r ws = some t → ∃ w, ws[t]? = some w ∧ 0 < w)
    (hpen : 0 ≤ c.unkPenalty) (hgens : 1 ≤ c.numGens) (hecho : c.echo = true)
    (out : List (List (List Int))) (h : sampGenerate c ops p = some out) (i : Nat) (hyps : List (List Int))
    (hi : out[i]? = some hyps) (s : List Int) (hs : s ∈ hyps) (b : List Int) (hb : b ∈ banned)
    (x y : List Int) (hocc : s = x ++ b ++ y) :
    (x ++ b).length ≤ (promptAt p i).length ∨ (y = [] ∧ s.length = lengthLimit c p) := by
  have ho : GoodOps V ops := ⟨hlm, by rw [hproc]; exact banning_shape banned, hsample⟩
  obtain ⟨h1, h2⟩ := C61_sequences_partial V c ops p hp ho hpen hgens out h
  obtain ⟨hyps', e1, -, e3⟩ := h2 i (by rw [← h1]; exact (List.getElem?_eq_some_iff.mp hi).1)
  rw [hi] at e1
  cases e1
  obtain ⟨body, g1, -, -, g4, g5, g6, -⟩ := (e3 s hs).shape
  rw [hecho, if_pos rfl] at g1
  rw [hproc] at g4 g5
  have hlen : s.length = (promptAt p i ++ body).length + 1 := by
    rw [g1, List.length_append, List.length_singleton]
  rcases List.eq_nil_or_concat y with rfl | ⟨y', u, rfl⟩
  · by_cases hlim : s.length = lengthLimit c p
    · exact Or.inr ⟨rfl, hlim⟩
    · left
      obtain ⟨y', hy⟩ := C58_never V banned hne htok (0 : ℚ) (promptAt p i) s (by
        rw [g1]
        exact .step _ _ g4 (g5 (by omega))) b hb x [] hocc
      rw [hy]
      simp
  · left
    rw [List.concat_eq_append, ← List.append_assoc, g1] at hocc
    obtain ⟨h3, -⟩ := List.append_inj' hocc rfl
    obtain ⟨y'', hy⟩ := C58_never V banned hne htok 0 (promptAt p i) _ g4 b hb x y' h3
    rw [hy]
    simp

/-- **The forced EOS.** At the length limit EOS is appended whatever the step processors say: a banned EOS
appears, and with unigrams blocked a token is repeated. -/
theorem C58_forced_eos :
    sampGenerate { toySettings with numGens := 1 } { toyOps with process := banning [[3]] 0 }
      { width := 1, rows := [[1]], lens := [1] } = some [[[1, 1, 3]]] := by decide +kernel

/-- See `C58_forced_eos`. -/
theorem C57_forced_eos :
    sampGenerate { toySettings with numGens := 1 } { toyOps with process := ngramBlocking 1 0 }
      { width := 2, rows := [[3, 1]], lens := [2] } = some [[[3, 1, 2, 3]]] := by decide +kernel

/-- Non-vacuity: the hypotheses are those of the generator above with the processors, e.g. -/
example : sampGenerate { toySettings with numGens := 1, maxGen := 4 } { toyOps with process := ngramBlocking 1 0 }
    { width := 1, rows := [[1]], lens := [1] } = some [[[1, 2, 3]]] := by decide +kernel

end Fs2.Props
